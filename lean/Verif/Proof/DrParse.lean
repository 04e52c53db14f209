import Verif.Spec.DrGrammar
import Mathlib.Logic.Relation

/-! # The `dr` parser reads what the grammar says -/

namespace Verif.Proof.DrParse
open Verif Verif.Model Verif.Model.Dr Verif.Model.DrParse Verif.Spec.DrGrammar

/-- Steps of the parser. -/
abbrev Steps : Config → Config → Prop := Relation.ReflTransGen fun c c' => step c = some c'

theorem step_reduce {σ σ' ts} (h : reduce ts.head? σ = some σ') : step (σ, ts) = some (σ', ts) := by
  unfold step
  simp only [h]

theorem step_shift {σ t ts} (h : reduce (some t) σ = none) (hc : canShift σ t = true) :
    step (σ, t :: ts) = some (shift σ t, ts) := by
  unfold step
  simp only [List.head?_cons, h, hc, if_true]

/-- The next symbol is the first of an expression or formula. -/
def Open : List Sym → Prop
  | [] => True
  | .tok .rp :: _ => False
  | .tok (.fn1 _) :: _ => False
  | .tok (.fn2 _) :: _ => False
  | .tok _ :: _ => True
  | _ => False

theorem open_reduce {σ la} (h : Open σ) : reduce la σ = none := by
  match σ, h with
  | [], _ => rfl
  | .tok t :: σ, h => cases t <;> first | rfl | exact h.elim

theorem open_shift {σ t} (h : Open σ) : canShift σ t = match t with
    | .num _ | .id _ | .fn1 _ | .fn2 _ | .lp | .minus | .not => true
    | _ => false := by
  match σ, h with
  | [], _ => rfl
  | .tok _ :: σ, h => rfl

/-- Before an expression of the level. -/
def Pre : Lvl → List Sym → Prop
  | .sum, σ => ∀ e, reduce (some .plus) (.ex e :: σ) = none ∧
      reduce (some .minus) (.ex e :: σ) = none ∧
      reduce (some .times) (.ex e :: σ) = none ∧ reduce (some .div) (.ex e :: σ) = none
  | .prod, σ => ∀ e, reduce (some .times) (.ex e :: σ) = none ∧
      reduce (some .div) (.ex e :: σ) = none
  | _, _ => True

/-- After an expression of the level. -/
def Post : Lvl → Option Tok → Prop
  | .sum, la => la ≠ some .times ∧ la ≠ some .div ∧ la ≠ some .caret
  | .atom, _ => True
  | _, la => la ≠ some .caret

theorem reducesE_low {la : Option Tok} (h : Post .sum la) {n : Nat} (hn : 2 ≤ n) :
    reducesE (some (n, .left)) la = true := by
  cases la with
  | none => rfl
  | some t =>
    cases t <;> simp_all [Post, reducesE, binary, resolve, declared] <;> omega

theorem reducesE_mid {la : Option Tok} (h : la ≠ some .caret) {n : Nat} (hn : 3 ≤ n) {a}
    (ha : n = 3 → a = .left) : reducesE (some (n, a)) la = true := by
  cases la with
  | none => rfl
  | some t =>
    cases t <;> simp_all [reducesE, binary, resolve, declared] <;> omega

theorem caret_shifts (e : DExpr) : ∀ σ, reduce (some .caret) (.ex e :: σ) = none
  | [] => rfl
  | .ex _ :: _ => rfl
  | .fm _ :: _ => rfl
  | .tok t :: .ex a :: σ => by cases t <;> rfl
  | .tok t :: [] => by cases t <;> rfl
  | .tok t :: .tok _ :: σ => by cases t <;> rfl
  | .tok t :: .fm _ :: σ => by cases t <;> rfl

theorem neg_reduce {σ a la} (h : Open σ) (hl : la ≠ some .caret) :
    reduce la (.ex a :: .tok .minus :: σ) = some (.ex (.neg a) :: σ) := by
  have hr : reducesE (some uminus) la = true := reducesE_mid hl (by decide) (by decide)
  match σ, h with
  | [], _ => simp [reduce, hr]
  | .tok t :: σ, h => simp [reduce, hr]

theorem bin_reduce {σ a b la o k} (ho : binary o = some k) (hr : reducesE (declared o) la = true) :
    reduce la (.ex b :: .tok o :: .ex a :: σ) = some (.ex (k a b) :: σ) := by
  simp [reduce, ho, hr]

theorem reads_complete {L ts e} (h : Reads L ts e) : ∀ {σ rest}, Open σ → Pre L σ →
    Post L rest.head? → Steps (σ, ts ++ rest) (.ex e :: σ, rest) := by
  induction h with
  | num q =>
    intro σ rest ho _ _
    exact .single (step_shift (open_reduce ho) (by rw [open_shift ho]))
  | id n =>
    intro σ rest ho _ _
    exact .single (step_shift (open_reduce ho) (by rw [open_shift ho]))
  | @paren ts e _ ih =>
    intro σ rest ho _ _
    simp only [List.singleton_append, List.cons_append, List.append_assoc, List.nil_append]
    refine .head (step_shift (open_reduce ho) (by rw [open_shift ho])) ?_
    refine .trans (ih (σ := .tok .lp :: σ) trivial (fun e => ⟨?_, ?_, ?_, ?_⟩) (by simp [Post])) ?_
    · cases σ with
      | nil => rfl
      | cons s σ => cases s <;> rfl
    · cases σ with
      | nil => rfl
      | cons s σ => cases s <;> rfl
    · cases σ with
      | nil => rfl
      | cons s σ => cases s <;> rfl
    · cases σ with
      | nil => rfl
      | cons s σ => cases s <;> rfl
    refine .head (step_shift (t := .rp) ?_ rfl) (.single (step_reduce ?_))
    · cases σ with
      | nil => rfl
      | cons s σ => cases s <;> rfl
    · match σ, ho with
      | [], _ => rfl
      | .tok t :: σ, ho => cases t <;> first | rfl | exact ho.elim
  | @fn1 ts e f _ ih =>
    intro σ rest ho _ _
    simp only [List.cons_append, List.append_assoc, List.nil_append]
    refine .head (step_shift (open_reduce ho) (by rw [open_shift ho])) ?_
    refine .head (step_shift (t := .lp) rfl rfl) ?_
    refine .trans (ih (σ := .tok .lp :: .tok (.fn1 f) :: σ) trivial (fun e => ⟨rfl, rfl, rfl, rfl⟩)
      (by simp [Post])) ?_
    exact .head (step_shift (t := .rp) rfl rfl) (.single (step_reduce rfl))
  | @fn2 ts us a b f _ _ ih1 ih2 =>
    intro σ rest ho _ _
    simp only [List.cons_append, List.append_assoc, List.nil_append]
    refine .head (step_shift (open_reduce ho) (by rw [open_shift ho])) ?_
    refine .head (step_shift (t := .lp) rfl rfl) ?_
    refine .trans (ih1 (σ := .tok .lp :: .tok (.fn2 f) :: σ) trivial
      (fun e => ⟨rfl, rfl, rfl, rfl⟩) (by simp [Post])) ?_
    refine .head (step_shift (t := .comma) rfl rfl) ?_
    refine .trans (ih2 (σ := .tok .comma :: .ex a :: .tok .lp :: .tok (.fn2 f) :: σ) trivial
      (fun e => ⟨rfl, rfl, rfl, rfl⟩) (by simp [Post])) ?_
    exact .head (step_shift (t := .rp) rfl rfl) (.single (step_reduce rfl))
  | @power ts us a b _ _ ih1 ih2 =>
    intro σ rest ho _ hp
    simp only [List.cons_append, List.append_assoc, List.nil_append]
    refine .trans (ih1 ho trivial trivial) ?_
    refine .head (step_shift (caret_shifts a σ) rfl) ?_
    refine .trans (ih2 (σ := .tok .caret :: .ex a :: σ) trivial trivial hp) ?_
    exact .single (step_reduce (bin_reduce rfl (reducesE_mid hp (by decide) (by decide))))
  | @neg ts a _ ih =>
    intro σ rest ho _ hp
    simp only [List.cons_append, List.nil_append]
    refine .head (step_shift (open_reduce ho) (by rw [open_shift ho])) ?_
    refine .trans (ih (σ := .tok .minus :: σ) trivial trivial hp) ?_
    exact .single (step_reduce (neg_reduce ho hp))
  | @mul ts us a b _ _ ih1 ih2 =>
    intro σ rest ho hpre hp
    simp only [List.cons_append, List.append_assoc, List.nil_append]
    refine .trans (ih1 ho hpre (by simp [Post])) ?_
    refine .head (step_shift (hpre a).1 rfl) ?_
    refine .trans (ih2 (σ := .tok .times :: .ex a :: σ) trivial trivial hp) ?_
    exact .single (step_reduce (bin_reduce rfl (reducesE_mid hp (by decide) (by decide))))
  | @div ts us a b _ _ ih1 ih2 =>
    intro σ rest ho hpre hp
    simp only [List.cons_append, List.append_assoc, List.nil_append]
    refine .trans (ih1 ho hpre (by simp [Post])) ?_
    refine .head (step_shift (hpre a).2 rfl) ?_
    refine .trans (ih2 (σ := .tok .div :: .ex a :: σ) trivial trivial hp) ?_
    exact .single (step_reduce (bin_reduce rfl (reducesE_mid hp (by decide) (by decide))))
  | @add ts us a b _ _ ih1 ih2 =>
    intro σ rest ho hpre hp
    simp only [List.cons_append, List.append_assoc, List.nil_append]
    refine .trans (ih1 ho hpre (by simp [Post])) ?_
    refine .head (step_shift (hpre a).1 rfl) ?_
    refine .trans (ih2 (σ := .tok .plus :: .ex a :: σ) trivial (fun e => ⟨rfl, rfl⟩) hp.2.2) ?_
    exact .single (step_reduce (bin_reduce rfl (reducesE_low hp (by decide))))
  | @sub ts us a b _ _ ih1 ih2 =>
    intro σ rest ho hpre hp
    simp only [List.cons_append, List.append_assoc, List.nil_append]
    refine .trans (ih1 ho hpre (by simp [Post])) ?_
    refine .head (step_shift (hpre a).2.1 rfl) ?_
    refine .trans (ih2 (σ := .tok .minus :: .ex a :: σ) trivial (fun e => ⟨rfl, rfl⟩) hp.2.2) ?_
    exact .single (step_reduce (bin_reduce rfl (reducesE_low hp (by decide))))
  | atom _ ih => intro σ rest ho _ _; exact ih ho trivial trivial
  | pow _ ih => intro σ rest ho _ hp; exact ih ho trivial hp
  | sgn _ ih => intro σ rest ho _ hp; exact ih ho trivial hp
  | prod _ ih => intro σ rest ho hpre hp; exact ih ho (fun e => (hpre e).2.2) hp.2.2

/-! ## Formulas -/

/-- Before a formula of the level. -/
def PreF : FLvl → List Sym → Prop
  | .imp, σ => ∀ f, reduce (some .implies) (.fm f :: σ) = none ∧
      reduce (some .or) (.fm f :: σ) = none ∧ reduce (some .and) (.fm f :: σ) = none
  | .or, σ => ∀ f, reduce (some .or) (.fm f :: σ) = none ∧ reduce (some .and) (.fm f :: σ) = none
  | .and, σ => ∀ f, reduce (some .and) (.fm f :: σ) = none
  | .unit, _ => True

/-- After a formula of the level: not a token that continues its last expression either. -/
def PostF : FLvl → Option Tok → Prop
  | .imp, la => la.bind binary = none ∧ la.bind connective = none
  | .or, la => la.bind binary = none ∧ la ≠ some .and
  | _, la => la.bind binary = none

/-- No expression is being read. -/
def Free (σ : List Sym) : Prop := ∀ la e, reduce la (.ex e :: σ) = none

theorem free_nil : Free [] := fun _ _ => rfl

theorem free_tok {t σ} (ht : t = .lp ∨ t = .not ∨ t = .and ∨ t = .or ∨ t = .implies) :
    Free (.tok t :: σ) := by
  intro la e
  rcases ht with rfl | rfl | rfl | rfl | rfl <;>
  · cases σ with
    | nil => rfl
    | cons s σ => cases s <;> rfl

theorem post_sum {la : Option Tok} (h : la.bind binary = none) : Post .sum la := by
  refine ⟨?_, ?_, ?_⟩ <;> rintro rfl <;> simp [binary] at h

theorem reducesF_not (la : Option Tok) : reducesF (declared .not) la = true := by
  cases la with
  | none => rfl
  | some t => cases t <;> rfl

theorem reducesF_and (la : Option Tok) : reducesF (declared .and) la = true := by
  cases la with
  | none => rfl
  | some t => cases t <;> rfl

theorem reducesF_or {la : Option Tok} (h : la ≠ some .and) : reducesF (declared .or) la = true := by
  cases la with
  | none => rfl
  | some t => cases t <;> first | rfl | exact absurd rfl h

theorem reducesF_imp {la : Option Tok} (h : la.bind connective = none) :
    reducesF (declared .implies) la = true := by
  cases la with
  | none => rfl
  | some t =>
    simp only [Option.bind_some] at h
    simp [reducesF, h]

theorem not_reduce {σ f la} (h : Open σ) :
    reduce la (.fm f :: .tok .not :: σ) = some (.fm (.not f) :: σ) := by
  have hr := reducesF_not la
  match σ, h with
  | [], _ => simp [reduce, hr]
  | .tok t :: σ, h => simp [reduce, hr]

theorem conn_reduce {σ f g la o k} (ho : connective o = some k)
    (hr : reducesF (declared o) la = true) :
    reduce la (.fm g :: .tok o :: .fm f :: σ) = some (.fm (k f g) :: σ) := by
  simp [reduce, ho, hr]

theorem relTok_relation (o : DRel) : relation (relTok o) = some o := by cases o <;> rfl

theorem relTok_binary (o : DRel) : binary (relTok o) = none := by cases o <;> rfl

theorem readsF_complete {L ts f} (h : ReadsF L ts f) : ∀ {σ rest}, Open σ → Free σ → PreF L σ →
    PostF L rest.head? → Steps (σ, ts ++ rest) (.fm f :: σ, rest) := by
  induction h with
  | @rel ts us a b o h1 h2 =>
    intro σ rest ho hf _ hp
    have hp : rest.head?.bind binary = none := hp
    simp only [List.cons_append, List.append_assoc, List.nil_append]
    refine .trans (reads_complete h1 ho (fun e => ⟨hf _ _, hf _ _, hf _ _, hf _ _⟩)
      (by cases o <;> simp [Post, relTok])) ?_
    have hs : shift (.ex a :: σ) (relTok o) = .tok (relTok o) :: .ex a :: σ := by cases o <;> rfl
    refine .head (step_shift (hf _ _) (by simp [canShift, relTok_relation])) ?_
    rw [hs]
    refine .trans (reads_complete h2 (σ := .tok (relTok o) :: .ex a :: σ) (by cases o <;> trivial)
      (fun e => by cases o <;> exact ⟨rfl, rfl, rfl, rfl⟩) (post_sum hp)) ?_
    exact .single (step_reduce (by simp [reduce, relTok_relation, relTok_binary, hp]))
  | @paren ts f _ ih =>
    intro σ rest ho hf _ hp
    simp only [List.cons_append, List.append_assoc, List.nil_append]
    refine .head (step_shift (open_reduce ho) (by rw [open_shift ho])) ?_
    refine .trans (ih (σ := .tok .lp :: σ) trivial (free_tok (.inl rfl)) (fun g => ?_)
      ⟨rfl, rfl⟩) ?_
    · cases σ with
      | nil => exact ⟨rfl, rfl, rfl⟩
      | cons s σ => cases s <;> exact ⟨rfl, rfl, rfl⟩
    refine .head (step_shift (t := .rp) ?_ rfl) (.single (step_reduce rfl))
    cases σ with
    | nil => rfl
    | cons s σ => cases s <;> rfl
  | @not ts f _ ih =>
    intro σ rest ho hf _ hp
    simp only [List.cons_append, List.nil_append]
    refine .head (step_shift (open_reduce ho) (by rw [open_shift ho])) ?_
    refine .trans (ih (σ := .tok .not :: σ) trivial (free_tok (by simp)) trivial hp) ?_
    exact .single (step_reduce (not_reduce ho))
  | @conj ts us f g _ _ ih1 ih2 =>
    intro σ rest ho hf hpre hp
    simp only [List.cons_append, List.append_assoc, List.nil_append]
    refine .trans (ih1 ho hf hpre rfl) ?_
    refine .head (step_shift (hpre f) rfl) ?_
    refine .trans (ih2 (σ := .tok .and :: .fm f :: σ) trivial (free_tok (by simp)) trivial hp) ?_
    exact .single (step_reduce (conn_reduce rfl (reducesF_and _)))
  | @disj ts us f g _ _ ih1 ih2 =>
    intro σ rest ho hf hpre hp
    simp only [List.cons_append, List.append_assoc, List.nil_append]
    refine .trans (ih1 ho hf hpre ⟨rfl, by simp⟩) ?_
    refine .head (step_shift (hpre f).1 rfl) ?_
    refine .trans (ih2 (σ := .tok .or :: .fm f :: σ) trivial (free_tok (by simp)) (fun _ => rfl)
      hp.1) ?_
    exact .single (step_reduce (conn_reduce rfl (reducesF_or hp.2)))
  | @impl ts us f g _ _ ih1 ih2 =>
    intro σ rest ho hf hpre hp
    simp only [List.cons_append, List.append_assoc, List.nil_append]
    refine .trans (ih1 ho hf (fun g => (hpre g).2) ⟨rfl, by simp⟩) ?_
    refine .head (step_shift (hpre f).1 rfl) ?_
    refine .trans (ih2 (σ := .tok .implies :: .fm f :: σ) trivial (free_tok (by simp))
      (fun _ => ⟨rfl, rfl, rfl⟩) hp) ?_
    exact .single (step_reduce (conn_reduce rfl (reducesF_imp hp.2)))
  | unit _ ih => intro σ rest ho hf _ hp; exact ih ho hf trivial hp
  | and _ ih => intro σ rest ho hf hpre hp; exact ih ho hf (fun g => (hpre g).2) hp.1
  | or _ ih =>
    intro σ rest ho hf hpre hp
    refine ih ho hf (fun g => (hpre g).2) ⟨hp.1, fun h => ?_⟩
    have hc := hp.2
    rw [h] at hc
    cases hc

/-! ## What is on the stack -/

/-- What an expression on the stack is known to be. -/
def EOk (la : Option Tok) (σ : List Sym) (vs : List Tok) (e : DExpr) : Prop :=
  Reads .sum vs e ∧
  (la = some .times ∨ la = some .div → Reads .prod vs e) ∧
  (la = some .caret → Reads .atom vs e) ∧
  (∀ a σ', σ = .tok .plus :: .ex a :: σ' ∨ σ = .tok .minus :: .ex a :: σ' → Reads .prod vs e) ∧
  (∀ o a σ', o = .times ∨ o = .div ∨ o = .caret → σ = .tok o :: .ex a :: σ' → Reads .signed vs e) ∧
  (∀ σ', (∀ a σ'', σ' ≠ .ex a :: σ'') → σ = .tok .minus :: σ' → Reads .signed vs e)

/-- What a formula on the stack is known to be. -/
def FOk (la : Option Tok) (σ : List Sym) (vs : List Tok) (f : DFml) : Prop :=
  ReadsF .imp vs f ∧
  (la = some .and → ReadsF .and vs f) ∧
  (la = some .or ∨ la = some .implies → ReadsF .or vs f) ∧
  (∀ g σ', σ = .tok .and :: .fm g :: σ' → ReadsF .unit vs f) ∧
  (∀ g σ', σ = .tok .or :: .fm g :: σ' → ReadsF .and vs f) ∧
  (∀ σ', (∀ g σ'', σ' ≠ .fm g :: σ'') → σ = .tok .not :: σ' → ReadsF .unit vs f)

/-- The stack stands for the tokens. -/
def Good : List Sym → Option Tok → List Tok → Prop
  | [], _, ts => ts = []
  | .tok t :: σ, _, ts => ∃ us, ts = us ++ [t] ∧ reduce (some t) σ = none ∧ Good σ (some t) us
  | .ex e :: σ, la, ts => ∃ us vs la', ts = us ++ vs ∧ EOk la σ vs e ∧ Good σ la' us
  | .fm f :: σ, la, ts => ∃ us vs la', ts = us ++ vs ∧ FOk la σ vs f ∧ Good σ la' us

theorem eok_atom {la σ vs e} (h : Reads .atom vs e) : EOk la σ vs e := by
  have hs : Reads .signed vs e := .pow (.atom h)
  exact ⟨.prod (.sgn hs), fun _ => .sgn hs, fun _ => h, fun _ _ _ => .sgn hs, fun _ _ _ _ _ => hs,
    fun _ _ _ => hs⟩

theorem eok_signed {la σ vs e} (h : Reads .signed vs e) (hl : la ≠ some .caret) :
    EOk la σ vs e :=
  ⟨.prod (.sgn h), fun _ => .sgn h, fun h => absurd h hl, fun _ _ _ => .sgn h, fun _ _ _ _ _ => h,
    fun _ _ _ => h⟩

theorem fok_unit {la σ vs f} (h : ReadsF .unit vs f) : FOk la σ vs f :=
  ⟨.or (.and (.unit h)), fun _ => .unit h, fun _ => .and (.unit h), fun _ _ _ => h,
    fun _ _ _ => .unit h, fun _ _ _ => h⟩

theorem not_caret {n a la} (hn : n ≤ 5) (_ : n = 5 → a ≠ .left)
    (h : reducesE (some (n, a)) la = true) : la ≠ some .caret := by
  rintro rfl
  simp [reducesE, binary, resolve, declared] at h
  omega

/-- The reduction of a rule with two parts and a sign of a sum keeps what is known. -/
theorem eok_sum {la σ vs e o a} (ho : o = .plus ∨ o = .minus) (h : Reads .sum vs e)
    (hr : reducesE (declared o) la = true) (hn : reduce (some o) (.ex a :: σ) = none) :
    EOk la σ vs e := by
  refine ⟨h, ?_, ?_, ?_, ?_, ?_⟩
  · rintro (rfl | rfl) <;> rcases ho with rfl | rfl <;> exact absurd hr (by decide)
  · rintro rfl; rcases ho with rfl | rfl <;> exact absurd hr (by decide)
  · rintro b σ' (rfl | rfl) <;> rcases ho with rfl | rfl <;>
      simp [reduce, binary, reducesE, resolve, declared] at hn
  · rintro o' b σ' (rfl | rfl | rfl) rfl <;> rcases ho with rfl | rfl <;>
      simp [reduce, binary, reducesE, resolve, declared] at hn
  · rintro σ' hσ rfl
    rcases ho with rfl | rfl <;>
    · match σ', hσ with
      | [], _ => simp [reduce, binary, reducesE, resolve, declared, uminus] at hn
      | .tok t :: σ', _ => simp [reduce, binary, reducesE, resolve, declared, uminus] at hn
      | .fm t :: σ', _ => simp [reduce, binary, reducesE, resolve, declared, uminus] at hn
      | .ex t :: σ', hσ => exact absurd rfl (hσ t σ')

/-- The same for the signs of a product. -/
theorem eok_prod {la σ vs e o a} (ho : o = .times ∨ o = .div) (h : Reads .prod vs e)
    (hr : reducesE (declared o) la = true) (hn : reduce (some o) (.ex a :: σ) = none) :
    EOk la σ vs e := by
  refine ⟨.prod h, fun _ => h, ?_, fun _ _ _ => h, ?_, ?_⟩
  · rintro rfl; rcases ho with rfl | rfl <;> exact absurd hr (by decide)
  · rintro o' b σ' (rfl | rfl | rfl) rfl <;> rcases ho with rfl | rfl <;>
      simp [reduce, binary, reducesE, resolve, declared] at hn
  · rintro σ' hσ rfl
    rcases ho with rfl | rfl <;>
    · match σ', hσ with
      | [], _ => simp [reduce, binary, reducesE, resolve, declared, uminus] at hn
      | .tok t :: σ', _ => simp [reduce, binary, reducesE, resolve, declared, uminus] at hn
      | .fm t :: σ', _ => simp [reduce, binary, reducesE, resolve, declared, uminus] at hn
      | .ex t :: σ', hσ => exact absurd rfl (hσ t σ')

theorem fok_and {la σ vs f g} (h : ReadsF .and vs f) (hn : reduce (some .and) (.fm g :: σ) = none) :
    FOk la σ vs f := by
  refine ⟨.or (.and h), fun _ => h, fun _ => .and h, ?_, fun _ _ _ => h, ?_⟩
  · rintro b σ' rfl
    simp [reduce, connective, reducesF, resolve, declared] at hn
  · rintro σ' hσ rfl
    match σ', hσ with
    | [], _ => simp [reduce, connective, reducesF, resolve, declared] at hn
    | .tok t :: σ', _ => simp [reduce, connective, reducesF, resolve, declared] at hn
    | .ex t :: σ', _ => simp [reduce, connective, reducesF, resolve, declared] at hn
    | .fm t :: σ', hσ => exact absurd rfl (hσ t σ')

theorem fok_or {la σ vs f g} (h : ReadsF .or vs f) (hr : reducesF (declared .or) la = true)
    (hn : reduce (some .or) (.fm g :: σ) = none) : FOk la σ vs f := by
  refine ⟨.or h, ?_, fun _ => h, ?_, ?_, ?_⟩
  · rintro rfl; exact absurd hr (by decide)
  · rintro b σ' rfl
    simp [reduce, connective, reducesF, resolve, declared] at hn
  · rintro b σ' rfl
    simp [reduce, connective, reducesF, resolve, declared] at hn
  · rintro σ' hσ rfl
    match σ', hσ with
    | [], _ => simp [reduce, connective, reducesF, resolve, declared] at hn
    | .tok t :: σ', _ => simp [reduce, connective, reducesF, resolve, declared] at hn
    | .ex t :: σ', _ => simp [reduce, connective, reducesF, resolve, declared] at hn
    | .fm t :: σ', hσ => exact absurd rfl (hσ t σ')

theorem fok_imp {la σ vs f g} (h : ReadsF .imp vs f) (hr : reducesF (declared .implies) la = true)
    (hn : reduce (some .implies) (.fm g :: σ) = none) : FOk la σ vs f := by
  refine ⟨h, ?_, ?_, ?_, ?_, ?_⟩
  · rintro rfl; exact absurd hr (by decide)
  · rintro (rfl | rfl) <;> exact absurd hr (by decide)
  · rintro b σ' rfl
    simp [reduce, connective, reducesF, resolve, declared] at hn
  · rintro b σ' rfl
    simp [reduce, connective, reducesF, resolve, declared] at hn
  · rintro σ' hσ rfl
    match σ', hσ with
    | [], _ => simp [reduce, connective, reducesF, resolve, declared] at hn
    | .tok t :: σ', _ => simp [reduce, connective, reducesF, resolve, declared] at hn
    | .ex t :: σ', _ => simp [reduce, connective, reducesF, resolve, declared] at hn
    | .fm t :: σ', hσ => exact absurd rfl (hσ t σ')

theorem good_reduce {la σ σ' ts} (h : Good σ la ts) (hr : reduce la σ = some σ') :
    Good σ' la ts := by
  unfold reduce at hr
  split at hr
  · rename_i b o a τ
    obtain ⟨us, vs, la1, rfl, hb, us', rfl, hn, ws, xs, la2, rfl, ha, hg⟩ := h
    split at hr
    · rename_i k hk
      split at hr
      · rename_i hred
        cases hr
        refine ⟨ws, xs ++ [o] ++ vs, la2, by simp, ?_, hg⟩
        unfold binary at hk
        split at hk <;> cases hk
        · exact eok_sum (.inl rfl) (.add ha.1 (hb.2.2.2.1 a τ (.inl rfl))) hred hn
        · exact eok_sum (.inr rfl) (.sub ha.1 (hb.2.2.2.1 a τ (.inr rfl))) hred hn
        · exact eok_prod (.inl rfl) (.mul (ha.2.1 (.inl rfl))
            (hb.2.2.2.2.1 _ a τ (.inl rfl) rfl)) hred hn
        · exact eok_prod (.inr rfl) (.div (ha.2.1 (.inr rfl))
            (hb.2.2.2.2.1 _ a τ (.inr (.inl rfl)) rfl)) hred hn
        · exact eok_signed (.pow (.power (ha.2.2.1 rfl)
            (hb.2.2.2.2.1 _ a τ (.inr (.inr rfl)) rfl)))
            (not_caret (n := 5) (a := .right) (by decide) (by decide) hred)
      · cases hr
    · split at hr
      · rename_i r hrel
        split at hr
        · cases hr
        · cases hr
          have ho : o = relTok r := by
            unfold relation at hrel
            split at hrel <;> cases hrel <;> rfl
          subst ho
          exact ⟨ws, xs ++ [relTok r] ++ vs, la2, by simp, fok_unit (.rel r ha.1 hb.1), hg⟩
      · cases hr
  · rename_i a τ hτ
    split at hr
    · rename_i hred
      cases hr
      obtain ⟨us, vs, la1, rfl, hb, us', rfl, hn, hg⟩ := h
      refine ⟨us', [.minus] ++ vs, _, by simp, eok_signed (.neg (hb.2.2.2.2.2 τ ?_ rfl))
        (not_caret (n := 4) (a := .left) (by decide) (by decide) hred), hg⟩
      rintro a' σ'' rfl
      exact hτ a' σ'' rfl
    · cases hr
  · rename_i g o f τ
    obtain ⟨us, vs, la1, rfl, hb, us', rfl, hn, ws, xs, la2, rfl, ha, hg⟩ := h
    split at hr
    · rename_i k hk
      split at hr
      · rename_i hred
        cases hr
        refine ⟨ws, xs ++ [o] ++ vs, la2, by simp, ?_, hg⟩
        unfold connective at hk
        split at hk <;> cases hk
        · exact fok_and (.conj (ha.2.1 rfl) (hb.2.2.2.1 f τ rfl)) hn
        · exact fok_or (.disj (ha.2.2.1 (.inl rfl)) (hb.2.2.2.2.1 f τ rfl)) hred hn
        · exact fok_imp (.impl (ha.2.2.1 (.inr rfl)) hb.1) hred hn
      · cases hr
    · cases hr
  · rename_i f τ hτ
    split at hr
    · rename_i hred
      cases hr
      obtain ⟨us, vs, la1, rfl, hb, us', rfl, hn, hg⟩ := h
      refine ⟨us', [.not] ++ vs, _, by simp, fok_unit (.not (hb.2.2.2.2.2 τ ?_ rfl)), hg⟩
      rintro a' σ'' rfl
      exact hτ a' σ'' rfl
    · cases hr
  · cases hr
    obtain ⟨us, rfl, _, us1, vs1, _, rfl, h1, us2, rfl, _, us3, rfl, _, hg⟩ := h
    exact ⟨us3, _, _, by simp, eok_atom (.fn1 _ h1.1), hg⟩
  · cases hr
    obtain ⟨us, rfl, _, us1, vs1, _, rfl, h1, us2, rfl, _, us3, vs3, _, rfl, h3, us4, rfl, _, us5,
      rfl, _, hg⟩ := h
    exact ⟨us5, _, _, by simp, eok_atom (.fn2 _ h3.1 h1.1), hg⟩
  · cases hr
    obtain ⟨us, rfl, _, us1, vs1, _, rfl, h1, us2, rfl, _, hg⟩ := h
    exact ⟨us2, _, _, by simp, eok_atom (.paren h1.1), hg⟩
  · cases hr
    obtain ⟨us, rfl, _, us1, vs1, _, rfl, h1, us2, rfl, _, hg⟩ := h
    exact ⟨us2, _, _, by simp, fok_unit (.paren h1.1), hg⟩
  · cases hr

theorem good_shift {σ t la us} (h : Good σ (some t) us) (hr : reduce (some t) σ = none) :
    Good (shift σ t) la (us ++ [t]) := by
  unfold shift
  split
  · exact ⟨us, _, _, rfl, eok_atom (.num _), h⟩
  · exact ⟨us, _, _, rfl, eok_atom (.id _), h⟩
  · exact ⟨us, rfl, hr, h⟩

theorem good_step {σ ts σ' ts' us} (h : Good σ ts.head? us) (hs : step (σ, ts) = some (σ', ts')) :
    ∃ us', us' ++ ts' = us ++ ts ∧ Good σ' ts'.head? us' := by
  unfold step at hs
  simp only at hs
  split at hs
  · rename_i τ hr
    cases hs
    exact ⟨us, rfl, good_reduce h hr⟩
  · rename_i hr
    match ts, hs with
    | t :: ts, hs =>
      simp only at hs
      split at hs
      · cases hs
        exact ⟨us ++ [t], by simp, good_shift h hr⟩
      · cases hs

theorem good_steps {c c' : Config} (h : Steps c c') {us} (hg : Good c.1 c.2.head? us) :
    ∃ us', us' ++ c'.2 = us ++ c.2 ∧ Good c'.1 c'.2.head? us' := by
  induction h with
  | refl => exact ⟨us, rfl, hg⟩
  | tail _ hs ih =>
    obtain ⟨vs, h1, h2⟩ := ih
    obtain ⟨ws, h3, h4⟩ := good_step h2 hs
    exact ⟨ws, h3.trans h1, h4⟩

/-! ## The number of steps -/

/-- What is left to do. -/
def size (c : Config) : Nat := 2 * c.2.length + c.1.length

theorem reduce_shorter {la σ σ'} (h : reduce la σ = some σ') : σ'.length < σ.length := by
  unfold reduce at h
  split at h
  · repeat' split at h
    all_goals first | (cases h; simp) | cases h
  · split at h
    · cases h; simp
    · cases h
  · repeat' split at h
    all_goals first | (cases h; simp) | cases h
  · split at h
    · cases h; simp
    · cases h
  all_goals first | (cases h; simp) | cases h

theorem shift_length (σ t) : (shift σ t).length = σ.length + 1 := by
  unfold shift
  split <;> rfl

theorem step_smaller {c c'} (h : step c = some c') : size c' < size c := by
  obtain ⟨σ, ts⟩ := c
  unfold step at h
  simp only at h
  split at h
  · rename_i τ hr
    cases h
    have := reduce_shorter hr
    simp [size]; omega
  · match ts, h with
    | t :: ts, h =>
      simp only at h
      split at h
      · cases h
        simp [size, shift_length]; omega
      · cases h

theorem steps_reach : ∀ n c, Steps c (steps n c)
  | 0, _ => .refl
  | n + 1, c => by
    unfold steps
    split
    · exact .refl
    · rename_i c' h
      exact .head h (steps_reach n c')

theorem steps_of {c c'} (h : Steps c c') (hs : step c' = none) : ∀ n, size c ≤ n → steps n c = c' := by
  induction h using Relation.ReflTransGen.head_induction_on with
  | refl =>
    intro n _
    cases n with
    | zero => rfl
    | succ n => unfold steps; simp only [hs]
  | head h1 _ ih =>
    intro n hn
    have := step_smaller h1
    match n, hn with
    | 0, hn => omega
    | n + 1, hn =>
      unfold steps
      simp only [h1]
      exact ih n (by omega)

/-! ## Expressions and formulas -/

theorem parseE_sound {ts e rest} (h : parseE ts = some (e, rest)) :
    ∃ us, ts = us ++ rest ∧ Reads .sum us e := by
  unfold parseE at h
  split at h
  · rename_i e' r' hr
    cases h
    have hs : Steps ([], ts) ([.ex e], rest) := hr ▸ steps_reach _ _
    obtain ⟨us, h1, us', vs, la, rfl, h2, h3⟩ := good_steps hs (us := []) rfl
    cases (show us' = [] from h3)
    exact ⟨vs, by simpa using h1.symm, h2.1⟩
  · cases h

theorem parseF_sound {ts f rest} (h : parseF ts = some (f, rest)) :
    ∃ us, ts = us ++ rest ∧ ReadsF .imp us f := by
  unfold parseF at h
  split at h
  · rename_i e' r' hr
    cases h
    have hs : Steps ([], ts) ([.fm f], rest) := hr ▸ steps_reach _ _
    obtain ⟨us, h1, us', vs, la, rfl, h2, h3⟩ := good_steps hs (us := []) rfl
    cases (show us' = [] from h3)
    exact ⟨vs, by simpa using h1.symm, h2.1⟩
  · cases h

/-- A token that ends an expression. -/
def EndsE (la : Option Tok) : Prop := la.bind binary = none ∧ la.bind relation = none

theorem parseE_complete {us e rest} (h : Reads .sum us e) (hr : EndsE rest.head?) :
    parseE (us ++ rest) = some (e, rest) := by
  have h1 := reads_complete h (σ := []) (rest := rest) trivial
    (fun e => ⟨rfl, rfl, rfl, rfl⟩) (post_sum hr.1)
  have h2 : step ([.ex e], rest) = none := by
    cases rest with
    | nil => rfl
    | cons t ts =>
      have hb : binary t = none := hr.1
      have hl : relation t = none := hr.2
      have : canShift [.ex e] t = false := by cases t <;> simp [canShift, hb, hl]
      simp [step, reduce, this]
  unfold parseE run
  rw [steps_of h1 h2 _ (by simp [size])]

/-- A token that ends a formula. -/
def EndsF (la : Option Tok) : Prop := la.bind binary = none ∧ la.bind connective = none

theorem parseF_complete {us f rest} (h : ReadsF .imp us f) (hr : EndsF rest.head?) :
    parseF (us ++ rest) = some (f, rest) := by
  have h1 := readsF_complete h (σ := []) (rest := rest) trivial free_nil
    (fun e => ⟨rfl, rfl, rfl⟩) hr
  have h2 : step ([.fm f], rest) = none := by
    cases rest with
    | nil => rfl
    | cons t ts =>
      have hb : connective t = none := hr.2
      have : canShift [.fm f] t = false := by cases t <;> simp [canShift, hb]
      simp [step, reduce, this]
  unfold parseF run
  rw [steps_of h1 h2 _ (by simp [size])]

/-! ## Sections -/

/-- A token that begins a formula or an expression. -/
def Starts (t : Tok) : Prop := t ≠ .lb ∧ t ≠ .ctr ∧ t ≠ .cost

theorem reads_starts {L ts e} (h : Reads L ts e) : ∃ t us, ts = t :: us ∧ Starts t := by
  induction h with
  | num | id | paren | fn1 | fn2 | neg => exact ⟨_, _, rfl, by simp [Starts]⟩
  | power _ _ ih _ | mul _ _ ih _ | div _ _ ih _ | add _ _ ih _ | sub _ _ ih _ =>
    obtain ⟨t, us, rfl, ht⟩ := ih
    exact ⟨t, _, rfl, ht⟩
  | atom _ ih | pow _ ih | sgn _ ih | prod _ ih => exact ih

theorem readsF_starts {L ts e} (h : ReadsF L ts e) : ∃ t us, ts = t :: us ∧ Starts t := by
  induction h with
  | rel _ h =>
    obtain ⟨t, us, rfl, ht⟩ := reads_starts h
    exact ⟨t, _, rfl, ht⟩
  | paren | not => exact ⟨_, _, rfl, by simp [Starts]⟩
  | conj _ _ ih _ | disj _ _ ih _ | impl _ _ ih _ =>
    obtain ⟨t, us, rfl, ht⟩ := ih
    exact ⟨t, _, rfl, ht⟩
  | unit _ ih | and _ ih | or _ ih => exact ih

/-- A reader of items that reads what the grammar says. -/
structure ItemOk {α : Type} (item : List Tok → Option (α × List Tok)) (P : List Tok → α → Prop) :
    Prop where
  sound : ∀ {ts a rest}, item ts = some (a, rest) → ∃ us, ts = us ++ rest ∧ P us a
  complete : ∀ {us a rest}, P us a → item (us ++ rest) = some (a, rest)
  starts : ∀ {us a}, P us a → ∃ t vs, us = t :: vs ∧ t ≠ .ctr ∧ t ≠ .cost

theorem decl_ok (ev : DExpr → Option EQ) : ItemOk (parseDecl ev) (SpellsDecl ev) where
  sound := by
    intro ts a rest h
    unfold parseDecl at h
    split at h
    · split at h
      · rename_i ts _ a us ha
        split at h
        · rename_i b n vs hb
          split at h
          · rename_i l u hl hu
            cases h
            obtain ⟨as, rfl, h1⟩ := parseE_sound ha
            obtain ⟨bs, rfl, h2⟩ := parseE_sound hb
            exact ⟨_, by simp, .bounds h1 h2 hl hu⟩
          · cases h
        · cases h
      · cases h
    · split at h
      · rename_i a n us ha
        split at h
        · rename_i l hl
          cases h
          obtain ⟨as, rfl, h1⟩ := parseE_sound ha
          exact ⟨_, by simp, .point h1 hl⟩
        · cases h
      · cases h
  complete := by
    intro us d rest h
    cases h with
    | @bounds ts us a b n l u h1 h2 hl hu =>
      have e1 := parseE_complete (rest := .comma :: (us ++ .rb :: .id n :: .semi :: rest)) h1
        ⟨rfl, rfl⟩
      have e2 := parseE_complete (rest := .rb :: .id n :: .semi :: rest) h2 ⟨rfl, rfl⟩
      simp [parseDecl, e1, e2, hl, hu]
    | @point ts a n l h1 hl =>
      have e1 := parseE_complete (rest := .id n :: .semi :: rest) h1 ⟨rfl, rfl⟩
      obtain ⟨t, us, rfl, ht⟩ := reads_starts h1
      unfold parseDecl
      split
      · rename_i he
        simp only [List.cons_append, List.cons.injEq] at he
        exact absurd he.1 ht.1
      · rw [show t :: us ++ [Tok.id n, .semi] ++ rest = t :: us ++ .id n :: .semi :: rest by simp, e1]
        simp [hl]
  starts := by
    intro us d h
    cases h with
    | bounds => exact ⟨_, _, rfl, by simp⟩
    | point h1 =>
      obtain ⟨t, us, rfl, ht⟩ := reads_starts h1
      exact ⟨t, _, rfl, ht.2⟩

theorem ctr_ok : ItemOk parseCtr SpellsCtr where
  sound := by
    intro ts a rest h
    unfold parseCtr at h
    split at h
    · rename_i f us hf
      cases h
      obtain ⟨as, rfl, h1⟩ := parseF_sound hf
      exact ⟨as ++ [.semi], by simp, as, h1, rfl⟩
    · cases h
  complete := by
    rintro _ f rest ⟨us, h, rfl⟩
    have e1 := parseF_complete (rest := .semi :: rest) h ⟨rfl, rfl⟩
    simp [parseCtr, e1]
  starts := by
    rintro _ f ⟨us, h, rfl⟩
    obtain ⟨t, us, rfl, ht⟩ := readsF_starts h
    exact ⟨t, _, rfl, ht.2⟩

theorem cost_ok : ItemOk parseCost SpellsCost where
  sound := by
    intro ts a rest h
    unfold parseCost at h
    split at h
    · rename_i f us hf
      cases h
      obtain ⟨as, rfl, h1⟩ := parseE_sound hf
      exact ⟨as ++ [.semi], by simp, as, h1, rfl⟩
    · cases h
  complete := by
    rintro _ f rest ⟨us, h, rfl⟩
    have e1 := parseE_complete (rest := .semi :: rest) h ⟨rfl, rfl⟩
    simp [parseCost, e1]
  starts := by
    rintro _ f ⟨us, h, rfl⟩
    obtain ⟨t, us, rfl, ht⟩ := reads_starts h
    exact ⟨t, _, rfl, ht.2⟩

/-- The end, or the beginning of another section. -/
def Ends (rest : List Tok) : Prop := rest = [] ∨ (∃ us, rest = .ctr :: us) ∨ ∃ us, rest = .cost :: us

section
variable {α : Type} {item : List Tok → Option (α × List Tok)} {P : List Tok → α → Prop}

theorem list_sound (ok : ItemOk item P) : ∀ {n ts as rest}, parseList item n ts = some (as, rest) →
    as ≠ [] ∧ ∃ us, ts = us ++ rest ∧ SpellsAll P us as
  | n + 1, ts, as, rest, h => by
    unfold parseList at h
    split at h
    · cases h
    · rename_i a r hi
      obtain ⟨us, rfl, hP⟩ := ok.sound hi
      split at h
      · cases h
        exact ⟨by simp, us, rfl, by simpa using SpellsAll.cons hP .nil⟩
      · cases h
        exact ⟨by simp, us, rfl, by simpa using SpellsAll.cons hP .nil⟩
      · cases h
        exact ⟨by simp, us, rfl, by simpa using SpellsAll.cons hP .nil⟩
      · split at h
        · rename_i as' r' hl
          cases h
          obtain ⟨_, vs, rfl, hv⟩ := list_sound ok hl
          exact ⟨by simp, us ++ vs, by simp, .cons hP hv⟩
        · cases h

theorem list_complete (ok : ItemOk item P) {us as} (h : SpellsAll P us as) :
    ∀ {n rest}, as ≠ [] → Ends rest → us.length ≤ n →
      parseList item n (us ++ rest) = some (as, rest) := by
  induction h with
  | nil => intro n rest h; exact absurd rfl h
  | @cons ts us a as ha hs ih =>
    intro n rest _ he hn
    obtain ⟨t, vs, rfl, ht⟩ := ok.starts ha
    match n, hn with
    | 0, hn => simp at hn
    | n + 1, hn =>
      unfold parseList
      rw [List.append_assoc, ok.complete ha]
      simp only
      cases hs with
      | nil =>
        rcases he with rfl | ⟨us, rfl⟩ | ⟨us, rfl⟩ <;> rfl
      | @cons ts' us' a' as' ha' hs' =>
        have ih := ih (n := n) (rest := rest) (by simp) he (by simp at hn ⊢; omega)
        obtain ⟨t', vs', rfl, ht'⟩ := ok.starts ha'
        simp only [List.cons_append] at ih ⊢
        split
        · rename_i heq; cases heq
        · rename_i heq; cases heq; exact absurd rfl ht'.1
        · rename_i heq; cases heq; exact absurd rfl ht'.2
        · rw [ih]

theorem section_sound (ok : ItemOk item P) {key ts as rest}
    (h : parseSection key item ts = some (as, rest)) :
    ∃ us, ts = us ++ rest ∧ SpellsSection key P us as := by
  unfold parseSection at h
  split at h
  · split at h
    · rename_i hk
      subst hk
      obtain ⟨h1, us, rfl, h2⟩ := list_sound ok h
      exact ⟨_ :: .colon :: us, rfl, .inr ⟨us, rfl, h1, h2⟩⟩
    · cases h
      exact ⟨[], rfl, .inl ⟨rfl, rfl⟩⟩
  · cases h
    exact ⟨[], rfl, .inl ⟨rfl, rfl⟩⟩

theorem section_complete (ok : ItemOk item P) {key us as rest} (h : SpellsSection key P us as)
    (he : Ends rest) (hk : ∀ vs, rest ≠ key :: vs) :
    parseSection key item (us ++ rest) = some (as, rest) := by
  rcases h with ⟨rfl, rfl⟩ | ⟨us, rfl, h1, h2⟩
  · unfold parseSection
    simp only [List.nil_append]
    split
    · rename_i k ts
      rw [if_neg (by rintro rfl; exact hk _ rfl)]
    · rfl
  · simp only [List.cons_append, List.nil_append, parseSection, if_true]
    exact list_complete ok h2 h1 he (by simp)

end

theorem parse_iff (ev : DExpr → Option EQ) (ts : List Tok) (p : DProb) :
    parse ev ts = some p ↔ Spells ev ts p := by
  constructor
  · intro h
    unfold parse at h
    split at h
    · split at h
      · rename_i ds ts1 hd
        split at h
        · rename_i fs ts2 hf
          split at h
          · rename_i es he
            cases h
            obtain ⟨h1, us, rfl, h2⟩ := list_sound (decl_ok ev) hd
            obtain ⟨vs, rfl, h3⟩ := section_sound ctr_ok hf
            obtain ⟨ws, rfl, h4⟩ := section_sound cost_ok he
            exact ⟨us, vs, ws, by simp, h1, h2, h3, h4⟩
          · cases h
        · cases h
      · cases h
    · cases h
  · rintro ⟨us, vs, ws, rfl, h1, h2, h3, h4⟩
    have ew : ws = [] ∨ ∃ xs, ws = .cost :: xs := by
      rcases h4 with ⟨rfl, _⟩ | ⟨xs, rfl, _⟩
      · exact .inl rfl
      · exact .inr ⟨_, rfl⟩
    have ev' : Ends (vs ++ ws) := by
      rcases h3 with ⟨rfl, _⟩ | ⟨xs, rfl, _⟩
      · exact ew.elim .inl (fun h => .inr (.inr h))
      · exact .inr (.inl ⟨_, rfl⟩)
    have e1 := list_complete (decl_ok ev) h2 (n := (us ++ (vs ++ ws)).length) (rest := vs ++ ws) h1
      ev' (by simp)
    have e2 := section_complete ctr_ok h3 (rest := ws) (ew.elim .inl (fun h => .inr (.inr h)))
      (by rintro xs rfl; rcases ew with h | ⟨_, h⟩ <;> cases h)
    have e3 := section_complete cost_ok h4 (rest := []) (.inl rfl) (by simp)
    simp only [List.append_nil] at e3
    simp only [parse, List.cons_append, List.nil_append, List.append_assoc, e1, e2, e3]

end Verif.Proof.DrParse
