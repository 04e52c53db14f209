import Verif.Proof.BoolSat
import Verif.Proof.CheckInv
import Verif.Proof.DeltaTheory
import Verif.Spec.Weak

/-!
# What the main loop returns

The box returned by the loop of `CheckSatCore` with the assignment of the SAT solver it belongs to,
and the truth values it gives to the atoms.
-/

namespace Verif.Proof
open Verif Verif.Model Verif.Spec

/-- The relations of the formulas considered. -/
def PlainS (d : Dbl) (δ : ℚ) (S : Expr → Expr → Prop) (_ : RelOp) (a b : Expr) : Prop :=
  PlainRel d δ a b ∧ S a b

theorem plainS_neg {d δ S} : NegClosed (PlainS d δ S) := fun _ _ _ h => ⟨h, h.1.open'⟩

/-! ### From truth values to weakenings -/

/-- The truth values of atoms are right up to `δ` at the point. -/
structure Fits (D : Dom) (I : Interp) (δ : ℝ) (P : RelOp → Expr → Expr → Prop)
    (V : Variable → Prop) (ρ : Valuation) (M : BMod) : Prop where
  yes : ∀ op a b, P op a b → DefE D I ρ a → DefE D I ρ b → M.T op a b →
    weakRel δ op (eval I ρ a) (eval I ρ b)
  no : ∀ op a b, P op a b → DefE D I ρ a → DefE D I ρ b → ¬ M.T op a b →
    weakRel δ op.neg (eval I ρ a) (eval I ρ b)
  bool : ∀ v, V v → v.type = .boolean → (M.B v ↔ ρ v = 1)

theorem weakAll_iff {I δ ρ p fs} : weakAll I δ ρ p fs ↔ ∀ f ∈ fs, weakF I δ ρ p f := by
  induction fs with
  | nil => simp [weakAll]
  | cons f fs ih => simp [weakAll, ih]

theorem weakAny_iff {I δ ρ p fs} : weakAny I δ ρ p fs ↔ ∃ f ∈ fs, weakF I δ ρ p f := by
  induction fs with
  | nil => simp [weakAny]
  | cons f fs ih => simp [weakAny, ih]

theorem plainFs_iff {d δ S fs} : PlainFs d δ S fs ↔ ∀ f ∈ fs, PlainF d δ S f := by
  induction fs with
  | nil => simp [PlainFs]
  | cons f fs ih => simp [PlainFs, ih]

theorem Fits.weak {D I δ d q S V ρ M} (h : Fits D I δ (PlainS d q S) V ρ M) :
    ∀ (n : Nat) (f : Fml), sizeOf f ≤ n → PlainF d q S f → WfF V f → DefF D I ρ f →
      (bh M f → weakF I δ ρ true f) ∧ (¬ bh M f → weakF I δ ρ false f) := by
  intro n
  induction n with
  | zero => intro f hs; cases f <;> simp at hs
  | succ n ih =>
    intro f hs hp hw hdf
    cases f with
    | ff => simp [weakF]
    | tt => simp [weakF]
    | bvar v =>
      simp only [bh_bvar, weakF]
      have := h.bool v hw.2 hw.1
      exact ⟨fun hb => by simpa using this.mp hb, fun hb => by simpa using fun h' => hb (this.mpr h')⟩
    | rel op a b =>
      simp only [bh_rel, weakF]
      exact ⟨fun hb => by simpa using h.yes op a b hp hdf.1 hdf.2 hb,
        fun hb => by simpa using h.no op a b hp hdf.1 hdf.2 hb⟩
    | conj fs =>
      have key : ∀ g ∈ fs, (bh M g → weakF I δ ρ true g) ∧ (¬ bh M g → weakF I δ ρ false g) := by
        intro g hg
        have := List.sizeOf_lt_of_mem hg
        simp only [Fml.conj.sizeOf_spec] at hs
        exact ih g (by omega) (plainFs_iff.mp hp g hg) (wfFs_mem.mp hw g hg) (defFs_iff.mp hdf g hg)
      simp only [bh_conj, weakF, weakAll_iff, weakAny_iff, if_true, Bool.false_eq_true, if_false]
      refine ⟨fun hb g hg => (key g hg).1 (hb g hg), fun hb => ?_⟩
      push Not at hb
      obtain ⟨g, hg, hb⟩ := hb
      exact ⟨g, hg, (key g hg).2 hb⟩
    | disj fs =>
      have key : ∀ g ∈ fs, (bh M g → weakF I δ ρ true g) ∧ (¬ bh M g → weakF I δ ρ false g) := by
        intro g hg
        have := List.sizeOf_lt_of_mem hg
        simp only [Fml.disj.sizeOf_spec] at hs
        exact ih g (by omega) (plainFs_iff.mp hp g hg) (wfFs_mem.mp hw g hg) (defFs_iff.mp hdf g hg)
      simp only [bh_disj, weakF, weakAll_iff, weakAny_iff, if_true, Bool.false_eq_true, if_false]
      refine ⟨?_, fun hb g hg => (key g hg).2 (fun h' => hb ⟨g, hg, h'⟩)⟩
      rintro ⟨g, hg, hb⟩
      exact ⟨g, hg, (key g hg).1 hb⟩
    | neg f =>
      simp only [Fml.neg.sizeOf_spec] at hs
      have := ih f (by omega) hp hw hdf
      simp only [bh_neg, weakF, Bool.not_true, Bool.not_false, not_not]
      exact ⟨this.2, this.1⟩
    | all vs f => exact absurd hp id

/-- The exact truth values at a point. -/
noncomputable def exactM (I : Interp) (ρ : Valuation) : BMod :=
  ⟨fun op a b => relSem op (eval I ρ a) (eval I ρ b), fun v => ρ v = 1, fun _ _ => True⟩

theorem exactM_compl {I ρ} : Compl (exactM I ρ) := by
  refine ⟨fun a b => ?_, fun a b => ?_, fun a b => ?_⟩ <;> simp [exactM, relSem]

theorem exactM_fits {D I δ P V ρ} (hδ : 0 ≤ δ) : Fits D I δ P V ρ (exactM I ρ) :=
  ⟨fun _ _ _ _ _ _ h => weak_of_sem hδ h, fun _ _ _ _ _ _ h => weak_of_sem hδ (relSem_neg.mpr h),
    fun _ _ _ => .rfl⟩

/-! ### The truth values belonging to an assignment -/

section
open Classical

/-- A name is what the assignment says; a name left open means its formula; a variable left open
has its value. -/
noncomputable def nameB (I : Interp) (T : List (Variable × Fml)) (A : Variable → Option Bool)
    (ρ : Valuation) (v : Variable) : Prop :=
  match A v with
  | some b => b = true
  | none => if ∃ a, (v, a) ∈ T then ∃ a, (v, a) ∈ T ∧ holds I ρ a else ρ v = 1

/-- A relation with a name is what its name is. -/
def nameT (I : Interp) (T : List (Variable × Fml)) (A : Variable → Option Bool)
    (ρ : Valuation) (op : RelOp) (a b : Expr) : Prop :=
  (∃ v, (v, .rel op a b) ∈ T ∧ nameB I T A ρ v) ∨
    ((∀ v, (v, .rel op a b) ∉ T) ∧ relSem op (eval I ρ a) (eval I ρ b))

noncomputable def nameM (I : Interp) (T : List (Variable × Fml)) (A : Variable → Option Bool)
    (ρ : Valuation) : BMod where
  T := fun op a b => match op with
    | .eq => nameT I T A ρ .eq a b
    | .lt => nameT I T A ρ .lt a b
    | .leq => nameT I T A ρ .leq a b
    | .neq => ¬ nameT I T A ρ .eq a b
    | .gt => ¬ nameT I T A ρ .leq a b
    | .geq => ¬ nameT I T A ρ .lt a b
  B := nameB I T A ρ
  Q := fun _ _ => True

theorem nameM_compl {I T A ρ} : Compl (nameM I T A ρ) :=
  ⟨fun _ _ => .rfl, fun _ _ => .rfl, fun _ _ => .rfl⟩

theorem pair_eq_of_nodup {α β : Type} {T : List (α × β)} (h : (T.map Prod.snd).Nodup) {p q}
    (hp : p ∈ T) (hq : q ∈ T) (e : p.2 = q.2) : p = q := by
  obtain ⟨i, hi⟩ := List.mem_iff_getElem?.mp hp
  obtain ⟨j, hj⟩ := List.mem_iff_getElem?.mp hq
  have h1 : (T.map Prod.snd)[i]? = some p.2 := by simp [hi]
  have h2 : (T.map Prod.snd)[j]? = some q.2 := by simp [hj]
  have hij : i = j := (List.getElem?_inj (lt_of_getElem? h1) h).mp (by rw [h1, h2, e])
  subst hij
  rw [hi] at hj; exact Option.some.inj hj

theorem nameM_defs {I A ρ P} {s : AbsState} (hi : AbsInv s) (hT : ∀ p ∈ s.table, Canon P p.2) :
    DefsB (nameM I s.table A ρ) s.table := by
  rintro ⟨v, f⟩ hp
  obtain ⟨op, a, b, rfl, hop, -⟩ := hT _ hp
  have key : nameB I s.table A ρ v ↔ nameT I s.table A ρ op a b := by
    constructor
    · intro h; exact .inl ⟨v, hp, h⟩
    · rintro (⟨w, hw, h⟩ | ⟨h, -⟩)
      · have : w = v := by
          have := pair_eq_of_nodup hi.nodup hw hp rfl
          exact congrArg Prod.fst this
        rw [← this]; exact h
      · exact absurd hp (h v)
  rcases hop with rfl | rfl | rfl <;> exact key

/-- What an assignment has to provide. -/
structure Assigned (D : Dom) (I : Interp) (δ : ℝ) (T : List (Variable × Fml))
    (A : Variable → Option Bool) (V : Variable → Prop) (ρ : Valuation) : Prop where
  lits : ∀ v b a, A v = some b → (v, a) ∈ T → DefF D I ρ a →
    WeakHolds I δ ρ (if b then a else notF a)
  bools : ∀ v b, A v = some b → V v → v.type = .boolean → (ρ v = 1 ↔ b = true)
  user : ∀ v, V v → v.type = .boolean → ∀ a, (v, a) ∉ T

theorem weakHolds_rel {I δ ρ op a b} (h : WeakHolds I δ ρ (.rel op a b)) :
    weakRel δ op (eval I ρ a) (eval I ρ b) := by
  obtain ⟨o, x, y, he, hw⟩ := h
  simp only [asRel, Option.some.injEq, Prod.mk.injEq] at he
  obtain ⟨rfl, rfl, rfl⟩ := he
  exact hw

theorem weakHolds_nrel {I δ ρ op a b} (h : WeakHolds I δ ρ (notF (.rel op a b))) :
    weakRel δ op.neg (eval I ρ a) (eval I ρ b) := by
  obtain ⟨o, x, y, he, hw⟩ := h
  simp only [notF, reduceCtorEq, if_false, asRel, Option.map_some, Option.some.injEq,
    Prod.mk.injEq] at he
  obtain ⟨rfl, rfl, rfl⟩ := he
  exact hw

theorem nameT_yes {D I δ T A V ρ op a b} (hδ : 0 ≤ δ) (h : Assigned D I δ T A V ρ)
    (h1 : DefE D I ρ a) (h2 : DefE D I ρ b) (hfun : ∀ v x y, (v, x) ∈ T → (v, y) ∈ T → x = y)
    (hT : nameT I T A ρ op a b) : weakRel δ op (eval I ρ a) (eval I ρ b) := by
  rcases hT with ⟨v, hv, hb⟩ | ⟨-, hb⟩
  · unfold nameB at hb
    cases hA : A v with
    | none =>
      rw [hA] at hb
      simp only at hb
      rw [if_pos ⟨_, hv⟩] at hb
      obtain ⟨x, hx, hh⟩ := hb
      rw [hfun v x _ hx hv] at hh
      exact weak_of_sem hδ (by simpa [holds] using hh)
    | some b' =>
      rw [hA] at hb
      simp only at hb
      subst hb
      have := h.lits v true _ hA hv ⟨h1, h2⟩
      exact weakHolds_rel this
  · exact weak_of_sem hδ hb

theorem nameT_no {D I δ T A V ρ op a b} (hδ : 0 ≤ δ) (h : Assigned D I δ T A V ρ)
    (h1 : DefE D I ρ a) (h2 : DefE D I ρ b)
    (hT : ¬ nameT I T A ρ op a b) : weakRel δ op.neg (eval I ρ a) (eval I ρ b) := by
  by_cases hn : ∃ v, (v, .rel op a b) ∈ T
  · obtain ⟨v, hv⟩ := hn
    have hb : ¬ nameB I T A ρ v := fun hb => hT (.inl ⟨v, hv, hb⟩)
    unfold nameB at hb
    cases hA : A v with
    | none =>
      rw [hA] at hb
      simp only at hb
      rw [if_pos ⟨_, hv⟩] at hb
      refine weak_of_sem hδ (relSem_neg.mpr fun hr => hb ⟨_, hv, by simpa [holds] using hr⟩)
    | some b' =>
      rw [hA] at hb
      simp only [Bool.not_eq_true] at hb
      subst hb
      have := h.lits v false _ hA hv ⟨h1, h2⟩
      simp only [Bool.false_eq_true, if_false] at this
      exact weakHolds_nrel this
  · push Not at hn
    exact weak_of_sem hδ (relSem_neg.mpr fun hr => hT (.inr ⟨hn, hr⟩))

theorem nameM_fits {D I δ T A V ρ} {P : RelOp → Expr → Expr → Prop} (hδ : 0 ≤ δ)
    (h : Assigned D I δ T A V ρ) (hfun : ∀ v x y, (v, x) ∈ T → (v, y) ∈ T → x = y) :
    Fits D I δ P V ρ (nameM I T A ρ) := by
  refine ⟨fun op a b _ h1 h2 hT => ?_, fun op a b _ h1 h2 hT => ?_, fun v hv hvt => ?_⟩
  · cases op with
    | eq => exact nameT_yes hδ h h1 h2 hfun hT
    | lt => exact nameT_yes hδ h h1 h2 hfun hT
    | leq => exact nameT_yes hδ h h1 h2 hfun hT
    | neq => exact nameT_no (op := .eq) hδ h h1 h2 hT
    | gt => exact nameT_no (op := .leq) hδ h h1 h2 hT
    | geq => exact nameT_no (op := .lt) hδ h h1 h2 hT
  · cases op with
    | eq => exact nameT_no (op := .eq) hδ h h1 h2 hT
    | lt => exact nameT_no (op := .lt) hδ h h1 h2 hT
    | leq => exact nameT_no (op := .leq) hδ h h1 h2 hT
    | neq => exact nameT_yes (op := .eq) hδ h h1 h2 hfun (not_not.mp hT)
    | gt => exact nameT_yes (op := .leq) hδ h h1 h2 hfun (not_not.mp hT)
    | geq => exact nameT_yes (op := .lt) hδ h h1 h2 hfun (not_not.mp hT)
  · show nameB I T A ρ v ↔ _
    unfold nameB
    cases hA : A v with
    | none =>
      simp only
      rw [if_neg]
      rintro ⟨a, ha⟩; exact h.user v hv hvt a ha
    | some b => exact (h.bools v b hA hv hvt).symm

end

/-! ### Boolean components -/

/-- The box is not empty, and the numerical components contain the values of the point. -/
def NumIn (ρ : Valuation) (b : Box) : Prop :=
  b.bot = false ∧ ∀ (i : Nat) v, b.vars[i]? = some v → v.type ≠ .boolean → InItv (ρ v) (b.get i)

theorem numIn_of {ρ b} (h : InBox ρ b) : NumIn ρ b := ⟨h.1, fun i v hv _ => h.2 i v hv⟩

theorem setV_get {b : Box} {v iv} (wf : BoxWf b) (hv : v ∈ b.vars) {i : Nat} {w}
    (hw : b.vars[i]? = some w) : (b.setV v iv).get i = if w = v then iv else b.get i := by
  have hi := (index_of_mem hv).2
  have hl : b.index v < b.vals.length := by rw [wf.1]; exact lt_of_getElem? hi
  show (b.set (b.index v) iv).get i = _
  split
  · rename_i hwv
    subst hwv
    have : i = b.index w := (List.getElem?_inj (lt_of_getElem? hw) wf.2).mp (by rw [hw, hi])
    subst this
    exact get_set_self hl
  · rename_i hwv
    refine get_set_ne ?_
    rintro rfl
    rw [hi] at hw; cases hw; exact hwv rfl

/-- Components after writing values of Boolean variables. -/
theorem writeBools_get {vs} : ∀ {ps : List (Variable × Bool)} {b : Box}, Shape vs b →
    (∀ v x, (v, x) ∈ ps → v ∈ vs) → ∀ {i : Nat} {w}, vs[i]? = some w →
    ((∀ x, (w, x) ∉ ps) → (writeBools b ps).get i = b.get i) ∧
    (∀ x, (∀ y, (w, y) ∈ ps → y = x) →
      (w, x) ∈ ps ∨ b.get i = Itv.point (if x then 1 else 0) →
      (writeBools b ps).get i = Itv.point (if x then 1 else 0)) ∧
    ((writeBools b ps).get i = b.get i ∨
      ∃ x : Bool, (writeBools b ps).get i = Itv.point (if x then 1 else 0))
  | [], b, _, _, i, w, _ => ⟨fun _ => rfl, fun x _ h => by simpa [writeBools] using h, .inl rfl⟩
  | p :: ps, b, hs, hp, i, w, hw => by
    simp only [writeBools]
    have hg := setV_get (v := p.1) (iv := Itv.point (if p.2 then 1 else 0)) hs.2
      (by rw [hs.1]; exact hp p.1 p.2 (by simp)) (i := i) (w := w) (by rw [hs.1]; exact hw)
    obtain ⟨i1, i2, i3⟩ := writeBools_get (ps := ps)
      (shape_setV hs p.1 (Itv.point (if p.2 then 1 else 0)))
      (fun v x hm => hp v x (by simp [hm])) hw
    refine ⟨fun hn => ?_, fun x hx h => ?_, ?_⟩
    · rw [i1 (fun x hm => hn x (by simp [hm])), hg, if_neg]
      rintro rfl
      exact hn p.2 (by simp)
    · refine i2 x (fun y hy => hx y (by simp [hy])) ?_
      by_cases hm : (w, x) ∈ ps
      · exact .inl hm
      · right
        rw [hg]
        split
        · rename_i hwp
          have : p.2 = x := hx p.2 (by rw [hwp]; simp)
          rw [this]
        · rename_i hwp
          rcases h with h | h
          · rcases List.mem_cons.mp h with h | h
            · exact absurd (by rw [← h]) hwp
            · exact absurd h hm
          · exact h
    · rcases i3 with h | h
      · rw [h, hg]
        split
        · exact .inr ⟨p.2, rfl⟩
        · exact .inl rfl
      · exact .inr h

theorem writeBools_bot : ∀ {ps : List (Variable × Bool)} {b : Box}, (writeBools b ps).bot = b.bot
  | [], _ => rfl
  | p :: ps, b => by simp only [writeBools]; rw [writeBools_bot]; rfl

/-- The Boolean components are within [0, 1]. -/
def Bool01 (b : Box) : Prop := ∀ (i : Nat) v, b.vars[i]? = some v → v.type = .boolean →
  ∀ x : ℝ, InItv x (b.get i) → 0 ≤ x ∧ x ≤ 1

theorem bool01_write {vs ps} {b : Box} (hs : Shape vs b)
    (hp : ∀ v x, (v, x) ∈ ps → v ∈ vs) (h : Bool01 b) : Bool01 (writeBools b ps) := by
  intro i v hv ht x hx
  have hw := writeBools_shape (ps := ps) hs
  rw [hw.1] at hv
  rcases (writeBools_get hs hp hv).2.2 with h1 | ⟨y, h1⟩
  · rw [h1] at hx
    exact h i v (by rw [hs.1]; exact hv) ht x hx
  · rw [h1] at hx
    have := in_point.mp hx
    subst this
    cases y <;> simp

theorem bool01_sub {b b' : Box} (hv : b'.vars = b.vars) (hb : b'.bot = false) (h : SubBox b' b)
    (h01 : Bool01 b) : Bool01 b' := fun i v hi ht x hx =>
  h01 i v (by rw [← hv]; exact hi) ht x ((h hb).2 i x hx)

theorem numIn_sub {b b' : Box} {ρ} (hv : b'.vars = b.vars) (h : SubBox b' b) (hn : NumIn ρ b') :
    NumIn ρ b :=
  ⟨(h hn.1).1, fun i v hi ht => (h hn.1).2 i _ (hn.2 i v (by rw [hv]; exact hi) ht)⟩

theorem numIn_write {vs ps} {b : Box} {ρ} (hs : Shape vs b)
    (hp : ∀ v x, (v, x) ∈ ps → v.type = .boolean ∧ v ∈ vs) (h : NumIn ρ (writeBools b ps)) :
    NumIn ρ b := by
  refine ⟨by rw [← writeBools_bot (ps := ps)]; exact h.1, fun i v hi ht => ?_⟩
  have hw := writeBools_shape (ps := ps) hs
  have := h.2 i v (by rw [hw.1, ← hs.1]; exact hi) ht
  rwa [(writeBools_get hs (fun v x h => (hp v x h).2) (by rw [← hs.1]; exact hi)).1
    (fun x hx => ht (hp v x hx).1)] at this

/-- A point next to a point `ρ'` of the box: Boolean variables whose components contain more than
one value may be 1 instead. -/
structure Near (b : Box) (ρ ρ' : Valuation) : Prop where
  inBox : InBox ρ' b
  num : ∀ v : Variable, v.type ≠ .boolean → ρ v = ρ' v
  bool : ∀ v ∈ b.vars, v.type = .boolean → ρ v = ρ' v ∨
    (ρ v = 1 ∧ ∃ x y : ℝ, InItv x (b.getV v) ∧ InItv y (b.getV v) ∧ x ≠ y)

theorem near_self {b ρ} (h : InBox ρ b) : Near b ρ ρ := ⟨h, fun _ _ => rfl, fun _ _ _ => .inl rfl⟩

theorem Near.numIn {b ρ ρ'} (h : Near b ρ ρ') : NumIn ρ b :=
  ⟨h.inBox.1, fun i v hv ht => by rw [h.num v ht]; exact h.inBox.2 i v hv⟩

theorem Near.bool01 {b ρ ρ'} (h : Near b ρ ρ') (h01 : Bool01 b) {i : Nat} {v}
    (hv : b.vars[i]? = some v) (ht : v.type = .boolean) : 0 ≤ ρ v ∧ ρ v ≤ 1 := by
  rcases h.bool v (List.mem_of_getElem? hv) ht with h1 | ⟨h1, -⟩
  · rw [h1]; exact h01 i v hv ht _ (h.inBox.2 i v hv)
  · rw [h1]; norm_num

theorem weakHolds_congr {I δ ρ ρ' f} (hf : ∀ v ∈ f.fv, ρ v = ρ' v) (h : WeakHolds I δ ρ' f) :
    WeakHolds I δ ρ f := by
  obtain ⟨op, l, r, h1, h2⟩ := h
  have hv := asRel_fv h1
  rw [← eval_congr I l ρ ρ' (fun v hv' => hf v (by rw [hv]; simp [hv'])),
    ← eval_congr I r ρ ρ' (fun v hv' => hf v (by rw [hv]; simp [hv']))] at h2
  exact ⟨op, l, r, h1, h2⟩

/-! ### The loop -/

/-- What is known of the returned box. -/
structure Found (D : Dom) (I : Interp) (δ : ℝ) (vs : List Variable) (box : Box) (s : SatState)
    (b : Box) : Prop where
  shape : Shape vs b
  alive : box.bot = false → b.bot = false
  num : ∀ ρ, NumIn ρ b → NumIn ρ box
  bool01 : Bool01 b
  assigned : ∃ A : Variable → Option Bool,
    (∀ ρ ρ', Near b ρ ρ' → ∀ V : Variable → Prop,
      (∀ v, V v → v.type = .boolean → v ∈ vs ∧ (∀ a, (v, a) ∉ s.abs.table) ∧ s.tseitinVars.set v.id = false) →
      Assigned D I δ s.abs.table A V ρ) ∧
    ∀ B : Variable → Prop, (∀ v b, A v = some b → (B v ↔ b = true)) → ClausesB s B

theorem canon_fine {d δ S f} (h : Canon (PlainS d δ S) f) (b : Bool) :
    (FineF d δ (if b then f else notF f) ∧ (if b then f else notF f).fv ≠ []) ∧
    ForAtoms (PlainS d δ S) (fun _ => True) NoQ (if b then f else notF f) ∧
    ∀ op x y, asRel (if b then f else notF f) = some (op, x, y) → S x y := by
  obtain ⟨op, x, y, rfl, -, hp⟩ := h
  cases b with
  | true =>
    refine ⟨⟨⟨op, x, y, rfl, hp.1.fine⟩, hp.1.vars⟩, hp, fun o a e h => ?_⟩
    simp only [if_true, asRel, Option.some.injEq, Prod.mk.injEq] at h
    obtain ⟨-, rfl, rfl⟩ := h; exact hp.2
  | false =>
    simp only [Bool.false_eq_true, if_false, notF, reduceCtorEq]
    refine ⟨⟨⟨op.neg, x, y, rfl, hp.1.fine⟩, hp.1.vars⟩, hp, fun o a e h => ?_⟩
    simp only [asRel, Option.map_some, Option.some.injEq, Prod.mk.injEq] at h
    obtain ⟨-, rfl, rfl⟩ := h; exact hp.2

theorem clausesB_calls {s : SatState} {n B} : ClausesB { s with calls := n } B ↔ ClausesB s B := .rfl

theorem found_bools {I : Interp} {vs box b} {m : SatModel} {A : Variable → Option Bool}
    {s : SatState} (hs : Shape vs box) (hm : ∀ v x, (v, x) ∈ m.bool → v ∈ vs)
    (hA : ∀ v b, (v, b) ∈ m.bool ↔
        A v = some b ∧ (∀ a, (v, a) ∉ s.abs.table) ∧ s.tseitinVars.set v.id = false)
    (hb : b.vars = vs) (hnd : b.vars.Nodup) (hsub : SubBox b (writeBools box m.bool)) {ρ ρ' : Valuation} (hin : Near b ρ ρ')
    {v x} (ht : v.type = .boolean) (hv : v ∈ vs ∧ (∀ a, (v, a) ∉ s.abs.table) ∧ s.tseitinVars.set v.id = false)
    (hx : A v = some x) : ρ v = 1 ↔ x = true := by
  obtain ⟨i, hi⟩ := List.mem_iff_getElem?.mp hv.1
  have h1 : (v, x) ∈ m.bool := (hA v x).mpr ⟨hx, hv.2⟩
  have h2 := (writeBools_get hs hm hi).2.1 x (fun y hy => by
    have := ((hA v y).mp hy).1
    rw [hx] at this; exact (Option.some.inj this).symm) (.inl h1)
  have hall : ∀ z : ℝ, InItv z (b.get i) → z = ((if x then 1 else 0 : ℚ) : ℝ) := fun z hz => by
    have h3 := (hsub hin.inBox.1).2 i _ hz
    rw [h2] at h3
    exact in_point.mp h3
  have hvb : v ∈ b.vars := by rw [hb]; exact hv.1
  have hidx : b.index v = i :=
    (List.getElem?_inj (lt_of_getElem? (index_of_mem hvb).2) hnd).mp
      (by rw [(index_of_mem hvb).2, hb, hi])
  have hgv : b.getV v = b.get i := by show b.get (b.index v) = _; rw [hidx]
  have this : ρ v = ((if x then 1 else 0 : ℚ) : ℝ) := by
    rcases hin.bool v hvb ht with h4 | ⟨-, y, z, h4, h5, h6⟩
    · rw [h4]; exact hall _ (hin.inBox.2 i v (by rw [hb]; exact hi))
    · rw [hgv] at h4 h5
      exact absurd ((hall y h4).trans (hall z h5).symm) h6
  rw [this]
  cases x <;> simp

theorem canon_noAll {P : RelOp → Expr → Expr → Prop} {T : List (Variable × Fml)}
    (h : ∀ p ∈ T, Canon P p.2) : NoAll T := by
  intro p hp
  obtain ⟨o, x, y, e, -⟩ := h p hp
  rw [e]; rfl

theorem checkLoop_delta {cfg : CCfg} {vs : List Variable} {H S} (hd : DblOk cfg.th.dbl)
    (hp : PicosatOk cfg.ps) (hn : vs.Nodup)
    (hH : ∀ (i : Nat) v, vs[i]? = some v → H v = some i) {A : List Variable → Prop}
    (hAv : ∀ ws, A ws → ws = vs) {D I} (he : EnvOk D I cfg.env)
    (hfp : DiamOk cfg.env.fp) (hδ : 0 ≤ cfg.env.delta) :
    ∀ {n box s cache tick o s' cache' tick'},
    checkLoop cfg n box s cache tick = .ok (o, s', cache', tick') →
    Shape vs box → SatStr vs s → (∀ v ∈ vs, v.id < s.abs.next) → CacheInv H A cache → SatD s →
    (∀ p ∈ s.abs.table, Canon (PlainS cfg.th.dbl cfg.env.delta S) p.2) → Bool01 box →
    SatD s' ∧ ClExt s s' ∧ (∀ p ∈ s'.abs.table, Canon (PlainS cfg.th.dbl cfg.env.delta S) p.2) ∧
    s'.tseitinVars = s.tseitinVars ∧
    (∀ b, o = some b → (∀ a e, S a e → ¬ StuckOn cfg.env cfg.th b a e) →
      Found D I cfg.env.delta vs box s' b)
  | 0, _, _, _, _, _, _, _, _, h, _, _, _, _, _, _, _ => by simp [checkLoop] at h
  | n + 1, box, s, cache, tick, o, s', cache', tick', h, hs, hst, hv, hc, hsd, hT, h01 => by
    simp only [checkLoop] at h
    obtain ⟨⟨sm, s1⟩, h1, h2⟩ := bindR_ok h
    have h1 := lift_ok h1
    cases sm with
    | none =>
      simp only [Run.ok.injEq, Prod.mk.injEq] at h2
      obtain ⟨rfl, rfl, rfl, rfl⟩ := h2
      obtain ⟨e, -⟩ := satCheck_none hp h1
      subst e
      exact ⟨⟨hsd.inv, hsd.lsym⟩, ⟨le_rfl, fun _ _ => rfl, fun _ h => h⟩, hT, rfl, by simp⟩
    | some m =>
      obtain ⟨e, hbool, hth⟩ := satCheck_some hst h1
      obtain ⟨A, k1, k2, k3⟩ := satCheck_bool hp hst hsd h1
      have hw := writeBools_shape (ps := m.bool) hs
      have hst1 : SatStr vs s1 := by rw [e]; exact satStr_calls hst
      have ha1 : s1.abs = s.abs := by rw [e]
      have ht1 : s1.tseitinVars = s.tseitinVars := by rw [e]
      have hsd1 : SatD s1 := by rw [e]; exact ⟨hsd.inv, hsd.lsym⟩
      have hce : ClExt s s1 := by rw [e]; exact ⟨le_rfl, fun _ _ => rfl, fun _ h => h⟩
      have hT1 : ∀ p ∈ s1.abs.table, Canon (PlainS cfg.th.dbl cfg.env.delta S) p.2 := by
        rw [ha1]; exact hT
      have hcl : ∀ B, (∀ v b, A v = some b → (B v ↔ b = true)) → ClausesB s1 B := by
        rw [e]; exact k3
      have hw01 := bool01_write (ps := m.bool) hs (fun v x h => (hbool v x h).2) h01
      simp only at h2
      split at h2
      · rename_i hem
        simp only [Run.ok.injEq, Prod.mk.injEq] at h2
        obtain ⟨rfl, rfl, rfl, rfl⟩ := h2
        refine ⟨hsd1, hce, hT1, ht1, fun b hb _ => ?_⟩
        cases hb
        refine ⟨hw, fun h => by rw [writeBools_bot]; exact h, fun ρ h => numIn_write hs hbool h, hw01, A, fun ρ ρ' hin V hV => ?_, hcl⟩
        rw [ha1, ht1] at hV
        rw [ha1]
        refine ⟨fun v b a hA ha hdf => ?_, fun v x hx hvV hvt => ?_, fun v hv hvt => (hV v hv hvt).2.1⟩
        · have : (v, b) ∈ m.theory := (k2 v b).mpr ⟨hA, a, ha⟩
          rw [List.isEmpty_iff.mp hem] at this; cases this
        · exact found_bools (I := I) hs (fun v x h => (hbool v x h).2) k1 hw.1 hw.2.2 (subBox_refl _)
            hin hvt (hV v hvV hvt) hx
      · obtain ⟨fs, h3, h4⟩ := bindR_ok h2
        have hfs := hth fs (lift_ok h3)
        obtain ⟨t1, t2⟩ := theoryLits_mem (lift_ok h3)
        have hfine : ∀ f ∈ fs, (FineF cfg.th.dbl cfg.env.delta f ∧ f.fv ≠ []) ∧
            ForAtoms (PlainS cfg.th.dbl cfg.env.delta S) (fun _ => True) NoQ f ∧
            ∀ op x y, asRel f = some (op, x, y) → S x y := by
          intro f hf
          obtain ⟨v, b, a, -, g1, rfl⟩ := t1 f hf
          exact canon_fine (hT1 _ g1) b
        obtain ⟨⟨t, c', tk⟩, h5, h6⟩ := bindR_ok h4
        have hc' := theoryCheck_cacheInv hw hn hH (fun f hf => (hfs f hf).1) (fun f hf ha => by
          obtain ⟨-, hq, -⟩ := hfine f hf
          cases f <;> first | exact absurd hq id | cases ha) hc h5
        have hlits : LitsOk fs (writeBools box m.bool).vars := by
          refine ⟨fun f hf => wfF_rc f (hfs f hf).1.wf, fun f hf v hv' => ?_⟩
          rw [hw.1]
          exact (AtomF.fv f (hfs f hf).1 v hv').2
        cases t with
        | sat b =>
          simp only [Run.ok.injEq, Prod.mk.injEq] at h6
          obtain ⟨rfl, rfl, rfl, rfl⟩ := h6
          refine ⟨hsd1, hce, hT1, ht1, fun b' hb' hsp => ?_⟩
          cases hb'
          obtain ⟨r1, r2, r3, r4⟩ := theoryCheck_sat he hd hfp hδ hw.2 hlits
            (by rw [hw.1]; exact hc.ok hH hAv) (fun f hf => (hfine f hf).1) h5
            (fun f hf op a e h => hsp a e ((hfine f hf).2.2 op a e h))
          have hvb : b.vars = vs := r1.1.trans hw.1
          refine ⟨⟨hvb, r1.2⟩, fun _ => r3, fun ρ h => numIn_write hs hbool (numIn_sub r1.1 r2 h),
            bool01_sub r1.1 r3 r2 hw01, A, fun ρ ρ' hin V hV => ?_, hcl⟩
          rw [ha1, ht1] at hV
          refine ⟨fun v x a hA ha hdf => ?_, fun v x hx hvV hvt => ?_, fun v hv hvt => by
            rw [ha1]; exact (hV v hv hvt).2.1⟩
          · have hm : (v, x) ∈ m.theory := (k2 v x).mpr ⟨hA, a, by rw [← ha1]; exact ha⟩
            obtain ⟨a', g1, g2⟩ := t2 v x hm
            have : a' = a := table_fun hst1.tab.abs g1 ha
            subst this
            have hag : ∀ w ∈ (if x then a' else notF a').fv, ρ w = ρ' w := fun w hw' =>
              hin.num w (AtomF.fv _ (hfs _ g2).1 w hw').1
            refine weakHolds_congr hag (r4 _ g2 ρ' hin.inBox ?_)
            refine (defF_congr D I _ ρ ρ' hag).mp ?_
            obtain ⟨op, l, r, rfl, -, -⟩ := hT1 _ ha
            cases x with
            | true => exact hdf
            | false => simpa [notF, DefF] using hdf
          · exact found_bools (I := I) hs (fun v x h => (hbool v x h).2) k1 hvb r1.2.2 r2 hin
              hvt (hV v hvV hvt) hx
        | unsat E =>
          simp only at h6
          obtain ⟨s2, h7, h8⟩ := bindR_ok h6
          obtain ⟨hE, -⟩ := theoryCheck_unsat he hd hw.2 hlits
            (by rw [hw.1]; exact hc.ok hH hAv) h5
          have hv1 : ∀ v ∈ vs, v.id < s1.abs.next := by rw [ha1]; exact hv
          obtain ⟨l1, l2, l3, l4⟩ := addLearned_str hst1 hv1 (fun f hf => (hfs f (hE f hf)).1)
            (lift_ok h7)
          obtain ⟨d1, d2, d3, d4, d5, d6⟩ := addLearned_d plainS_neg hst1 hsd1 hv1
            (fun f hf => (hfs f (hE f hf)).1) (fun f hf => (hfine f (hE f hf)).2.1) hT1 (lift_ok h7)
          obtain ⟨i1, i2, i3, i4, i5⟩ := checkLoop_delta hd hp hn hH hAv he hfp hδ h8 hw l1
            (fun v hv' => lt_of_lt_of_le (hv1 v hv') l2.le) hc' d1 d3 hw01
          refine ⟨i1, hce.trans (d2.trans i2), i3, i4.trans (d4.trans ht1), fun b hb hsp => ?_⟩
          have := i5 b hb hsp
          exact ⟨this.shape, fun h => this.alive (by rw [writeBools_bot]; exact h), fun ρ h => numIn_write hs hbool (this.num ρ h), this.bool01,
            this.assigned⟩

end Verif.Proof
