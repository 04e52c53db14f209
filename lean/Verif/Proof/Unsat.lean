import Verif.Proof.CheckInv
import Verif.Proof.ModelVars
import Verif.Spec.Problem

/-!
# Every solution of the posed problem survives in the solver
-/

namespace Verif.Proof
open Verif Verif.Model Verif.Spec

/-- The extension `ρ'` of the solution `ρ` to the variables of the solver. -/
structure Wit (D : Dom) (I : Interp) (d : Dbl) (made : List Variable) (s : SatState) (box : Box)
    (stack : List Fml) (ρ ρ' : Valuation) : Prop where
  agree : ∀ v : Variable, (v ∈ made ∨ s.abs.next ≤ v.id) → ρ' v = ρ v
  inBox : InBox ρ' box
  typed : TypedOn ρ' box.vars
  sat : SatWit D I d s ρ'
  ff : .ff ∉ stack

/-- As long as nothing has been asserted, the solver knows the intervals only. -/
structure Free (s : SatState) (box : Box) (stack : List Fml) (P : Problem) : Prop where
  cl : s.clauses.vec = []
  stk : stack = []
  sym : ∀ n, s.toSym.map n = none
  comp : ∀ (i : Nat) w iv, box.vars[i]? = some w → (w, iv) ∈ P.dom → ∀ x, InItv x iv →
    InItv x (box.get i)
  bot : box.bot = true → ∃ w iv, box.vars[0]? = some w ∧ (w, iv) ∈ P.dom ∧ ∀ x, ¬ InItv x iv
  all : ∀ v ∈ box.vars, P.Declared v

/-- One scope. -/
structure LvInv (D : Dom) (I : Interp) (d : Dbl) (made : List Variable)
    (H : Variable → Option Nat) (s : SatState) (box : Box) (stack : List Fml) (P : Problem) :
    Prop where
  wf : BoxWf box
  pos : ∀ (i : Nat) v, box.vars[i]? = some v → H v = some i
  kinds : ∀ v ∈ box.vars, v.id < s.abs.next ∧
    (P.Declared v ∨ (v ∉ made ∧ v.type = .continuous))
  dom : ∀ v, P.Declared v → v ∈ box.vars ∧ v ∈ made
  str : SatStr box.vars s
  free : P.asserted = [] → Free s box stack P
  wit : ∀ ρ, SolvedBy I P ρ → RegularAt D I d P ρ → ∃ ρ', Wit D I d made s box stack ρ ρ'

/-- The context with its problem part replaced. -/
def withPart (c : Ctx) (p : ProblemPart) : Ctx :=
  { c with boxes := p.boxes, stack := p.stack
           sat := { c.sat with toSat := p.toSat, toSym := p.toSym, tseitinVars := p.tseitinVars
                               clauses := p.clauses } }

/-- The open scopes, innermost first. -/
def AllInv (D : Dom) (I : Interp) (d : Dbl) (made : List Variable) (H : Variable → Option Nat) :
    Ctx → List Problem → Prop
  | _, [] => False
  | c, P :: Ps => LvInv D I d made H c.sat c.box c.stack.vec P ∧
      ∀ p, PopsTo c p → AllInv D I d made H (withPart c p) Ps

/-- What only grows. -/
structure Grows (made made' : List Variable) (H H' : Variable → Option Nat) (s s' : SatState) :
    Prop where
  tab : TabInv s'.abs
  ext : TabExt s.abs s'.abs
  max : s.maxVar ≤ s'.maxVar
  new : ∀ v ∈ made', v ∈ made ∨ s.abs.next ≤ v.id
  sub : ∀ v ∈ made, v ∈ made'
  place : ∀ v i, H v = some i → H' v = some i

section
variable {D : Dom} {I : Interp} {d : Dbl}

theorem satStr_grow {vs s s'} (h : SatStr vs s) (hi : TabInv s'.abs) (e : TabExt s.abs s'.abs)
    (hm : s.maxVar ≤ s'.maxVar) (h1 : s'.toSat = s.toSat) (h2 : s'.toSym = s.toSym)
    (h3 : s'.tseitinVars = s.tseitinVars) (h4 : s'.clauses = s.clauses) : SatStr vs s' := by
  refine ⟨hi, by rw [h1, h2]; exact h.ss, ?_, ?_⟩
  · intro n v hn
    rw [h2] at hn
    obtain ⟨a1, a2, a3⟩ := h.sym n v hn
    have := a3.abs e (ts := s.tseitinVars) (fun _ h => h)
    exact ⟨a1, a2.trans hm, this.bool, this.lt, by rw [h3]; exact this.kind, this.atom⟩
  · rw [h4]
    intro c hc l hl
    exact ⟨(h.lits c hc l hl).1, (h.lits c hc l hl).2.trans hm⟩

theorem satWit_grow {vs s s' ρ} (h : SatStr vs s) (e : TabExt s.abs s'.abs)
    (h2 : s'.toSym = s.toSym) (h4 : s'.clauses = s.clauses) (hw : SatWit D I d s ρ) :
    SatWit D I d s' ρ := by
  refine ⟨?_, ?_⟩
  · have : satVal s' ρ = satVal s ρ := by funext i; unfold satVal; rw [h2]
    rw [this, h4]; exact hw.cl
  · intro n v hn a ha
    rw [h2] at hn
    exact hw.names n v hn a (table_old e ha (h.sym n v hn).2.2.lt)

theorem LvInv.grow {made made' H H' s s' box stack P} (h : LvInv D I d made H s box stack P)
    (g : Grows made made' H H' s s') (h1 : s'.toSat = s.toSat) (h2 : s'.toSym = s.toSym)
    (h3 : s'.tseitinVars = s.tseitinVars) (h4 : s'.clauses = s.clauses) :
    LvInv D I d made' H' s' box stack P where
  wf := h.wf
  pos := fun i v hv => g.place _ _ (h.pos i v hv)
  kinds := fun v hv => by
    obtain ⟨a, b⟩ := h.kinds v hv
    refine ⟨lt_of_lt_of_le a g.ext.le, b.imp id (fun b => ⟨fun hm => ?_, b.2⟩)⟩
    rcases g.new v hm with h | h
    · exact b.1 h
    · omega
  dom := fun v hv => ⟨(h.dom v hv).1, g.sub _ (h.dom v hv).2⟩
  str := satStr_grow h.str g.tab g.ext g.max h1 h2 h3 h4
  free := fun ha => ⟨by rw [h4]; exact (h.free ha).cl, (h.free ha).stk,
    by rw [h2]; exact (h.free ha).sym, (h.free ha).comp, (h.free ha).bot, (h.free ha).all⟩
  wit := fun ρ hs hr => by
    obtain ⟨ρ', w⟩ := h.wit ρ hs hr
    refine ⟨ρ', fun v hv => w.agree v ?_, w.inBox, w.typed, satWit_grow h.str g.ext h2 h4 w.sat, w.ff⟩
    rcases hv with hv | hv
    · rcases g.new v hv with h | h
      exacts [.inl h, .inr h]
    · exact .inr (g.ext.le.trans hv)

/-- Nothing is asserted: every point with the declared types and intervals is there. -/
theorem Free.wit {made s box stack P} (h : Free s box stack P) {ρ} (hs : SolvedBy I P ρ) :
    Wit D I d made s box stack ρ ρ := by
  refine ⟨fun _ _ => rfl, ⟨?_, fun i v hv => ?_⟩, fun v hv => ?_, ⟨?_, fun n v hn => ?_⟩, ?_⟩
  · cases hb : box.bot with
    | false => rfl
    | true =>
      obtain ⟨w, iv, -, h1, h2⟩ := h.bot hb
      exact absurd (hs.dom _ h1) (h2 _)
  · obtain ⟨iv, hiv⟩ := h.all v (List.mem_of_getElem? hv)
    exact h.comp i v iv hv hiv _ (hs.dom _ hiv)
  · obtain ⟨iv, hiv⟩ := h.all v hv
    exact hs.typed _ hiv
  · rw [h.cl]; simp [Satisfies]
  · rw [h.sym] at hn; cases hn
  · rw [h.stk]; simp

theorem part_withPart (c p) : problemPart (withPart c p) = p := rfl

theorem AllInv.grow {made made' H H'} : ∀ {Ps c c'}, AllInv D I d made H c Ps →
    Grows made made' H H' c.sat c'.sat → problemPart c' = problemPart c →
    AllInv D I d made' H' c' Ps
  | [], _, _, h, _, _ => absurd h id
  | P :: Ps, c, c', h, g, hp => by
    have hp' := hp
    unfold problemPart at hp'
    simp only [ProblemPart.mk.injEq] at hp'
    obtain ⟨p1, p2, p3, p4, p5, p6⟩ := hp'
    have hb : c'.box = c.box := by unfold Ctx.box; rw [p1]
    refine ⟨?_, fun p hpp => ?_⟩
    · rw [hb, p2]; exact h.1.grow g p3 p4 p5 p6
    · have := h.2 p (PopsTo.of_part hp.symm hpp)
      exact AllInv.grow this ⟨g.tab, g.ext, g.max, g.new, g.sub, g.place⟩ rfl

theorem CtxExt.pops' {c c' p} (h : CtxExt c c') (hp : PopsTo c' p) : PopsTo c p :=
  ⟨h.boxes.2.symm.trans hp.boxes, h.stack.2.symm.trans hp.stack, h.sat.sat.2.symm.trans hp.toSat,
    h.sat.sym.2.symm.trans hp.toSym, h.sat.ts.2.symm.trans hp.ts, h.sat.cl.2.symm.trans hp.cl⟩

/-- A call within a scope. -/
theorem AllInv.flat {made made' H H' c c' P P' Ps} (h : AllInv D I d made H c (P :: Ps))
    (e : CtxExt c c') (g : Grows made made' H H' c.sat c'.sat)
    (h' : LvInv D I d made' H' c'.sat c'.box c'.stack.vec P') :
    AllInv D I d made' H' c' (P' :: Ps) := by
  refine ⟨h', fun p hp => ?_⟩
  exact (h.2 p (CtxExt.pops' e hp)).grow (c' := withPart c' p)
    ⟨g.tab, g.ext, g.max, g.new, g.sub, g.place⟩ rfl

end

/-- The whole context. -/
structure KInv (D : Dom) (I : Interp) (d : Dbl) (k : Books) (H : Variable → Option Nat) (c : Ctx) :
    Prop where
  wf : CtxWf c
  tab : TabInv c.sat.abs
  made : ∀ v ∈ k.made, v.id < c.sat.abs.next ∧ v ∉ c.sat.abs.table.map Prod.fst
  cache : CacheInv H (fun ws => k.built ∧ ws = c.box.vars) c.cache
  plain : ¬ k.quant → NoAll c.sat.abs.table
  bq : k.built → k.quant
  place : ∀ v i, H v = some i → v.id < c.sat.abs.next ∧ (v ∈ k.used ∨ v ∉ k.made)
  levels : AllInv D I d k.made H c k.levels

section
variable {D : Dom} {I : Interp} {d : Dbl}

theorem KInv.cons {k H c} (h : KInv D I d k H c) : ∃ P Ps, k.levels = P :: Ps ∧ k.top = P ∧
    LvInv D I d k.made H c.sat c.box c.stack.vec P ∧ AllInv D I d k.made H c (P :: Ps) := by
  have := h.levels
  cases hl : k.levels with
  | nil => rw [hl] at this; exact absurd this id
  | cons P Ps =>
    rw [hl] at this
    exact ⟨P, Ps, rfl, by unfold Books.top; rw [hl]; rfl, this.1, this⟩

theorem tabInv_next {s : AbsState} {n} (h : TabInv s) (hn : s.next ≤ n) :
    TabInv { s with next := n } :=
  ⟨⟨h.abs.boolean, fun p hp => lt_of_lt_of_le (h.abs.lt p hp) hn, h.abs.sorted, h.abs.nodup,
    h.abs.fv⟩, h.simple⟩

theorem tabExt_next {s : AbsState} {n} (hn : s.next ≤ n) : TabExt s { s with next := n } :=
  ⟨hn, List.prefix_rfl, fun _ h => .inl h⟩

theorem box_setBox (c : Ctx) (b) : (c.setBox b).box = b := by
  unfold Ctx.box Ctx.setBox
  simp [List.getLastD_eq_getLast?]

/-! ### Making variables -/

theorem kinv_newVar {k H c t} (h : KInv D I d k H c) :
    KInv D I d (k.step c.sat.abs.next (.newVar t)) H
      { c with sat := { c.sat with abs := { c.sat.abs with next := c.sat.abs.next + 1 } } } := by
  have g : Grows k.made (⟨c.sat.abs.next, t⟩ :: k.made) H H c.sat
      { c.sat with abs := { c.sat.abs with next := c.sat.abs.next + 1 } } :=
    ⟨tabInv_next h.tab (Nat.le_succ _), tabExt_next (Nat.le_succ _), le_rfl, fun v hv => by
      rcases List.mem_cons.mp hv with rfl | hv
      · exact .inr le_rfl
      · exact .inl hv, fun v hv => by simp [hv], fun _ _ h => h⟩
  refine ⟨⟨h.wf.1, h.wf.2, ⟨h.wf.sat.1, h.wf.sat.2, h.wf.sat.3, h.wf.sat.4⟩⟩, g.tab, ?_, h.cache,
    h.plain, h.bq, ?_, h.levels.grow g rfl⟩
  · intro v hv
    rcases List.mem_cons.mp hv with rfl | hv
    · refine ⟨Nat.lt_succ_self _, fun hk => ?_⟩
      obtain ⟨p, hp, he⟩ := List.mem_map.mp hk
      have := h.tab.abs.lt p hp
      rw [he] at this
      exact absurd this (lt_irrefl _)
    · exact ⟨Nat.lt_succ_of_lt (h.made v hv).1, (h.made v hv).2⟩
  · intro v i hi
    obtain ⟨a, b⟩ := h.place v i hi
    refine ⟨Nat.lt_succ_of_lt a, b.imp id (fun b hm => ?_)⟩
    rcases List.mem_cons.mp hm with rfl | hm
    · exact absurd a (lt_irrefl _)
    · exact b hm

/-! ### Boxes -/

theorem satStr_vars {vs vs' : List Variable} {s} (hv : ∀ v ∈ vs, v ∈ vs') (h : SatStr vs s) :
    SatStr vs' s :=
  ⟨h.tab, h.ss, fun n v hn => ⟨(h.sym n v hn).1, (h.sym n v hn).2.1, (h.sym n v hn).2.2.bool,
    (h.sym n v hn).2.2.lt, (h.sym n v hn).2.2.kind.imp id (Or.imp id (hv v)),
    fun a ha => ((h.sym n v hn).2.2.atom a ha).mono hv⟩, h.lits⟩

theorem addToBox_in {b : Box} {v} {ρ : Valuation} (wf : BoxWf b) (h : InBox ρ b)
    (hv : v ∉ b.vars → InItv (ρ v) (newItv v.type)) : InBox ρ (addToBox b v) := by
  unfold addToBox
  rw [← newItv_eq]
  split
  · exact h
  · rename_i hn
    rw [if_neg (by rw [h.1]; simp)]
    refine ⟨h.1, fun i w hw => ?_⟩
    simp only at hw
    have hlen := wf.1
    by_cases hi : i < b.vars.length
    · rw [List.getElem?_append_left hi] at hw
      have := h.2 i w hw
      have he : Box.get { b with vars := b.vars ++ [v], vals := b.vals ++ [newItv v.type] } i =
          b.get i := by
        simp only [Box.get, List.getD_eq_getElem?_getD]
        rw [List.getElem?_append_left (by omega)]
      rw [he]; exact this
    · rw [List.getElem?_append_right (by omega)] at hw
      have hi' : i - b.vars.length = 0 := by
        by_contra hne
        obtain ⟨j, hj⟩ := Nat.exists_eq_succ_of_ne_zero hne
        rw [hj] at hw; simp at hw
      rw [hi'] at hw
      simp only [List.getElem?_cons_zero, Option.some.injEq] at hw
      subst hw
      have he : Box.get { b with vars := b.vars ++ [v], vals := b.vals ++ [newItv v.type] } i =
          newItv v.type := by
        simp only [Box.get, List.getD_eq_getElem?_getD]
        rw [List.getElem?_append_right (by omega), hlen, hi']; rfl
      rw [he]; exact hv hn

theorem addAll_in {ρ : Valuation} : ∀ {vs : List Variable} {b : Box}, BoxWf b → InBox ρ b →
    (∀ v ∈ vs, v.type = .continuous) → InBox ρ (vs.foldl addToBox b)
  | [], _, _, h, _ => h
  | v :: vs, b, wf, h, hv => by
    rw [List.foldl_cons]
    refine addAll_in (addToBox_wf wf v) (addToBox_in wf h (fun _ => ?_))
      (fun w hw => hv w (by simp [hw]))
    rw [hv v (by simp)]
    simp [newItv, InItv, below, above]

theorem getElem?_snoc {α : Type} {l : List α} {a : α} {i x} (h : (l ++ [a])[i]? = some x) :
    l[i]? = some x ∨ (i = l.length ∧ x = a) := by
  by_cases hi : i < l.length
  · rw [List.getElem?_append_left hi] at h; exact .inl h
  · rw [List.getElem?_append_right (by omega)] at h
    have : i - l.length = 0 := by
      by_contra hne
      obtain ⟨j, hj⟩ := Nat.exists_eq_succ_of_ne_zero hne
      rw [hj] at h; simp at h
    rw [this] at h
    simp only [List.getElem?_cons_zero, Option.some.injEq] at h
    exact .inr ⟨by omega, h.symm⟩

/-- Places for one more variable. -/
theorem places_add {H : Variable → Option Nat} {b : Box} {v}
    (hp : ∀ (i : Nat) w, b.vars[i]? = some w → H w = some i) (hv : v ∉ b.vars → H v = none) :
    ∃ H' : Variable → Option Nat, (∀ w i, H w = some i → H' w = some i) ∧
      (∀ w i, H' w = some i → H w = some i ∨ w = v) ∧
      ∀ (i : Nat) w, (addToBox b v).vars[i]? = some w → H' w = some i := by
  by_cases hm : v ∈ b.vars
  · refine ⟨H, fun _ _ h => h, fun _ _ h => .inl h, ?_⟩
    rw [addToBox_vars, if_pos hm]; exact hp
  · refine ⟨fun w => if w = v then some b.vars.length else H w, fun w i hi => ?_, fun w i hi => ?_,
      fun i w hw => ?_⟩
    · simp only
      rw [if_neg (by rintro rfl; rw [hv hm] at hi; cases hi)]; exact hi
    · by_cases hwv : w = v
      · exact .inr hwv
      · simp only [if_neg hwv] at hi; exact .inl hi
    · rw [addToBox_vars, if_neg hm] at hw
      rcases getElem?_snoc hw with hw' | ⟨rfl, rfl⟩
      · have : w ≠ v := by rintro rfl; exact hm (List.mem_of_getElem? hw')
        simp only [if_neg this]; exact hp i w hw'
      · simp

theorem places_all {H : Variable → Option Nat} : ∀ {vs : List Variable} {b : Box},
    (∀ (i : Nat) w, b.vars[i]? = some w → H w = some i) → (∀ v ∈ vs, H v = none) → vs.Nodup →
    ∃ H' : Variable → Option Nat, (∀ w i, H w = some i → H' w = some i) ∧
      (∀ w i, H' w = some i → H w = some i ∨ w ∈ vs) ∧
      ∀ (i : Nat) w, (vs.foldl addToBox b).vars[i]? = some w → H' w = some i
  | [], b, hp, _, _ => ⟨H, fun _ _ h => h, fun _ _ h => .inl h, hp⟩
  | v :: vs, b, hp, hv, hn => by
    obtain ⟨H1, a1, a2, a3⟩ := places_add (v := v) hp (fun _ => hv v (by simp))
    obtain ⟨H2, b1, b2, b3⟩ := places_all (vs := vs) a3 (fun w hw => by
      cases hh : H1 w with
      | none => rfl
      | some i =>
        rcases a2 w i hh with h | rfl
        · rw [hv w (by simp [hw])] at h; cases h
        · exact absurd hw (List.nodup_cons.mp hn).1) (List.nodup_cons.mp hn).2
    refine ⟨H2, fun w i h => b1 w i (a1 w i h), fun w i h => ?_, b3⟩
    rcases b2 w i h with h | h
    · rcases a2 w i h with h | rfl
      · exact .inl h
      · exact .inr (by simp)
    · exact .inr (by simp [h])

/-! ### Declarations -/

theorem levels_setTop {k : Books} {P Ps} (hk : k.levels = P :: Ps) (Q : Problem) :
    (k.setTop Q).levels = Q :: Ps := by
  unfold Books.setTop; rw [hk]; rfl

theorem kinv_declare {k H c v m} (h : KInv D I d k H c) {n} (hu : k.Uses n (.declare v m)) :
    ∃ H', KInv D I d (k.step c.sat.abs.next (.declare v m)) H' (declare c v m) := by
  obtain ⟨P, Ps, hk, ht, hl, hall⟩ := h.cons
  obtain ⟨hm, hu⟩ := hu
  rw [ht] at hu
  have hnew : v ∉ c.box.vars → H v = none := by
    intro hn
    have hnd : ¬ P.Declared v := fun hd => hn (hl.dom v hd).1
    cases hh : H v with
    | none => rfl
    | some i =>
      rcases (h.place v i hh).2 with h1 | h1
      · exact absurd h1 (hu.resolve_left hnd).1
      · exact absurd hm h1
  obtain ⟨H', a1, a2, a3⟩ := places_add hl.pos hnew
  have hsat : (declare c v m).sat = c.sat := by unfold declare; simp only; split <;> rfl
  have hbox : (declare c v m).box = addToBox c.box v := by
    unfold declare; simp only; split <;> exact box_setBox _ _
  have hstk : (declare c v m).stack = c.stack := by unfold declare; simp only; split <;> rfl
  have hcache : (declare c v m).cache = c.cache := by unfold declare; simp only; split <;> rfl
  have g : Grows k.made k.made H H' c.sat (declare c v m).sat := by
    rw [hsat]; exact ⟨h.tab, .refl _, le_rfl, fun _ h => .inl h, fun _ h => h, a1⟩
  set dom' := if v ∈ P.dom.map Prod.fst then P.dom else (v, newItv v.type) :: P.dom with hdom'
  have hsub : ∀ p ∈ P.dom, p ∈ dom' := by
    intro p hp; rw [hdom']; split
    · exact hp
    · simp [hp]
  have hdec : ∀ w, (∃ iv, (w, iv) ∈ dom') ↔ P.Declared w ∨ w = v := by
    intro w
    rw [hdom']
    split
    · rename_i hmem
      obtain ⟨p, hp, rfl⟩ := List.mem_map.mp hmem
      constructor
      · exact .inl
      · rintro (h | rfl)
        · exact h
        · exact ⟨p.2, hp⟩
    · constructor
      · rintro ⟨iv, hi⟩
        rcases List.mem_cons.mp hi with hi | hi
        · cases hi; exact .inr rfl
        · exact .inl ⟨iv, hi⟩
      · rintro (⟨iv, hi⟩ | rfl)
        · exact ⟨iv, by simp [hi]⟩
        · exact ⟨newItv w.type, List.mem_cons_self⟩
  refine ⟨H', (ctxExt_declare h.wf v m).wf, by rw [hsat]; exact h.tab, by rw [hsat]; exact h.made,
    by
      rw [hcache]
      refine h.cache.mono a1 (fun ws hw => ⟨hw.1, ?_⟩)
      rcases hu with hu | hu
      · rw [hbox, addToBox_vars, if_pos (hl.dom v hu).1]; exact hw.2
      · exact absurd hw.1 hu.2, by rw [hsat]; exact h.plain, h.bq, ?_, ?_⟩
  · intro w i hi
    rw [hsat]
    rcases a2 w i hi with hi | rfl
    · exact ⟨(h.place w i hi).1, (h.place w i hi).2.imp (fun h => List.mem_cons_of_mem _ h) id⟩
    · exact ⟨(h.made w hm).1, .inl List.mem_cons_self⟩
  · show AllInv D I d k.made H' _ (k.setTop { k.top with dom := _ }).levels
    rw [levels_setTop hk, ht]
    refine hall.flat (ctxExt_declare h.wf v m) g ?_
    rw [hsat, hbox, hstk]
    refine ⟨addToBox_wf hl.wf v, a3, ?_, ?_, ?_, fun ha => ?_, ?_⟩
    · intro w hw
      rcases addToBox_mem.mp hw with hw | rfl
      · exact ⟨(hl.kinds w hw).1, (hl.kinds w hw).2.imp (fun h => (hdec w).mpr (.inl h)) id⟩
      · exact ⟨(h.made w hm).1, .inl ((hdec w).mpr (.inr rfl))⟩
    · intro w hw
      rcases (hdec w).mp hw with hw | rfl
      · exact ⟨addToBox_mem.mpr (.inl (hl.dom w hw).1), (hl.dom w hw).2⟩
      · exact ⟨addToBox_mem.mpr (.inr rfl), hm⟩
    · exact satStr_vars (fun w hw => addToBox_mem.mpr (.inl hw)) hl.str
    · have hf := hl.free ha
      have hall' : ∀ w ∈ (addToBox c.box v).vars, ∃ iv, (w, iv) ∈ dom' := by
        intro w hw
        rcases addToBox_mem.mp hw with hw | rfl
        · exact (hdec w).mpr (.inl (hf.all w hw))
        · exact (hdec w).mpr (.inr rfl)
      by_cases hvb : v ∈ c.box.vars
      · have e1 : addToBox c.box v = c.box := by unfold addToBox; rw [if_pos hvb]
        have e2 : dom' = P.dom := by
          obtain ⟨iv, hiv⟩ := hf.all v hvb
          rw [hdom', if_pos (List.mem_map.mpr ⟨_, hiv, rfl⟩)]
        rw [e1] at hall' ⊢
        change Free c.sat c.box c.stack.vec { P with dom := dom' }
        rw [e2] at hall' ⊢
        exact ⟨hf.cl, hf.stk, hf.sym, hf.comp, hf.bot, hall'⟩
      · have hnd : v ∉ P.dom.map Prod.fst := fun hmem => by
          obtain ⟨p, hp, rfl⟩ := List.mem_map.mp hmem
          exact hvb (hl.dom _ ⟨p.2, hp⟩).1
        have hb0 : ¬ (c.box.vars = [] ∧ c.box.bot = true) := by
          rintro ⟨e1, e2⟩
          obtain ⟨w, iv, h0, -⟩ := hf.bot e2
          rw [e1] at h0; cases h0
        have e2 : dom' = (v, newItv v.type) :: P.dom := by rw [hdom', if_neg hnd]
        refine ⟨hf.cl, hf.stk, hf.sym, fun i w iv hw hiv x hx => ?_, fun hb => ?_, hall'⟩
        · have e1 : addToBox c.box v = { c.box with
              vars := c.box.vars ++ [v], vals := c.box.vals ++ [newItv v.type] } := by
            unfold addToBox; rw [if_neg hvb, if_neg hb0, newItv_eq]
          rw [e1] at hw ⊢
          have hlen := hl.wf.1
          rcases getElem?_snoc hw with hw' | ⟨rfl, rfl⟩
          · have hi := lt_of_getElem? hw'
            have hne : w ≠ v := by rintro rfl; exact hvb (List.mem_of_getElem? hw')
            have hiv' : (w, iv) ∈ P.dom := by
              change (w, iv) ∈ dom' at hiv
              rw [e2] at hiv
              rcases List.mem_cons.mp hiv with h0 | h0
              · cases h0; exact absurd rfl hne
              · exact h0
            have := hf.comp i w iv hw' hiv' x hx
            simp only [Box.get, List.getD_eq_getElem?_getD] at this ⊢
            rw [List.getElem?_append_left (by omega)]; exact this
          · have hiv' : iv = newItv w.type := by
              change (w, iv) ∈ dom' at hiv
              rw [e2] at hiv
              rcases List.mem_cons.mp hiv with h0 | h0
              · cases h0; rfl
              · exact absurd (List.mem_map_of_mem (f := Prod.fst) h0) hnd
            subst hiv'
            simp only [Box.get, List.getD_eq_getElem?_getD]
            rw [← hlen, List.getElem?_append_right (le_refl _)]
            simpa using hx
        · have hbb : c.box.bot = true := by
            unfold addToBox at hb; rw [if_neg hvb, if_neg hb0] at hb; exact hb
          obtain ⟨w, iv, h0, h1, h2⟩ := hf.bot hbb
          refine ⟨w, iv, ?_, hsub _ h1, h2⟩
          rw [addToBox_vars, if_neg hvb, List.getElem?_append_left (lt_of_getElem? h0)]
          exact h0
    · intro ρ hs hr
      obtain ⟨ρ', w⟩ := hl.wit ρ ⟨fun p hp => hs.typed p (hsub p hp),
        fun p hp => hs.dom p (hsub p hp), hs.holds⟩ hr
      have hv := w.agree v (.inl hm)
      refine ⟨ρ', w.agree, addToBox_in hl.wf w.inBox (fun hn => ?_), fun x hx => ?_, w.sat, w.ff⟩
      · have hnd : v ∉ P.dom.map Prod.fst := fun hmem => by
          obtain ⟨p, hp, rfl⟩ := List.mem_map.mp hmem
          exact hn (hl.dom _ ⟨p.2, hp⟩).1
        rw [hv]
        have := hs.dom (v, newItv v.type) (by
          show _ ∈ dom'
          rw [hdom', if_neg hnd]; simp)
        exact this
      · rcases addToBox_mem.mp hx with hx | rfl
        · exact w.typed x hx
        · rw [hv]
          obtain ⟨iv, hiv⟩ := (hdec x).mpr (.inr rfl)
          exact hs.typed (x, iv) hiv

/-! ### Intervals -/

theorem mkItv_in {x : ℝ} {lb ub} (h : InItv x ⟨lb, ub⟩) : InItv x (mkItv lb ub) := by
  unfold mkItv
  have hne := not_isEmpty_of_in h
  split
  · rename_i hc
    exfalso
    simp only [hne, Bool.false_or, Bool.or_eq_true, decide_eq_true_eq] at hc
    rcases hc with rfl | rfl
    · exact h.1
    · exact h.2
  · exact h

theorem setV_in {b : Box} {v} {iv : Itv} {ρ : Valuation} (wf : BoxWf b) (hv : v ∈ b.vars)
    (h : ∀ (i : Nat) w, b.vars[i]? = some w → w ≠ v → InItv (ρ w) (b.get i))
    (hi : InItv (ρ v) iv) : ∀ (i : Nat) w, b.vars[i]? = some w → InItv (ρ w) ((b.setV v iv).get i) := by
  intro i w hw
  have hj := (index_of_mem hv).2
  have hl : b.index v < b.vals.length := by rw [wf.1]; exact lt_of_getElem? hj
  show InItv _ ((b.set (b.index v) _).get i)
  by_cases hwv : w = v
  · subst hwv
    have : i = b.index w := (List.getElem?_inj (lt_of_getElem? hw) wf.2).mp (by rw [hw, hj])
    subst this
    rw [get_set_self hl]; exact hi
  · have hne : b.index v ≠ i := by
      rintro rfl
      rw [hj] at hw; cases hw; exact hwv rfl
    rw [get_set_ne hne]
    exact h i w hw hwv

theorem kinv_setInterval {k H c v lb ub c'} (h : KInv D I d k H c)
    {n} (hu : k.Uses n (.setInterval v lb ub)) (hs : setInterval c v lb ub = .ok c') :
    KInv D I d (k.step c.sat.abs.next (.setInterval v lb ub)) H c' := by
  obtain ⟨P, Ps, hk, ht, hl, hall⟩ := h.cons
  obtain ⟨hdv, hu⟩ := hu
  rw [ht] at hu hdv
  have hm := (hl.dom v hdv).2
  have e := ctxExt_setInterval h.wf hs
  have hw : CtxWf c' := e.wf
  unfold setInterval at hs
  split at hs
  swap
  · cases hs
  rename_i hvb
  simp only [Outcome.ok.injEq] at hs; subst hs
  set b' : Box := { c.box.setV v (mkItv lb ub) with
    bot := if c.box.index v = 0 then (mkItv lb ub).isEmpty else (c.box.setV v (mkItv lb ub)).bot }
    with hb'
  have hvars : b'.vars = c.box.vars := rfl
  set dom' := P.dom.map fun p => if p.1 = v then (v, (⟨lb, ub⟩ : Itv)) else p with hdom'
  have hdec : ∀ w, (∃ iv, (w, iv) ∈ dom') ↔ P.Declared w := by
    intro w
    constructor
    · rintro ⟨iv, hi⟩
      obtain ⟨p, hp, he⟩ := List.mem_map.mp hi
      split at he
      · rename_i hpv; cases he; exact ⟨p.2, hpv ▸ hp⟩
      · rw [he] at hp; exact ⟨iv, hp⟩
    · rintro ⟨iv, hi⟩
      by_cases hwv : w = v
      · subst hwv
        exact ⟨⟨lb, ub⟩, List.mem_map.mpr ⟨(w, iv), hi, by simp only [if_true]⟩⟩
      · exact ⟨iv, List.mem_map.mpr ⟨(w, iv), hi, by simp only [if_neg hwv]⟩⟩
  have hother : ∀ w iv, w ≠ v → (w, iv) ∈ dom' → (w, iv) ∈ P.dom := by
    intro w iv hne hi
    obtain ⟨p, hp, he⟩ := List.mem_map.mp hi
    split at he
    · cases he; exact absurd rfl hne
    · rw [he] at hp; exact hp
  have hself : ∀ iv, (v, iv) ∈ dom' → iv = ⟨lb, ub⟩ := by
    intro iv hi
    obtain ⟨p, hp, he⟩ := List.mem_map.mp hi
    split at he
    · cases he; rfl
    · rename_i hne; rw [he] at hne; exact absurd rfl hne
  have hfree : P.asserted = [] → Free c.sat b' c.stack.vec { P with dom := dom' } := by
    intro ha
    have hf := hl.free ha
    have hj := (index_of_mem hvb).2
    have hlen : c.box.index v < c.box.vals.length := by rw [hl.wf.1]; exact lt_of_getElem? hj
    refine ⟨hf.cl, hf.stk, hf.sym, fun i w iv hw hiv x hx => ?_, fun hb => ?_,
      fun w hw => (hdec w).mpr (hf.all w hw)⟩
    · show InItv x ((c.box.set (c.box.index v) (mkItv lb ub)).get i)
      by_cases hwv : w = v
      · subst hwv
        have hw' : c.box.vars[i]? = some w := hw
        have hi : i = c.box.index w := (List.getElem?_inj (lt_of_getElem? hw') hl.wf.2).mp
          (by rw [hj, hw'])
        rw [hi, get_set_self hlen]
        rw [hself iv hiv] at hx
        exact mkItv_in hx
      · have hne : c.box.index v ≠ i := by
          intro he
          rw [he] at hj
          have : c.box.vars[i]? = some w := hw
          rw [hj] at this; cases this; exact hwv rfl
        rw [get_set_ne hne]
        exact hf.comp i w iv hw (hother w iv hwv hiv) x hx
    · change (if c.box.index v = 0 then _ else _) = true at hb
      split at hb
      · rename_i h0
        rw [h0] at hj
        obtain ⟨iv, hiv⟩ := (hdec v).mpr hdv
        refine ⟨v, iv, hj, hiv, fun x hx => ?_⟩
        rw [hself iv hiv] at hx
        rw [not_isEmpty_of_in (mkItv_in hx)] at hb; cases hb
      · rename_i h0
        obtain ⟨w, iv, w0, w1, w2⟩ := hf.bot hb
        have hwv : w ≠ v := by
          rintro rfl
          exact h0 ((List.getElem?_inj (lt_of_getElem? hj) hl.wf.2).mp (by rw [hj, w0]))
        exact ⟨w, iv, w0, List.mem_map.mpr ⟨(w, iv), w1, by simp only [if_neg hwv]⟩, w2⟩
  refine ⟨hw, h.tab, h.made, by rw [box_setBox]; exact h.cache, h.plain, h.bq, h.place, ?_⟩
  show AllInv D I d k.made H _ (k.setTop { k.top with dom := _ }).levels
  rw [levels_setTop hk, ht]
  refine hall.flat e ⟨h.tab, .refl _, le_rfl, fun _ h => .inl h, fun _ h => h, fun _ _ h => h⟩ ?_
  rw [box_setBox]
  refine ⟨⟨(set_wf hl.wf).1, hl.wf.2⟩, hl.pos, fun w hw => ⟨(hl.kinds w hw).1,
    (hl.kinds w hw).2.imp (fun h => (hdec w).mpr h) id⟩, fun w hw => hl.dom w ((hdec w).mp hw),
    hl.str, fun ha => hfree ha, fun ρ hsol hr => ?_⟩
  rcases hu with ha | hu
  · exact ⟨ρ, (hfree ha).wit hsol⟩
  have hin : InItv (ρ v) ⟨lb, ub⟩ := by
    obtain ⟨iv, hi⟩ := hdv
    exact hsol.dom (v, ⟨lb, ub⟩) (List.mem_map.mpr ⟨(v, iv), hi, by simp⟩)
  have hsol' : SolvedBy I P ρ := by
    refine ⟨fun p hp => ?_, fun p hp => ?_, hsol.holds⟩
    · obtain ⟨iv, hi⟩ := (hdec p.1).mpr ⟨p.2, hp⟩
      exact hsol.typed (p.1, iv) hi
    · by_cases hpv : p.1 = v
      · have hp2 : (v, p.2) ∈ P.dom := hpv ▸ hp
        rw [hpv]; exact hu p.2 hp2 _ hin
      · exact hsol.dom p (List.mem_map.mpr ⟨p, hp, by simp only [if_neg hpv]⟩)
  obtain ⟨ρ', w⟩ := hl.wit ρ hsol' hr
  have hmk : InItv (ρ' v) (mkItv lb ub) := by rw [w.agree v (.inl hm)]; exact mkItv_in hin
  refine ⟨ρ', w.agree, ⟨?_, ?_⟩, w.typed, w.sat, w.ff⟩
  · show (if c.box.index v = 0 then _ else _) = false
    split
    · exact not_isEmpty_of_in hmk
    · exact w.inBox.1
  · exact setV_in hl.wf hvb (fun i x hx _ => w.inBox.2 i x hx) hmk

/-! ### Assertions -/

theorem wf_atoms {V B : Variable → Prop} : ∀ {f : Fml}, WfF V f → IteFree f →
    (∀ v, v.type = .boolean → V v → B v) → ForAtoms (AtomP V) B (QB (WfQ V)) f := by
  intro f
  have key : ∀ (n : Nat) (f : Fml), sizeOf f ≤ n → WfF V f → IteFree f →
      (∀ v, v.type = .boolean → V v → B v) → ForAtoms (AtomP V) B (QB (WfQ V)) f := by
    intro n
    induction n with
    | zero => intro f hs; cases f <;> simp at hs
    | succ n ih =>
      intro f hs hw hi hB
      cases f with
      | ff => trivial
      | tt => trivial
      | bvar v => exact hB v hw.1 hw.2
      | rel op a b => exact ⟨hw, hi⟩
      | conj fs =>
        refine forAtomsL_iff.mpr (fun g hg => ?_)
        have := List.sizeOf_lt_of_mem hg
        simp only [Fml.conj.sizeOf_spec] at hs
        exact ih g (by omega) (wfFs_mem.mp hw g hg) (IteFreeList_iff.mp hi g hg) hB
      | disj fs =>
        refine forAtomsL_iff.mpr (fun g hg => ?_)
        have := List.sizeOf_lt_of_mem hg
        simp only [Fml.disj.sizeOf_spec] at hs
        exact ih g (by omega) (wfFs_mem.mp hw g hg) (IteFreeList_iff.mp hi g hg) hB
      | neg f =>
        simp only [Fml.neg.sizeOf_spec] at hs
        exact ih f (by omega) hw hi hB
      | all vs f => exact (matrix_wf f).mp hw
  exact key _ f le_rfl

mutual
/-- Replacing if-then-else terms brings in no quantifiers. -/
theorem iteE_qf : ∀ (e : Expr) (g : Fml) (s : IteState), QFreeE e → QF g →
    (∀ a ∈ s.added, QF a) → ∀ a ∈ (iteE e g s).2.added, QF a
  | .const _, _, _, _, _, hs => by simpa only [iteE] using hs
  | .rconst _, _, _, _, _, hs => by simpa only [iteE] using hs
  | .var _, _, _, _, _, hs => by simpa only [iteE] using hs
  | .add a b, g, s, h, hg, hs => by
    simp only [iteE]; exact iteE_qf b g _ h.2 hg (iteE_qf a g s h.1 hg hs)
  | .mul a b, g, s, h, hg, hs => by
    simp only [iteE]; exact iteE_qf b g _ h.2 hg (iteE_qf a g s h.1 hg hs)
  | .app1 f a, g, s, h, hg, hs => by simp only [iteE]; exact iteE_qf a g s h hg hs
  | .app2 f a b, g, s, h, hg, hs => by
    simp only [iteE]; exact iteE_qf b g _ h.2 hg (iteE_qf a g s h.1 hg hs)
  | .ite c a b, g, s, h, hg, hs => by
    obtain ⟨c1, c2⟩ := iteF_qf c g s.start h.1 hg hs
    have a2 := iteE_qf a _ _ h.2.1 (ForAtoms.andF hg c1) c2
    have b2 := iteE_qf b _ _ h.2.2 (ForAtoms.andF hg (ForAtoms.notF c1)) a2
    simp only [iteE, IteState.finish, List.mem_append, List.mem_cons, List.not_mem_nil, or_false]
    rintro x (hx | rfl | rfl)
    · exact b2 x hx
    · exact ForAtoms.orF (ForAtoms.notF (ForAtoms.andF hg c1)) (ForAtoms.mkRel trivial)
    · exact ForAtoms.orF (ForAtoms.notF (ForAtoms.andF hg (ForAtoms.notF c1)))
        (ForAtoms.mkRel trivial)
theorem iteF_qf : ∀ (f g : Fml) (s : IteState), QFree f → QF g →
    (∀ a ∈ s.added, QF a) → QF (iteF f g s).1 ∧ ∀ a ∈ (iteF f g s).2.added, QF a
  | .ff, _, _, _, _, hs => by simp only [iteF]; exact ⟨trivial, hs⟩
  | .tt, _, _, _, _, hs => by simp only [iteF]; exact ⟨trivial, hs⟩
  | .bvar _, _, _, _, _, hs => by simp only [iteF]; exact ⟨trivial, hs⟩
  | .rel op a b, g, s, h, hg, hs => by
    simp only [iteF]
    exact ⟨ForAtoms.mkRel trivial, iteE_qf b g _ h.2 hg (iteE_qf a g s h.1 hg hs)⟩
  | .conj fs, g, s, h, hg, hs => by
    simp only [iteF]
    obtain ⟨h1, h2⟩ := iteList_qf fs g s h hg hs
    exact ⟨.mkConj fun x hx => h1 x (mem_toSet.mp hx), h2⟩
  | .disj fs, g, s, h, hg, hs => by
    simp only [iteF]
    obtain ⟨h1, h2⟩ := iteList_qf fs g s h hg hs
    exact ⟨.mkDisj fun x hx => h1 x (mem_toSet.mp hx), h2⟩
  | .neg f, g, s, h, hg, hs => by
    simp only [iteF]
    exact ⟨ForAtoms.notF (iteF_qf f g s h hg hs).1, (iteF_qf f g s h hg hs).2⟩
  | .all _ _, _, _, h, _, _ => absurd h id
theorem iteList_qf : ∀ (fs : List Fml) (g : Fml) (s : IteState), QFrees fs → QF g →
    (∀ a ∈ s.added, QF a) →
    (∀ x ∈ (iteList fs g s).1, QF x) ∧ ∀ a ∈ (iteList fs g s).2.added, QF a
  | [], _, _, _, _, hs => by simp only [iteList]; exact ⟨by simp, hs⟩
  | f :: fs, g, s, h, hg, hs => by
    obtain ⟨h1, h2⟩ := iteF_qf f g s h.1 hg hs
    obtain ⟨h3, h4⟩ := iteList_qf fs g _ h.2 hg h2
    simp only [iteList, List.mem_cons, forall_eq_or_imp]
    exact ⟨⟨h1, h3⟩, h4⟩
end

theorem kinv_assert {cfg : CCfg} {k H c f c'} (hd : DblOk cfg.th.dbl)
    (h : KInv D I cfg.th.dbl k H c)
    (hu : k.Uses c.sat.abs.next (.assert f)) (hs : assertF cfg c f = .ok c') :
    ∃ H', KInv D I cfg.th.dbl (k.step c.sat.abs.next (.assert f)) H' c' := by
  obtain ⟨P, Ps, hk, ht, hl, hall⟩ := h.cons
  obtain ⟨hu, hold, hbi⟩ := hu
  have hu : WfF P.Declared f := by rw [← ht]; exact hu
  have hvb : ∀ v ∈ f.fv, v ∈ c.box.vars := fun v hv => (hl.dom v (wfF_fv f hu v hv)).1
  have e := ctxExt_assertF h.wf hs
  -- a step that changes the box only
  have simple : ∀ b' : Box, b'.vars = c.box.vars → BoxWf b' → c' = c.setBox b' →
      (∀ ρ ρ', SolvedBy I { P with asserted := f :: P.asserted } ρ → RegF D I cfg.th.dbl ρ' f →
        holds I ρ' f → InBox ρ' c.box → InBox ρ' b') →
      ∃ H', KInv D I cfg.th.dbl (k.step c.sat.abs.next (.assert f)) H' c' := by
    intro b' hb1 hb2 hc' hb3
    refine ⟨H, e.wf, ?_, ?_, ?_, ?_, fun hb => .inl (h.bq hb), ?_, ?_⟩
    · rw [hc']; exact h.tab
    · rw [hc']; exact h.made
    · rw [hc', box_setBox]; exact h.cache.mono (fun _ _ h => h) (fun ws hw => ⟨hw.1, hw.2.trans hb1.symm⟩)
    · rw [hc']; exact fun hq => h.plain (fun h => hq (.inl h))
    · rw [hc']; exact h.place
    · show AllInv D I cfg.th.dbl k.made H _ (k.setTop { k.top with asserted := _ }).levels
      rw [levels_setTop hk, ht]
      refine hall.flat e ?_ ?_
      · rw [hc']
        exact ⟨h.tab, .refl _, le_rfl, fun _ h => .inl h, fun _ h => h, fun _ _ h => h⟩
      rw [hc', box_setBox]
      refine ⟨hb2, by rw [hb1]; exact hl.pos, by rw [hb1]; exact hl.kinds,
        by rw [hb1]; exact hl.dom, by rw [hb1]; exact hl.str, fun ha => by simp at ha,
        fun ρ hsol hr => ?_⟩
      obtain ⟨ρ', w⟩ := hl.wit ρ ⟨hsol.typed, hsol.dom, fun g hg => hsol.holds g (by simp [hg])⟩
        (fun g hg => hr g (by simp [hg]))
      have hag : ∀ v ∈ f.fv, ρ' v = ρ v := fun v hv =>
        w.agree v (.inl (hl.dom v (wfF_fv f hu v hv)).2)
      refine ⟨ρ', w.agree, ?_, by rw [hb1]; exact w.typed, w.sat, w.ff⟩
      exact hb3 ρ ρ' hsol (regF_congr f hag (hr f (by simp)))
        ((holds_congr I f _ _ hag).mpr (hsol.holds f (by simp))) w.inBox
  have hself : c = c.setBox c.box := by
    have hne : c.boxes.vec ≠ [] := fun h0 => by
      have := h.wf.boxes.pos; rw [h0] at this; simp at this
    unfold Ctx.setBox Ctx.box
    cases c with
    | mk boxes =>
      cases boxes with
      | mk vec scopes =>
        simp only at hne ⊢
        congr 1
        rw [List.getLastD_eq_getLast?, List.getLast?_eq_getLast_of_ne_nil hne]
        simp [List.dropLast_append_getLast hne]
  unfold assertF at hs
  split at hs
  · simp only [Outcome.ok.injEq] at hs
    exact simple c.box rfl hl.wf (by rw [← hs]; exact hself) (fun _ _ _ _ _ h => h)
  split at hs
  · simp only [Outcome.ok.injEq] at hs
    exact simple c.box rfl hl.wf (by rw [← hs]; exact hself) (fun _ _ _ _ _ h => h)
  split at hs
  · rename_i hff
    simp only [Outcome.ok.injEq] at hs
    have hsh := wipe_shape (cfg := cfg) (vs := c.box.vars) ⟨rfl, hl.wf⟩
    refine simple (wipeBox cfg c.box) hsh.1 hsh.2 hs.symm (fun ρ ρ' hsol _ hh _ => ?_)
    subst hff
    simp at hh
  obtain ⟨⟨res, bf⟩, h1, h2⟩ := bindO_ok hs
  obtain ⟨f1, f2, f3, f4, -⟩ := filter_spec (I := I) hd hl.wf hvb (wfF_rc f hu) h1
  set b1 : Box := if bf.bot then wipeBox cfg bf else bf with hb1
  have hb1s : Shape c.box.vars b1 := by
    rw [hb1]; split
    · exact wipe_shape ⟨f1, f2⟩
    · exact ⟨f1, f2⟩
  have hb1in : ∀ ρ', RegF D I cfg.th.dbl ρ' f → holds I ρ' f → InBox ρ' c.box → InBox ρ' b1 := by
    intro ρ' hr hh hin
    have := f4 ρ' hin hh (regF_noGap hr)
    rw [hb1, this.1]; exact this
  have hfilt : res ≠ .notFiltered →
      ∃ H', KInv D I cfg.th.dbl (k.step c.sat.abs.next (.assert f)) H' c' := by
    intro hne
    refine simple b1 hb1s.1 hb1s.2 ?_ (fun ρ ρ' _ => hb1in ρ')
    cases res with
    | notFiltered => exact absurd rfl hne
    | withChange => simp only [Outcome.ok.injEq] at h2; exact h2.symm
    | withoutChange => simp only [Outcome.ok.injEq] at h2; exact h2.symm
  by_cases hres : res = .notFiltered
  swap
  · exact hfilt hres
  subst hres
  simp only at h2
  obtain ⟨s2, h3, h4⟩ := bindO_ok h2
  simp only [Outcome.ok.injEq] at h4
  -- the replacement of if-then-else terms
  set n0 := c.sat.abs.next with hn0
  have hsp := iteF_spec n0 f .tt { next := n0 } hold le_rfl
  obtain ⟨q1, q2, q3, q4, -⟩ := ProcSpec.of hsp le_rfl hold
  obtain ⟨kw, kr⟩ := ProcKeep.of hsp le_rfl hold
  set r := iteF f .tt { next := n0 } with hr
  have hproc : iteProcess (c.setBox b1).sat.abs.next f =
      (iteResult f r.1 r.2.added, r.2.vars, r.2.next) := rfl
  rw [hproc] at h3 h4
  simp only at h3 h4
  set g := iteResult f r.1 r.2.added with hg
  set n1 := r.2.next with hn1
  rw [box_setBox] at h4
  set b2 := r.2.vars.foldl addToBox b1 with hb2
  have hb2wf : BoxWf b2 := addAll_wf hb1s.2
  have hb2mem : ∀ w, w ∈ b2.vars ↔ w ∈ c.box.vars ∨ w ∈ r.2.vars := by
    intro w; rw [hb2, addAll_mem, hb1s.1]
  have hHnone : ∀ v ∈ r.2.vars, H v = none := by
    intro v hv
    cases hh : H v with
    | none => rfl
    | some i => have := (h.place v i hh).1; have := (q2 v hv).1; omega
  obtain ⟨H', p1, p2, p3⟩ := places_all (H := H) (b := b1) (by rw [hb1s.1]; exact hl.pos) hHnone q3
  have hnm : ∀ v ∈ r.2.vars, v ∉ k.made := fun v hv hm => by
    have := (h.made v hm).1; have := (q2 v hv).1; omega
  set s1 : SatState := { c.sat with abs := { c.sat.abs with next := n1 } } with hs1
  have hstr1 : SatStr b2.vars s1 := by
    have := satStr_abs (ts := c.sat.tseitinVars) hl.str (tabExt_next q1) (tabInv_next h.tab q1)
      (fun _ h => h)
    exact satStr_vars (fun v hv => (hb2mem v).mpr (.inl hv)) this
  have hlt : ∀ v ∈ b2.vars, v.id < s1.abs.next := by
    intro v hv
    rcases (hb2mem v).mp hv with hv | hv
    · exact lt_of_lt_of_le (hl.kinds v hv).1 q1
    · exact (q2 v hv).2.1
  have hntab : ∀ v ∈ b2.vars, v ∉ c.sat.abs.table.map Prod.fst := by
    intro v hv hk'
    obtain ⟨p, hp, rfl⟩ := List.mem_map.mp hk'
    have hb := h.tab.abs.boolean p hp
    rcases (hb2mem _).mp hv with hv | hv
    · rcases (hl.kinds _ hv).2 with hdc | hdc
      · exact (h.made _ (hl.dom _ hdc).2).2 (List.mem_map_of_mem hp)
      · rw [hb] at hdc; cases hdc.2
    · have := (q2 _ hv).2.2; rw [hb] at this; cases this
  have hwfg : WfF (· ∈ b2.vars) g := kw _ (fun v hv => (hb2mem v).mpr (.inr hv))
    (wfF_mono (fun v hv => (hb2mem v).mpr (.inl (hl.dom v hv).1)) f hu)
  have hatg : ForAtoms (AtomP (· ∈ b2.vars)) (fun v => v.type = .boolean ∧ v ∈ b2.vars)
      (QB (WfQ (· ∈ b2.vars))) g :=
    wf_atoms hwfg q4 (fun v h1 h2 => ⟨h1, h2⟩)
  obtain ⟨y1, y2, y3, y4⟩ := addFormula_str hstr1 hlt (fun v hv => ⟨hv.1, hv.2, hntab v hv.2⟩)
    hatg h3
  have hext : TabExt c.sat.abs s2.abs := (tabExt_next q1).trans y2
  have hc'sat : c'.sat = s2 := by rw [← h4]
  have hc'box : c'.box = b2 := by
    rw [← h4]
    exact box_setBox (c.setBox b1) b2
  have hc'stk : c'.stack.vec = c.stack.vec ++ [g] := by rw [← h4]; rfl
  have hc'cache : c'.cache = c.cache := by rw [← h4]; rfl
  refine ⟨H', e.wf, by rw [hc'sat]; exact y1.tab, ?_, ?_, ?_, fun hb => .inl (h.bq hb), ?_, ?_⟩
  · intro v hv
    have hv' : v ∈ k.made := hv
    rw [hc'sat]
    obtain ⟨m1, m2⟩ := h.made v hv'
    refine ⟨lt_of_lt_of_le m1 hext.le, fun hk' => ?_⟩
    obtain ⟨⟨w, a⟩, hp, rfl⟩ := List.mem_map.mp hk'
    exact m2 (List.mem_map_of_mem (f := Prod.fst) (table_old hext hp m1))
  · rw [hc'cache, hc'box]
    refine h.cache.mono p1 (fun ws hw => ⟨hw.1, hw.2.trans ?_⟩)
    have : r.2 = { next := n0 } := iteF_id f .tt _ (hbi hw.1)
    rw [hb2, this]; exact hb1s.1.symm
  · intro hq
    have hq' : ¬ k.quant ∧ QFree f := by
      have : ¬ (k.quant ∨ ¬ QFree f) := hq
      push Not at this; exact this
    rw [hc'sat]
    obtain ⟨qf1, qf2⟩ := iteF_qf f .tt { next := n0 } hq'.2 trivial (by simp)
    exact addFormula_noAll (ForAtoms.iteResult qf1 qf2) (s := s1) (h.plain hq'.1) h3
  · intro v i hi
    rw [hc'sat]
    rcases p2 v i hi with hi | hi
    · exact ⟨lt_of_lt_of_le (h.place v i hi).1 hext.le, (h.place v i hi).2⟩
    · exact ⟨lt_of_lt_of_le (q2 v hi).2.1 y2.le, .inr (hnm v hi)⟩
  · show AllInv D I cfg.th.dbl k.made H' _ (k.setTop { k.top with asserted := _ }).levels
    rw [levels_setTop hk, ht]
    refine hall.flat e ?_ ?_
    · rw [hc'sat]
      exact ⟨y1.tab, hext, y3, fun _ h => .inl h, fun _ h => h, p1⟩
    rw [hc'sat, hc'box, hc'stk]
    refine ⟨hb2wf, p3, ?_, ?_, y1, fun ha => by simp at ha, ?_⟩
    · intro v hv
      refine ⟨lt_of_lt_of_le (hlt v hv) y2.le, ?_⟩
      rcases (hb2mem v).mp hv with hv | hv
      · exact (hl.kinds v hv).2
      · exact .inr ⟨hnm v hv, (q2 v hv).2.2⟩
    · exact fun v hv => ⟨(hb2mem v).mpr (.inl (hl.dom v hv).1), (hl.dom v hv).2⟩
    · intro ρ hsol hreg
      obtain ⟨ρ1, w⟩ := hl.wit ρ ⟨hsol.typed, hsol.dom, fun g hg => hsol.holds g (by simp [hg])⟩
        (fun g hg => hreg g (by simp [hg]))
      have hag : ∀ v ∈ f.fv, ρ1 v = ρ v := fun v hv =>
        w.agree v (.inl (hl.dom v (wfF_fv f hu v hv)).2)
      have hr1 := regF_congr f hag (hreg f (by simp))
      have hh1 := (holds_congr I f _ _ hag).mpr (hsol.holds f (by simp))
      have hin1 := hb1in ρ1 hr1 hh1 w.inBox
      obtain ⟨ρ2, r1, r2, r3⟩ := kr D I cfg.th.dbl ρ1 hr1 hh1
      have hagbox : ∀ v ∈ c.box.vars, ρ2 v = ρ1 v := fun v hv => r1 v (fun hv' => by
        have := (hl.kinds v hv).1; have := (q2 v hv').1; omega)
      have hin2 : InBox ρ2 b1 := by
        refine ⟨hin1.1, fun i v hv => ?_⟩
        rw [hagbox v (by rw [← hb1s.1]; exact List.mem_of_getElem? hv)]
        exact hin1.2 i v hv
      have hin3 : InBox ρ2 b2 := addAll_in hb1s.2 hin2 (fun v hv => (q2 v hv).2.2)
      have hsat2 : SatWit D I cfg.th.dbl s1 ρ2 := by
        have := satWit_abs (a' := { c.sat.abs with next := n1 }) (ts := c.sat.tseitinVars) hl.str
          (tabExt_next q1) w.sat
        have hag2 : ∀ v : Variable, v.id < n0 → ρ2 v = ρ1 v := fun v hv => r1 v (fun hv' => by
          have := (q2 v hv').1; omega)
        refine ⟨?_, ?_⟩
        · have hval : satVal s1 ρ2 = satVal s1 ρ1 := by
            funext i
            unfold satVal
            congr 1
            refine propext (exists_congr fun v => and_congr_right fun hv => ?_)
            rw [hag2 v (hl.str.sym i v hv).2.2.lt]
          rw [hval]; exact this.cl
        · intro n v hn a ha
          have hok := (hl.str.sym n v hn).2.2
          have hfa : ∀ x ∈ a.fv, ρ2 x = ρ1 x := fun x hx =>
            hagbox x (AtomF.fv a (hok.atom a ha) x hx).2
          rw [hag2 v hok.lt, holds_congr I a _ _ hfa]
          have := w.sat.names n v hn a ha
          exact ⟨this.1, regF_congr a hfa this.2⟩
      obtain ⟨ρ3, z1, z2⟩ := y4 D I cfg.th.dbl ρ2 hsat2 r3 r2
      have hag3 : ∀ v : Variable, v ∉ c.sat.abs.table.map Prod.fst →
          (v.id < n1 ∨ s2.abs.next ≤ v.id) → ρ3 v = ρ2 v := by
        intro v hv1 hv2
        by_contra hne
        rcases z2 v hne with hz | hz
        · exact hv1 hz
        · have : s1.abs.next = n1 := rfl
          omega
      have hbox3 : ∀ v ∈ b2.vars, ρ3 v = ρ2 v := fun v hv => hag3 v (hntab v hv) (.inl (hlt v hv))
      refine ⟨ρ3, fun v hv => ?_, ⟨hin3.1, fun i v hv => ?_⟩, fun v hv => ?_, z1, ?_⟩
      · rcases hv with hv | hv
        · have hm := h.made v hv
          rw [hag3 v hm.2 (.inl (lt_of_lt_of_le hm.1 q1)), r1 v (fun hv' => hnm v hv' hv)]
          exact w.agree v (.inl hv)
        · have hge : n0 ≤ v.id := hext.le.trans hv
          have hge1 : n1 ≤ v.id := le_trans y2.le hv
          rw [hag3 v ?_ (.inr hv), r1 v (fun hv' => by have := (q2 v hv').2.1; omega)]
          · exact w.agree v (.inr hge)
          · intro hk'
            obtain ⟨p, hp, rfl⟩ := List.mem_map.mp hk'
            have := h.tab.abs.lt p hp
            omega
      · rw [hbox3 v (List.mem_of_getElem? hv)]
        exact hin3.2 i v hv
      · rw [hbox3 v hv]
        rcases (hb2mem v).mp hv with hv | hv
        · rw [hagbox v hv]; exact w.typed v hv
        · rw [(q2 v hv).2.2]; trivial
      · intro hmem
        rcases List.mem_append.mp hmem with hmem | hmem
        · exact w.ff hmem
        · simp only [List.mem_singleton] at hmem
          rw [← hmem] at r2; simp at r2

/-! ### Checks -/

theorem kinv_check {cfg : CCfg} {k H c o c'} (hd : DblOk cfg.th.dbl) (hp : PicosatOk cfg.ps)
    (he : EnvOk D I cfg.env) (h : KInv D I cfg.th.dbl k H c) (hs : checkSat cfg c = .ok (o, c')) :
    KInv D I cfg.th.dbl (k.step c.sat.abs.next .check) H c' ∧
    (o = none → ∀ ρ, SolvedBy I k.top ρ → ¬ RegularAt D I cfg.th.dbl k.top ρ) := by
  obtain ⟨P, Ps, hk, ht, hl, hall⟩ := h.cons
  have e := ctxExt_checkSat h.wf hs
  simp only [checkSat] at hs
  obtain ⟨⟨o1, s1, cache1, t1⟩, h1, h2⟩ := bindR_ok hs
  have hfld : c'.sat = s1 ∧ c'.cache = cache1 ∧ c'.boxes = c.boxes ∧ c'.stack = c.stack ∧
      (o = none → o1 = none) := by
    cases o1 with
    | none =>
      simp only [Run.ok.injEq, Prod.mk.injEq] at h2
      rw [← h2.2]; exact ⟨rfl, rfl, rfl, rfl, fun _ => rfl⟩
    | some b =>
      simp only at h2
      obtain ⟨t, -, h2⟩ := bindR_ok h2
      obtain ⟨m, -, h2⟩ := bindR_ok h2
      simp only [Run.ok.injEq, Prod.mk.injEq] at h2
      refine ⟨by rw [← h2.2], by rw [← h2.2], by rw [← h2.2], by rw [← h2.2], fun ho => ?_⟩
      rw [ho] at h2; exact absurd h2.1 (by simp)
  obtain ⟨g1, g2, g3, g4, g5⟩ := hfld
  have hbox : c'.box = c.box := by unfold Ctx.box; rw [g3]
  have hcache : CacheInv H (fun ws => (k.built ∨ k.quant) ∧ ws = c.box.vars) c.cache :=
    h.cache.mono (fun _ _ h => h) (fun ws hw => ⟨.inl hw.1, hw.2⟩)
  -- what the core of the check leaves behind
  have core : SatStr c.box.vars s1 ∧ TabExt c.sat.abs s1.abs ∧ s1.maxVar = c.sat.maxVar ∧
      CacheInv H (fun ws => (k.built ∨ k.quant) ∧ ws = c.box.vars) cache1 ∧
      (NoAll c.sat.abs.table → NoAll s1.abs.table) ∧
      (∀ ρ ρ', Wit D I cfg.th.dbl k.made c.sat c.box c.stack.vec ρ ρ' →
        SatWit D I cfg.th.dbl s1 ρ') ∧ (c.stack.vec = [] → s1 = c.sat) ∧
      (o1 = none → ∀ ρ ρ', ¬ Wit D I cfg.th.dbl k.made c.sat c.box c.stack.vec ρ ρ') := by
    unfold checkCore at h1
    split at h1
    · rename_i hem
      simp only [Run.ok.injEq, Prod.mk.injEq] at h1
      obtain ⟨rfl, rfl, rfl, rfl⟩ := h1
      refine ⟨hl.str, .refl _, rfl, hcache, fun h => h, fun _ _ w => w.sat, fun _ => rfl, fun _ _ _ w => ?_⟩
      have := w.inBox.1
      unfold Box.empty at hem
      rw [this] at hem; cases hem
    split at h1
    · rename_i hff
      simp only [Run.ok.injEq, Prod.mk.injEq] at h1
      obtain ⟨rfl, rfl, rfl, rfl⟩ := h1
      refine ⟨hl.str, .refl _, rfl, hcache, fun h => h, fun _ _ w => w.sat, fun _ => rfl, fun _ _ _ w => ?_⟩
      obtain ⟨g, hg, hgf⟩ := List.any_eq_true.mp hff
      exact w.ff (of_decide_eq_true hgf ▸ hg)
    split at h1
    · simp only [Run.ok.injEq, Prod.mk.injEq] at h1
      obtain ⟨rfl, rfl, rfl, rfl⟩ := h1
      exact ⟨hl.str, .refl _, rfl, hcache, fun h => h, fun _ _ w => w.sat, fun _ => rfl, fun h0 => by cases h0⟩
    · rename_i hst
      have hA : ((k.built ∨ k.quant) ∧ c.box.vars = c.box.vars) ∨ NoAll c.sat.abs.table := by
        by_cases hq : k.quant
        · exact .inl ⟨.inr hq, rfl⟩
        · exact .inr (h.plain hq)
      obtain ⟨a1, a2, a3, a4, a8, a5, a6⟩ := checkLoop_inv hd hp hl.wf.2 hl.pos (fun _ h => h.2) he h1
        ⟨rfl, hl.wf⟩ hl.str (fun v hv => (hl.kinds v hv).1) hcache hA
      exact ⟨a1, a2, a3, a4, a8, fun ρ ρ' w => a5 ρ' (loopIn_self w.inBox w.typed) w.sat,
        fun h0 => absurd (.inl h0) hst, fun h0 ρ ρ' w => a6 h0 ρ' (loopIn_self w.inBox w.typed) w.sat⟩
  obtain ⟨a1, a2, a3, a4, a8, a5, a7, a6⟩ := core
  refine ⟨⟨e.wf, by rw [g1]; exact a1.tab, ?_, by rw [g2, hbox]; exact a4,
    by rw [g1]; exact fun hq => a8 (h.plain hq), fun hb => hb.elim h.bq id, ?_, ?_⟩, ?_⟩
  · intro v hv
    rw [g1]
    obtain ⟨m1, m2⟩ := h.made v hv
    refine ⟨lt_of_lt_of_le m1 a2.le, fun hk' => ?_⟩
    obtain ⟨⟨w, a⟩, hp, rfl⟩ := List.mem_map.mp hk'
    exact m2 (List.mem_map_of_mem (f := Prod.fst) (table_old a2 hp m1))
  · intro v i hi
    rw [g1]
    exact ⟨lt_of_lt_of_le (h.place v i hi).1 a2.le, (h.place v i hi).2⟩
  · show AllInv D I cfg.th.dbl k.made H c' k.levels
    rw [hk]
    refine hall.flat e ?_ ?_
    · rw [g1]
      exact ⟨a1.tab, a2, a3.ge, fun _ h => .inl h, fun _ h => h, fun _ _ h => h⟩
    rw [g1, hbox, g4]
    refine ⟨hl.wf, hl.pos, fun v hv => ⟨lt_of_lt_of_le (hl.kinds v hv).1 a2.le, (hl.kinds v hv).2⟩,
      hl.dom, a1, fun ha => by rw [a7 (hl.free ha).stk]; exact hl.free ha, fun ρ hsol hr => ?_⟩
    obtain ⟨ρ', w⟩ := hl.wit ρ hsol hr
    exact ⟨ρ', fun v hv => w.agree v (hv.imp id (a2.le.trans)), w.inBox, w.typed, a5 ρ ρ' w, w.ff⟩
  · intro ho ρ hsol hr
    rw [ht] at hsol hr
    obtain ⟨ρ', w⟩ := hl.wit ρ hsol hr
    exact a6 (g5 ho) ρ ρ' w

/-! ### Scopes -/

theorem kinv_push {k H c} (h : KInv D I d k H c) :
    KInv D I d (k.step c.sat.abs.next .push) H (ctxPush c) := by
  obtain ⟨P, Ps, hk, ht, hl, hall⟩ := h.cons
  have g : Grows k.made k.made H H c.sat (ctxPush c).sat :=
    ⟨h.tab, .refl _, Nat.le_succ _, fun _ h => .inl h, fun _ h => h, fun _ _ h => h⟩
  have hbox : (ctxPush c).box = c.box := by
    show List.getLastD (c.boxes.vec ++ [c.box]) _ = _
    simp [List.getLastD_eq_getLast?]
  refine ⟨ctxWf_push h.wf, h.tab, h.made, by rw [hbox]; exact h.cache, h.plain, h.bq, h.place, ?_⟩
  show AllInv D I d k.made H _ (k.top :: k.levels)
  rw [ht]
  refine ⟨?_, fun p hp => ?_⟩
  · rw [hbox]
    have hstr := satStr_grow (s' := { c.sat with maxVar := c.sat.maxVar + 1 }) hl.str h.tab
      (.refl _) (Nat.le_succ _) rfl rfl rfl rfl
    refine ⟨hl.wf, hl.pos, hl.kinds, hl.dom, ⟨hstr.tab, hstr.ss, fun n v hn => ?_, hstr.lits⟩,
      fun ha => ⟨(hl.free ha).cl, (hl.free ha).stk, (hl.free ha).sym, (hl.free ha).comp,
        (hl.free ha).bot, (hl.free ha).all⟩, fun ρ hsol hr => ?_⟩
    · obtain ⟨x1, x2, x3⟩ := hstr.sym n v hn
      exact ⟨x1, x2, x3.bool, x3.lt, x3.kind, x3.atom⟩
    · obtain ⟨ρ', w⟩ := hl.wit ρ hsol hr
      exact ⟨ρ', w.agree, w.inBox, w.typed, ⟨w.sat.cl, w.sat.names⟩, w.ff⟩
  · have := hp.unique (popsTo_push h.wf)
    subst this
    rw [hk]
    exact hall.grow (c' := withPart (ctxPush c) (problemPart c))
      ⟨g.tab, g.ext, g.max, g.new, g.sub, g.place⟩ rfl

theorem kinv_pop {k H c c'} (h : KInv D I d k H c) (hu : ¬ k.built) (hs : ctxPop c = .ok c') :
    KInv D I d (k.step c.sat.abs.next .pop) H c' := by
  obtain ⟨P, Ps, hk, ht, hl, hall⟩ := h.cons
  have hp := popsTo_of_pop hs
  have hc : c'.sat.abs = c.sat.abs ∧ c'.cache = c.cache ∧ c'.sat.maxVar = c.sat.maxVar := by
    simp only [ctxPop, satPop] at hs
    obtain ⟨st, -, hs⟩ := bindO_ok hs
    obtain ⟨bs, -, hs⟩ := bindO_ok hs
    obtain ⟨s, h3, hs⟩ := bindO_ok hs
    simp only [Outcome.ok.injEq] at hs; subst hs
    obtain ⟨ts, -, h3⟩ := bindO_ok h3
    obtain ⟨sym, -, h3⟩ := bindO_ok h3
    obtain ⟨sat, -, h3⟩ := bindO_ok h3
    obtain ⟨cl, -, h3⟩ := bindO_ok h3
    simp only [Outcome.ok.injEq] at h3; subst h3
    exact ⟨rfl, rfl, rfl⟩
  obtain ⟨c1, c2, c3⟩ := hc
  refine ⟨ctxWf_pop h.wf hs, by rw [c1]; exact h.tab, by rw [c1]; exact h.made,
    by rw [c2]; exact h.cache.mono (fun _ _ h => h) (fun _ hw => absurd hw.1 hu),
    by rw [c1]; exact h.plain, h.bq, by rw [c1]; exact h.place, ?_⟩
  show AllInv D I d k.made H _ k.levels.tail
  rw [hk]
  refine (hall.2 _ hp).grow (c' := c') ⟨by rw [c1]; exact h.tab, ?_, ?_, fun _ h => .inl h,
    fun _ h => h, fun _ _ h => h⟩ rfl
  · rw [c1]; exact .refl _
  · rw [c3]; exact le_rfl

theorem kinv_init {next : Nat} {made : List Variable} (hm : ∀ v ∈ made, v.id < next) :
    KInv D I d { made := made } (fun _ => none) (Ctx.init next) := by
  have htab : TabInv (Ctx.init next).sat.abs :=
    ⟨⟨by simp [Ctx.init], by simp [Ctx.init], by simp [Ctx.init], by simp [Ctx.init],
      by simp [Ctx.init]⟩, by simp [Ctx.init]⟩
  refine ⟨ctxWf_init _, htab, fun v hv => ⟨hm v hv, by simp [Ctx.init]⟩, by simp [CacheInv, Ctx.init],
    fun _ => by simp [NoAll, Ctx.init], fun h => h, by simp, ⟨?_, fun p hp => ?_⟩⟩
  · refine ⟨⟨rfl, by simp [Ctx.box, Ctx.init]⟩, by simp [Ctx.box, Ctx.init],
      by simp [Ctx.box, Ctx.init], ?_, ⟨htab, by simp [Ctx.init], by simp [Ctx.init],
      by simp [Ctx.init]⟩, fun _ => ⟨rfl, rfl, fun _ => rfl, by simp [Ctx.box, Ctx.init],
      by simp [Ctx.box, Ctx.init], by simp [Ctx.box, Ctx.init]⟩, fun ρ _ _ => ⟨ρ, fun _ _ => rfl, ⟨rfl, by simp [Ctx.box, Ctx.init]⟩,
      by simp [TypedOn, Ctx.box, Ctx.init], ⟨?_, by simp [Ctx.init]⟩, by simp [Ctx.init]⟩⟩
    · rintro v ⟨iv, hiv⟩; cases hiv
    · simp [Ctx.init, Satisfies]
  · have := hp.boxes
    simp [Ctx.init, vpop, ScopedVector.pop] at this

theorem kinv_poses {cfg : CCfg} (hd : DblOk cfg.th.dbl) (hp : PicosatOk cfg.ps)
    (he : EnvOk D I cfg.env) {k c} (h : Poses cfg k c) : ∃ H, KInv D I cfg.th.dbl k H c := by
  induction h with
  | init next made hm => exact ⟨_, kinv_init hm⟩
  | @step k c cmd a c' _ hu hs ih =>
    obtain ⟨H, hK⟩ := ih
    cases cmd with
    | newVar t =>
      simp only [stepCmd, Run.ok.injEq, Prod.mk.injEq] at hs
      rw [← hs.2]; exact ⟨H, kinv_newVar hK⟩
    | declare v m =>
      simp only [stepCmd, Run.ok.injEq, Prod.mk.injEq] at hs
      rw [← hs.2]; exact kinv_declare hK hu
    | setInterval v lb ub =>
      simp only [stepCmd] at hs
      obtain ⟨c1, h1, h2⟩ := bindR_ok hs
      simp only [Run.ok.injEq, Prod.mk.injEq] at h2
      rw [← h2.2]; exact ⟨H, kinv_setInterval hK hu (lift_ok h1)⟩
    | assert f =>
      simp only [stepCmd] at hs
      obtain ⟨c1, h1, h2⟩ := bindR_ok hs
      simp only [Run.ok.injEq, Prod.mk.injEq] at h2
      rw [← h2.2]; exact kinv_assert hd hK hu (lift_ok h1)
    | check =>
      simp only [stepCmd] at hs
      obtain ⟨c1, h1, h2⟩ := bindR_ok hs
      simp only [Run.ok.injEq, Prod.mk.injEq] at h2
      rw [← h2.2]; exact ⟨H, (kinv_check hd hp he hK h1).1⟩
    | push =>
      simp only [stepCmd, Run.ok.injEq, Prod.mk.injEq] at hs
      rw [← hs.2]; exact ⟨H, kinv_push hK⟩
    | pop =>
      simp only [stepCmd] at hs
      obtain ⟨c1, h1, h2⟩ := bindR_ok hs
      simp only [Run.ok.injEq, Prod.mk.injEq] at h2
      rw [← h2.2]; exact ⟨H, kinv_pop hK hu (lift_ok h1)⟩

end

end Verif.Proof
