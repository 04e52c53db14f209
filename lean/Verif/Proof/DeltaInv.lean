import Verif.Proof.WeakIte
import Verif.Proof.Unsat

/-!
# Every asserted formula stays in force

The counterpart of `Verif.Proof.Unsat`: each asserted formula is either enforced by the box or by
the clauses of the SAT solver.
-/

namespace Verif.Proof
open Verif Verif.Model Verif.Spec

/-- The formula is enforced. -/
def Enforced (δ : ℝ) (V : Variable → Prop) (s : SatState) (box : Box) (stack : List Fml)
    (f : Fml) : Prop :=
  (∀ I ρ, NumIn ρ box → weakC I δ ρ true f) ∨
  ∃ g ∈ stack, (∀ D I ρ (M : BMod), Fits D I δ AllP V ρ M → DefC D I δ ρ f → bh M g →
      weakC I δ ρ true f) ∧
    ∀ M : BMod, Compl M → DefsB M s.abs.table → ClausesB s M.B → bh M g

/-- One scope. -/
structure LvD (d : Dbl) (δ : ℚ) (S : Expr → Expr → Prop) (made : List Variable) (s : SatState)
    (box : Box) (stack : List Fml) (P : Problem) : Prop where
  satd : SatD s
  ts : ∀ i, s.tseitinVars.set i = true → i < s.abs.next ∧ ∀ v ∈ made, v.id ≠ i
  sub : box.bot = false ∨ P.asserted = [] → ∀ (i : Nat) v iv, box.vars[i]? = some v →
    (v, iv) ∈ P.dom → ∀ x : ℝ, InItv x (box.get i) → InItv x iv
  all : (∀ f ∈ P.asserted, IteFree f) → ∀ v ∈ box.vars, P.Declared v
  bdom : ∀ v iv, (v, iv) ∈ P.dom → v.type = .boolean → iv = newItv .boolean
  wfs : ∀ f ∈ P.asserted, WfF P.Declared f
  sound : ∀ f ∈ P.asserted, Enforced δ P.Declared s box stack f

/-- The open scopes, innermost first. -/
def AllD (d : Dbl) (δ : ℚ) (S : Expr → Expr → Prop) (made : List Variable) :
    Ctx → List Problem → Prop
  | _, [] => True
  | c, P :: Ps => LvD d δ S made c.sat c.box c.stack.vec P ∧
      ∀ p, PopsTo c p → AllD d δ S made (withPart c p) Ps

/-- What only grows. -/
structure GrowsD (made made' : List Variable) (s s' : SatState) : Prop where
  ext : TabExt s.abs s'.abs
  new : ∀ v ∈ made', v ∈ made ∨ s.abs.next ≤ v.id

section
variable {d : Dbl} {δ : ℚ} {S : Expr → Expr → Prop}

theorem Enforced.grow {δ : ℝ} {V s s' box stack f} (h : Enforced δ V s box stack f)
    (e : TabExt s.abs s'.abs) (hc : ∀ B, ClausesB s' B → ClausesB s B) :
    Enforced δ V s' box stack f :=
  h.imp id fun ⟨g, h1, h2, h3⟩ => ⟨g, h1, h2, fun M hM hD hC => h3 M hM (hD.sub e.pre) (hc _ hC)⟩

theorem LvD.grow {made made' s s' box stack P} (h : LvD d δ S made s box stack P)
    (g : GrowsD made made' s s') (h1 : s'.toSat = s.toSat) (h2 : s'.toSym = s.toSym)
    (h3 : s'.tseitinVars = s.tseitinVars) (h4 : s'.clauses = s.clauses) :
    LvD d δ S made' s' box stack P where
  satd := ⟨by rw [h1, h2]; exact h.satd.inv, by rw [h2, h4]; exact h.satd.lsym⟩
  ts := fun i hi => by
    rw [h3] at hi
    obtain ⟨a, b⟩ := h.ts i hi
    refine ⟨lt_of_lt_of_le a g.ext.le, fun v hv => ?_⟩
    rcases g.new v hv with hv | hv
    · exact b v hv
    · omega
  sub := h.sub
  all := h.all
  bdom := h.bdom
  wfs := h.wfs
  sound := fun f hf => (h.sound f hf).grow g.ext (fun B hB => by
    unfold ClausesB LitB at hB ⊢
    rw [h2, h4] at hB; exact hB)

theorem AllD.grow {made made'} : ∀ {Ps c c'}, AllD d δ S made c Ps →
    GrowsD made made' c.sat c'.sat → problemPart c' = problemPart c →
    AllD d δ S made' c' Ps
  | [], _, _, _, _, _ => trivial
  | P :: Ps, c, c', h, g, hp => by
    have hp' := hp
    unfold problemPart at hp'
    simp only [ProblemPart.mk.injEq] at hp'
    obtain ⟨p1, p2, p3, p4, p5, p6⟩ := hp'
    have hb : c'.box = c.box := by unfold Ctx.box; rw [p1]
    refine ⟨?_, fun p hpp => ?_⟩
    · rw [hb, p2]; exact h.1.grow g p3 p4 p5 p6
    · have := h.2 p (PopsTo.of_part hp.symm hpp)
      exact AllD.grow this ⟨g.ext, g.new⟩ rfl

/-- A call within a scope. -/
theorem AllD.flat {made made' c c' P P' Ps} (h : AllD d δ S made c (P :: Ps))
    (e : CtxExt c c') (g : GrowsD made made' c.sat c'.sat)
    (h' : LvD d δ S made' c'.sat c'.box c'.stack.vec P') : AllD d δ S made' c' (P' :: Ps) :=
  ⟨h', fun p hp => (h.2 p (CtxExt.pops' e hp)).grow (c' := withPart c' p) ⟨g.ext, g.new⟩ rfl⟩

end

/-- The whole context. -/
structure KD (d : Dbl) (δ : ℚ) (S : Expr → Expr → Prop) (k : Books) (c : Ctx) : Prop where
  tab : ∀ p ∈ c.sat.abs.table, Canon (PlainS d δ S) p.2
  levels : AllD d δ S k.made c k.levels

section
variable {D : Dom} {I : Interp} {d : Dbl} {δ : ℚ} {S : Expr → Expr → Prop}

theorem KD.cons {k c P Ps} (h : KD d δ S k c) (hk : k.levels = P :: Ps) :
    LvD d δ S k.made c.sat c.box c.stack.vec P ∧ AllD d δ S k.made c (P :: Ps) := by
  have := h.levels
  rw [hk] at this
  exact ⟨this.1, this⟩

theorem kd_newVar {k c t} (h : KD d δ S k c) :
    KD d δ S (k.step c.sat.abs.next (.newVar t))
      { c with sat := { c.sat with abs := { c.sat.abs with next := c.sat.abs.next + 1 } } } := by
  refine ⟨h.tab, h.levels.grow ⟨tabExt_next (Nat.le_succ _), fun v hv => ?_⟩ rfl⟩
  rcases List.mem_cons.mp hv with rfl | hv
  · exact .inr le_rfl
  · exact .inl hv

theorem kd_declare {k H c v m} (h : KInv D I d k H c) (hK : KD d δ S k c)
    (hp : k.top.asserted = [] ∨ k.top.dom ≠ []) :
    KD d δ S (k.step c.sat.abs.next (.declare v m)) (declare c v m) := by
  obtain ⟨P, Ps, hk, ht, hl, -⟩ := h.cons
  obtain ⟨hd, hall⟩ := hK.cons hk
  rw [ht] at hp
  have hsat : (declare c v m).sat = c.sat := by unfold declare; simp only; split <;> rfl
  have hbox : (declare c v m).box = addToBox c.box v := by
    unfold declare; simp only; split <;> exact box_setBox _ _
  have hstk : (declare c v m).stack = c.stack := by unfold declare; simp only; split <;> rfl
  set dom' := if v ∈ P.dom.map Prod.fst then P.dom else (v, newItv v.type) :: P.dom with hdom'
  have hcase : ∀ p ∈ dom', p ∈ P.dom ∨ (p = (v, newItv v.type) ∧ v ∉ P.dom.map Prod.fst) := by
    intro p hp'
    rw [hdom'] at hp'
    split at hp'
    · exact .inl hp'
    · rename_i hn
      rcases List.mem_cons.mp hp' with h | h
      exacts [.inr ⟨h, hn⟩, .inl h]
  have hsub : ∀ p ∈ P.dom, p ∈ dom' := by
    intro p hp; rw [hdom']; split
    · exact hp
    · simp [hp]
  -- the box is not one without variables that is empty
  have hb0 : v ∉ c.box.vars → ¬ (c.box.vars = [] ∧ c.box.bot = true) := by
    rintro - ⟨e1, e2⟩
    rcases hp with ha | hne
    · obtain ⟨w, iv, h0, -⟩ := (hl.free ha).bot e2
      rw [e1] at h0; cases h0
    · obtain ⟨p, hp⟩ := List.exists_mem_of_ne_nil _ hne
      have := (hl.dom p.1 ⟨p.2, hp⟩).1
      rw [e1] at this; cases this
  have hget : ∀ (i : Nat) w, (addToBox c.box v).vars[i]? = some w →
      (c.box.vars[i]? = some w ∧ (addToBox c.box v).get i = c.box.get i) ∨
      (w = v ∧ v ∉ c.box.vars ∧ (addToBox c.box v).get i = newItv v.type) := by
    intro i w hw
    by_cases hvb : v ∈ c.box.vars
    · have e1 : addToBox c.box v = c.box := by unfold addToBox; rw [if_pos hvb]
      rw [e1] at hw ⊢; exact .inl ⟨hw, rfl⟩
    · have e1 : addToBox c.box v = { c.box with
          vars := c.box.vars ++ [v], vals := c.box.vals ++ [newItv v.type] } := by
        unfold addToBox; rw [if_neg hvb, if_neg (hb0 hvb), newItv_eq]
      rw [e1] at hw ⊢
      have hlen := hl.wf.1
      rcases getElem?_snoc hw with hw' | ⟨rfl, rfl⟩
      · have hi := lt_of_getElem? hw'
        refine .inl ⟨hw', ?_⟩
        simp only [Box.get, List.getD_eq_getElem?_getD]
        rw [List.getElem?_append_left (by omega)]
      · refine .inr ⟨rfl, hvb, ?_⟩
        simp only [Box.get, List.getD_eq_getElem?_getD]
        rw [← hlen, List.getElem?_append_right (le_refl _)]
        simp
  have hbot : (addToBox c.box v).bot = c.box.bot := by
    unfold addToBox
    split
    · rfl
    · rename_i hvb
      rw [if_neg (hb0 hvb)]
  refine ⟨by rw [hsat]; exact hK.tab, ?_⟩
  show AllD d δ S k.made _ (k.setTop { k.top with dom := _ }).levels
  rw [levels_setTop hk, ht]
  refine hall.flat (ctxExt_declare h.wf v m) (by rw [hsat]; exact ⟨.refl _, fun _ h => .inl h⟩) ?_
  rw [hsat, hbox, hstk]
  refine ⟨hd.satd, hd.ts, fun hc i w iv hw hiv x hx => ?_, fun hfr w hw => ?_,
    fun w iv hiv hwt => ?_, fun f hf => wfF_mono (fun w ⟨iv, hw⟩ => ⟨iv, hsub _ hw⟩) f (hd.wfs f hf),
    fun f hf => ?_⟩
  · rw [hbot] at hc
    rcases hget i w hw with ⟨h1, h2⟩ | ⟨rfl, h1, h2⟩
    · rw [h2] at hx
      rcases hcase _ hiv with h3 | ⟨h3, h4⟩
      · exact hd.sub hc i w iv h1 h3 x hx
      · cases h3
        -- a variable of the box is declared or not made by the user
        rcases (hl.kinds v (List.mem_of_getElem? h1)).2 with ⟨iv, h5⟩ | h5
        · exact absurd (List.mem_map_of_mem (f := Prod.fst) h5) h4
        · rw [h5.2]; simp [newItv, InItv, below, above]
    · rw [h2] at hx
      rcases hcase _ hiv with h3 | ⟨h3, -⟩
      · exact absurd (hl.dom w ⟨iv, h3⟩).1 h1
      · cases h3; exact hx
  · rcases addToBox_mem.mp hw with hw | rfl
    · obtain ⟨iv, hiv⟩ := hd.all hfr w hw
      exact ⟨iv, hsub _ hiv⟩
    · show ∃ iv, (w, iv) ∈ dom'
      rw [hdom']
      split
      · rename_i hm
        obtain ⟨p, hp, he⟩ := List.mem_map.mp hm
        exact ⟨p.2, by rw [← he]; exact hp⟩
      · exact ⟨_, List.mem_cons_self⟩
  · rcases hcase _ hiv with h3 | ⟨h3, -⟩
    · exact hd.bdom w iv h3 hwt
    · cases h3; rw [hwt]
  · refine (hd.sound f hf).imp (fun h1 I ρ hin => h1 I ρ ⟨by rw [← hbot]; exact hin.1, ?_⟩)
      (fun ⟨g, g1, g2, g3⟩ => ⟨g, g1, fun D I ρ M hM => g2 D I ρ M
        ⟨hM.yes, hM.no, fun v ⟨iv, hv⟩ => hM.bool v ⟨iv, hsub _ hv⟩⟩, g3⟩)
    intro i w hw hwt
    have hvars : (addToBox c.box v).vars[i]? = some w := by
      rw [addToBox_vars]
      split
      · exact hw
      · rw [List.getElem?_append_left (lt_of_getElem? hw)]; exact hw
    have := hin.2 i w hvars hwt
    rcases hget i w hvars with ⟨-, h2⟩ | ⟨rfl, h1, -⟩
    · rwa [h2] at this
    · exact absurd (List.mem_of_getElem? hw) h1

theorem mkItv_out {x : ℝ} {lb ub} (h : InItv x (mkItv lb ub)) : InItv x ⟨lb, ub⟩ := by
  unfold mkItv at h
  split at h
  · exfalso
    simp only [InItv, Itv.empty, below, above] at h
    exact h.1.elim
  · exact h

theorem kd_setInterval {k H c v lb ub c'} (h : KInv D I d k H c) (hK : KD d δ S k c)
    (hp : v.type ≠ .boolean ∧ k.top.asserted = []) (hs : setInterval c v lb ub = .ok c') :
    KD d δ S (k.step c.sat.abs.next (.setInterval v lb ub)) c' := by
  obtain ⟨P, Ps, hk, ht, hl, -⟩ := h.cons
  obtain ⟨hd, hall⟩ := hK.cons hk
  rw [ht] at hp
  have e := ctxExt_setInterval h.wf hs
  unfold setInterval at hs
  split at hs
  swap
  · cases hs
  rename_i hvb
  simp only [Outcome.ok.injEq] at hs; subst hs
  refine ⟨hK.tab, ?_⟩
  show AllD d δ S k.made _ (k.setTop { k.top with dom := _ }).levels
  rw [levels_setTop hk, ht]
  refine hall.flat e ⟨.refl _, fun _ h => .inl h⟩ ?_
  rw [box_setBox]
  have hmem : ∀ w iv, (w, iv) ∈ P.dom.map (fun p => if p.1 = v then (v, (⟨lb, ub⟩ : Itv)) else p) →
      (w = v ∧ iv = ⟨lb, ub⟩) ∨ (w ≠ v ∧ (w, iv) ∈ P.dom) := by
    intro w iv hi
    obtain ⟨p, hp, he⟩ := List.mem_map.mp hi
    split at he
    · cases he; exact .inl ⟨rfl, rfl⟩
    · rename_i hne; rw [he] at hp hne; exact .inr ⟨hne, hp⟩
  refine ⟨hd.satd, hd.ts, fun _ i w iv hw hiv x hx => ?_, fun hfr w hw => ?_,
    fun w iv hiv hwt => ?_, fun f hf => ?_, fun f hf => ?_⟩
  · have hw' : c.box.vars[i]? = some w := hw
    have hg : Box.get { c.box.setV v (mkItv lb ub) with
        bot := if c.box.index v = 0 then (mkItv lb ub).isEmpty
          else (c.box.setV v (mkItv lb ub)).bot } i = (c.box.setV v (mkItv lb ub)).get i := rfl
    rw [hg, setV_get hl.wf hvb hw'] at hx
    rcases hmem w iv hiv with ⟨rfl, rfl⟩ | ⟨hne, hin⟩
    · rw [if_pos rfl] at hx; exact mkItv_out hx
    · rw [if_neg hne] at hx
      exact hd.sub (.inr hp.2) i w iv hw' hin x hx
  · obtain ⟨iv, hiv⟩ := hd.all hfr w hw
    by_cases hwv : w = v
    · exact ⟨⟨lb, ub⟩, List.mem_map.mpr ⟨(w, iv), hiv, by simp [hwv]⟩⟩
    · exact ⟨iv, List.mem_map.mpr ⟨(w, iv), hiv, by simp only [if_neg hwv]⟩⟩
  · rcases hmem w iv hiv with ⟨rfl, rfl⟩ | ⟨hne, hin⟩
    · exact absurd hwt hp.1
    · exact hd.bdom w iv hin hwt
  · change f ∈ P.asserted at hf
    rw [hp.2] at hf; cases hf
  · change f ∈ P.asserted at hf
    rw [hp.2] at hf; cases hf

/-! ### Assertions -/

theorem plain_atoms {B : Variable → Prop} (hB : ∀ v, B v) : ∀ (n : Nat) (f : Fml), sizeOf f ≤ n →
    PlainF d δ S f → ForAtoms (FreeOpen (PlainS d δ S)) B NoQ f := by
  intro n
  induction n with
  | zero => intro f hs; cases f <;> simp at hs
  | succ n ih =>
    intro f hs hp
    cases f with
    | ff => trivial
    | tt => trivial
    | bvar v => exact hB v
    | rel op a b => exact ⟨hp, hp.1.free.1, hp.1.free.2, hp.1.open'⟩
    | conj fs =>
      refine forAtomsL_iff.mpr (fun g hg => ?_)
      have := List.sizeOf_lt_of_mem hg
      simp only [Fml.conj.sizeOf_spec] at hs
      exact ih g (by omega) (plainFs_iff.mp hp g hg)
    | disj fs =>
      refine forAtomsL_iff.mpr (fun g hg => ?_)
      have := List.sizeOf_lt_of_mem hg
      simp only [Fml.disj.sizeOf_spec] at hs
      exact ih g (by omega) (plainFs_iff.mp hp g hg)
    | neg f =>
      simp only [Fml.neg.sizeOf_spec] at hs
      exact ih f (by omega) hp
    | all vs f => exact absurd hp id

theorem asRel_weakF {I : Interp} {δ : ℝ} {ρ} : ∀ {f : Fml} {op a b} (p : Bool),
    asRel f = some (op, a, b) →
    (weakF I δ ρ p f ↔ weakRel δ (if p then op else op.neg) (eval I ρ a) (eval I ρ b))
  | .rel op a b, _, _, _, p, h => by
    simp only [asRel, Option.some.injEq, Prod.mk.injEq] at h
    obtain ⟨rfl, rfl, rfl⟩ := h
    simp [weakF]
  | .neg f, op, a, b, p, h => by
    simp only [asRel, Option.map_eq_some_iff] at h
    obtain ⟨⟨o, x, y⟩, h1, h2⟩ := h
    simp only [Prod.mk.injEq] at h2
    obtain ⟨rfl, rfl, rfl⟩ := h2
    simp only [weakF]
    rw [asRel_weakF (!p) h1]
    cases p <;> cases o <;> simp [RelOp.neg]

theorem asRel_plain : ∀ {f : Fml} {op a b}, asRel f = some (op, a, b) → PlainF d δ S f →
    PlainRel d δ a b
  | .rel op a b, _, _, _, h, hp => by
    simp only [asRel, Option.some.injEq, Prod.mk.injEq] at h
    obtain ⟨rfl, rfl, rfl⟩ := h
    exact hp.1
  | .neg f, op, a, b, h, hp => by
    simp only [asRel, Option.map_eq_some_iff] at h
    obtain ⟨⟨o, x, y⟩, h1, h2⟩ := h
    simp only [Prod.mk.injEq] at h2
    obtain ⟨-, rfl, rfl⟩ := h2
    exact asRel_plain h1 hp

theorem asRel_num {V : Variable → Prop} : ∀ {f : Fml} {op a b}, asRel f = some (op, a, b) →
    WfF V f → WfE V a ∧ WfE V b
  | .rel op a b, _, _, _, h, hp => by
    simp only [asRel, Option.some.injEq, Prod.mk.injEq] at h
    obtain ⟨rfl, rfl, rfl⟩ := h
    exact hp
  | .neg f, op, a, b, h, hp => by
    simp only [asRel, Option.map_eq_some_iff] at h
    obtain ⟨⟨o, x, y⟩, h1, h2⟩ := h
    simp only [Prod.mk.injEq] at h2
    obtain ⟨-, rfl, rfl⟩ := h2
    exact asRel_num h1 hp

theorem asBound_asRel {f v op n} (h : asBound f = some (v, op, n)) :
    ∃ o a b, asRel f = some (o, a, b) ∧ (a = .var v ∨ b = .var v) := by
  unfold asBound at h
  split at h
  · rename_i o w e hf
    simp only [Option.map_eq_some_iff, Prod.mk.injEq] at h
    obtain ⟨x, -, rfl, -⟩ := h
    exact ⟨_, _, _, hf, .inl rfl⟩
  · rename_i o e w _ hf
    simp only [Option.map_eq_some_iff, Prod.mk.injEq] at h
    obtain ⟨x, -, rfl, -⟩ := h
    exact ⟨_, _, _, hf, .inr rfl⟩
  · cases h

theorem iteFreeE_qfree : ∀ {e : Expr}, IteFreeE e → QFreeE e
  | .const _, _ => trivial
  | .rconst _, _ => trivial
  | .var _, _ => trivial
  | .add _ _, h => ⟨iteFreeE_qfree h.1, iteFreeE_qfree h.2⟩
  | .mul _ _, h => ⟨iteFreeE_qfree h.1, iteFreeE_qfree h.2⟩
  | .app1 _ a, h => by
    have h : IteFreeE a := h
    have := iteFreeE_qfree h
    exact this
  | .app2 _ _ _, h => ⟨iteFreeE_qfree h.1, iteFreeE_qfree h.2⟩
  | .ite _ _ _, h => absurd h id

theorem plain_free : ∀ (n : Nat) (f : Fml), sizeOf f ≤ n → PlainF d δ S f → IteFree f ∧ QFree f := by
  intro n
  induction n with
  | zero => intro f hs; cases f <;> simp at hs
  | succ n ih =>
    have list : ∀ fs : List Fml, sizeOf fs ≤ n → PlainFs d δ S fs → IteFreeList fs ∧ QFrees fs := by
      intro fs
      induction fs with
      | nil => intro _ _; exact ⟨trivial, trivial⟩
      | cons f fs ihl =>
        intro hs hp
        simp only [List.cons.sizeOf_spec] at hs
        obtain ⟨a1, a2⟩ := ih f (by omega) hp.1
        obtain ⟨b1, b2⟩ := ihl (by omega) hp.2
        exact ⟨⟨a1, b1⟩, a2, b2⟩
    intro f hs hp
    cases f with
    | ff => exact ⟨trivial, trivial⟩
    | tt => exact ⟨trivial, trivial⟩
    | bvar v => exact ⟨trivial, trivial⟩
    | rel op a b => exact ⟨hp.1.free, iteFreeE_qfree hp.1.free.1, iteFreeE_qfree hp.1.free.2⟩
    | conj fs =>
      simp only [Fml.conj.sizeOf_spec] at hs
      exact list fs (by omega) hp
    | disj fs =>
      simp only [Fml.disj.sizeOf_spec] at hs
      exact list fs (by omega) hp
    | neg f =>
      simp only [Fml.neg.sizeOf_spec] at hs
      exact ih f (by omega) hp
    | all vs f => exact absurd hp id

theorem asRel_free : ∀ {f : Fml} {op a b}, asRel f = some (op, a, b) → IteFreeE a → IteFreeE b →
    IteFree f
  | .rel op a b, _, _, _, h, h1, h2 => by
    simp only [asRel, Option.some.injEq, Prod.mk.injEq] at h
    obtain ⟨rfl, rfl, rfl⟩ := h
    exact ⟨h1, h2⟩
  | .neg f, op, a, b, h, h1, h2 => by
    simp only [asRel, Option.map_eq_some_iff] at h
    obtain ⟨⟨o, x, y⟩, h3, h4⟩ := h
    simp only [Prod.mk.injEq] at h4
    obtain ⟨-, rfl, rfl⟩ := h4
    have : IteFree f := asRel_free h3 h1 h2
    exact this

theorem asNum_free {e n} (h : asNum e = some n) : IteFreeE e := by
  cases e <;> simp_all [asNum, IteFreeE]

theorem asBound_free {f} (h : (asBound f).isSome = true) : IteFree f := by
  obtain ⟨⟨v, op, n⟩, h⟩ := Option.isSome_iff_exists.mp h
  unfold asBound at h
  split at h
  · rename_i o w e hf
    simp only [Option.map_eq_some_iff, Prod.mk.injEq] at h
    obtain ⟨x, hx, -⟩ := h
    exact asRel_free hf trivial (asNum_free hx)
  · rename_i o e w _ hf
    simp only [Option.map_eq_some_iff, Prod.mk.injEq] at h
    obtain ⟨x, hx, -⟩ := h
    exact asRel_free hf (asNum_free hx) trivial
  · cases h

/-- Adding variables leaves the components of the others. -/
theorem addToBox_get {b : Box} {v} (wf : BoxWf b) (hb : ¬ (b.vars = [] ∧ b.bot = true)) :
    (addToBox b v).bot = b.bot ∧ ∀ (i : Nat) w, b.vars[i]? = some w →
      (addToBox b v).vars[i]? = some w ∧ (addToBox b v).get i = b.get i := by
  unfold addToBox
  split
  · exact ⟨rfl, fun i w h => ⟨h, rfl⟩⟩
  · refine ⟨rfl, fun i w h => ?_⟩
    have hi := lt_of_getElem? h
    have hl := wf.1
    refine ⟨by simp only; rw [List.getElem?_append_left hi]; exact h, ?_⟩
    simp only [Box.get, List.getD_eq_getElem?_getD]
    rw [List.getElem?_append_left (by omega)]

theorem addAll_get : ∀ {vs : List Variable} {b : Box}, BoxWf b →
    ¬ (b.vars = [] ∧ b.bot = true) →
    (vs.foldl addToBox b).bot = b.bot ∧ ∀ (i : Nat) w, b.vars[i]? = some w →
      (vs.foldl addToBox b).vars[i]? = some w ∧ (vs.foldl addToBox b).get i = b.get i
  | [], b, _, _ => ⟨rfl, fun i w h => ⟨h, rfl⟩⟩
  | v :: vs, b, wf, hb => by
    obtain ⟨a1, a2⟩ := addToBox_get (v := v) wf hb
    have hb' : ¬ ((addToBox b v).vars = [] ∧ (addToBox b v).bot = true) := by
      rintro ⟨h1, -⟩
      have := addToBox_mem (b := b) (v := v) (w := v)
      rw [h1] at this; simp at this
    obtain ⟨i1, i2⟩ := addAll_get (vs := vs) (addToBox_wf wf v) hb'
    refine ⟨i1.trans a1, fun i w h => ?_⟩
    obtain ⟨c1, c2⟩ := a2 i w h
    obtain ⟨d1, d2⟩ := i2 i w c1
    exact ⟨d1, d2.trans c2⟩

theorem kd_assert {cfg : CCfg} {k H c f c'} (hd : DblOk cfg.th.dbl) (hδ : 0 ≤ δ)
    (h : KInv D I cfg.th.dbl k H c) (hK : KD cfg.th.dbl δ S k c)
    (hu : k.Uses c.sat.abs.next (.assert f))
    (hp : PlainF cfg.th.dbl δ S f ∨ QFree f ∧ ¬ IteFree f ∧
      PlainF cfg.th.dbl δ S (iteProcess c.sat.abs.next f).1)
    (hs : assertF cfg c f = .ok c') :
    KD cfg.th.dbl δ S (k.step c.sat.abs.next (.assert f)) c' := by
  obtain ⟨P, Ps, hk, ht, hl, -⟩ := h.cons
  obtain ⟨hD, hall⟩ := hK.cons hk
  obtain ⟨hu, hold, -⟩ := hu
  have hu : WfF P.Declared f := by rw [← ht]; exact hu
  have hvb : ∀ v ∈ f.fv, v ∈ c.box.vars := fun v hv => (hl.dom v (wfF_fv f hu v hv)).1
  have hδr : (0 : ℝ) ≤ ((δ : ℚ) : ℝ) := by exact_mod_cast hδ
  have hqf : QFree f := hp.elim (fun hp => (plain_free _ f le_rfl hp).2) (fun hp => hp.1)
  have e := ctxExt_assertF h.wf hs
  have hwfs : ∀ g ∈ f :: P.asserted, WfF P.Declared g := by
    intro g hg
    rcases List.mem_cons.mp hg with rfl | hg
    exacts [hu, hD.wfs g hg]
  -- a step that changes the box only
  have simple : ∀ b' : Box, b'.vars = c.box.vars → c' = c.setBox b' → SubBox b' c.box →
      (∀ I ρ, NumIn ρ b' → weakC I δ ρ true f) →
      KD cfg.th.dbl δ S (k.step c.sat.abs.next (.assert f)) c' := by
    intro b' hb1 hc' hsub hw
    refine ⟨by rw [hc']; exact hK.tab, ?_⟩
    show AllD cfg.th.dbl δ S k.made _ (k.setTop { k.top with asserted := _ }).levels
    rw [levels_setTop hk, ht]
    refine hall.flat e (by rw [hc']; exact ⟨.refl _, fun _ h => .inl h⟩) ?_
    rw [hc', box_setBox]
    refine ⟨hD.satd, hD.ts, fun hc i v iv hv hiv x hx => ?_,
      fun hfr => by rw [hb1]; exact hD.all (fun g hg => hfr g (by simp [hg])), hD.bdom,
      hwfs, fun g hg => ?_⟩
    · have hbot : b'.bot = false := hc.resolve_right (by simp)
      exact hD.sub (.inl (hsub hbot).1) i v iv (by rw [← hb1]; exact hv) hiv x
        ((hsub hbot).2 i x hx)
    · rcases List.mem_cons.mp hg with rfl | hg
      · exact .inl hw
      · exact (hD.sound g hg).imp (fun h1 I ρ hin => h1 I ρ (numIn_sub hb1 hsub hin)) id
  have hself : c = c.setBox c.box := by
    have hne : c.boxes.vec ≠ [] := fun h0 => by
      have := h.wf.boxes.pos; rw [h0] at this; simp at this
    unfold Ctx.setBox Ctx.box
    cases c with
    | mk boxes =>
      cases boxes with
      | mk vec scopes =>
        simp only at hne ⊢
        congr 1
        rw [List.getLastD_eq_getLast?, List.getLast?_eq_getLast_of_ne_nil hne]
        simp [List.dropLast_append_getLast hne]
  unfold assertF at hs
  split at hs
  · rename_i htt
    simp only [Outcome.ok.injEq] at hs
    exact simple c.box rfl (by rw [← hs]; exact hself) (subBox_refl _)
      (fun _ _ _ => by rw [htt]; simp [weakC])
  split at hs
  · rename_i hem
    simp only [Outcome.ok.injEq] at hs
    refine simple c.box rfl (by rw [← hs]; exact hself) (subBox_refl _) (fun _ _ hn => ?_)
    have : c.box.bot = true := hem
    rw [hn.1] at this; cases this
  rename_i hem
  have hcb : c.box.bot = false := by
    unfold Box.empty at hem
    simpa using hem
  split at hs
  · simp only [Outcome.ok.injEq] at hs
    have hsh := wipe_shape (cfg := cfg) (vs := c.box.vars) ⟨rfl, hl.wf⟩
    refine simple (wipeBox cfg c.box) hsh.1 hs.symm (fun hb => ?_) (fun _ _ hn => ?_)
    · cases hb
    · have := hn.1; cases this
  obtain ⟨⟨res, bf⟩, h1, h2⟩ := bindO_ok hs
  obtain ⟨f1, f2, f3, f4, -, f6⟩ := filter_spec (I := I) hd hl.wf hvb (wfF_rc f hu) h1
  obtain ⟨w1, w2, w3⟩ := filter_weak (δ := δ) hd hl.wf hvb h1
  set b1 : Box := if bf.bot then wipeBox cfg bf else bf with hb1
  have hb1s : Shape c.box.vars b1 := by
    rw [hb1]; split
    · exact wipe_shape ⟨f1, f2⟩
    · exact ⟨f1, f2⟩
  have hb1v : b1.vars = c.box.vars := hb1s.1
  have hb1b : b1.bot = false → b1 = bf ∧ bf.bot = false := by
    rw [hb1]
    split
    · intro h; cases h
    · rename_i hb; exact fun _ => ⟨rfl, by simpa using hb⟩
  have hb1sub : SubBox b1 c.box := fun hb => by
    obtain ⟨e1, e2⟩ := hb1b hb
    rw [e1]; exact w1 e2
  by_cases hres : res = .notFiltered
  swap
  · have hfree := asBound_free (w2 hres)
    have hp := hp.resolve_right (fun hp => hp.2.1 hfree)
    refine simple b1 hb1v ?_ hb1sub (fun J ρ hin => ?_)
    · cases res with
      | notFiltered => exact absurd rfl hres
      | withChange => simp only [Outcome.ok.injEq] at h2; exact h2.symm
      | withoutChange => simp only [Outcome.ok.injEq] at h2; exact h2.symm
    · obtain ⟨e1, e2⟩ := hb1b hin.1
      obtain ⟨⟨v, op, n⟩, hbd⟩ := Option.isSome_iff_exists.mp (w2 hres)
      obtain ⟨o, a, b, hr, hv⟩ := asBound_asRel hbd
      have hpr := asRel_plain hr hp
      have hnum := asRel_num hr hu
      have hvt : v.type ≠ .boolean ∧ P.Declared v := by
        rcases hv with rfl | rfl
        · exact hnum.1
        · exact hnum.2
      have hvv := (hl.dom v hvt.2).1
      rw [e1] at hin
      have hidx : bf.vars[bf.index v]? = some v := (index_of_mem (by rw [f1]; exact hvv)).2
      have := w3 v op n hbd ⟨o, a, b, hr, hpr.fine⟩ e2 J ρ (hin.2 _ v hidx hvt.1)
      obtain ⟨o', a', b', hr', hw⟩ := this
      rw [weakC_iff f true hfree, asRel_weakF true hr']
      simpa using hw
  subst hres
  simp only at h2
  obtain ⟨s2, h3, h4⟩ := bindO_ok h2
  simp only [Outcome.ok.injEq] at h4
  -- a box without variables is as before
  have hb1n : ¬ (b1.vars = [] ∧ b1.bot = true) := by
    rintro ⟨e1, e2⟩
    rcases f6 rfl with hbf | ⟨v, op, n, hbd, -⟩
    · have : b1 = c.box := by rw [hb1, hbf, if_neg (by rw [hcb]; simp)]
      rw [this, hcb] at e2; cases e2
    · obtain ⟨-, b2, -, -⟩ := asBound_holds (I := I) (ρ := fun _ => 0) hbd
      have := hvb v b2
      rw [← hb1v, e1] at this; cases this
  -- the processed formula is plain
  have hplainG : ForAtoms (FreeOpen (PlainS cfg.th.dbl δ S)) (fun _ => True) NoQ
      (iteProcess c.sat.abs.next f).1 := by
    rcases hp with hp | ⟨-, -, hp⟩
    · exact (iteProcess_free (plain_atoms (B := fun _ => True) (fun _ => trivial) _ f le_rfl hp)).2.1
    · exact plain_atoms (fun _ => trivial) _ _ le_rfl hp
  set n0 := c.sat.abs.next with hn0
  have hsp := iteF_spec n0 f .tt { next := n0 } hold le_rfl
  obtain ⟨q1, q2, q3, q4, -⟩ := ProcSpec.of hsp le_rfl hold
  obtain ⟨kw, -⟩ := ProcKeep.of hsp le_rfl hold
  have hweak : ∀ D I ρ (M : BMod), Fits D I δ AllP P.Declared ρ M → DefC D I δ ρ f →
      bh M (iteProcess n0 f).1 → weakC I δ ρ true f := fun D I ρ M hM hdf hb =>
    iteProcess_weak hδr hM hqf hu hdf hb
  set r := iteF f .tt { next := n0 } with hr
  have hproc0 : iteProcess n0 f = (iteResult f r.1 r.2.added, r.2.vars, r.2.next) := rfl
  have hproc : iteProcess (c.setBox b1).sat.abs.next f =
      (iteResult f r.1 r.2.added, r.2.vars, r.2.next) := rfl
  rw [hproc] at h3 h4
  rw [hproc0] at hplainG hweak
  simp only at h3 h4 hplainG hweak
  set g := iteResult f r.1 r.2.added with hg
  set n1 := r.2.next with hn1
  rw [box_setBox] at h4
  set b2 := r.2.vars.foldl addToBox b1 with hb2
  have hb2wf : BoxWf b2 := addAll_wf hb1s.2
  obtain ⟨hb2bot, hb2get⟩ := addAll_get (vs := r.2.vars) hb1s.2 hb1n
  rw [← hb2] at hb2bot hb2get
  have hb2mem : ∀ w, w ∈ b2.vars ↔ w ∈ c.box.vars ∨ w ∈ r.2.vars := by
    intro w; rw [hb2, addAll_mem, hb1v]
  have hb2num : ∀ ρ, NumIn ρ b2 → NumIn ρ b1 := fun ρ hin =>
    ⟨by rw [← hb2bot]; exact hin.1, fun i v hv hvt => by
      obtain ⟨g1, g2⟩ := hb2get i v hv
      rw [← g2]; exact hin.2 i v g1 hvt⟩
  set s1 : SatState := { c.sat with abs := { c.sat.abs with next := n1 } } with hs1
  have hstr1 : SatStr b2.vars s1 := by
    have := satStr_abs (ts := c.sat.tseitinVars) hl.str (tabExt_next q1) (tabInv_next h.tab q1)
      (fun _ h => h)
    exact satStr_vars (fun v hv => (hb2mem v).mpr (.inl hv)) this
  have hlt : ∀ v ∈ b2.vars, v.id < s1.abs.next := by
    intro v hv
    rcases (hb2mem v).mp hv with hv | hv
    · exact lt_of_lt_of_le (hl.kinds v hv).1 q1
    · exact (q2 v hv).2.1
  have hntab : ∀ v ∈ b2.vars, v ∉ c.sat.abs.table.map Prod.fst := by
    intro v hv hk'
    obtain ⟨p, hp, rfl⟩ := List.mem_map.mp hk'
    have hb := h.tab.abs.boolean p hp
    rcases (hb2mem _).mp hv with hv | hv
    · rcases (hl.kinds _ hv).2 with hdc | hdc
      · exact (h.made _ (hl.dom _ hdc).2).2 (List.mem_map_of_mem hp)
      · rw [hb] at hdc; cases hdc.2
    · have := (q2 _ hv).2.2; rw [hb] at this; cases this
  have hB : ∀ v, (v.type = .boolean ∧ v ∈ b2.vars) →
      v.type = .boolean ∧ v ∈ b2.vars ∧ v ∉ s1.abs.table.map Prod.fst := fun v hv =>
    ⟨hv.1, hv.2, hntab v hv.2⟩
  have hwfg : WfF (· ∈ b2.vars) g := kw _ (fun v hv => (hb2mem v).mpr (.inr hv))
    (wfF_mono (fun v hv => (hb2mem v).mpr (.inl (hl.dom v hv).1)) f hu)
  have hatg : ForAtoms (AtomP (· ∈ b2.vars)) (fun v => v.type = .boolean ∧ v ∈ b2.vars)
      (QB (WfQ (· ∈ b2.vars))) g :=
    wf_atoms hwfg q4 (fun v h1 h2 => ⟨h1, h2⟩)
  have hPg : ForAtoms (PlainS cfg.th.dbl δ S) (fun _ => True) NoQ g :=
    ForAtoms.mono (fun op a b h => h.1) (fun _ h => h) (fun _ _ h => h) _ hplainG
  have hsd1 : SatD s1 := ⟨hD.satd.inv, hD.satd.lsym⟩
  obtain ⟨y1, y2, y3, -⟩ := addFormula_str hstr1 hlt hB hatg h3
  obtain ⟨z1, z2, z3, z4, z5⟩ := addFormula_bool plainS_neg hstr1 hsd1 hlt hB hatg hPg hK.tab h3
  have hext : TabExt c.sat.abs s2.abs := (tabExt_next q1).trans y2
  have hc'sat : c'.sat = s2 := by rw [← h4]
  have hc'box : c'.box = b2 := by
    rw [← h4]
    exact box_setBox (c.setBox b1) b2
  have hc'stk : c'.stack.vec = c.stack.vec ++ [g] := by rw [← h4]; rfl
  refine ⟨by rw [hc'sat]; exact z3, ?_⟩
  show AllD cfg.th.dbl δ S k.made _ (k.setTop { k.top with asserted := _ }).levels
  rw [levels_setTop hk, ht]
  refine hall.flat e (by rw [hc'sat]; exact ⟨hext, fun _ h => .inl h⟩) ?_
  rw [hc'sat, hc'box, hc'stk]
  refine ⟨z1, fun i hi => ?_, fun hc i v iv hv hiv x hx => ?_, fun hfr v hv => ?_, hD.bdom,
    hwfs, fun g' hg' => ?_⟩
  · rcases z4 i hi with hi | hi
    · exact ⟨lt_of_lt_of_le (hD.ts i hi).1 hext.le, (hD.ts i hi).2⟩
    · refine ⟨hi.2, fun v hv => ?_⟩
      have := (h.made v hv).1
      have h6 : n1 ≤ i := hi.1
      omega
  · have hbot : b1.bot = false := by rw [← hb2bot]; exact hc.resolve_right (by simp)
    have hvc := (hl.dom v ⟨iv, hiv⟩).1
    obtain ⟨j, hj⟩ := List.mem_iff_getElem?.mp hvc
    obtain ⟨g1, g2⟩ := hb2get j v (by rw [hb1v]; exact hj)
    have hij : i = j := (List.getElem?_inj (lt_of_getElem? hv) hb2wf.2).mp (by rw [hv, g1])
    subst hij
    rw [g2] at hx
    exact hD.sub (.inl (hb1sub hbot).1) i v iv hj hiv x ((hb1sub hbot).2 i x hx)
  · rcases (hb2mem v).mp hv with hv | hv
    · exact hD.all (fun g hg => hfr g (by simp [hg])) v hv
    · rw [hr, iteF_id f .tt _ (hfr f (by simp))] at hv
      cases hv
  · rcases List.mem_cons.mp hg' with rfl | hg'
    · exact .inr ⟨g, by simp, hweak, z5⟩
    · have := (hD.sound g' hg').grow hext (fun B hB => by
        have := hB.back hstr1 z2
        exact this)
      refine this.imp (fun h1 I ρ hin => h1 I ρ (numIn_sub hb1v hb1sub (hb2num ρ hin))) ?_
      rintro ⟨x, x1, x2⟩
      exact ⟨x, List.mem_append.mpr (.inl x1), x2⟩

/-! ### Checks -/

theorem bool01_box {made H s box stack P} (hl : LvInv D I d made H s box stack P)
    (hD : LvD d δ S made s box stack P) (hb : box.bot = false) : Bool01 box := by
  intro i v hv ht x hx
  rcases (hl.kinds v (List.mem_of_getElem? hv)).2 with ⟨iv, hiv⟩ | h
  · have := hD.sub (.inl hb) i v iv hv hiv x hx
    rw [hD.bdom v iv hiv ht] at this
    simpa [newItv, InItv, below, above] using this
  · rw [ht] at h; cases h.2

theorem kd_core {cfg : CCfg} {k H c o s' cache' tick'} (hd : DblOk cfg.th.dbl)
    (hp : PicosatOk cfg.ps) (he : EnvOk D I cfg.env) (hfp : DiamOk cfg.env.fp)
    (hδ : 0 ≤ cfg.env.delta) (h : KInv D I cfg.th.dbl k H c)
    (hK : KD cfg.th.dbl cfg.env.delta S k c)
    (hs : checkCore cfg c = .ok (o, s', cache', tick')) :
    SatD s' ∧ ClExt c.sat s' ∧ TabExt c.sat.abs s'.abs ∧
    (∀ p ∈ s'.abs.table, Canon (PlainS cfg.th.dbl cfg.env.delta S) p.2) ∧
    s'.tseitinVars = c.sat.tseitinVars ∧
    (∀ b, o = some b → (∀ a e, S a e → ¬ StuckOn cfg.env cfg.th b a e) →
      Shape c.box.vars b ∧ b.bot = false ∧ ∀ ρ ρ', Near b ρ ρ' →
        (∀ v iv, (v, iv) ∈ k.top.dom → InItv (ρ v) iv) ∧
        ∀ f ∈ k.top.asserted, DefC D I cfg.env.delta ρ f → weakC I cfg.env.delta ρ true f) := by
  obtain ⟨P, Ps, hk, ht, hl, -⟩ := h.cons
  obtain ⟨hD, -⟩ := hK.cons hk
  rw [ht]
  have hδr : (0 : ℝ) ≤ ((cfg.env.delta : ℚ) : ℝ) := by exact_mod_cast hδ
  -- from components to declared intervals
  have dom : ∀ b : Box, Shape c.box.vars b → c.box.bot = false → (∀ ρ, NumIn ρ b → NumIn ρ c.box) →
      Bool01 b → ∀ ρ ρ', Near b ρ ρ' → ∀ v iv, (v, iv) ∈ P.dom → InItv (ρ v) iv := by
    intro b hb hbot hnum h01 ρ ρ' hin v iv hiv
    have hv := (hl.dom v ⟨iv, hiv⟩).1
    obtain ⟨i, hi⟩ := List.mem_iff_getElem?.mp hv
    by_cases hvt : v.type = .boolean
    · rw [hD.bdom v iv hiv hvt]
      have := hin.bool01 h01 (by rw [hb.1]; exact hi) hvt
      simpa [newItv, InItv, below, above] using this
    · exact hD.sub (.inl hbot) i v iv hi hiv _ ((hnum ρ hin.numIn).2 i v hi hvt)
  unfold checkCore at hs
  split at hs
  · simp only [Run.ok.injEq, Prod.mk.injEq] at hs
    obtain ⟨rfl, rfl, rfl, rfl⟩ := hs
    exact ⟨hD.satd, .refl _, .refl _, hK.tab, rfl, by simp⟩
  rename_i hem
  have hbot : c.box.bot = false := by
    unfold Box.empty at hem
    simpa using hem
  split at hs
  · simp only [Run.ok.injEq, Prod.mk.injEq] at hs
    obtain ⟨rfl, rfl, rfl, rfl⟩ := hs
    exact ⟨hD.satd, .refl _, .refl _, hK.tab, rfl, by simp⟩
  split at hs
  · rename_i hst
    simp only [Run.ok.injEq, Prod.mk.injEq] at hs
    obtain ⟨rfl, rfl, rfl, rfl⟩ := hs
    refine ⟨hD.satd, .refl _, .refl _, hK.tab, rfl, fun b hb _ => ?_⟩
    cases hb
    refine ⟨⟨rfl, hl.wf⟩, hbot, fun ρ ρ' hin => ⟨dom _ ⟨rfl, hl.wf⟩ hbot (fun _ h => h)
      (bool01_box hl hD hbot) ρ ρ' hin, fun f hf hdf => ?_⟩⟩
    rcases hD.sound f hf with h1 | ⟨g, g1, g2, -⟩
    · exact h1 I ρ hin.numIn
    · refine g2 D I ρ _ (exactM_fits hδr) hdf ?_
      rcases hst with hst | hst
      · rw [hst] at g1; cases g1
      · rw [hst] at g1
        simp only [List.mem_singleton] at g1
        rw [g1]; simp
  · obtain ⟨i1, i2, i3, i4, i5⟩ := checkLoop_delta hd hp hl.wf.2 hl.pos (fun _ h => h.2) he hfp hδ hs ⟨rfl, hl.wf⟩
      hl.str (fun v hv => (hl.kinds v hv).1) h.cache hD.satd hK.tab (bool01_box hl hD hbot)
    obtain ⟨j1, j2, -⟩ := checkLoop_inv hd hp hl.wf.2 hl.pos (fun _ h => h.2) he hs ⟨rfl, hl.wf⟩
        hl.str (fun v hv => (hl.kinds v hv).1) h.cache (.inr (canon_noAll hK.tab))
    refine ⟨i1, i2, j2, i3, i4, fun b hb hsp => ?_⟩
    have F := i5 b hb hsp
    obtain ⟨A, a1, a2⟩ := F.assigned
    refine ⟨F.shape, F.alive hbot, fun ρ ρ' hin => ⟨dom b F.shape hbot F.num F.bool01 ρ ρ' hin, fun f hf hdf => ?_⟩⟩
    rcases hD.sound f hf with h1 | ⟨g, g1, g2, g3⟩
    · exact h1 I ρ (F.num ρ hin.numIn)
    · have hV : ∀ v, P.Declared v → v ∈ c.box.vars ∧ (∀ a, (v, a) ∉ s'.abs.table) ∧
          s'.tseitinVars.set v.id = false := by
        intro v hv
        obtain ⟨m1, m2⟩ := hl.dom v hv
        obtain ⟨m3, m4⟩ := h.made v m2
        refine ⟨m1, fun a ha => m4 (List.mem_map_of_mem (f := Prod.fst) (table_old j2 ha m3)), ?_⟩
        rw [i4]
        cases hset : c.sat.tseitinVars.set v.id with
        | false => rfl
        | true => exact absurd rfl ((hD.ts _ hset).2 v m2)
      have hA := a1 ρ ρ' hin P.Declared (fun v hv _ => hV v hv)
      have hfit := nameM_fits (P := AllP) hδr hA
        (fun v x y hx hy => table_fun j1.tab.abs hx hy)
      refine g2 D I ρ _ hfit hdf ?_
      refine g3 _ nameM_compl ((nameM_defs j1.tab.abs i3).sub j2.pre) ?_
      refine ClausesB.back hl.str i2 (a2 _ fun v b hb => ?_)
      show nameB I _ A ρ v ↔ _
      unfold nameB
      rw [hb]

theorem kd_check {cfg : CCfg} {k H c o c'} (hd : DblOk cfg.th.dbl) (hp : PicosatOk cfg.ps)
    (he : EnvOk D I cfg.env) (hfp : DiamOk cfg.env.fp) (hδ : 0 ≤ cfg.env.delta)
    (h : KInv D I cfg.th.dbl k H c) (hK : KD cfg.th.dbl cfg.env.delta S k c)
    (hs : checkSat cfg c = .ok (o, c')) : KD cfg.th.dbl cfg.env.delta S k c' := by
  obtain ⟨P, Ps, hk, ht, hl, -⟩ := h.cons
  obtain ⟨hD, hall⟩ := hK.cons hk
  have e := ctxExt_checkSat h.wf hs
  simp only [checkSat] at hs
  obtain ⟨⟨o1, s1, cache1, t1⟩, h1, h2⟩ := bindR_ok hs
  have hfld : c'.sat = s1 ∧ c'.boxes = c.boxes ∧ c'.stack = c.stack := by
    cases o1 with
    | none =>
      simp only [Run.ok.injEq, Prod.mk.injEq] at h2
      rw [← h2.2]; exact ⟨rfl, rfl, rfl⟩
    | some b =>
      simp only at h2
      obtain ⟨t, -, h2⟩ := bindR_ok h2
      obtain ⟨m, -, h2⟩ := bindR_ok h2
      simp only [Run.ok.injEq, Prod.mk.injEq] at h2
      exact ⟨by rw [← h2.2], by rw [← h2.2], by rw [← h2.2]⟩
  obtain ⟨g1, g2, g3⟩ := hfld
  have hbox : c'.box = c.box := by unfold Ctx.box; rw [g2]
  obtain ⟨a1, a2, a3, a4, a5, -⟩ := kd_core hd hp he hfp hδ h hK h1
  refine ⟨by rw [g1]; exact a4, ?_⟩
  rw [hk]
  refine hall.flat e (by rw [g1]; exact ⟨a3, fun _ h => .inl h⟩) ?_
  rw [g1, hbox, g3]
  refine ⟨a1, fun i hi => ?_, hD.sub, hD.all, hD.bdom, hD.wfs, fun f hf =>
    (hD.sound f hf).grow a3 (fun B hB => hB.back hl.str a2)⟩
  rw [a5] at hi
  exact ⟨lt_of_lt_of_le (hD.ts i hi).1 a3.le, (hD.ts i hi).2⟩

/-! ### Scopes -/

theorem kd_push {k H c} (h : KInv D I d k H c) (hK : KD d δ S k c) :
    KD d δ S (k.step c.sat.abs.next .push) (ctxPush c) := by
  obtain ⟨P, Ps, hk, ht, hl, -⟩ := h.cons
  obtain ⟨hD, hall⟩ := hK.cons hk
  have hbox : (ctxPush c).box = c.box := by
    show List.getLastD (c.boxes.vec ++ [c.box]) _ = _
    simp [List.getLastD_eq_getLast?]
  refine ⟨hK.tab, ?_⟩
  show AllD d δ S k.made _ (k.top :: k.levels)
  rw [ht]
  refine ⟨?_, fun p hp => ?_⟩
  · rw [hbox]
    exact ⟨⟨hD.satd.inv, hD.satd.lsym⟩, hD.ts, hD.sub, hD.all, hD.bdom, hD.wfs, hD.sound⟩
  · have := hp.unique (popsTo_push h.wf)
    subst this
    rw [hk]
    exact hall.grow (c' := withPart (ctxPush c) (problemPart c)) ⟨.refl _, fun _ h => .inl h⟩ rfl

theorem kd_pop {k H c c'} (h : KInv D I d k H c) (hK : KD d δ S k c) (hs : ctxPop c = .ok c') :
    KD d δ S (k.step c.sat.abs.next .pop) c' := by
  obtain ⟨P, Ps, hk, ht, hl, -⟩ := h.cons
  obtain ⟨hD, hall⟩ := hK.cons hk
  have hp := popsTo_of_pop hs
  have hc : c'.sat.abs = c.sat.abs := by
    simp only [ctxPop, satPop] at hs
    obtain ⟨st, -, hs⟩ := bindO_ok hs
    obtain ⟨bs, -, hs⟩ := bindO_ok hs
    obtain ⟨s, h3, hs⟩ := bindO_ok hs
    simp only [Outcome.ok.injEq] at hs; subst hs
    obtain ⟨ts, -, h3⟩ := bindO_ok h3
    obtain ⟨sym, -, h3⟩ := bindO_ok h3
    obtain ⟨sat, -, h3⟩ := bindO_ok h3
    obtain ⟨cl, -, h3⟩ := bindO_ok h3
    simp only [Outcome.ok.injEq] at h3; subst h3
    rfl
  refine ⟨by rw [hc]; exact hK.tab, ?_⟩
  show AllD d δ S k.made _ k.levels.tail
  rw [hk]
  refine (hall.2 _ hp).grow (c' := c') ⟨?_, fun _ h => .inl h⟩ rfl
  rw [hc]; exact .refl _

theorem kd_init {next : Nat} {made : List Variable} :
    KD d δ S { made := made } (Ctx.init next) := by
  refine ⟨by simp [Ctx.init], ⟨⟨⟨by simp [Ctx.init], by simp [Ctx.init]⟩, by simp [Ctx.init],
    by simp [Ctx.box, Ctx.init], by simp [Ctx.box, Ctx.init], by simp, by simp, by simp⟩, fun p hp => trivial⟩⟩

theorem posesCond_poses {cfg : CCfg} {k c} (h : PosesCond cfg S k c) : Poses cfg k c := by
  induction h with
  | init next made hm => exact .init next made hm
  | step _ hu _ hs ih => exact .step ih hu hs

theorem posesPlain_cond {cfg : CCfg} {k c} (h : PosesPlain cfg S k c) : PosesCond cfg S k c := by
  induction h with
  | init next made hm => exact .init next made hm
  | step _ hu hp hs ih => exact .step ih hu (.inl hp) hs

theorem posesPlain_poses {cfg : CCfg} {k c} (h : PosesPlain cfg S k c) : Poses cfg k c :=
  posesCond_poses (posesPlain_cond h)

theorem condUse_flat {k : Books} {next cmd} (h : k.CondUse d δ S next cmd)
    (hn : ∀ f, cmd ≠ .assert f) : k.PlainUse d δ S cmd :=
  h.resolve_right fun ⟨f, e, _⟩ => hn f e

theorem kd_posesCond {cfg : CCfg} (hd : DblOk cfg.th.dbl) (hp : PicosatOk cfg.ps)
    (he : EnvOk D I cfg.env) (hfp : DiamOk cfg.env.fp) (hδ : 0 ≤ cfg.env.delta) {k c}
    (h : PosesCond cfg S k c) :
    ∃ H, KInv D I cfg.th.dbl k H c ∧ KD cfg.th.dbl cfg.env.delta S k c := by
  obtain ⟨H, hKI⟩ := kinv_poses hd hp he (posesCond_poses h)
  refine ⟨H, hKI, ?_⟩
  clear hKI H
  induction h with
  | init next made hm => exact kd_init
  | @step k c cmd a c' hprev hu hpl hs ih =>
    obtain ⟨H, hKI⟩ := kinv_poses hd hp he (posesCond_poses hprev)
    cases cmd with
    | newVar t =>
      simp only [stepCmd, Run.ok.injEq, Prod.mk.injEq] at hs
      rw [← hs.2]; exact kd_newVar ih
    | declare v m =>
      simp only [stepCmd, Run.ok.injEq, Prod.mk.injEq] at hs
      rw [← hs.2]; exact kd_declare hKI ih (condUse_flat hpl (by simp))
    | setInterval v lb ub =>
      simp only [stepCmd] at hs
      obtain ⟨c1, h1, h2⟩ := bindR_ok hs
      simp only [Run.ok.injEq, Prod.mk.injEq] at h2
      rw [← h2.2]; exact kd_setInterval hKI ih (condUse_flat hpl (by simp)) (lift_ok h1)
    | assert f =>
      simp only [stepCmd] at hs
      obtain ⟨c1, h1, h2⟩ := bindR_ok hs
      simp only [Run.ok.injEq, Prod.mk.injEq] at h2
      rw [← h2.2]
      refine kd_assert hd hδ hKI ih hu (hpl.imp id ?_) (lift_ok h1)
      rintro ⟨f', e, hq⟩
      cases e; exact hq
    | check =>
      simp only [stepCmd] at hs
      obtain ⟨c1, h1, h2⟩ := bindR_ok hs
      simp only [Run.ok.injEq, Prod.mk.injEq] at h2
      rw [← h2.2]
      have := kd_check hd hp he hfp hδ hKI ih h1
      exact ⟨this.tab, this.levels⟩
    | push =>
      simp only [stepCmd, Run.ok.injEq, Prod.mk.injEq] at hs
      rw [← hs.2]; exact kd_push hKI ih
    | pop =>
      simp only [stepCmd] at hs
      obtain ⟨c1, h1, h2⟩ := bindR_ok hs
      simp only [Run.ok.injEq, Prod.mk.injEq] at h2
      rw [← h2.2]; exact kd_pop hKI ih (lift_ok h1)

theorem kd_poses {cfg : CCfg} (hd : DblOk cfg.th.dbl) (hp : PicosatOk cfg.ps)
    (he : EnvOk D I cfg.env) (hfp : DiamOk cfg.env.fp) (hδ : 0 ≤ cfg.env.delta) {k c}
    (h : PosesPlain cfg S k c) :
    ∃ H, KInv D I cfg.th.dbl k H c ∧ KD cfg.th.dbl cfg.env.delta S k c :=
  kd_posesCond hd hp he hfp hδ (posesPlain_cond h)

/-- Formulas asserted in plain histories have no conditionals. -/
theorem posesPlain_free {cfg : CCfg} {k c} (h : PosesPlain cfg S k c) :
    ∀ P ∈ k.levels, ∀ f ∈ P.asserted, IteFree f := by
  induction h with
  | init next made hm => intro P hP f hf; simp at hP; subst hP; cases hf
  | @step k c cmd a c' _ hu hp hs ih =>
    have top : ∀ f ∈ k.top.asserted, IteFree f := by
      unfold Books.top
      cases hk : k.levels with
      | nil => intro f hf; cases hf
      | cons P Ps => exact ih P (by rw [hk]; simp)
    have set : ∀ Q : Problem, (∀ f ∈ Q.asserted, IteFree f) → ∀ P ∈ (k.setTop Q).levels,
        ∀ f ∈ P.asserted, IteFree f := by
      intro Q hQ P hP
      rcases List.mem_cons.mp hP with rfl | hP
      · exact hQ
      · exact ih P (List.mem_of_mem_tail hP)
    cases cmd with
    | newVar t => exact ih
    | declare v m => exact set _ top
    | setInterval v lb ub => exact set _ top
    | assert f =>
      refine set _ fun g hg => ?_
      rcases List.mem_cons.mp hg with rfl | hg
      exacts [(plain_free _ g le_rfl hp).1, top g hg]
    | check => exact ih
    | push =>
      intro P hP
      rcases List.mem_cons.mp hP with rfl | hP
      exacts [top, ih P hP]
    | pop => exact fun P hP => ih P (List.mem_of_mem_tail hP)

end

end Verif.Proof
