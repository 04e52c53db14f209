import Mathlib.Tactic.NormNum
import Verif.Props.ForallUnsat

/-!
# C28 for quantified assertions

A counterexample: delta-sat is answered although the quantified formula fails by far more than
`δ`.
-/

namespace Verif.Props
open Verif Verif.Model Verif.Spec Verif.Proof

/-! ### Interval operations and contractors that are exact for `abs` and `min` -/

/-- The exact range of `abs`. -/
def absItv : Itv → Itv
  | ⟨.fin a, .fin b⟩ => ⟨.fin (max 0 (max a (-b))), .fin (max (-a) b)⟩
  | ⟨.fin a, _⟩ => ⟨.fin (max 0 a), .pinf⟩
  | ⟨_, .fin b⟩ => ⟨.fin (max 0 (-b)), .pinf⟩
  | _ => ⟨.fin 0, .pinf⟩

/-- The exact range of `min` on intervals bounded below and bounded intervals. -/
def minItv : Itv → Itv → Itv
  | ⟨.fin a, .fin b⟩, ⟨.fin c, .fin d⟩ => ⟨.fin (min a c), .fin (min b d)⟩
  | ⟨.fin a, .pinf⟩, ⟨.fin c, .fin d⟩ => ⟨.fin (min a c), .fin d⟩
  | _, _ => Itv.univ

def wellOps : IOps := { demoOps with
  fn1 := fun f i => if f = .abs then absItv i else Itv.univ
  fn2 := fun f i j => if f = .min then minItv i j else Itv.univ }

/-- The interpretation gives `abs` and `min` their meaning. -/
def AbsMin (I : Interp) : Prop := (∀ x, I.f1 .abs x = |x|) ∧ ∀ x y, I.f2 .min x y = min x y

theorem absItv_in {i : Itv} {x : ℝ} (h : InItv x i) : InItv |x| (absItv i) := by
  obtain ⟨l, u⟩ := i
  cases l <;> cases u <;> simp only [InItv, below, above, absItv, true_and, and_true] at * <;>
    push_cast
  all_goals first
    | exact h.elim
    | exact h.1.elim
    | exact h.2.elim
    | exact abs_nonneg x
    | skip
  · exact max_le (abs_nonneg x) ((neg_le_neg h).trans (neg_le_abs x))
  · refine ⟨max_le (abs_nonneg x) (max_le (h.1.trans (le_abs_self x))
      ((neg_le_neg h.2).trans (neg_le_abs x))), abs_le.mpr ⟨?_, h.2.trans (le_max_right _ _)⟩⟩
    exact neg_le.mp ((neg_le_neg h.1).trans (le_max_left _ _))
  · exact max_le (abs_nonneg x) (h.trans (le_abs_self x))

theorem wellOps_ok (D : Dom) {I : Interp} (hI : AbsMin I) : IOpsOk D I wellOps where
  add := (demoOps_ok D I).add
  mul := (demoOps_ok D I).mul
  fn1 := by
    intro f i x hx _
    simp only [wellOps]
    split
    · rename_i h
      rw [h, hI.1]; exact absItv_in hx
    · exact in_univ _
  fn2 := by
    intro f i j x y hx hy _
    simp only [wellOps]
    split
    · rename_i h
      rw [h, hI.2]
      obtain ⟨l, u⟩ := i
      obtain ⟨l', u'⟩ := j
      cases l <;> cases u <;> cases l' <;> cases u' <;> try exact in_univ _
      · simp only [InItv, below, above, minItv] at *
        push_cast
        exact ⟨min_le_min hx.1 hy.1, min_le_min hx.2 hy.2⟩
      · simp only [InItv, below, above, minItv] at *
        push_cast
        exact ⟨min_le_min hx.1 hy.1, (min_le_right _ _).trans hy.2⟩
    · exact in_univ _
  sqr := (demoOps_ok D I).sqr
  powInt := (demoOps_ok D I).powInt
  powQ := (demoOps_ok D I).powQ

/-- A contractor that empties a box where interval arithmetic refutes the constraint. -/
def wellBwd (c : Ctr) (b : Box) : Bool × Box :=
  match evalI wellOps b c.e with
  | .ok iv =>
    if relVerdict c.op iv = .unsat then (false, b.setEmpty)
    else (decide (relVerdict c.op iv = .valid), b)
  | _ => (false, b)

def wellIbex : Ibex := { demoIbex with bwd := wellBwd, poly := fun _ b => b }

theorem wellBwd_cases (c b) : (wellBwd c b).2 = b ∨ ((wellBwd c b).2 = b.setEmpty ∧
    (wellBwd c b).1 = false ∧ ∃ iv, evalI wellOps b c.e = .ok iv ∧ relVerdict c.op iv = .unsat) := by
  unfold wellBwd
  split
  · split
    · rename_i iv h1 h2
      exact .inr ⟨rfl, rfl, iv, h1, h2⟩
    · exact .inl rfl
  · exact .inl rfl

theorem wellIbex_sound (D : Dom) {I : Interp} (hI : AbsMin I) : IbexSound D I wellIbex where
  bwd_shape := by
    intro c b
    show (wellBwd c b).2.vars = _ ∧ (wellBwd c b).2.vals.length = _
    rcases wellBwd_cases c b with h | ⟨h, -⟩ <;> rw [h] <;> exact ⟨rfl, rfl⟩
  bwd_sub := by
    intro c b _
    show SubBox (wellBwd c b).2 b
    rcases wellBwd_cases c b with h | ⟨h, -⟩ <;> rw [h]
    · exact fun h => ⟨h, fun _ _ x => x⟩
    · intro h; cases h
  bwd_sound := by
    intro c b _ hv hr ρ hρ hd hs
    show InBox ρ (wellBwd c b).2
    rcases wellBwd_cases c b with h | ⟨-, -, iv, h1, h2⟩
    · rw [h]; exact hρ
    · exact absurd hs (verdict_unsat (evalI_encl (wellOps_ok D hI) hρ c.e iv hd hr hv h1) h2)
  poly_shape := fun _ _ => ⟨rfl, rfl⟩
  poly_sub := fun _ _ _ h => ⟨h, fun _ _ x => x⟩
  poly_sound := fun _ _ _ _ _ _ h _ _ => h

theorem wellIbex_local (D : Dom) (I : Interp) : IbexLocal D I wellIbex where
  bwd_inner := by
    intro c b _ h
    rcases wellBwd_cases c b with h' | ⟨-, h', -⟩
    · exact h'
    · have : (wellBwd c b).1 = true := h
      rw [h'] at this; cases this
  bwd_local := by
    intro c b _ h i v _ _
    show (wellBwd c b).2.get i = _
    rcases wellBwd_cases c b with h' | ⟨h', -⟩
    · rw [h']
    · rw [h']; rfl
  bwd_nonempty := by
    intro c b _ hn h
    show NoneEmpty (wellBwd c b).2
    rcases wellBwd_cases c b with h' | ⟨h', -⟩ <;> rw [h'] <;> exact hn
  poly_nonempty := fun _ _ _ h _ => h
  poly_local := fun _ _ _ _ _ _ _ _ _ h _ => h

/-- Midpoints as in IBEX: those of unbounded intervals are at the largest double, here 8. -/
def wellMid : Itv → ℚ
  | ⟨.fin a, .fin b⟩ => (a + b) / 2
  | ⟨.fin a, .pinf⟩ => max a 8
  | ⟨.ninf, .fin b⟩ => min b (-8)
  | _ => 0

def wellFp : Fp := { exactFp with mid := wellMid, cut := wellMid }

theorem wellFp_cut : CutInside wellFp := by
  intro i h
  simp only [Fp.bisectable, Bool.and_eq_true, decide_eq_true_eq] at h
  exact ⟨h.1.2, h.2⟩

/-- The environment, with precision `δ`. -/
def wellEnv (δ : ℚ) : Env := { demoEnv with
  ops := wellOps, ib := wellIbex, fp := wellFp, delta := δ,
  brancher := fun b cand => b.branchLargestFirst wellFp cand }

theorem wellEnv_ok (D : Dom) {I : Interp} (hI : AbsMin I) (δ : ℚ) : EnvOk D I (wellEnv δ) where
  ops := wellOps_ok D hI
  ib := wellIbex_sound D hI
  loc := wellIbex_local D I
  fa := ⟨(demoIbex_forall D I).shape, (demoIbex_forall D I).sub, (demoIbex_forall D I).sound⟩
  faLoc := ⟨(demoIbex_forallLocal D I).local', (demoIbex_forallLocal D I).nonempty,
    (demoIbex_forallLocal D I).sound⟩
  br := Proof.branchOk_default wellFp_cut
  cut := wellFp_cut
  noUnsat := (demoCfg_ok D I).noUnsat

/-! ### The problem -/

/-- `100·min(|y|, 1) + |x| ≥ 100 + 199/200`. -/
def wellLit : Fml := .rel .geq
  (.add (.mul (.const 100) (.app2 .min (.app1 .abs (.var varY)) (.const 1)))
    (.app1 .abs (.var varX))) (.const (100 + 199 / 200))
/-- `forall y. 100·min(|y|, 1) + |x| ≥ 100 + 199/200`. -/
def forallWell : Fml := .all [varY] wellLit

/-- The nested contexts work with precision `0.99²·δ`. -/
def wellNest : CCfg := { demoCfg with
  th := { demoTh with fuel := 100 }
  env := { wellEnv (9801 / 10000) with fuel := 40 } }

theorem wellNest_ok (D : Dom) {I : Interp} (hI : AbsMin I) : EnvOk D I wellNest.env := by
  have h := wellEnv_ok D hI (9801 / 10000)
  exact ⟨h.ops, h.ib, h.loc, h.fa, h.faLoc, h.br, h.cut, h.noUnsat⟩

/-- The nested contexts of the contractor and of the evaluator of `forallWell`. -/
def wellSt (_ : Nat) (vs : List Variable) (f : Fml) : Option (Ctx × Bool) :=
  if vs = [varX] ∧ f = forallWell then
    match ctcContext wellNest 10 (99 / 100) [varX] [varY] wellLit with
    | .ok c => some (c, false)
    | _ => none
  else none

def wellEv (_ : Nat) (_ : Fml) : Ctx :=
  match evalContext wellNest 10 (99 / 100) [varY] wellLit with
  | .ok c => c
  | _ => Ctx.init 10

def wellCfg : CCfg := { demoCfg with
  env := quantEnv (wellEnv 1) 10 false wellNest wellNest (fun _ b => .ok b) wellSt wellEv }

/-- The context before the quantified assertion. -/
def well1 : Ctx := after wellCfg (after wellCfg (Ctx.init 10) (.declare varX true))
  (.setInterval varX (.fin (-1)) (.fin 1))

def wellSat : Outcome SatState :=
  addClauses { well1.sat with abs := (absVisitList [forallWell] well1.sat.abs).2 }
    (absVisitList [forallWell] well1.sat.abs).1

/-- The context after it. -/
def well2 : Ctx :=
  match wellSat with
  | .ok s => { (well1.setBox well1.box).setBox well1.box with
      stack := well1.stack.pushBack forallWell, sat := s }
  | _ => well1

theorem wellSt_searched (n : Nat) (vs : List Variable) (qs : List Variable) (g : Fml)
    (s : Ctx × Bool) (h : wellSt n vs (.all qs g) = some s) :
    Searched wellNest (fun b => .ok b) vs qs g s := by
  unfold wellSt at h
  split at h
  · rename_i hc
    obtain ⟨rfl, e⟩ := hc
    unfold forallWell at e
    cases e
    split at h
    · rename_i c hc
      simp only [Option.some.injEq] at h; subst h
      exact .init false (by decide) (by decide)
        (by simp [wellLit, Old, OldE, varX, varY]) hc
    · cases h
  · cases h

theorem tsVisit_well (s : TsState) : tsVisit forallWell s = .ok (forallWell, s) := by
  have h1 : nnf true wellLit = wellLit := by decide +kernel
  have h2 : naiveCnf wellLit = .ok wellLit := by
    rw [naiveCnf, h1]
    simp only [wellLit, naiveVisit]
  have h3 : (wellLit.getClauses.all Fml.isClause) = true := by decide +kernel
  have h4 : toSet (wellLit.getClauses.map (tsQuantify [varY])) = [forallWell] := by
    decide +kernel
  simp only [forallWell, tsVisit, h2, Outcome.bind_ok, h3, if_true]
  rw [h4]; rfl

theorem tseitin_well (n : Nat) : tseitin n forallWell = .ok ([forallWell], n) ∧
    tseitinKeys n forallWell = [] := by
  constructor
  · simp [tseitin, tsVisit_well]
  · simp [tseitinKeys, tsVisit_well]

theorem well_assert : assertF wellCfg well1 forallWell = .ok well2 := by
  have hf : (match Filter.filter wellCfg.th.dbl forallWell well1.box with
      | .ok (.notFiltered, b) => decide (b = well1.box) | _ => false) = true := by
    decide +kernel
  have hf : Filter.filter wellCfg.th.dbl forallWell well1.box = .ok (.notFiltered, well1.box) := by
    split at hf
    · rename_i b h; rw [h, of_decide_eq_true hf]
    · cases hf
  have he : well1.box.empty = false := by decide +kernel
  have hb : well1.box.bot = false := by decide +kernel
  have hn : (well1.setBox well1.box).sat.abs.next = 10 := by decide +kernel
  have hp : iteProcess 10 forallWell = (forallWell, [], 10) := by decide +kernel
  have hbx : (well1.setBox well1.box).box = well1.box := by decide +kernel
  obtain ⟨s, hs⟩ : ∃ s, wellSat = .ok s := by
    have : (match wellSat with | .ok _ => true | _ => false) = true := by decide +kernel
    split at this
    · exact ⟨_, by assumption⟩
    · cases this
  have hadd : addFormula well1.sat forallWell = .ok s := by
    unfold addFormula
    rw [(tseitin_well _).1, (tseitin_well _).2, ← hs]
    rfl
  unfold assertF
  rw [if_neg (by decide), he, if_neg (by decide), if_neg (by decide), hf]
  simp only [Outcome.bind_ok, hb, Bool.false_eq_true, if_false, hn, hp, List.foldl_nil, hbx]
  rw [← hn]
  show (do
    let s ← addFormula well1.sat forallWell
    Outcome.ok { (well1.setBox well1.box).setBox well1.box with
      stack := well1.stack.pushBack forallWell, sat := s }) = _
  rw [hadd]
  unfold well2
  rw [hs]; rfl

theorem well_after : stepCmd wellCfg well1 (.assert forallWell) = .ok ([], well2) := by
  simp only [stepCmd, well_assert]; rfl

/-- C28 fails for quantified assertions: with precision 1, sound interval arithmetic and sound
contractors, the context answers delta-sat with a nonempty model every point of which falls short of
the asserted `forall y. 100·min(|y|, 1) + |x| ≥ 100 + 199/200` by more than 98, at `y = 0`.  The
nested context proposes a counterexample with a large `|y|`, at which the shortfall is below the
precision, and neither the contractor nor the evaluator asks for another one. -/
theorem C28_quantified_fails : ∃ (cfg : CCfg) (k : Books) (c c' : Ctx) (m : Box) (y : Variable)
    (a b : Expr), cfg.env.delta = 1 ∧ DblOk cfg.th.dbl ∧ PicosatOk cfg.ps ∧
    (∀ D I, AbsMin I → EnvOk D I cfg.env) ∧ Poses cfg k c ∧
    k.top.asserted = [.all [y] (.rel .geq a b)] ∧ checkSat cfg c = .ok (some m, c') ∧
    (∃ ρ, InBox ρ m) ∧
    ∀ I, AbsMin I → ∀ ρ, InBox ρ m → ∃ ρ' : Variable → ℝ, (∀ v, v ≠ y → ρ' v = ρ v) ∧
      eval I ρ' a + 98 < eval I ρ' b := by
  have h0 : Poses wellCfg { made := [varX, varY] } (Ctx.init 10) := .init _ _ (by decide)
  have h1 := poses_after (.declare varX true) h0 ⟨by simp, .inr ⟨by simp, id⟩⟩ (by decide +kernel)
  have h2 := poses_after (.setInterval varX (.fin (-1)) (.fin 1)) h1
    ⟨⟨newItv varX.type, by decide +kernel⟩, .inl rfl⟩ (by decide +kernel)
  have hd : (Books.step (Books.step { made := [varX, varY] } (Ctx.init 10).sat.abs.next
      (.declare varX true)) (after wellCfg (Ctx.init 10) (.declare varX true)).sat.abs.next
      (.setInterval varX (.fin (-1)) (.fin 1))).top.Declared varX := ⟨_, .head _⟩
  have hn : well1.sat.abs.next = 10 := by decide +kernel
  have h3 := Poses.step (cmd := .assert forallWell) (c := well1) h2 (by
    refine ⟨?_, ?_, fun h => absurd h id⟩
    · exact ⟨⟨⟨⟨trivial, trivial, trivial⟩, trivial⟩, trivial⟩,
        ⟨⟨trivial, ⟨by decide, .inr (.head _)⟩, trivial⟩, by decide, .inl hd⟩, trivial⟩
    rw [hn]
    simp [forallWell, wellLit, Old, OldE, varX, varY]) well_after
  obtain ⟨c', m, hm, hv⟩ : ∃ c' m, checkSat wellCfg well2 = .ok (some m, c') ∧
      m = ⟨[varX], [⟨.fin (-1 / 2), .fin (1 / 2)⟩], false⟩ := by
    have : (match checkSat wellCfg well2 with
      | .ok (some m, _) => decide (m = ⟨[varX], [⟨.fin (-1 / 2), .fin (1 / 2)⟩], false⟩)
      | _ => false) = true := by decide +kernel
    split at this
    · rename_i m c' hs
      exact ⟨c', m, hs, of_decide_eq_true this⟩
    · cases this
  refine ⟨wellCfg, _, well2, c', m, varY, _, _, rfl, quarterDbl_ok, demoSat_ok, fun D I hI => ?_, h3,
    rfl, hm, ?_, fun I hI ρ hρ => ?_⟩
  · refine C34_environment (C35_solver_partial (wellEnv_ok D hI 1) (wellNest_ok D hI)
      (fun _ _ _ ce ce' h hv hw hb => ?_) wellSt_searched) wellEv
    simp only [Run.ok.injEq] at h; subst h; exact ⟨hv, hw, hb⟩
  · subst hv
    refine ⟨fun _ => 0, rfl, fun i v hi => ?_⟩
    match i, hi with
    | 0, _ => simp only [Box.get, InItv, below, above, List.getD_cons_zero]; norm_num
  · subst hv
    have hx : InItv (ρ varX) ⟨.fin (-1 / 2), .fin (1 / 2)⟩ := hρ.2 0 varX rfl
    simp only [InItv, below, above] at hx
    push_cast at hx
    refine ⟨fun v => if v = varY then 0 else ρ v, fun v h => if_neg h, ?_⟩
    have hne : varX ≠ varY := by decide
    have : |ρ varX| ≤ 1 / 2 := abs_le.mpr ⟨by linarith [hx.1], hx.2⟩
    simp only [eval, hI.1, hI.2, if_true, if_neg hne, abs_zero]
    push_cast
    rw [min_eq_left (by norm_num)]
    linarith

/-- There is an interpretation as the theorem asks for. -/
example (I : Interp) : ∃ J : Interp, AbsMin J :=
  ⟨{ I with f1 := fun f x => if f = .abs then |x| else I.f1 f x
            f2 := fun f x y => if f = .min then min x y else I.f2 f x y },
    fun x => by simp, fun x y => by simp⟩

end Verif.Props
