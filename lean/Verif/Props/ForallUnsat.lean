import Verif.Props.ForallEval

/-!
# C27 for quantified assertions, with the contractors and evaluators of the code
-/

namespace Verif.Props
open Verif Verif.Model Verif.Spec Verif.Proof

/-- The environment of a theory solver in which quantified literals are pruned and evaluated as in
the code: `stC` and `stE` give the nested contexts of the contractor and of the evaluator of a
formula at each use. -/
def quantEnv (env : Env) (fuel : Nat) (up : Bool) (cfgC cfgE : CCfg) (refine : Fml → Box → Run Box)
    (stC : Nat → List Variable → Fml → Option (Ctx × Bool)) (stE : Nat → Fml → Ctx) : Env :=
  withEval cfgE { env with ib := withForall env.ib env.fp fuel up (realFind cfgC refine) stC } stE

/-- C27 for problems with quantified assertions: an unsat answer of a context that prunes and
evaluates quantified literals with nested contexts, as the code does, is right for regular points.
Only interval arithmetic, the IBEX contractors and the SAT solvers are assumed to be right.  The
nested context of a contractor is any one that earlier searches of that contractor left behind, that
of an evaluator is arbitrary. -/
theorem C27_quantified_partial (D : Dom) (I : Interp) (cfg cfgC cfgE : CCfg) (fuel : Nat) (up : Bool)
    (refine : Fml → Box → Run Box) (stC : Nat → List Variable → Fml → Option (Ctx × Bool))
    (stE : Nat → Fml → Ctx) (env : Env)
    (hcfg : cfg.env = quantEnv env fuel up cfgC cfgE refine stC stE) (he : EnvOk D I env)
    (hc : EnvOk D I cfgC.env) (hr : ∀ vs qs g, RefineOk (vs ++ qs) (refine (.all qs g)))
    (hi : ∀ n vs qs g s, stC n vs (.all qs g) = some s → Searched cfgC (refine (.all qs g)) vs qs g s)
    (hd : DblOk cfg.th.dbl) (hp : PicosatOk cfg.ps) (k : Books) (c c' : Ctx) (hk : Poses cfg k c)
    (h : checkSat cfg c = .ok (none, c')) :
    ¬ ∃ ρ, SolvedBy I k.top ρ ∧ RegularAt D I cfg.th.dbl k.top ρ := by
  refine C27_unsat_partial D I cfg ?_ hd hp k c c' hk h
  rw [hcfg]
  exact C34_environment (C35_solver_partial he hc hr hi) stE

/-! ### A concrete case -/

/-- `forall y. y < 0 or y > 1 or x ≤ 1/2`. -/
def forallHalf : Fml := .all [varY] demoBelow
/-- `x + x ≥ 3/2`. -/
def twiceBig : Fml := .rel .geq (.add (.var varX) (.var varX)) (.const (3 / 2))

/-- The nested context of the contractor of `forallHalf`. -/
def halfSt (_ : Nat) (vs : List Variable) (f : Fml) : Option (Ctx × Bool) :=
  if vs = [varX] ∧ f = forallHalf then
    match ctcContext gapCfg 10 (1 / 2000) [varX] [varY] demoBelow with
    | .ok c => some (c, false)
    | _ => none
  else none

/-- The nested context of the evaluator of `forallHalf`. -/
def halfEv (_ : Nat) (_ : Fml) : Ctx :=
  match evalContext gapCfg 10 (1 / 2000) [varY] demoBelow with
  | .ok c => c
  | _ => Ctx.init 10

def halfCfg : CCfg := { demoCfg with
  env := quantEnv demoCfg.env 10 false gapCfg gapCfg (fun _ b => .ok b) halfSt halfEv }

theorem halfSt_searched (n : Nat) (vs : List Variable) (qs : List Variable) (g : Fml)
    (s : Ctx × Bool) (h : halfSt n vs (.all qs g) = some s) :
    Searched gapCfg (fun b => .ok b) vs qs g s := by
  unfold halfSt at h
  split at h
  · rename_i hc
    obtain ⟨rfl, e⟩ := hc
    unfold forallHalf at e
    cases e
    split at h
    · rename_i c hc
      simp only [Option.some.injEq] at h; subst h
      exact .init false (by decide) (by decide)
        (by simp [demoBelow, Old, OldE, OldList, varX, varY]) hc
    · cases h
  · cases h

theorem tsVisit_half (s : TsState) : tsVisit forallHalf s = .ok (forallHalf, s) := by
  have h1 : nnf true demoBelow = demoBelow := by decide +kernel
  have h2 : naiveCnf demoBelow = .ok demoBelow := by
    rw [naiveCnf, h1]
    have : (toSet [Fml.rel .lt (.var varY) (.const 0), .rel .gt (.var varY) (.const 1),
      .rel .leq (.var varX) (.const (1 / 2))]).foldl distribute .ff = demoBelow := by decide +kernel
    simp only [demoBelow, naiveVisit, naiveVisitList, Outcome.bind_ok]
    rw [this]; rfl
  have h3 : (demoBelow.getClauses.all Fml.isClause) = true := by decide +kernel
  have h4 : toSet (demoBelow.getClauses.map (tsQuantify [varY])) = [forallHalf] := by
    decide +kernel
  simp only [forallHalf, tsVisit, h2, Outcome.bind_ok, h3, if_true]
  rw [h4]; rfl

theorem tseitin_half (n : Nat) : tseitin n forallHalf = .ok ([forallHalf], n) ∧
    tseitinKeys n forallHalf = [] := by
  constructor
  · simp [tseitin, tsVisit_half]
  · simp [tseitinKeys, tsVisit_half]

/-- The context before the quantified assertion. -/
def half1 : Ctx := after halfCfg (after halfCfg (Ctx.init 10) (.declare varX true))
  (.setInterval varX (.fin 0) (.fin 1))

/-- The state of the SAT solver after it. -/
def halfSat : Outcome SatState :=
  addClauses { half1.sat with abs := (absVisitList [forallHalf] half1.sat.abs).2 }
    (absVisitList [forallHalf] half1.sat.abs).1

/-- The context after it. -/
def half2 : Ctx :=
  match halfSat with
  | .ok s => { (half1.setBox half1.box).setBox half1.box with
      stack := half1.stack.pushBack forallHalf, sat := s }
  | _ => half1

theorem half_assert : assertF halfCfg half1 forallHalf = .ok half2 := by
  have hf : (match Filter.filter halfCfg.th.dbl forallHalf half1.box with
      | .ok (.notFiltered, b) => decide (b = half1.box) | _ => false) = true := by
    decide +kernel
  have hf : Filter.filter halfCfg.th.dbl forallHalf half1.box = .ok (.notFiltered, half1.box) := by
    split at hf
    · rename_i b h; rw [h, of_decide_eq_true hf]
    · cases hf
  have he : half1.box.empty = false := by decide +kernel
  have hb : half1.box.bot = false := by decide +kernel
  have hn : (half1.setBox half1.box).sat.abs.next = 10 := by decide +kernel
  have hp : iteProcess 10 forallHalf = (forallHalf, [], 10) := by decide +kernel
  have hbx : (half1.setBox half1.box).box = half1.box := by decide +kernel
  obtain ⟨s, hs⟩ : ∃ s, halfSat = .ok s := by
    have : (match halfSat with | .ok _ => true | _ => false) = true := by decide +kernel
    split at this
    · exact ⟨_, by assumption⟩
    · cases this
  have hadd : addFormula half1.sat forallHalf = .ok s := by
    unfold addFormula
    rw [(tseitin_half _).1, (tseitin_half _).2, ← hs]
    rfl
  unfold assertF
  rw [if_neg (by decide), he, if_neg (by decide), if_neg (by decide), hf]
  simp only [Outcome.bind_ok, hb, Bool.false_eq_true, if_false, hn, hp, List.foldl_nil, hbx]
  rw [← hn]
  show (do
    let s ← addFormula half1.sat forallHalf
    Outcome.ok { (half1.setBox half1.box).setBox half1.box with
      stack := half1.stack.pushBack forallHalf, sat := s }) = _
  rw [hadd]
  unfold half2
  rw [hs]; rfl

theorem half_after : stepCmd halfCfg half1 (.assert forallHalf) = .ok ([], half2) := by
  simp only [stepCmd, half_assert]; rfl

/-- The hypotheses are met by a history in which `forall y. y < 0 or y > 1 or x ≤ 1/2` is asserted
and found satisfiable with `x` in `[0, 1]`, and then `x + x ≥ 3/2` is asserted.  Without the
quantified assertion the answer would not be unsat. -/
example (D : Dom) (I : Interp) : EnvOk D I demoCfg.env ∧ EnvOk D I gapCfg.env ∧
    (∀ us, RefineOk us fun b => .ok b) ∧ DblOk halfCfg.th.dbl ∧ PicosatOk halfCfg.ps ∧
    (∃ k c c', Poses halfCfg k c ∧ k.top.asserted = [twiceBig, forallHalf] ∧
      k.top.dom = [(varX, ⟨.fin 0, .fin 1⟩)] ∧ checkSat halfCfg c = .ok (none, c') ∧
      ∃ ρ, (∀ p ∈ k.top.dom, InItv (ρ p.1) p.2) ∧ holds I ρ twiceBig ∧
        RegularAt D I halfCfg.th.dbl k.top ρ) ∧
    answerOf halfCfg (after halfCfg (after halfCfg (after halfCfg (Ctx.init 10)
      (.declare varX true)) (.setInterval varX (.fin 0) (.fin 1))) (.assert twiceBig)) =
      some true := by
  refine ⟨demoCfg_ok D I, gapCfg_ok D I, fun us ce ce' h hv hw hb => ?_, quarterDbl_ok,
    demoSat_ok, ?_, by decide +kernel⟩
  · simp only [Run.ok.injEq] at h; subst h; exact ⟨hv, hw, hb⟩
  have h0 : Poses halfCfg { made := [varX, varY] } (Ctx.init 10) := .init _ _ (by decide)
  have h1 := poses_after (.declare varX true) h0 ⟨by simp, .inr ⟨by simp, id⟩⟩ (by decide +kernel)
  have h2 := poses_after (.setInterval varX (.fin 0) (.fin 1)) h1
    ⟨⟨newItv varX.type, by decide +kernel⟩, .inl rfl⟩ (by decide +kernel)
  have hx : ∀ {P : Problem}, P.dom = [(varX, (⟨.fin 0, .fin 1⟩ : Itv))] → P.Declared varX :=
    fun e => ⟨_, by rw [e]; exact .head _⟩
  have hd : (Books.step (Books.step { made := [varX, varY] } (Ctx.init 10).sat.abs.next
      (.declare varX true)) (after halfCfg (Ctx.init 10) (.declare varX true)).sat.abs.next
      (.setInterval varX (.fin 0) (.fin 1))).top.Declared varX := hx rfl
  have hn : half1.sat.abs.next = 10 := by decide +kernel
  have h3 := Poses.step (cmd := .assert forallHalf) (c := half1) h2 (by
    refine ⟨⟨⟨⟨trivial, trivial⟩, ⟨trivial, trivial⟩, ⟨trivial, trivial⟩, trivial⟩,
        ⟨⟨by decide, .inr (.head _)⟩, trivial⟩, ⟨⟨by decide, .inr (.head _)⟩, trivial⟩,
        ⟨⟨by decide, .inl hd⟩, trivial⟩, trivial⟩, ?_, fun h => absurd h id⟩
    rw [hn]
    simp [forallHalf, demoBelow, Old, OldE, OldList, varX, varY]) half_after
  have h4 := poses_after .check h3 trivial (by decide +kernel)
  have h5 := poses_after (.assert twiceBig) h4 (by
    refine ⟨⟨⟨⟨by decide, hx rfl⟩, by decide, hx rfl⟩, trivial⟩, ?_, fun _ => ⟨⟨trivial, trivial⟩, trivial⟩⟩
    refine ⟨⟨?_, ?_⟩, trivial⟩ <;> (show varX.id < _; decide +kernel)) (by decide +kernel)
  obtain ⟨c', hc'⟩ := answerOf_unsat (cfg := halfCfg) (c := after halfCfg (after halfCfg
    half2 .check) (.assert twiceBig)) (by decide +kernel)
  refine ⟨_, _, c', h5, rfl, rfl, hc', fun _ => 1, ?_, ?_, ?_⟩
  · intro p hp
    have : p = (varX, ⟨.fin 0, .fin 1⟩) := List.mem_singleton.mp hp
    subst this
    simp [InItv, below, above]
  · simp only [twiceBig, holds, relSem, eval]; push_cast; norm_num
  · intro f hf
    have : f = twiceBig ∨ f = forallHalf := by
      have : f ∈ [twiceBig, forallHalf] := hf
      simpa using this
    rcases this with rfl | rfl
    · refine ⟨⟨trivial, trivial⟩, trivial, ?_, ?_⟩ <;> intro lo hi ex ha hp <;>
        simp [asNum, isPlace] at ha hp
    · refine ⟨⟨⟨trivial, trivial⟩, ⟨trivial, trivial⟩, ⟨trivial, trivial⟩, trivial⟩,
        fun ρ' _ _ => ⟨⟨trivial, trivial⟩, ⟨trivial, trivial⟩, ⟨trivial, trivial⟩, trivial⟩,
        fun h => absurd (.head _) (h varY (.head _)), fun h => absurd (.head _) (h varY (.head _)),
        fun _ op => ⟨fun lo hi ex ha hp => ?_, fun lo hi ex ha hp => ?_⟩, trivial⟩
      · simp only [asNum, Option.some.injEq, Prod.mk.injEq] at ha
        obtain ⟨rfl, rfl, -⟩ := ha
        have e1 : (quarterDbl.succ (1 / 2) : ℚ) = 3 / 4 := by decide +kernel
        have e2 : (quarterDbl.pred (1 / 2) : ℚ) = 1 / 4 := by decide +kernel
        show OffGap quarterDbl op _ _ _
        simp only [OffGap, e1, e2, eval]
        refine ⟨fun _ h => ?_, fun _ h => ?_⟩
        · have := h.2; norm_num at this
        · have := h.2; norm_num at this
      · simp [asNum] at ha

end Verif.Props
