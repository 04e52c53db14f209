import Verif.Props.TerminateForall

/-!
# C67: a check that prunes and evaluates quantified literals as the code does ends
-/

namespace Verif.Props
open Verif Verif.Model Verif.Spec Verif.Proof

/-- A nested context `c` for the outer variables `vs` that checks end in: it comes about by calls as
in `C67_check_partial`, it has the outer variables, and the components of the other variables have
bounds in `G`. -/
structure NestFine (G : Finset EQ) (S : Expr → Expr → Prop) (cfg : CCfg) (vs : List Variable)
    (c : Ctx) : Prop where
  poses : ∃ k, PosesPlain cfg S k c
  lits : ∀ p ∈ c.sat.abs.table, ∀ b : Bool, LitGrid G cfg.th.dbl (if b then p.2 else notF p.2)
  outer : ∀ v ∈ vs, v ∈ c.box.vars
  inner : InnerFine G vs c.box
  turns : ParTurns G cfg.env cfg.th c.box.vars.length
  prune : pruneBound G c.box.vars.length (c.sat.maxVar + 2) ≤ cfg.env.fuel
  search : searchBound G c.box.vars.length ≤ cfg.th.fuel
  rounds : 3 ^ (c.sat.maxVar + 1) < cfg.rounds

/-- What is assumed of a solver: doubles, the SAT solver, interval arithmetic and the contractors and
cuts are right, and the bounds stay in `G`. -/
structure SolverFine (G : Finset EQ) (D : Dom) (I : Interp) (cfg : CCfg) : Prop where
  dbl : DblOk cfg.th.dbl
  sat : PicosatOk cfg.ps
  env : EnvOk D I cfg.env
  diam : DiamOk cfg.env.fp
  delta : 0 ≤ cfg.env.delta
  grid : GridOps G cfg.env.ib
  branch : BranchGrid G cfg.env.brancher

theorem realFind_ok {cfg refine vs qs g o b r}
    (h : realFind cfg refine vs (.all qs g) o b = .ok r) :
    ∃ s s', o = some s ∧ ctcFind cfg (refine (.all qs g)) s b = .ok (r.1, s') ∧ r.2 = some s' ∧
      ∀ q ∈ qs, q.type = .continuous := by
  cases o with
  | none => simp [realFind] at h
  | some s =>
    simp only [realFind] at h
    split at h
    · rename_i hq
      obtain ⟨t, h1, h2⟩ := bindR_ok h
      simp only [Run.ok.injEq] at h2; subst h2
      exact ⟨s, t.2, rfl, h1, rfl, hq⟩
    · cases h

/-- `CheckSat` ends also in contexts that prune and evaluate quantified literals with nested contexts,
as the code does.  Every nested context is any one that earlier searches or evaluations have left
behind of the one that the contractor or the evaluator was built with; these are assumed to be such
that checks without quantifiers end in them.  The refinement of counterexamples is assumed to end and
to give points with midpoints in `G`.  Missing: integer variables under the quantifier; the conditions
of `C67_quantified_partial`. -/
theorem C67_nested_partial (G : Finset EQ) (D : Dom) (I : Interp) (S : Expr → Expr → Prop)
    (cfg cfgC cfgE : CCfg) (env : Env) (fuel : Nat) (up : Bool) (refine : Fml → Box → Run Box)
    (stC : Nat → List Variable → Fml → Option (Ctx × Bool)) (stE : Nat → Fml → Ctx)
    (hcfg : cfg.env = quantEnv env fuel up cfgC cfgE refine stC stE)
    (hd : DblOk cfg.th.dbl) (hp : PicosatOk cfg.ps) (he : EnvOk D I env) (hG : GridOps G env.ib)
    (hbr : BranchGrid G env.brancher) (hC : SolverFine G D I cfgC) (hE : SolverFine G D I cfgE)
    (h0 : EQ.fin 0 ∈ G) (h1 : EQ.fin 1 ∈ G) (hfu : 0 < fuel)
    (hro : ∀ vs qs g, RefineOk (vs ++ qs) (refine (.all qs g)))
    (hre : ∀ f ce, refine f ce ≠ .oof)
    (hm : ∀ qs g ce ce', refine (.all qs g) ce = .ok ce' →
      ∀ q ∈ qs, EQ.fin (env.fp.mid (ce'.getV q)) ∈ G)
    (k : Books) (c : Ctx)
    (hstC : ∀ n vs qs g s, stC n vs (.all qs g) = some s → ∃ next ε c0,
      ctcContext cfgC next ε vs qs g = .ok c0 ∧ SearchedFrom cfgC (refine (.all qs g)) vs c0 s ∧
      NestFine G S cfgC vs c0 ∧ (vs ++ qs).Nodup ∧ (∀ u ∈ vs ++ qs, u.id < next) ∧ Old next g ∧
      pruneBound G (vs.length + qs.length) 0 ≤ fuel)
    (hstE : ∀ n, ∀ p ∈ c.sat.abs.table, ∀ qs g, p.2 = .all qs g → ∃ c0,
      EvaluatedFrom cfgE (evalLits g) c.box.vars c0 (stE n p.2) ∧ NestFine G S cfgE c.box.vars c0)
    (hj : ParTurns G cfg.env cfg.th c.box.vars.length)
    (hk : Poses cfg k c) (hb : Bounded G c.box) (hz : IntsSized c.box)
    (hat : ∀ p ∈ c.sat.abs.table, p.2 ≠ .tt ∧ p.2 ≠ .ff)
    (hlg : ∀ p ∈ c.sat.abs.table, ∀ b : Bool, LitGrid G cfg.th.dbl (if b then p.2 else notF p.2))
    (hq : (∃ p ∈ c.sat.abs.table, p.2.isAll = true) →
      ∀ p ∈ c.sat.abs.table, ∀ b : Bool, ¬ IntStrict (if b then p.2 else notF p.2))
    (hpr : pruneBound G c.box.vars.length (c.sat.maxVar + 2) ≤ cfg.env.fuel)
    (hs : searchBound G c.box.vars.length ≤ cfg.th.fuel)
    (hr : 3 ^ (c.sat.maxVar + 1) < cfg.rounds) : checkSat cfg c ≠ .oof := by
  have hsr : ∀ {vs qs g next ε c0 s}, ctcContext cfgC next ε vs qs g = .ok c0 → (vs ++ qs).Nodup →
      (∀ u ∈ vs ++ qs, u.id < next) → Old next g →
      SearchedFrom cfgC (refine (.all qs g)) vs c0 s → Searched cfgC (refine (.all qs g)) vs qs g s := by
    intro vs qs g next ε c0 s hc hn ho hog h
    induction h with
    | init left => exact .init left hn ho hog hc
    | step _ hw hv h ih => exact .step ih hw hv h
  have heC : EnvOk D I cfg.env := by
    rw [hcfg]
    refine C34_environment (C35_solver_partial he hC.env hro fun n vs qs g s h => ?_) stE
    obtain ⟨next, ε, c0, h2, h3, h4, h5, h6, h7, h8⟩ := hstC n vs qs g s h
    exact hsr h2 h5 h6 h7 h3
  have prune : ∀ n vs f b, Apt G vs b →
      forallPrune env.ib env.fp fuel up (realFind cfgC refine vs f) (stC n vs f) vs f b ≠ .oof ∧
      ∀ b' out st', forallPrune env.ib env.fp fuel up (realFind cfgC refine vs f) (stC n vs f) vs f b =
        .ok (b', out, st') →
        Bounded G b' ∧ Inside b' b ∧ (b'.bot = false → b'.vals = b.vals → out = []) := by
    intro n vs f b ha
    cases f with
    | all qs g =>
      cases hst : stC n vs (.all qs g) with
      | none =>
        obtain ⟨m, rfl⟩ := Nat.exists_eq_succ_of_ne_zero (Nat.pos_iff_ne_zero.mp hfu)
        refine ⟨run_bind_oof (lift_oof _) fun e _ => run_bind_oof (lift_oof _) fun t _ => ?_,
          fun b' out st' h => ?_⟩
        · simp [forallLoop, realFind, bind, Run.bind]
        · simp only [forallPrune] at h
          obtain ⟨_, -, h⟩ := bindR_ok h
          obtain ⟨_, -, h⟩ := bindR_ok h
          simp [forallLoop, realFind, bind, Run.bind] at h
      | some s =>
        obtain ⟨next, ε, c0, hc, hsf, hnf, hn, ho, hog, hfu'⟩ := hstC n vs qs g s hst
        obtain ⟨kk, hkk⟩ := hnf.poses
        have hends := C67_counterexample_partial G D I S env.fp cfgC (refine (.all qs g)) vs qs hC.dbl
          hC.sat hC.env hC.diam hC.delta hC.grid hC.branch h0 h1 kk c0 hnf.turns hkk hnf.lits hnf.prune
          hnf.search hnf.rounds hnf.outer hnf.inner (hre _) (hm qs g)
        refine C67_forall_partial G env.ib env.fp fuel up
          (fun o => ∃ s, o = some s ∧ SearchedFrom cfgC (refine (.all qs g)) vs c0 s)
          (realFind cfgC refine vs (.all qs g)) _ vs qs g b hG
          ⟨?_, ?_, ?_, ?_⟩ ⟨?_, ?_⟩ ⟨s, rfl, hsf⟩ ha.wf ha.vars ha.grid ha.ints ha.live hfu'
        · rintro o b r ⟨s, rfl, hi⟩ hw hv h
          obtain ⟨s', t, e, h2, h3, -⟩ := realFind_ok h
          cases e
          exact ⟨t, h3, .step hi hw hv h2⟩
        · rintro o b ce st' ⟨s, rfl, hi⟩ hw hv h
          obtain ⟨s', t, e, h2, h3, hqs⟩ := realFind_ok h
          cases e
          exact (searched_find (fp := env.fp) (g := g) hC.env hqs (hro vs qs g)).shape s b ce t
            (hsr hc hn ho hog hi) hw hv h2
        · rintro o b ce st' ⟨s, rfl, hi⟩ hw hv h
          obtain ⟨s', t, e, h2, h3, hqs⟩ := realFind_ok h
          cases e
          exact (searched_find (fp := env.fp) (g := g) hC.env hqs (hro vs qs g)).nonempty s b ce t
            (hsr hc hn ho hog hi) hw hv h2
        · rintro o b ce st' ⟨s, rfl, hi⟩ hw hv h
          obtain ⟨s', t, e, h2, h3, hqs⟩ := realFind_ok h
          cases e
          exact (searched_find (fp := env.fp) (g := g) hC.env hqs (hro vs qs g)).typed s b ce t
            (hsr hc hn ho hog hi) hw hv h2
        · rintro o b ⟨s, rfl, hi⟩ hw hv hb0 hb hz
          simp only [realFind]
          split
          · exact run_bind_oof (hends.ends s b hi hw hv hb0 hb hz) fun _ _ => by simp
          · simp
        · rintro o b ce st' ⟨s, rfl, hi⟩ hw hv hb0 hb hz h
          obtain ⟨s', t, e, h2, h3, hqs⟩ := realFind_ok h
          cases e
          exact hends.grid s b ce t hi hw hv hb0 hb hz h2
    | _ => exact ⟨by simp [forallPrune], fun _ _ _ h => by simp [forallPrune] at h⟩
  have hGC : GridOps G cfg.env.ib := by
    rw [hcfg]
    refine ⟨hG.ninf, hG.pinf, hG.ceil, hG.floor, hG.bwd, hG.poly, hG.term, fun n vs f b ha => ?_,
      fun n vs f b b' out ha h => ?_⟩
    · exact run_bind_oof (prune n vs f b ha).1 fun _ _ => by simp
    · obtain ⟨⟨b1, o1, t⟩, h2, h3⟩ := bindR_ok (show Run.bind _ _ = _ from h)
      cases h3
      exact (prune n vs f b ha).2 _ _ _ h2
  have hev : EvalEnds G cfg.env c.box.vars (c.sat.abs.table.map (·.2)) := by
    intro n f hf hall b ha
    obtain ⟨p, hp', rfl⟩ := List.mem_map.mp hf
    rw [hcfg]
    cases hpf : p.2 with
    | all qs g =>
      obtain ⟨c0, hef, hnf⟩ := hstE n p hp' qs g hpf
      obtain ⟨kk, hkk⟩ := hnf.poses
      rw [hpf] at hef
      refine run_bind_oof ?_ fun _ _ => by simp
      exact C67_evaluator_partial G D I S cfgE (evalLits g) c.box.vars hE.dbl hE.sat hE.env hE.diam
        hE.delta hE.grid hE.branch h0 h1 kk c0 hnf.turns hkk hnf.lits hnf.prune hnf.search hnf.rounds
        hnf.outer hnf.inner _ hef b ha.wf ha.vars ha.grid ha.ints ha.live
    | _ => rw [hpf] at hall; cases hall
  exact C67_quantified_partial G D I cfg hd hp heC hGC (by rw [hcfg]; exact hbr) h0 h1 k c hev hj hk hb
    hz hat hlg hq hpr hs hr

/-! ## A case -/

/-- `forall y. x + y ≤ 1`. -/
def gridAll : Fml := .all [varY] gridBody

/-- The states of the contractor and of the evaluator. -/
def nestC (_ : Nat) (vs : List Variable) (f : Fml) : Option (Ctx × Bool) :=
  if vs = [varX] ∧ f = gridAll then some (gridNest, false) else none
def nestE (_ : Nat) (_ : Fml) : Ctx := gridEval

def nestCfg : CCfg := { gridCfg with
  env := quantEnv gridEnv (pruneBound gridG 2 20) false gridCfg gridCfg (fun _ b => .ok b) nestC nestE }

theorem tsVisit_gridAll (s : TsState) : tsVisit gridAll s = .ok (gridAll, s) := by
  have h1 : nnf true gridBody = gridBody := by decide +kernel
  have h2 : naiveCnf gridBody = .ok gridBody := by
    rw [naiveCnf, h1]
    simp only [gridBody, naiveVisit, Outcome.bind_ok]
  have h3 : (gridBody.getClauses.all Fml.isClause) = true := by decide +kernel
  have h4 : toSet (gridBody.getClauses.map (tsQuantify [varY])) = [gridAll] := by
    decide +kernel
  simp only [gridAll, tsVisit, h2, Outcome.bind_ok, h3, if_true]
  rw [h4]; rfl

/-- The context before the quantified assertion. -/
def nest1 : Ctx := after nestCfg (Ctx.init 10) (.declare varX true)

/-- The state of the SAT solver after it. -/
def nestSat : Outcome SatState :=
  addClauses { nest1.sat with abs := (absVisitList [gridAll] nest1.sat.abs).2 }
    (absVisitList [gridAll] nest1.sat.abs).1

/-- The context after it. -/
def nest2 : Ctx :=
  match nestSat with
  | .ok s => { (nest1.setBox nest1.box).setBox nest1.box with
      stack := nest1.stack.pushBack gridAll, sat := s }
  | _ => nest1

theorem nest_assert : stepCmd nestCfg nest1 (.assert gridAll) = .ok ([], nest2) := by
  have hf : (match Filter.filter nestCfg.th.dbl gridAll nest1.box with
      | .ok (.notFiltered, b) => decide (b = nest1.box) | _ => false) = true := by
    decide +kernel
  have hf : Filter.filter nestCfg.th.dbl gridAll nest1.box = .ok (.notFiltered, nest1.box) := by
    split at hf
    · rename_i b h; rw [h, of_decide_eq_true hf]
    · cases hf
  have he : nest1.box.empty = false := by decide +kernel
  have hb : nest1.box.bot = false := by decide +kernel
  have hn : (nest1.setBox nest1.box).sat.abs.next = 10 := by decide +kernel
  have hp : iteProcess 10 gridAll = (gridAll, [], 10) := by decide +kernel
  have hbx : (nest1.setBox nest1.box).box = nest1.box := by decide +kernel
  obtain ⟨s, hs⟩ : ∃ s, nestSat = .ok s := by
    have : (match nestSat with | .ok _ => true | _ => false) = true := by decide +kernel
    split at this
    · exact ⟨_, by assumption⟩
    · cases this
  have hadd : addFormula nest1.sat gridAll = .ok s := by
    unfold addFormula
    rw [show ∀ n, tseitin n gridAll = .ok ([gridAll], n) from fun n => by simp [tseitin, tsVisit_gridAll],
      show ∀ n, tseitinKeys n gridAll = [] from fun n => by simp [tseitinKeys, tsVisit_gridAll], ← hs]
    rfl
  have ha : assertF nestCfg nest1 gridAll = .ok nest2 := by
    unfold assertF
    rw [if_neg (by decide), he, if_neg (by decide), if_neg (by decide), hf]
    simp only [Outcome.bind_ok, hb, Bool.false_eq_true, if_false, hn, hp, List.foldl_nil, hbx]
    rw [← hn]
    show (do
      let s ← addFormula nest1.sat gridAll
      Outcome.ok { (nest1.setBox nest1.box).setBox nest1.box with
        stack := nest1.stack.pushBack gridAll, sat := s }) = _
    rw [hadd]
    unfold nest2
    rw [hs]; rfl
  simp only [stepCmd, ha]; rfl

theorem grid_inner {b : Box}
    (eb : b = ⟨[varX, varY], [⟨.ninf, .pinf⟩, ⟨.ninf, .pinf⟩], false⟩) : InnerFine gridG [varX] b := by
  subst eb
  intro i v hi hv
  have : i < 2 := (List.getElem?_eq_some_iff.mp hi).1
  obtain rfl | rfl : i = 0 ∨ i = 1 := by omega
  · cases hi; simp at hv
  · refine ⟨by decide +kernel, by decide +kernel, ?_⟩
    rintro ⟨w, hw, ht⟩
    cases hw
    rcases ht with h | h <;> cases h

theorem grid_lits {c : Ctx}
    (et : (c.sat.abs.table.all fun p => (asBound p.2).isNone && (asBound (notF p.2)).isNone) = true) :
    ∀ p ∈ c.sat.abs.table, ∀ b : Bool, (asBound (if b then p.2 else notF p.2)) = none := by
  intro p hp b
  have h := List.all_eq_true.mp et p hp
  simp only [Bool.and_eq_true, Option.isNone_iff_eq_none] at h
  cases b with
  | true => exact h.1
  | false => exact h.2

theorem gridNest_fine : NestFine gridG (fun _ _ => True) gridCfg [varX] gridNest := by
  have h0 : PosesPlain gridCfg (fun _ _ => True) { made := [varX, varY] } (Ctx.init 10) :=
    .init _ _ (by decide)
  have h1 := posesPlain_after (.declare varX true) h0 ⟨by simp, .inr ⟨by simp, id⟩⟩ (.inl rfl)
    (by decide +kernel)
  have h2 := posesPlain_after (.declare varY true) h1 ⟨by simp [Books.step, Books.setTop],
    .inr ⟨by simp [Books.step, Books.setTop]; decide, id⟩⟩ (.inl rfl) (by decide +kernel)
  have h3 := posesPlain_after (.assert gridNeg) h2
    ⟨⟨⟨⟨⟨by decide, newItv varX.type, by decide +kernel⟩, by decide, newItv varY.type, by decide +kernel⟩,
      trivial⟩, trivial⟩, ⟨⟨⟨by show varX.id < _; decide +kernel, by show varY.id < _; decide +kernel⟩,
        trivial⟩, trivial⟩, fun h => absurd h id⟩
    gridNeg_plain (by decide +kernel)
  have eb : gridNest.box = ⟨[varX, varY], [⟨.ninf, .pinf⟩, ⟨.ninf, .pinf⟩], false⟩ := by
    decide +kernel
  have em : gridNest.sat.maxVar = 1 := by decide +kernel
  refine ⟨⟨_, h3⟩, fun p hp b v op lo hi ex h => ?_, by rw [eb]; simp, grid_inner eb,
    fun h => absurd h (by decide), ?_, ?_, ?_⟩
  · rw [grid_lits (by decide +kernel) p hp b] at h; cases h
  · rw [eb, em]; exact Nat.mul_le_mul_left _ (by decide)
  · rw [eb]; exact le_rfl
  · rw [em]; decide

theorem gridEval_fine : NestFine gridG (fun _ _ => True) gridCfg [varX] gridEval := by
  have h0 : PosesPlain gridCfg (fun _ _ => True) { made := [varX, varY] } (Ctx.init 10) :=
    .init _ _ (by decide)
  have h1 := posesPlain_after (.declare varX true) h0 ⟨by simp, .inr ⟨by simp, id⟩⟩ (.inl rfl)
    (by decide +kernel)
  have h2 := posesPlain_after (.declare varY true) h1 ⟨by simp [Books.step, Books.setTop],
    .inr ⟨by simp [Books.step, Books.setTop]; decide, id⟩⟩ (.inl rfl) (by decide +kernel)
  have h3 := posesPlain_after (.assert gridNot) h2
    ⟨⟨⟨⟨⟨by decide, newItv varX.type, by decide +kernel⟩, by decide, newItv varY.type, by decide +kernel⟩,
      trivial⟩, trivial⟩, ⟨⟨⟨by show varX.id < _; decide +kernel, by show varY.id < _; decide +kernel⟩,
        trivial⟩, trivial⟩, fun h => absurd h id⟩
    gridNeg_plain (by decide +kernel)
  have eb : gridEval.box = ⟨[varX, varY], [⟨.ninf, .pinf⟩, ⟨.ninf, .pinf⟩], false⟩ := by
    decide +kernel
  have em : gridEval.sat.maxVar = 1 := by decide +kernel
  refine ⟨⟨_, h3⟩, fun p hp b v op lo hi ex h => ?_, by rw [eb]; simp, grid_inner eb,
    fun h => absurd h (by decide), ?_, ?_, ?_⟩
  · rw [grid_lits (by decide +kernel) p hp b] at h; cases h
  · rw [eb, em]; exact Nat.mul_le_mul_left _ (by decide)
  · rw [eb]; exact le_rfl
  · rw [em]; decide

theorem gridCfg_fine (D : Dom) (I : Interp) : SolverFine gridG D I gridCfg :=
  ⟨quarterDbl_ok, demoSat_ok, gridCfg_ok D I, exactFp_diamOk, by decide +kernel, gridIbex_ops,
    grid_brancher⟩

/-- The check of `forall y. x + y ≤ 1` ends, the literal being pruned and evaluated with nested
contexts. -/
example (D : Dom) (I : Interp) : nest2.sat.abs.table.map (·.2) = [gridAll] ∧ checkSat nestCfg nest2 ≠ .oof := by
  refine ⟨by decide +kernel, ?_⟩
  have h0 : Poses nestCfg { made := [varX, varY] } (Ctx.init 10) := .init _ _ (by decide)
  have h1 := poses_after (.declare varX true) h0 ⟨by simp, .inr ⟨by simp, id⟩⟩ (by decide +kernel)
  have hd : (Books.step { made := [varX, varY] } (Ctx.init 10).sat.abs.next
      (.declare varX true)).top.Declared varX := ⟨newItv varX.type, by decide +kernel⟩
  have hn : nest1.sat.abs.next = 10 := by decide +kernel
  have h2 := Poses.step (cmd := .assert gridAll) (c := nest1) (cfg := nestCfg) h1 (by
    refine ⟨⟨⟨⟨trivial, trivial⟩, trivial⟩, ⟨⟨by decide, .inl hd⟩, by decide, .inr (.head _)⟩, trivial⟩,
      ?_, fun h => absurd h id⟩
    rw [hn]
    simp [gridAll, gridBody, Old, OldE, varX, varY]) (a := []) (c' := nest2) nest_assert
  have eb : nest2.box = ⟨[varX], [⟨.ninf, .pinf⟩], false⟩ := by decide +kernel
  have et : (nest2.sat.abs.table.all fun p => decide (p.2 = gridAll)) = true := by decide +kernel
  have et : ∀ p ∈ nest2.sat.abs.table, p.2 = gridAll := fun p hp =>
    of_decide_eq_true (List.all_eq_true.mp et p hp)
  have el : ∀ p ∈ nest2.sat.abs.table, ∀ b : Bool, asBound (if b then p.2 else notF p.2) = none := by
    intro p hp b
    rw [et p hp]
    cases b <;> decide +kernel
  have em : nest2.sat.maxVar = 1 := by decide +kernel
  refine C67_nested_partial gridG D I (fun _ _ => True) nestCfg gridCfg gridCfg gridEnv _ false
    (fun _ b => .ok b) nestC nestE rfl quarterDbl_ok demoSat_ok (gridCfg_ok D I) gridIbex_ops
    grid_brancher (gridCfg_fine D I) (gridCfg_fine D I) (by decide +kernel) (by decide +kernel) ?_ ?_
    (fun _ _ h => by cases h) ?_ _ nest2 ?_ ?_ (fun h => absurd h (by decide)) h2 ?_ ?_ ?_ ?_ ?_ ?_ ?_ ?_
  · unfold pruneBound; omega
  · intro vs qs g ce ce' h hv hw hb
    simp only [Run.ok.injEq] at h; subst h; exact ⟨hv, hw, hb⟩
  · intro qs g _ ce' _ q _
    exact gridG_mem.mpr (.inr (.inr ⟨_, gridPick_mem _, rfl⟩))
  · intro n vs qs g s h
    unfold nestC at h
    split at h
    · rename_i hc
      obtain ⟨rfl, e⟩ := hc
      cases e
      cases h
      refine ⟨10, 1 / 2, gridNest, gridNest_ctx, .init false, gridNest_fine, by decide, by decide, ?_, ?_⟩
      · simp [gridBody, Old, OldE, varX, varY]
      · exact Nat.mul_le_mul_left _ (by decide)
    · cases h
  · intro n p hp qs g e
    rw [eb]
    exact ⟨gridEval, .init, gridEval_fine⟩
  · rw [eb]
    intro _ iv h
    simp only [List.mem_singleton] at h
    subst h
    exact ⟨by decide +kernel, by decide +kernel⟩
  · rw [eb]
    rintro _ i ⟨v, h, ht⟩
    have : i < 1 := (List.getElem?_eq_some_iff.mp h).1
    obtain rfl : i = 0 := by omega
    cases h
    rcases ht with h | h <;> cases h
  · intro p hp
    rw [et p hp]
    constructor <;> (intro h; cases h)
  · intro p hp b v op lo hi ex h
    rw [el p hp b] at h; cases h
  · rintro - p hp b ⟨v, op, lo, hi, ex, h, -⟩
    rw [el p hp b] at h; cases h
  · rw [eb, em]
    refine (Nat.mul_le_mul (?_ : 2 * gridG.card * 1 + 1 ≤ 2 * gridG.card * 2 + 1) (by decide :
      1 + 2 + 1 ≤ 20 + 1))
    omega
  · rw [eb]
    show searchBound gridG 1 ≤ searchBound gridG 2
    unfold searchBound
    exact Nat.pow_le_pow_right (by omega) (by omega)
  · rw [em]; decide

end Verif.Props
