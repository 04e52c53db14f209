import Verif.Props.Terminate
import Verif.Props.ForallUnsat
import Verif.Proof.TerminateForall
import Verif.Proof.TerminateQuant

/-!
# C67: the contractor of a quantified constraint ends
-/

namespace Verif.Props
open Verif Verif.Model Verif.Spec Verif.Proof

/-- The loop of the forall contractor ends, whatever the search for counterexamples is like, if the
search ends and the midpoints of counterexamples are doubles: every round but the last makes the box
smaller.  What is left of the box is inside, and no component is reported when nothing changed.
Missing: that the search ends (`C67_counterexample_partial`). -/
theorem C67_forall_partial {σ : Type} (G : Finset EQ) (ib : Ibex) (fp : Fp) (fuel : Nat) (up : Bool)
    (Inv : σ → Prop) (find : σ → Box → Run (Option Box × σ)) (st : σ) (vs qs : List Variable) (g : Fml)
    (b : Box) (hG : GridOps G ib) (hf : FindOk fp vs qs Inv find) (he : FindEnds G fp vs qs Inv find)
    (hI : Inv st) (hw : BoxWf b) (hv : b.vars = vs) (hb : Bounded G b) (hz : IntsSized b)
    (h0 : b.bot = false) (hk : pruneBound G (vs.length + qs.length) 0 ≤ fuel) :
    forallPrune ib fp fuel up find st vs (.all qs g) b ≠ .oof ∧
      ∀ b' out st', forallPrune ib fp fuel up find st vs (.all qs g) b = .ok (b', out, st') →
        Bounded G b' ∧ Inside b' b ∧ (b'.bot = false → b'.vals = b.vals → out = []) := by
  obtain ⟨h1, h2⟩ := forallPrune_ends (up := up) (g := g) hG hf he hI ⟨hv, hw⟩ hb hz h0 hk
  exact ⟨h1, fun b' out st' h => h2 _ h⟩

/-- The states that searches in boxes over `vs` make of the context `c`. -/
inductive SearchedFrom (cfg : CCfg) (refine : Box → Run Box) (vs : List Variable) (c : Ctx) :
    Ctx × Bool → Prop where
  | init (left : Bool) : SearchedFrom cfg refine vs c (c, left)
  | step {st b o st'} (hs : SearchedFrom cfg refine vs c st) (hw : BoxWf b) (hv : b.vars = vs)
      (h : ctcFind cfg refine st b = .ok (o, st')) : SearchedFrom cfg refine vs c st'

/-- The components of the nested box, except for those of the outer variables `vs`, have bounds in
`G`, and those of integer variables are in the range of `int`. -/
def InnerFine (G : Finset EQ) (vs : List Variable) (b : Box) : Prop :=
  ∀ (i : Nat) v, b.vars[i]? = some v → v ∉ vs →
    (b.get i).lb ∈ G ∧ (b.get i).ub ∈ G ∧ (IntAt b.vars i → IntSized b i)

/-- The search for a counterexample ends: in the context that a forall contractor is built with, and
in everything that searches have made of it.  It is assumed that this context can be had by calls as in
`C67_check_partial`, and that the refinement of counterexamples ends.  Missing: these conditions. -/
theorem C67_counterexample_partial (G : Finset EQ) (D : Dom) (I : Interp) (S : Expr → Expr → Prop)
    (fp : Fp) (cfg : CCfg) (refine : Box → Run Box) (vs qs : List Variable)
    (hd : DblOk cfg.th.dbl) (hp : PicosatOk cfg.ps) (he : EnvOk D I cfg.env)
    (hfp : DiamOk cfg.env.fp) (hδ : 0 ≤ cfg.env.delta) (hG : GridOps G cfg.env.ib)
    (hbr : BranchGrid G cfg.env.brancher)
    (h0 : EQ.fin 0 ∈ G) (h1 : EQ.fin 1 ∈ G) (k : Books) (c : Ctx)
    (hj : ParTurns G cfg.env cfg.th c.box.vars.length) (hk : PosesPlain cfg S k c)
    (hlg : ∀ p ∈ c.sat.abs.table, ∀ b : Bool, LitGrid G cfg.th.dbl (if b then p.2 else notF p.2))
    (hpr : pruneBound G c.box.vars.length (c.sat.maxVar + 2) ≤ cfg.env.fuel)
    (hs : searchBound G c.box.vars.length ≤ cfg.th.fuel)
    (hr : 3 ^ (c.sat.maxVar + 1) < cfg.rounds) (hvs : ∀ v ∈ vs, v ∈ c.box.vars)
    (hin : InnerFine G vs c.box) (hre : ∀ ce, refine ce ≠ .oof)
    (hm : ∀ ce ce', refine ce = .ok ce' → ∀ q ∈ qs, EQ.fin (fp.mid (ce'.getV q)) ∈ G) :
    FindEnds G fp vs qs (SearchedFrom cfg refine vs c) (ctcFind cfg refine) := by
  obtain ⟨H, hKI, hKD⟩ := kd_poses hd hp he hfp hδ hk
  obtain ⟨P, Ps, hk1, _, hl, -⟩ := hKI.cons
  obtain ⟨hD, -⟩ := hKD.cons hk1
  have hno : NoAll c.sat.abs.table := fun p hp => by
    obtain ⟨op, x, y, e, _⟩ := hKD.tab p hp
    rw [e]; rfl
  obtain ⟨A, hA, hcache⟩ : ∃ A : List Variable → Prop, (∀ ws, A ws → ws = c.box.vars) ∧
      CacheInv H A c.cache := ⟨_, fun _ h => h.2, hKI.cache⟩
  have hinv : ∀ st, SearchedFrom cfg refine vs c st → Tame H A c st.1 ∧
      ∀ (i : Nat) v, c.box.vars[i]? = some v → v ∉ vs → FineAt G st.1.box i := by
    intro st h
    induction h with
    | init left => exact ⟨⟨⟨rfl, hl.wf⟩, hl.str, hcache, hD.satd, rfl, rfl⟩, hin⟩
    | step hs hw hv h ih =>
      exact ctcFind_tame hd hp hl.wf.2 hl.pos hA he (fun v hv => (hl.kinds v hv).1)
        (fun p hp => (hKD.tab p hp).atm) hvs ih hv h
  have key := ctcFind_ends (fp := fp) (qs := qs) (vs := vs) (refine := refine) hd hp hl.wf.2 hl.pos
    hA he (fun v hv => (hl.kinds v hv).1) (fun p hp => (hKD.tab p hp).atm) hG hbr hno h0 h1 hj hlg hpr hs hr hvs
    hre hm
  exact ⟨fun st b h => key.ends st b (hinv st h), fun st b ce st' h => key.grid st b ce st' (hinv st h)⟩

/-- The forall contractor of the code ends: its loop, with its own search for counterexamples, in
every state of the nested context.  Missing: the conditions of `C67_counterexample_partial`, and
integer variables under the quantifier (as in `C35_context_partial`). -/
theorem C67_contractor_partial (G : Finset EQ) (D : Dom) (I : Interp) (S : Expr → Expr → Prop)
    (ib : Ibex) (fp : Fp) (fuel : Nat) (up : Bool) (cfg : CCfg) (refine : Box → Run Box)
    (vs qs : List Variable) (g : Fml) (hib : GridOps G ib)
    (hd : DblOk cfg.th.dbl) (hp : PicosatOk cfg.ps) (he : EnvOk D I cfg.env)
    (hfp : DiamOk cfg.env.fp) (hδ : 0 ≤ cfg.env.delta) (hG : GridOps G cfg.env.ib)
    (hbr : BranchGrid G cfg.env.brancher)
    (h0 : EQ.fin 0 ∈ G) (h1 : EQ.fin 1 ∈ G) (k : Books) (next : Nat) (ε : ℚ) (c : Ctx)
    (hc : ctcContext cfg next ε vs qs g = .ok c)
    (hj : ParTurns G cfg.env cfg.th c.box.vars.length) (hk : PosesPlain cfg S k c)
    (hlg : ∀ p ∈ c.sat.abs.table, ∀ b : Bool, LitGrid G cfg.th.dbl (if b then p.2 else notF p.2))
    (hpr : pruneBound G c.box.vars.length (c.sat.maxVar + 2) ≤ cfg.env.fuel)
    (hs : searchBound G c.box.vars.length ≤ cfg.th.fuel)
    (hr : 3 ^ (c.sat.maxVar + 1) < cfg.rounds)
    (hin : InnerFine G vs c.box) (hre : ∀ ce, refine ce ≠ .oof)
    (hm : ∀ ce ce', refine ce = .ok ce' → ∀ q ∈ qs, EQ.fin (fp.mid (ce'.getV q)) ∈ G)
    (hn : (vs ++ qs).Nodup) (ho : ∀ u ∈ vs ++ qs, u.id < next) (hog : Old next g)
    (hq : ∀ q ∈ qs, q.type = .continuous) (hro : RefineOk (vs ++ qs) refine)
    (hfu : pruneBound G (vs.length + qs.length) 0 ≤ fuel) (st : Ctx × Bool)
    (hst : SearchedFrom cfg refine vs c st) (b : Box) (hw : BoxWf b) (hv : b.vars = vs)
    (hb : Bounded G b) (hz : IntsSized b) (hbot : b.bot = false) :
    forallPrune ib fp fuel up (ctcFind cfg refine) st vs (.all qs g) b ≠ .oof ∧
      ∀ b' out st', forallPrune ib fp fuel up (ctcFind cfg refine) st vs (.all qs g) b =
        .ok (b', out, st') →
        Bounded G b' ∧ Inside b' b ∧ (b'.bot = false → b'.vals = b.vals → out = []) := by
  have hsr : ∀ {s}, SearchedFrom cfg refine vs c s → Searched cfg refine vs qs g s := by
    intro s h
    induction h with
    | init left => exact .init left hn ho hog hc
    | step _ hw hv h ih => exact .step ih hw hv h
  have hnest := searched_nest (hsr hst)
  have hvs : ∀ v ∈ vs, v ∈ c.box.vars := by
    intro v hv
    obtain ⟨ws, e, -⟩ := (searched_nest (hsr (.init (cfg := cfg) (refine := refine) (vs := vs)
      (c := c) true))).vars
    rw [show (c, true).1.box.vars = c.box.vars from rfl] at e
    rw [e]
    simp [hv]
  have hF := searched_find (fp := fp) (g := g) he hq hro
  exact C67_forall_partial G ib fp fuel up _ _ st vs qs g b hib
    ⟨fun st b r h hw hv e => .step h hw hv e, fun st b ce st' h => hF.shape st b ce st' (hsr h),
      fun st b ce st' h => hF.nonempty st b ce st' (hsr h),
      fun st b ce st' h => hF.typed st b ce st' (hsr h)⟩
    (C67_counterexample_partial G D I S fp cfg refine vs qs hd hp he hfp hδ hG hbr h0 h1 k c hj hk
      hlg hpr hs hr hvs hin hre hm) hst hw hv hb hz hbot hfu

/-- What evaluations in boxes over `vs` make of the context `c` of an evaluator. -/
inductive EvaluatedFrom (cfg : CCfg) (lits : List Fml) (vs : List Variable) (c : Ctx) : Ctx → Prop where
  | init : EvaluatedFrom cfg lits vs c c
  | step {c1 b r c2} (hs : EvaluatedFrom cfg lits vs c c1) (hw : BoxWf b) (hv : b.vars = vs)
      (h : forallEval cfg lits b c1 = .ok (r, c2)) : EvaluatedFrom cfg lits vs c c2

/-- The evaluation of a quantified constraint ends, in a box over variables that the nested context
has: with the context that the evaluator is built with, and with everything that evaluations have made
of it.  Missing: the conditions of `C67_check_partial`, for the nested context; other boxes (for which
`C34_alias` shows that the answer is wrong). -/
theorem C67_evaluator_partial (G : Finset EQ) (D : Dom) (I : Interp) (S : Expr → Expr → Prop)
    (cfg : CCfg) (lits : List Fml) (vs : List Variable)
    (hd : DblOk cfg.th.dbl) (hp : PicosatOk cfg.ps) (he : EnvOk D I cfg.env)
    (hfp : DiamOk cfg.env.fp) (hδ : 0 ≤ cfg.env.delta) (hG : GridOps G cfg.env.ib)
    (hbr : BranchGrid G cfg.env.brancher)
    (h0 : EQ.fin 0 ∈ G) (h1 : EQ.fin 1 ∈ G) (k : Books) (c : Ctx)
    (hj : ParTurns G cfg.env cfg.th c.box.vars.length) (hk : PosesPlain cfg S k c)
    (hlg : ∀ p ∈ c.sat.abs.table, ∀ b : Bool, LitGrid G cfg.th.dbl (if b then p.2 else notF p.2))
    (hpr : pruneBound G c.box.vars.length (c.sat.maxVar + 2) ≤ cfg.env.fuel)
    (hs : searchBound G c.box.vars.length ≤ cfg.th.fuel)
    (hr : 3 ^ (c.sat.maxVar + 1) < cfg.rounds) (hvs : ∀ v ∈ vs, v ∈ c.box.vars)
    (hin : InnerFine G vs c.box) (c' : Ctx) (hc : EvaluatedFrom cfg lits vs c c') (b : Box)
    (hw : BoxWf b) (hv : b.vars = vs) (hb : Bounded G b) (hz : IntsSized b) (hbot : b.bot = false) :
    forallEval cfg lits b c' ≠ .oof := by
  obtain ⟨H, hKI, hKD⟩ := kd_poses hd hp he hfp hδ hk
  obtain ⟨P, Ps, hk1, _, hl, -⟩ := hKI.cons
  obtain ⟨hD, -⟩ := hKD.cons hk1
  have hno : NoAll c.sat.abs.table := fun p hp => by
    obtain ⟨op, x, y, e, _⟩ := hKD.tab p hp
    rw [e]; rfl
  obtain ⟨A, hA, hcache⟩ : ∃ A : List Variable → Prop, (∀ ws, A ws → ws = c.box.vars) ∧
      CacheInv H A c.cache := ⟨_, fun _ h => h.2, hKI.cache⟩
  have hinv : Tame H A c c' ∧
      ∀ (i : Nat) v, c.box.vars[i]? = some v → v ∉ vs → FineAt G c'.box i := by
    induction hc with
    | init => exact ⟨⟨⟨rfl, hl.wf⟩, hl.str, hcache, hD.satd, rfl, rfl⟩, hin⟩
    | step hs hw hv h ih =>
      exact forallEval_tame hd hp hl.wf.2 hl.pos hA he (fun v hv => (hl.kinds v hv).1)
        (fun p hp => (hKD.tab p hp).atm) hvs ih hv h
  exact forallEval_ends hd hp hl.wf.2 hl.pos hA he (fun v hv => (hl.kinds v hv).1) (fun p hp => (hKD.tab p hp).atm) hG hbr hno h0
    h1 hj hlg hpr hs hr hvs hinv.1 hinv.2 hw hv hbot hb hz

/-- `CheckSat` ends also when quantified formulas or conditionals have been asserted, if the quantified
literals are pruned and evaluated by functions that end in boxes as the search hands them over (`Apt`);
every round excludes a valuation of the SAT variables.  No atom may be `True` or `False`, and with
quantified literals none may be a strict bound of an integer variable: such an atom can leave an empty
box, which the contractors are then applied to.  Missing: these and the other conditions of
`C67_check_partial`; for the pruning and the evaluation see `C67_contractor_partial` and
`C67_evaluator_partial`. -/
theorem C67_quantified_partial (G : Finset EQ) (D : Dom) (I : Interp) (cfg : CCfg)
    (hd : DblOk cfg.th.dbl) (hp : PicosatOk cfg.ps) (he : EnvOk D I cfg.env)
    (hG : GridOps G cfg.env.ib) (hbr : BranchGrid G cfg.env.brancher)
    (h0 : EQ.fin 0 ∈ G) (h1 : EQ.fin 1 ∈ G) (k : Books) (c : Ctx)
    (hev : EvalEnds G cfg.env c.box.vars (c.sat.abs.table.map (·.2)))
    (hj : ParTurns G cfg.env cfg.th c.box.vars.length)
    (hk : Poses cfg k c) (hb : Bounded G c.box) (hz : IntsSized c.box)
    (hat : ∀ p ∈ c.sat.abs.table, p.2 ≠ .tt ∧ p.2 ≠ .ff)
    (hlg : ∀ p ∈ c.sat.abs.table, ∀ b : Bool, LitGrid G cfg.th.dbl (if b then p.2 else notF p.2))
    (hq : (∃ p ∈ c.sat.abs.table, p.2.isAll = true) →
      ∀ p ∈ c.sat.abs.table, ∀ b : Bool, ¬ IntStrict (if b then p.2 else notF p.2))
    (hpr : pruneBound G c.box.vars.length (c.sat.maxVar + 2) ≤ cfg.env.fuel)
    (hs : searchBound G c.box.vars.length ≤ cfg.th.fuel)
    (hr : 3 ^ (c.sat.maxVar + 1) < cfg.rounds) : checkSat cfg c ≠ .oof :=
  checkSat_ends_all hd hp he hG hbr h0 h1 hev hj hk hb hz hat hlg hq hpr hs hr

/-! ## A case -/

/-- `forall y. x + y ≤ 1`; what is asserted in the nested context, strengthened by `1/2`. -/
def gridBody : Fml := .rel .leq (.add (.var varX) (.var varY)) (.const 1)
def gridShift : Expr := .add (.add (.var varX) (.var varY)) (.const (-(1 / 2)))
def gridNeg : Fml := .rel .gt gridShift (.const 1)

theorem gridNeg_str : deltaStrengthen gridCfg.rnd (1 / 2) (notF gridBody) =
    .ok (.neg (.rel .leq gridShift (.const 1))) := by
  simp [deltaStrengthen, strengthen, gridBody, notF, strF, strE, shiftRel, Expr.isVarE, addConst,
    mkRel, gridShift, bind, Outcome.bind, gridCfg]
  decide +kernel

theorem gridNeg_nnf : nnf true (.neg (.rel .leq gridShift (.const 1))) = gridNeg := by
  simp [nnf, nnfVisit, gridNeg, mkRel, RelOp.neg]
  decide +kernel

/-- The nested context. -/
def gridNest : Ctx := after gridCfg (after gridCfg (after gridCfg (Ctx.init 10)
  (.declare varX true)) (.declare varY true)) (.assert gridNeg)

theorem gridNest_ctx : ctcContext gridCfg 10 (1 / 2) [varX] [varY] gridBody = .ok gridNest := by
  have h : fine gridCfg (after gridCfg (after gridCfg (Ctx.init 10) (.declare varX true))
    (.declare varY true)) (.assert gridNeg) = true := by decide +kernel
  unfold ctcContext
  rw [gridNeg_str]
  simp only [bind, Outcome.bind]
  rw [gridNeg_nnf, if_neg (by simp [gridNeg])]
  show assertF gridCfg _ gridNeg = _
  unfold gridNest
  generalize hc : after gridCfg (after gridCfg (Ctx.init 10) (.declare varX true))
    (.declare varY true) = c at *
  have e : declareAll [varY] (declareAll [varX] (Ctx.init 10)) = c := hc
  rw [e]
  unfold fine stepCmd at h
  unfold after stepCmd
  cases ha : assertF gridCfg c gridNeg with
  | ok r => simp [ha]; rfl
  | throw => simp only [ha] at h; cases h
  | ub => simp only [ha] at h; cases h

theorem gridNeg_plain : PlainF gridCfg.th.dbl gridCfg.env.delta (fun _ _ => True) gridNeg := by
  refine ⟨⟨⟨⟨⟨trivial, trivial⟩, trivial⟩, trivial⟩, by decide +kernel, by decide, ?_, ?_⟩, trivial⟩
  · intro lo hi ex h; simp [asNum, gridShift] at h
  · intro lo hi ex h
    simp only [asNum, Option.some.injEq, Prod.mk.injEq] at h
    obtain ⟨rfl, rfl, rfl⟩ := h
    decide +kernel

/-- The contractor of `forall y. x + y ≤ 1` ends, in every state that earlier searches have left,
and in every box `x ∈ [l, u]` with bounds in the grid. -/
example (D : Dom) (I : Interp) (st : Ctx × Bool)
    (hst : SearchedFrom gridCfg (fun ce => .ok ce) [varX] gridNest st) (l u : EQ) (hl : l ∈ gridG)
    (hu : u ∈ gridG) :
    forallPrune gridIbex gridFp (pruneBound gridG 2 20) false (ctcFind gridCfg fun ce => .ok ce) st
      [varX] (.all [varY] gridBody) ⟨[varX], [⟨l, u⟩], false⟩ ≠ .oof := by
  have h0 : PosesPlain gridCfg (fun _ _ => True) { made := [varX, varY] } (Ctx.init 10) :=
    .init _ _ (by decide)
  have h1 := posesPlain_after (.declare varX true) h0 ⟨by simp, .inr ⟨by simp, id⟩⟩ (.inl rfl)
    (by decide +kernel)
  have h2 := posesPlain_after (.declare varY true) h1 ⟨by simp [Books.step, Books.setTop],
    .inr ⟨by simp [Books.step, Books.setTop]; decide, id⟩⟩ (.inl rfl) (by decide +kernel)
  have h3 := posesPlain_after (.assert gridNeg) h2
    ⟨⟨⟨⟨⟨by decide, newItv varX.type, by decide +kernel⟩, by decide, newItv varY.type, by decide +kernel⟩,
      trivial⟩, trivial⟩, ⟨⟨⟨by show varX.id < _; decide +kernel, by show varY.id < _; decide +kernel⟩,
        trivial⟩, trivial⟩, fun h => absurd h id⟩
    gridNeg_plain (by decide +kernel)
  have eb : gridNest.box = ⟨[varX, varY], [⟨.ninf, .pinf⟩, ⟨.ninf, .pinf⟩], false⟩ := by
    decide +kernel
  have et : (gridNest.sat.abs.table.all fun p => (asBound p.2).isNone && (asBound (notF p.2)).isNone) =
      true := by decide +kernel
  have em : gridNest.sat.maxVar = 1 := by decide +kernel
  have hin : InnerFine gridG [varX] gridNest.box := by
    rw [eb]
    intro i v hi hv
    have : i < 2 := (List.getElem?_eq_some_iff.mp hi).1
    obtain rfl | rfl : i = 0 ∨ i = 1 := by omega
    · cases hi; simp at hv
    · refine ⟨by decide +kernel, by decide +kernel, ?_⟩
      rintro ⟨w, hw, ht⟩
      cases hw
      rcases ht with h | h <;> cases h
  refine (C67_contractor_partial gridG D I (fun _ _ => True) gridIbex gridFp _ false gridCfg
    (fun ce => .ok ce) [varX] [varY] gridBody gridIbex_ops quarterDbl_ok demoSat_ok (gridCfg_ok D I)
    exactFp_diamOk (by decide +kernel) gridIbex_ops grid_brancher
    (by decide +kernel) (by decide +kernel) _ 10 (1 / 2)
    gridNest gridNest_ctx (fun h => absurd h (by decide)) h3 ?_ ?_ ?_ ?_ hin (fun _ h => by cases h)
    ?_ (by decide) (by decide) ?_ (by decide) ?_ ?_ st hst _ ?_ rfl ?_ ?_ rfl).1
  · intro p hp b
    have h := List.all_eq_true.mp et p hp
    simp only [Bool.and_eq_true, Option.isNone_iff_eq_none] at h
    intro v op lo hi ex hf
    cases b with
    | true => rw [if_pos rfl, h.1] at hf; cases hf
    | false => rw [if_neg (by simp), h.2] at hf; cases hf
  · rw [eb, em]; exact Nat.mul_le_mul_left _ (by decide)
  · rw [eb]; exact le_rfl
  · rw [em]; decide
  · intro _ ce' _ q _
    exact gridG_mem.mpr (.inr (.inr ⟨_, gridPick_mem _, rfl⟩))
  · simp [gridBody, Old, OldE, varX, varY]
  · intro ce ce' h hv hw hb
    simp only [Run.ok.injEq] at h; subst h; exact ⟨hv, hw, hb⟩
  · exact Nat.mul_le_mul_left _ (by decide)
  · exact ⟨rfl, by simp⟩
  · intro _ iv h
    simp only [List.mem_singleton] at h
    subst h
    exact ⟨hl, hu⟩
  · rintro _ i ⟨v, h, ht⟩
    have : i < 1 := (List.getElem?_eq_some_iff.mp h).1
    obtain rfl : i = 0 := by omega
    cases h
    rcases ht with h | h <;> cases h

/-- What is asserted in the context of the evaluator, and that context. -/
def gridNot : Fml := .neg (.rel .leq gridShift (.const 1))
def gridEval : Ctx := after gridCfg (after gridCfg (after gridCfg (Ctx.init 10)
  (.declare varX true)) (.declare varY true)) (.assert gridNot)

theorem gridEval_ctx : evalContext gridCfg 10 (1 / 2) [varY] gridBody = .ok gridEval := by
  have h : fine gridCfg (after gridCfg (after gridCfg (Ctx.init 10) (.declare varX true))
    (.declare varY true)) (.assert gridNot) = true := by decide +kernel
  unfold evalContext
  rw [gridNeg_str]
  simp only [bind, Outcome.bind]
  show assertF gridCfg _ gridNot = _
  unfold gridEval
  generalize hc : after gridCfg (after gridCfg (Ctx.init 10) (.declare varX true))
    (.declare varY true) = c at *
  have e : declareAll [varY] (declareAll (Fml.all [varY] gridBody).fv (Ctx.init 10)) = c := by
    rw [← hc, show (Fml.all [varY] gridBody).fv = [varX] by decide +kernel]; rfl
  rw [e]
  unfold fine stepCmd at h
  unfold after stepCmd
  cases ha : assertF gridCfg c gridNot with
  | ok r => simp [ha]; rfl
  | throw => simp only [ha] at h; cases h
  | ub => simp only [ha] at h; cases h

/-- The evaluation of `forall y. x + y ≤ 1` ends, after any evaluations, in every box `x ∈ [l, u]`
with bounds in the grid. -/
example (D : Dom) (I : Interp) (c : Ctx)
    (hc : EvaluatedFrom gridCfg (evalLits gridBody) [varX] gridEval c) (l u : EQ) (hl : l ∈ gridG)
    (hu : u ∈ gridG) :
    forallEval gridCfg (evalLits gridBody) ⟨[varX], [⟨l, u⟩], false⟩ c ≠ .oof := by
  have h0 : PosesPlain gridCfg (fun _ _ => True) { made := [varX, varY] } (Ctx.init 10) :=
    .init _ _ (by decide)
  have h1 := posesPlain_after (.declare varX true) h0 ⟨by simp, .inr ⟨by simp, id⟩⟩ (.inl rfl)
    (by decide +kernel)
  have h2 := posesPlain_after (.declare varY true) h1 ⟨by simp [Books.step, Books.setTop],
    .inr ⟨by simp [Books.step, Books.setTop]; decide, id⟩⟩ (.inl rfl) (by decide +kernel)
  have h3 := posesPlain_after (.assert gridNot) h2
    ⟨⟨⟨⟨⟨by decide, newItv varX.type, by decide +kernel⟩, by decide, newItv varY.type, by decide +kernel⟩,
      trivial⟩, trivial⟩, ⟨⟨⟨by show varX.id < _; decide +kernel, by show varY.id < _; decide +kernel⟩,
        trivial⟩, trivial⟩, fun h => absurd h id⟩
    gridNeg_plain (by decide +kernel)
  have eb : gridEval.box = ⟨[varX, varY], [⟨.ninf, .pinf⟩, ⟨.ninf, .pinf⟩], false⟩ := by
    decide +kernel
  have et : (gridEval.sat.abs.table.all fun p => (asBound p.2).isNone && (asBound (notF p.2)).isNone) =
      true := by decide +kernel
  have em : gridEval.sat.maxVar = 1 := by decide +kernel
  have hin : InnerFine gridG [varX] gridEval.box := by
    rw [eb]
    intro i v hi hv
    have : i < 2 := (List.getElem?_eq_some_iff.mp hi).1
    obtain rfl | rfl : i = 0 ∨ i = 1 := by omega
    · cases hi; simp at hv
    · refine ⟨by decide +kernel, by decide +kernel, ?_⟩
      rintro ⟨w, hw, ht⟩
      cases hw
      rcases ht with h | h <;> cases h
  refine C67_evaluator_partial gridG D I (fun _ _ => True) gridCfg (evalLits gridBody) [varX]
    quarterDbl_ok demoSat_ok (gridCfg_ok D I)
    exactFp_diamOk (by decide +kernel) gridIbex_ops grid_brancher
    (by decide +kernel) (by decide +kernel) _
    gridEval (fun h => absurd h (by decide)) h3 ?_ ?_ ?_ ?_ ?_ hin c hc _ ?_ rfl ?_ ?_ rfl
  · intro p hp b
    have h := List.all_eq_true.mp et p hp
    simp only [Bool.and_eq_true, Option.isNone_iff_eq_none] at h
    intro v op lo hi ex hf
    cases b with
    | true => rw [if_pos rfl, h.1] at hf; cases hf
    | false => rw [if_neg (by simp), h.2] at hf; cases hf
  · rw [eb, em]; exact Nat.mul_le_mul_left _ (by decide)
  · rw [eb]; exact le_rfl
  · rw [em]; decide
  · rw [eb]; simp
  · exact ⟨rfl, by simp⟩
  · intro _ iv h
    simp only [List.mem_singleton] at h
    subst h
    exact ⟨hl, hu⟩
  · rintro _ i ⟨v, h, ht⟩
    have : i < 1 := (List.getElem?_eq_some_iff.mp h).1
    obtain rfl : i = 0 := by omega
    cases h
    rcases ht with h | h <;> cases h

/-- `forall y. y < 0 or y > 1 or x ≤ 1/2` asserted for `x` in `[0, 1]` and checked, and then
`x + x ≥ 3/2`: the second check ends. -/
def gridQ3 : Ctx := after gridCfg (after gridCfg half2 .check) (.assert twiceBig)

example (D : Dom) (I : Interp) : checkSat gridCfg gridQ3 ≠ .oof := by
  have h0 : Poses gridCfg { made := [varX, varY] } (Ctx.init 10) := .init _ _ (by decide)
  have h1 := poses_after (.declare varX true) h0 ⟨by simp, .inr ⟨by simp, id⟩⟩ (by decide +kernel)
  have h2 := poses_after (.setInterval varX (.fin 0) (.fin 1)) h1
    ⟨⟨newItv varX.type, by decide +kernel⟩, .inl rfl⟩ (by decide +kernel)
  have hx : ∀ {P : Problem}, P.dom = [(varX, (⟨.fin 0, .fin 1⟩ : Itv))] → P.Declared varX :=
    fun e => ⟨_, by rw [e]; exact .head _⟩
  have hd : (Books.step (Books.step { made := [varX, varY] } (Ctx.init 10).sat.abs.next
      (.declare varX true)) (after gridCfg (Ctx.init 10) (.declare varX true)).sat.abs.next
      (.setInterval varX (.fin 0) (.fin 1))).top.Declared varX := hx rfl
  have hn : half1.sat.abs.next = 10 := by decide +kernel
  have h3 := Poses.step (cmd := .assert forallHalf) (c := half1) (cfg := gridCfg) h2 (by
    refine ⟨⟨⟨⟨trivial, trivial⟩, ⟨trivial, trivial⟩, ⟨trivial, trivial⟩, trivial⟩,
        ⟨⟨by decide, .inr (.head _)⟩, trivial⟩, ⟨⟨by decide, .inr (.head _)⟩, trivial⟩,
        ⟨⟨by decide, .inl hd⟩, trivial⟩, trivial⟩, ?_, fun h => absurd h id⟩
    rw [hn]
    simp [forallHalf, demoBelow, Old, OldE, OldList, varX, varY]) (a := []) (c' := half2) half_after
  have h4 := poses_after .check h3 trivial (by decide +kernel)
  have h5 := poses_after (.assert twiceBig) h4 (by
    refine ⟨⟨⟨⟨by decide, hx rfl⟩, by decide, hx rfl⟩, trivial⟩, ?_, fun _ => ⟨⟨trivial, trivial⟩, trivial⟩⟩
    refine ⟨⟨?_, ?_⟩, trivial⟩ <;> (show varX.id < _; decide +kernel)) (by decide +kernel)
  have eb : gridQ3.box = ⟨[varX], [⟨.fin 0, .fin 1⟩], false⟩ := by decide +kernel
  have et : (gridQ3.sat.abs.table.all fun p => (asBound p.2).isNone && (asBound (notF p.2)).isNone &&
      !(p.2 matches .tt) && !(p.2 matches .ff)) = true := by decide +kernel
  have em : gridQ3.sat.maxVar = 2 := by decide +kernel
  refine C67_quantified_partial gridG D I gridCfg quarterDbl_ok demoSat_ok (gridCfg_ok D I) gridIbex_ops
    grid_brancher (by decide +kernel) (by decide +kernel) _
    gridQ3 (fun _ _ _ _ _ _ => by simp [gridCfg, gridEnv]) (fun h => absurd h (by decide)) h5 ?_ ?_ ?_ ?_ ?_
    ?_ ?_ ?_
  · rw [eb]
    intro _ iv h
    simp only [List.mem_singleton] at h
    subst h
    exact ⟨by decide +kernel, by decide +kernel⟩
  · rw [eb]
    rintro _ i ⟨v, h, ht⟩
    have : i < 1 := (List.getElem?_eq_some_iff.mp h).1
    obtain rfl : i = 0 := by omega
    cases h
    rcases ht with h | h <;> cases h
  · intro p hp
    have h := List.all_eq_true.mp et p hp
    generalize p.2 = a at h
    constructor <;> (rintro rfl; simp at h)
  · intro p hp b
    have h := List.all_eq_true.mp et p hp
    simp only [Bool.and_eq_true, Option.isNone_iff_eq_none] at h
    intro v op lo hi ex hf
    cases b with
    | true => rw [if_pos rfl, h.1.1.1] at hf; cases hf
    | false => rw [if_neg (by simp), h.1.1.2] at hf; cases hf
  · rintro - p hp b ⟨v, op, lo, hi, ex, hf, -⟩
    have h := List.all_eq_true.mp et p hp
    simp only [Bool.and_eq_true, Option.isNone_iff_eq_none] at h
    cases b with
    | true => rw [if_pos rfl, h.1.1.1] at hf; cases hf
    | false => rw [if_neg (by simp), h.1.1.2] at hf; cases hf
  · rw [eb, em]
    refine (Nat.mul_le_mul (?_ : 2 * gridG.card * 1 + 1 ≤ 2 * gridG.card * 2 + 1) (by decide :
      2 + 2 + 1 ≤ 20 + 1))
    omega
  · rw [eb]
    show searchBound gridG 1 ≤ searchBound gridG 2
    unfold searchBound
    exact Nat.pow_le_pow_right (by omega) (by omega)
  · rw [em]; decide

end Verif.Props
