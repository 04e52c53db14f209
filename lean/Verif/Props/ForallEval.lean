import Verif.Props.Forall
import Verif.Props.Unsat
import Verif.Proof.ForallEval

/-! # C34: evaluating universally quantified constraints -/

namespace Verif.Props
open Verif Verif.Model Verif.Spec Verif.Proof

/-- The nested contexts of an evaluator of `forall qs. g` that is given smaller and smaller boxes
over the free variables: the one it is constructed with, and those left behind by evaluations.  In
between other code may construct variables.  `F` holds the intervals given last. -/
inductive Evaluated (cfg : CCfg) (ε : ℚ) (qs : List Variable) (g : Fml) :
    (Variable → Itv) → Ctx → Prop where
  | init {next c} (hn : ∀ v ∈ g.fv ++ qs, v.id < next) (ho : Old next g) (hw : WfF (· ∈ g.fv) g)
      (h : evalContext cfg next ε qs g = .ok c) :
      Evaluated cfg ε qs g (fun v => newItv v.type) c
  | other {F c} (h : Evaluated cfg ε qs g F c) : Evaluated cfg ε qs g F { c with sat := { c.sat with abs := { c.sat.abs with next := c.sat.abs.next + 1 } } }
  | step {F c b r c'} (h : Evaluated cfg ε qs g F c) (hb : ∀ v ∈ b.vars, v ∈ (Fml.all qs g).fv)
      (hi : ∀ v ∈ b.vars, ∀ x : ℝ, InItv x (b.getV v) → InItv x (F v))
      (he : forallEval cfg (evalLits g) b c = .ok (r, c')) :
      Evaluated cfg ε qs g (fun v => if v ∈ b.vars then b.getV v else F v) c'

theorem forallEval_check {cfg lits b c r c'} (h : forallEval cfg lits b c = .ok (r, c')) :
    ∃ o, checkSat cfg (setOuter b b.vars c) = .ok (o, c') ∧ (r.1 = .valid → o = none) ∧
      r.1 ≠ .unsat := by
  unfold forallEval at h
  obtain ⟨⟨o, c1⟩, h1, h2⟩ := bindR_ok h
  cases o with
  | none =>
    simp only [Run.ok.injEq, Prod.mk.injEq] at h2
    obtain ⟨rfl, rfl⟩ := h2
    exact ⟨none, h1, fun _ => rfl, by simp⟩
  | some ce =>
    simp only at h2
    obtain ⟨m, -, h3⟩ := bindR_ok h2
    simp only [Run.ok.injEq, Prod.mk.injEq] at h3
    obtain ⟨rfl, rfl⟩ := h3
    exact ⟨some ce, h1, fun h => by simp at h, by simp⟩

section
variable {D : Dom} {I : Interp} {cfg : CCfg} {ε : ℚ} {qs : List Variable} {g : Fml}

theorem evaluated_poses (he : EnvOk D I cfg.env) (hd : DblOk cfg.th.dbl) (hp : PicosatOk cfg.ps)
    {F c} (h : Evaluated cfg ε qs g F c) :
    ∃ n k, deltaStrengthen cfg.rnd ε (notF g) = .ok n ∧ Poses cfg k c ∧
      EvK (g.fv ++ qs) (fun v => v ∈ (Fml.all qs g).fv ∨ v ∈ qs) F [n] k := by
  induction h with
  | init hn ho hw h => exact evalContext_poses hn ho hw h
  | other h ih =>
    obtain ⟨n, k, h1, h2, h3⟩ := ih
    obtain ⟨k', h4, h5⟩ := newVar_poses .continuous h2 h3
    exact ⟨n, k', h1, h4, h5⟩
  | step h hb hi hf ih =>
    obtain ⟨n, k, h1, h2, h3⟩ := ih
    obtain ⟨o, h4, -, -⟩ := forallEval_check hf
    obtain ⟨k', h5, h6⟩ := setOuter_poses he hd hp _ _ h2 h3 (fun v hv => .inl (hb v hv)) hi
    obtain ⟨k'', h7, h8⟩ := check_poses h5 h6 h4
    exact ⟨n, k'', h1, h7, h8⟩

theorem evaluated_bound {F c} (h : Evaluated cfg ε qs g F c) : ∀ q ∈ qs, F q = newItv q.type := by
  induction h with
  | init hn ho hw h => intros; rfl
  | other h ih => exact ih
  | step h hb hi hf ih =>
    intro q hq
    dsimp only
    rw [if_neg]
    · exact ih q hq
    · intro hv
      have := hb q hv
      simp only [Fml.fv, List.mem_filter] at this
      simp [hq] at this

/-- C34, as far as it holds.  The evaluator reports `forall qs. g` valid on the box `b`.  Then at
every point of the box, for all values of the quantified variables (integers: within the 32 bits
the solver gives them), the strengthened negation is false; and `g` holds up to the strengthening
`ε` and the error `η` of rounding its constants.  Left out are values at which a term is not
defined or that are in a gap next to a literal (`RegF`, as for unsat answers).  Missing: boxes that
are not inside the boxes of earlier evaluations (`C34_stale`), boxes with variables that are not
free in the formula (`C34_alias`), larger integers (`C34_range`). -/
theorem C34_valid_partial (he : EnvOk D I cfg.env) (hd : DblOk cfg.th.dbl) (hp : PicosatOk cfg.ps)
    {F : Variable → Itv} {c c' : Ctx} {b : Box} {iv : Itv} (h : Evaluated cfg ε qs g F c)
    (hb : ∀ v, v ∈ b.vars ↔ v ∈ (Fml.all qs g).fv)
    (hi : ∀ v ∈ b.vars, ∀ x : ℝ, InItv x (b.getV v) → InItv x (F v))
    (hv : forallEval cfg (evalLits g) b c = .ok ((.valid, iv), c')) :
    ∃ n, deltaStrengthen cfg.rnd ε (notF g) = .ok n ∧
      ∀ ρ, InBox ρ b → TypedOn ρ b.vars → ∀ ρ' : Valuation, (∀ v, v ∉ qs → ρ' v = ρ v) →
        (∀ q ∈ qs, typeOk q.type (ρ' q) ∧ InItv (ρ' q) (newItv q.type)) →
        RegF D I cfg.th.dbl ρ' n → ¬ holds I ρ' n ∧
        ∀ (P : ℚ → Prop) (η : ℝ), BasicF P g → 0 ≤ η →
          (∀ q, P q → |((cfg.rnd (q + ε) : ℚ) : ℝ) - (q + ε)| ≤ η) →
          (∀ q, P q → |((cfg.rnd (q + -ε) : ℚ) : ℝ) - (q + -(ε : ℝ))| ≤ η) →
          weakF I (ε + η) ρ' true g := by
  obtain ⟨n, k, h1, h2, h3⟩ := evaluated_poses he hd hp h
  obtain ⟨o, h4, h5, -⟩ := forallEval_check hv
  rw [h5 rfl] at h4
  obtain ⟨k', h6, h7⟩ := setOuter_poses he hd hp _ _ h2 h3 (fun v hv => .inl ((hb v).mp hv)) hi
  have key := C27_unsat_partial D I cfg he hd hp k' _ _ h6 h4
  refine ⟨n, h1, fun ρ hin ht ρ' ho hq hr => ?_⟩
  have hN : ¬ holds I ρ' n := by
    intro hh
    have hv : ∀ v ∈ b.vars, ρ' v = ρ v := fun v hv => ho v fun hq => by
      have := (hb v).mp hv
      simp only [Fml.fv, List.mem_filter] at this
      simp [hq] at this
    have hd' : ∀ p ∈ k'.top.dom, p.1 ∈ b.vars ∨ p.1 ∈ qs := fun p hp =>
      (((h7.decl p.1).mp ⟨p.2, hp⟩)).imp (hb p.1).mpr id
    refine key ⟨ρ', ⟨fun p hp => ?_, fun p hp => ?_, ?_⟩, ?_⟩
    · rcases hd' p hp with hm | hm
      · rw [hv _ hm]; exact ht _ hm
      · exact (hq _ hm).1
    · rw [h7.dom p hp]
      split
      · rename_i hm
        rw [hv _ hm]; exact getV_in hin hm
      · rename_i hm
        have hm := (hd' p hp).resolve_left hm
        rw [evaluated_bound h _ hm]; exact (hq _ hm).2
    · rw [h7.asserted]; simpa using hh
    · unfold RegularAt; rw [h7.asserted]; simpa using hr
  refine ⟨hN, fun P η hP h0 hη hη' => ?_⟩
  have hε : 0 < ε := by
    unfold deltaStrengthen at h1
    split at h1
    · assumption
    · cases h1
  have hs : strF cfg.rnd ε (notF g) = .ok n := by
    unfold deltaStrengthen strengthen at h1
    rwa [if_pos hε, if_neg (ne_of_gt hε)] at h1
  exact weakF_notF ((strF_near hε h0 hη hη' _ _ le_rfl (basic_notF hP) n).1 hs hN)

/-- The evaluator never reports a quantified constraint unsatisfiable, whatever its nested context
has become. -/
theorem C34_never_unsat {lits : List Fml} {b : Box} {c c' : Ctx} {r : Verdict × Itv}
    (h : forallEval cfg lits b c = .ok (r, c')) : r.1 = .valid ∨ r.1 = .unknown := by
  obtain ⟨-, -, -, h⟩ := forallEval_check h
  cases hr : r.1 <;> simp_all

/-- The evaluators of a theory solver: `st` gives the nested context of the evaluator of a formula
at its `n`-th use. -/
def withEval (cfg : CCfg) (env : Env) (st : Nat → Fml → Ctx) : Env :=
  { env with evalAll := fun n f b =>
      match f with
      | .all _ g => do
        let r ← forallEval cfg (evalLits g) b (st n f)
        .ok r.1
      | _ => .ub }

/-- What C23 to C28 assume of the evaluators of quantified constraints holds for those of the
code. -/
theorem C34_environment {env : Env} (he : EnvOk D I env) (st : Nat → Fml → Ctx) :
    EnvOk D I (withEval cfg env st) := by
  refine ⟨he.ops, he.ib, he.loc, he.fa, he.faLoc, he.br, he.cut, fun n f b r h => ?_⟩
  unfold withEval at h
  cases f with
  | all vs g =>
    obtain ⟨⟨r', c'⟩, h1, h2⟩ := bindR_ok h
    simp only [Run.ok.injEq] at h2; subst h2
    rcases C34_never_unsat h1 with e | e <;> rw [e] <;> simp
  | _ => cases h

end

/-! ### Concrete cases -/

example (D : Dom) (I : Interp) (st : Nat → Fml → Ctx) :
    EnvOk D I (withEval gapCfg demoEnv st) := C34_environment (demoEnv_ok D I) st

/-- `y < 0 or y > 1 or x + y ≤ 3`. -/
def sumBelow : Fml := .disj [.rel .lt (.var varY) (.const 0), .rel .gt (.var varY) (.const 1),
  .rel .leq (.add (.var varX) (.var varY)) (.const 3)]

def sideX (l u : ℚ) : Box := ⟨[varX], [⟨.fin l, .fin u⟩], false⟩

/-- One evaluator applied to several boxes in turn. -/
def evalSeq (cfg : CCfg) (lits : List Fml) : Ctx → List Box → Run (List Verdict)
  | _, [] => .ok []
  | c, b :: bs => do
    let r ← forallEval cfg lits b c
    let q ← evalSeq cfg lits r.2 bs
    .ok (r.1.1 :: q)

def verdicts (q : Variable) (g : Fml) (bs : List Box) : Option (List Verdict) :=
  match (do let c ← Run.lift (evalContext gapCfg 10 (1 / 2000) [q] g)
            evalSeq gapCfg (evalLits g) c bs) with
  | .ok r => some r
  | _ => none

/-- The constraint is valid for `x` in `[0, 1]`, and not known to be so for `x` in `[5, 6]`. -/
example : verdicts varY sumBelow [sideX 0 1] = some [.valid] ∧
    verdicts varY sumBelow [sideX 5 6] = some [.unknown] ∧
    verdicts varY sumBelow [sideX 0 2, sideX 0 1] = some [.valid, .valid] := by decide +kernel

theorem verdicts_one {q g b v} (h : verdicts q g [b] = some [v]) : ∃ c iv c',
    evalContext gapCfg 10 (1 / 2000) [q] g = .ok c ∧
    forallEval gapCfg (evalLits g) b c = .ok ((v, iv), c') := by
  unfold verdicts at h
  split at h
  · rename_i r hr
    obtain ⟨c, h1, h2⟩ := bindR_ok hr
    simp only [evalSeq] at h2
    obtain ⟨⟨⟨w, iv⟩, c'⟩, h3, h4⟩ := bindR_ok h2
    simp only [Option.some.injEq] at h
    rw [h] at h4
    have : [w] = [v] := by simpa using h4
    simp only [List.cons.injEq, and_true] at this
    rw [← this]
    exact ⟨c, iv, c', lift_ok h1, h3⟩
  · cases h

/-- Its negation, strengthened by 1/2000. -/
def sumShifted : Fml := .neg (.disj [.rel .lt (.var varY) (.const (1 / 2000)),
  .rel .gt (.var varY) (.const (1999 / 2000)),
  .rel .leq (.add (.add (.var varX) (.var varY)) (.const (-1 / 2000))) (.const 3)])

/-- The hypotheses are met by an evaluation on `[0, 1]`, and the conclusion is about points where
the terms have values: there `x + y ≤ 3` up to 1/2000 for all `y` in `[0, 1]`. -/
example (D : Dom) (I : Interp) : ∃ c iv c', Evaluated gapCfg (1 / 2000) [varY] sumBelow
      (fun v => newItv v.type) c ∧
    forallEval gapCfg (evalLits sumBelow) (sideX 0 1) c = .ok ((.valid, iv), c') ∧
    (∀ v, v ∈ (sideX 0 1).vars ↔ v ∈ (Fml.all [varY] sumBelow).fv) ∧
    (∀ v ∈ (sideX 0 1).vars, ∀ x : ℝ, InItv x ((sideX 0 1).getV v) → InItv x (newItv v.type)) ∧
    BasicF (fun _ => True) sumBelow ∧
    ∃ n, deltaStrengthen gapCfg.rnd (1 / 2000) (notF sumBelow) = .ok n ∧
      ∃ ρ, InBox ρ (sideX 0 1) ∧ TypedOn ρ (sideX 0 1).vars ∧ RegF D I gapCfg.th.dbl ρ n := by
  obtain ⟨c, iv, c', h1, h2⟩ := verdicts_one (q := varY) (g := sumBelow) (b := sideX 0 1)
    (v := .valid) (by decide +kernel)
  refine ⟨c, iv, c', .init (by decide)
      (by simp [sumBelow, Old, OldList, OldE, varX, varY]) (by simp [sumBelow, WfF, WfFs, WfE, Fml.fv, Fml.fvList, Expr.vars, varX, varY]) h1,
    h2, ?_, ?_, ?_, ?_⟩
  · simp [sideX, sumBelow, Fml.fv, Fml.fvList, Expr.vars, varX, varY]
  · intro v hv x _
    simp only [sideX, List.mem_singleton] at hv
    subst hv
    simp [varX, newItv, Itv.univ, InItv, below, above]
  · have h : ∀ l ∈ evalLits sumBelow, BasicF (fun _ => True) l := by
      intro l hl
      simp only [evalLits, sumBelow, List.mem_cons, List.not_mem_nil, or_false] at hl
      rcases hl with rfl | rfl | rfl <;> exact ⟨by simp [BasicE], by simp [BasicE], by decide +kernel⟩
    exact basicFs_iff.mpr h
  · refine ⟨sumShifted, by decide +kernel, fun _ => 1 / 2, ⟨rfl, fun i v hv => ?_⟩, fun v hv => ?_, ?_⟩
    · rcases i with _ | i
      · simp only [sideX, Box.get, InItv, below, above, List.getD_cons_zero]; norm_num
      · simp [sideX] at hv
    · simp only [sideX, List.mem_singleton] at hv
      subst hv; trivial
    · refine ⟨⟨trivial, trivial, ?_, ?_⟩, ⟨trivial, trivial, ?_, ?_⟩,
        ⟨⟨⟨trivial, trivial⟩, trivial⟩, trivial, ?_, ?_⟩, trivial⟩ <;> intro lo hi ex ha hp <;>
        simp only [asNum, Option.some.injEq, Prod.mk.injEq, reduceCtorEq, isPlace] at ha hp
      all_goals
        obtain ⟨rfl, rfl, -⟩ := ha
        constructor <;> intro ho <;> simp only [reduceCtorEq, or_self] at ho
        simp only [eval]; push_cast; rintro ⟨h1, h2⟩; linarith

theorem sumBelow_wrong (I : Interp) (ρ : Valuation) (h : below (.fin 5) (ρ varX)) :
    ¬ holds I ρ (.all [varY] sumBelow) := by
  intro hh
  have h : (5 : ℝ) ≤ ρ varX := by simpa [below] using h
  have := hh (fun v => if v = varY then 0 else ρ v)
    (fun v hv => by simp only [List.mem_singleton] at hv; simp [hv])
    (fun v hv => by simp only [List.mem_singleton] at hv; subst hv; trivial)
  simp only [sumBelow, holds, holdsAny, relSem, eval, or_false, if_true] at this
  rw [if_neg (by decide : varX ≠ varY)] at this
  push_cast at this
  rcases this with h | h | h <;> linarith

/-- C34 is wrong when a box is not inside the boxes evaluated before: what the nested solver has
learned on `[0, 1]` is still used on `[5, 6]`, where `x + y ≤ 3` is wrong for every `y`. -/
theorem C34_stale : verdicts varY sumBelow [sideX 0 1, sideX 5 6] = some [.valid, .valid] ∧
    ∀ (I : Interp) (ρ : Valuation), InBox ρ (sideX 5 6) → ¬ holds I ρ (.all [varY] sumBelow) := by
  exact ⟨by decide +kernel, fun I ρ hin => sumBelow_wrong I ρ (hin.2 0 varX rfl).1⟩

def varZ : Variable := ⟨5, .continuous⟩

/-- C34 is wrong, for the first box already, when the box has a variable that is not free in the
formula and comes late: its interval `[0, 1]` is written over that of `x`.  With the variables in
the other order it is not. -/
theorem C34_alias :
    let b : Box := ⟨[varX, varZ], [⟨.fin 5, .fin 6⟩, ⟨.fin 0, .fin 1⟩], false⟩
    let b' : Box := ⟨[varZ, varX], [⟨.fin 0, .fin 1⟩, ⟨.fin 5, .fin 6⟩], false⟩
    verdicts varY sumBelow [b] = some [.valid] ∧ verdicts varY sumBelow [b'] = some [.unknown] ∧
    ∀ (I : Interp) (ρ : Valuation), InBox ρ b → ¬ holds I ρ (.all [varY] sumBelow) := by
  exact ⟨by decide +kernel, by decide +kernel,
    fun I ρ hin => sumBelow_wrong I ρ (hin.2 0 varX rfl).1⟩

/-- `n < 3000000000 or x ≤ -1`. -/
def belowBig : Fml := .disj [.rel .lt (.var varN) (.const 3000000000),
  .rel .leq (.var varX) (.const (-1))]

/-- C34 is wrong for integers beyond 32 bits. -/
theorem C34_range : verdicts varN belowBig [sideX 0 1] = some [.valid] ∧
    ∀ (I : Interp) (ρ : Valuation), InBox ρ (sideX 0 1) → ¬ holds I ρ (.all [varN] belowBig) := by
  refine ⟨by decide +kernel, fun I ρ hin hh => ?_⟩
  have h : below (.fin 0) (ρ varX) := (hin.2 0 varX rfl).1
  have h : (0 : ℝ) ≤ ρ varX := by simpa [below] using h
  have := hh (fun v => if v = varN then 4000000000 else ρ v)
    (fun v hv => by simp only [List.mem_singleton] at hv; simp [hv])
    (fun v hv => by
      simp only [List.mem_singleton] at hv; subst hv
      exact ⟨4000000000, by simp⟩)
  simp only [belowBig, holds, holdsAny, relSem, eval, or_false, if_true] at this
  rw [if_neg (by decide : varX ≠ varN)] at this
  push_cast at this
  rcases this with h | h <;> linarith
end Verif.Props
