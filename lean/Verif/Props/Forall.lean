import Verif.Props.Session
import Verif.Proof.ForallFind

/-! # Universally quantified constraints -/

namespace Verif.Props
open Verif Verif.Model Verif.Spec Verif.Proof

/-! ## C35: pruning with counterexamples -/

/-- C35, as far as it holds, for any way of finding counterexamples.  Pruning the box `b` with
`forall qs. g` gives a box over the same variables inside `b`, and every point of `b` at which the
quantified formula holds is still in it.  Nothing is assumed of the counterexamples but that they
are non-empty boxes over the right variables with midpoints of the right type (`FindOk`).  Missing
from the full statement: the midpoint of a quantified integer variable need not be an integer, see
`C35_integer`. -/
theorem C35_prune_partial {σ : Type} {D : Dom} {I : Interp} {ib : Ibex} {fp : Fp} {fuel : Nat}
    {up : Bool} {Inv : σ → Prop} {find : σ → Box → Run (Option Box × σ)} {st st' : σ}
    {vs qs : List Variable} {g : Fml} {b b' : Box} {out : List Nat}
    (ok : IbexSound D I ib) (hf : FindOk fp vs qs Inv find) (hi : Inv st)
    (hw : BoxWf b) (hv : b.vars = vs)
    (h : forallPrune ib fp fuel up find st vs (.all qs g) b = .ok (b', out, st')) :
    b'.vars = vs ∧ BoxWf b' ∧ SubBox b' b ∧ Inv st' ∧
      ∀ ρ, InBox ρ b → RcOkF g → DefF D I ρ (.all qs g) → holds I ρ (.all qs g) → InBox ρ b' := by
  obtain ⟨qs', g', he, h1, -, h2⟩ := forallPrune_fa (Inv := Inv) ok
    (fun qs' g' he _ => by cases he; exact ⟨hf, hi⟩) ⟨hv, hw⟩ h
  cases he
  exact ⟨h1.shape.1, h1.shape.2, h1.sub, h2, h1.sound⟩

/-- The states of the nested context of a `ContractorForall`: the one it is constructed with, and
those left behind by searches in boxes over the variables `vs`. -/
inductive Searched (cfg : CCfg) (refine : Box → Run Box) (vs qs : List Variable) (g : Fml) :
    Ctx × Bool → Prop where
  | init {next ε c} (left : Bool) (hd : (vs ++ qs).Nodup) (hn : ∀ u ∈ vs ++ qs, u.id < next)
      (ho : Old next g) (h : ctcContext cfg next ε vs qs g = .ok c) :
      Searched cfg refine vs qs g (c, left)
  | step {st b o st'} (hs : Searched cfg refine vs qs g st) (hw : BoxWf b) (hv : b.vars = vs)
      (h : ctcFind cfg refine st b = .ok (o, st')) : Searched cfg refine vs qs g st'

/-- A refiner of counterexamples: whatever point it moves to, the box keeps its variables and is
not emptied. -/
def RefineOk (us : List Variable) (refine : Box → Run Box) : Prop :=
  ∀ ce ce', refine ce = .ok ce' → ce.vars = us → BoxWf ce → ce.bot = false →
    ce'.vars = us ∧ BoxWf ce' ∧ ce'.bot = false

theorem searched_nest {cfg refine vs qs g st} (h : Searched cfg refine vs qs g st) :
    Nest (vs ++ qs) st.1 := by
  induction h with
  | init left hd hn ho h => exact ctcContext_nest hd hn ho h
  | step hs hw hv h ih =>
    unfold ctcFind at h
    obtain ⟨⟨o, c'⟩, h1, h⟩ := bindR_ok h
    have hn := (ih.setOuter _).check h1
    cases o with
    | none =>
      simp only [Run.ok.injEq, Prod.mk.injEq] at h
      rw [← h.2]; exact hn
    | some ce =>
      simp only at h
      obtain ⟨ce', -, h⟩ := bindR_ok h
      simp only [Run.ok.injEq, Prod.mk.injEq] at h
      rw [← h.2]; exact hn

theorem searched_find {D I fp cfg refine vs qs g} (he : EnvOk D I cfg.env)
    (hq : ∀ q ∈ qs, q.type = .continuous) (hr : RefineOk (vs ++ qs) refine) :
    FindOk fp vs qs (Searched cfg refine vs qs g) (ctcFind cfg refine) := by
  have k := ctcFind_ok (fp := fp) he hq hr
  exact ⟨fun st b r hi hw hv h => .step hi hw hv h,
    fun st b ce st' hi => k.shape st b ce st' (searched_nest hi),
    fun st b ce st' hi => k.nonempty st b ce st' (searched_nest hi),
    fun st b ce st' hi => k.typed st b ce st' (searched_nest hi)⟩

/-- C35, as far as it holds, for the search of the code: the nested context is whatever earlier
searches have made of the one the contractor was built with, and the quantified variables are
real.  Nothing is assumed about what the nested solver answers. -/
theorem C35_context_partial {D : Dom} {I : Interp} {ib : Ibex} {fp : Fp} {fuel : Nat} {up : Bool}
    {cfg : CCfg} {refine : Box → Run Box} {st st' : Ctx × Bool}
    {vs qs : List Variable} {g : Fml} {b b' : Box} {out : List Nat}
    (ok : IbexSound D I ib) (he : EnvOk D I cfg.env) (hq : ∀ q ∈ qs, q.type = .continuous)
    (hr : RefineOk (vs ++ qs) refine) (hi : Searched cfg refine vs qs g st)
    (hw : BoxWf b) (hv : b.vars = vs)
    (h : forallPrune ib fp fuel up (ctcFind cfg refine) st vs (.all qs g) b = .ok (b', out, st')) :
    b'.vars = vs ∧ BoxWf b' ∧ SubBox b' b ∧ Searched cfg refine vs qs g st' ∧
      ∀ ρ, InBox ρ b → RcOkF g → DefF D I ρ (.all qs g) → holds I ρ (.all qs g) → InBox ρ b' :=
  C35_prune_partial ok (searched_find he hq hr) hi hw hv h

/-- The forall contractor of a theory solver: `find` and `st` say how the contractor of a formula
searches, and in which state it is at its `n`-th use. -/
def withForall {σ : Type} (ib : Ibex) (fp : Fp) (fuel : Nat) (up : Bool)
    (find : List Variable → Fml → σ → Box → Run (Option Box × σ))
    (st : Nat → List Variable → Fml → σ) : Ibex :=
  { ib with forallC := fun n vs f b => do
      let r ← forallPrune ib fp fuel up (find vs f) (st n vs f) vs f b
      .ok (r.1, r.2.1) }

/-- What C23 to C28 assume of the forall contractor holds for the one of the code (C35 put to
use): the environment of a theory solver stays as good when its forall contractor is the loop of
`ContractorForall::Prune`. -/
theorem C35_environment {σ : Type} {D : Dom} {I : Interp} {env : Env} {fuel : Nat} {up : Bool}
    {find : List Variable → Fml → σ → Box → Run (Option Box × σ)}
    {st : Nat → List Variable → Fml → σ} {Inv : List Variable → Fml → σ → Prop}
    (he : EnvOk D I env)
    (hf : ∀ vs qs g, FindOk env.fp vs qs (Inv vs (.all qs g)) (find vs (.all qs g)))
    (hi : ∀ n vs qs g, (vs ++ qs).Nodup → Inv vs (.all qs g) (st n vs (.all qs g))) :
    EnvOk D I { env with ib := withForall env.ib env.fp fuel up find st } := by
  have key : ∀ {n vs f b b' out}, BoxWf b → b.vars = vs →
      (withForall env.ib env.fp fuel up find st).forallC n vs f b = .ok (b', out) →
      ∃ qs g, f = .all qs g ∧ FaOk D I vs qs g b b' ∧ FaLoc vs qs g b b' := by
    intro n vs f b b' out hw hv h
    obtain ⟨r, h1, h2⟩ := bindR_ok h
    simp only [Run.ok.injEq, Prod.mk.injEq] at h2
    obtain ⟨qs, g, e, a1, a2, -⟩ := forallPrune_fa (Inv := Inv vs f) he.ib
      (fun qs g e hn => by subst e; exact ⟨hf vs qs g, hi n vs qs g hn⟩) ⟨hv, hw⟩ h1
    rw [← h2.1]
    exact ⟨qs, g, e, a1, a2 he.loc⟩
  have fa : ForallSound D I (withForall env.ib env.fp fuel up find st) := by
    refine ⟨fun n vs f b b' out h => ?_, fun n vs f b b' out hw hv h => ?_,
      fun n vs f b b' out hw hv h ρ hb _ hr hd hh => ?_⟩
    · obtain ⟨r, h1, h2⟩ := bindR_ok h
      simp only [Run.ok.injEq, Prod.mk.injEq] at h2
      rw [← h2.1]; exact forallPrune_shape h1
    · obtain ⟨qs, g, rfl, a, -⟩ := key hw hv h
      exact a.sub
    · obtain ⟨qs, g, rfl, a, -⟩ := key hw hv h
      exact a.sound ρ hb hr hd hh
  have fl : ForallLocal D I (withForall env.ib env.fp fuel up find st) := by
    refine ⟨fun n vs f b b' out hw hv h hr hn hb i v hi hv' => ?_,
      fun n vs f b b' out hw hv h hn hb => ?_, fun n vs f b b' out hw hv h ρ hb _ hr hd hh => ?_⟩
    · obtain ⟨qs, g, rfl, -, a⟩ := key hw hv h
      exact (a.loc hn hb).2 hr i v (hv ▸ hi) hv'
    · obtain ⟨qs, g, rfl, -, a⟩ := key hw hv h
      exact (a.loc hn hb).1
    · obtain ⟨qs, g, rfl, a, -⟩ := key hw hv h
      exact a.sound ρ hb hr hd hh
  exact ⟨he.ops, ⟨he.ib.1, he.ib.2, he.ib.3, he.ib.4, he.ib.5, he.ib.6⟩,
    ⟨he.loc.1, he.loc.2, he.loc.3, he.loc.4, he.loc.5⟩, fa, fl, he.br, he.cut, he.noUnsat⟩

/-- The search of the code in a theory solver.  No state: the constructor of the contractor has
failed.  Quantified variables that are not real are left out. -/
def realFind (cfg : CCfg) (refine : Fml → Box → Run Box) (_ : List Variable) (f : Fml)
    (st : Option (Ctx × Bool)) (b : Box) : Run (Option Box × Option (Ctx × Bool)) :=
  match st, f with
  | some s, .all qs _ =>
    if ∀ q ∈ qs, q.type = .continuous then do
      let r ← ctcFind cfg (refine f) s b
      .ok (r.1, some r.2)
    else .ub
  | _, _ => .throw

/-- C35 for all the forall contractors of a theory solver together: each has a nested context that
some earlier searches have left behind. -/
theorem C35_solver_partial {D : Dom} {I : Interp} {env : Env} {fuel : Nat} {up : Bool}
    {cfg : CCfg} {refine : Fml → Box → Run Box} {st : Nat → List Variable → Fml → Option (Ctx × Bool)}
    (he : EnvOk D I env) (hc : EnvOk D I cfg.env)
    (hr : ∀ vs qs g, RefineOk (vs ++ qs) (refine (.all qs g)))
    (hi : ∀ n vs qs g s, st n vs (.all qs g) = some s → Searched cfg (refine (.all qs g)) vs qs g s) :
    EnvOk D I { env with ib := withForall env.ib env.fp fuel up (realFind cfg refine) st } := by
  refine C35_environment (Inv := fun vs f o => ∀ qs g s, f = .all qs g → o = some s →
    Searched cfg (refine (.all qs g)) vs qs g s) he (fun vs qs g => ?_) (fun n vs qs g _ qs' g' s e hs => ?_)
  · have key : ∀ (o : Option (Ctx × Bool)) b r, realFind cfg refine vs (.all qs g) o b = .ok r →
        ∃ s s', o = some s ∧ ctcFind cfg (refine (.all qs g)) s b = .ok (r.1, s') ∧ r.2 = some s' ∧
          ∀ q ∈ qs, q.type = .continuous := by
      intro o b r h
      cases o with
      | none => simp [realFind] at h
      | some s =>
        simp only [realFind] at h
        split at h
        · rename_i hq
          obtain ⟨t, h1, h2⟩ := bindR_ok h
          simp only [Run.ok.injEq] at h2; subst h2
          exact ⟨s, t.2, rfl, h1, rfl, hq⟩
        · cases h
    refine ⟨fun o b r ho hw hv h qs' g' s' e hs => ?_, fun o b ce st' ho hw hv h => ?_,
      fun o b ce st' ho hw hv h => ?_, fun o b ce st' ho hw hv h => ?_⟩
    · obtain ⟨s, t, rfl, h1, h2, hq⟩ := key o b r h
      rw [h2, Option.some.injEq] at hs; subst hs
      cases e
      exact .step (ho qs g s rfl rfl) hw hv h1
    all_goals
      obtain ⟨s, t, rfl, h1, -, hq⟩ := key o b _ h
      have k := searched_find (fp := env.fp) (g := g) hc hq (hr vs qs g)
      have hS := ho qs g s rfl rfl
    · exact k.shape s b ce t hS hw hv h1
    · exact k.nonempty s b ce t hS hw hv h1
    · exact k.typed s b ce t hS hw hv h1
  · cases e; exact hi n vs qs g s hs

/-! ### Concrete cases -/

/-- The nested solver for the precision 1/1000: its own precision is a quarter, and the negation
is strengthened by half (`dreal/solver/theory_solver.cc:184-192`). -/
def gapCfg : CCfg := { demoCfg with env := { demoEnv with delta := 1 / 4000 } }

theorem gapCfg_ok (D : Dom) (I : Interp) : EnvOk D I gapCfg.env :=
  let h := demoEnv_ok D I
  ⟨h.ops, h.ib, h.loc, h.fa, h.faLoc, h.br, h.cut, h.noUnsat⟩

def unitX : Box := ⟨[varX], [⟨.fin 0, .fin 1⟩], false⟩

def pruneWith (q : Variable) (g : Fml) : Run (Box × List Nat × (Ctx × Bool)) := do
  let c ← Run.lift (ctcContext gapCfg 10 (1 / 2000) [varX] [q] g)
  forallPrune demoIbex exactFp 10 false (ctcFind gapCfg fun b => .ok b) (c, false) [varX]
    (.all [q] g) unitX

def prunedOf (r : Run (Box × List Nat × (Ctx × Bool))) : Option (Box × List Nat) :=
  match r with
  | .ok r => some (r.1, r.2.1)
  | _ => none

/-- `x ≤ 1/2` for all `y` in `[0, 1]`. -/
def demoBelow : Fml := .disj [.rel .lt (.var varY) (.const 0), .rel .gt (.var varY) (.const 1),
  .rel .leq (.var varX) (.const (1 / 2))]

/-- The contractor of `forall y. y < 0 or y > 1 or x ≤ 1/2` cuts `[0, 1]` down to `[0, 1/2]`: one
counterexample is found and used, then there are none. -/
example : prunedOf (pruneWith varY demoBelow) =
    some (⟨[varX], [⟨.fin 0, .fin (1 / 2)⟩], false⟩, [0]) := by decide +kernel

/-- The hypotheses of the theorems are met in this case. -/
example (D : Dom) (I : Interp) : ∃ c b' out st',
    Searched gapCfg (fun b => .ok b) [varX] [varY] demoBelow (c, false) ∧
    (∀ q ∈ [varY], q.type = .continuous) ∧ IbexSound D I demoIbex ∧ EnvOk D I gapCfg.env ∧
    RefineOk ([varX] ++ [varY]) (fun b => .ok b) ∧ BoxWf unitX ∧
    forallPrune demoIbex exactFp 10 false (ctcFind gapCfg fun b => .ok b) (c, false) [varX]
      (.all [varY] demoBelow) unitX = .ok (b', out, st') ∧
    SubBox b' unitX ∧ ∃ ρ, InBox ρ unitX ∧ ¬ InBox ρ b' := by
  have h0 : prunedOf (pruneWith varY demoBelow) =
    some (⟨[varX], [⟨.fin 0, .fin (1 / 2)⟩], false⟩, [0]) := by decide +kernel
  cases hp : pruneWith varY demoBelow with
  | ok r =>
    rw [hp] at h0
    obtain ⟨c, h1, h2⟩ := bindR_ok hp
    have hS : Searched gapCfg (fun b => .ok b) [varX] [varY] demoBelow (c, false) :=
      .init false (by decide) (by decide) (by simp [demoBelow, Old, OldE, OldList, varX, varY])
        (lift_ok h1)
    have hr : RefineOk ([varX] ++ [varY]) (fun b => .ok b) := by
      intro ce ce' h hv hw hb
      simp only [Run.ok.injEq] at h; subst h; exact ⟨hv, hw, hb⟩
    have hw : BoxWf unitX := ⟨rfl, by decide⟩
    obtain ⟨-, -, hs, -⟩ := C35_context_partial (demoIbex_sound D I) (gapCfg_ok D I)
      (by decide) hr hS hw rfl h2
    refine ⟨c, r.1, r.2.1, r.2.2, hS, by decide, demoIbex_sound D I, gapCfg_ok D I, hr, hw, h2, hs,
      fun _ => 1, ?_, ?_⟩
    · refine ⟨rfl, fun i v hv => ?_⟩
      rcases i with _ | i
      · simp [unitX, Box.get, InItv, below, above]
      · simp [unitX] at hv
    · simp only [prunedOf, Option.some.injEq, Prod.mk.injEq] at h0
      rw [h0.1]
      rintro ⟨-, h⟩
      have := h 0 varX rfl
      simp only [Box.get, InItv, below, above, List.getD_cons_zero] at this
      norm_num at this
  | throw => rw [hp] at h0; cases h0
  | ub => rw [hp] at h0; cases h0
  | oof => rw [hp] at h0; cases h0

/-- A search that always offers the same counterexample. -/
def sameFind (vs : List Variable) (f : Fml) (_ : Unit) (_ : Box) : Run (Option Box × Unit) :=
  match f with
  | .all qs _ =>
    if (vs ++ qs).Nodup ∧ ∀ q ∈ qs, q.type = .continuous then
      .ok (some ⟨vs ++ qs, (vs ++ qs).map fun _ => Itv.point 0, false⟩, ())
    else .ub
  | _ => .ub

/-- The assumptions of `C35_environment` can be met. -/
example (D : Dom) (I : Interp) : EnvOk D I
    { demoEnv with ib := withForall demoIbex exactFp 10 false sameFind fun _ _ _ => () } := by
  refine C35_environment (Inv := fun _ _ _ => True) (demoEnv_ok D I) (fun vs qs g => ?_)
    (fun _ _ _ _ _ => trivial)
  refine ⟨fun _ _ _ _ _ _ _ => trivial, fun st b ce st' _ _ _ h => ?_,
    fun st b ce st' _ _ _ h => ?_, fun st b ce st' _ _ _ h q hq => ?_⟩
  all_goals
    simp only [sameFind] at h
    split at h
    · rename_i hc
      simp only [Run.ok.injEq, Prod.mk.injEq, Option.some.injEq, and_true] at h
      subst h
      first
        | exact ⟨rfl, by simp, hc.1⟩
        | rfl
        | (rw [hc.2 q hq]; trivial)
    · cases h

/-- The assumptions of `C35_solver_partial` can be met, with a context for `demoBelow`. -/
example (D : Dom) (I : Interp) : ∃ st : Nat → List Variable → Fml → Option (Ctx × Bool),
    (st 0 [varX] (.all [varY] demoBelow)).isSome ∧
    EnvOk D I { demoEnv with ib := withForall demoIbex exactFp 10 false (realFind gapCfg fun _ b => .ok b) st } := by
  have h0 : (prunedOf (pruneWith varY demoBelow)).isSome := by decide +kernel
  obtain ⟨c, hc⟩ : ∃ c, ctcContext gapCfg 10 (1 / 2000) [varX] [varY] demoBelow = .ok c := by
    unfold pruneWith at h0
    cases h : ctcContext gapCfg 10 (1 / 2000) [varX] [varY] demoBelow with
    | ok c => exact ⟨c, rfl⟩
    | throw => rw [h] at h0; cases h0
    | ub => rw [h] at h0; cases h0
  refine ⟨fun _ vs f => if vs = [varX] ∧ f = .all [varY] demoBelow then some (c, false) else none,
    by simp, ?_⟩
  refine C35_solver_partial (demoEnv_ok D I) (gapCfg_ok D I) (fun _ _ _ ce ce' h hv hw hb => ?_)
    (fun n vs qs g s h => ?_)
  · simp only [Run.ok.injEq] at h; subst h; exact ⟨hv, hw, hb⟩
  · split at h
    · rename_i hh
      obtain ⟨rfl, h2⟩ := hh
      simp only [Fml.all.injEq] at h2
      obtain ⟨rfl, rfl⟩ := h2
      simp only [Option.some.injEq] at h; subst h
      exact .init false (by decide) (by decide) (by simp [demoBelow, Old, OldE, OldList, varX, varY])
        hc
    · cases h

/-- `n < 0.4994 or n > 0.5006`. -/
def gapN : Fml := .disj [.rel .lt (.var varN) (.const (4994 / 10000)),
  .rel .gt (.var varN) (.const (5006 / 10000))]

/-- C35 is wrong for quantified integer variables, already for the default precision 0.001.  That
every integer `n` is below 0.4994 or above 0.5006 is true, whatever `x` is.  The bounds of the
negation are absorbed into the interval [0.4999, 0.5001] of the integer variable; its midpoint is
used as a counterexample and the whole box is removed. -/
theorem C35_integer : ∃ b' out, prunedOf (pruneWith varN gapN) = some (b', out) ∧ b'.bot = true ∧
    ∀ (I : Interp) (ρ : Valuation), holds I ρ (.all [varN] gapN) := by
  refine ⟨⟨[varX], [⟨.fin 0, .fin 1⟩], true⟩, [0], by decide +kernel, rfl, fun I ρ => ?_⟩
  intro ρ' h1 h2
  have hn := h2 varN (by simp)
  obtain ⟨k, hk⟩ : ∃ k : ℤ, ρ' varN = k := hn
  simp only [gapN, holds, holdsAny, relSem, eval, hk, or_false]
  rcases le_or_gt k 0 with h | h
  · left
    have : (k : ℝ) ≤ 0 := by exact_mod_cast h
    push_cast; linarith
  · right
    have : (1 : ℝ) ≤ k := by exact_mod_cast h
    push_cast; linarith

end Verif.Props
