import Verif.Props.Filter
import Verif.Props.Icp
import Verif.Spec.TheoryDemo

/-!
# Conflicts reported by the theory solver: C26
-/

namespace Verif.Props
open Verif Verif.Model Verif.Spec

/-- C26, as far as it holds.  The constraints reported as explanation are among the given ones
and have no common solution in the given box — for the sequential and the parallel search (every
number of jobs and every schedule), every configuration, and every cache whose contractors were
built for boxes with the variables of their constraints at the same places.  The solutions considered are well-typed points at which the
reported constraints are defined and whose values avoid the gap between the literal of a strict
bound and the next double.  Missing: the points in those gaps, and caches filled under other
declarations; the claim is wrong there (`C26_strict_gap`, `C26_stale_cache`). -/
theorem C26_conflict_partial (D : Dom) (I : Interp) (env : Env) (cfg : TCfg) (he : EnvOk D I env)
    (hd : DblOk cfg.dbl) (cache cache' : Cache) (tick tick' : Nat) (b : Box) (fs E : List Fml)
    (wf : BoxWf b) (hl : LitsOk fs b.vars) (hc : CacheOk b.vars cache)
    (h : theoryCheck env cfg cache tick b fs = .ok (.unsat E, cache', tick')) :
    (∀ f ∈ E, f ∈ fs) ∧ Conflict D I cfg.dbl b E :=
  Proof.theoryCheck_unsat he hd wf hl hc h

/-- The cache stays usable for boxes with these variables. -/
theorem C26_cache (D : Dom) (I : Interp) (env : Env) (cfg : TCfg) (he : EnvOk D I env)
    (hd : DblOk cfg.dbl) (cache cache' : Cache) (tick tick' : Nat) (b : Box) (fs : List Fml)
    (ans : TAnswer) (wf : BoxWf b) (hl : LitsOk fs b.vars) (hc : CacheOk b.vars cache)
    (h : theoryCheck env cfg cache tick b fs = .ok (ans, cache', tick')) : CacheOk b.vars cache' :=
  Proof.theoryCheck_cache (D := D) (I := I) hd wf hl hc he h

/-- The environment of the concrete cases meets the assumptions. -/
theorem demoEnv_ok (D : Dom) (I : Interp) : EnvOk D I demoEnv where
  ops := demoOps_ok D I
  ib := demoIbex_sound D I
  loc := demoIbex_local D I
  fa := demoIbex_forall D I
  faLoc := demoIbex_forallLocal D I
  br := C23_default_brancher _ exactFp_cutInside
  cut := exactFp_cutInside
  noUnsat := by
    intro n f b r h
    simp only [demoEnv, Run.ok.injEq] at h; subst h; simp

/-- The explanation, if the answer is "unsat". -/
def explOf (r : Run (TAnswer × Cache × Nat)) : Option (List Fml) :=
  match r with
  | .ok (.unsat e, _) => some e
  | _ => none

def demoTh : TCfg := { dbl := quarterDbl, fuel := 10 }
def demoY : Variable := ⟨2, .continuous⟩
def demoYle : Fml := .rel .leq (.var demoY) (.const 3)
def demoXY : Box := ⟨[demoX, demoY], [⟨.fin 0, .fin 1⟩, ⟨.fin 0, .fin 10⟩], false⟩

/-- A proper subset is reported (as a list with repetitions): the absorbed bound is left out; the
same by the parallel search. -/
example : explOf (theoryCheck demoEnv demoTh [] 0 demoXY [demoYle, demoHump]) =
    some [demoHump, demoHump] := by decide +kernel
example : explOf (theoryCheck demoEnv { demoTh with jobs := 2, usePoly := true
                                                    sched := (List.range 60).map (· % 2) }
    [] 0 demoXY [demoYle, demoHump]) = some [demoHump, demoHump] := by decide +kernel
example : BoxWf demoXY ∧ LitsOk [demoYle, demoHump] demoXY.vars ∧ CacheOk demoXY.vars [] := by
  refine ⟨⟨rfl, by decide⟩, ⟨?_, ?_⟩, by simp [CacheOk]⟩
  · intro f hf; simp at hf
    rcases hf with rfl | rfl <;> simp [demoYle, demoHump, RcOkF, RcOkE]
  · intro f hf v hv; simp at hf
    rcases hf with rfl | rfl <;>
      simp [demoYle, demoHump, Fml.fv, Expr.vars] at hv <;> simp [demoXY, hv]

/-- A contractor cached before `y` was declared may be used afterwards. -/
example : ∃ c, litCtc demoHump demoUnit = .ok c ∧ CacheOk demoXY.vars [(demoHump, c)] := by
  have h : (litCtc demoHump demoUnit).isOk = true := by decide +kernel
  cases hc : litCtc demoHump demoUnit with
  | throw => rw [hc] at h; cases h
  | ub => rw [hc] at h; cases h
  | ok c =>
    refine ⟨c, rfl, fun f c' hf _ => ?_⟩
    simp only [List.mem_singleton, Prod.mk.injEq] at hf
    obtain ⟨rfl, rfl⟩ := hf
    refine ⟨demoUnit, hc, by decide, by simp [demoHump, Fml.isAll], fun _ v hv => ⟨0, ?_⟩⟩
    simp [demoHump, Fml.fv, Expr.vars] at hv
    simp [hv, demoUnit, demoXY]

/-- Where the claim fails, 1: the strict bound `x > 0` is read as "at least the next double", so
`{x > 0, x + x ≤ 1/4}` is reported as a conflict although `x = 1/8` satisfies both (for a number
format whose numbers are a quarter apart; for doubles the same happens between `0` and the
least positive double). -/
theorem C26_strict_gap : ∃ (cfg : TCfg) (b : Box) (f g : Fml) (c' : Cache) (t : Nat) (ρ : Valuation),
    DblOk cfg.dbl ∧ BoxWf b ∧ LitsOk [f, g] b.vars ∧
    theoryCheck demoEnv cfg [] 0 b [f, g] = .ok (.unsat [g, f], c', t) ∧
    InBox ρ b ∧ TypedOn ρ b.vars ∧
    ∀ I, holds I ρ f ∧ holds I ρ g := by
  let f : Fml := .rel .gt (.var demoX) (.const 0)
  let g : Fml := .rel .leq (.add (.var demoX) (.var demoX)) (.const (1/4))
  have key : explOf (theoryCheck demoEnv demoTh [] 0 demoUnit [f, g]) = some [g, f] := by
    decide +kernel
  unfold explOf at key
  split at key
  · rename_i e p hp
    simp only [Option.some.injEq] at key; subst key
    refine ⟨demoTh, demoUnit, f, g, p.1, p.2, fun _ => 1/8, quarterDbl_ok, ⟨rfl, by decide⟩,
      ⟨?_, ?_⟩, hp, ⟨rfl, ?_⟩, ?_, fun I => ⟨?_, ?_⟩⟩
    · intro h hh; simp at hh
      rcases hh with rfl | rfl <;> simp [f, g, RcOkF, RcOkE]
    · intro h hh v hv; simp at hh
      rcases hh with rfl | rfl <;> simp [f, g, Fml.fv, Expr.vars] at hv <;> simp [demoUnit, hv]
    · intro i v hv
      have : i = 0 := by
        simp only [demoUnit] at hv
        rcases i with _ | i
        · rfl
        · simp at hv
      subst this
      simp only [demoUnit, Box.get, List.getD_cons_zero, InItv, below, above]
      constructor <;> norm_num
    · intro v hv; simp [demoUnit] at hv; subst hv; trivial
    · simp only [f, holds, relSem, eval]; norm_num
    · simp only [g, holds, relSem, eval]; norm_num
  · cases key

/-- Where the claim fails, 2: the cache is keyed by the formula only.  A contractor built while
the declaration order was `y, x` is reused for a box with the order `x, y`, reads the interval of
`y` as that of `x`, and refutes `2x ≤ 1` although `x = 0` satisfies it. -/
theorem C26_stale_cache : ∃ (b0 b : Box) (f : Fml) (c0 c1 c' : Cache) (a : TAnswer) (t t' : Nat)
    (ρ : Valuation), BoxWf b0 ∧ BoxWf b ∧ (∀ v, v ∈ b0.vars ↔ v ∈ b.vars) ∧ LitsOk [f] b.vars ∧
    theoryCheck demoEnv demoTh [] 0 b0 [f] = .ok (a, c0, t) ∧
    theoryCheck demoEnv demoTh c0 t b [f] = .ok (.unsat [f], c', t') ∧
    (∃ m, theoryCheck demoEnv demoTh [] t b [f] = .ok (.sat m, c1, t')) ∧
    InBox ρ b ∧ TypedOn ρ b.vars ∧ ∀ I, holds I ρ f := by
  let f : Fml := .rel .leq (.mul (.const 2) (.var demoX)) (.const 1)
  let b0 : Box := ⟨[demoY, demoX], [⟨.fin 5, .fin 6⟩, ⟨.fin 0, .fin (1/10)⟩], false⟩
  let b : Box := ⟨[demoX, demoY], [⟨.fin 0, .fin (1/10)⟩, ⟨.fin 5, .fin 6⟩], false⟩
  have key : (do let r ← theoryCheck demoEnv demoTh [] 0 b0 [f]
                 let q ← theoryCheck demoEnv demoTh r.2.1 r.2.2 b [f]
                 let p ← theoryCheck demoEnv demoTh [] r.2.2 b [f]
                 match q.1, p.1 with
                 | .unsat e, .sat _ => if p.2.2 = q.2.2 then Run.ok e else .ub
                 | _, _ => .ub) = .ok [f] := by decide +kernel
  obtain ⟨⟨a, c0, t⟩, h1, h2⟩ := Proof.bindR_ok key
  obtain ⟨⟨q, c', t'⟩, h3, h4⟩ := Proof.bindR_ok h2
  obtain ⟨⟨p, c1, t''⟩, h5, h6⟩ := Proof.bindR_ok h4
  cases q with
  | sat m => simp at h6
  | unsat e =>
    cases p with
    | unsat e' => simp at h6
    | sat m =>
      simp only at h6
      split at h6
      · rename_i ht
        simp only [Run.ok.injEq] at h6; subst h6
        subst ht
        refine ⟨b0, b, f, c0, c1, c', a, t, t'', fun v => if v = demoX then 0 else 5,
          ⟨rfl, by decide⟩, ⟨rfl, by decide⟩, ?_, ⟨?_, ?_⟩, h1, h3, ⟨m, h5⟩, ⟨rfl, ?_⟩, ?_,
          fun I => ?_⟩
        · intro v; simp [b, b0, or_comm]
        · intro g hg; simp at hg; subst hg; simp [f, RcOkF, RcOkE]
        · intro g hg v hv; simp at hg; subst hg
          simp [f, Fml.fv, Expr.vars] at hv; simp [b, hv]
        · intro i v hv
          rcases i with _ | _ | i
          · simp [b] at hv; subst hv
            simp only [b, Box.get, List.getD_cons_zero, InItv, below, above, if_true]
            constructor <;> norm_num
          · simp [b] at hv; subst hv
            simp only [b, Box.get, List.getD_cons_succ, List.getD_cons_zero, InItv, below, above,
              demoY, demoX]
            constructor <;> norm_num
          · simp [b] at hv
        · intro v hv; simp [b] at hv; rcases hv with rfl | rfl <;> trivial
        · simp only [f, holds, relSem, eval, if_true]; norm_num
      · cases h6

end Verif.Props
