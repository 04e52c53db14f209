import Verif.Props.TerminateForall
import Verif.Proof.TerminateMin

/-!
# C67: the check after Minimize ends
-/

namespace Verif.Props
open Verif Verif.Model Verif.Spec Verif.Proof

/-- `Minimize` ends, whatever the context and the objectives, and so does the check of the context that
it leaves, if the objectives and the earlier calls are as in `C55_unsat_partial` (but the terms need
not have values) and the conditions of `C67_quantified_partial` are met.  Missing: these conditions. -/
theorem C67_minimum_partial (G : Finset EQ) (D : Dom) (I : Interp) (cfg : CCfg)
    (hd : DblOk cfg.th.dbl) (hp : PicosatOk cfg.ps) (he : EnvOk D I cfg.env)
    (hG : GridOps G cfg.env.ib) (hbr : BranchGrid G cfg.env.brancher)
    (h0 : EQ.fin 0 ∈ G) (h1 : EQ.fin 1 ∈ G) (k : Books) (c : Ctx) (objs : List Expr)
    (hk : PosesExact cfg k c) (hobj : ∀ f ∈ objs, IteFreeE f ∧ WfE k.top.Declared f) :
    minimize cfg c objs ≠ .oof ∧ ∀ c1, minimize cfg c objs = .ok c1 →
      EvalEnds G cfg.env c1.box.vars (c1.sat.abs.table.map (·.2)) →
      ParTurns G cfg.env cfg.th c1.box.vars.length → Bounded G c1.box → IntsSized c1.box →
      (∀ p ∈ c1.sat.abs.table, p.2 ≠ .tt ∧ p.2 ≠ .ff) →
      (∀ p ∈ c1.sat.abs.table, ∀ b : Bool, LitGrid G cfg.th.dbl (if b then p.2 else notF p.2) ∧
        ¬ IntStrict (if b then p.2 else notF p.2)) →
      pruneBound G c1.box.vars.length (c1.sat.maxVar + 2) ≤ cfg.env.fuel →
      searchBound G c1.box.vars.length ≤ cfg.th.fuel →
      3 ^ (c1.sat.maxVar + 1) < cfg.rounds → checkSat cfg c1 ≠ .oof := by
  refine ⟨?_, fun c1 hm hev hj hb hz hat hlg hpr hs hr => ?_⟩
  · exact run_bind_oof (C36_stops _ _ _ _) fun _ _ => lift_oof _
  · obtain ⟨k1, hk1⟩ := minimize_poses he hd hp hk hobj hm
    exact C67_quantified_partial G D I cfg hd hp he hG hbr h0 h1 k1 c1 hev hj hk1 hb hz hat
      (fun p hp b => (hlg p hp b).1) (fun _ p hp b => (hlg p hp b).2) hpr hs hr

/-! ## A case -/

/-- The context with `x` in `[0, 4]`. -/
def least1 : Ctx := after gridCfg (after gridCfg (Ctx.init 10) (.declare varX true))
  (.setInterval varX (.fin 0) (.fin 4))

/-- What the objective `x` adds: `z = x`, and `z ≤ y` for all `y` in `[0, 4]`. -/
def leastP : Fml := .disj [.neg (.rel .leq (.const 0) (.var ⟨10, .continuous⟩)),
  .neg (.rel .leq (.var ⟨10, .continuous⟩) (.const 4)),
  .rel .leq (.var ⟨11, .continuous⟩) (.var ⟨10, .continuous⟩)]
def leastQ : Fml := .disj [.rel .gt (.const 0) (.var ⟨10, .continuous⟩),
  .rel .gt (.var ⟨10, .continuous⟩) (.const 4),
  .rel .leq (.var ⟨11, .continuous⟩) (.var ⟨10, .continuous⟩)]
def leastPsi : Fml := .conj [.rel .eq (.var ⟨11, .continuous⟩) (.var varX),
  .all [⟨10, .continuous⟩] leastP]

theorem least_psi : minimizePsi least1.sat.abs.next least1.box least1.stack.vec [.var varX] =
    .ok (leastPsi, [⟨11, .continuous⟩], 12) := by decide +kernel

theorem least_tseitin : tseitin 12 leastPsi =
    .ok ([.rel .eq (.var ⟨11, .continuous⟩) (.var varX), .all [⟨10, .continuous⟩] leastQ], 13) ∧
    tseitinKeys 12 leastPsi = [12] := by
  have h2 : naiveCnf leastP = .ok leastQ := by
    have : nnf true leastP = leastQ := by decide +kernel
    rw [naiveCnf, this]
    simp only [naiveVisit, naiveVisitList, leastQ, Outcome.bind_ok]
    decide +kernel
  constructor
  · simp only [tseitin, tsVisit, tsVisitList, leastPsi, h2, Outcome.bind_ok]
    decide +kernel
  · simp only [tseitinKeys, tsVisit, tsVisitList, leastPsi, h2, Outcome.bind_ok]
    decide +kernel

/-- The context with the variable of the objective. -/
def least2 : Ctx :=
  let c := least1.setBox (addToBox least1.box ⟨11, .continuous⟩)
  { c with sat := { c.sat with abs := { c.sat.abs with next := 12 } } }

/-- The SAT solver with the clauses of the objective. -/
def leastSat : Outcome SatState :=
  let a := absVisitList [.rel .eq (.var ⟨11, .continuous⟩) (.var varX), .all [⟨10, .continuous⟩] leastQ]
    { least2.sat.abs with next := 13 }
  addClauses { least2.sat with abs := a.2, tseitinVars := least2.sat.tseitinVars.insert 12 } a.1

def least3 : Ctx :=
  match leastSat with
  | .ok s => { (least2.setBox least2.box).setBox (least2.setBox least2.box).box with
      stack := least2.stack.pushBack leastPsi, sat := s }
  | _ => least2

theorem least_minimize : minimize gridCfg least1 [.var varX] = .ok least3 := by
  obtain ⟨s, hs⟩ : ∃ s, leastSat = .ok s := by
    have : (match leastSat with | .ok _ => true | _ => false) = true := by decide +kernel
    split at this
    · exact ⟨_, by assumption⟩
    · cases this
  have h2 : Filter.filter gridCfg.th.dbl leastPsi least2.box = .ok (.notFiltered, least2.box) := by
    decide +kernel
  have h3 : least2.box.empty = false ∧ least2.box.bot = false := by decide +kernel
  have h4 : iteProcess (least2.setBox least2.box).sat.abs.next leastPsi = (leastPsi, [], 12) := by
    decide +kernel
  have h5 : addFormula least2.sat leastPsi = .ok s := by
    rw [addFormula, show least2.sat.abs.next = 12 from rfl, least_tseitin.1, least_tseitin.2, ← hs]
    rfl
  have h6 : assertF gridCfg least2 leastPsi = .ok least3 := by
    unfold assertF
    rw [if_neg (by simp [leastPsi]), h3.1, if_neg (by decide), if_neg (by simp [leastPsi]), h2,
      Outcome.bind_ok]
    simp only [h3.2, Bool.false_eq_true, if_false, h4, List.foldl_nil]
    have : addFormula { ((least2.setBox least2.box).setBox (least2.setBox least2.box).box).sat with
        abs := { ((least2.setBox least2.box).setBox (least2.setBox least2.box).box).sat.abs with
          next := 12 } } leastPsi = .ok s := h5
    rw [this, Outcome.bind_ok]
    unfold least3
    rw [hs]
    rfl
  rw [minimize, least_psi, Run.bind_ok]
  exact congrArg Run.lift h6

/-- The least `x` in `[0, 4]`: the check after `Minimize` ends. -/
example (D : Dom) (I : Interp) : ∃ k, PosesExact gridCfg k least1 ∧
    minimize gridCfg least1 [.var varX] = .ok least3 ∧ least3.sat.abs.table.map (·.2) =
      [.rel .eq (.var ⟨11, .continuous⟩) (.var varX), .all [⟨10, .continuous⟩] leastQ] ∧
    checkSat gridCfg least3 ≠ .oof := by
  have h0 : PosesExact gridCfg { made := [varX] } (Ctx.init 10) := .init _ _ (by decide)
  have h1 := PosesExact.step (cmd := .declare varX true) (a := []) h0
    ⟨by simp, .inr ⟨by simp, id⟩⟩ (.inl rfl) rfl
  have h2 := PosesExact.step (cmd := .setInterval varX (.fin 0) (.fin 4)) (a := []) (c' := least1) h1
    ⟨⟨newItv varX.type, by decide +kernel⟩, .inl rfl⟩ rfl rfl
  have et : least3.sat.abs.table.map (·.2) = [.rel .eq (.var ⟨11, .continuous⟩) (.var varX),
    .all [⟨10, .continuous⟩] leastQ] := by decide +kernel
  have eb : least3.box = ⟨[varX, ⟨11, .continuous⟩], [⟨.fin 0, .fin 4⟩, ⟨.ninf, .pinf⟩], false⟩ := by
    decide +kernel
  have em : least3.sat.maxVar ≤ 8 := by decide +kernel
  have ea : ∀ p ∈ least3.sat.abs.table, p.2 = .rel .eq (.var ⟨11, .continuous⟩) (.var varX) ∨
      p.2 = .all [⟨10, .continuous⟩] leastQ := by
    intro p hp
    have := List.mem_map_of_mem (f := (·.2)) hp
    rw [et] at this
    simpa using this
  have el : ∀ p ∈ least3.sat.abs.table, ∀ b : Bool, asBound (if b then p.2 else notF p.2) = none := by
    intro p hp b
    rcases ea p hp with e | e <;> rw [e] <;> cases b <;> decide +kernel
  refine ⟨_, h2, least_minimize, et, ?_⟩
  refine (C67_minimum_partial gridG D I gridCfg quarterDbl_ok demoSat_ok (gridCfg_ok D I) gridIbex_ops
    grid_brancher (by decide +kernel) (by decide +kernel) _ least1 [.var varX] h2 ?_).2 least3
    least_minimize (fun _ _ _ _ _ _ => by simp [gridCfg, gridEnv]) (fun h => absurd h (by decide))
    ?_ ?_ ?_ ?_ ?_ ?_ ?_
  · intro f hf
    rw [List.mem_singleton] at hf
    subst hf
    exact ⟨trivial, by decide, ⟨.fin 0, .fin 4⟩, .head _⟩
  · rw [eb]
    intro _ iv h
    simp only [List.mem_cons, List.not_mem_nil, or_false] at h
    rcases h with rfl | rfl <;> exact ⟨by decide +kernel, by decide +kernel⟩
  · rw [eb]
    rintro _ i ⟨v, h, ht⟩
    have : i < 2 := (List.getElem?_eq_some_iff.mp h).1
    obtain rfl | rfl : i = 0 ∨ i = 1 := by omega
    all_goals
      cases h
      rcases ht with h | h <;> cases h
  · intro p hp
    rcases ea p hp with e | e <;> rw [e] <;> constructor <;> (intro h; cases h)
  · intro p hp b
    refine ⟨fun v op lo hi ex h => ?_, ?_⟩
    · rw [el p hp b] at h; cases h
    · rintro ⟨v, op, lo, hi, ex, h, -⟩
      rw [el p hp b] at h; cases h
  · rw [eb]
    exact Nat.mul_le_mul_left _ (by omega)
  · rw [eb]; exact le_rfl
  · exact lt_of_le_of_lt (Nat.pow_le_pow_right (by decide) (Nat.add_le_add_right em 1)) (by decide)

end Verif.Props
