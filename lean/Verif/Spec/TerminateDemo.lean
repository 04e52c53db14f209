import Verif.Spec.Terminate
import Verif.Spec.ContractorDemo

/-!
# Concrete cases for the end of the search
-/

namespace Verif.Spec
open Verif Verif.Model

/-! ## Few bounds -/

/-- The integers from -4 to 4. -/
def gridInts : List ℤ := [-4, -3, -2, -1, 0, 1, 2, 3, 4]

/-- The bounds: these, and the infinities. -/
def gridG : Finset EQ := insert .ninf (insert .pinf (gridInts.map fun k : ℤ => EQ.fin k).toFinset)

/-- An integer strictly inside the interval, if there is one. -/
def gridPick (i : Itv) : ℤ :=
  (gridInts.find? fun k : ℤ => decide (i.lb < .fin (k : ℚ)) && decide (.fin (k : ℚ) < i.ub)).getD 0

/-- Split there. -/
def gridFp : Fp where
  mid := fun i => gridPick i
  cut := fun i => gridPick i
  diam := exactFp.diam

/-- Interval evaluation only, which empties a box or leaves it. -/
def gridIbex : Ibex where
  bwd := demoRefute
  poly := fun _ b => b
  term := fun a b => decide (a = b)
  forallC := fun _ _ _ b => .ok (b, [])

/-! ## A work list that is never empty -/

/-- Two integer variables; the interval of the first goes beyond the range of `int`. -/
def hangN : Variable := ⟨3, .integer⟩
def hangM : Variable := ⟨5, .integer⟩
def hangBox : Box := ⟨[hangN, hangM], [⟨.fin 0, .fin 3000000000⟩, ⟨.fin (1 / 2), .fin 10⟩], false⟩
/-- The box after rounding. -/
def hangRes : Box := ⟨[hangN, hangM], [⟨.fin 0, .fin 3000000000⟩, ⟨.fin 1, .fin 10⟩], false⟩
/-- `n * m ≠ 1`, for which there is no contractor. -/
def hangLit : Fml := .rel .neq (.mul (.var hangN) (.var hangM)) (.const 1)

end Verif.Spec
