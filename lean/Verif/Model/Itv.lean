import Mathlib.Data.Rat.Floor
import Mathlib.Order.Lattice

/-!
# Interval end points and intervals

The interval type is `ibex::Interval` (`dreal/util/box.h:34`, an external library).  A bound is
a double in the code; here it is a rational or an infinity (`NaN` never is a bound of an IBEX
interval).
-/

namespace Verif.Model

/-- An interval bound: a double of `ibex::Interval` (`dreal/util/box.h:34`), with the finite
doubles generalised to rationals. -/
inductive EQ where
  | ninf
  | fin (q : ℚ)
  | pinf
deriving DecidableEq, Repr

namespace EQ

instance : Inhabited EQ := ⟨.fin 0⟩

/-- `<=` on doubles without `NaN`. -/
def ble : EQ → EQ → Bool
  | .ninf, _ => true
  | _, .pinf => true
  | .fin p, .fin q => decide (p ≤ q)
  | _, _ => false

instance : LE EQ := ⟨fun a b => ble a b = true⟩
instance : DecidableLE EQ := fun a b => inferInstanceAs (Decidable (ble a b = true))

theorem le_def (a b : EQ) : a ≤ b ↔ ble a b = true := Iff.rfl

instance : LinearOrder EQ where
  le_refl a := by cases a <;> simp [le_def, ble]
  le_trans a b c := by
    cases a <;> cases b <;> cases c <;> simp [le_def, ble]
    exact le_trans
  le_antisymm a b := by
    cases a <;> cases b <;> simp [le_def, ble]
    exact le_antisymm
  le_total a b := by
    cases a <;> cases b <;> simp [le_def, ble]
    exact le_total _ _
  toDecidableLE := inferInstance
  toDecidableEq := inferInstance

@[simp] theorem ninf_le (a : EQ) : EQ.ninf ≤ a := by cases a <;> rfl
@[simp] theorem le_pinf (a : EQ) : a ≤ EQ.pinf := by cases a <;> rfl
@[simp] theorem fin_le_fin (p q : ℚ) : EQ.fin p ≤ EQ.fin q ↔ p ≤ q := by simp [le_def, ble]
@[simp] theorem fin_le_ninf (p : ℚ) : ¬ EQ.fin p ≤ EQ.ninf := by simp [le_def, ble]
@[simp] theorem pinf_le_fin (p : ℚ) : ¬ EQ.pinf ≤ EQ.fin p := by simp [le_def, ble]
@[simp] theorem pinf_le_ninf : ¬ EQ.pinf ≤ EQ.ninf := by simp [le_def, ble]
@[simp] theorem fin_lt_fin (p q : ℚ) : EQ.fin p < EQ.fin q ↔ p < q := by
  rw [← not_le, ← not_le, fin_le_fin]
@[simp] theorem ninf_lt_fin (p : ℚ) : EQ.ninf < EQ.fin p := by rw [← not_le]; simp
@[simp] theorem fin_lt_pinf (p : ℚ) : EQ.fin p < EQ.pinf := by rw [← not_le]; simp

/-- `std::ceil` on a double. -/
def ceil : EQ → EQ
  | .fin q => .fin ⌈q⌉
  | a => a

/-- `std::floor` on a double. -/
def floor : EQ → EQ
  | .fin q => .fin ⌊q⌋
  | a => a

/-- `is_integer(double)` (`dreal/util/math.cc:29-37`): in the range of `int` and without
fractional part. -/
def isInt : EQ → Bool
  | .fin q => decide (-2147483648 ≤ q) && decide (q ≤ 2147483647) && decide ((⌊q⌋ : ℚ) = q)
  | _ => false

end EQ

/-- `Box::Interval` = `ibex::Interval` (`dreal/util/box.h:34`).  Simplified: the library keeps
the empty set in one canonical form; here every pair of bounds that no real lies between is
empty. -/
structure Itv where
  lb : EQ
  ub : EQ
deriving DecidableEq, Repr

namespace Itv

/-- `Interval::ALL_REALS`, the default interval (`dreal/util/box.cc:84`, `values_.resize`). -/
def univ : Itv := ⟨.ninf, .pinf⟩

instance : Inhabited Itv := ⟨univ⟩

/-- The degenerate interval made from one double (implicit `Interval(double)`). -/
def point (q : ℚ) : Itv := ⟨.fin q, .fin q⟩

/-- `Interval::is_empty`. -/
def isEmpty (i : Itv) : Bool :=
  decide (i.ub < i.lb) || decide (i.lb = .pinf) || decide (i.ub = .ninf)

/-- `Interval::EMPTY_SET`. -/
def empty : Itv := ⟨.pinf, .ninf⟩

/-- `Interval::operator&`. -/
def inter (i j : Itv) : Itv := ⟨max i.lb j.lb, min i.ub j.ub⟩

/-- `Interval::operator|` (convex hull). -/
def hull (i j : Itv) : Itv :=
  if i.isEmpty then j else if j.isEmpty then i else ⟨min i.lb j.lb, max i.ub j.ub⟩

/-- `Interval::contains(double)`. -/
def hasQ (i : Itv) (q : ℚ) : Bool := decide (i.lb ≤ .fin q) && decide (.fin q ≤ i.ub)

end Itv

/-- The floating-point choices of the IBEX interval class that the code relies on:
`mid()`, the split point of `bisect(0.5)` and `diam()`.  They are parameters of the model. -/
structure Fp where
  mid : Itv → ℚ
  cut : Itv → ℚ
  diam : Itv → EQ

/-- `Interval::is_bisectable`: not empty, and the midpoint is strictly inside. -/
def Fp.bisectable (fp : Fp) (i : Itv) : Bool :=
  !i.isEmpty && decide (i.lb < .fin (fp.mid i)) && decide (.fin (fp.mid i) < i.ub)

end Verif.Model
