import Verif.Spec.Box

/-! # What `Tighten` needs of the interval library -/

namespace Verif.Spec
open Verif.Model

/-- `mid()` of an interval that is not empty lies in it. -/
def MidIn (fp : Fp) : Prop :=
  ∀ i : Itv, i.isEmpty = false → i.lb ≤ .fin (fp.mid i) ∧ .fin (fp.mid i) ≤ i.ub

theorem exactFp_midIn : MidIn exactFp := by
  rintro ⟨l, u⟩ h
  cases l <;> cases u <;> simp_all [Itv.isEmpty, exactFp] <;> constructor <;> linarith

end Verif.Spec
