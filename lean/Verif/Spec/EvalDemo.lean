import Verif.Spec.Eval
import Verif.Proof.Itv

/-!
# A concrete instance of the interval operations

Exact interval sum and product on bounded intervals, the whole line otherwise; used for the
concrete cases beside the theorems.
-/

namespace Verif.Spec
open Verif Verif.Model Verif.Proof

/-- Exact sum and product of bounded intervals; everything else is over-approximated by the
whole line. -/
def demoOps : IOps where
  add := fun i j => match i, j with
    | ⟨.fin a, .fin b⟩, ⟨.fin c, .fin d⟩ => ⟨.fin (a + c), .fin (b + d)⟩
    | _, _ => Itv.univ
  mul := fun i j => match i, j with
    | ⟨.fin a, .fin b⟩, ⟨.fin c, .fin d⟩ =>
      ⟨.fin (min (min (a * c) (a * d)) (min (b * c) (b * d))),
       .fin (max (max (a * c) (a * d)) (max (b * c) (b * d)))⟩
    | _, _ => Itv.univ
  fn1 := fun _ _ => Itv.univ
  fn2 := fun _ _ _ => Itv.univ
  sqr := fun _ => Itv.univ
  powInt := fun _ _ => Itv.univ
  powQ := fun _ _ => Itv.univ

private theorem mul_between {a b x t : ℝ} (h1 : a ≤ x) (h2 : x ≤ b) :
    min (a * t) (b * t) ≤ x * t ∧ x * t ≤ max (a * t) (b * t) := by
  rcases le_total 0 t with h | h
  · exact ⟨(min_le_left _ _).trans (mul_le_mul_of_nonneg_right h1 h),
      (mul_le_mul_of_nonneg_right h2 h).trans (le_max_right _ _)⟩
  · exact ⟨(min_le_right _ _).trans (mul_le_mul_of_nonpos_right h2 h),
      (mul_le_mul_of_nonpos_right h1 h).trans (le_max_left _ _)⟩

theorem demoOps_ok (D : Dom) (I : Interp) : IOpsOk D I demoOps where
  add := by
    rintro ⟨l, u⟩ ⟨l', u'⟩ x y hx hy
    cases l <;> cases u <;> cases l' <;> cases u' <;> try exact in_univ _
    simp only [InItv, below, above, demoOps] at *
    push_cast
    exact ⟨add_le_add hx.1 hy.1, add_le_add hx.2 hy.2⟩
  mul := by
    rintro ⟨l, u⟩ ⟨l', u'⟩ x y hx hy
    cases l <;> cases u <;> cases l' <;> cases u' <;> try exact in_univ _
    rename_i a b c d
    simp only [InItv, below, above, demoOps] at *
    push_cast
    have h := mul_between (t := y) hx.1 hx.2
    have ha := mul_between (t := (a : ℝ)) hy.1 hy.2
    have hb := mul_between (t := (b : ℝ)) hy.1 hy.2
    rw [mul_comm (c : ℝ), mul_comm (d : ℝ), mul_comm y] at ha hb
    exact ⟨(min_le_min ha.1 hb.1).trans h.1, h.2.trans (max_le_max ha.2 hb.2)⟩
  fn1 := fun _ _ _ _ _ => (in_univ _)
  fn2 := fun _ _ _ _ _ _ _ _ => (in_univ _)
  sqr := fun _ _ _ _ => (in_univ _)
  powInt := fun _ _ _ _ _ => (in_univ _)
  powQ := fun _ _ _ _ _ => (in_univ _)

theorem exactFp_diamOk : DiamOk exactFp := by
  rintro ⟨l, u⟩ d hne hd
  cases l <;> cases u <;> simp [exactFp, hne] at hd
  rename_i l u
  exact ⟨l, u, rfl, by linarith⟩

end Verif.Spec
