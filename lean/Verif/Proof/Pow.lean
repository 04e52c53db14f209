import Verif.Spec.ExprNorm

/-!
# Partial powers
-/

namespace Verif.Proof
open Verif.Model Verif.Spec

theorem pw_int (x : ℝ) (n : ℤ) : pw x n = if x = 0 ∧ n < 0 then none else some (x ^ n) := by
  unfold pw
  simp

theorem pw_zero (x : ℝ) : pw x 0 = some 1 := by
  have := pw_int x 0
  simpa using this

theorem pw_one (x : ℝ) : pw x 1 = some x := by
  have := pw_int x 1
  simpa using this

theorem pw_two (x : ℝ) : pw x 2 = some (x * x) := by
  have := pw_int x 2
  simp only [Int.cast_ofNat] at this
  rw [this, if_neg (by norm_num)]
  congr 1
  exact zpow_two x

/-- Powers of positive numbers. -/
theorem pw_pos {x : ℝ} (hx : 0 < x) (y : ℝ) : pw x y = some (x ^ y) := by
  unfold pw
  split_ifs with h1 h2
  · exact absurd h2.1 hx.ne'
  · rw [← Real.rpow_intCast, ← h1]
  · rfl

/-- Powers of zero. -/
theorem pw_base_zero {y a : ℝ} (h : pw 0 y = some a) :
    (y = 0 ∧ a = 1) ∨ (0 < y ∧ a = 0) := by
  unfold pw at h
  split_ifs at h with h1 h2 h3 h4
  · simp only [true_and, not_lt] at h2
    rcases h2.lt_or_eq with h3 | h3
    · refine Or.inr ⟨h3, ?_⟩
      simp only [Option.some.injEq] at h
      rw [← h, zero_zpow]
      rw [h1] at h3
      have : 0 < ⌊y⌋ := by exact_mod_cast h3
      omega
    · refine Or.inl ⟨h3.symm, ?_⟩
      subst h3
      simpa using h.symm
  · exact absurd h3 (lt_irrefl _)
  · simp only [Option.some.injEq] at h
    exact Or.inr ⟨h4.2, h.symm⟩

theorem pw_zero_pos {y : ℝ} (h : 0 < y) : pw 0 y = some 0 := by
  unfold pw
  split_ifs with h1 h2 h3 h4
  · exact absurd h2.2 h.not_gt
  · congr 1
    apply zero_zpow
    rw [h1] at h
    have : 0 < ⌊y⌋ := by exact_mod_cast h
    omega
  · exact absurd h3 (lt_irrefl _)
  · rfl
  · exact absurd ⟨rfl, h⟩ h4

/-- Powers of negative numbers. -/
theorem pw_neg {x y a : ℝ} (hx : x < 0) (h : pw x y = some a) : ∃ n : ℤ, y = n ∧ a = x ^ n := by
  unfold pw at h
  split_ifs at h with h1 h2 h3 h4
  · exact ⟨⌊y⌋, h1, by simpa using h.symm⟩
  · exact absurd h3 hx.not_gt
  · exact absurd h4.1 hx.ne

theorem pw_add {x p q a b : ℝ} (h : pw x p = some a) (k : pw x q = some b) :
    pw x (p + q) = some (a * b) := by
  rcases lt_trichotomy x 0 with hx | rfl | hx
  · obtain ⟨n, rfl, rfl⟩ := pw_neg hx h
    obtain ⟨m, rfl, rfl⟩ := pw_neg hx k
    rw [← Int.cast_add, pw_int, if_neg (fun hc => hx.ne hc.1), zpow_add₀ hx.ne]
  · rcases pw_base_zero h with ⟨rfl, rfl⟩ | ⟨h1, rfl⟩
    · simpa using k
    · rcases pw_base_zero k with ⟨rfl, rfl⟩ | ⟨h2, rfl⟩
      · simpa using h
      · simpa using pw_zero_pos (add_pos h1 h2)
  · rw [pw_pos hx] at h k ⊢
    simp only [Option.some.injEq] at h k ⊢
    rw [Real.rpow_add hx, h, k]

theorem pw_mul_int {x a b : ℝ} {m n : ℤ} (h : pw x m = some a) (k : pw a n = some b) :
    pw x (m * n) = some b := by
  rw [← Int.cast_mul, pw_int]
  rw [pw_int] at h k
  split_ifs at h with h1
  split_ifs at k with k1
  simp only [Option.some.injEq] at h k
  rw [if_neg, zpow_mul, h, k]
  rintro ⟨rfl, hc⟩
  simp only [true_and, not_lt] at h1
  rcases h1.lt_or_eq with h2 | h2
  · have hn : n < 0 := by
      by_contra hn
      push Not at hn
      exact absurd (mul_nonneg h1 hn) (not_le.mpr hc)
    refine k1 ⟨?_, hn⟩
    rw [← h, zero_zpow _ h2.ne']
  · rw [← h2] at hc; simp at hc

theorem isInt32_int {q : ℚ} (h : isInt32 q = true) : ∃ n : ℤ, q = n := by
  simp only [isInt32, decide_eq_true_eq] at h
  exact ⟨q.num, ((Rat.den_eq_one_iff q).mp h.2.2).symm⟩

theorem quo_some {x y z : ℝ} : quo x y = some z ↔ y ≠ 0 ∧ z = x / y := by
  unfold quo
  split_ifs with h
  · simp [h]
  · simp [h, eq_comm]

end Verif.Proof
