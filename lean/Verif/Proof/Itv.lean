import Verif.Spec.Box
import Mathlib.Algebra.Order.Archimedean.Real.Basic
import Mathlib.Tactic.Linarith
import Mathlib.Tactic.Push
import Mathlib.Tactic.NormNum

namespace Verif.Proof
open Verif.Model Verif.Spec

theorem below_mono {a b : EQ} {x : ℝ} (h : a ≤ b) (hb : below b x) : below a x := by
  cases a <;> cases b <;> simp_all [below]
  rename_i p q
  have : (p : ℝ) ≤ q := by exact_mod_cast h
  linarith

theorem above_mono {a b : EQ} {x : ℝ} (h : a ≤ b) (hb : above a x) : above b x := by
  cases a <;> cases b <;> simp_all [above]
  rename_i p q
  have : (p : ℝ) ≤ q := by exact_mod_cast h
  linarith

theorem below_trans {a : EQ} {x y : ℝ} (h : below a x) (hxy : x ≤ y) : below a y := by
  cases a <;> simp_all [below]; linarith

theorem above_trans {a : EQ} {x y : ℝ} (h : above a y) (hxy : x ≤ y) : above a x := by
  cases a <;> simp_all [above]; linarith

theorem below_le_above {a b : EQ} {x : ℝ} (ha : below a x) (hb : above b x) : a ≤ b := by
  cases a <;> cases b <;> simp_all [below, above]
  rename_i p q
  have : (p : ℝ) ≤ q := le_trans ha hb
  exact_mod_cast this

theorem below_max {a b : EQ} {x : ℝ} : below (max a b) x ↔ below a x ∧ below b x := by
  constructor
  · exact fun h => ⟨below_mono (le_max_left _ _) h, below_mono (le_max_right _ _) h⟩
  · rintro ⟨h1, h2⟩
    rcases max_choice a b with h | h <;> rw [h] <;> assumption

theorem above_min {a b : EQ} {x : ℝ} : above (min a b) x ↔ above a x ∧ above b x := by
  constructor
  · exact fun h => ⟨above_mono (min_le_left _ _) h, above_mono (min_le_right _ _) h⟩
  · rintro ⟨h1, h2⟩
    rcases min_choice a b with h | h <;> rw [h] <;> assumption

theorem not_isEmpty_iff {i : Itv} :
    i.isEmpty = false ↔ i.lb ≤ i.ub ∧ i.lb ≠ .pinf ∧ i.ub ≠ .ninf := by
  simp [Itv.isEmpty, and_assoc]

theorem not_isEmpty_of_in {i : Itv} {x : ℝ} (h : InItv x i) : i.isEmpty = false := by
  rw [not_isEmpty_iff]
  refine ⟨below_le_above h.1 h.2, ?_, ?_⟩
  · intro e; have := h.1; rw [e] at this; exact this
  · intro e; have := h.2; rw [e] at this; exact this

theorem exists_in_of_not_isEmpty {i : Itv} (h : i.isEmpty = false) : ∃ x : ℝ, InItv x i := by
  rw [not_isEmpty_iff] at h
  obtain ⟨lb, ub⟩ := i
  obtain ⟨h1, h2, h3⟩ := h
  cases lb <;> cases ub <;> simp_all [InItv, below, above]
  · exact ⟨_, le_refl _⟩
  · rename_i p q
    exact ⟨p, le_refl _, by exact_mod_cast h1⟩
  · exact ⟨_, le_refl _⟩

theorem not_in_of_isEmpty {i : Itv} (h : i.isEmpty = true) (x : ℝ) : ¬ InItv x i := by
  intro hx
  rw [not_isEmpty_of_in hx] at h
  cases h

theorem in_inter {i j : Itv} {x : ℝ} : InItv x (i.inter j) ↔ InItv x i ∧ InItv x j := by
  simp only [InItv, Itv.inter, below_max, above_min]
  tauto

theorem in_hull_left {i j : Itv} {x : ℝ} (h : InItv x i) : InItv x (i.hull j) := by
  unfold Itv.hull
  rw [not_isEmpty_of_in h]
  by_cases hj : j.isEmpty <;> simp [hj]
  · exact h
  · exact ⟨below_mono (min_le_left _ _) h.1, above_mono (le_max_left _ _) h.2⟩

theorem in_hull_right {i j : Itv} {x : ℝ} (h : InItv x j) : InItv x (i.hull j) := by
  unfold Itv.hull
  rw [not_isEmpty_of_in h]
  by_cases hi : i.isEmpty <;> simp [hi]
  · exact h
  · exact ⟨below_mono (min_le_right _ _) h.1, above_mono (le_max_right _ _) h.2⟩

theorem in_univ (x : ℝ) : InItv x Itv.univ := ⟨trivial, trivial⟩

theorem in_point {x : ℝ} {q : ℚ} : InItv x (Itv.point q) ↔ x = q := by
  simp only [InItv, Itv.point, below, above]
  exact ⟨fun h => le_antisymm h.2 h.1, fun h => ⟨h ▸ le_refl _, h ▸ le_refl _⟩⟩

theorem in_hasQ {i : Itv} {q : ℚ} : i.hasQ q = true ↔ InItv (q : ℝ) i := by
  obtain ⟨lb, ub⟩ := i
  cases lb <;> cases ub <;> simp [Itv.hasQ, InItv, below, above]

/-- Subset of intervals from the bounds. -/
theorem in_mono {i j : Itv} {x : ℝ} (hl : j.lb ≤ i.lb) (hu : i.ub ≤ j.ub) (h : InItv x i) :
    InItv x j := ⟨below_mono hl h.1, above_mono hu h.2⟩

theorem le_ceil (a : EQ) : a ≤ a.ceil := by
  cases a <;> simp [EQ.ceil]; exact Int.le_ceil _

theorem floor_le (a : EQ) : a.floor ≤ a := by
  cases a <;> simp [EQ.floor]; exact Int.floor_le _

theorem below_ceil {a : EQ} {n : ℤ} (h : below a n) : below a.ceil n := by
  cases a with
  | ninf => exact h
  | pinf => exact h
  | fin q =>
    simp only [below, EQ.ceil] at h ⊢
    have h' : q ≤ (n : ℚ) := by exact_mod_cast h
    have : ⌈q⌉ ≤ n := Int.ceil_le.mpr h'
    exact_mod_cast this

theorem above_floor {a : EQ} {n : ℤ} (h : above a n) : above a.floor n := by
  cases a with
  | ninf => exact h
  | pinf => exact h
  | fin q =>
    simp only [above, EQ.floor] at h ⊢
    have h' : (n : ℚ) ≤ q := by exact_mod_cast h
    have : n ≤ ⌊q⌋ := Int.le_floor.mpr h'
    exact_mod_cast this

end Verif.Proof
