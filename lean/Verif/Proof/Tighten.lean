import Verif.Proof.ModelVars
import Verif.Proof.Eval
import Verif.Spec.Tighten

/-! # The last step of a check: tightening the box -/

namespace Verif.Proof
open Verif Verif.Model Verif.Spec

theorem inItv_point {x : ℝ} {q : ℚ} : InItv x (Itv.point q) ↔ x = q := by
  simp only [InItv, Itv.point, below, above]
  constructor
  · rintro ⟨h1, h2⟩; exact le_antisymm h2 h1
  · rintro rfl; exact ⟨le_rfl, le_rfl⟩

theorem toInt_cases {q n} (h : toInt q = .ok n) : n = ⌊q⌋ ∧ 0 ≤ q ∨ n = ⌈q⌉ ∧ q < 0 := by
  unfold toInt at h
  simp only at h
  by_cases hq : 0 ≤ q
  · rw [if_pos hq] at h
    split at h
    · simp only [Outcome.ok.injEq] at h; exact .inl ⟨h.symm, hq⟩
    · cases h
  · rw [if_neg hq] at h
    split at h
    · simp only [Outcome.ok.injEq] at h; exact .inr ⟨h.symm, not_le.mp hq⟩
    · cases h

theorem width_fin {l u : ℚ} {w : ℝ} (h : ((u - l : ℚ) : ℝ) ≤ w) {x y : ℝ}
    (hx : InItv x ⟨.fin l, .fin u⟩) (hy : InItv y ⟨.fin l, .fin u⟩) : |x - y| ≤ w := by
  simp only [InItv, below, above] at hx hy
  push_cast at h
  rw [abs_le]
  constructor <;> linarith [hx.1, hx.2, hy.1, hy.2]

theorem inItv_inter {x : ℝ} {i j : Itv} : InItv x (i.inter j) ↔ InItv x i ∧ InItv x j := by
  obtain ⟨a, b⟩ := i
  obtain ⟨c, d⟩ := j
  have h1 : below (max a c) x ↔ below a x ∧ below c x := by
    rcases le_total a c with h | h
    · rw [max_eq_right h]
      refine ⟨fun hc => ⟨?_, hc⟩, fun h => h.2⟩
      cases a <;> cases c <;> simp_all [below]
      exact le_trans (by exact_mod_cast h) hc
    · rw [max_eq_left h]
      refine ⟨fun hc => ⟨hc, ?_⟩, fun h => h.1⟩
      cases a <;> cases c <;> simp_all [below]
      exact le_trans (by exact_mod_cast h) hc
  have h2 : above (min b d) x ↔ above b x ∧ above d x := by
    rcases le_total b d with h | h
    · rw [min_eq_left h]
      refine ⟨fun hc => ⟨hc, ?_⟩, fun h => h.1⟩
      cases b <;> cases d <;> simp_all [above]
      exact le_trans hc (by exact_mod_cast h)
    · rw [min_eq_right h]
      refine ⟨fun hc => ⟨?_, hc⟩, fun h => h.2⟩
      cases b <;> cases d <;> simp_all [above]
      exact le_trans hc (by exact_mod_cast h)
  simp only [InItv, Itv.inter, h1, h2]
  tauto

theorem tighten1_width {fp rnd} {δ w : ℚ} (hd : DiamOk fp) (hw : δ ≤ w) (h0 : 0 ≤ w)
    (hr : ∀ q, rnd (q + δ / 2) - rnd (q - δ / 2) ≤ w) {t iv iv'} (hne : iv.isEmpty = false)
    (h : tighten1 fp rnd δ t iv = .ok iv') {x y : ℝ} (hx : InItv x iv') (hy : InItv y iv') :
    |x - y| ≤ w := by
  unfold tighten1 at h
  split at h
  · have pt : ∀ q : ℚ, iv' = Itv.point q → |x - y| ≤ w := by
      rintro q rfl
      rw [inItv_point.mp hx, inItv_point.mp hy, sub_self, abs_zero]; exact_mod_cast h0
    cases t with
    | binary => simp only [Outcome.ok.injEq] at h; exact pt 1 h.symm
    | boolean => simp only [Outcome.ok.injEq] at h; exact pt 1 h.symm
    | integer =>
      simp only at h
      obtain ⟨n, -, h2⟩ := bindO_ok h
      simp only [Outcome.ok.injEq] at h2
      exact pt n h2.symm
    | continuous =>
      simp only [Outcome.ok.injEq] at h; subst h
      exact width_fin (by exact_mod_cast hr (fp.mid iv)) (inItv_inter.mp hx).2 (inItv_inter.mp hy).2
  · rename_i hdm
    simp only [Outcome.ok.injEq] at h; subst h
    obtain ⟨l, u, rfl, hlu⟩ := hd iv δ hne (not_lt.mp hdm)
    exact width_fin (by exact_mod_cast le_trans hlu hw) hx hy

theorem inItv_of_hasQ {iv : Itv} {q : ℚ} (h1 : iv.lb ≤ .fin q) (h2 : .fin q ≤ iv.ub) :
    InItv (q : ℝ) iv := by
  obtain ⟨l, u⟩ := iv
  simp only [InItv] at *
  constructor
  · cases l <;> simp_all [below]
  · cases u <;> simp_all [above]

theorem tighten1_cont {fp rnd} {δ : ℚ} (hm : MidIn fp)
    (hr : ∀ q, rnd (q - δ / 2) ≤ q ∧ q ≤ rnd (q + δ / 2)) {iv iv'} (hne : iv.isEmpty = false)
    (h : tighten1 fp rnd δ .continuous iv = .ok iv') :
    (∀ x, InItv x iv' → InItv x iv) ∧ ∃ x, InItv x iv' := by
  unfold tighten1 at h
  have hmid : InItv (fp.mid iv : ℝ) iv := inItv_of_hasQ (hm iv hne).1 (hm iv hne).2
  split at h
  · simp only [Outcome.ok.injEq] at h; subst h
    refine ⟨fun x hx => (inItv_inter.mp hx).1, fp.mid iv, inItv_inter.mpr ⟨hmid, ?_⟩⟩
    simp only [InItv, below, above]
    exact ⟨by exact_mod_cast (hr (fp.mid iv)).1, by exact_mod_cast (hr (fp.mid iv)).2⟩
  · simp only [Outcome.ok.injEq] at h; subst h
    exact ⟨fun _ h => h, _, hmid⟩

theorem trunc_between {q : ℚ} {n l : ℤ} (h : n = ⌊q⌋ ∧ 0 ≤ q ∨ n = ⌈q⌉ ∧ q < 0) :
    ((l : ℚ) ≤ q → l ≤ n) ∧ (q ≤ (l : ℚ) → n ≤ l) := by
  rcases h with ⟨rfl, h0⟩ | ⟨rfl, h0⟩
  · refine ⟨fun h => Int.le_floor.mpr h, fun h => ?_⟩
    have := Int.floor_le q
    exact_mod_cast le_trans this h
  · refine ⟨fun h => ?_, fun h => Int.ceil_le.mpr h⟩
    have := Int.le_ceil q
    exact_mod_cast le_trans h this

theorem tighten1_integer {fp rnd} {δ : ℚ} (hd : DiamOk fp) (hm : MidIn fp) (hδ : δ < 1)
    {l u : ℤ} (hlu : l ≤ u) {iv'}
    (h : tighten1 fp rnd δ .integer ⟨.fin l, .fin u⟩ = .ok iv') :
    ∃ n : ℤ, l ≤ n ∧ n ≤ u ∧ iv' = Itv.point n := by
  have hne : (Itv.mk (.fin l) (.fin u)).isEmpty = false := by
    simp [Itv.isEmpty, hlu]
  unfold tighten1 at h
  split at h
  · simp only at h
    obtain ⟨n, h1, h2⟩ := bindO_ok h
    simp only [Outcome.ok.injEq] at h2; subst h2
    obtain ⟨m1, m2⟩ := hm _ hne
    simp only [EQ.fin_le_fin] at m1 m2
    have := toInt_cases h1
    exact ⟨n, (trunc_between this).1 m1, (trunc_between this).2 m2, rfl⟩
  · rename_i hdm
    simp only [Outcome.ok.injEq] at h; subst h
    obtain ⟨a, b, he, hab⟩ := hd _ δ hne (not_lt.mp hdm)
    simp only [Itv.mk.injEq, EQ.fin.injEq] at he
    obtain ⟨rfl, rfl⟩ := he
    have h1 : (u - l : ℚ) < 1 := lt_of_le_of_lt hab hδ
    have h2 : u - l < 1 := by exact_mod_cast h1
    have : u = l := by omega
    subst this
    exact ⟨u, le_rfl, le_rfl, rfl⟩

theorem tighten1_binary {fp rnd} {δ : ℚ} (hd : DiamOk fp) (hp : ∀ q, fp.diam (Itv.point q) = .fin 0)
    (h0 : 0 ≤ δ) (hδ : δ < 1) {t} (ht : t = .binary ∨ t = .boolean)
    {l u : ℤ} (hl : 0 ≤ l) (hlu : l ≤ u) (hu : u ≤ 1) {iv'}
    (h : tighten1 fp rnd δ t ⟨.fin l, .fin u⟩ = .ok iv') :
    ∃ n : ℤ, l ≤ n ∧ n ≤ u ∧ iv' = Itv.point n := by
  have hne : (Itv.mk (.fin l) (.fin u)).isEmpty = false := by
    simp [Itv.isEmpty, hlu]
  unfold tighten1 at h
  split at h
  · rename_i hdm
    have hl1 : u = 1 := by
      by_contra hne
      have : u = l := by omega
      subst this
      have := hp u
      unfold Itv.point at this
      rw [this, EQ.fin_lt_fin] at hdm
      exact absurd hdm (not_lt.mpr h0)
    refine ⟨1, by omega, by omega, ?_⟩
    rcases ht with rfl | rfl <;> (simp only [Outcome.ok.injEq] at h; subst h; simp)
  · rename_i hdm
    simp only [Outcome.ok.injEq] at h; subst h
    obtain ⟨a, b, he, hab⟩ := hd _ δ hne (not_lt.mp hdm)
    simp only [Itv.mk.injEq, EQ.fin.injEq] at he
    obtain ⟨rfl, rfl⟩ := he
    have h1 : (u - l : ℚ) < 1 := lt_of_le_of_lt hab hδ
    have h2 : u - l < 1 := by exact_mod_cast h1
    have : u = l := by omega
    subst this
    exact ⟨u, le_rfl, le_rfl, rfl⟩

end Verif.Proof
