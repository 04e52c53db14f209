import Verif.Spec.Diff
import Verif.Proof.ExprNorm
import Mathlib.Analysis.SpecialFunctions.Pow.Deriv
import Mathlib.Analysis.SpecialFunctions.Sqrt
import Mathlib.Analysis.SpecialFunctions.Trigonometric.ArctanDeriv
import Mathlib.Analysis.SpecialFunctions.Trigonometric.InverseDeriv
import Mathlib.Analysis.SpecialFunctions.Complex.LogDeriv
import Mathlib.Analysis.Calculus.Deriv.ZPow
import Mathlib.Tactic.FieldSimp

/-!
# The derivatives have the values of the derivatives
-/

namespace Verif.Proof
open Verif.Model Verif.Spec
open scoped Topology

/-! ## Expressions without the variable -/

section Const
variable {x : Nat} {w : ℝ → CVal} (hw : Along x w)
include hw

mutual
theorem ev_along (s t : ℝ) : ∀ e : Cell, e.occurs x = false → ev (w s) e = ev (w t) e
  | .const _, _ => rfl
  | .rconst .., _ => by simp only [ev, hw.rc s t]
  | .var i, h => by
    simp only [Cell.occurs, beq_eq_false_iff_ne, ne_eq] at h
    simp only [ev, hw.var i h s t]
  | .add _ ts, h => by simp only [ev, evT_along s t ts h]
  | .mul _ fs, h => by simp only [ev, evG_along s t fs h]
  | .un _ a, h => by simp only [ev, ev_along s t a h, hw.un s t]
  | .bin _ a b, h => by
    simp only [Cell.occurs, Bool.or_eq_false_iff] at h
    simp only [ev, ev_along s t a h.1, ev_along s t b h.2, hw.bin s t]
  | .ite c a b, h => by
    simp only [Cell.occurs, Bool.or_eq_false_iff] at h
    simp only [ev, ev_along s t a h.1.2, ev_along s t b h.2, hw.cond c h.1.1 s t]
  | .nan, _ => rfl
  | .uf n vs, h => by simp only [ev, hw.uf n vs h s t]
theorem evT_along (s t : ℝ) : ∀ ts : CTerms, ts.occurs x = false → evT (w s) ts = evT (w t) ts
  | .nil, _ => rfl
  | .cons e q ts, h => by
    simp only [CTerms.occurs, Bool.or_eq_false_iff] at h
    simp only [evT, ev_along s t e h.1, evT_along s t ts h.2]
theorem evG_along (s t : ℝ) : ∀ fs : CFactors, fs.occurs x = false → evG (w s) fs = evG (w t) fs
  | .nil, _ => rfl
  | .cons b e fs, h => by
    simp only [CFactors.occurs, Bool.or_eq_false_iff] at h
    simp only [evG, ev_along s t b h.1.1, ev_along s t e h.1.2, evG_along s t fs h.2]
end

/-- The derivative of an expression without the variable is 0. -/
theorem derivAt_const {e : Cell} (h : e.occurs x = false) {t y : ℝ} (hy : ev (w t) e = some y) :
    DerivAt w e t 0 :=
  ⟨fun _ => y, Filter.Eventually.of_forall fun s => by rw [ev_along hw s t e h, hy],
    hasDerivAt_const t y⟩

end Const

/-! ## What can be differentiated -/

mutual
theorem supported_cell {A : Arith} {n x : Nat} : ∀ e r : Cell, diffC A n x e = .ok r → Supported x e
  | .const _, _, _ => trivial
  | .rconst .., _, _ => trivial
  | .var _, _, _ => trivial
  | .add _ ts, r, h => supported_terms ts _ r h
  | .mul _ fs, r, h => by
    obtain ⟨e, _, h⟩ := bindR_ok h
    obtain ⟨s, h, _⟩ := bindR_ok h
    exact supported_factors fs _ _ s h
  | .un f a, r, h => by
    simp only [diffC] at h
    simp only [Supported]
    split_ifs with hf
    · rw [if_pos hf] at h
      split_ifs at h with ho
      simpa using ho
    · rw [if_neg hf] at h
      obtain ⟨s, h, _⟩ := bindR_ok h
      exact supported_cell a s h
  | .bin f a b, r, h => by
    cases f with
    | min =>
      simp only [diffC] at h
      split_ifs at h with ho
      simpa [Supported] using ho
    | max =>
      simp only [diffC] at h
      split_ifs at h with ho
      simpa [Supported] using ho
    | div =>
      obtain ⟨s, h1, h⟩ := bindR_ok h
      obtain ⟨u, h2, _⟩ := bindR_ok h
      simpa [Supported] using ⟨supported_cell a s h1, supported_cell b u h2⟩
    | pow =>
      obtain ⟨s, h1, h⟩ := bindR_ok h
      obtain ⟨u, h2, _⟩ := bindR_ok h
      simpa [Supported] using ⟨supported_cell a s h1, supported_cell b u h2⟩
    | atan2 =>
      obtain ⟨s, h1, h⟩ := bindR_ok h
      obtain ⟨u, h2, _⟩ := bindR_ok h
      simpa [Supported] using ⟨supported_cell a s h1, supported_cell b u h2⟩
  | .ite c a b, r, h => by
    simp only [diffC] at h
    split_ifs at h with ho
    simpa [Supported, and_assoc] using ho
  | .nan, r, h => by simp [diffC] at h
  | .uf m vs, r, h => by
    simp only [diffC] at h
    split_ifs at h with ho
    simpa [Supported] using ho
theorem supported_terms {A : Arith} {n x : Nat} : ∀ (ts : CTerms) (ret r : Cell),
    diffT A n x ret ts = .ok r → SupportedT x ts
  | .nil, _, _, _ => trivial
  | .cons e q ts, ret, r, h => by
    obtain ⟨d, h1, h⟩ := bindR_ok h
    obtain ⟨_, _, h⟩ := bindR_ok h
    obtain ⟨ret', _, h⟩ := bindR_ok h
    exact ⟨supported_cell e d h1, supported_terms ts ret' r h⟩
theorem supported_factors {A : Arith} {n x : Nat} : ∀ (fs : CFactors) (e ret r : Cell),
    diffG A n x e ret fs = .ok r → SupportedG x fs
  | .nil, _, _, _, _ => trivial
  | .cons b g fs, e, ret, r, h => by
    obtain ⟨db, h1, h⟩ := bindR_ok h
    obtain ⟨dg, h2, h⟩ := bindR_ok h
    obtain ⟨_, _, h⟩ := bindR_ok h
    obtain ⟨_, _, h⟩ := bindR_ok h
    obtain ⟨_, _, h⟩ := bindR_ok h
    obtain ⟨_, _, h⟩ := bindR_ok h
    obtain ⟨_, _, h⟩ := bindR_ok h
    obtain ⟨ret', _, h⟩ := bindR_ok h
    exact ⟨supported_cell b db h1, supported_cell g dg h2, supported_factors fs e ret' r h⟩
end

/-! ## Powers -/

theorem pw_neg_exp {x y p : ℝ} (hx : x ≠ 0) (h : pw x y = some p) : p ≠ 0 ∧ pw x (-y) = some p⁻¹ := by
  rcases lt_or_gt_of_ne hx with h0 | h0
  · obtain ⟨n, rfl, rfl⟩ := pw_neg h0 h
    refine ⟨zpow_ne_zero n hx, ?_⟩
    have : (-(n : ℝ)) = ((-n : ℤ) : ℝ) := by push_cast; rfl
    rw [this, pw_int, if_neg (by simp [hx]), zpow_neg]
  · rw [pw_pos h0, Option.some.injEq] at h
    subst h
    refine ⟨(Real.rpow_pos_of_pos h0 y).ne', ?_⟩
    rw [pw_pos h0, Real.rpow_neg h0.le]

theorem pw_den {x : ℝ} {q : ℚ} (hq : q.den = 1) (h : x ≠ 0 ∨ 0 ≤ q) :
    pw x (q : ℝ) = some (x ^ q.num) := by
  have e : (q : ℝ) = (q.num : ℝ) := by
    conv_lhs => rw [← Rat.num_div_den q, hq]
    push_cast; simp
  rw [e, pw_int, if_neg]
  rintro ⟨h1, h2⟩
  rcases h with h | h
  · exact h h1
  · exact absurd (Rat.num_nonneg.mpr h) (not_le.mpr h2)

/-! ## The rules -/

section Rules
variable {A : Arith} (hA : Arith.Exact A) {S : RC → Prop} (hS : Apart S) (hI : NoInt S) {n : Nat}
variable {v : CVal}

theorem good_sqrtE {a : Cell} (h : Good S a) : Good S (sqrtE a) := by
  have habs : ∀ b, Good S b → Good S (absE b) := by
    intro b hb
    unfold absE
    split
    · exact good_const _ _
    · exact ⟨hb.1, hb.2⟩
  unfold sqrtE
  split
  · split_ifs
    · exact habs _ (good_bin h).1
    · exact ⟨h.1, h.2⟩
  · exact ⟨h.1, h.2⟩

theorem ev_sqrtE (hv : StdFun v) {a : Cell} {x : ℝ} (hx : ev v a = some x) (h0 : 0 ≤ x) :
    ev v (sqrtE a) = some (Real.sqrt x) := by
  have habs : ∀ a x, ev v a = some x → ev v (absE a) = some |x| := by
    intro a x hx
    unfold absE
    split
    · simp only [ev, Option.some.injEq] at hx ⊢
      rw [← hx]; push_cast; rfl
    · simp [ev, hx, hv.abs]
  have hgen : ev v (.un .sqrt a) = some (Real.sqrt x) := by
    simp only [ev, hx, hv.sqrt, Option.bind_some]
    rw [if_pos h0]
  unfold sqrtE
  split
  · split_ifs with h
    · subst h
      obtain ⟨y, p, hy, hp, hw⟩ := ev_pow.mp hx
      simp only [ev, Option.some.injEq, Rat.cast_ofNat] at hp
      rw [← hp, pw_two, Option.some.injEq] at hw
      rw [habs _ y hy, ← hw, Real.sqrt_mul_self_eq_abs]
    · exact hgen
  · exact hgen

include hA hS hI

theorem square_ok {a r : Cell} (ha : Good S a) (h : powE A n a (.const 2) = .ok r) :
    Good S r ∧ ∀ x, ev v a = some x → ev v r = some (x * x) := by
  refine ⟨pow_good hA hI a _ r ha (good_const _ _) (.inr ⟨2, rfl, by decide +kernel⟩) h,
    fun x hx => ?_⟩
  exact pow_ev hA hI a _ r ha.1 h v x 2 _ hx (by simp [ev]) (pw_two x)

/-- The value of the rule for powers. -/
theorem powRule_ok (hv : StdFun v) {f g df dg r : Cell} (gf : Good S f) (gg : Good S g)
    (gdf : Good S df) (gdg : Good S dg) (hn : ¬ PowInt f) (h : powRule A n f g df dg = .ok r)
    {F G F' G' : ℝ} (hF : ev v f = some F) (hG : ev v g = some G) (hF' : ev v df = some F')
    (hG' : ev v dg = some G') (hs : PowSmooth F g) :
    Good S r ∧
      ((∃ q : ℚ, g = .const q ∧ q.den = 1 ∧ (F ≠ 0 ∨ 1 ≤ q) ∧
          ev v r = some (q.num * F ^ (q.num - 1) * F')) ∨
       (0 < F ∧ (∃ q, g = .const q) ∧ ev v r = some (G * F ^ (G - 1) * F')) ∨
       (0 < F ∧ (∃ c, f = .const c) ∧ ev v r = some (Real.log F * F ^ G * G')) ∨
       (0 < F ∧ ev v r = some (F ^ (G - 1) * (G * F' + Real.log F * F * G')))) := by
  have all := norm_all hA hS hI n
  unfold powRule at h
  split at h
  · rename_i q
    obtain ⟨m, e1, h⟩ := bindR_ok h
    obtain ⟨p, e2, h⟩ := bindR_ok h
    obtain ⟨s, e3, h⟩ := bindR_ok h
    obtain ⟨gm, wm⟩ := minusE_ok hA hS hI (good_const S q) (good_const S 1) e1
    obtain ⟨gp, wp⟩ := all.pow f m p gf gm hn e2
    obtain ⟨gs, ws⟩ := all.mul _ _ _ (good_const S q) gp e3
    obtain ⟨gr, wr⟩ := all.mul _ _ _ gs gdf h
    refine ⟨gr, ?_⟩
    have hm : ev v m = some ((q - 1 : ℚ) : ℝ) := by
      rw [wm v q 1 (by simp [ev]) (by simp [ev])]; push_cast; rfl
    have fin : ∀ z, pw F ((q - 1 : ℚ) : ℝ) = some z → ev v r = some (q * z * F') := by
      intro z hz
      exact wr v _ _ (ws v _ _ (by simp [ev]) (wp v _ _ _ hF hm hz)) hF'
    simp only [ev, Option.some.injEq] at hG
    rcases hs with h0 | ⟨q', e, hd, hq⟩
    · refine Or.inr (.inl ⟨h0, ⟨q, rfl⟩, ?_⟩)
      rw [fin _ (pw_pos h0 _), ← hG]; push_cast; rfl
    · simp only [Cell.const.injEq] at e
      subst e
      refine Or.inl ⟨q, rfl, hd, hq, ?_⟩
      have hd' : (q - 1).den = 1 := by
        have : q - 1 = ((q.num - 1 : ℤ) : ℚ) := by
          conv_lhs => rw [← Rat.num_div_den q, hd]
          push_cast; simp
        rw [this]; rfl
      have hnum : (q - 1).num = q.num - 1 := by
        have : q - 1 = ((q.num - 1 : ℤ) : ℚ) := by
          conv_lhs => rw [← Rat.num_div_den q, hd]
          push_cast; simp
        rw [this]; rfl
      have hz := pw_den (x := F) hd' (by
        rcases hq with hq | hq
        · exact .inl hq
        · exact .inr (by linarith))
      rw [fin _ hz, hnum]
      congr 3
      conv_lhs => rw [← Rat.num_div_den q, hd]
      push_cast; simp
  · rename_i hg
    have h0 : 0 < F := by
      rcases hs with h0 | ⟨q, e, _⟩
      · exact h0
      · exact absurd e (hg q)
    split at h
    · rename_i c
      obtain ⟨p, e1, h⟩ := bindR_ok h
      obtain ⟨s, e2, h⟩ := bindR_ok h
      obtain ⟨gp, wp⟩ := all.pow _ _ p gf gg hn e1
      have gl : Good S (.un .log (.const c)) := ⟨trivial, trivial⟩
      obtain ⟨gs, ws⟩ := all.mul _ _ _ gl gp e2
      obtain ⟨gr, wr⟩ := all.mul _ _ _ gs gdg h
      refine ⟨gr, Or.inr (.inr (.inl ⟨h0, ⟨c, rfl⟩, ?_⟩))⟩
      refine wr v _ _ (ws v _ _ ?_ (wp v _ _ _ hF hG (pw_pos h0 _))) hG'
      simp only [ev, Option.some.injEq] at hF
      simp only [ev, hF, Option.bind_some]
      exact hv.log F h0
    · obtain ⟨m, e1, h⟩ := bindR_ok h
      obtain ⟨p, e2, h⟩ := bindR_ok h
      obtain ⟨s, e3, h⟩ := bindR_ok h
      obtain ⟨t, e4, h⟩ := bindR_ok h
      obtain ⟨u, e5, h⟩ := bindR_ok h
      obtain ⟨z, e6, h⟩ := bindR_ok h
      have gl : Good S (.un .log f) := ⟨gf.1, gf.2⟩
      obtain ⟨gm, wm⟩ := minusE_ok hA hS hI gg (good_const S 1) e1
      obtain ⟨gp, wp⟩ := all.pow _ _ p gf gm hn e2
      obtain ⟨gs, ws⟩ := all.mul _ _ _ gg gdf e3
      obtain ⟨gt, wt⟩ := all.mul _ _ _ gl gf e4
      obtain ⟨gu, wu⟩ := all.mul _ _ _ gt gdg e5
      obtain ⟨gz, wz⟩ := all.add _ _ _ gs gu e6
      obtain ⟨gr, wr⟩ := all.mul _ _ _ gp gz h
      refine ⟨gr, Or.inr (.inr (.inr ⟨h0, ?_⟩))⟩
      refine wr v _ _ (wp v _ _ _ hF (wm v G 1 hG (by simp [ev])) (pw_pos h0 _))
        (wz v _ _ (ws v _ _ hG hF') (wu v _ _ (wt v _ _ ?_ hF) hG'))
      simp only [ev, hF, Option.bind_some]
      exact hv.log F h0

theorem divRule_ok {f g df dg r : Cell} (gf : Good S f) (gg : Good S g)
    (gdf : Good S df) (gdg : Good S dg) (h : divRule A n f g df dg = .ok r)
    {F G F' G' : ℝ} (hF : ev v f = some F) (hG : ev v g = some G) (hF' : ev v df = some F')
    (hG' : ev v dg = some G') (h0 : G ≠ 0) :
    Good S r ∧ ev v r = some ((F' * G - F * G') / (G * G)) := by
  have all := norm_all hA hS hI n
  obtain ⟨s, e1, h⟩ := bindR_ok h
  obtain ⟨t, e2, h⟩ := bindR_ok h
  obtain ⟨u, e3, h⟩ := bindR_ok h
  obtain ⟨p, e4, h⟩ := bindR_ok h
  obtain ⟨gs, ws⟩ := all.mul _ _ _ gdf gg e1
  obtain ⟨gt, wt⟩ := all.mul _ _ _ gf gdg e2
  obtain ⟨gu, wu⟩ := minusE_ok hA hS hI gs gt e3
  obtain ⟨gp, wp⟩ := square_ok hA hS hI (v := v) gg e4
  obtain ⟨gr, wr⟩ := all.div _ _ _ gu gp h
  exact ⟨gr, wr v _ _ (wu v _ _ (ws v _ _ hF' hG) (wt v _ _ hF hG')) (wp _ hG)
    (mul_ne_zero h0 h0)⟩

theorem atan2Rule_ok {f g df dg r : Cell} (gf : Good S f) (gg : Good S g)
    (gdf : Good S df) (gdg : Good S dg) (h : atan2Rule A n f g df dg = .ok r)
    {F G F' G' : ℝ} (hF : ev v f = some F) (hG : ev v g = some G) (hF' : ev v df = some F')
    (hG' : ev v dg = some G') (h0 : 0 < G ∨ F ≠ 0) :
    Good S r ∧ ev v r = some ((G * F' - F * G') / (F * F + G * G)) := by
  have all := norm_all hA hS hI n
  obtain ⟨s, e1, h⟩ := bindR_ok h
  obtain ⟨t, e2, h⟩ := bindR_ok h
  obtain ⟨u, e3, h⟩ := bindR_ok h
  obtain ⟨p, e4, h⟩ := bindR_ok h
  obtain ⟨q, e5, h⟩ := bindR_ok h
  obtain ⟨z, e6, h⟩ := bindR_ok h
  obtain ⟨gs, ws⟩ := all.mul _ _ _ gg gdf e1
  obtain ⟨gt, wt⟩ := all.mul _ _ _ gf gdg e2
  obtain ⟨gu, wu⟩ := minusE_ok hA hS hI gs gt e3
  obtain ⟨gp, wp⟩ := square_ok hA hS hI (v := v) gf e4
  obtain ⟨gq, wq⟩ := square_ok hA hS hI (v := v) gg e5
  obtain ⟨gz, wz⟩ := all.add _ _ _ gp gq e6
  obtain ⟨gr, wr⟩ := all.div _ _ _ gu gz h
  refine ⟨gr, wr v _ _ (wu v _ _ (ws v _ _ hG hF') (wt v _ _ hF hG'))
    (wz v _ _ (wp _ hF) (wq _ hG)) ?_⟩
  have := mul_self_nonneg F
  have := mul_self_nonneg G
  rcases h0 with h0 | h0
  · have := mul_pos h0 h0
    intro h; linarith
  · have := mul_self_pos.mpr h0
    intro h; linarith

/-- The derivative of a unary function. -/
noncomputable def unD (f : Fn1) (x : ℝ) : ℝ :=
  match f with
  | .log => x⁻¹
  | .exp => Real.exp x
  | .sqrt => 1 / (2 * Real.sqrt x)
  | .sin => Real.cos x
  | .cos => -Real.sin x
  | .tan => 1 / (Real.cos x * Real.cos x)
  | .asin => 1 / Real.sqrt (1 - x * x)
  | .acos => -1 / Real.sqrt (1 - x * x)
  | .atan => 1 / (1 + x * x)
  | .sinh => Real.cosh x
  | .cosh => Real.sinh x
  | .tanh => 1 / (Real.cosh x * Real.cosh x)
  | .abs => 0

theorem unRule_ok (hv : StdFun v) {f : Fn1} {a da r : Cell} (ga : Good S a) (gda : Good S da)
    (h : unRule A n f a da = .ok r) {F F' : ℝ} (hF : ev v a = some F) (hF' : ev v da = some F')
    (hs : UnSmooth f F) : Good S r ∧ ev v r = some (unD f F * F') := by
  have all := norm_all hA hS hI n
  have gun : ∀ f, Good S (.un f a) := fun f => ⟨ga.1, ga.2⟩
  have one : ∀ q : ℚ, ev v (.const q) = some (q : ℝ) := fun q => by simp [ev]
  have eun : ∀ {f y}, v.un f F = some y → ev v (.un f a) = some y := by
    intro f y h
    simp only [ev, hF, Option.bind_some, h]
  cases f with
  | log =>
    obtain ⟨g, w⟩ := all.div _ _ _ gda ga h
    refine ⟨g, ?_⟩
    rw [w v _ _ hF' hF (ne_of_gt hs), unD, div_eq_inv_mul]
  | exp =>
    obtain ⟨g, w⟩ := all.mul _ _ _ (gun _) gda h
    exact ⟨g, w v _ _ (eun (hv.exp F)) hF'⟩
  | sqrt =>
    obtain ⟨s, e1, h⟩ := bindR_ok h
    obtain ⟨q, e2, h⟩ := bindR_ok h
    obtain ⟨gs, ws⟩ := all.mul _ _ _ (good_const S 2) (good_sqrtE ga) e1
    obtain ⟨gq, wq⟩ := all.div _ _ _ (good_const S 1) gs e2
    obtain ⟨g, w⟩ := all.mul _ _ _ gq gda h
    refine ⟨g, ?_⟩
    have h0 : 0 < F := hs
    have h1 := Real.sqrt_pos.mpr h0
    rw [w v _ _ (wq v _ _ (one _) (ws v _ _ (one _) (ev_sqrtE hv hF h0.le)) (by
      push_cast; positivity)) hF']
    simp [unD]
  | sin =>
    obtain ⟨g, w⟩ := all.mul _ _ _ (gun _) gda h
    exact ⟨g, w v _ _ (eun (hv.cos F)) hF'⟩
  | cos =>
    obtain ⟨s, e1, h⟩ := bindR_ok h
    obtain ⟨gs, ws⟩ := negE_ok hA hS hI (gun .sin) e1
    obtain ⟨g, w⟩ := all.mul _ _ _ gs gda h
    exact ⟨g, w v _ _ (ws v _ (eun (hv.sin F))) hF'⟩
  | tan =>
    obtain ⟨p, e1, h⟩ := bindR_ok h
    obtain ⟨q, e2, h⟩ := bindR_ok h
    obtain ⟨gp, wp⟩ := square_ok hA hS hI (v := v) (gun .cos) e1
    obtain ⟨gq, wq⟩ := all.div _ _ _ (good_const S 1) gp e2
    obtain ⟨g, w⟩ := all.mul _ _ _ gq gda h
    refine ⟨g, ?_⟩
    rw [w v _ _ (wq v _ _ (one _) (wp _ (eun (hv.cos F))) (mul_ne_zero hs hs)) hF']
    simp [unD]
  | asin =>
    obtain ⟨p, e1, h⟩ := bindR_ok h
    obtain ⟨s, e2, h⟩ := bindR_ok h
    obtain ⟨q, e3, h⟩ := bindR_ok h
    obtain ⟨gp, wp⟩ := square_ok hA hS hI (v := v) ga e1
    obtain ⟨gs, ws⟩ := minusE_ok hA hS hI (good_const S 1) gp e2
    obtain ⟨gq, wq⟩ := all.div _ _ _ (good_const S 1) (good_sqrtE gs) e3
    obtain ⟨g, w⟩ := all.mul _ _ _ gq gda h
    refine ⟨g, ?_⟩
    have h0 : 0 < 1 - F * F := by
      have : -1 < F ∧ F < 1 := hs
      nlinarith [this.1, this.2]
    have es : ev v s = some (1 - F * F) := by
      rw [ws v _ _ (one _) (wp _ hF)]; push_cast; rfl
    rw [w v _ _ (wq v _ _ (one _) (ev_sqrtE hv es h0.le) (Real.sqrt_pos.mpr h0).ne') hF']
    simp [unD]
  | acos =>
    obtain ⟨p, e1, h⟩ := bindR_ok h
    obtain ⟨s, e2, h⟩ := bindR_ok h
    obtain ⟨q, e3, h⟩ := bindR_ok h
    obtain ⟨gp, wp⟩ := square_ok hA hS hI (v := v) ga e1
    obtain ⟨gs, ws⟩ := minusE_ok hA hS hI (good_const S 1) gp e2
    obtain ⟨gq, wq⟩ := all.div _ _ _ (good_const S (-1)) (good_sqrtE gs) e3
    obtain ⟨g, w⟩ := all.mul _ _ _ gq gda h
    refine ⟨g, ?_⟩
    have h0 : 0 < 1 - F * F := by
      have : -1 < F ∧ F < 1 := hs
      nlinarith [this.1, this.2]
    have es : ev v s = some (1 - F * F) := by
      rw [ws v _ _ (one _) (wp _ hF)]; push_cast; rfl
    rw [w v _ _ (wq v _ _ (one _) (ev_sqrtE hv es h0.le) (Real.sqrt_pos.mpr h0).ne') hF']
    simp [unD]
  | atan =>
    obtain ⟨p, e1, h⟩ := bindR_ok h
    obtain ⟨s, e2, h⟩ := bindR_ok h
    obtain ⟨q, e3, h⟩ := bindR_ok h
    obtain ⟨gp, wp⟩ := square_ok hA hS hI (v := v) ga e1
    obtain ⟨gs, ws⟩ := all.add _ _ _ (good_const S 1) gp e2
    obtain ⟨gq, wq⟩ := all.div _ _ _ (good_const S 1) gs e3
    obtain ⟨g, w⟩ := all.mul _ _ _ gq gda h
    refine ⟨g, ?_⟩
    have h0 : 1 + F * F ≠ 0 := by
      have := mul_self_nonneg F
      intro h; linarith
    have es : ev v s = some (1 + F * F) := by
      rw [ws v _ _ (one _) (wp _ hF)]; push_cast; rfl
    rw [w v _ _ (wq v _ _ (one _) es h0) hF']
    simp [unD]
  | sinh =>
    obtain ⟨g, w⟩ := all.mul _ _ _ (gun _) gda h
    exact ⟨g, w v _ _ (eun (hv.cosh F)) hF'⟩
  | cosh =>
    obtain ⟨g, w⟩ := all.mul _ _ _ (gun _) gda h
    exact ⟨g, w v _ _ (eun (hv.sinh F)) hF'⟩
  | tanh =>
    obtain ⟨p, e1, h⟩ := bindR_ok h
    obtain ⟨q, e2, h⟩ := bindR_ok h
    obtain ⟨gp, wp⟩ := square_ok hA hS hI (v := v) (gun .cosh) e1
    obtain ⟨gq, wq⟩ := all.div _ _ _ (good_const S 1) gp e2
    obtain ⟨g, w⟩ := all.mul _ _ _ gq gda h
    refine ⟨g, ?_⟩
    have h0 := (Real.cosh_pos F).ne'
    rw [w v _ _ (wq v _ _ (one _) (wp _ (eun (hv.cosh F))) (mul_ne_zero h0 h0)) hF']
    simp [unD]
  | abs => simp [unRule] at h

end Rules

/-! ## Calculus -/

/-- Where a unary function is smooth it is defined nearby, with the right derivative. -/
theorem un_deriv {u : CVal} (hv : StdFun u) {f : Fn1} (hf : f ≠ .abs) {y : ℝ} (hs : UnSmooth f y) :
    ∃ φ : ℝ → ℝ, (∀ᶠ z in 𝓝 y, ∀ v : CVal, v.un = u.un → v.un f z = some (φ z)) ∧
      HasDerivAt φ (unD f y) y := by
  have all : ∀ {φ : ℝ → ℝ} {f}, (∀ z, u.un f z = some (φ z)) →
      ∀ᶠ z in 𝓝 y, ∀ v : CVal, v.un = u.un → v.un f z = some (φ z) := fun h =>
    Filter.Eventually.of_forall fun z v e => by rw [e]; exact h z
  cases f with
  | abs => exact absurd rfl hf
  | log =>
    refine ⟨Real.log, ?_, Real.hasDerivAt_log (ne_of_gt hs)⟩
    filter_upwards [lt_mem_nhds hs] with z hz v e
    rw [e]; exact hv.log z hz
  | exp => exact ⟨_, all hv.exp, Real.hasDerivAt_exp y⟩
  | sqrt =>
    refine ⟨Real.sqrt, ?_, Real.hasDerivAt_sqrt (ne_of_gt hs)⟩
    filter_upwards [lt_mem_nhds hs] with z hz v e
    rw [e, hv.sqrt z, if_pos hz.le]
  | sin => exact ⟨_, all hv.sin, Real.hasDerivAt_sin y⟩
  | cos => exact ⟨_, all hv.cos, Real.hasDerivAt_cos y⟩
  | tan =>
    refine ⟨Real.tan, ?_, ?_⟩
    · filter_upwards [(Real.continuous_cos.continuousAt (x := y)).eventually_ne hs] with z hz v e
      rw [e]; exact hv.tan z hz
    · have := Real.hasDerivAt_tan hs
      rwa [pow_two] at this
  | asin =>
    have h : -1 < y ∧ y < 1 := hs
    refine ⟨Real.arcsin, ?_, ?_⟩
    · filter_upwards [lt_mem_nhds h.1, gt_mem_nhds h.2] with z h1 h2 v e
      rw [e]; exact hv.asin z h1.le h2.le
    · have := Real.hasDerivAt_arcsin (ne_of_gt h.1) (ne_of_lt h.2)
      rwa [pow_two] at this
  | acos =>
    have h : -1 < y ∧ y < 1 := hs
    refine ⟨Real.arccos, ?_, ?_⟩
    · filter_upwards [lt_mem_nhds h.1, gt_mem_nhds h.2] with z h1 h2 v e
      rw [e]; exact hv.acos z h1.le h2.le
    · have := Real.hasDerivAt_arccos (ne_of_gt h.1) (ne_of_lt h.2)
      rw [pow_two] at this
      rw [unD, neg_div]; exact this
  | atan =>
    have := Real.hasDerivAt_arctan y
    rw [pow_two] at this
    exact ⟨_, all hv.atan, this⟩
  | sinh => exact ⟨_, all hv.sinh, Real.hasDerivAt_sinh y⟩
  | cosh => exact ⟨_, all hv.cosh, Real.hasDerivAt_cosh y⟩
  | tanh =>
    refine ⟨_, all hv.tanh, ?_⟩
    have h0 := (Real.cosh_pos y).ne'
    have h := (Real.hasDerivAt_sinh y).div (Real.hasDerivAt_cosh y) h0
    have e : (fun z => Real.sinh z / Real.cosh z) = Real.tanh := by
      funext z; rw [Real.tanh_eq_sinh_div_cosh]
    have h' : HasDerivAt Real.tanh ((Real.cosh y * Real.cosh y - Real.sinh y * Real.sinh y) /
        Real.cosh y ^ 2) y := by rw [← e]; exact h
    convert h' using 1
    have := Real.cosh_sq y
    rw [unD, pow_two]
    congr 1
    nlinarith

section Along
variable {x : Nat} {w : ℝ → CVal} {t : ℝ}

theorem derivAt_un (hw : Along x w) (hv : ∀ t, StdFun (w t)) {f : Fn1} (hf : f ≠ .abs) {a : Cell}
    {F : ℝ → ℝ} {F' : ℝ} (h1 : ∀ᶠ s in 𝓝 t, ev (w s) a = some (F s)) (h2 : HasDerivAt F F' t)
    (hs : UnSmooth f (F t)) : DerivAt w (.un f a) t (unD f (F t) * F') := by
  obtain ⟨φ, p1, p2⟩ := un_deriv (hv t) hf hs
  refine ⟨φ ∘ F, ?_, p2.comp t h2⟩
  filter_upwards [h1, h2.continuousAt.eventually p1] with s e1 e2
  simp only [ev, e1, Option.bind_some, e2 _ (hw.un s t), Function.comp]

/-- Powers along `w`. -/
theorem pow_deriv {f g : Cell} {F G : ℝ → ℝ} {F' G' : ℝ}
    (f2 : HasDerivAt F F' t)
    (g1 : ∀ᶠ s in 𝓝 t, ev (w s) g = some (G s)) (g2 : HasDerivAt G G' t)
    {r : Cell} {d : ℝ}
    (hr : (∃ q : ℚ, g = .const q ∧ q.den = 1 ∧ (F t ≠ 0 ∨ 1 ≤ q) ∧
        d = q.num * F t ^ (q.num - 1) * F') ∨
      (0 < F t ∧ d = F' * G t * F t ^ (G t - 1) + G' * F t ^ G t * Real.log (F t))) :
    ∃ P : ℝ → ℝ, (∀ᶠ s in 𝓝 t, pw (F s) (G s) = some (P s)) ∧ HasDerivAt P d t := by
  rcases hr with ⟨q, rfl, hd, hq, rfl⟩ | ⟨h0, rfl⟩
  · have hq0 : F t ≠ 0 ∨ (0 : ℤ) ≤ q.num := by
      rcases hq with hq | hq
      · exact .inl hq
      · exact .inr (Rat.num_nonneg.mpr (by linarith))
    refine ⟨fun s => F s ^ q.num, ?_, ?_⟩
    · have : ∀ᶠ s in 𝓝 t, F s ≠ 0 ∨ 0 ≤ q := by
        rcases hq with hq | hq
        · exact (f2.continuousAt.eventually_ne hq).mono fun s h => .inl h
        · exact Filter.Eventually.of_forall fun _ => .inr (by linarith)
      filter_upwards [g1, this] with s e1 e2
      simp only [ev, Option.some.injEq] at e1
      rw [← e1]
      exact pw_den hd e2
    · exact (hasDerivAt_zpow q.num (F t) hq0).comp t f2
  · refine ⟨fun s => F s ^ G s, ?_, f2.rpow g2 h0⟩
    filter_upwards [f2.continuousAt.eventually (lt_mem_nhds h0)] with s e
    exact pw_pos e _

/-- The rule for powers gives the derivative of the power. -/
theorem powRule_deriv {A : Arith} (hA : Arith.Exact A) {S : RC → Prop} (hS : Apart S)
    (hI : NoInt S) {n : Nat} (hv : StdFun (w t)) {f g df dg r : Cell} (gf : Good S f)
    (gg : Good S g) (gdf : Good S df) (gdg : Good S dg) (hn : ¬ PowInt f)
    (h : powRule A n f g df dg = .ok r) {F G : ℝ → ℝ} {F' G' : ℝ}
    (f1 : ∀ᶠ s in 𝓝 t, ev (w s) f = some (F s)) (f2 : HasDerivAt F F' t)
    (g1 : ∀ᶠ s in 𝓝 t, ev (w s) g = some (G s)) (g2 : HasDerivAt G G' t)
    (hF' : ev (w t) df = some F') (hG' : ev (w t) dg = some G') (hs : PowSmooth (F t) g) :
    Good S r ∧ ∃ P : ℝ → ℝ, ∃ d : ℝ, (∀ᶠ s in 𝓝 t, pw (F s) (G s) = some (P s)) ∧
      HasDerivAt P d t ∧ ev (w t) r = some d := by
  have hF := f1.self_of_nhds
  have hG := g1.self_of_nhds
  obtain ⟨gr, hr⟩ := powRule_ok hA hS hI hv gf gg gdf gdg hn h hF hG hF' hG' hs
  refine ⟨gr, ?_⟩
  have fin : ∀ d, ev (w t) r = some d → ((∃ q : ℚ, g = .const q ∧ q.den = 1 ∧ (F t ≠ 0 ∨ 1 ≤ q) ∧
        d = q.num * F t ^ (q.num - 1) * F') ∨
      (0 < F t ∧ d = F' * G t * F t ^ (G t - 1) + G' * F t ^ G t * Real.log (F t))) →
      ∃ P : ℝ → ℝ, ∃ d : ℝ, (∀ᶠ s in 𝓝 t, pw (F s) (G s) = some (P s)) ∧
      HasDerivAt P d t ∧ ev (w t) r = some d := by
    intro d hd h
    obtain ⟨P, p1, p2⟩ := pow_deriv (f := f) (r := r) f2 g1 g2 h
    exact ⟨P, d, p1, p2, hd⟩
  have constG : ∀ {q}, g = .const q → G' = 0 := by
    rintro q rfl
    refine g2.unique ((hasDerivAt_const t (q : ℝ)).congr_of_eventuallyEq ?_)
    filter_upwards [g1] with s e
    simp only [ev, Option.some.injEq] at e
    exact e.symm
  have constF : ∀ {q}, f = .const q → F' = 0 := by
    rintro q rfl
    refine f2.unique ((hasDerivAt_const t (q : ℝ)).congr_of_eventuallyEq ?_)
    filter_upwards [f1] with s e
    simp only [ev, Option.some.injEq] at e
    exact e.symm
  rcases hr with ⟨q, e, hd, hq, hr⟩ | ⟨h0, ⟨q, e⟩, hr⟩ | ⟨h0, ⟨c, e⟩, hr⟩ | ⟨h0, hr⟩
  · exact fin _ hr (.inl ⟨q, e, hd, hq, rfl⟩)
  · refine fin _ hr (.inr ⟨h0, ?_⟩)
    rw [constG e]; ring
  · refine fin _ hr (.inr ⟨h0, ?_⟩)
    rw [constF e]; ring
  · refine fin _ hr (.inr ⟨h0, ?_⟩)
    have : F t ^ G t = F t ^ (G t - 1) * F t := by
      rw [Real.rpow_sub h0, Real.rpow_one, div_mul_cancel₀ _ h0.ne']
    rw [this]; ring

/-- Angles along `w`. -/
theorem atan2_deriv {F G : ℝ → ℝ} {F' G' : ℝ} (f2 : HasDerivAt F F' t) (g2 : HasDerivAt G G' t)
    (h0 : 0 < G t ∨ F t ≠ 0) :
    HasDerivAt (fun s => Complex.arg ⟨G s, F s⟩)
      ((G t * F' - F t * G') / (F t * F t + G t * G t)) t := by
  have hz : HasDerivAt (fun s => (⟨G s, F s⟩ : ℂ)) ⟨G', F'⟩ t := by
    have h1 := g2.ofReal_comp
    have h2 := (f2.ofReal_comp).mul_const Complex.I
    have h3 := h1.add h2
    refine (h3.congr_of_eventuallyEq (Filter.Eventually.of_forall fun s => ?_)).congr_deriv ?_
    · apply Complex.ext <;> simp
    · apply Complex.ext <;> simp
  have hs : (⟨G t, F t⟩ : ℂ) ∈ Complex.slitPlane := by
    rw [Complex.mem_slitPlane_iff]; exact h0
  have hl := hz.clog_real hs
  have hi := Complex.imCLM.hasFDerivAt.comp_hasDerivAt t hl
  refine (hi.congr_of_eventuallyEq (Filter.Eventually.of_forall fun s => ?_)).congr_deriv ?_
  · simp [Complex.log_im]
  · have hn : F t * F t + G t * G t ≠ 0 := by
      have := mul_self_nonneg (F t)
      have := mul_self_nonneg (G t)
      rcases h0 with h0 | h0
      · have := mul_pos h0 h0
        intro h; linarith
      · have := mul_self_pos.mpr h0
        intro h; linarith
    simp only [Complex.imCLM_apply, Complex.div_im, Complex.normSq_mk]
    have hn' : G t * G t + F t * F t ≠ 0 := by rw [add_comm]; exact hn
    field_simp
    ring

/-! ## The induction -/

section Main
variable {A : Arith} (hA : Arith.Exact A) {S : RC → Prop} (hS : Apart S) (hI : NoInt S)
  (hw : Along x w) (hv : ∀ t, StdFun (w t)) {n : Nat}
include hA hS hI hw hv

/-- The derivative of an expression without the variable. -/
theorem diff_const {e : Cell} (h : e.occurs x = false) {y : ℝ} (hy : ev (w t) e = some y) :
    Good S (.const 0) ∧ ∃ F : ℝ → ℝ, ∃ d, (∀ᶠ s in 𝓝 t, ev (w s) e = some (F s)) ∧
      HasDerivAt F d t ∧ ev (w t) (.const 0) = some d := by
  obtain ⟨F, h1, h2⟩ := derivAt_const hw h hy
  exact ⟨good_const _ _, F, 0, h1, h2, by simp [ev]⟩

mutual
theorem diff_cell : ∀ (e r : Cell), Good S e → diffC A n x e = .ok r → Smooth (w t) e →
    ∀ y, ev (w t) e = some y → Good S r ∧ ∃ F : ℝ → ℝ, ∃ d,
      (∀ᶠ s in 𝓝 t, ev (w s) e = some (F s)) ∧ HasDerivAt F d t ∧ ev (w t) r = some d
  | .const q, r, _, h, _, y, hy => by
    simp only [diffC, Run.ok.injEq] at h
    subst h
    exact diff_const hA hS hI hw hv rfl hy
  | .rconst .., r, _, h, _, y, hy => by
    simp only [diffC, Run.ok.injEq] at h
    subst h
    exact diff_const hA hS hI hw hv rfl hy
  | .var i, r, _, h, _, y, hy => by
    simp only [diffC, Run.ok.injEq] at h
    subst h
    by_cases hi : i = x
    · subst hi
      refine ⟨good_const _ _, id, 1, Filter.Eventually.of_forall fun s => ?_, hasDerivAt_id t, ?_⟩
      · simp [ev, hw.self]
      · simp [ev]
    · rw [if_neg hi]
      exact diff_const hA hS hI hw hv (by simp [Cell.occurs, hi]) hy
  | .add c ts, r, g, h, hs, y, hy => by
    simp only [ev, Option.map_eq_some_iff] at hy
    obtain ⟨z, hz, rfl⟩ := hy
    obtain ⟨gr, F, d, h1, h2, h3⟩ := diff_terms ts (.const 0) r 0 (good_add g).1 (good_add g).2.1 h
      hs (good_const _ _) (by simp [ev]) z hz
    refine ⟨gr, fun s => c + F s, d, ?_, h2.const_add _, ?_⟩
    · filter_upwards [h1] with s e
      simp only [ev, e, Option.map_some]
    · simpa using h3
  | .mul c fs, r, g, h, hs, y, hy => by
    have all := norm_all hA hS hI n
    simp only [ev, Option.map_eq_some_iff] at hy
    obtain ⟨z, hz, rfl⟩ := hy
    obtain ⟨e, e1, h⟩ := bindR_ok h
    obtain ⟨s, e2, h⟩ := bindR_ok h
    obtain ⟨ge, we⟩ := all.getM _ _ _ (good_mul g) e1
    have hz1 : ev (w t) e = some z := by rw [we _ z hz]; simp
    obtain ⟨gs, P, d, h1, h2, h0, h3⟩ := diff_factors fs e (.const 0) s z 0 (good_mul g).1
      (good_mul g).2.1 e2 hs ge hz1 (good_const _ _) (by simp [ev]) z hz
    obtain ⟨gr, wr⟩ := all.mul _ _ _ (good_const S c) gs h
    refine ⟨gr, fun s => c * P s, c * d, ?_, h2.const_mul _, ?_⟩
    · filter_upwards [h1] with s e
      simp only [ev, e, Option.map_some]
    · have hP : P t = z := by
        have := h1.self_of_nhds
        rw [hz, Option.some.injEq] at this
        exact this.symm
      rw [wr _ c _ (by simp [ev]) h3, ← hP, zero_add, mul_div_cancel_left₀ _ h0]
  | .un f a, r, g, h, hs, y, hy => by
    simp only [diffC] at h
    by_cases hf : f = .abs
    · rw [if_pos hf] at h
      split_ifs at h with ho
      simp only [Run.ok.injEq] at h
      subst h
      exact diff_const hA hS hI hw hv (by simpa [Cell.occurs] using ho) hy
    · rw [if_neg hf] at h
      obtain ⟨da, e1, h⟩ := bindR_ok h
      obtain ⟨sa, su⟩ := hs.resolve_left hf
      simp only [ev, Option.bind_eq_some_iff] at hy
      obtain ⟨z, hz, hy⟩ := hy
      have ga : Good S a := ⟨g.1, g.2⟩
      obtain ⟨gd, F, d, h1, h2, h3⟩ := diff_cell a da ga e1 sa z hz
      have hF := h1.self_of_nhds
      obtain ⟨gr, hr⟩ := unRule_ok hA hS hI (hv t) ga gd h hF h3 (su _ hF)
      obtain ⟨G, k1, k2⟩ := derivAt_un hw hv hf h1 h2 (su _ hF)
      exact ⟨gr, G, _, k1, k2, hr⟩
  | .bin f a b, r, g, h, hs, y, hy => by
    have ga := (good_bin g).1
    have gb := (good_bin g).2
    have hy' := hy
    simp only [ev, Option.bind_eq_some_iff] at hy
    obtain ⟨ya, hya, yb, hyb, hy⟩ := hy
    cases f with
    | div =>
      obtain ⟨da, e1, h⟩ := bindR_ok h
      obtain ⟨db, e2, h⟩ := bindR_ok h
      obtain ⟨gda, F, F', f1, f2, f3⟩ := diff_cell a da ga e1 hs.1 ya hya
      obtain ⟨gdb, G, G', g1, g2, g3⟩ := diff_cell b db gb e2 hs.2 yb hyb
      have hF := f1.self_of_nhds
      have hG := g1.self_of_nhds
      have h0 : G t ≠ 0 := by
        rw [hyb, Option.some.injEq] at hG
        rw [← hG]
        exact (quo_some.mp hy).1
      obtain ⟨gr, hr⟩ := divRule_ok hA hS hI ga gb gda gdb h hF hG f3 g3 h0
      refine ⟨gr, fun s => F s / G s, _, ?_, f2.div g2 h0, ?_⟩
      · filter_upwards [f1, g1, g2.continuousAt.eventually_ne h0] with s k1 k2 k3
        simp [ev, k1, k2, quo, k3]
      · rw [hr, pow_two]
    | pow =>
      obtain ⟨da, e1, h⟩ := bindR_ok h
      obtain ⟨db, e2, h⟩ := bindR_ok h
      obtain ⟨gda, F, F', f1, f2, f3⟩ := diff_cell a da ga e1 hs.1 ya hya
      obtain ⟨gdb, G, G', g1, g2, g3⟩ := diff_cell b db gb e2 hs.2.1 yb hyb
      obtain ⟨gr, P, d, p1, p2, p3⟩ := powRule_deriv hA hS hI (hv t) ga gb gda gdb
        (g.2.2.2 rfl).1 h f1 f2 g1 g2 f3 g3 (hs.2.2 _ f1.self_of_nhds)
      refine ⟨gr, P, d, ?_, p2, p3⟩
      filter_upwards [f1, g1, p1] with s k1 k2 k3
      simp [ev, k1, k2, k3]
    | atan2 =>
      obtain ⟨da, e1, h⟩ := bindR_ok h
      obtain ⟨db, e2, h⟩ := bindR_ok h
      obtain ⟨gda, F, F', f1, f2, f3⟩ := diff_cell a da ga e1 hs.1 ya hya
      obtain ⟨gdb, G, G', g1, g2, g3⟩ := diff_cell b db gb e2 hs.2.1 yb hyb
      have hF := f1.self_of_nhds
      have hG := g1.self_of_nhds
      have h0 := hs.2.2 _ _ hF hG
      obtain ⟨gr, hr⟩ := atan2Rule_ok hA hS hI ga gb gda gdb h hF hG f3 g3 h0
      refine ⟨gr, _, _, ?_, atan2_deriv f2 g2 h0, hr⟩
      have hn : ∀ᶠ s in 𝓝 t, ¬ (G s = 0 ∧ F s = 0) := by
        rcases h0 with h0 | h0
        · exact (g2.continuousAt.eventually_ne h0.ne').mono fun s h k => h k.1
        · exact (f2.continuousAt.eventually_ne h0).mono fun s h k => h k.2
      filter_upwards [f1, g1, hn] with s k1 k2 k3
      simp only [ev, k1, k2, Option.bind_some]
      exact (hv s).atan2 _ _ k3
    | min =>
      simp only [diffC] at h
      split_ifs at h with ho
      simp only [Run.ok.injEq] at h
      subst h
      exact diff_const hA hS hI hw hv (by simpa [Cell.occurs] using ho) hy'
    | max =>
      simp only [diffC] at h
      split_ifs at h with ho
      simp only [Run.ok.injEq] at h
      subst h
      exact diff_const hA hS hI hw hv (by simpa [Cell.occurs] using ho) hy'
  | .ite c a b, r, g, h, hs, y, hy => by
    simp only [diffC] at h
    split_ifs at h with ho
    simp only [Run.ok.injEq] at h
    subst h
    exact diff_const hA hS hI hw hv (by simpa [Cell.occurs] using ho) hy
  | .nan, r, g, h, hs, y, hy => by simp [diffC] at h
  | .uf m vs, r, g, h, hs, y, hy => by
    simp only [diffC] at h
    split_ifs at h with ho
    simp only [Run.ok.injEq] at h
    subst h
    exact diff_const hA hS hI hw hv (by simpa [Cell.occurs] using ho) hy
theorem diff_terms : ∀ (ts : CTerms) (ret r : Cell) (z0 : ℝ), RcT S ts → NFT ts →
    diffT A n x ret ts = .ok r → SmoothT (w t) ts → Good S ret → ev (w t) ret = some z0 →
    ∀ y, evT (w t) ts = some y → Good S r ∧ ∃ F : ℝ → ℝ, ∃ d,
      (∀ᶠ s in 𝓝 t, evT (w s) ts = some (F s)) ∧ HasDerivAt F d t ∧ ev (w t) r = some (z0 + d)
  | .nil, ret, r, z0, _, _, h, _, gr, hr, y, hy => by
    simp only [diffT, Run.ok.injEq] at h
    subst h
    exact ⟨gr, fun _ => 0, 0, Filter.Eventually.of_forall fun s => rfl, hasDerivAt_const t 0,
      by simpa using hr⟩
  | .cons e q ts, ret, r, z0, hrc, hnf, h, hs, gr, hr, y, hy => by
    have all := norm_all hA hS hI n
    simp only [evT, Option.bind_eq_some_iff, Option.map_eq_some_iff] at hy
    obtain ⟨ye, hye, yt, hyt, _⟩ := hy
    obtain ⟨d, e1, h⟩ := bindR_ok h
    obtain ⟨u, e2, h⟩ := bindR_ok h
    obtain ⟨ret', e3, h⟩ := bindR_ok h
    obtain ⟨gd, F, F', f1, f2, f3⟩ := diff_cell e d ⟨hrc.1, hnf.1⟩ e1 hs.1 ye hye
    obtain ⟨gu, wu⟩ := all.mul _ _ _ (good_const S q) gd e2
    obtain ⟨gr', wr'⟩ := all.add _ _ _ gr gu e3
    have hr' := wr' _ _ _ hr (wu _ q _ (by simp [ev]) f3)
    obtain ⟨gg, G, G', g1, g2, g3⟩ := diff_terms ts ret' r _ hrc.2 hnf.2.2.2 h hs.2 gr' hr' yt hyt
    refine ⟨gg, fun s => q * F s + G s, q * F' + G', ?_, (f2.const_mul _).add g2, ?_⟩
    · filter_upwards [f1, g1] with s k1 k2
      simp only [evT, k1, k2, Option.bind_some, Option.map_some]
    · rw [g3]; congr 1; ring
theorem diff_factors : ∀ (fs : CFactors) (e ret r : Cell) (M z0 : ℝ), RcG S fs → NFG fs →
    diffG A n x e ret fs = .ok r → SmoothG (w t) fs → Good S e → ev (w t) e = some M →
    Good S ret → ev (w t) ret = some z0 →
    ∀ y, evG (w t) fs = some y → Good S r ∧ ∃ F : ℝ → ℝ, ∃ d,
      (∀ᶠ s in 𝓝 t, evG (w s) fs = some (F s)) ∧ HasDerivAt F d t ∧ F t ≠ 0 ∧
      ev (w t) r = some (z0 + M * d / F t)
  | .nil, e, ret, r, M, z0, _, _, h, _, _, _, gr, hr, y, hy => by
    simp only [diffG, Run.ok.injEq] at h
    subst h
    exact ⟨gr, fun _ => 1, 0, Filter.Eventually.of_forall fun s => rfl, hasDerivAt_const t 1,
      one_ne_zero, by simpa using hr⟩
  | .cons b g fs, e, ret, r, M, z0, hrc, hnf, h, hs, ge, he, gr, hr, y, hy => by
    have all := norm_all hA hS hI n
    obtain ⟨yb, yg, p, m, hyb, hyg, hp, hm, _⟩ := evG_cons.mp hy
    obtain ⟨db, e1, h⟩ := bindR_ok h
    obtain ⟨dg, e2, h⟩ := bindR_ok h
    obtain ⟨d, e3, h⟩ := bindR_ok h
    obtain ⟨u, e4, h⟩ := bindR_ok h
    obtain ⟨k, e5, h⟩ := bindR_ok h
    obtain ⟨q, e6, h⟩ := bindR_ok h
    obtain ⟨z, e7, h⟩ := bindR_ok h
    obtain ⟨ret', e8, h⟩ := bindR_ok h
    have gb : Good S b := ⟨hrc.1, hnf.1⟩
    have gg : Good S g := ⟨hrc.2.1, hnf.2.1⟩
    obtain ⟨gdb, F, F', f1, f2, f3⟩ := diff_cell b db gb e1 hs.1 yb hyb
    obtain ⟨gdg, G, G', g1, g2, g3⟩ := diff_cell g dg gg e2 hs.2.1 yg hyg
    have hF := f1.self_of_nhds
    have hG := g1.self_of_nhds
    obtain ⟨hsm, h0⟩ := hs.2.2.1 _ hF
    obtain ⟨gd, P, P', p1, p2, p3⟩ := powRule_deriv hA hS hI (hv t) gb gg gdb gdg hnf.2.2.1 e3
      f1 f2 g1 g2 f3 g3 hsm
    obtain ⟨gu, wu⟩ := all.mul _ _ _ ge gd e4
    obtain ⟨gk, wk⟩ := negE_ok hA hS hI gg e5
    obtain ⟨gq, wq⟩ := all.pow _ _ _ gb gk hnf.2.2.1 e6
    obtain ⟨gz, wz⟩ := all.mul _ _ _ gu gq e7
    obtain ⟨gr', wr'⟩ := all.add _ _ _ gr gz e8
    obtain ⟨hp0, hp1⟩ := pw_neg_exp h0 p1.self_of_nhds
    have hr' := wr' _ _ _ hr (wz _ _ _ (wu _ _ _ he p3) (wq _ _ _ _ hF (wk _ _ hG) hp1))
    obtain ⟨gg, Q, Q', q1, q2, q0, q3⟩ := diff_factors fs e ret' r M _ hrc.2.2 hnf.2.2.2.2 h
      hs.2.2.2 ge he gr' hr' m hm
    refine ⟨gg, fun s => P s * Q s, P' * Q t + P t * Q', ?_, p2.mul q2, mul_ne_zero hp0 q0, ?_⟩
    · filter_upwards [f1, g1, p1, q1] with s k1 k2 k3 k4
      simp only [evG, k1, k2, k3, k4, Option.bind_some, Option.map_some]
    · rw [q3]; congr 1
      field_simp
      ring
end

end Main

end Along

end Verif.Proof
