import Verif.Spec.Expand
import Verif.Proof.ExprNorm
import Verif.Proof.Diff
import Verif.Proof.Evaluate

/-!
# Lemmas on expansion and substitution
-/

namespace Verif.Proof
open Verif Verif.Model Verif.Spec

/-! ## The functions that simplify -/

section Mk
variable {S : RC → Prop} {v : CVal}

theorem good_absE {a : Cell} (h : Good S a) : Good S (absE a) := by
  unfold absE
  split
  · exact good_const _ _
  · exact ⟨h.1, h.2⟩

theorem ev_absE (hv : StdOps v) {a : Cell} {x : ℝ} (hx : ev v a = some x) :
    ev v (absE a) = some |x| := by
  unfold absE
  split
  · simp only [ev, Option.some.injEq] at hx ⊢
    rw [← hx]; push_cast; rfl
  · simp [ev, hx, hv.abs]

theorem good_mkUn {f : Fn1} {a : Cell} (h : Good S a) : Good S (mkUn f a) := by
  unfold mkUn
  split
  · exact good_absE h
  · exact good_sqrtE h
  · exact ⟨h.1, h.2⟩

theorem ev_mkUn (hv : StdOps v) {f : Fn1} {a : Cell} {x y : ℝ} (hx : ev v a = some x)
    (hy : v.un f x = some y) : ev v (mkUn f a) = some y := by
  unfold mkUn
  split
  · rw [ev_absE hv hx, ← hy, hv.abs]
  · have hgen : ev v (.un .sqrt a) = some y := by simp [ev, hx, hy]
    have h0 : 0 ≤ x := by
      by_contra h0
      rw [hv.sqrt, if_neg h0] at hy
      cases hy
    rw [hv.sqrt, if_pos h0, Option.some.injEq] at hy
    unfold sqrtE
    split
    · split_ifs with h
      · subst h
        obtain ⟨z, p, hz, hp, hw⟩ := ev_pow.mp hx
        simp only [ev, Option.some.injEq, Rat.cast_ofNat] at hp
        rw [← hp, pw_two, Option.some.injEq] at hw
        rw [ev_absE hv hz, ← hy, ← hw, Real.sqrt_mul_self_eq_abs]
      · exact hgen
    · exact hgen
  · simp [ev, hx, hy]

theorem good_minE {a b : Cell} (ha : Good S a) (hb : Good S b) : Good S (minE a b) := by
  unfold minE
  split_ifs
  · exact ha
  · split
    · exact good_const _ _
    · exact ⟨⟨ha.1, hb.1⟩, ha.2, hb.2, by simp⟩

theorem good_maxE {a b : Cell} (ha : Good S a) (hb : Good S b) : Good S (maxE a b) := by
  unfold maxE
  split_ifs
  · exact ha
  · split
    · exact good_const _ _
    · exact ⟨⟨ha.1, hb.1⟩, ha.2, hb.2, by simp⟩

theorem ev_minE (hv : StdOps v) {a b : Cell} {x y : ℝ} (hx : ev v a = some x)
    (hy : ev v b = some y) : ev v (minE a b) = some (min x y) := by
  unfold minE
  split_ifs with h
  · rw [equalTo_iff] at h
    subst h
    obtain rfl : x = y := by rw [hx] at hy; simpa using hy
    rw [hx, min_self]
  · split
    · rename_i p q
      simp only [ev, Option.some.injEq] at hx hy ⊢
      rw [← hx, ← hy]
      split_ifs with h
      · rw [min_eq_right (by exact_mod_cast h.le)]
      · rw [min_eq_left (by exact_mod_cast not_lt.mp h)]
    · simp [ev, hx, hy, hv.min]

theorem ev_maxE (hv : StdOps v) {a b : Cell} {x y : ℝ} (hx : ev v a = some x)
    (hy : ev v b = some y) : ev v (maxE a b) = some (max x y) := by
  unfold maxE
  split_ifs with h
  · rw [equalTo_iff] at h
    subst h
    obtain rfl : x = y := by rw [hx] at hy; simpa using hy
    rw [hx, max_self]
  · split
    · rename_i p q
      simp only [ev, Option.some.injEq] at hx hy ⊢
      rw [← hx, ← hy]
      split_ifs with h
      · rw [max_eq_right (by exact_mod_cast h.le)]
      · rw [max_eq_left (by exact_mod_cast not_lt.mp h)]
    · simp [ev, hx, hy, hv.max]

/-- The value of a function of two arguments. -/
noncomputable def binVal (v : CVal) (f : Fn2) (x y : ℝ) : Option ℝ :=
  match f with
  | .div => quo x y
  | .pow => pw x y
  | f => v.bin f x y

theorem ev_binVal (v : CVal) {f : Fn2} {a b : Cell} {z : ℝ} :
    ev v (.bin f a b) = some z ↔
      ∃ x y, ev v a = some x ∧ ev v b = some y ∧ binVal v f x y = some z := by
  simp only [ev, Option.bind_eq_some_iff, binVal]
  constructor
  · rintro ⟨x, hx, y, hy, h⟩
    exact ⟨x, y, hx, hy, h⟩
  · rintro ⟨x, y, hx, hy, h⟩
    exact ⟨x, hx, y, hy, h⟩

theorem mkBin_ok {A : Arith} (hA : Arith.Exact A) (hI : NoInt S) (hS : Apart S) {n : Nat} {f : Fn2}
    {a b r : Cell} (ha : Good S a) (hb : Good S b)
    (hp : f = .pow → ¬ PowInt a ∨ ∃ q, b = .const q ∧ isInt32 q = true)
    (h : mkBin A n f a b = .ok r) : Good S r ∧ ∀ v, StdOps v → ∀ x y z, ev v a = some x →
      ev v b = some y → binVal v f x y = some z → ev v r = some z := by
  have ih := norm_all hA hS hI n
  unfold mkBin at h
  split at h
  · obtain ⟨g, w⟩ := ih.div a b r ha hb h
    refine ⟨g, fun v _ x y z hx hy hz => ?_⟩
    simp only [binVal, quo] at hz
    split_ifs at hz with h0
    rw [← hz]
    exact w v x y hx hy h0
  · exact ⟨pow_good hA hI a b r ha hb (hp rfl) h, fun v _ x y z hx hy hz =>
      pow_ev hA hI a b r ha.1 h v x y z hx hy hz⟩
  · cases h
    refine ⟨⟨⟨ha.1, hb.1⟩, ha.2, hb.2, by simp⟩, fun v _ x y z hx hy hz => ?_⟩
    exact (ev_binVal v).mpr ⟨x, y, hx, hy, hz⟩
  · cases h
    refine ⟨good_minE ha hb, fun v hv x y z hx hy hz => ?_⟩
    rw [ev_minE hv hx hy, ← hz]; simp [binVal, hv.min]
  · cases h
    refine ⟨good_maxE ha hb, fun v hv x y z hx hy hz => ?_⟩
    rw [ev_maxE hv hx hy, ← hz]; simp [binVal, hv.max]

end Mk

/-! ## Expansion of products -/

section Ex
variable {A : Arith} {S : RC → Prop}

theorem good_termCons {e : Cell} {q : ℚ} {ts : CTerms} (h : RcT S (.cons e q ts) ∧ NFT (.cons e q ts)) :
    Good S e ∧ RcT S ts ∧ NFT ts := ⟨⟨h.1.1, h.2.1⟩, h.1.2, h.2.2.2.2⟩

theorem expMul_all (hA : Arith.Exact A) (hS : Apart S) (hI : NoInt S) : ∀ n,
    (∀ a b r, Good S a → Good S b → expMul A n a b = .ok r → Good S r ∧
      ∀ v x y, ev v a = some x → ev v b = some y → ev v r = some (x * y)) ∧
    (∀ r ts b r', Good S r → (RcT S ts ∧ NFT ts) → Good S b → expMulL A n r ts b = .ok r' →
      Good S r' ∧ ∀ v z s y, ev v r = some z → evT v ts = some s → ev v b = some y →
        ev v r' = some (z + s * y)) ∧
    (∀ r a ts r', Good S r → Good S a → (RcT S ts ∧ NFT ts) → expMulR A n r a ts = .ok r' →
      Good S r' ∧ ∀ v z x s, ev v r = some z → ev v a = some x → evT v ts = some s →
        ev v r' = some (z + x * s))
  | 0 => by
    refine ⟨?_, ?_, ?_⟩ <;> intros <;> simp_all [expMul, expMulL, expMulR]
  | n + 1 => by
    obtain ⟨i1, i2, i3⟩ := expMul_all hA hS hI n
    have ih := norm_all hA hS hI n
    refine ⟨?_, ?_, ?_⟩
    · intro a b r ha hb h
      unfold expMul at h
      split at h
      · rename_i c ts
        obtain ⟨r1, e1, e2⟩ := bindR_ok h
        obtain ⟨g1, w1⟩ := i1 _ _ _ (good_const S c) hb e1
        obtain ⟨g2, w2⟩ := i2 _ _ _ _ g1 ⟨ha.1, ha.2.1⟩ hb e2
        refine ⟨g2, fun v x y hx hy => ?_⟩
        simp only [ev, Option.map_eq_some_iff] at hx
        obtain ⟨s, hs, rfl⟩ := hx
        rw [w2 v _ s y (w1 v c y (by simp [ev]) hy) hs hy]
        congr 1; ring
      · rename_i c ts _
        obtain ⟨r1, e1, e2⟩ := bindR_ok h
        obtain ⟨g1, w1⟩ := i1 _ _ _ ha (good_const S c) e1
        obtain ⟨g2, w2⟩ := i3 _ _ _ _ g1 ha ⟨hb.1, hb.2.1⟩ e2
        refine ⟨g2, fun v x y hx hy => ?_⟩
        simp only [ev, Option.map_eq_some_iff] at hy
        obtain ⟨s, hs, rfl⟩ := hy
        rw [w2 v _ x s (w1 v x c hx (by simp [ev])) hx hs]
        congr 1; ring
      · obtain ⟨p, e1, h⟩ := bindR_ok h
        obtain ⟨q, e2, e3⟩ := bindR_ok h
        obtain ⟨g1, w1⟩ := i1 _ _ _ (good_bin ha).1 (good_bin hb).1 e1
        obtain ⟨g2, w2⟩ := i1 _ _ _ (good_bin ha).2 (good_bin hb).2 e2
        obtain ⟨g3, w3⟩ := ih.div _ _ _ g1 g2 e3
        refine ⟨g3, fun v x y hx hy => ?_⟩
        obtain ⟨x1, x2, k1, k2, k3, rfl⟩ := ev_div hx
        obtain ⟨y1, y2, l1, l2, l3, rfl⟩ := ev_div hy
        rw [w3 v _ _ (w1 v _ _ k1 l1) (w2 v _ _ k2 l2) (mul_ne_zero k3 l3)]
        congr 1; rw [div_mul_div_comm]
      · obtain ⟨p, e1, e3⟩ := bindR_ok h
        obtain ⟨g1, w1⟩ := i1 _ _ _ (good_bin ha).1 hb e1
        obtain ⟨g3, w3⟩ := ih.div _ _ _ g1 (good_bin ha).2 e3
        refine ⟨g3, fun v x y hx hy => ?_⟩
        obtain ⟨x1, x2, k1, k2, k3, rfl⟩ := ev_div hx
        rw [w3 v _ _ (w1 v _ _ k1 hy) k2 k3]
        congr 1; ring
      · obtain ⟨p, e1, e3⟩ := bindR_ok h
        obtain ⟨g1, w1⟩ := i1 _ _ _ ha (good_bin hb).1 e1
        obtain ⟨g3, w3⟩ := ih.div _ _ _ g1 (good_bin hb).2 e3
        refine ⟨g3, fun v x y hx hy => ?_⟩
        obtain ⟨y1, y2, l1, l2, l3, rfl⟩ := ev_div hy
        rw [w3 v _ _ (w1 v _ _ hx l1) l2 l3]
        congr 1; ring
      · exact ih.mul _ _ _ ha hb h
    · intro r ts b r' hr ht hb h
      unfold expMulL at h
      split at h
      · cases h
        refine ⟨hr, fun v z s y hz hs hy => ?_⟩
        simp only [evT, Option.some.injEq] at hs
        rw [hz, ← hs]; simp
      · rename_i e q ts
        obtain ⟨he, ht⟩ := good_termCons ht
        obtain ⟨p, e1, h⟩ := bindR_ok h
        obtain ⟨k, e2, h⟩ := bindR_ok h
        obtain ⟨l, e3, e4⟩ := bindR_ok h
        obtain ⟨g1, w1⟩ := i1 _ _ _ (good_const S q) he e1
        obtain ⟨g2, w2⟩ := i1 _ _ _ g1 hb e2
        obtain ⟨g3, w3⟩ := ih.add _ _ _ hr g2 e3
        obtain ⟨g4, w4⟩ := i2 _ _ _ _ g3 ht hb e4
        refine ⟨g4, fun v z s y hz hs hy => ?_⟩
        simp only [evT, Option.bind_eq_some_iff, Option.map_eq_some_iff] at hs
        obtain ⟨x, hx, s', hs', rfl⟩ := hs
        rw [w4 v _ s' y (w3 v _ _ hz (w2 v _ _ (w1 v q x (by simp [ev]) hx) hy)) hs' hy]
        congr 1; ring
    · intro r a ts r' hr ha ht h
      unfold expMulR at h
      split at h
      · cases h
        refine ⟨hr, fun v z x s hz hx hs => ?_⟩
        simp only [evT, Option.some.injEq] at hs
        rw [hz, ← hs]; simp
      · rename_i e q ts
        obtain ⟨he, ht⟩ := good_termCons ht
        obtain ⟨p, e1, h⟩ := bindR_ok h
        obtain ⟨k, e2, h⟩ := bindR_ok h
        obtain ⟨l, e3, e4⟩ := bindR_ok h
        obtain ⟨g1, w1⟩ := i1 _ _ _ ha (good_const S q) e1
        obtain ⟨g2, w2⟩ := i1 _ _ _ g1 he e2
        obtain ⟨g3, w3⟩ := ih.add _ _ _ hr g2 e3
        obtain ⟨g4, w4⟩ := i3 _ _ _ _ g3 ha ht e4
        refine ⟨g4, fun v z x s hz hx hs => ?_⟩
        simp only [evT, Option.bind_eq_some_iff, Option.map_eq_some_iff] at hs
        obtain ⟨y, hy, s', hs', rfl⟩ := hs
        rw [w4 v _ x s' (w3 v _ _ hz (w2 v _ _ (w1 v x q hx (by simp [ev])) hy)) hx hs']
        congr 1; ring

theorem expMul_ok (hA : Arith.Exact A) (hS : Apart S) (hI : NoInt S) {n : Nat} {a b r : Cell}
    (ha : Good S a) (hb : Good S b) (h : expMul A n a b = .ok r) : Good S r ∧
      ∀ v x y, ev v a = some x → ev v b = some y → ev v r = some (x * y) :=
  (expMul_all hA hS hI n).1 a b r ha hb h

theorem expPowN_ok (hA : Arith.Exact A) (hS : Apart S) (hI : NoInt S) {b : Cell} (hb : Good S b) :
    ∀ (n k : Nat) (r : Cell), expPowN A n b k = .ok r → Good S r ∧
      ∀ v x, ev v b = some x → ev v r = some (x ^ k)
  | 0, k, r, h => by simp [expPowN] at h
  | n + 1, k, r, h => by
    unfold expPowN at h
    by_cases h0 : k = 0
    · rw [if_pos h0] at h; cases h
    rw [if_neg h0] at h
    by_cases h1 : k = 1
    · rw [if_pos h1] at h
      cases h
      subst h1
      exact ⟨hb, fun v x hx => by rw [hx, pow_one]⟩
    · rw [if_neg h1] at h
      obtain ⟨p, e1, h⟩ := bindR_ok h
      obtain ⟨g1, w1⟩ := expPowN_ok hA hS hI hb n _ p e1
      have hk := Nat.div_add_mod k 2
      split_ifs at h with h2
      · obtain ⟨t, e2, e3⟩ := bindR_ok h
        obtain ⟨g2, w2⟩ := expMul_ok hA hS hI hb g1 e2
        obtain ⟨g3, w3⟩ := expMul_ok hA hS hI g2 g1 e3
        refine ⟨g3, fun v x hx => ?_⟩
        rw [w3 v _ _ (w2 v _ _ hx (w1 v x hx)) (w1 v x hx)]
        congr 1
        rw [h2] at hk
        conv_rhs => rw [← hk]
        ring
      · obtain ⟨g2, w2⟩ := expMul_ok hA hS hI g1 g1 h
        refine ⟨g2, fun v x hx => ?_⟩
        rw [w2 v _ _ (w1 v x hx) (w1 v x hx)]
        congr 1
        have h3 : k % 2 = 0 := by omega
        rw [h3] at hk
        conv_rhs => rw [← hk]
        ring

theorem expPow_ok (hA : Arith.Exact A) (hS : Apart S) (hI : NoInt S) {n : Nat} {a b r : Cell}
    (ha : Good S a) (hb : Good S b) (hn : ¬ PowInt a ∨ ∃ q, b = .const q ∧ isInt32 q = true)
    (h : expPow A n a b = .ok r) : Good S r ∧
      ∀ v x y z, ev v a = some x → ev v b = some y → pw x y = some z → ev v r = some z := by
  have gen : ∀ a b, Good S a → Good S b → (¬ PowInt a ∨ ∃ q, b = .const q ∧ isInt32 q = true) →
      powE A n a b = .ok r → Good S r ∧
      ∀ v x y z, ev v a = some x → ev v b = some y → pw x y = some z → ev v r = some z :=
    fun a b ha hb hn h => ⟨pow_good hA hI a b r ha hb hn h, fun v x y z hx hy hz =>
      pow_ev hA hI a b r ha.1 h v x y z hx hy hz⟩
  unfold expPow at h
  split at h
  · rename_i c ts q
    split_ifs at h with hq
    · exact gen _ _ ha hb hn h
    · simp only [not_or, not_le, Bool.not_eq_false] at hq
      obtain ⟨g, w⟩ := expPowN_ok hA hS hI ha n _ r h
      refine ⟨g, fun v x y z hx hy hz => ?_⟩
      rw [w v x hx]
      simp only [ev, Option.some.injEq] at hy
      have hd : q.den = 1 := by
        have := hq.2
        simp only [isInt32, decide_eq_true_eq] at this
        exact this.2.2
      have hqn : (q : ℝ) = ((q.num.toNat : ℕ) : ℝ) := by
        have h1 : (q.num.toNat : ℤ) = q.num := Int.toNat_of_nonneg (Rat.num_nonneg.mpr hq.1.le)
        calc (q : ℝ) = ((q.num : ℚ) : ℝ) := by rw [(Rat.den_eq_one_iff q).mp hd]
          _ = ((q.num : ℤ) : ℝ) := by push_cast; rfl
          _ = (((q.num.toNat : ℕ) : ℤ) : ℝ) := by rw [h1]
          _ = _ := by push_cast; rfl
      rw [← hy, hqn, pw_nat] at hz
      exact hz
  · exact gen _ _ ha hb hn h

theorem divTerms_ok (hA : Arith.Exact A) (hS : Apart S) (hI : NoInt S) {n : Nat} {q : ℚ} :
    ∀ (ts : CTerms) (c : ℚ) (us : CTerms) (c' : ℚ) (us' : CTerms), RcT S ts ∧ NFT ts → GoodT S us →
      divTerms A n q (c, us) ts = .ok (c', us') → GoodT S us' ∧ ∀ v u s, evT v us = some u →
        evT v ts = some s → ∃ u', evT v us' = some u' ∧ (c' : ℝ) + u' = c + u + s / q
  | .nil, c, us, c', us', _, hu, h => by
    simp only [divTerms, Run.ok.injEq, Prod.mk.injEq] at h
    obtain ⟨rfl, rfl⟩ := h
    refine ⟨hu, fun v u s h1 h2 => ⟨u, h1, ?_⟩⟩
    simp only [evT, Option.some.injEq] at h2
    rw [← h2]; simp
  | .cons e p ts, c, us, c', us', ht, hu, h => by
    obtain ⟨he, ht⟩ := good_termCons ht
    have ih := norm_all hA hS hI n
    obtain ⟨x, e1, h⟩ := bindR_ok h
    obtain ⟨⟨d, ws⟩, e2, e3⟩ := bindR_ok h
    obtain ⟨g1, w1⟩ := ih.mul _ _ _ (good_const S _) he e1
    obtain ⟨g2, w2⟩ := ih.addX _ _ _ _ _ hu g1 e2
    obtain ⟨g3, w3⟩ := divTerms_ok hA hS hI ts d ws c' us' ht g2 e3
    refine ⟨g3, fun v u s h1 h2 => ?_⟩
    simp only [evT, Option.bind_eq_some_iff, Option.map_eq_some_iff] at h2
    obtain ⟨y, hy, s', hs', rfl⟩ := h2
    obtain ⟨u1, k1, k2⟩ := w2 v u _ h1 (w1 v ((A.rnd (p / q) : ℚ) : ℝ) y (by simp [ev]) hy)
    obtain ⟨u2, k3, k4⟩ := w3 v u1 s' k1 hs'
    refine ⟨u2, k3, ?_⟩
    rw [k4, k2, hA.rnd]; push_cast; ring

theorem divE_const (hA : Arith.Exact A) (hS : Apart S) (hI : NoInt S) {n : Nat} {q : ℚ} {e r : Cell}
    (he : Good S e) (h : divE A n e (.const q) = .ok r) :
    Good S r ∧ ∀ v x, q ≠ 0 → ev v e = some x → ev v r = some (x / q) := by
  obtain ⟨g, w⟩ := (norm_all hA hS hI n).div _ _ _ he (good_const S q) h
  exact ⟨g, fun v x hq hx => w v x q hx (by simp [ev]) (by exact_mod_cast hq)⟩

theorem divSimp_ok (hA : Arith.Exact A) (hS : Apart S) (hI : NoInt S) {n : Nat} :
    ∀ (e : Cell) (q : ℚ) (r : Cell), Good S e → divSimp A n e q = .ok r →
      Good S r ∧ ∀ v x, q ≠ 0 → ev v e = some x → ev v r = some (x / q)
  | .const _, q, r, he, h => divE_const hA hS hI he h
  | .rconst .., q, r, he, h => divE_const hA hS hI he h
  | .var _, q, r, he, h => divE_const hA hS hI he h
  | .un .., q, r, he, h => divE_const hA hS hI he h
  | .ite .., q, r, he, h => divE_const hA hS hI he h
  | .uf .., q, r, he, h => divE_const hA hS hI he h
  | .nan, q, r, he, h => by simp [divSimp] at h
  | .add c ts, q, r, he, h => by
    have ih := norm_all hA hS hI n
    simp only [divSimp] at h
    split at h
    · cases h
    obtain ⟨⟨d, us⟩, e1, e2⟩ := bindR_ok h
    obtain ⟨g1, w1⟩ := divTerms_ok hA hS hI ts _ _ _ _ ⟨he.1, he.2.1⟩ (good_nilT S) e1
    obtain ⟨g2, w2⟩ := ih.getA _ _ _ g1 e2
    refine ⟨g2, fun v x hq hx => ?_⟩
    simp only [ev, Option.map_eq_some_iff] at hx
    obtain ⟨s, hs, rfl⟩ := hx
    obtain ⟨u, k1, k2⟩ := w1 v 0 s (by simp [evT]) hs
    rw [w2 v u k1, k2, hA.rnd]
    congr 1; push_cast; ring
  | .mul c fs, q, r, he, h => by
    have ih := norm_all hA hS hI n
    simp only [divSimp] at h
    split at h
    · cases h
    obtain ⟨g2, w2⟩ := ih.getM _ _ _ (good_mul he) h
    refine ⟨g2, fun v x hq hx => ?_⟩
    simp only [ev, Option.map_eq_some_iff] at hx
    obtain ⟨s, hs, rfl⟩ := hx
    rw [w2 v s hs, hA.rnd]
    congr 1; push_cast; ring
  | .bin .pow a b, q, r, he, h => divE_const hA hS hI he h
  | .bin .atan2 a b, q, r, he, h => divE_const hA hS hI he h
  | .bin .min a b, q, r, he, h => divE_const hA hS hI he h
  | .bin .max a b, q, r, he, h => divE_const hA hS hI he h
  | .bin .div a b, q, r, he, h => by
    have ih := norm_all hA hS hI n
    have gen : (do let x ← divSimp A n a q; divE A n x b) = Run.ok r →
        Good S r ∧ ∀ v x, q ≠ 0 → ev v (.bin .div a b) = some x → ev v r = some (x / q) := by
      intro h
      obtain ⟨x, e1, e2⟩ := bindR_ok h
      obtain ⟨g1, w1⟩ := divSimp_ok hA hS hI a q x (good_bin he).1 e1
      obtain ⟨g2, w2⟩ := ih.div _ _ _ g1 (good_bin he).2 e2
      refine ⟨g2, fun v z hq hz => ?_⟩
      obtain ⟨x1, x2, k1, k2, k3, rfl⟩ := ev_div hz
      rw [w2 v _ _ (w1 v x1 hq k1) k2 k3]
      congr 1; rw [div_right_comm]
    cases b with
    | const m =>
      simp only [divSimp] at h
      obtain ⟨g1, w1⟩ := divSimp_ok hA hS hI a _ r (good_bin he).1 h
      refine ⟨g1, fun v z hq hz => ?_⟩
      obtain ⟨x1, x2, k1, k2, k3, rfl⟩ := ev_div hz
      simp only [ev, Option.some.injEq] at k2
      have hm : m ≠ 0 := by rintro rfl; exact k3 (by rw [← k2]; simp)
      rw [hA.rnd] at w1
      rw [w1 v x1 (mul_ne_zero hm hq) k1, ← k2]
      congr 1; push_cast; rw [div_div]
    | rconst _ _ _ => exact gen h
    | var _ => exact gen h
    | add _ _ => exact gen h
    | mul _ _ => exact gen h
    | un _ _ => exact gen h
    | bin _ _ _ => exact gen h
    | ite _ _ _ => exact gen h
    | nan => exact gen h
    | uf _ _ => exact gen h

/-! ## Expansion -/

section Expansion
variable (hA : Arith.Exact A) (hS : Apart S) (hI : NoInt S) {n : Nat}
include hA hS hI

/-- What is said of an expression and what it becomes. -/
def SameVal (S : RC → Prop) (e r : Cell) : Prop :=
  Good S r ∧ ∀ v, StdOps v → ∀ x, ev v e = some x → ev v r = some x

theorem expand_pow {a b r : Cell} {g : Cell → Run Cell}
    (hr : (∃ q, b = .const q ∧ isInt32 q = true) ∨ ∀ a', g a = .ok a' → ¬ PowInt a')
    (hg : ∀ q, g (.const q) = .ok (.const q)) {a' b' : Cell} (ea : g a = .ok a')
    (eb : g b = .ok b') (ga : Good S a') (gb : Good S b') (h : expPow A n a' b' = .ok r) :
    Good S r ∧ ∀ v x y z, ev v a' = some x → ev v b' = some y → pw x y = some z →
      ev v r = some z := by
  refine expPow_ok hA hS hI ga gb ?_ h
  rcases hr with ⟨q, rfl, hq⟩ | hr
  · rw [hg, Run.ok.injEq] at eb
    exact .inr ⟨q, eb.symm, hq⟩
  · exact .inl (hr a' ea)

mutual
theorem expand_cell : ∀ e r : Cell, Good S e → Rooted (expandC A n) e → expandC A n e = .ok r →
    SameVal S e r
  | .const q, r, he, _, h => by cases h; exact ⟨he, fun v _ x hx => hx⟩
  | .rconst .., r, he, _, h => by cases h; exact ⟨he, fun v _ x hx => hx⟩
  | .var _, r, he, _, h => by cases h; exact ⟨he, fun v _ x hx => hx⟩
  | .uf .., r, he, _, h => by cases h; exact ⟨he, fun v _ x hx => hx⟩
  | .ite .., r, he, _, h => by simp [expandC] at h
  | .nan, r, he, _, h => by simp [expandC] at h
  | .add c ts, r, he, hr, h => by
    simp only [expandC] at h
    obtain ⟨g, w⟩ := expand_terms ts (.const c) r (good_const S c) ⟨he.1, he.2.1⟩ hr h
    refine ⟨g, fun v hv x hx => ?_⟩
    simp only [ev, Option.map_eq_some_iff] at hx
    obtain ⟨s, hs, rfl⟩ := hx
    exact w v hv c s (by simp [ev]) hs
  | .mul c fs, r, he, hr, h => by
    simp only [expandC] at h
    obtain ⟨g, w⟩ := expand_factors fs (.const c) r (good_const S c) ⟨he.1, he.2.2.1⟩ hr h
    refine ⟨g, fun v hv x hx => ?_⟩
    simp only [ev, Option.map_eq_some_iff] at hx
    obtain ⟨s, hs, rfl⟩ := hx
    exact w v hv c s (by simp [ev]) hs
  | .un f a, r, he, hr, h => by
    simp only [expandC] at h
    obtain ⟨a', e1, h⟩ := bindR_ok h
    obtain ⟨g, w⟩ := expand_cell a a' ⟨he.1, he.2⟩ hr e1
    split at h
    · cases h
      exact ⟨he, fun v _ x hx => hx⟩
    · cases h
      refine ⟨good_mkUn g, fun v hv x hx => ?_⟩
      simp only [ev, Option.bind_eq_some_iff] at hx
      obtain ⟨y, hy, hx⟩ := hx
      exact ev_mkUn hv (w v hv y hy) hx
  | .bin f a b, r, he, hr, h => by
    obtain ⟨ra, rb, rp⟩ := hr
    by_cases hd : f = .div ∧ ∃ q, b = .const q
    · obtain ⟨rfl, q, rfl⟩ := hd
      simp only [expandC] at h
      obtain ⟨a', e1, h⟩ := bindR_ok h
      obtain ⟨g, w⟩ := expand_cell a a' (good_bin he).1 ra e1
      obtain ⟨g2, w2⟩ := divSimp_ok hA hS hI a' q r g h
      refine ⟨g2, fun v hv x hx => ?_⟩
      obtain ⟨x1, x2, k1, k2, k3, rfl⟩ := ev_div hx
      simp only [ev, Option.some.injEq] at k2
      rw [← k2]
      exact w2 v x1 (by rintro rfl; exact k3 (by rw [← k2]; simp)) (w v hv x1 k1)
    · by_cases hp : f = .pow
      · subst hp
        simp only [expandC] at h
        obtain ⟨a', e1, h⟩ := bindR_ok h
        obtain ⟨b', e2, h⟩ := bindR_ok h
        obtain ⟨g1, w1⟩ := expand_cell a a' (good_bin he).1 ra e1
        obtain ⟨g2, w2⟩ := expand_cell b b' (good_bin he).2 rb e2
        obtain ⟨g3, w3⟩ := expand_pow hA hS hI (rp rfl) (fun q => rfl) e1 e2 g1 g2 h
        refine ⟨g3, fun v hv x hx => ?_⟩
        obtain ⟨y, z, hy, hz, hx⟩ := ev_pow.mp hx
        exact w3 v y z x (w1 v hv y hy) (w2 v hv z hz) hx
      · have h' : (do
            let a' ← expandC A n a
            let b' ← expandC A n b
            if a.equalTo a' && b.equalTo b' then Run.ok (.bin f a b) else mkBin A n f a' b') =
              Run.ok r := by
          rw [← h]
          cases f with
          | div =>
            cases b with
            | const q => exact absurd ⟨rfl, q, rfl⟩ hd
            | _ => rfl
          | pow => exact absurd rfl hp
          | _ => rfl
        obtain ⟨a', e1, h⟩ := bindR_ok h'
        obtain ⟨b', e2, h⟩ := bindR_ok h
        obtain ⟨g1, w1⟩ := expand_cell a a' (good_bin he).1 ra e1
        obtain ⟨g2, w2⟩ := expand_cell b b' (good_bin he).2 rb e2
        split at h
        · cases h
          exact ⟨he, fun v _ x hx => hx⟩
        · obtain ⟨g3, w3⟩ := mkBin_ok hA hI hS g1 g2 (fun e => absurd e hp) h
          refine ⟨g3, fun v hv x hx => ?_⟩
          obtain ⟨y, z, hy, hz, hx⟩ := (ev_binVal v).mp hx
          exact w3 v hv y z x (w1 v hv y hy) (w2 v hv z hz) hx
theorem expand_terms : ∀ (ts : CTerms) (r r' : Cell), Good S r → RcT S ts ∧ NFT ts →
    RootedT (expandC A n) ts → expandT A n r ts = .ok r' → Good S r' ∧
      ∀ v, StdOps v → ∀ z s, ev v r = some z → evT v ts = some s → ev v r' = some (z + s)
  | .nil, r, r', hr, _, _, h => by
    cases h
    refine ⟨hr, fun v _ z s hz hs => ?_⟩
    simp only [evT, Option.some.injEq] at hs
    rw [hz, ← hs]; simp
  | .cons e q ts, r, r', hr, ht, hk, h => by
    obtain ⟨he, ht⟩ := good_termCons ht
    simp only [expandT] at h
    obtain ⟨x, e1, h⟩ := bindR_ok h
    obtain ⟨y, e2, h⟩ := bindR_ok h
    obtain ⟨p, e3, e4⟩ := bindR_ok h
    obtain ⟨g1, w1⟩ := expand_cell e x he hk.1 e1
    obtain ⟨g2, w2⟩ := expMul_ok hA hS hI g1 (good_const S q) e2
    obtain ⟨g3, w3⟩ := (norm_all hA hS hI n).add _ _ _ hr g2 e3
    obtain ⟨g4, w4⟩ := expand_terms ts p r' g3 ht hk.2 e4
    refine ⟨g4, fun v hv z s hz hs => ?_⟩
    simp only [evT, Option.bind_eq_some_iff, Option.map_eq_some_iff] at hs
    obtain ⟨y, hy, s', hs', rfl⟩ := hs
    rw [w4 v hv _ s' (w3 v _ _ hz (w2 v _ q (w1 v hv y hy) (by simp [ev]))) hs']
    congr 1; ring
theorem expand_factors : ∀ (fs : CFactors) (r r' : Cell), Good S r → RcG S fs ∧ NFG fs →
    RootedG (expandC A n) fs → expandG A n r fs = .ok r' → Good S r' ∧
      ∀ v, StdOps v → ∀ z s, ev v r = some z → evG v fs = some s → ev v r' = some (z * s)
  | .nil, r, r', hr, _, _, h => by
    cases h
    refine ⟨hr, fun v _ z s hz hs => ?_⟩
    simp only [evG, Option.some.injEq] at hs
    rw [hz, ← hs]; simp
  | .cons a b fs, r, r', hr, ht, hk, h => by
    simp only [expandG] at h
    obtain ⟨a', e1, h⟩ := bindR_ok h
    obtain ⟨b', e2, h⟩ := bindR_ok h
    obtain ⟨p, e3, h⟩ := bindR_ok h
    obtain ⟨r1, e4, e5⟩ := bindR_ok h
    obtain ⟨g1, w1⟩ := expand_cell a a' ⟨ht.1.1, ht.2.1⟩ hk.1 e1
    obtain ⟨g2, w2⟩ := expand_cell b b' ⟨ht.1.2.1, ht.2.2.1⟩ hk.2.1 e2
    obtain ⟨g3, w3⟩ := expand_pow hA hS hI hk.2.2.1 (fun q => rfl) e1 e2 g1 g2 e3
    obtain ⟨g4, w4⟩ := expMul_ok hA hS hI hr g3 e4
    obtain ⟨g5, w5⟩ := expand_factors fs r1 r' g4 ⟨ht.1.2.2, ht.2.2.2.2.2⟩ hk.2.2.2 e5
    refine ⟨g5, fun v hv z s hz hs => ?_⟩
    obtain ⟨y1, y2, p', m, k1, k2, k3, k4, rfl⟩ := evG_cons.mp hs
    rw [w5 v hv _ m (w4 v _ _ hz (w3 v y1 y2 p' (w1 v hv y1 k1) (w2 v hv y2 k2) k3)) k4]
    congr 1; ring
end

end Expansion

/-! ## Substitution -/

theorem good_iteCell {c : FCell} {a b : Cell} (hc : RcF S c) (ha : Good S a) (hb : Good S b) :
    Good S (iteCell c a b) := by
  unfold iteCell
  split
  · exact ha
  · exact hb
  · exact ⟨⟨hc, ha.1, hb.1⟩, ha.2, hb.2⟩

section Substitution
variable (hA : Arith.Exact A) (hS : Apart S) (hI : NoInt S) {n : Nat} {s : CSubst}
  {g : FCell → Run FCell} (hs : ∀ i e, s.find i = some e → Good S e)
  (hg : ∀ c c', g c = .ok c' → RcF S c → RcF S c')
include hA hS hI hs hg

/-- What is said of an expression and what it becomes under a substitution. -/
def SubVal (S : RC → Prop) (s : CSubst) (g : FCell → Run FCell) (e r : Cell) : Prop :=
  Good S r ∧ ∀ v w, StdOps v → After s g v w → ∀ x, ev w e = some x → ev v r = some x

mutual
theorem subst_cell : ∀ e r : Cell, Good S e → NoUf e → Rooted (substC A n s g) e →
    substC A n s g e = .ok r → SubVal S s g e r
  | .const q, r, he, _, _, h => by
    cases h; exact ⟨he, fun v w _ _ x hx => hx⟩
  | .rconst .., r, he, _, _, h => by
    cases h; exact ⟨he, fun v w _ hw x hx => by simpa [ev, hw.rc] using hx⟩
  | .var i, r, he, _, _, h => by
    cases h
    refine ⟨?_, fun v w _ hw x hx => ?_⟩
    · cases e : s.find i with
      | none => exact ⟨trivial, trivial⟩
      | some e' => exact hs i e' e
    · rw [hw.var i]
      exact hx
  | .uf .., r, he, hu, _, h => hu.elim
  | .nan, r, he, _, _, h => by simp [substC] at h
  | .ite c a b, r, he, hu, hr, h => by
    simp only [substC] at h
    obtain ⟨c', e0, h⟩ := bindR_ok h
    obtain ⟨a', e1, h⟩ := bindR_ok h
    obtain ⟨b', e2, h⟩ := bindR_ok h
    obtain ⟨g1, w1⟩ := subst_cell a a' ⟨he.1.2.1, he.2.1⟩ hu.1 hr.1 e1
    obtain ⟨g2, w2⟩ := subst_cell b b' ⟨he.1.2.2, he.2.2⟩ hu.2 hr.2 e2
    split at h
    · rename_i hq
      simp only [Bool.and_eq_true] at hq
      obtain ⟨⟨q0, q1⟩, q2⟩ := hq
      rw [equalTo_iff] at q1 q2
      rw [equalTo_iffF] at q0
      cases h
      subst q0; subst q1; subst q2
      refine ⟨he, fun v w hv hw x hx => ?_⟩
      simp only [ev] at hx ⊢
      rw [hw.cond c c e0] at hx
      split_ifs at hx ⊢
      · exact w1 v w hv hw x hx
      · exact w2 v w hv hw x hx
    · cases h
      refine ⟨good_iteCell (hg c c' e0 he.1.1) g1 g2, fun v w hv hw x hx => ?_⟩
      simp only [ev] at hx
      rw [hw.cond c c' e0] at hx
      unfold iteCell
      split
      · rw [hw.tt, if_pos rfl] at hx
        exact w1 v w hv hw x hx
      · rw [hw.ff, if_neg (by simp)] at hx
        exact w2 v w hv hw x hx
      · simp only [ev]
        split_ifs at hx ⊢
        · exact w1 v w hv hw x hx
        · exact w2 v w hv hw x hx
  | .add c ts, r, he, hu, hr, h => by
    simp only [substC] at h
    obtain ⟨⟨d, us⟩, e1, h⟩ := bindR_ok h
    obtain ⟨g1, w1⟩ := subst_terms ts c .nil d us (good_nilT S) ⟨he.1, he.2.1⟩ hu hr e1
    obtain ⟨g2, w2⟩ := (norm_all hA hS hI n).getA _ _ _ g1 h
    refine ⟨g2, fun v w hv hw x hx => ?_⟩
    simp only [ev, Option.map_eq_some_iff] at hx
    obtain ⟨y, hy, rfl⟩ := hx
    obtain ⟨u, k1, k2⟩ := w1 v w hv hw 0 y (by simp [evT]) hy
    rw [w2 v u k1, k2]; simp
  | .mul c fs, r, he, hu, hr, h => by
    simp only [substC] at h
    obtain ⟨⟨d, us⟩, e1, h⟩ := bindR_ok h
    obtain ⟨g1, w1⟩ := subst_factors fs c .nil d us (good_nilG S) ⟨he.1, he.2.2.1⟩ hu hr e1
    obtain ⟨g2, w2⟩ := (norm_all hA hS hI n).getM _ _ _ g1 h
    refine ⟨g2, fun v w hv hw x hx => ?_⟩
    simp only [ev, Option.map_eq_some_iff] at hx
    obtain ⟨y, hy, rfl⟩ := hx
    obtain ⟨u, k1, k2⟩ := w1 v w hv hw 1 y (by simp [evG]) hy
    rw [w2 v u k1, k2]; simp
  | .un f a, r, he, hu, hr, h => by
    simp only [substC] at h
    obtain ⟨a', e1, h⟩ := bindR_ok h
    obtain ⟨g1, w1⟩ := subst_cell a a' ⟨he.1, he.2⟩ hu hr e1
    split at h
    · rename_i hq
      rw [equalTo_iff] at hq
      subst hq
      cases h
      refine ⟨he, fun v w hv hw x hx => ?_⟩
      simp only [ev, Option.bind_eq_some_iff] at hx ⊢
      obtain ⟨y, hy, hx⟩ := hx
      exact ⟨y, w1 v w hv hw y hy, by rw [← hw.un]; exact hx⟩
    · cases h
      refine ⟨good_mkUn g1, fun v w hv hw x hx => ?_⟩
      simp only [ev, Option.bind_eq_some_iff] at hx
      obtain ⟨y, hy, hx⟩ := hx
      exact ev_mkUn hv (w1 v w hv hw y hy) (by rw [← hw.un]; exact hx)
  | .bin f a b, r, he, hu, hr, h => by
    obtain ⟨ra, rb, rp⟩ := hr
    simp only [substC] at h
    obtain ⟨a', e1, h⟩ := bindR_ok h
    obtain ⟨b', e2, h⟩ := bindR_ok h
    obtain ⟨g1, w1⟩ := subst_cell a a' (good_bin he).1 hu.1 ra e1
    obtain ⟨g2, w2⟩ := subst_cell b b' (good_bin he).2 hu.2 rb e2
    have hbv : ∀ v w, After s g v w → ∀ x y, binVal w f x y = binVal v f x y := by
      intro v w hw x y
      unfold binVal
      rw [hw.bin]
    split at h
    · rename_i hq
      simp only [Bool.and_eq_true, equalTo_iff] at hq
      cases h
      obtain ⟨rfl, rfl⟩ := hq
      refine ⟨he, fun v w hv hw x hx => ?_⟩
      obtain ⟨y, z, hy, hz, hx⟩ := (ev_binVal w).mp hx
      rw [hbv v w hw] at hx
      exact (ev_binVal v).mpr ⟨y, z, w1 v w hv hw y hy, w2 v w hv hw z hz, hx⟩
    · have hp : f = .pow → ¬ PowInt a' ∨ ∃ q, b' = .const q ∧ isInt32 q = true := by
        intro e
        rcases rp e with ⟨q, rfl, hq⟩ | k
        · simp only [substC, Run.ok.injEq] at e2
          exact .inr ⟨q, e2.symm, hq⟩
        · exact .inl (k a' e1)
      obtain ⟨g3, w3⟩ := mkBin_ok hA hI hS g1 g2 hp h
      refine ⟨g3, fun v w hv hw x hx => ?_⟩
      obtain ⟨y, z, hy, hz, hx⟩ := (ev_binVal w).mp hx
      rw [hbv v w hw] at hx
      exact w3 v hv y z x (w1 v w hv hw y hy) (w2 v w hv hw z hz) hx
theorem subst_terms : ∀ (ts : CTerms) (c : ℚ) (us : CTerms) (c' : ℚ) (us' : CTerms), GoodT S us →
    RcT S ts ∧ NFT ts → NoUfT ts → RootedT (substC A n s g) ts →
    substT A n s g (c, us) ts = .ok (c', us') → GoodT S us' ∧ ∀ v w, StdOps v → After s g v w →
      ∀ u y, evT v us = some u → evT w ts = some y →
        ∃ u', evT v us' = some u' ∧ (c' : ℝ) + u' = c + u + y
  | .nil, c, us, c', us', hu, _, _, _, h => by
    simp only [substT, Run.ok.injEq, Prod.mk.injEq] at h
    obtain ⟨rfl, rfl⟩ := h
    refine ⟨hu, fun v w _ _ u y h1 h2 => ⟨u, h1, ?_⟩⟩
    simp only [evT, Option.some.injEq] at h2
    rw [← h2]; simp
  | .cons e q ts, c, us, c', us', hu, ht, hn, hr, h => by
    obtain ⟨he, ht⟩ := good_termCons ht
    have ih := norm_all hA hS hI n
    simp only [substT] at h
    obtain ⟨x, e1, h⟩ := bindR_ok h
    obtain ⟨y, e2, h⟩ := bindR_ok h
    obtain ⟨⟨d, ws⟩, e3, e4⟩ := bindR_ok h
    obtain ⟨g1, w1⟩ := subst_cell e x he hn.1 hr.1 e1
    obtain ⟨g2, w2⟩ := ih.mul _ _ _ g1 (good_const S q) e2
    obtain ⟨g3, w3⟩ := ih.addX _ _ _ _ _ hu g2 e3
    obtain ⟨g4, w4⟩ := subst_terms ts d ws c' us' g3 ht hn.2 hr.2 e4
    refine ⟨g4, fun v w hv hw u z h1 h2 => ?_⟩
    simp only [evT, Option.bind_eq_some_iff, Option.map_eq_some_iff] at h2
    obtain ⟨y, hy, s', hs', rfl⟩ := h2
    obtain ⟨u1, k1, k2⟩ := w3 v u _ h1 (w2 v _ q (w1 v w hv hw y hy) (by simp [ev]))
    obtain ⟨u2, k3, k4⟩ := w4 v w hv hw u1 s' k1 hs'
    refine ⟨u2, k3, ?_⟩
    rw [k4, k2]; ring
theorem subst_factors : ∀ (fs : CFactors) (c : ℚ) (us : CFactors) (c' : ℚ) (us' : CFactors),
    GoodG S us → RcG S fs ∧ NFG fs → NoUfG fs → RootedG (substC A n s g) fs →
    substG A n s g (c, us) fs = .ok (c', us') → GoodG S us' ∧ ∀ v w, StdOps v → After s g v w →
      ∀ u y, evG v us = some u → evG w fs = some y →
        ∃ u', evG v us' = some u' ∧ (c' : ℝ) * u' = c * u * y
  | .nil, c, us, c', us', hu, _, _, _, h => by
    simp only [substG, Run.ok.injEq, Prod.mk.injEq] at h
    obtain ⟨rfl, rfl⟩ := h
    refine ⟨hu, fun v w _ _ u y h1 h2 => ⟨u, h1, ?_⟩⟩
    simp only [evG, Option.some.injEq] at h2
    rw [← h2]; simp
  | .cons a b fs, c, us, c', us', hu, ht, hn, hr, h => by
    have ih := norm_all hA hS hI n
    simp only [substG] at h
    obtain ⟨a', e1, h⟩ := bindR_ok h
    obtain ⟨b', e2, h⟩ := bindR_ok h
    obtain ⟨p, e3, h⟩ := bindR_ok h
    obtain ⟨⟨d, ws⟩, e4, e5⟩ := bindR_ok h
    obtain ⟨g1, w1⟩ := subst_cell a a' ⟨ht.1.1, ht.2.1⟩ hn.1 hr.1 e1
    obtain ⟨g2, w2⟩ := subst_cell b b' ⟨ht.1.2.1, ht.2.2.1⟩ hn.2.1 hr.2.1 e2
    have hp : ¬ PowInt a' ∨ ∃ q, b' = .const q ∧ isInt32 q = true := by
      rcases hr.2.2.1 with ⟨q, rfl, hq⟩ | k
      · simp only [substC, Run.ok.injEq] at e2
        exact .inr ⟨q, e2.symm, hq⟩
      · exact .inl (k a' e1)
    have g3 := pow_good hA hI _ _ _ g1 g2 hp e3
    obtain ⟨g4, w4⟩ := ih.mulX _ _ _ _ _ hu g3 e4
    obtain ⟨g5, w5⟩ := subst_factors fs d ws c' us' g4 ⟨ht.1.2.2, ht.2.2.2.2.2⟩ hn.2.2 hr.2.2.2 e5
    refine ⟨g5, fun v w hv hw u z h1 h2 => ?_⟩
    obtain ⟨y1, y2, p', m, k1, k2, k3, k4, rfl⟩ := evG_cons.mp h2
    have hz := pow_ev hA hI _ _ _ g1.1 e3 v y1 y2 p' (w1 v w hv hw y1 k1) (w2 v w hv hw y2 k2) k3
    obtain ⟨u1, l1, l2⟩ := w4 v u _ h1 hz
    obtain ⟨u2, l3, l4⟩ := w5 v w hv hw u1 m l1 k4
    refine ⟨u2, l3, ?_⟩
    rw [l4, l2]; ring
end

end Substitution

end Ex

mutual
theorem rooted_whole (f : Cell → Run Cell) : ∀ e : Cell, WholePow e → Rooted f e
  | .const _, _ => trivial
  | .rconst .., _ => trivial
  | .var _, _ => trivial
  | .nan, _ => trivial
  | .uf .., _ => trivial
  | .add _ ts, h => rooted_wholeT f ts h
  | .mul _ fs, h => rooted_wholeG f fs h
  | .un _ a, h => rooted_whole f a h
  | .ite _ a b, h => ⟨rooted_whole f a h.1, rooted_whole f b h.2⟩
  | .bin _ a b, h => ⟨rooted_whole f a h.1, rooted_whole f b h.2.1, fun e => .inl (h.2.2 e)⟩
theorem rooted_wholeT (f : Cell → Run Cell) : ∀ ts : CTerms, WholePowT ts → RootedT f ts
  | .nil, _ => trivial
  | .cons e _ ts, h => ⟨rooted_whole f e h.1, rooted_wholeT f ts h.2⟩
theorem rooted_wholeG (f : Cell → Run Cell) : ∀ fs : CFactors, WholePowG fs → RootedG f fs
  | .nil, _ => trivial
  | .cons a b fs, h =>
    ⟨rooted_whole f a h.1, rooted_whole f b h.2.1, .inl h.2.2.1, rooted_wholeG f fs h.2.2.2⟩
end

theorem find_map (env : List (Nat × ℚ)) (i : Nat) :
    CSubst.find (env.map fun p => (p.1, Cell.const p.2)) i =
      (env.find? fun p => p.1 = i).map fun p => Cell.const p.2 := by
  induction env with
  | nil => rfl
  | cons p env ih =>
    obtain ⟨y, q⟩ := p
    simp only [List.map_cons, CSubst.find, List.find?_cons]
    by_cases h : y = i
    · simp [h]
    · simp [h, ih]

end Verif.Proof
