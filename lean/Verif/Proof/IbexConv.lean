import Verif.Spec.IbexConv
import Verif.Proof.ExprNorm

/-!
# The converted expressions have the values of the expressions
-/

namespace Verif.Proof
open Verif.Model Verif.Spec

/-- Induction over negations. -/
theorem fcell_ind {M : FCell → Prop} (rel : ∀ op a b, M (.rel op a b)) (neg : ∀ f, M f → M (.neg f))
    (other : ∀ f, (∀ op a b, f ≠ .rel op a b) → (∀ g, f ≠ .neg g) → M f) : ∀ f, M f
  | .rel op a b => rel op a b
  | .neg f => neg f (fcell_ind rel neg other f)
  | .ff => other _ (by simp) (by simp)
  | .tt => other _ (by simp) (by simp)
  | .var _ => other _ (by simp) (by simp)
  | .conj _ => other _ (by simp) (by simp)
  | .disj _ => other _ (by simp) (by simp)
  | .all .. => other _ (by simp) (by simp)

/-- What is assumed of IBEX and of the point. -/
structure ConvEnv (S : RC → Prop) (v : CVal) (g : ℝ → ℝ → Set ℝ) (p : Nat → ℝ) (ids : List Nat) :
    Prop where
  var : ∀ i k, placeOf i ids = some k → p k = v.var i
  rc : ∀ l u f, S (l, u, f) → (l : ℝ) ≤ v.rc l u f ∧ v.rc l u f ≤ u
  pow : ∀ x y, 0 < x → g x y = {x ^ y}
  sqrt : ∀ x, 0 ≤ x → v.un .sqrt x = some (Real.sqrt x)

section
variable {S : RC → Prop} {v : CVal} {g : ℝ → ℝ → Set ℝ} {p : Nat → ℝ} {ids : List Nat}

/-- The value is among those of the expression, and the only one if there are no real constants. -/
def Enc (S : RC → Prop) (v : CVal) (g : ℝ → ℝ → Set ℝ) (p : Nat → ℝ) (r : INode) (x : ℝ) : Prop :=
  x ∈ inode v g p r ∧ ((∀ t, ¬ S t) → ∀ y ∈ inode v g p r, y = x)

theorem enc_const (q : ℚ) : Enc S v g p (.const q q) q :=
  ⟨⟨le_rfl, le_rfl⟩, fun _ _ h => le_antisymm h.2 h.1⟩

theorem enc_add {a b x y} (ha : Enc S v g p a x) (hb : Enc S v g p b y) :
    Enc S v g p (.add a b) (x + y) := by
  refine ⟨⟨x, ha.1, y, hb.1, rfl⟩, fun hS z hz => ?_⟩
  obtain ⟨x', hx, y', hy, rfl⟩ := hz
  rw [ha.2 hS x' hx, hb.2 hS y' hy]

theorem enc_sub {a b x y} (ha : Enc S v g p a x) (hb : Enc S v g p b y) :
    Enc S v g p (.sub a b) (x - y) := by
  refine ⟨⟨x, ha.1, y, hb.1, rfl⟩, fun hS z hz => ?_⟩
  obtain ⟨x', hx, y', hy, rfl⟩ := hz
  rw [ha.2 hS x' hx, hb.2 hS y' hy]

theorem enc_mul {a b x y} (ha : Enc S v g p a x) (hb : Enc S v g p b y) :
    Enc S v g p (.mul a b) (x * y) := by
  refine ⟨⟨x, ha.1, y, hb.1, rfl⟩, fun hS z hz => ?_⟩
  obtain ⟨x', hx, y', hy, rfl⟩ := hz
  rw [ha.2 hS x' hx, hb.2 hS y' hy]

theorem enc_un {f a x z} (ha : Enc S v g p a x) (h : v.un f x = some z) :
    Enc S v g p (.un f a) z := by
  refine ⟨⟨x, ha.1, h⟩, fun hS y hy => ?_⟩
  obtain ⟨x', hx, e⟩ := hy
  rw [ha.2 hS x' hx, h, Option.some.injEq] at e
  exact e.symm

theorem enc_bin {f a b x y z} (ha : Enc S v g p a x) (hb : Enc S v g p b y)
    (h : v.bin f x y = some z) : Enc S v g p (.bin f a b) z := by
  refine ⟨⟨x, ha.1, y, hb.1, h⟩, fun hS w hw => ?_⟩
  obtain ⟨x', hx, y', hy, e⟩ := hw
  rw [ha.2 hS x' hx, hb.2 hS y' hy, h, Option.some.injEq] at e
  exact e.symm

theorem enc_div {a b x y z} (ha : Enc S v g p a x) (hb : Enc S v g p b y)
    (h : quo x y = some z) : Enc S v g p (.div a b) z := by
  refine ⟨⟨x, ha.1, y, hb.1, h⟩, fun hS w hw => ?_⟩
  obtain ⟨x', hx, y', hy, e⟩ := hw
  rw [ha.2 hS x' hx, hb.2 hS y' hy, h, Option.some.injEq] at e
  exact e.symm

theorem pw_half {x z : ℝ} (h : pw x ((1 / 2 : ℚ) : ℝ) = some z) : 0 ≤ x ∧ z = Real.sqrt x := by
  rcases lt_trichotomy x 0 with hx | hx | hx
  · obtain ⟨n, hn, -⟩ := pw_neg hx h
    exfalso
    have : ((1 : ℤ) : ℝ) = ((2 * n : ℤ) : ℝ) := by push_cast at hn ⊢; linarith
    have := Int.cast_injective this
    omega
  · subst hx
    rw [pw_zero_pos (by norm_num), Option.some.injEq] at h
    simp [← h]
  · rw [pw_pos hx, Option.some.injEq] at h
    refine ⟨hx.le, ?_⟩
    rw [← h, Real.sqrt_eq_rpow]
    norm_num

/-- What is proved of all functions with fuel `n`. -/
structure ConvAll (A : Arith) (S : RC → Prop) (v : CVal) (g : ℝ → ℝ → Set ℝ) (p : Nat → ℝ)
    (ids : List Nat) (n : Nat) : Prop where
  cell : ∀ e r, convC A ids n e = .ok r → Good S e → BasesPos v g p r →
    ∀ x, ev v e = some x → Enc S v g p r x
  sum : ∀ ret ts r, convT A ids n ret ts = .ok r → GoodT S ts → BasesPos v g p r →
    (∀ r0, ret = some r0 → BasesPos v g p r0) ∧ ∀ s, evT v ts = some s →
      (∀ r0 x0, ret = some r0 → Enc S v g p r0 x0 → Enc S v g p r (x0 + s)) ∧
      (ret = none → Enc S v g p r s)
  prod : ∀ ret fs r, convG A ids n ret fs = .ok r → GoodG S fs → BasesPos v g p r →
    (∀ r0, ret = some r0 → BasesPos v g p r0) ∧ ∀ m, evG v fs = some m →
      (∀ r0 x0, ret = some r0 → Enc S v g p r0 x0 → Enc S v g p r (x0 * m)) ∧
      (ret = none → Enc S v g p r m)
  power : ∀ a b r, convP A ids n a b = .ok r → Good S a → Good S b → BasesPos v g p r →
    ∀ x y z, ev v a = some x → ev v b = some y → pw x y = some z → Enc S v g p r z

variable {A : Arith} {n : Nat}

theorem conv_c (E : ConvEnv S v g p ids) (ih : ConvAll A S v g p ids n) (e r)
    (h : convC A ids (n + 1) e = .ok r) (he : Good S e) (hp : BasesPos v g p r) (x)
    (hx : ev v e = some x) : Enc S v g p r x := by
  unfold convC at h
  split at h
  · simp only [Run.ok.injEq] at h
    simp only [ev, Option.some.injEq] at hx
    subst h hx
    exact enc_const _
  · rename_i l u f
    simp only [Run.ok.injEq] at h
    simp only [ev, Option.some.injEq] at hx
    subst h hx
    have hS : S (l, u, f) := he.1
    exact ⟨E.rc l u f hS, fun h => absurd hS (h _)⟩
  · rename_i i
    split at h
    · rename_i k hk
      simp only [Run.ok.injEq] at h
      simp only [ev, Option.some.injEq] at hx
      subst h hx
      refine ⟨(E.var i k hk).symm, fun _ y hy => ?_⟩
      rw [← E.var i k hk]; exact hy
    · cases h
  · rename_i c ts
    obtain ⟨h1, h2⟩ := ih.sum _ _ _ h (good_add he) hp
    simp only [ev, Option.map_eq_some_iff] at hx
    obtain ⟨s, hs, rfl⟩ := hx
    obtain ⟨h3, h4⟩ := h2 s hs
    by_cases hc : c = 0
    · subst hc
      have := h4 (by simp)
      simpa using this
    · exact h3 _ _ (by simp [hc]) (enc_const c)
  · rename_i c fs
    obtain ⟨h1, h2⟩ := ih.prod _ _ _ h (good_mul he) hp
    simp only [ev, Option.map_eq_some_iff] at hx
    obtain ⟨m, hm, rfl⟩ := hx
    obtain ⟨h3, h4⟩ := h2 m hm
    by_cases hc : c = 1
    · subst hc
      have := h4 (by simp)
      simpa using this
    · exact h3 _ _ (by simp [hc]) (enc_const c)
  · rename_i f a
    obtain ⟨y, e1, h⟩ := bindR_ok h
    simp only [Run.ok.injEq] at h
    subst h
    simp only [ev, Option.bind_eq_some_iff] at hx
    obtain ⟨z, hz, hx⟩ := hx
    exact enc_un (ih.cell a y e1 ⟨he.1, he.2⟩ hp z hz) hx
  · rename_i a b
    obtain ⟨y, e1, h⟩ := bindR_ok h
    obtain ⟨w, e2, h⟩ := bindR_ok h
    simp only [Run.ok.injEq] at h
    subst h
    simp only [ev, Option.bind_eq_some_iff] at hx
    obtain ⟨xa, ha, xb, hb, hx⟩ := hx
    obtain ⟨ga, gb⟩ := good_bin he
    exact enc_div (ih.cell a y e1 ga hp.1 xa ha) (ih.cell b w e2 gb hp.2 xb hb) hx
  · rename_i a b
    obtain ⟨ga, gb⟩ := good_bin he
    obtain ⟨xa, xb, ha, hb, hx⟩ := ev_pow.mp hx
    exact ih.power a b r h ga gb hp xa xb x ha hb hx
  · rename_i f a b h1 h2
    obtain ⟨y, e1, h⟩ := bindR_ok h
    obtain ⟨w, e2, h⟩ := bindR_ok h
    simp only [Run.ok.injEq] at h
    subst h
    simp only [ev, Option.bind_eq_some_iff] at hx
    obtain ⟨xa, ha, xb, hb, hx⟩ := hx
    obtain ⟨ga, gb⟩ := good_bin he
    have hx : v.bin f xa xb = some x := by
      cases f
      · exact absurd rfl h1
      · exact absurd rfl h2
      all_goals exact hx
    exact enc_bin (ih.cell a y e1 ga hp.1 xa ha) (ih.cell b w e2 gb hp.2 xb hb) hx
  all_goals cases h

theorem good_consT {e : Cell} {q : ℚ} {ts : CTerms} (h : GoodT S (.cons e q ts)) :
    Good S e ∧ GoodT S ts := by
  obtain ⟨⟨r1, r2⟩, ⟨n1, -, -, n2⟩, s⟩ := h
  simp only [Sorted, keysT, List.pairwise_cons] at s
  exact ⟨⟨r1, n1⟩, r2, n2, s.2⟩

theorem conv_t (hA : Arith.Exact A) (hS : Apart S) (hI : NoInt S)
    (ih : ConvAll A S v g p ids n) (ret ts r)
    (h : convT A ids (n + 1) ret ts = .ok r) (ht : GoodT S ts) (hp : BasesPos v g p r) :
    (∀ r0, ret = some r0 → BasesPos v g p r0) ∧ ∀ s, evT v ts = some s →
      (∀ r0 x0, ret = some r0 → Enc S v g p r0 x0 → Enc S v g p r (x0 + s)) ∧
      (ret = none → Enc S v g p r s) := by
  unfold convT at h
  split at h
  · split at h
    · rename_i r0
      simp only [Run.ok.injEq] at h
      subst h
      refine ⟨fun _ e => by cases e; exact hp, fun s hs => ⟨fun r0 x0 e h0 => ?_, by simp⟩⟩
      cases e
      simp only [evT, Option.some.injEq] at hs
      rw [← hs, add_zero]; exact h0
    · cases h
  · rename_i e q ts
    obtain ⟨ge, gt⟩ := good_consT ht
    split_ifs at h with h1 h2
    · obtain ⟨y, e1, h⟩ := bindR_ok h
      cases ret with
      | some r0 =>
        obtain ⟨b, w⟩ := ih.sum _ _ _ h gt hp
        have hb := b _ rfl
        refine ⟨fun _ e => by cases e; exact hb.1, fun s hs => ⟨fun r0' x0 e h0 => ?_, by simp⟩⟩
        cases e
        simp only [evT, Option.bind_eq_some_iff, Option.map_eq_some_iff] at hs
        obtain ⟨x, hx, s, hs, rfl⟩ := hs
        have := (w s hs).1 _ _ rfl (enc_add h0 (ih.cell e y e1 ge hb.2 x hx))
        rw [h1]; push_cast; rw [one_mul, ← add_assoc]; exact this
      | none =>
        obtain ⟨b, w⟩ := ih.sum _ _ _ h gt hp
        refine ⟨by simp, fun s hs => ⟨by simp, fun _ => ?_⟩⟩
        simp only [evT, Option.bind_eq_some_iff, Option.map_eq_some_iff] at hs
        obtain ⟨x, hx, s, hs, rfl⟩ := hs
        have := (w s hs).1 _ _ rfl (ih.cell e y e1 ge (b _ rfl) x hx)
        rw [h1]; push_cast; rw [one_mul]; exact this
    · cases ret with
      | some r0 =>
        obtain ⟨y, e1, h⟩ := bindR_ok h
        obtain ⟨b, w⟩ := ih.sum _ _ _ h gt hp
        have hb := b _ rfl
        refine ⟨fun _ e => by cases e; exact hb.1, fun s hs => ⟨fun r0' x0 e h0 => ?_, by simp⟩⟩
        cases e
        simp only [evT, Option.bind_eq_some_iff, Option.map_eq_some_iff] at hs
        obtain ⟨x, hx, s, hs, rfl⟩ := hs
        have := (w s hs).1 _ _ rfl (enc_sub h0 (ih.cell e y e1 ge hb.2 x hx))
        rw [h2]; push_cast; rw [neg_one_mul, ← add_assoc, ← sub_eq_add_neg]; exact this
      | none =>
        obtain ⟨m, e0, h⟩ := bindR_ok h
        obtain ⟨y, e1, h⟩ := bindR_ok h
        obtain ⟨b, w⟩ := ih.sum _ _ _ h gt hp
        obtain ⟨gm, wm⟩ := negE_ok hA hS hI ge e0
        refine ⟨by simp, fun s hs => ⟨by simp, fun _ => ?_⟩⟩
        simp only [evT, Option.bind_eq_some_iff, Option.map_eq_some_iff] at hs
        obtain ⟨x, hx, s, hs, rfl⟩ := hs
        have := (w s hs).1 _ _ rfl (ih.cell m y e1 gm (b _ rfl) (-x) (wm v x hx))
        rw [h2]; push_cast; rw [neg_one_mul]; exact this
    · obtain ⟨y, e1, h⟩ := bindR_ok h
      cases ret with
      | some r0 =>
        obtain ⟨b, w⟩ := ih.sum _ _ _ h gt hp
        have hb := b _ rfl
        refine ⟨fun _ e => by cases e; exact hb.1, fun s hs => ⟨fun r0' x0 e h0 => ?_, by simp⟩⟩
        cases e
        simp only [evT, Option.bind_eq_some_iff, Option.map_eq_some_iff] at hs
        obtain ⟨x, hx, s, hs, rfl⟩ := hs
        have := (w s hs).1 _ _ rfl (enc_add h0 (enc_mul (enc_const q) (ih.cell e y e1 ge hb.2.2 x hx)))
        rw [← add_assoc]; exact this
      | none =>
        obtain ⟨b, w⟩ := ih.sum _ _ _ h gt hp
        have hb := b _ rfl
        refine ⟨by simp, fun s hs => ⟨by simp, fun _ => ?_⟩⟩
        simp only [evT, Option.bind_eq_some_iff, Option.map_eq_some_iff] at hs
        obtain ⟨x, hx, s, hs, rfl⟩ := hs
        exact (w s hs).1 _ _ rfl (enc_mul (enc_const q) (ih.cell e y e1 ge hb.2 x hx))

theorem conv_g (ih : ConvAll A S v g p ids n) (ret fs r)
    (h : convG A ids (n + 1) ret fs = .ok r) (hf : GoodG S fs) (hp : BasesPos v g p r) :
    (∀ r0, ret = some r0 → BasesPos v g p r0) ∧ ∀ m, evG v fs = some m →
      (∀ r0 x0, ret = some r0 → Enc S v g p r0 x0 → Enc S v g p r (x0 * m)) ∧
      (ret = none → Enc S v g p r m) := by
  unfold convG at h
  split at h
  · split at h
    · rename_i r0
      simp only [Run.ok.injEq] at h
      subst h
      refine ⟨fun _ e => by cases e; exact hp, fun s hs => ⟨fun r0 x0 e h0 => ?_, by simp⟩⟩
      cases e
      simp only [evG, Option.some.injEq] at hs
      rw [← hs, mul_one]; exact h0
    · cases h
  · rename_i b e fs
    obtain ⟨gb, ge, -, -, gf, -⟩ := good_consG hf
    obtain ⟨y, e1, h⟩ := bindR_ok h
    cases ret with
    | some r0 =>
      obtain ⟨bp, w⟩ := ih.prod _ _ _ h gf hp
      have hb := bp _ rfl
      refine ⟨fun _ e => by cases e; exact hb.1, fun s hs => ⟨fun r0' x0 e h0 => ?_, by simp⟩⟩
      cases e
      obtain ⟨x, z, q, k, hx, hz, hq, hk, rfl⟩ := evG_cons.mp hs
      have := (w k hk).1 _ _ rfl (enc_mul h0 (ih.power b e y e1 gb ge hb.2 x z q hx hz hq))
      rw [← mul_assoc]; exact this
    | none =>
      obtain ⟨bp, w⟩ := ih.prod _ _ _ h gf hp
      refine ⟨by simp, fun s hs => ⟨by simp, fun _ => ?_⟩⟩
      obtain ⟨x, z, q, k, hx, hz, hq, hk, rfl⟩ := evG_cons.mp hs
      exact (w k hk).1 _ _ rfl (ih.power b e y e1 gb ge (bp _ rfl) x z q hx hz hq)

theorem conv_p (E : ConvEnv S v g p ids) (ih : ConvAll A S v g p ids n) (a b r)
    (h : convP A ids (n + 1) a b = .ok r) (ga : Good S a) (gb : Good S b)
    (hp : BasesPos v g p r) (x y z) (hx : ev v a = some x) (hy : ev v b = some y)
    (hz : pw x y = some z) : Enc S v g p r z := by
  unfold convP at h
  split at h
  · rename_i q
    obtain ⟨w, e1, h⟩ := bindR_ok h
    simp only [ev, Option.some.injEq] at hy
    subst hy
    split_ifs at h with h1 h2
    · simp only [Run.ok.injEq] at h
      subst h
      have hw := ih.cell a w e1 ga hp x hx
      refine ⟨⟨x, hw.1, hz⟩, fun hS t ht => ?_⟩
      obtain ⟨x', hx', e⟩ := ht
      rw [hw.2 hS x' hx', hz, Option.some.injEq] at e
      exact e.symm
    · simp only [Run.ok.injEq] at h
      subst h h2
      obtain ⟨h0, rfl⟩ := pw_half hz
      exact enc_un (ih.cell a w e1 ga hp x hx) (E.sqrt x h0)
    · simp only [Run.ok.injEq] at h
      subst h
      have hw := ih.cell a w e1 ga hp.1 x hx
      have h0 := hp.2 x hw.1
      rw [pw_pos h0, Option.some.injEq] at hz
      refine ⟨⟨x, hw.1, ?_⟩, fun hS t ht => ?_⟩
      · rw [E.pow _ _ h0]; exact hz.symm
      · obtain ⟨x', hx', e⟩ := ht
        rw [hw.2 hS x' hx', E.pow _ _ h0] at e
        rw [← hz]; exact e
  · split at h
    · rename_i q
      obtain ⟨w, e1, h⟩ := bindR_ok h
      simp only [Run.ok.injEq] at h
      simp only [ev, Option.some.injEq] at hx
      subst h hx
      have hw := ih.cell b w e1 gb hp.1 y hy
      have h0 : (0 : ℝ) < q := by exact_mod_cast hp.2
      rw [pw_pos h0, Option.some.injEq] at hz
      refine ⟨⟨y, hw.1, ?_⟩, fun hS t ht => ?_⟩
      · rw [E.pow _ _ h0]; exact hz.symm
      · obtain ⟨y', hy', e⟩ := ht
        rw [hw.2 hS y' hy', E.pow _ _ h0] at e
        rw [← hz]; exact e
    · obtain ⟨w, e1, h⟩ := bindR_ok h
      obtain ⟨u, e2, h⟩ := bindR_ok h
      simp only [Run.ok.injEq] at h
      subst h
      have hw := ih.cell a w e1 ga hp.1 x hx
      have hu := ih.cell b u e2 gb hp.2.1 y hy
      have h0 := hp.2.2 x hw.1
      rw [pw_pos h0, Option.some.injEq] at hz
      refine ⟨⟨x, hw.1, y, hu.1, ?_⟩, fun hS t ht => ?_⟩
      · rw [E.pow _ _ h0]; exact hz.symm
      · obtain ⟨x', hx', y', hy', e⟩ := ht
        rw [hw.2 hS x' hx', hu.2 hS y' hy', E.pow _ _ h0] at e
        rw [← hz]; exact e

theorem conv_all (hA : Arith.Exact A) (hS : Apart S) (hI : NoInt S) (E : ConvEnv S v g p ids) :
    ∀ n, ConvAll A S v g p ids n
  | 0 => ⟨fun _ _ h => (by simp [convC] at h), fun _ _ _ h => (by simp [convT] at h),
      fun _ _ _ h => (by simp [convG] at h), fun _ _ _ h => (by simp [convP] at h)⟩
  | n + 1 =>
    have ih := conv_all hA hS hI E n
    ⟨conv_c E ih, conv_t hA hS hI ih, conv_g ih, conv_p E ih⟩

end

end Verif.Proof
