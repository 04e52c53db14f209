import Verif.Proof.CellsInj
import Verif.Proof.Pow
import Verif.Proof.Contractor

/-!
# Arithmetic on normal forms keeps values and normal forms
-/

namespace Verif.Proof
open Verif.Model Verif.Spec

/-- A normal form with real constants in `S`. -/
def Good (S : RC → Prop) (a : Cell) : Prop := RcC S a ∧ NF a
def GoodT (S : RC → Prop) (ts : CTerms) : Prop := RcT S ts ∧ NFT ts ∧ Sorted (keysT ts)
def GoodG (S : RC → Prop) (fs : CFactors) : Prop := RcG S fs ∧ NFG fs ∧ Sorted (keysG fs)

theorem good_const (S : RC → Prop) (q : ℚ) : Good S (.const q) := ⟨trivial, trivial⟩

theorem good_nilT (S : RC → Prop) : GoodT S .nil := ⟨trivial, trivial, List.Pairwise.nil⟩
theorem good_nilG (S : RC → Prop) : GoodG S .nil := ⟨trivial, trivial, List.Pairwise.nil⟩

theorem good_add {S : RC → Prop} {c : ℚ} {ts : CTerms} (h : Good S (.add c ts)) : GoodT S ts :=
  ⟨h.1, h.2.1, h.2.2.1⟩

theorem good_mul {S : RC → Prop} {c : ℚ} {fs : CFactors} (h : Good S (.mul c fs)) : GoodG S fs :=
  ⟨h.1, h.2.2.1, h.2.2.2.1⟩

theorem good_bin {S : RC → Prop} {f : Fn2} {a b : Cell} (h : Good S (.bin f a b)) :
    Good S a ∧ Good S b := ⟨⟨h.1.1, h.2.1⟩, ⟨h.1.2, h.2.2.1⟩⟩

theorem unordered_eq {S : RC → Prop} (hS : Apart S) {a b : Cell} (ha : RcC S a) (hb : RcC S b)
    (h1 : ¬ a.less b = true) (h2 : ¬ b.less a = true) : a = b := by
  rw [less_iff, not_lt] at h1 h2
  exact code_inj hS ha hb (le_antisymm h2 h1)

theorem less_trans {a b c : Cell} (h : a.less b = true) (k : b.less c = true) :
    a.less c = true := by
  rw [less_iff] at *; exact h.trans k

/-! ## Sums -/

theorem mem_keys_addTerm {A : Arith} {q : ℚ} {e : Cell} : ∀ {ts : CTerms} {k : Cell},
    k ∈ keysT (CTerms.addTerm A q e ts) → k = e ∨ k ∈ keysT ts
  | .nil, k, h => by simpa [CTerms.addTerm, keysT] using h
  | .cons k' p ts, k, h => by
    unfold CTerms.addTerm at h
    split_ifs at h with h1 h2 h3
    · simpa [keysT] using h
    · simp only [keysT, List.mem_cons] at h ⊢
      rcases h with h | h
      · exact Or.inr (Or.inl h)
      · rcases mem_keys_addTerm h with h | h
        · exact Or.inl h
        · exact Or.inr (Or.inr h)
    · simp only [keysT, List.mem_cons]; exact Or.inr (Or.inr h)
    · simpa [keysT] using Or.inr h

theorem addTerm_good {S : RC → Prop} {A : Arith} {q : ℚ} {e : Cell} (hq : q ≠ 0) (he : Good S e)
    (hc : e.isConst = false) : ∀ {ts : CTerms}, GoodT S ts → GoodT S (CTerms.addTerm A q e ts)
  | .nil, _ => ⟨⟨he.1, trivial⟩, ⟨he.2, hc, hq, trivial⟩, by simp [CTerms.addTerm, keysT, Sorted]⟩
  | .cons k p ts, h => by
    obtain ⟨⟨r1, r2⟩, ⟨n1, n2, n3, n4⟩, s⟩ := h
    have s' := s
    simp only [Sorted, keysT, List.pairwise_cons] at s
    unfold CTerms.addTerm
    split_ifs with h1 h2 h3
    · refine ⟨⟨he.1, r1, r2⟩, ⟨he.2, hc, hq, n1, n2, n3, n4⟩, ?_⟩
      simp only [Sorted, keysT, List.pairwise_cons, List.mem_cons] at s' ⊢
      refine ⟨?_, s'⟩
      rintro x (rfl | hx)
      · exact h1
      · exact less_trans h1 (s.1 x hx)
    · obtain ⟨i1, i2, i3⟩ := addTerm_good (A := A) hq he hc (ts := ts) ⟨r2, n4, s.2⟩
      refine ⟨⟨r1, i1⟩, ⟨n1, n2, n3, i2⟩, ?_⟩
      simp only [Sorted, keysT, List.pairwise_cons]
      refine ⟨fun x hx => ?_, i3⟩
      rcases mem_keys_addTerm hx with rfl | hx
      · exact h2
      · exact s.1 x hx
    · exact ⟨r2, n4, s.2⟩
    · exact ⟨⟨r1, r2⟩, ⟨n1, n2, h3, n4⟩, s'⟩

theorem addTerm_ev {S : RC → Prop} (hS : Apart S) {A : Arith} (hA : ∀ q, A.rnd q = q) {q : ℚ}
    {e : Cell} (he : RcC S e) (v : CVal) {x : ℝ} (hx : ev v e = some x) :
    ∀ {ts : CTerms} {s : ℝ}, RcT S ts → evT v ts = some s →
      evT v (CTerms.addTerm A q e ts) = some (s + q * x)
  | .nil, s, _, h => by
    simp only [evT, Option.some.injEq] at h
    subst h
    simp [CTerms.addTerm, evT, hx]
  | .cons k p ts, s, hr, h => by
    simp only [evT, Option.bind_eq_some_iff, Option.map_eq_some_iff] at h
    obtain ⟨y, hy, t, ht, rfl⟩ := h
    unfold CTerms.addTerm
    split_ifs with h1 h2 h3
    · simp only [evT, hx, hy, ht, Option.bind_some, Option.map_some, Option.some.injEq]
      ring
    · simp only [evT, hy, addTerm_ev hS hA he v hx hr.2 ht, Option.bind_some, Option.map_some,
        Option.some.injEq]
      ring
    · obtain rfl := unordered_eq hS he hr.1 h1 h2
      obtain rfl : y = x := by rw [hx] at hy; simpa using hy.symm
      rw [hA] at h3
      rw [ht, Option.some.injEq]
      have : (p : ℝ) + q = 0 := by exact_mod_cast h3
      linear_combination (-y) * this
    · obtain rfl := unordered_eq hS he hr.1 h1 h2
      obtain rfl : y = x := by rw [hx] at hy; simpa using hy.symm
      simp only [evT, hx, ht, Option.bind_some, Option.map_some, Option.some.injEq, hA]
      push_cast
      ring

theorem addMap_good {S : RC → Prop} {A : Arith} : ∀ {us ts ts' : CTerms}, GoodT S ts →
    GoodT S us → CTerms.addMap A ts us = .ok ts' → GoodT S ts'
  | .nil, ts, ts', h, _, e => by
    simp only [CTerms.addMap, Run.ok.injEq] at e
    subst e; exact h
  | .cons k p us, ts, ts', h, hu, e => by
    obtain ⟨⟨r1, r2⟩, ⟨n1, n2, n3, n4⟩, s⟩ := hu
    simp only [Sorted, keysT, List.pairwise_cons] at s
    unfold CTerms.addMap at e
    rw [if_neg (by simp [n2])] at e
    exact addMap_good (addTerm_good n3 ⟨r1, n1⟩ n2 h) ⟨r2, n4, s.2⟩ e

theorem addMap_ev {S : RC → Prop} (hS : Apart S) {A : Arith} (hA : ∀ q, A.rnd q = q) (v : CVal) :
    ∀ {us ts ts' : CTerms} {s t : ℝ}, GoodT S ts → GoodT S us → CTerms.addMap A ts us = .ok ts' →
      evT v ts = some s → evT v us = some t → evT v ts' = some (s + t)
  | .nil, ts, ts', s, t, h, _, e, hs, ht => by
    simp only [CTerms.addMap, Run.ok.injEq] at e
    subst e
    simp only [evT, Option.some.injEq] at ht
    subst ht
    simpa using hs
  | .cons k p us, ts, ts', s, t, h, hu, e, hs, ht => by
    obtain ⟨⟨r1, r2⟩, ⟨n1, n2, n3, n4⟩, st⟩ := hu
    simp only [Sorted, keysT, List.pairwise_cons] at st
    unfold CTerms.addMap at e
    rw [if_neg (by simp [n2])] at e
    simp only [evT, Option.bind_eq_some_iff, Option.map_eq_some_iff] at ht
    obtain ⟨y, hy, t', ht', rfl⟩ := ht
    rw [addMap_ev hS hA v (addTerm_good n3 ⟨r1, n1⟩ n2 h) ⟨r2, n4, st.2⟩ e
      (addTerm_ev hS hA r1 v hy h.1 hs) ht', Option.some.injEq]
    ring

theorem keys_negate : ∀ ts : CTerms, keysT ts.negate = keysT ts
  | .nil => rfl
  | .cons e q ts => by simp [CTerms.negate, keysT, keys_negate ts]

theorem negate_nf {S : RC → Prop} : ∀ {ts : CTerms}, RcT S ts → NFT ts →
    RcT S ts.negate ∧ NFT ts.negate
  | .nil, _, _ => ⟨trivial, trivial⟩
  | .cons e q ts, hr, hn =>
    ⟨⟨hr.1, (negate_nf hr.2 hn.2.2.2).1⟩,
      ⟨hn.1, hn.2.1, neg_ne_zero.mpr hn.2.2.1, (negate_nf hr.2 hn.2.2.2).2⟩⟩

theorem negate_good {S : RC → Prop} {ts : CTerms} (h : GoodT S ts) : GoodT S ts.negate :=
  ⟨(negate_nf h.1 h.2.1).1, (negate_nf h.1 h.2.1).2, by rw [keys_negate]; exact h.2.2⟩

theorem negate_ev (v : CVal) : ∀ {ts : CTerms} {s : ℝ}, evT v ts = some s →
    evT v ts.negate = some (-s)
  | .nil, s, h => by
    simp only [evT, Option.some.injEq] at h
    subst h; simp [CTerms.negate, evT]
  | .cons e q ts, s, h => by
    simp only [evT, Option.bind_eq_some_iff, Option.map_eq_some_iff] at h
    obtain ⟨y, hy, t, ht, rfl⟩ := h
    simp only [CTerms.negate, evT, hy, negate_ev v ht, Option.bind_some, Option.map_some,
      Option.some.injEq]
    push_cast
    ring

/-! ## The induction -/

/-- What is proved of all functions with fuel `n`. -/
structure NormAll (A : Arith) (S : RC → Prop) (n : Nat) : Prop where
  add : ∀ a b r, Good S a → Good S b → addE A n a b = .ok r → Good S r ∧
    ∀ v x y, ev v a = some x → ev v b = some y → ev v r = some (x + y)
  addX : ∀ c ts e c' ts', GoodT S ts → Good S e → addExpr A n (c, ts) e = .ok (c', ts') →
    GoodT S ts' ∧ ∀ v s x, evT v ts = some s → ev v e = some x →
      ∃ s', evT v ts' = some s' ∧ (c' : ℝ) + s' = c + s + x
  getA : ∀ c ts r, GoodT S ts → getAdd A n (c, ts) = .ok r → Good S r ∧
    ∀ v s, evT v ts = some s → ev v r = some (c + s)
  mul : ∀ a b r, Good S a → Good S b → mulE A n a b = .ok r → Good S r ∧
    ∀ v x y, ev v a = some x → ev v b = some y → ev v r = some (x * y)
  rest : ∀ a b r, Good S a → Good S b → mulRest A n a b = .ok r → Good S r ∧
    ∀ v x y, ev v a = some x → ev v b = some y → ev v r = some (x * y)
  flat : ∀ a b r, Good S a → Good S b → mulFlat A n a b = .ok r → Good S r ∧
    ∀ v x y, ev v a = some x → ev v b = some y → ev v r = some (x * y)
  mulX : ∀ c fs e c' fs', GoodG S fs → Good S e → mulExpr A n (c, fs) e = .ok (c', fs') →
    GoodG S fs' ∧ ∀ v m x, evG v fs = some m → ev v e = some x →
      ∃ m', evG v fs' = some m' ∧ (c' : ℝ) * m' = c * m * x
  map : ∀ fs gs fs', GoodG S fs → GoodG S gs → mulMap A n fs gs = .ok fs' →
    GoodG S fs' ∧ ∀ v m k, evG v fs = some m → evG v gs = some k → evG v fs' = some (m * k)
  term : ∀ fs b e fs', GoodG S fs → Good S b → Good S e → ¬ PowInt b → e ≠ .const 0 →
    mulTerm A n fs b e = .ok fs' → GoodG S fs' ∧ ∀ v m x y p, evG v fs = some m →
      ev v b = some x → ev v e = some y → pw x y = some p → evG v fs' = some (m * p)
  ins : ∀ fs b e fs', GoodG S fs → Good S b → Good S e → ¬ PowInt b → e ≠ .const 0 →
    mulIns A n b e fs = .ok fs' →
      (GoodG S fs' ∧ ∀ k ∈ keysG fs', k = b ∨ k ∈ keysG fs) ∧ ∀ v m x y p, evG v fs = some m →
      ev v b = some x → ev v e = some y → pw x y = some p → evG v fs' = some (m * p)
  getM : ∀ c fs r, GoodG S fs → getMul A n (c, fs) = .ok r → Good S r ∧
    ∀ v m, evG v fs = some m → ev v r = some (c * m)
  pow : ∀ a b r, Good S a → Good S b → ¬ PowInt a → powE A n a b = .ok r → Good S r ∧
    ∀ v x y p, ev v a = some x → ev v b = some y → pw x y = some p → ev v r = some p
  div : ∀ a b r, Good S a → Good S b → divE A n a b = .ok r → Good S r ∧
    ∀ v x y, ev v a = some x → ev v b = some y → y ≠ 0 → ev v r = some (x / y)

section Steps
variable {A : Arith} {S : RC → Prop} {n : Nat}

theorem step_add (hA : Arith.Exact A) (ih : NormAll A S n) (a b r : Cell) (ha : Good S a)
    (hb : Good S b) (h : addE A (n + 1) a b = .ok r) : Good S r ∧
      ∀ v x y, ev v a = some x → ev v b = some y → ev v r = some (x + y) := by
  unfold addE at h
  split_ifs at h with h1 h2
  · rw [equalTo_iff] at h1
    subst h1
    simp only [Run.ok.injEq] at h
    subst h
    refine ⟨hb, fun v x y hx hy => ?_⟩
    simp only [ev, Option.some.injEq] at hx
    rw [hy, ← hx]; simp
  · rw [equalTo_iff] at h2
    subst h2
    simp only [Run.ok.injEq] at h
    subst h
    refine ⟨ha, fun v x y hx hy => ?_⟩
    simp only [ev, Option.some.injEq] at hy
    rw [hx, ← hy]; simp
  · split at h
    · simp only [Run.ok.injEq] at h
      subst h
      refine ⟨good_const _ _, fun v x y hx hy => ?_⟩
      simp only [ev, Option.some.injEq] at hx hy ⊢
      rw [hA.rnd, ← hx, ← hy]; push_cast; ring
    · obtain ⟨⟨c', ts'⟩, e1, e2⟩ := bindR_ok h
      obtain ⟨g1, v1⟩ := ih.addX _ _ _ _ _ (good_add ha) hb e1
      obtain ⟨g2, v2⟩ := ih.getA _ _ _ g1 e2
      refine ⟨g2, fun v x y hx hy => ?_⟩
      simp only [ev, Option.map_eq_some_iff] at hx
      obtain ⟨s, hs, rfl⟩ := hx
      obtain ⟨s', hs', he⟩ := v1 v s y hs hy
      rw [v2 v s' hs', he]
    · obtain ⟨⟨c', ts'⟩, e1, e2⟩ := bindR_ok h
      obtain ⟨g1, v1⟩ := ih.addX _ _ _ _ _ (good_add hb) ha e1
      obtain ⟨g2, v2⟩ := ih.getA _ _ _ g1 e2
      refine ⟨g2, fun v x y hx hy => ?_⟩
      simp only [ev, Option.map_eq_some_iff] at hy
      obtain ⟨s, hs, rfl⟩ := hy
      obtain ⟨s', hs', he⟩ := v1 v s x hs hx
      rw [v2 v s' hs', he, add_comm x]
    · obtain ⟨⟨c', ts'⟩, e1, h⟩ := bindR_ok h
      obtain ⟨⟨c'', ts''⟩, e2, e3⟩ := bindR_ok h
      obtain ⟨g1, v1⟩ := ih.addX _ _ _ _ _ (good_nilT S) ha e1
      obtain ⟨g2, v2⟩ := ih.addX _ _ _ _ _ g1 hb e2
      obtain ⟨g3, v3⟩ := ih.getA _ _ _ g2 e3
      refine ⟨g3, fun v x y hx hy => ?_⟩
      obtain ⟨s', hs', he⟩ := v1 v 0 x rfl hx
      obtain ⟨s'', hs'', he'⟩ := v2 v s' y hs' hy
      rw [v3 v s'' hs'', he', he]
      simp

theorem step_addX (hS : Apart S) (hA : Arith.Exact A) (ih : NormAll A S n) (c : ℚ) (ts : CTerms)
    (e : Cell) (c' : ℚ) (ts' : CTerms) (ht : GoodT S ts) (he : Good S e)
    (h : addExpr A (n + 1) (c, ts) e = .ok (c', ts')) :
    GoodT S ts' ∧ ∀ v s x, evT v ts = some s → ev v e = some x →
      ∃ s', evT v ts' = some s' ∧ (c' : ℝ) + s' = c + s + x := by
  unfold addExpr at h
  dsimp only at h
  split at h
  · simp only [Run.ok.injEq, Prod.mk.injEq] at h
    obtain ⟨rfl, rfl⟩ := h
    refine ⟨ht, fun v s x hs hx => ⟨s, hs, ?_⟩⟩
    simp only [ev, Option.some.injEq] at hx
    rw [hA.rnd, ← hx]; push_cast; ring
  · obtain ⟨t, e1, h⟩ := bindR_ok h
    simp only [Run.ok.injEq, Prod.mk.injEq] at h
    obtain ⟨rfl, rfl⟩ := h
    refine ⟨addMap_good ht (good_add he) e1, fun v s x hs hx => ?_⟩
    simp only [ev, Option.map_eq_some_iff] at hx
    obtain ⟨u, hu, rfl⟩ := hx
    refine ⟨_, addMap_ev hS hA.rnd v ht (good_add he) e1 hs hu, ?_⟩
    rw [hA.rnd]; push_cast; ring
  · rename_i d fs
    split_ifs at h with hd
    · simp only [Run.ok.injEq, Prod.mk.injEq] at h
      obtain ⟨rfl, rfl⟩ := h
      refine ⟨addTerm_good one_ne_zero he rfl ht, fun v s x hs hx => ?_⟩
      refine ⟨_, addTerm_ev hS hA.rnd he.1 v hx ht.1 hs, ?_⟩
      push_cast; ring
    · obtain ⟨t, e1, h⟩ := bindR_ok h
      obtain ⟨g1, v1⟩ := ih.getM _ _ _ (good_mul he) e1
      split_ifs at h with hc
      simp only [Run.ok.injEq, Prod.mk.injEq] at h
      obtain ⟨rfl, rfl⟩ := h
      refine ⟨addTerm_good he.2.1 g1 (by simpa using hc) ht, fun v s x hs hx => ?_⟩
      simp only [ev, Option.map_eq_some_iff] at hx
      obtain ⟨u, hu, rfl⟩ := hx
      refine ⟨_, addTerm_ev hS hA.rnd g1.1 v (v1 v u hu) ht.1 hs, ?_⟩
      push_cast; ring
  · rename_i h1 h2 h3
    simp only [Run.ok.injEq, Prod.mk.injEq] at h
    obtain ⟨rfl, rfl⟩ := h
    have hc : e.isConst = false := by
      cases e <;> first | rfl | exact absurd rfl (h1 _)
    refine ⟨addTerm_good one_ne_zero he hc ht, fun v s x hs hx => ?_⟩
    refine ⟨_, addTerm_ev hS hA.rnd he.1 v hx ht.1 hs, ?_⟩
    push_cast; ring

theorem step_getA (ih : NormAll A S n) (c : ℚ) (ts : CTerms) (r : Cell) (ht : GoodT S ts)
    (h : getAdd A (n + 1) (c, ts) = .ok r) : Good S r ∧
    ∀ v s, evT v ts = some s → ev v r = some (c + s) := by
  unfold getAdd at h
  split at h
  · simp only [Run.ok.injEq] at h
    subst h
    refine ⟨good_const _ _, fun v s hs => ?_⟩
    simp only [evT, Option.some.injEq] at hs
    subst hs; simp [ev]
  · rename_i e q
    split_ifs at h with hc
    · obtain ⟨g, w⟩ := ih.mul _ _ _ (good_const S q) ⟨ht.1.1, ht.2.1.1⟩ h
      refine ⟨g, fun v s hs => ?_⟩
      simp only [evT, Option.bind_eq_some_iff, Option.map_some, Option.some.injEq] at hs
      obtain ⟨x, hx, rfl⟩ := hs
      rw [w v q x rfl hx, hc]; simp
    · simp only [Run.ok.injEq] at h
      subst h
      refine ⟨⟨ht.1, ht.2.1, ht.2.2, by simp, fun h0 => absurd h0 hc⟩, fun v s hs => ?_⟩
      simp only [ev, hs, Option.map_some]
  · rename_i h1 h2
    simp only [Run.ok.injEq] at h
    subst h
    refine ⟨⟨ht.1, ht.2.1, ht.2.2, h1, fun _ => ?_⟩, fun v s hs => ?_⟩
    · cases ts with
      | nil => exact absurd rfl h1
      | cons e q us =>
        cases us with
        | nil => exact absurd rfl (h2 _ _)
        | cons e' q' ws => simp [keysT]
    · simp only [ev, hs, Option.map_some]

theorem ev_div {v : CVal} {a b : Cell} {z : ℝ} (h : ev v (.bin .div a b) = some z) :
    ∃ x y, ev v a = some x ∧ ev v b = some y ∧ y ≠ 0 ∧ z = x / y := by
  simp only [ev, Option.bind_eq_some_iff] at h
  obtain ⟨x, hx, y, hy, h⟩ := h
  rw [quo_some] at h
  exact ⟨x, y, hx, hy, h.1, h.2⟩

theorem ev_pow {v : CVal} {a b : Cell} {z : ℝ} : ev v (.bin .pow a b) = some z ↔
    ∃ x y, ev v a = some x ∧ ev v b = some y ∧ pw x y = some z := by
  simp only [ev, Option.bind_eq_some_iff]
  constructor
  · rintro ⟨x, hx, y, hy, h⟩; exact ⟨x, y, hx, hy, h⟩
  · rintro ⟨x, y, hx, hy, h⟩; exact ⟨x, hx, y, hy, h⟩

theorem step_mul (ih : NormAll A S n) (a b r : Cell) (ha : Good S a)
    (hb : Good S b) (h : mulE A (n + 1) a b = .ok r) : Good S r ∧
      ∀ v x y, ev v a = some x → ev v b = some y → ev v r = some (x * y) := by
  unfold mulE at h
  split_ifs at h with h1 h2
  · rw [equalTo_iff] at h1
    subst h1
    simp only [Run.ok.injEq] at h
    subst h
    refine ⟨hb, fun v x y hx hy => ?_⟩
    simp only [ev, Option.some.injEq] at hx
    rw [hy, ← hx]; simp
  · rw [equalTo_iff] at h2
    subst h2
    simp only [Run.ok.injEq] at h
    subst h
    refine ⟨ha, fun v x y hx hy => ?_⟩
    simp only [ev, Option.some.injEq] at hy
    rw [hx, ← hy]; simp
  · split at h
    · obtain ⟨p, e1, h⟩ := bindR_ok h
      obtain ⟨q, e2, e3⟩ := bindR_ok h
      obtain ⟨g1, v1⟩ := ih.mul _ _ _ (good_bin ha).1 (good_bin hb).1 e1
      obtain ⟨g2, v2⟩ := ih.mul _ _ _ (good_bin ha).2 (good_bin hb).2 e2
      obtain ⟨g3, v3⟩ := ih.div _ _ _ g1 g2 e3
      refine ⟨g3, fun v x y hx hy => ?_⟩
      obtain ⟨x1, x2, hx1, hx2, n1, rfl⟩ := ev_div hx
      obtain ⟨y1, y2, hy1, hy2, n2, rfl⟩ := ev_div hy
      rw [v3 v _ _ (v1 v _ _ hx1 hy1) (v2 v _ _ hx2 hy2) (mul_ne_zero n1 n2), div_mul_div_comm]
    · split at h
      · obtain ⟨p, e1, e2⟩ := bindR_ok h
        obtain ⟨g1, v1⟩ := ih.mul _ _ _ (good_bin hb).1 ha e1
        obtain ⟨g2, v2⟩ := ih.div _ _ _ g1 (good_bin hb).2 e2
        refine ⟨g2, fun v x y hx hy => ?_⟩
        obtain ⟨y1, y2, hy1, hy2, n2, rfl⟩ := ev_div hy
        rw [v2 v _ _ (v1 v _ _ hy1 hx) hy2 n2, mul_comm y1, mul_div_assoc]
      · obtain ⟨p, e1, e2⟩ := bindR_ok h
        obtain ⟨g1, v1⟩ := ih.mul _ _ _ (good_bin ha).1 hb e1
        obtain ⟨g2, v2⟩ := ih.div _ _ _ g1 (good_bin ha).2 e2
        refine ⟨g2, fun v x y hx hy => ?_⟩
        obtain ⟨y1, y2, hy1, hy2, n2, rfl⟩ := ev_div hx
        rw [v2 v _ _ (v1 v _ _ hy1 hy) hy2 n2, div_mul_eq_mul_div]
      · exact ih.rest _ _ _ ha hb h

theorem negAdd_ok (ih : NormAll A S n) {c : ℚ} {ts : CTerms} {r : Cell} (hb : Good S (.add c ts))
    (h : getAdd A n (-c, ts.negate) = .ok r) : Good S r ∧
      ∀ v y, ev v (.add c ts) = some y → ev v r = some (-y) := by
  obtain ⟨g, w⟩ := ih.getA _ _ _ (negate_good (good_add hb)) h
  refine ⟨g, fun v y hy => ?_⟩
  simp only [ev, Option.map_eq_some_iff] at hy
  obtain ⟨s, hs, rfl⟩ := hy
  rw [w v _ (negate_ev v hs), Option.some.injEq]; push_cast; ring

theorem negMul_ok (ih : NormAll A S n) {c : ℚ} {fs : CFactors} {r : Cell} (hb : Good S (.mul c fs))
    (h : getMul A n (-c, fs) = .ok r) : Good S r ∧
      ∀ v y, ev v (.mul c fs) = some y → ev v r = some (-y) := by
  obtain ⟨g, w⟩ := ih.getM _ _ _ (good_mul hb) h
  refine ⟨g, fun v y hy => ?_⟩
  simp only [ev, Option.map_eq_some_iff] at hy
  obtain ⟨s, hs, rfl⟩ := hy
  rw [w v _ hs, Option.some.injEq]; push_cast; ring

theorem step_rest (hA : Arith.Exact A) (ih : NormAll A S n) (a b r : Cell) (ha : Good S a)
    (hb : Good S b) (h : mulRest A (n + 1) a b = .ok r) : Good S r ∧
      ∀ v x y, ev v a = some x → ev v b = some y → ev v r = some (x * y) := by
  unfold mulRest at h
  split at h
  · simp only [Run.ok.injEq] at h
    subst h
    refine ⟨good_const _ _, fun v x y hx hy => ?_⟩
    simp only [ev, Option.some.injEq] at hx hy ⊢
    rw [hA.rnd, ← hx, ← hy]; push_cast; ring
  · split_ifs at h with hp h0
    · subst hp
      have key : ∀ v x y, ev v (.const (-1)) = some x → (ev v r = some (-y)) →
          ev v r = some (x * y) := by
        intro v x y hx hy
        simp only [ev, Option.some.injEq] at hx
        rw [hy, ← hx]; push_cast; simp
      split at h
      · obtain ⟨g, w⟩ := negAdd_ok ih hb h
        exact ⟨g, fun v x y hx hy => key v x y hx (w v y hy)⟩
      · obtain ⟨g, w⟩ := negMul_ok ih hb h
        exact ⟨g, fun v x y hx hy => key v x y hx (w v y hy)⟩
      · exact ih.flat _ _ _ ha hb h
    · subst h0
      simp only [Run.ok.injEq] at h
      subst h
      refine ⟨good_const _ _, fun v x y hx hy => ?_⟩
      simp only [ev, Option.some.injEq] at hx ⊢
      rw [← hx]; simp
    · exact ih.flat _ _ _ ha hb h
  · split_ifs at h with hp h0
    · subst hp
      have key : ∀ v x y, ev v (.const (-1)) = some y → (ev v r = some (-x)) →
          ev v r = some (x * y) := by
        intro v x y hx hy
        simp only [ev, Option.some.injEq] at hx
        rw [hy, ← hx]; push_cast; simp
      split at h
      · obtain ⟨g, w⟩ := negAdd_ok ih ha h
        exact ⟨g, fun v x y hx hy => key v x y hy (w v x hx)⟩
      · obtain ⟨g, w⟩ := negMul_ok ih ha h
        exact ⟨g, fun v x y hx hy => key v x y hy (w v x hx)⟩
      · exact ih.flat _ _ _ ha hb h
    · subst h0
      simp only [Run.ok.injEq] at h
      subst h
      refine ⟨good_const _ _, fun v x y hx hy => ?_⟩
      simp only [ev, Option.some.injEq] at hy ⊢
      rw [← hy]; simp
    · exact ih.flat _ _ _ ha hb h
  · exact ih.flat _ _ _ ha hb h

theorem two_factors (ih : NormAll A S n) {a b r : Cell} {f g : ℚ × CFactors} (ha : Good S a)
    (hb : Good S b) (e1 : mulExpr A n (1, .nil) a = .ok f) (e2 : mulExpr A n f b = .ok g)
    (e3 : getMul A n g = .ok r) : Good S r ∧
      ∀ v x y, ev v a = some x → ev v b = some y → ev v r = some (x * y) := by
  obtain ⟨c1, f1⟩ := f
  obtain ⟨c2, f2⟩ := g
  obtain ⟨g1, v1⟩ := ih.mulX _ _ _ _ _ (good_nilG S) ha e1
  obtain ⟨g2, v2⟩ := ih.mulX _ _ _ _ _ g1 hb e2
  obtain ⟨g3, v3⟩ := ih.getM _ _ _ g2 e3
  refine ⟨g3, fun v x y hx hy => ?_⟩
  obtain ⟨m1, hm1, k1⟩ := v1 v 1 x rfl hx
  obtain ⟨m2, hm2, k2⟩ := v2 v m1 y hm1 hy
  rw [v3 v m2 hm2, k2, k1]
  simp

theorem one_factor (ih : NormAll A S n) {b r : Cell} {c : ℚ} {fs : CFactors} {g : ℚ × CFactors}
    (ha : Good S (.mul c fs)) (hb : Good S b) (e2 : mulExpr A n (c, fs) b = .ok g)
    (e3 : getMul A n g = .ok r) : Good S r ∧
      ∀ v x y, ev v (.mul c fs) = some x → ev v b = some y → ev v r = some (x * y) := by
  obtain ⟨c2, f2⟩ := g
  obtain ⟨g2, v2⟩ := ih.mulX _ _ _ _ _ (good_mul ha) hb e2
  obtain ⟨g3, v3⟩ := ih.getM _ _ _ g2 e3
  refine ⟨g3, fun v x y hx hy => ?_⟩
  simp only [ev, Option.map_eq_some_iff] at hx
  obtain ⟨m, hm, rfl⟩ := hx
  obtain ⟨m2, hm2, k2⟩ := v2 v m y hm hy
  rw [v3 v m2 hm2, k2]

/-- `pow(e1, e2) * e1` -/
theorem pow_succ_ok (ih : NormAll A S n) {e1 e2 s r : Cell} (ha : Good S (.bin .pow e1 e2))
    (k1 : addE A n (.const 1) e2 = .ok s) (k2 : powE A n e1 s = .ok r) : Good S r ∧
      ∀ v x y, ev v (.bin .pow e1 e2) = some x → ev v e1 = some y → ev v r = some (x * y) := by
  obtain ⟨g1, v1⟩ := ih.add _ _ _ (good_const S 1) (good_bin ha).2 k1
  obtain ⟨g2, v2⟩ := ih.pow _ _ _ (good_bin ha).1 g1 (ha.2.2.2 rfl).1 k2
  refine ⟨g2, fun v x y hx hy => ?_⟩
  obtain ⟨x1, p, hx1, hp, hw⟩ := ev_pow.mp hx
  obtain rfl : y = x1 := by rw [hy] at hx1; simpa using hx1
  have h1 : ev v (.const 1) = some 1 := by simp [ev]
  refine v2 v y (1 + p) (x * y) hy (v1 v 1 p h1 hp) ?_
  rw [mul_comm]
  exact pw_add (pw_one y) hw

theorem step_flat (ih : NormAll A S n) (a b r : Cell) (ha : Good S a)
    (hb : Good S b) (h : mulFlat A (n + 1) a b = .ok r) : Good S r ∧
      ∀ v x y, ev v a = some x → ev v b = some y → ev v r = some (x * y) := by
  have comm : ∀ {P Q : Cell}, (Good S r ∧ ∀ v x y, ev v P = some x → ev v Q = some y →
      ev v r = some (x * y)) → (Good S r ∧ ∀ v x y, ev v Q = some x → ev v P = some y →
      ev v r = some (x * y)) := fun k =>
    ⟨k.1, fun v x y hx hy => by rw [k.2 v y x hy hx, mul_comm]⟩
  unfold mulFlat at h
  split at h
  · split_ifs at h with h1 h2
    · rw [equalTo_iff] at h1
      subst h1
      obtain ⟨s, k1, k2⟩ := bindR_ok h
      obtain ⟨g1, v1⟩ := ih.add _ _ _ (good_bin ha).2 (good_bin hb).2 k1
      obtain ⟨g2, v2⟩ := ih.pow _ _ _ (good_bin ha).1 g1 (ha.2.2.2 rfl).1 k2
      refine ⟨g2, fun v x y hx hy => ?_⟩
      obtain ⟨x1, p, hx1, hp, hw⟩ := ev_pow.mp hx
      obtain ⟨x2, q, hx2, hq, hz⟩ := ev_pow.mp hy
      obtain rfl : x2 = x1 := by rw [hx1] at hx2; simpa using hx2.symm
      exact v2 v _ _ _ hx1 (v1 v p q hp hq) (pw_add hw hz)
    · rw [equalTo_iff] at h2
      subst h2
      obtain ⟨s, k1, k2⟩ := bindR_ok h
      exact pow_succ_ok ih ha k1 k2
    · obtain ⟨f, e1, h⟩ := bindR_ok h
      obtain ⟨g, e2, e3⟩ := bindR_ok h
      exact two_factors ih ha hb e1 e2 e3
  · split_ifs at h with h1
    · rw [equalTo_iff] at h1
      subst h1
      obtain ⟨s, k1, k2⟩ := bindR_ok h
      exact pow_succ_ok ih ha k1 k2
    · split at h
      · obtain ⟨g, e2, e3⟩ := bindR_ok h
        exact comm (one_factor ih hb ha e2 e3)
      · obtain ⟨f, e1, h⟩ := bindR_ok h
        obtain ⟨g, e2, e3⟩ := bindR_ok h
        exact two_factors ih ha hb e1 e2 e3
  · split_ifs at h with h1
    · rw [equalTo_iff] at h1
      subst h1
      obtain ⟨s, k1, k2⟩ := bindR_ok h
      exact comm (pow_succ_ok ih hb k1 k2)
    · split at h
      · obtain ⟨g, e2, e3⟩ := bindR_ok h
        exact one_factor ih ha hb e2 e3
      · obtain ⟨f, e1, h⟩ := bindR_ok h
        obtain ⟨g, e2, e3⟩ := bindR_ok h
        exact two_factors ih ha hb e1 e2 e3
  · obtain ⟨g, e2, e3⟩ := bindR_ok h
    exact one_factor ih ha hb e2 e3
  · obtain ⟨g, e2, e3⟩ := bindR_ok h
    exact comm (one_factor ih hb ha e2 e3)
  · rename_i n1 n2 n3 n4 n5
    split_ifs at h with h1
    · rw [equalTo_iff] at h1
      subst h1
      have hnp : ¬ PowInt a := by
        rintro ⟨b, q, rfl, _⟩
        first | exact n1 _ _ rfl | exact n2 _ _ rfl | exact n3 _ _ rfl | exact n4 _ _ rfl
      obtain ⟨g, w⟩ := ih.pow _ _ _ ha (good_const S 2) hnp h
      refine ⟨g, fun v x y hx hy => ?_⟩
      obtain rfl : x = y := by rw [hx] at hy; simpa using hy
      refine w v x 2 _ hx ?_ (pw_two x)
      simp [ev]
    · obtain ⟨f, e1, h⟩ := bindR_ok h
      obtain ⟨g, e2, e3⟩ := bindR_ok h
      exact two_factors ih ha hb e1 e2 e3

theorem step_mulX (hA : Arith.Exact A) (ih : NormAll A S n) (c : ℚ) (fs : CFactors) (e : Cell)
    (c' : ℚ) (fs' : CFactors) (hf : GoodG S fs) (he : Good S e)
    (h : mulExpr A (n + 1) (c, fs) e = .ok (c', fs')) :
    GoodG S fs' ∧ ∀ v m x, evG v fs = some m → ev v e = some x →
      ∃ m', evG v fs' = some m' ∧ (c' : ℝ) * m' = c * m * x := by
  unfold mulExpr at h
  split_ifs at h with hc
  · simp only [Run.ok.injEq, Prod.mk.injEq] at h
    obtain ⟨rfl, rfl⟩ := h
    refine ⟨hf, fun v m x hm hx => ⟨m, hm, ?_⟩⟩
    rw [hc]; simp
  · split at h
    · split_ifs at h with hq
      · simp only [Run.ok.injEq, Prod.mk.injEq] at h
        obtain ⟨rfl, rfl⟩ := h
        refine ⟨good_nilG S, fun v m x hm hx => ⟨1, rfl, ?_⟩⟩
        simp only [ev, Option.some.injEq] at hx
        rw [← hx, hq]; simp
      · simp only [Run.ok.injEq, Prod.mk.injEq] at h
        obtain ⟨rfl, rfl⟩ := h
        refine ⟨hf, fun v m x hm hx => ⟨m, hm, ?_⟩⟩
        simp only [ev, Option.some.injEq] at hx
        rw [hA.rnd, ← hx]; push_cast; ring
    · obtain ⟨f, e1, h⟩ := bindR_ok h
      simp only [Run.ok.injEq, Prod.mk.injEq] at h
      obtain ⟨rfl, rfl⟩ := h
      obtain ⟨g, w⟩ := ih.map _ _ _ hf (good_mul he) e1
      refine ⟨g, fun v m x hm hx => ?_⟩
      simp only [ev, Option.map_eq_some_iff] at hx
      obtain ⟨k, hk, rfl⟩ := hx
      refine ⟨_, w v m k hm hk, ?_⟩
      rw [hA.rnd]; push_cast; ring
    · obtain ⟨f, e1, h⟩ := bindR_ok h
      simp only [Run.ok.injEq, Prod.mk.injEq] at h
      obtain ⟨rfl, rfl⟩ := h
      obtain ⟨g, w⟩ := ih.term _ _ _ _ hf (good_bin he).1 (good_bin he).2 (he.2.2.2 rfl).1
        (he.2.2.2 rfl).2 e1
      refine ⟨g, fun v m x hm hx => ?_⟩
      obtain ⟨x1, p, hx1, hp, hw⟩ := ev_pow.mp hx
      exact ⟨_, w v m x1 p x hm hx1 hp hw, by ring⟩
    · rename_i n1 n2 n3
      obtain ⟨f, e1, h⟩ := bindR_ok h
      simp only [Run.ok.injEq, Prod.mk.injEq] at h
      obtain ⟨rfl, rfl⟩ := h
      have hnp : ¬ PowInt e := by
        rintro ⟨b, q, rfl, _⟩
        exact n3 _ _ rfl
      obtain ⟨g, w⟩ := ih.term _ _ _ _ hf he (good_const S 1) hnp (by simp) e1
      refine ⟨g, fun v m x hm hx => ?_⟩
      exact ⟨_, w v m x 1 x hm hx (by simp [ev]) (pw_one x), by ring⟩

theorem good_consG {b e : Cell} {gs : CFactors} (h : GoodG S (.cons b e gs)) :
    Good S b ∧ Good S e ∧ ¬ PowInt b ∧ e ≠ .const 0 ∧ GoodG S gs ∧
      ∀ k ∈ keysG gs, b.less k = true := by
  obtain ⟨⟨r1, r2, r3⟩, ⟨n1, n2, n3, n4, n5⟩, s⟩ := h
  simp only [Sorted, keysG, List.pairwise_cons] at s
  exact ⟨⟨r1, n1⟩, ⟨r2, n2⟩, n3, n4, ⟨r3, n5, s.2⟩, s.1⟩

theorem mk_consG {b e : Cell} {gs : CFactors} (hb : Good S b) (he : Good S e) (hn : ¬ PowInt b)
    (h0 : e ≠ .const 0) (hg : GoodG S gs) (hs : ∀ k ∈ keysG gs, b.less k = true) :
    GoodG S (.cons b e gs) := by
  refine ⟨⟨hb.1, he.1, hg.1⟩, ⟨hb.2, he.2, hn, h0, hg.2.1⟩, ?_⟩
  simp only [Sorted, keysG, List.pairwise_cons]
  exact ⟨hs, hg.2.2⟩

theorem evG_cons {v : CVal} {b e : Cell} {fs : CFactors} {m : ℝ} :
    evG v (.cons b e fs) = some m ↔ ∃ x y p k, ev v b = some x ∧ ev v e = some y ∧
      pw x y = some p ∧ evG v fs = some k ∧ m = p * k := by
  simp only [evG, Option.bind_eq_some_iff, Option.map_eq_some_iff]
  constructor
  · rintro ⟨x, hx, y, hy, p, hp, k, hk, rfl⟩; exact ⟨x, y, p, k, hx, hy, hp, hk, rfl⟩
  · rintro ⟨x, y, p, k, hx, hy, hp, hk, rfl⟩; exact ⟨x, hx, y, hy, p, hp, k, hk, rfl⟩

theorem step_map (ih : NormAll A S n) (fs gs fs' : CFactors) (hf : GoodG S fs) (hg : GoodG S gs)
    (h : mulMap A (n + 1) fs gs = .ok fs') :
    GoodG S fs' ∧ ∀ v m k, evG v fs = some m → evG v gs = some k → evG v fs' = some (m * k) := by
  unfold mulMap at h
  split at h
  · simp only [Run.ok.injEq] at h
    subst h
    refine ⟨hf, fun v m k hm hk => ?_⟩
    simp only [evG, Option.some.injEq] at hk
    rw [hm, ← hk, mul_one]
  · obtain ⟨f, e1, e2⟩ := bindR_ok h
    obtain ⟨q1, q2, q3, q4, q5, _⟩ := good_consG hg
    obtain ⟨g1, v1⟩ := ih.term _ _ _ _ hf q1 q2 q3 q4 e1
    obtain ⟨g2, v2⟩ := ih.map _ _ _ g1 q5 e2
    refine ⟨g2, fun v m k hm hk => ?_⟩
    obtain ⟨x, y, p, k', hx, hy, hp, hk', rfl⟩ := evG_cons.mp hk
    rw [v2 v _ _ (v1 v m x y p hm hx hy hp) hk', mul_assoc]

theorem step_term (ih : NormAll A S n) (fs : CFactors) (b e : Cell) (fs' : CFactors)
    (hf : GoodG S fs) (hb : Good S b) (he : Good S e) (hn : ¬ PowInt b) (h0 : e ≠ .const 0)
    (h : mulTerm A (n + 1) fs b e = .ok fs') : GoodG S fs' ∧ ∀ v m x y p, evG v fs = some m →
      ev v b = some x → ev v e = some y → pw x y = some p → evG v fs' = some (m * p) := by
  unfold mulTerm at h
  split_ifs at h with h1
  split at h
  · split_ifs at h with h2
    · exact absurd ⟨_, _, rfl, h2.2⟩ hn
    · obtain ⟨g, w⟩ := ih.ins _ _ _ _ hf hb he hn h0 h
      exact ⟨g.1, w⟩
  · obtain ⟨g, w⟩ := ih.ins _ _ _ _ hf hb he hn h0 h
    exact ⟨g.1, w⟩

theorem step_ins (hS : Apart S) (ih : NormAll A S n) (fs : CFactors) (b e : Cell) (fs' : CFactors)
    (hf : GoodG S fs) (hb : Good S b) (he : Good S e) (hn : ¬ PowInt b) (h0 : e ≠ .const 0)
    (h : mulIns A (n + 1) b e fs = .ok fs') :
      (GoodG S fs' ∧ ∀ k ∈ keysG fs', k = b ∨ k ∈ keysG fs) ∧ ∀ v m x y p, evG v fs = some m →
      ev v b = some x → ev v e = some y → pw x y = some p → evG v fs' = some (m * p) := by
  cases fs with
  | nil =>
    simp only [mulIns, Run.ok.injEq] at h
    subst h
    refine ⟨⟨mk_consG hb he hn h0 (good_nilG S) (by simp [keysG]), by simp [keysG]⟩, ?_⟩
    intro v m x y p hm hx hy hp
    simp only [evG, Option.some.injEq] at hm
    exact evG_cons.mpr ⟨x, y, p, 1, hx, hy, hp, rfl, by rw [← hm]; ring⟩
  | cons k q fs =>
    obtain ⟨q1, q2, q3, q4, q5, q6⟩ := good_consG hf
    unfold mulIns at h
    split_ifs at h with h1 h2
    · simp only [Run.ok.injEq] at h
      subst h
      refine ⟨⟨mk_consG hb he hn h0 hf ?_, by simp [keysG]⟩, ?_⟩
      · simp only [keysG, List.mem_cons]
        rintro x (rfl | hx)
        · exact h1
        · exact less_trans h1 (q6 x hx)
      · intro v m x y p hm hx hy hp
        exact evG_cons.mpr ⟨x, y, p, m, hx, hy, hp, hm, by ring⟩
    · obtain ⟨f, e1, h⟩ := bindR_ok h
      simp only [Run.ok.injEq] at h
      subst h
      obtain ⟨⟨g1, g2⟩, w⟩ := ih.ins _ _ _ _ q5 hb he hn h0 e1
      refine ⟨⟨mk_consG q1 q2 q3 q4 g1 ?_, ?_⟩, ?_⟩
      · intro x hx
        rcases g2 x hx with rfl | hx
        · exact h2
        · exact q6 x hx
      · simp only [keysG, List.mem_cons]
        rintro x (rfl | hx)
        · exact Or.inr (Or.inl rfl)
        · rcases g2 x hx with h | h
          · exact Or.inl h
          · exact Or.inr (Or.inr h)
      · intro v m x y p hm hx hy hp
        obtain ⟨x', y', p', m', hx', hy', hp', hm', rfl⟩ := evG_cons.mp hm
        exact evG_cons.mpr ⟨x', y', p', _, hx', hy', hp', w v m' x y p hm' hx hy hp, by ring⟩
    · obtain rfl := unordered_eq hS hb.1 q1.1 h1 h2
      obtain ⟨s, e1, h⟩ := bindR_ok h
      obtain ⟨g, w⟩ := ih.add _ _ _ q2 he e1
      have key : ∀ v m x y p, evG v (.cons b q fs) = some m → ev v b = some x → ev v e = some y →
          pw x y = some p → ∃ z p' m', ev v s = some z ∧ evG v fs = some m' ∧
            pw x z = some p' ∧ m * p = p' * m' := by
        intro v m x y p hm hx hy hp
        obtain ⟨x', y', p', m', hx', hy', hp', hm', rfl⟩ := evG_cons.mp hm
        obtain rfl : x' = x := by rw [hx] at hx'; simpa using hx'.symm
        exact ⟨_, _, m', w v y' y hy' hy, hm', pw_add hp' hp, by ring⟩
      split_ifs at h with hz
      · simp only [Run.ok.injEq] at h
        subst h
        refine ⟨⟨q5, fun k hk => Or.inr (by simp [keysG, hk])⟩, ?_⟩
        intro v m x y p hm hx hy hp
        obtain ⟨z, p', m', hz', hm', hp', e⟩ := key v m x y p hm hx hy hp
        rw [equalTo_iff] at hz
        subst hz
        simp only [ev, Option.some.injEq] at hz'
        rw [← hz', Rat.cast_zero, pw_zero, Option.some.injEq] at hp'
        rw [hm', e, ← hp', one_mul]
      · simp only [Run.ok.injEq] at h
        subst h
        refine ⟨⟨mk_consG q1 g q3 ?_ q5 q6, by simp [keysG]⟩, ?_⟩
        · intro hc; subst hc; exact hz (by simp [equalTo_iff])
        · intro v m x y p hm hx hy hp
          obtain ⟨z, p', m', hz', hm', hp', e⟩ := key v m x y p hm hx hy hp
          exact evG_cons.mpr ⟨x, z, p', m', hx, hz', hp', hm', e⟩

theorem step_getM (ih : NormAll A S n) (c : ℚ) (fs : CFactors) (r : Cell) (hf : GoodG S fs)
    (h : getMul A (n + 1) (c, fs) = .ok r) : Good S r ∧
    ∀ v m, evG v fs = some m → ev v r = some (c * m) := by
  unfold getMul at h
  dsimp only at h
  by_cases hc : c = 0
  · rw [if_pos hc] at h
    simp only [Run.ok.injEq] at h
    subst h
    refine ⟨good_const _ _, fun v m hm => ?_⟩
    rw [hc]; simp [ev]
  · rw [if_neg hc] at h
    split at h
    · simp only [Run.ok.injEq] at h
      subst h
      refine ⟨good_const _ _, fun v m hm => ?_⟩
      simp only [evG, Option.some.injEq] at hm
      subst hm; simp [ev]
    · rename_i b e
      obtain ⟨q1, q2, q3, q4, q5, q6⟩ := good_consG hf
      split_ifs at h with h1
      · obtain ⟨g, w⟩ := ih.pow _ _ _ q1 q2 q3 h
        refine ⟨g, fun v m hm => ?_⟩
        obtain ⟨x, y, p, k, hx, hy, hp, hk, rfl⟩ := evG_cons.mp hm
        simp only [evG, Option.some.injEq] at hk
        rw [w v x y p hx hy hp, h1, ← hk]; simp
      · simp only [Run.ok.injEq] at h
        subst h
        refine ⟨⟨hf.1, hc, hf.2.1, hf.2.2, by simp, fun h => absurd h h1⟩, fun v m hm => ?_⟩
        simp only [ev, hm, Option.map_some]
    · rename_i h1 h2
      simp only [Run.ok.injEq] at h
      subst h
      refine ⟨⟨hf.1, hc, hf.2.1, hf.2.2, h1, fun _ => ?_⟩, fun v m hm => ?_⟩
      · cases fs with
        | nil => exact absurd rfl h1
        | cons e q us =>
          cases us with
          | nil => exact absurd rfl (h2 _ _)
          | cons e' q' ws => simp [keysG]
      · simp only [ev, hm, Option.map_some]

/-- The value of `pow` is right for all bases. -/
theorem pow_ev (hA : Arith.Exact A) (hI : NoInt S) (a b r : Cell) (ha : RcC S a)
    (h : powE A n a b = .ok r) (v : CVal) (x y p : ℝ) (hx : ev v a = some x)
    (hy : ev v b = some y) (hp : pw x y = some p) : ev v r = some p := by
  cases n with
  | zero => simp [powE] at h
  | succ n =>
  have gen : ∀ a b, ev v a = some x → ev v b = some y → ev v (.bin .pow a b) = some p :=
    fun a b h k => ev_pow.mpr ⟨x, y, h, k, hp⟩
  unfold powE at h
  dsimp only at h
  split at h
  · rename_i q
    simp only [ev, Option.some.injEq] at hy
    split at h
    · simp only [ev, Option.some.injEq] at hx
      split_ifs at h with h1
      split at h
      · rename_i r' hr
        simp only [Run.ok.injEq] at h
        subst h
        have := hA.pow _ _ _ hr
        rw [hx, hy, hp, Option.some.injEq] at this
        rw [this, ev]
      · simp at h
    · split_ifs at h with h0 h1
      · simp only [Run.ok.injEq] at h
        subst h
        rw [← hy, h0, Rat.cast_zero, pw_zero] at hp
        rw [← hp]; simp [ev]
      · simp only [Run.ok.injEq] at h
        subst h
        rw [← hy, h1, Rat.cast_one, pw_one] at hp
        rw [← hp, hx]
      · split at h
        · split_ifs at h with h2
          · simp only [Run.ok.injEq] at h
            subst h
            obtain ⟨x1, u, hx1, hu, hw⟩ := ev_pow.mp hx
            simp only [ev, Option.some.injEq] at hu
            obtain ⟨m, hm⟩ := isInt32_int h2.1
            obtain ⟨k, hk⟩ := isInt32_int h2.2
            rw [← hu, hm, Rat.cast_intCast] at hw
            rw [← hy, hk, Rat.cast_intCast] at hp
            refine ev_pow.mpr ⟨x1, _, hx1, rfl, ?_⟩
            rw [hA.rnd, hm, hk]
            push_cast
            exact pw_mul_int hw hp
          · simp only [Run.ok.injEq] at h
            subst h
            exact gen _ _ hx (by rw [ev, hy])
        · split_ifs at h with h2
          · have := hI _ ha.2
            simp [this] at h2
          · simp only [Run.ok.injEq] at h
            subst h
            exact gen _ _ hx (by rw [ev, hy])
        · simp at h
        · simp only [Run.ok.injEq] at h
          subst h
          exact gen _ _ hx (by rw [ev, hy])
  · simp only [Run.ok.injEq] at h
    subst h
    exact gen _ _ hx hy

/-- `pow` gives a normal form if the base is no integer power, or the exponent is an integer. -/
theorem pow_good (hA : Arith.Exact A) (hI : NoInt S) (a b r : Cell) (ha : Good S a)
    (hb : Good S b) (hn : ¬ PowInt a ∨ ∃ q, b = .const q ∧ isInt32 q = true)
    (h : powE A n a b = .ok r) : Good S r := by
  cases n with
  | zero => simp [powE] at h
  | succ n =>
  have gen : ¬ PowInt a → b ≠ .const 0 → Good S (.bin .pow a b) :=
    fun h h0 => ⟨⟨ha.1, hb.1⟩, ha.2, hb.2, fun _ => ⟨h, h0⟩⟩
  unfold powE at h
  dsimp only at h
  split at h
  · rename_i q
    split at h
    · split_ifs at h with h1
      split at h
      · simp only [Run.ok.injEq] at h
        subst h
        exact good_const _ _
      · simp at h
    · split_ifs at h with h0 h1
      · simp only [Run.ok.injEq] at h
        subst h
        exact good_const _ _
      · simp only [Run.ok.injEq] at h
        subst h
        exact ha
      · have h0' : Cell.const q ≠ .const 0 := by simpa using h0
        split at h
        · rename_i base u _
          have hu0 : u ≠ 0 := by
            rintro rfl
            exact (ha.2.2.2 rfl).2 rfl
          split_ifs at h with h2
          · simp only [Run.ok.injEq] at h
            subst h
            refine ⟨⟨ha.1.1, trivial⟩, ha.2.1, trivial, fun _ => ⟨(ha.2.2.2 rfl).1, ?_⟩⟩
            simp [hA.rnd, hu0, h0]
          · simp only [Run.ok.injEq] at h
            subst h
            refine gen ?_ h0'
            rcases hn with hn | ⟨q', e, hq⟩
            · exact hn
            · simp only [Cell.const.injEq] at e
              subst e
              rintro ⟨b', q', e, hq'⟩
              simp only [Cell.bin.injEq, Cell.const.injEq, true_and] at e
              obtain ⟨_, rfl⟩ := e
              exact h2 ⟨hq', hq⟩
        · split_ifs at h with h2
          · have := hI _ ha.1.2
            simp [this] at h2
          · simp only [Run.ok.injEq] at h
            subst h
            refine gen ?_ h0'
            rintro ⟨b', q', e, _⟩
            simp at e
        · simp at h
        · rename_i n1 n2 n3 n4
          simp only [Run.ok.injEq] at h
          subst h
          refine gen ?_ h0'
          rintro ⟨b', q', rfl, _⟩
          exact n4 _ _ rfl
  · rename_i hc
    simp only [Run.ok.injEq] at h
    subst h
    refine gen ?_ (fun e => hc _ e)
    rcases hn with hn | ⟨q', e, _⟩
    · exact hn
    · exact absurd e (hc q')

theorem step_div (hA : Arith.Exact A) (a b r : Cell) (ha : Good S a) (hb : Good S b)
    (h : divE A (n + 1) a b = .ok r) : Good S r ∧
    ∀ v x y, ev v a = some x → ev v b = some y → y ≠ 0 → ev v r = some (x / y) := by
  unfold divE at h
  dsimp only at h
  split_ifs at h with h1
  · rw [equalTo_iff] at h1
    subst h1
    simp only [Run.ok.injEq] at h
    subst h
    refine ⟨ha, fun v x y hx hy _ => ?_⟩
    simp only [ev, Option.some.injEq] at hy
    rw [hx, ← hy]; simp
  · split at h
    · split_ifs at h with h2
      simp only [Run.ok.injEq] at h
      subst h
      refine ⟨good_const _ _, fun v x y hx hy _ => ?_⟩
      simp only [ev, Option.some.injEq] at hx hy ⊢
      rw [hA.rnd, ← hx, ← hy]; push_cast; rfl
    · split_ifs at h with h2
      · rw [equalTo_iff] at h2
        subst h2
        simp only [Run.ok.injEq] at h
        subst h
        refine ⟨good_const _ _, fun v x y hx hy h0 => ?_⟩
        obtain rfl : x = y := by rw [hx] at hy; simpa using hy
        simp [ev, h0]
      · simp only [Run.ok.injEq] at h
        subst h
        refine ⟨⟨⟨ha.1, hb.1⟩, ha.2, hb.2, by simp⟩, fun v x y hx hy h0 => ?_⟩
        simp [ev, hx, hy, quo, h0]

end Steps

theorem norm_all {A : Arith} (hA : Arith.Exact A) {S : RC → Prop} (hS : Apart S) (hI : NoInt S)
    (n : Nat) : NormAll A S n := by
  induction n with
  | zero =>
    constructor <;> intros <;>
      simp_all [addE, addExpr, getAdd, mulE, mulRest, mulFlat, mulExpr, mulMap, mulTerm, mulIns,
        getMul, powE, divE]
  | succ n ih =>
    exact ⟨step_add hA ih, step_addX hS hA ih, step_getA ih, step_mul ih, step_rest hA ih,
      step_flat ih, step_mulX hA ih, step_map ih, step_term ih, step_ins hS ih, step_getM ih,
      fun a b r ha hb hn h => ⟨pow_good hA hI a b r ha hb (.inl hn) h,
        fun v x y p hx hy hp => pow_ev hA hI a b r ha.1 h v x y p hx hy hp⟩,
      step_div hA⟩

theorem negE_ok {A : Arith} (hA : Arith.Exact A) {S : RC → Prop} (hS : Apart S) (hI : NoInt S)
    {n : Nat} {a r : Cell} (ha : Good S a) (h : negE A n a = .ok r) :
    Good S r ∧ ∀ v x, ev v a = some x → ev v r = some (-x) := by
  have ih := norm_all hA hS hI n
  unfold negE at h
  split at h
  · simp only [Run.ok.injEq] at h
    subst h
    refine ⟨good_const _ _, fun v x hx => ?_⟩
    simp only [ev, Option.some.injEq] at hx ⊢
    rw [← hx]; push_cast; rfl
  · exact negAdd_ok ih ha h
  · exact negMul_ok ih ha h
  · obtain ⟨g, w⟩ := ih.mul _ _ _ (good_const S (-1)) ha h
    refine ⟨g, fun v x hx => ?_⟩
    rw [w v (-1) x (by simp [ev]) hx]; simp

theorem minusE_ok {A : Arith} (hA : Arith.Exact A) {S : RC → Prop} (hS : Apart S) (hI : NoInt S)
    {n : Nat} {a b r : Cell} (ha : Good S a) (hb : Good S b) (h : minusE A n a b = .ok r) :
    Good S r ∧ ∀ v x y, ev v a = some x → ev v b = some y → ev v r = some (x - y) := by
  obtain ⟨m, e1, e2⟩ := bindR_ok h
  obtain ⟨g1, w1⟩ := negE_ok hA hS hI hb e1
  obtain ⟨g, w⟩ := (norm_all hA hS hI n).add a m r ha g1 e2
  refine ⟨g, fun v x y hx hy => ?_⟩
  rw [w v x (-y) hx (w1 v y hy), sub_eq_add_neg]

end Verif.Proof
