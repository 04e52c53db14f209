import Verif.Spec.Evaluate
import Verif.Proof.Pow

/-!
# Lemmas on evaluation
-/

namespace Verif.Proof
open Verif.Model Verif.Spec

theorem outcome_bind {α β : Type} {x : Outcome α} {f : α → Outcome β} {b : β}
    (h : (x >>= f) = .ok b) : ∃ a, x = .ok a ∧ f a = .ok b := by
  cases x with
  | ok a => exact ⟨a, rfl, h⟩
  | throw => cases h
  | ub => cases h

mutual
theorem within_cell : ∀ (e : Cell) (p : Nat → Bool),
    e.within p = true ↔ ∀ x, e.occurs x = true → p x = true
  | .const _, p => by simp [Cell.within, Cell.occurs]
  | .rconst .., p => by simp [Cell.within, Cell.occurs]
  | .var i, p => by simp [Cell.within, Cell.occurs]
  | .add _ ts, p => by simpa [Cell.within, Cell.occurs] using within_terms ts p
  | .mul _ fs, p => by simpa [Cell.within, Cell.occurs] using within_factors fs p
  | .un _ a, p => by simpa [Cell.within, Cell.occurs] using within_cell a p
  | .bin _ a b, p => by
    simp only [Cell.within, Cell.occurs, Bool.and_eq_true, Bool.or_eq_true, within_cell a p,
      within_cell b p]
    exact ⟨fun h x k => k.elim (h.1 x) (h.2 x), fun h => ⟨fun x k => h x (.inl k), fun x k => h x (.inr k)⟩⟩
  | .ite c a b, p => by
    simp only [Cell.within, Cell.occurs, Bool.and_eq_true, Bool.or_eq_true, within_cell a p,
      within_cell b p, within_fml c p]
    exact ⟨fun h x k => k.elim (fun k => k.elim (h.1.1 x) (h.1.2 x)) (h.2 x),
      fun h => ⟨⟨fun x k => h x (.inl (.inl k)), fun x k => h x (.inl (.inr k))⟩, fun x k => h x (.inr k)⟩⟩
  | .nan, p => by simp [Cell.within, Cell.occurs]
  | .uf _ vs, p => by simp [Cell.within, Cell.occurs]
theorem within_terms : ∀ (e : CTerms) (p : Nat → Bool),
    e.within p = true ↔ ∀ x, e.occurs x = true → p x = true
  | .nil, p => by simp [CTerms.within, CTerms.occurs]
  | .cons e _ ts, p => by
    simp only [CTerms.within, CTerms.occurs, Bool.and_eq_true, Bool.or_eq_true, within_cell e p,
      within_terms ts p]
    exact ⟨fun h x k => k.elim (h.1 x) (h.2 x), fun h => ⟨fun x k => h x (.inl k), fun x k => h x (.inr k)⟩⟩
theorem within_factors : ∀ (e : CFactors) (p : Nat → Bool),
    e.within p = true ↔ ∀ x, e.occurs x = true → p x = true
  | .nil, p => by simp [CFactors.within, CFactors.occurs]
  | .cons b e fs, p => by
    simp only [CFactors.within, CFactors.occurs, Bool.and_eq_true, Bool.or_eq_true, within_cell b p,
      within_cell e p, within_factors fs p]
    exact ⟨fun h x k => k.elim (fun k => k.elim (h.1.1 x) (h.1.2 x)) (h.2 x),
      fun h => ⟨⟨fun x k => h x (.inl (.inl k)), fun x k => h x (.inl (.inr k))⟩, fun x k => h x (.inr k)⟩⟩
theorem within_fml : ∀ (e : FCell) (p : Nat → Bool),
    e.within p = true ↔ ∀ x, e.occurs x = true → p x = true
  | .ff, p => by simp [FCell.within, FCell.occurs]
  | .tt, p => by simp [FCell.within, FCell.occurs]
  | .var i, p => by simp [FCell.within, FCell.occurs]
  | .rel _ a b, p => by
    simp only [FCell.within, FCell.occurs, Bool.and_eq_true, Bool.or_eq_true, within_cell a p,
      within_cell b p]
    exact ⟨fun h x k => k.elim (h.1 x) (h.2 x), fun h => ⟨fun x k => h x (.inl k), fun x k => h x (.inr k)⟩⟩
  | .conj fs, p => by simpa [FCell.within, FCell.occurs] using within_fmls fs p
  | .disj fs, p => by simpa [FCell.within, FCell.occurs] using within_fmls fs p
  | .neg f, p => by simpa [FCell.within, FCell.occurs] using within_fml f p
  | .all vs f, p => by
    simp only [FCell.within, FCell.occurs, within_fml f, Bool.or_eq_true, Bool.and_eq_true,
      Bool.not_eq_true']
    exact ⟨fun h x k => (h x k.1).resolve_right (by rw [k.2]; simp), fun h x k => by
      cases hc : vs.contains x
      · exact .inl (h x ⟨k, hc⟩)
      · exact .inr rfl⟩
theorem within_fmls : ∀ (e : FCells) (p : Nat → Bool),
    e.within p = true ↔ ∀ x, e.occurs x = true → p x = true
  | .nil, p => by simp [FCells.within, FCells.occurs]
  | .cons f fs, p => by
    simp only [FCells.within, FCells.occurs, Bool.and_eq_true, Bool.or_eq_true, within_fml f p,
      within_fmls fs p]
    exact ⟨fun h x k => k.elim (h.1 x) (h.2 x), fun h => ⟨fun x k => h x (.inl k), fun x k => h x (.inr k)⟩⟩
end

variable {D : Type} {C : EvalCfg D} {val : D → Option ℝ} {v : CVal} {env : Envt D}

/-! ## The functions -/

theorem evalUn_agrees (hN : Num.Exact C.num val v) {f : Fn1} {a d : D} {x z : ℝ}
    (ha : val a = some x) (h : evalUn C.num f a = .ok d) (hz : v.un f x = some z) :
    val d = some z := by
  have key : d = C.num.un f a := by
    cases f <;> simp only [evalUn] at h
    all_goals first
      | (split at h
         · exact (Outcome.ok.inj h).symm
         · cases h)
      | exact (Outcome.ok.inj h).symm
  rw [key]
  exact hN.un f a x z ha hz

theorem evalUn_returns (hN : Num.Exact C.num val v) (hv : EvalFun v) {f : Fn1} {a : D} {x z : ℝ}
    (ha : val a = some x) (hz : v.un f x = some z) : evalUn C.num f a = .ok (C.num.un f a) := by
  have h0 : val (C.num.ofQ 0) = some (0 : ℝ) := by simpa using hN.ofQ 0
  have h1 : val (C.num.ofQ 1) = some (1 : ℝ) := by simpa using hN.ofQ 1
  have h2 : val (C.num.ofQ (-1)) = some (-1 : ℝ) := by simpa using hN.ofQ (-1)
  cases f <;> simp only [evalUn]
  · rw [if_pos ((hN.le _ _ _ _ h0 ha).2 (hv.log x z hz))]
  · rw [if_pos ((hN.le _ _ _ _ h0 ha).2 (hv.sqrt x z hz))]
  · have := hv.asin x z hz
    rw [if_pos (by rw [(hN.le _ _ _ _ h2 ha).2 this.1, (hN.le _ _ _ _ ha h1).2 this.2]; rfl)]
  · have := hv.acos x z hz
    rw [if_pos (by rw [(hN.le _ _ _ _ h2 ha).2 this.1, (hN.le _ _ _ _ ha h1).2 this.2]; rfl)]

/-- The value of a binary function. -/
noncomputable def binV (v : CVal) (f : Fn2) (x y : ℝ) : Option ℝ :=
  match f with
  | .div => quo x y
  | .pow => pw x y
  | f => v.bin f x y

theorem ev_bin {f : Fn2} {a b : Cell} {z : ℝ} (h : ev v (.bin f a b) = some z) :
    ∃ x y, ev v a = some x ∧ ev v b = some y ∧ binV v f x y = some z := by
  simp only [ev, Option.bind_eq_some_iff] at h
  obtain ⟨x, hx, y, hy, h⟩ := h
  exact ⟨x, y, hx, hy, by cases f <;> exact h⟩

theorem evalBin_agrees (hN : Num.Exact C.num val v) (hv : EvalFun v) {f : Fn2} {a b d : D}
    {x y z : ℝ} (ha : val a = some x) (hb : val b = some y) (h : evalBin C.num f a b = .ok d)
    (hz : binV v f x y = some z) : val d = some z := by
  cases f <;> simp only [evalBin, binV] at h hz
  · split at h
    · cases h
    · obtain ⟨h1, h2⟩ := quo_some.1 hz
      rw [← Outcome.ok.inj h, h2]
      exact hN.div _ _ _ _ ha hb h1
  · split at h
    · cases h
    · rw [← Outcome.ok.inj h]
      exact hN.pow _ _ _ _ _ ha hb hz
  · rw [← Outcome.ok.inj h]
    exact hN.atan2 _ _ _ _ _ ha hb hz
  · rw [hv.min, Option.some.injEq] at hz
    rw [← Outcome.ok.inj h, ← hz]
    have := hN.lt _ _ _ _ hb ha
    by_cases hlt : y < x
    · rw [if_pos (this.2 hlt), min_eq_right hlt.le, hb]
    · rw [if_neg (fun k => hlt (this.1 k)), min_eq_left (not_lt.1 hlt), ha]
  · rw [hv.max, Option.some.injEq] at hz
    rw [← Outcome.ok.inj h, ← hz]
    have := hN.lt _ _ _ _ ha hb
    by_cases hlt : x < y
    · rw [if_pos (this.2 hlt), max_eq_right hlt.le, hb]
    · rw [if_neg (fun k => hlt (this.1 k)), max_eq_left (not_lt.1 hlt), ha]

theorem evalBin_returns (hN : Num.Exact C.num val v) {f : Fn2} {a b : D}
    {x y z : ℝ} (ha : val a = some x) (hb : val b = some y) (hz : binV v f x y = some z)
    (hf : f = .pow → PowFits x y) : ∃ d, evalBin C.num f a b = .ok d := by
  have h0 : val (C.num.ofQ 0) = some (0 : ℝ) := by simpa using hN.ofQ 0
  cases f <;> simp only [evalBin, binV] at hz ⊢
  · obtain ⟨h1, _⟩ := quo_some.1 hz
    rw [if_neg (fun k => h1 ((hN.eq _ _ _ _ hb h0).1 k))]
    exact ⟨_, rfl⟩
  · rw [if_neg]
    · exact ⟨_, rfl⟩
    · intro k
      simp only [Bool.and_eq_true, Bool.not_eq_true'] at k
      obtain ⟨⟨⟨_, k1⟩, _⟩, k2⟩ := k
      have hx : x < 0 := (hN.lt _ _ _ _ ha h0).1 k1
      obtain ⟨m, hm, _⟩ := pw_neg hx hz
      obtain ⟨b1, b2⟩ := hf rfl hx m hm
      have := (hN.int b y hb).2 ⟨m, hm, b1, b2⟩
      rw [this] at k2
      cases k2
  · exact ⟨_, rfl⟩
  · exact ⟨_, rfl⟩
  · exact ⟨_, rfl⟩

theorem rel_on {op : RelOp} {a b : Cell} {t : Bool} (h : tv v (.rel op a b) = some t) :
    ∃ x y, ev v a = some x ∧ ev v b = some y ∧ (t = true ↔ RelOp.On op x y) := by
  simp only [tv, Option.bind_eq_some_iff, Option.map_eq_some_iff] at h
  obtain ⟨x, hx, y, hy, h⟩ := h
  exact ⟨x, y, hx, hy, by rw [← h]; simp⟩

theorem bool_of_iff {p : Prop} {a b : Bool} (h : a = true ↔ p) (k : b = true ↔ p) : a = b := by
  cases a <;> cases b <;> simp_all

/-! ## What is returned -/

mutual
theorem agree_cell (hN : Num.Exact C.num val v) (hv : EvalFun v) (hT : Tells val v env)
    (hne : env ≠ []) : ∀ (e : Cell) (d : D) (x : ℝ), Definite (Known env) v e →
      evalC C env e = .ok d → ev v e = some x → val d = some x
  | .const q, d, x, _, h, hx => by
    simp only [evalC, Outcome.ok.injEq, ev, Option.some.injEq] at h hx
    rw [← h, ← hx, hN.ofQ]
  | .rconst l u f, d, x, _, h, hx => by
    simp only [evalC, Outcome.ok.injEq, ev, Option.some.injEq] at h hx
    rw [← h, ← hx, hN.ofQ, hv.rc]
  | .var i, d, x, _, h, hx => by
    simp only [evalC, ev, Option.some.injEq] at h hx
    split at h
    · rename_i d' hd
      split at h
      · cases h
      · rw [← Outcome.ok.inj h, ← hx]
        exact hT i d' hd
    · cases h
  | .add c ts, d, x, hD, h, hx => by
    simp only [evalC, ev, Option.map_eq_some_iff] at h hx
    obtain ⟨s, hs, rfl⟩ := hx
    exact agree_terms hN hv hT hne ts _ d c s hD (by rw [hN.ofQ]) h hs
  | .mul c fs, d, x, hD, h, hx => by
    simp only [evalC, ev, Option.map_eq_some_iff] at h hx
    obtain ⟨s, hs, rfl⟩ := hx
    exact agree_factors hN hv hT hne fs _ d c s hD (by rw [hN.ofQ]) h hs
  | .un f a, d, x, hD, h, hx => by
    simp only [ev, Option.bind_eq_some_iff] at hx
    obtain ⟨y, hy, hx⟩ := hx
    simp only [evalC] at h
    obtain ⟨a', h1, h2⟩ := outcome_bind h
    exact evalUn_agrees hN (agree_cell hN hv hT hne a a' y hD h1 hy) h2 hx
  | .bin f a b, d, x, hD, h, hx => by
    obtain ⟨y, z, hy, hz, hx⟩ := ev_bin hx
    simp only [evalC] at h
    obtain ⟨a', h1, h2⟩ := outcome_bind h
    obtain ⟨b', h3, h4⟩ := outcome_bind h2
    exact evalBin_agrees hN hv (agree_cell hN hv hT hne a a' y hD.1 h1 hy)
      (agree_cell hN hv hT hne b b' z hD.2 h3 hz) h4 hx
  | .ite c a b, d, x, hD, h, hx => by
    simp only [evalC] at h
    obtain ⟨t, h1, h2⟩ := outcome_bind h
    obtain ⟨hk, hc, ht, ha, hb⟩ := hD
    have : t = v.cond c := agree_fml hN hv hT hne c t _ hk hc h1 ht
    subst this
    simp only [ev] at hx
    cases hcc : v.cond c
    · rw [hcc] at h2 hx
      exact agree_cell hN hv hT hne b d x (hb hcc) h2 hx
    · rw [hcc] at h2 hx
      exact agree_cell hN hv hT hne a d x (ha hcc) h2 hx
  | .nan, d, x, _, h, _ => by cases h
  | .uf .., d, x, _, h, _ => by cases h
theorem agree_terms (hN : Num.Exact C.num val v) (hv : EvalFun v) (hT : Tells val v env)
    (hne : env ≠ []) : ∀ (ts : CTerms) (s d : D) (y x : ℝ), DefiniteT (Known env) v ts →
      val s = some y → evalT C env s ts = .ok d → evT v ts = some x → val d = some (y + x)
  | .nil, s, d, y, x, _, hs, h, hx => by
    simp only [evalT, Outcome.ok.injEq, evT, Option.some.injEq] at h hx
    rw [← h, hs, ← hx, add_zero]
  | .cons e q ts, s, d, y, x, hD, hs, h, hx => by
    simp only [evT, Option.bind_eq_some_iff, Option.map_eq_some_iff] at hx
    obtain ⟨a, ha, b, hb, rfl⟩ := hx
    simp only [evalT] at h
    obtain ⟨a', h1, h2⟩ := outcome_bind h
    have ha' := agree_cell hN hv hT hne e a' a hD.1 h1 ha
    rw [agree_terms hN hv hT hne ts _ d _ b hD.2
      (hN.add _ _ _ _ hs (hN.mul _ _ _ _ ha' (hN.ofQ q))) h2 hb]
    congr 1
    ring
theorem agree_factors (hN : Num.Exact C.num val v) (hv : EvalFun v) (hT : Tells val v env)
    (hne : env ≠ []) : ∀ (fs : CFactors) (s d : D) (y x : ℝ), DefiniteG (Known env) v fs →
      val s = some y → evalG C env s fs = .ok d → evG v fs = some x → val d = some (y * x)
  | .nil, s, d, y, x, _, hs, h, hx => by
    simp only [evalG, Outcome.ok.injEq, evG, Option.some.injEq] at h hx
    rw [← h, hs, ← hx, mul_one]
  | .cons b e fs, s, d, y, x, hD, hs, h, hx => by
    simp only [evG, Option.bind_eq_some_iff, Option.map_eq_some_iff] at hx
    obtain ⟨p, hp, q, hq, r, hr, m, hm, rfl⟩ := hx
    simp only [evalG] at h
    obtain ⟨b', h1, h2⟩ := outcome_bind h
    obtain ⟨e', h3, h4⟩ := outcome_bind h2
    have hb := agree_cell hN hv hT hne b b' p hD.1 h1 hp
    have he := agree_cell hN hv hT hne e e' q hD.2.1 h3 hq
    rw [agree_factors hN hv hT hne fs _ d _ m hD.2.2
      (hN.mul _ _ _ _ hs (hN.pow _ _ _ _ _ hb he hr)) h4 hm]
    congr 1
    ring
theorem agree_fml (hN : Num.Exact C.num val v) (hv : EvalFun v) (hT : Tells val v env)
    (hne : env ≠ []) : ∀ (f : FCell) (b t : Bool), (∀ x, f.occurs x = true → Known env x) →
      DefiniteF (Known env) v f → evalF C env f = .ok b → tv v f = some t → b = t
  | .ff, b, t, _, _, h, ht => by
    simp only [evalF, Outcome.ok.injEq, tv, Option.some.injEq] at h ht
    rw [← h, ← ht]
  | .tt, b, t, _, _, h, ht => by
    simp only [evalF, Outcome.ok.injEq, tv, Option.some.injEq] at h ht
    rw [← h, ← ht]
  | .var i, b, t, _, _, h, ht => by
    have h0 : val (C.num.ofQ 0) = some (0 : ℝ) := by simpa using hN.ofQ 0
    simp only [evalF, tv, Option.some.injEq] at h ht
    split at h
    · rename_i d hd
      rw [← Outcome.ok.inj h, ← ht]
      have := hN.eq _ _ _ _ (hT i d hd) h0
      apply bool_of_iff (p := v.var i ≠ 0)
      · rw [Bool.not_eq_true', ← Bool.not_eq_true, this]
      · simp
    · cases h
  | .rel op a b, r, t, hk, hD, h, ht => by
    obtain ⟨x, y, hx, hy, ht⟩ := rel_on ht
    have hne' : env.isEmpty = false := by cases env <;> simp_all
    have hw : (a.within (fun i => (envFind i env).isSome) &&
        b.within (fun i => (envFind i env).isSome)) = true := by
      rw [Bool.and_eq_true, within_cell, within_cell]
      exact ⟨fun x h => hk x (by simp [FCell.occurs, h]), fun x h => hk x (by simp [FCell.occurs, h])⟩
    have ha := fun a' h => agree_cell hN hv hT hne a a' x hD.1 h hx
    have hb := fun b' h => agree_cell hN hv hT hne b b' y hD.2 h hy
    apply bool_of_iff (p := RelOp.On op x y) _ ht
    cases op <;> simp only [evalF, hne', hw, if_true, Bool.false_eq_true, if_false] at h
    all_goals
      obtain ⟨a', h1, h2⟩ := outcome_bind h
      obtain ⟨b', h3, h4⟩ := outcome_bind h2
      have ha := ha a' h1
      have hb := hb b' h3
      rw [← Outcome.ok.inj h4]
      simp only [RelOp.On]
    · exact hN.eq _ _ _ _ ha hb
    · rw [Bool.not_eq_true', ← Bool.not_eq_true, hN.eq _ _ _ _ ha hb]
    · exact hN.lt _ _ _ _ hb ha
    · exact hN.le _ _ _ _ hb ha
    · exact hN.lt _ _ _ _ ha hb
    · exact hN.le _ _ _ _ ha hb
  | .conj fs, b, t, hk, hD, h, ht => agree_all hN hv hT hne fs b t hk hD h ht
  | .disj fs, b, t, hk, hD, h, ht => agree_any hN hv hT hne fs b t hk hD h ht
  | .neg f, b, t, hk, hD, h, ht => by
    simp only [evalF] at h
    obtain ⟨c, h1, h2⟩ := outcome_bind h
    simp only [tv, Option.map_eq_some_iff] at ht
    obtain ⟨u, hu, rfl⟩ := ht
    rw [← Outcome.ok.inj h2, agree_fml hN hv hT hne f c u hk hD h1 hu]
  | .all .., b, t, _, _, h, _ => by cases h
theorem agree_all (hN : Num.Exact C.num val v) (hv : EvalFun v) (hT : Tells val v env)
    (hne : env ≠ []) : ∀ (fs : FCells) (b t : Bool), (∀ x, fs.occurs x = true → Known env x) →
      DefiniteL (Known env) v fs → evalAll C env fs = .ok b → tvAll v fs = some t → b = t
  | .nil, b, t, _, _, h, ht => by
    simp only [evalAll, Outcome.ok.injEq, tvAll, Option.some.injEq] at h ht
    rw [← h, ← ht]
  | .cons f fs, b, t, hk, hD, h, ht => by
    simp only [tvAll, Option.bind_eq_some_iff, Option.map_eq_some_iff] at ht
    obtain ⟨p, hp, q, hq, rfl⟩ := ht
    simp only [evalAll] at h
    obtain ⟨c, h1, h2⟩ := outcome_bind h
    rw [← agree_fml hN hv hT hne f c p (fun x k => hk x (by simp [FCells.occurs, k])) hD.1 h1 hp]
    cases c
    · exact (Outcome.ok.inj h2).symm
    · rw [Bool.true_and]
      exact agree_all hN hv hT hne fs b q (fun x k => hk x (by simp [FCells.occurs, k])) hD.2 h2 hq
theorem agree_any (hN : Num.Exact C.num val v) (hv : EvalFun v) (hT : Tells val v env)
    (hne : env ≠ []) : ∀ (fs : FCells) (b t : Bool), (∀ x, fs.occurs x = true → Known env x) →
      DefiniteL (Known env) v fs → evalAny C env fs = .ok b → tvAny v fs = some t → b = t
  | .nil, b, t, _, _, h, ht => by
    simp only [evalAny, Outcome.ok.injEq, tvAny, Option.some.injEq] at h ht
    rw [← h, ← ht]
  | .cons f fs, b, t, hk, hD, h, ht => by
    simp only [tvAny, Option.bind_eq_some_iff, Option.map_eq_some_iff] at ht
    obtain ⟨p, hp, q, hq, rfl⟩ := ht
    simp only [evalAny] at h
    obtain ⟨c, h1, h2⟩ := outcome_bind h
    rw [← agree_fml hN hv hT hne f c p (fun x k => hk x (by simp [FCells.occurs, k])) hD.1 h1 hp]
    cases c
    · rw [Bool.false_or]
      exact agree_any hN hv hT hne fs b q (fun x k => hk x (by simp [FCells.occurs, k])) hD.2 h2 hq
    · exact (Outcome.ok.inj h2).symm
end

/-! ## That something is returned -/

mutual
theorem returns_cell (hN : Num.Exact C.num val v) (hv : EvalFun v) (hT : Tells val v env)
    (hne : env ≠ []) : ∀ (e : Cell) (x : ℝ), (∀ x, e.occurs x = true → Known env x) →
      Definite (Known env) v e → Fair v e → ev v e = some x → ∃ d, evalC C env e = .ok d
  | .const q, x, _, _, _, _ => ⟨_, rfl⟩
  | .rconst l u f, x, _, _, _, _ => ⟨_, rfl⟩
  | .var i, x, hk, _, _, _ => by
    obtain ⟨d, hd⟩ := Option.isSome_iff_exists.1 (hk i (by simp [Cell.occurs]))
    refine ⟨d, ?_⟩
    simp only [evalC, hd, hN.nan d _ (hT i d hd), Bool.false_eq_true, if_false]
  | .add c ts, x, hk, hD, hF, hx => by
    simp only [ev, Option.map_eq_some_iff] at hx
    obtain ⟨s, hs, rfl⟩ := hx
    exact returns_terms hN hv hT hne ts _ c s hk hD hF (hN.ofQ c) hs
  | .mul c fs, x, hk, hD, hF, hx => by
    simp only [ev, Option.map_eq_some_iff] at hx
    obtain ⟨s, hs, rfl⟩ := hx
    exact returns_factors hN hv hT hne fs _ c s hk hD hF (hN.ofQ c) hs
  | .un f a, x, hk, hD, hF, hx => by
    simp only [ev, Option.bind_eq_some_iff] at hx
    obtain ⟨y, hy, hx⟩ := hx
    obtain ⟨a', h1⟩ := returns_cell hN hv hT hne a y hk hD hF hy
    exact ⟨_, by
      simp only [evalC, h1]
      exact evalUn_returns hN hv (agree_cell hN hv hT hne a a' y hD h1 hy) hx⟩
  | .bin f a b, x, hk, hD, hF, hx => by
    obtain ⟨y, z, hy, hz, hx⟩ := ev_bin hx
    obtain ⟨a', h1⟩ := returns_cell hN hv hT hne a y (fun x k => hk x (by simp [Cell.occurs, k]))
      hD.1 hF.1 hy
    obtain ⟨b', h2⟩ := returns_cell hN hv hT hne b z (fun x k => hk x (by simp [Cell.occurs, k]))
      hD.2 hF.2.1 hz
    obtain ⟨d, hd⟩ := evalBin_returns hN (agree_cell hN hv hT hne a a' y hD.1 h1 hy)
      (agree_cell hN hv hT hne b b' z hD.2 h2 hz) hx (fun k => hF.2.2 k y z hy hz)
    exact ⟨d, by simp only [evalC, h1, h2]; exact hd⟩
  | .ite c a b, x, hk, hD, hF, hx => by
    obtain ⟨hc, hf, ht, ha, hb⟩ := hD
    obtain ⟨t, h1⟩ := returns_fml hN hv hT hne c _ hc hf hF.1 ht
    have : t = v.cond c := agree_fml hN hv hT hne c t _ hc hf h1 ht
    subst this
    simp only [ev] at hx
    cases hcc : v.cond c
    · rw [hcc] at h1 hx
      obtain ⟨d, hd⟩ := returns_cell hN hv hT hne b x (fun x k => hk x (by simp [Cell.occurs, k]))
        (hb hcc) (hF.2.2 hcc) hx
      exact ⟨d, by simp only [evalC, h1]; exact hd⟩
    · rw [hcc] at h1 hx
      obtain ⟨d, hd⟩ := returns_cell hN hv hT hne a x (fun x k => hk x (by simp [Cell.occurs, k]))
        (ha hcc) (hF.2.1 hcc) hx
      exact ⟨d, by simp only [evalC, h1]; exact hd⟩
  | .nan, x, _, _, _, h => by cases h
  | .uf .., x, _, _, h, _ => h.elim
theorem returns_terms (hN : Num.Exact C.num val v) (hv : EvalFun v) (hT : Tells val v env)
    (hne : env ≠ []) : ∀ (ts : CTerms) (s : D) (y x : ℝ), (∀ x, ts.occurs x = true → Known env x) →
      DefiniteT (Known env) v ts → FairT v ts → val s = some y → evT v ts = some x →
      ∃ d, evalT C env s ts = .ok d
  | .nil, s, y, x, _, _, _, _, _ => ⟨_, rfl⟩
  | .cons e q ts, s, y, x, hk, hD, hF, hs, hx => by
    simp only [evT, Option.bind_eq_some_iff, Option.map_eq_some_iff] at hx
    obtain ⟨a, ha, b, hb, rfl⟩ := hx
    obtain ⟨a', h1⟩ := returns_cell hN hv hT hne e a (fun x k => hk x (by simp [CTerms.occurs, k]))
      hD.1 hF.1 ha
    have ha' := agree_cell hN hv hT hne e a' a hD.1 h1 ha
    obtain ⟨d, hd⟩ := returns_terms hN hv hT hne ts _ _ b
      (fun x k => hk x (by simp [CTerms.occurs, k])) hD.2 hF.2
      (hN.add _ _ _ _ hs (hN.mul _ _ _ _ ha' (hN.ofQ q))) hb
    exact ⟨d, by simp only [evalT, h1]; exact hd⟩
theorem returns_factors (hN : Num.Exact C.num val v) (hv : EvalFun v) (hT : Tells val v env)
    (hne : env ≠ []) : ∀ (fs : CFactors) (s : D) (y x : ℝ),
      (∀ x, fs.occurs x = true → Known env x) → DefiniteG (Known env) v fs → FairG v fs →
      val s = some y → evG v fs = some x → ∃ d, evalG C env s fs = .ok d
  | .nil, s, y, x, _, _, _, _, _ => ⟨_, rfl⟩
  | .cons b e fs, s, y, x, hk, hD, hF, hs, hx => by
    simp only [evG, Option.bind_eq_some_iff, Option.map_eq_some_iff] at hx
    obtain ⟨p, hp, q, hq, r, hr, m, hm, rfl⟩ := hx
    obtain ⟨b', h1⟩ := returns_cell hN hv hT hne b p (fun x k => hk x (by simp [CFactors.occurs, k]))
      hD.1 hF.1 hp
    obtain ⟨e', h2⟩ := returns_cell hN hv hT hne e q (fun x k => hk x (by simp [CFactors.occurs, k]))
      hD.2.1 hF.2.1 hq
    have hb := agree_cell hN hv hT hne b b' p hD.1 h1 hp
    have he := agree_cell hN hv hT hne e e' q hD.2.1 h2 hq
    obtain ⟨d, hd⟩ := returns_factors hN hv hT hne fs _ _ m
      (fun x k => hk x (by simp [CFactors.occurs, k])) hD.2.2 hF.2.2
      (hN.mul _ _ _ _ hs (hN.pow _ _ _ _ _ hb he hr)) hm
    exact ⟨d, by simp only [evalG, h1, h2]; exact hd⟩
theorem returns_fml (hN : Num.Exact C.num val v) (hv : EvalFun v) (hT : Tells val v env)
    (hne : env ≠ []) : ∀ (f : FCell) (t : Bool), (∀ x, f.occurs x = true → Known env x) →
      DefiniteF (Known env) v f → FairF v f → tv v f = some t → ∃ b, evalF C env f = .ok b
  | .ff, t, _, _, _, _ => ⟨_, rfl⟩
  | .tt, t, _, _, _, _ => ⟨_, rfl⟩
  | .var i, t, hk, _, _, _ => by
    obtain ⟨d, hd⟩ := Option.isSome_iff_exists.1 (hk i (by simp [FCell.occurs]))
    exact ⟨_, by simp only [evalF, hd]; rfl⟩
  | .rel op a b, t, hk, hD, hF, ht => by
    obtain ⟨x, y, hx, hy, ht⟩ := rel_on ht
    have hne' : env.isEmpty = false := by cases env <;> simp_all
    have hw : (a.within (fun i => (envFind i env).isSome) &&
        b.within (fun i => (envFind i env).isSome)) = true := by
      rw [Bool.and_eq_true, within_cell, within_cell]
      exact ⟨fun x h => hk x (by simp [FCell.occurs, h]), fun x h => hk x (by simp [FCell.occurs, h])⟩
    obtain ⟨a', h1⟩ := returns_cell hN hv hT hne a x (fun x k => hk x (by simp [FCell.occurs, k]))
      hD.1 hF.1 hx
    obtain ⟨b', h2⟩ := returns_cell hN hv hT hne b y (fun x k => hk x (by simp [FCell.occurs, k]))
      hD.2 hF.2 hy
    cases op <;> simp only [evalF, hne', hw, if_true, Bool.false_eq_true, if_false, h1, h2] <;>
      exact ⟨_, rfl⟩
  | .conj fs, t, hk, hD, hF, ht => returns_all hN hv hT hne fs t hk hD hF ht
  | .disj fs, t, hk, hD, hF, ht => returns_any hN hv hT hne fs t hk hD hF ht
  | .neg f, t, hk, hD, hF, ht => by
    simp only [tv, Option.map_eq_some_iff] at ht
    obtain ⟨u, hu, rfl⟩ := ht
    obtain ⟨b, hb⟩ := returns_fml hN hv hT hne f u hk hD hF hu
    exact ⟨_, by simp only [evalF, hb]; rfl⟩
  | .all .., t, _, _, _, h => by cases h
theorem returns_all (hN : Num.Exact C.num val v) (hv : EvalFun v) (hT : Tells val v env)
    (hne : env ≠ []) : ∀ (fs : FCells) (t : Bool), (∀ x, fs.occurs x = true → Known env x) →
      DefiniteL (Known env) v fs → FairL v fs → tvAll v fs = some t → ∃ b, evalAll C env fs = .ok b
  | .nil, t, _, _, _, _ => ⟨_, rfl⟩
  | .cons f fs, t, hk, hD, hF, ht => by
    simp only [tvAll, Option.bind_eq_some_iff, Option.map_eq_some_iff] at ht
    obtain ⟨p, hp, q, hq, rfl⟩ := ht
    obtain ⟨b, hb⟩ := returns_fml hN hv hT hne f p (fun x k => hk x (by simp [FCells.occurs, k]))
      hD.1 hF.1 hp
    obtain ⟨c, hc⟩ := returns_all hN hv hT hne fs q (fun x k => hk x (by simp [FCells.occurs, k]))
      hD.2 hF.2 hq
    cases b
    · exact ⟨_, by simp only [evalAll, hb]; rfl⟩
    · exact ⟨_, by simp only [evalAll, hb]; exact hc⟩
theorem returns_any (hN : Num.Exact C.num val v) (hv : EvalFun v) (hT : Tells val v env)
    (hne : env ≠ []) : ∀ (fs : FCells) (t : Bool), (∀ x, fs.occurs x = true → Known env x) →
      DefiniteL (Known env) v fs → FairL v fs → tvAny v fs = some t → ∃ b, evalAny C env fs = .ok b
  | .nil, t, _, _, _, _ => ⟨_, rfl⟩
  | .cons f fs, t, hk, hD, hF, ht => by
    simp only [tvAny, Option.bind_eq_some_iff, Option.map_eq_some_iff] at ht
    obtain ⟨p, hp, q, hq, rfl⟩ := ht
    obtain ⟨b, hb⟩ := returns_fml hN hv hT hne f p (fun x k => hk x (by simp [FCells.occurs, k]))
      hD.1 hF.1 hp
    obtain ⟨c, hc⟩ := returns_any hN hv hT hne fs q (fun x k => hk x (by simp [FCells.occurs, k]))
      hD.2 hF.2 hq
    cases b
    · exact ⟨_, by simp only [evalAny, hb]; exact hc⟩
    · exact ⟨_, by simp only [evalAny, hb]; rfl⟩
end

/-! ## That what is returned is the value -/

theorem pw_nat (x : ℝ) (k : ℕ) : pw x k = some (x ^ k) := by
  have := pw_int x k
  rw [if_neg (by omega)] at this
  simpa using this

theorem evalUn_sound (hN : Num.Exact C.num val v) (hs : StdFun v) {f : Fn1} {a d : D} {x : ℝ}
    (h1 : f ≠ .log) (h2 : f ≠ .tan) (ha : val a = some x) (h : evalUn C.num f a = .ok d) :
    ∃ z, v.un f x = some z := by
  have h0 : val (C.num.ofQ 0) = some (0 : ℝ) := by simpa using hN.ofQ 0
  have h1' : val (C.num.ofQ 1) = some (1 : ℝ) := by simpa using hN.ofQ 1
  have h2' : val (C.num.ofQ (-1)) = some (-1 : ℝ) := by simpa using hN.ofQ (-1)
  cases f <;> simp only [evalUn] at h
  · exact absurd rfl h1
  · exact ⟨_, hs.abs x⟩
  · exact ⟨_, hs.exp x⟩
  · split at h
    · rename_i k
      have := (hN.le _ _ _ _ h0 ha).1 k
      exact ⟨_, by rw [hs.sqrt, if_pos this]⟩
    · cases h
  · exact ⟨_, hs.sin x⟩
  · exact ⟨_, hs.cos x⟩
  · exact absurd rfl h2
  · split at h
    · rename_i k
      rw [Bool.and_eq_true] at k
      exact ⟨_, hs.asin x ((hN.le _ _ _ _ h2' ha).1 k.1) ((hN.le _ _ _ _ ha h1').1 k.2)⟩
    · cases h
  · split at h
    · rename_i k
      rw [Bool.and_eq_true] at k
      exact ⟨_, hs.acos x ((hN.le _ _ _ _ h2' ha).1 k.1) ((hN.le _ _ _ _ ha h1').1 k.2)⟩
    · cases h
  · exact ⟨_, hs.atan x⟩
  · exact ⟨_, hs.sinh x⟩
  · exact ⟨_, hs.cosh x⟩
  · exact ⟨_, hs.tanh x⟩

mutual
theorem sound_cell (hN : Num.Exact C.num val v) (hv : EvalFun v) (hs : StdFun v)
    (hT : Tells val v env) : ∀ (e : Cell) (d : D), Steady e → evalC C env e = .ok d →
      ∃ x, ev v e = some x ∧ val d = some x
  | .const q, d, _, h => by
    simp only [evalC, Outcome.ok.injEq] at h
    exact ⟨q, rfl, by rw [← h, hN.ofQ]⟩
  | .rconst l u f, d, _, h => by
    simp only [evalC, Outcome.ok.injEq] at h
    exact ⟨_, rfl, by rw [← h, hN.ofQ, hv.rc]⟩
  | .var i, d, _, h => by
    simp only [evalC] at h
    split at h
    · rename_i d' hd
      split at h
      · cases h
      · rw [← Outcome.ok.inj h]
        exact ⟨_, rfl, hT i d' hd⟩
    · cases h
  | .add c ts, d, hS, h => by
    obtain ⟨x, hx, hd⟩ := sound_terms hN hv hs hT ts _ d c hS (hN.ofQ c) h
    exact ⟨c + x, by simp [ev, hx], hd⟩
  | .mul c fs, d, hS, h => by
    obtain ⟨x, hx, hd⟩ := sound_factors hN hv hs hT fs _ d c hS (hN.ofQ c) h
    exact ⟨c * x, by simp [ev, hx], hd⟩
  | .un f a, d, hS, h => by
    simp only [evalC] at h
    obtain ⟨a', h1, h2⟩ := outcome_bind h
    obtain ⟨x, hx, hd⟩ := sound_cell hN hv hs hT a a' hS.2.2 h1
    obtain ⟨z, hz⟩ := evalUn_sound hN hs hS.1 hS.2.1 hd h2
    exact ⟨z, by simp [ev, hx, hz], evalUn_agrees hN hd h2 hz⟩
  | .bin f a b, d, hS, h => by
    have h0 : val (C.num.ofQ 0) = some (0 : ℝ) := by simpa using hN.ofQ 0
    simp only [evalC] at h
    obtain ⟨a', h1, h2⟩ := outcome_bind h
    obtain ⟨b', h3, h4⟩ := outcome_bind h2
    cases f
    · obtain ⟨x, hx, ha⟩ := sound_cell hN hv hs hT a a' hS.1 h1
      obtain ⟨y, hy, hb⟩ := sound_cell hN hv hs hT b b' hS.2 h3
      have hy0 : y ≠ 0 := by
        intro k
        simp only [evalBin] at h4
        rw [if_pos ((hN.eq _ _ _ _ hb h0).2 k)] at h4
        cases h4
      have hz : quo x y = some (x / y) := quo_some.2 ⟨hy0, rfl⟩
      exact ⟨_, by simp [ev, hx, hy, hz], evalBin_agrees hN hv (f := .div) ha hb h4 hz⟩
    · obtain ⟨x, hx, ha⟩ := sound_cell hN hv hs hT a a' hS.1 h1
      obtain ⟨k, rfl⟩ := hS.2
      simp only [evalC, Outcome.ok.injEq] at h3
      have hb : val b' = some ((k : ℕ) : ℝ) := by
        rw [← h3, hN.ofQ]
        norm_cast
      exact ⟨_, by simp [ev, hx, pw_nat], evalBin_agrees hN hv (f := .pow) ha hb h4 (pw_nat x k)⟩
    · exact hS.elim
    · obtain ⟨x, hx, ha⟩ := sound_cell hN hv hs hT a a' hS.1 h1
      obtain ⟨y, hy, hb⟩ := sound_cell hN hv hs hT b b' hS.2 h3
      exact ⟨_, by simp [ev, hx, hy, hv.min], evalBin_agrees hN hv (f := .min) ha hb h4 (hv.min x y)⟩
    · obtain ⟨x, hx, ha⟩ := sound_cell hN hv hs hT a a' hS.1 h1
      obtain ⟨y, hy, hb⟩ := sound_cell hN hv hs hT b b' hS.2 h3
      exact ⟨_, by simp [ev, hx, hy, hv.max], evalBin_agrees hN hv (f := .max) ha hb h4 (hv.max x y)⟩
  | .ite .., d, hS, _ => hS.elim
  | .nan, d, hS, _ => hS.elim
  | .uf .., d, hS, _ => hS.elim
theorem sound_terms (hN : Num.Exact C.num val v) (hv : EvalFun v) (hs : StdFun v)
    (hT : Tells val v env) : ∀ (ts : CTerms) (s d : D) (y : ℝ), SteadyT ts → val s = some y →
      evalT C env s ts = .ok d → ∃ x, evT v ts = some x ∧ val d = some (y + x)
  | .nil, s, d, y, _, hy, h => by
    simp only [evalT, Outcome.ok.injEq] at h
    exact ⟨0, rfl, by rw [← h, hy, add_zero]⟩
  | .cons e q ts, s, d, y, hS, hy, h => by
    simp only [evalT] at h
    obtain ⟨a', h1, h2⟩ := outcome_bind h
    obtain ⟨x, hx, ha⟩ := sound_cell hN hv hs hT e a' hS.1 h1
    obtain ⟨z, hz, hd⟩ := sound_terms hN hv hs hT ts _ d _ hS.2
      (hN.add _ _ _ _ hy (hN.mul _ _ _ _ ha (hN.ofQ q))) h2
    refine ⟨q * x + z, by simp [evT, hx, hz], ?_⟩
    rw [hd]
    congr 1
    ring
theorem sound_factors (hN : Num.Exact C.num val v) (hv : EvalFun v) (hs : StdFun v)
    (hT : Tells val v env) : ∀ (fs : CFactors) (s d : D) (y : ℝ), SteadyG fs → val s = some y →
      evalG C env s fs = .ok d → ∃ x, evG v fs = some x ∧ val d = some (y * x)
  | .nil, s, d, y, _, hy, h => by
    simp only [evalG, Outcome.ok.injEq] at h
    exact ⟨1, rfl, by rw [← h, hy, mul_one]⟩
  | .cons b e fs, s, d, y, hS, hy, h => by
    simp only [evalG] at h
    obtain ⟨b', h1, h2⟩ := outcome_bind h
    obtain ⟨e', h3, h4⟩ := outcome_bind h2
    obtain ⟨x, hx, ha⟩ := sound_cell hN hv hs hT b b' hS.1 h1
    obtain ⟨k, rfl⟩ := hS.2.1
    simp only [evalC, Outcome.ok.injEq] at h3
    have hb : val e' = some ((k : ℕ) : ℝ) := by
      rw [← h3, hN.ofQ]
      norm_cast
    obtain ⟨z, hz, hd⟩ := sound_factors hN hv hs hT fs _ d _ hS.2.2
      (hN.mul _ _ _ _ hy (hN.pow _ _ _ _ _ ha hb (pw_nat x k))) h4
    refine ⟨x ^ k * z, by simp [evG, ev, hx, hz, pw_nat], ?_⟩
    rw [hd]
    congr 1
    ring
end

end Verif.Proof
