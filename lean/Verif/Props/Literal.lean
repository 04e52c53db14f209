import Verif.Proof.Literal

/-! # C43, C44: literals -/

namespace Verif.Props
open Verif Verif.Model Verif.Spec Verif.Proof

/-! ## C43 -/

theorem decVal_of_literal {s : List Char} {q : ℚ} (h : IsLiteral s q) : decVal s = some q := by
  rcases h with h | ⟨r, rfl, h⟩
  · rw [← unsignedVal_iff] at h
    unfold decVal
    split
    · exact absurd rfl (unsigned_head h).1
    · exact absurd rfl (unsigned_head h).2
    · exact h
  · rw [← unsignedVal_iff] at h
    simp [decVal, h]

theorem stod_ok {err : ℚ → Bool} {round : ℚ → ℚ} {s : List Char} {r : ℚ}
    (h : stod err round s = .ok r) : ∃ q, decVal s = some q ∧ r = round q ∧ |r| ≤ maxDouble := by
  unfold stod at h
  split at h
  · cases h
  · rename_i q hq
    split_ifs at h with hc
    simp only [Outcome.ok.injEq] at h
    push Not at hc
    exact ⟨q, hq, h.symm, by rw [← h]; exact hc.1⟩

theorem flipSign_other {s : List Char} (h : ∀ r, ¬ s = '-' :: r) : flipSign s = '-' :: s := by
  unfold flipSign
  split
  · exact absurd rfl (h _)
  · rfl

/-- What `StringToInterval` computes. -/
theorem interval_ok {err : ℚ → Bool} {s : List Char} {lb ub : ℚ}
    (h : stringToInterval err s = .ok (lb, ub)) :
    ∃ q, IsLiteral s q ∧ decVal s = some q ∧ ub = roundUp q ∧ lb = -roundUp (-q) ∧
      |ub| ≤ maxDouble ∧ |lb| ≤ maxDouble := by
  unfold stringToInterval at h
  obtain ⟨u, hu, h⟩ := bindO_ok h
  obtain ⟨l, hl, h⟩ := bindO_ok h
  simp only [Outcome.ok.injEq, Prod.mk.injEq] at h
  obtain ⟨rfl, rfl⟩ := h
  obtain ⟨q, hq, hr, hm⟩ := stod_ok hu
  by_cases hs : ∃ r, s = '-' :: r
  · obtain ⟨r, rfl⟩ := hs
    obtain ⟨q', hq', hr', hm'⟩ := stod_ok hl
    simp only [decVal, Option.map_eq_some_iff] at hq
    obtain ⟨a, ha, rfl⟩ := hq
    have : decVal r = some a :=
      decVal_of_literal (.inl (unsignedVal_iff.mp ha))
    rw [flipSign, this, Option.some.injEq] at hq'
    subst hq'
    refine ⟨-a, .inr ⟨r, rfl, by rw [neg_neg]; exact unsignedVal_iff.mp ha⟩, by simp [decVal, ha],
      hr, by rw [neg_neg, hr'], hm, by rwa [abs_neg]⟩
  · rw [flipSign_other (not_exists.mp hs)] at hl
    obtain ⟨q', hq', hr', hm'⟩ := stod_ok hl
    simp only [decVal, Option.map_eq_some_iff] at hq'
    obtain ⟨a, ha, rfl⟩ := hq'
    have hd := decVal_of_literal (.inl (unsignedVal_iff.mp ha))
    rw [hd, Option.some.injEq] at hq
    subst hq
    exact ⟨a, .inl (unsignedVal_iff.mp ha), hd, hr, by rw [hr'], hm, by rwa [abs_neg]⟩

/-- C43: the interval for a literal of value `q` is between the greatest double below and the least
double above `q`; so it contains `q`, and it is a point exactly when `q` is a double. -/
theorem C43_enclosed (err : ℚ → Bool) (s : List Char) (q lb ub : ℚ) (hs : IsLiteral s q)
    (h : stringToInterval err s = .ok (lb, ub)) :
    lb ≤ q ∧ q ≤ ub ∧ (lb = ub ↔ IsDouble q) ∧ GreatestDouble q lb ∧ LeastDouble q ub := by
  obtain ⟨q', _, hq, rfl, rfl, hu, hl⟩ := interval_ok h
  rw [decVal_of_literal hs, Option.some.injEq] at hq
  subst hq
  rw [abs_neg] at hl
  have h1 := least_roundUp hu
  have h2 := least_roundUp hl
  have g : GreatestDouble q (-roundUp (-q)) := by
    refine ⟨isDouble_neg h2.1, by linarith [h2.2.1], fun d hd hq => ?_⟩
    have := h2.2.2 (-d) (isDouble_neg hd) (by linarith)
    linarith
  refine ⟨g.2.1, h1.2.1, ⟨fun e => ?_, fun hd => ?_⟩, g, h1⟩
  · have : q = roundUp q := le_antisymm h1.2.1 (e ▸ g.2.1)
    rw [this]; exact h1.1
  · rw [roundUp_double hd, roundUp_double (isDouble_neg hd), neg_neg]

/-- Only literals get an interval. -/
theorem C43_accepted (err : ℚ → Bool) (s : List Char) (lb ub : ℚ)
    (h : stringToInterval err s = .ok (lb, ub)) : ∃ q, IsLiteral s q := by
  obtain ⟨q, hq, _⟩ := interval_ok h
  exact ⟨q, hq⟩

/-- Every literal gets an interval, but for range errors of the library. -/
theorem C43_total (err : ℚ → Bool) (s : List Char) (q : ℚ) (hs : IsLiteral s q)
    (hr : |roundUp q| ≤ maxDouble ∧ |roundUp (-q)| ≤ maxDouble)
    (he : err q = false ∧ err (-q) = false) :
    ∃ lb ub, stringToInterval err s = .ok (lb, ub) := by
  have h1 : ∀ t x, decVal t = some x → |roundUp x| ≤ maxDouble → err x = false →
      stod err roundUp t = .ok (roundUp x) := by
    intro t x hd hm hx
    simp [stod, hd, hx, not_lt.mpr hm]
  refine ⟨-roundUp (-q), roundUp q, ?_⟩
  unfold stringToInterval
  rw [h1 s q (decVal_of_literal hs) hr.1 he.1]
  rcases hs with hs | ⟨r, rfl, hs⟩
  · have hd : decVal ('-' :: s) = some (-q) := by simp [decVal, unsignedVal_iff.mpr hs]
    have hh : ∀ r, ¬ s = '-' :: r := by
      rintro r rfl
      exact (unsigned_head (unsignedVal_iff.mpr hs)).1 rfl
    rw [flipSign_other hh, h1 _ _ hd hr.2 he.2]
    rfl
  · have hd : decVal r = some (-q) := decVal_of_literal (.inl hs)
    rw [flipSign, h1 _ _ hd hr.2 he.2]
    rfl

/-- What a literal becomes in a term: its own value if that is a double, else a real constant with
the value strictly inside, whose representative is the double the literal is rounded to. -/
theorem C43_literal (err : ℚ → Bool) (near : ℚ → ℚ) (s : List Char) (q : ℚ) (l : Literal)
    (hs : IsLiteral s q) (h : decLiteral err near s = .ok l) :
    (IsDouble q ∧ l = .point q) ∨
    ∃ lb ub u, ¬ IsDouble q ∧ l = .range lb ub u ∧ lb < q ∧ q < ub ∧
      (near q = lb ∨ near q = ub → (if u then lb else ub) = near q) := by
  unfold decLiteral at h
  obtain ⟨⟨lb, ub⟩, h1, h⟩ := bindO_ok h
  obtain ⟨p, h2, h⟩ := bindO_ok h
  obtain ⟨k1, k2, k3, k4, k5⟩ := C43_enclosed err s q lb ub hs h1
  obtain ⟨q', hq', rfl, _⟩ := stod_ok h2
  rw [decVal_of_literal hs, Option.some.injEq] at hq'
  subst hq'
  split_ifs at h with he
  · simp only [Outcome.ok.injEq] at h
    have : lb = q := le_antisymm k1 (he ▸ k2)
    exact .inl ⟨k3.mp he, by rw [← h, this]⟩
  · simp only [Outcome.ok.injEq] at h
    have hnd : ¬ IsDouble q := fun hd => he (k3.mpr hd)
    refine .inr ⟨lb, ub, _, hnd, h.symm, lt_of_le_of_ne k1 ?_, lt_of_le_of_ne k2 ?_, ?_⟩
    · rintro rfl; exact hnd k4.1
    · rintro rfl; exact hnd k5.1
    · rintro (hc | hc)
      · simp [hc]
      · have : ¬ lb = near q := fun hl => he (hl.trans hc)
        simp [this, hc]

/-- A plus sign, which the scanner allows, makes the conversion throw. -/
theorem C43_plus (err : ℚ → Bool) (s : List Char) : stringToInterval err ('+' :: s) = .throw := by
  have hd : decVal ('-' :: '+' :: s) = none := by
    cases h : unsignedVal ('+' :: s) with
    | none => simp [decVal, h]
    | some q => exact absurd rfl (unsigned_head h).2
  have h1 : stod err roundUp ('-' :: '+' :: s) = .throw := by simp [stod, hd]
  unfold stringToInterval
  cases h : stod err roundUp ('+' :: s) with
  | ok u => simp only [flipSign, h1]; rfl
  | throw => rfl
  | ub =>
    unfold stod at h
    split at h
    · cases h
    · split_ifs at h

/-- `-0.1e1` is the double -1, `1e23` is between two doubles. -/
example : stringToInterval (fun _ => false) "-0.1e1".toList = .ok (-1, -1) ∧
    IsLiteral "-0.1e1".toList (-1) ∧
    stringToInterval (fun _ => false) "1e23".toList =
      .ok (99999999999999991611392, 100000000000000008388608) ∧
    IsLiteral "1e23".toList (10 ^ 23) := by
  refine ⟨by decide +kernel, ?_, by decide +kernel, ?_⟩
  · exact .inr ⟨"0.1e1".toList, by decide, unsignedVal_iff.mp (by decide +kernel)⟩
  · exact .inl (unsignedVal_iff.mp (by decide +kernel))

/-! ## C44 -/

/-- C44, to `int`: the conversion gives the same value, and fails exactly for values that are no
`int`. -/
theorem C44_int (v : Int) (r : Int) :
    (convertInt64ToInt v = .ok r ↔ r = v ∧ -2 ^ 31 ≤ v ∧ v < 2 ^ 31) ∧
    (convertInt64ToInt v = .throw ↔ ¬ (-2 ^ 31 ≤ v ∧ v < 2 ^ 31)) := by
  unfold convertInt64ToInt
  split_ifs with h
  · simp only [Outcome.ok.injEq, reduceCtorEq, false_iff, not_not]
    omega
  · simp only [reduceCtorEq, false_iff, true_iff]
    omega

theorem isDouble_int {v : Int} (h : -2 ^ 53 ≤ v ∧ v ≤ 2 ^ 53) : IsDouble v := by
  by_cases h1 : |v| < 2 ^ 53
  · exact ⟨v, 0, h1, by norm_num, by norm_num, by simp⟩
  · have : v = 2 ^ 53 ∨ v = -2 ^ 53 := by
      rcases abs_cases v with ⟨e, _⟩ | ⟨e, _⟩ <;> omega
    rcases this with rfl | rfl
    · exact ⟨2 ^ 52, 1, by norm_num, by norm_num, by norm_num, by norm_num⟩
    · exact ⟨-2 ^ 52, 1, by norm_num, by norm_num, by norm_num, by norm_num⟩

/-- C44, to `double`: for any rounding that keeps doubles, the conversion gives the same value, or
fails; it does not fail up to `2^53`. -/
theorem C44_double (near : ℚ → ℚ) (hn : ∀ q, IsDouble q → near q = q) (v : Int) :
    (∀ r, convertInt64ToDouble near v = .ok r → r = v) ∧
    (convertInt64ToDouble near v = .throw ↔ 2 ^ 53 < |v|) ∧
    convertInt64ToDouble near v ≠ .ub := by
  unfold convertInt64ToDouble
  simp only
  split_ifs with h
  · refine ⟨fun r hr => ?_, ?_, by simp⟩
    · simp only [Outcome.ok.injEq] at hr
      rw [← hr, hn _ (isDouble_int h)]
    · simp only [reduceCtorEq, false_iff, not_lt]
      rw [abs_le]; exact h
  · refine ⟨by simp, ?_, by simp⟩
    simp only [true_iff]
    rw [lt_abs]
    omega

/-- Integer literals in terms. -/
theorem C44_literal (near : ℚ → ℚ) (hn : ∀ q, IsDouble q → near q = q) (ds : List Char) (n : Nat)
    (r : ℚ) (h : IsDigits ds n) :
    (intLiteral near ds = .ok r → r = n) ∧ (intLiteral near ('+' :: ds) = .ok r → r = n) ∧
    (intLiteral near ('-' :: ds) = .ok r → r = -n) := by
  obtain ⟨h1, rfl⟩ := isDigits_iff.mp h
  have key : ∀ s (v : Int), stol s = (if -2 ^ 63 ≤ v ∧ v < 2 ^ 63 then .ok v else .throw) →
      intLiteral near s = .ok r → r = v := by
    intro s v hs hr
    unfold intLiteral at hr
    obtain ⟨w, hw, hr⟩ := bindO_ok hr
    rw [hs] at hw
    split_ifs at hw
    simp only [Outcome.ok.injEq] at hw
    subst hw
    exact (C44_double near hn _).1 r hr
  refine ⟨fun hr => ?_, fun hr => ?_, fun hr => ?_⟩
  · have := key ds (digitsVal ds) (by
      unfold stol
      split
      · simp at h1
      · simp at h1
      · rfl) hr
    exact_mod_cast this
  · have := key ('+' :: ds) (digitsVal ds) (by unfold stol; simp only) hr
    exact_mod_cast this
  · have := key ('-' :: ds) (-(digitsVal ds : Int)) (by unfold stol; simp only) hr
    exact_mod_cast this

/-- `is_integer` tells whether a double is an `int`. -/
theorem C44_is_integer (x : EQ) :
    isInteger x = true ↔ ∃ n : Int, -2 ^ 31 ≤ n ∧ n < 2 ^ 31 ∧ x = .fin n := by
  cases x with
  | ninf => simp [isInteger]
  | pinf => simp [isInteger]
  | fin q =>
    simp only [isInteger, Bool.and_eq_true, decide_eq_true_eq, EQ.fin.injEq]
    constructor
    · rintro ⟨⟨h1, h2⟩, h3⟩
      obtain ⟨n, rfl⟩ : ∃ n : Int, q = n := by
        split_ifs at h3
        · exact ⟨⌈q⌉, by linarith⟩
        · exact ⟨⌊q⌋, by linarith⟩
      refine ⟨n, by exact_mod_cast h1, ?_, rfl⟩
      have : n ≤ 2 ^ 31 - 1 := by exact_mod_cast h2
      omega
    · rintro ⟨n, h1, h2, rfl⟩
      refine ⟨⟨by exact_mod_cast h1, ?_⟩, by simp⟩
      have : n ≤ 2 ^ 31 - 1 := by omega
      exact_mod_cast this

/-- The limits; `2^53 + 1` and `2^31` are refused. -/
example : convertInt64ToInt (2 ^ 31 - 1) = .ok (2 ^ 31 - 1) ∧ convertInt64ToInt (2 ^ 31) = .throw ∧
    convertInt64ToDouble (fun q => -roundUp (-q)) (-2 ^ 53) = .ok (-2 ^ 53) ∧
    convertInt64ToDouble (fun q => -roundUp (-q)) (2 ^ 53 + 1) = .throw ∧
    intLiteral (fun q => -roundUp (-q)) "-123".toList = .ok (-123) ∧
    intLiteral (fun q => -roundUp (-q)) "9223372036854775808".toList = .throw ∧
    (∀ q, IsDouble q → -roundUp (-q) = q) := by
  refine ⟨by decide +kernel, by decide +kernel, by decide +kernel, by decide +kernel,
    by decide +kernel, by decide +kernel, fun q hq => ?_⟩
  rw [roundUp_double (isDouble_neg hq), neg_neg]

end Verif.Props
