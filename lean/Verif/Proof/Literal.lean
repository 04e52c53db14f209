import Verif.Spec.Literal
import Verif.Proof.Contractor
import Mathlib.Data.List.TakeWhile
import Mathlib.Tactic.Linarith
import Mathlib.Tactic.Positivity
import Mathlib.Tactic.FieldSimp
import Mathlib.Tactic.NormNum
import Mathlib.Tactic.Ring

/-! # Rounding and literals -/

namespace Verif.Proof
open Verif Verif.Model Verif.Spec

/-! ## Rounding -/

theorem two_zpow_pos (e : Int) : (0 : ℚ) < 2 ^ e := zpow_pos (by norm_num) e

theorem isDouble_zero : IsDouble 0 := ⟨0, 0, by norm_num, by norm_num, by norm_num, by norm_num⟩

theorem isDouble_neg {q : ℚ} (h : IsDouble q) : IsDouble (-q) := by
  obtain ⟨m, e, h1, h2, h3, rfl⟩ := h
  exact ⟨-m, e, by rwa [abs_neg], h2, h3, by push_cast; ring⟩

theorem isDouble_neg_iff {q : ℚ} : IsDouble (-q) ↔ IsDouble q :=
  ⟨fun h => by simpa using isDouble_neg h, isDouble_neg⟩

theorem le_roundUp (q : ℚ) : q ≤ roundUp q := by
  unfold roundUp
  simp only
  set e := max (-1074) (Int.log 2 |q| - 52)
  have hp := two_zpow_pos e
  rw [← div_le_iff₀ hp]
  exact Int.le_ceil _

/-- The exponent used for `q`. -/
def expOf (q : ℚ) : Int := max (-1074) (Int.log 2 |q| - 52)

theorem roundUp_eq (q : ℚ) : roundUp q = (⌈q / (2 : ℚ) ^ expOf q⌉ : ℚ) * (2 : ℚ) ^ expOf q := rfl

theorem abs_lt_expOf (q : ℚ) : |q| < 2 ^ 53 * (2 : ℚ) ^ expOf q := by
  have h : |q| < (2 : ℚ) ^ (Int.log 2 |q| + 1) := by
    have := Int.lt_zpow_succ_log_self (b := 2) (by norm_num) |q|
    simpa using this
  refine h.trans_le ?_
  have : (2 : ℚ) ^ 53 * (2 : ℚ) ^ expOf q = (2 : ℚ) ^ (53 + expOf q) := by
    rw [zpow_add₀ (by norm_num)]; norm_num
  rw [this]
  refine zpow_le_zpow_right₀ (by norm_num) ?_
  have := le_max_right (-1074) (Int.log 2 |q| - 52)
  unfold expOf; omega

theorem le_abs_expOf {q : ℚ} (hq : q ≠ 0) (he : expOf q ≠ -1074) :
    2 ^ 52 * (2 : ℚ) ^ expOf q ≤ |q| := by
  have h : (2 : ℚ) ^ (Int.log 2 |q|) ≤ |q| := by
    have := Int.zpow_log_le_self (b := 2) (r := |q|) (by norm_num) (by positivity)
    simpa using this
  have e : expOf q = Int.log 2 |q| - 52 := by
    unfold expOf at he ⊢
    rcases max_choice (-1074) (Int.log 2 |q| - 52) with k | k
    · exact absurd k he
    · exact k
  rw [e]
  have : (2 : ℚ) ^ 52 * (2 : ℚ) ^ (Int.log 2 |q| - 52) = (2 : ℚ) ^ (52 + (Int.log 2 |q| - 52)) := by
    rw [zpow_add₀ (by norm_num)]; norm_num
  rw [this]
  simpa using h

theorem ceil_abs_le (q : ℚ) : |⌈q / (2 : ℚ) ^ expOf q⌉| ≤ 2 ^ 53 := by
  have hp := two_zpow_pos (expOf q)
  have h := abs_lt_expOf q
  have h' : |q / (2 : ℚ) ^ expOf q| < 2 ^ 53 := by
    rw [abs_div, abs_of_pos hp, div_lt_iff₀ hp]; exact h
  obtain ⟨h1, h2⟩ := abs_lt.mp h'
  rw [abs_le]
  constructor
  · have : (-(2 ^ 53) : ℤ) - 1 < ⌈q / (2 : ℚ) ^ expOf q⌉ := by
      rw [Int.lt_ceil]; push_cast; linarith
    omega
  · rw [Int.ceil_le]; push_cast; linarith

theorem ceil_abs_ge {q : ℚ} (hq : q ≠ 0) (he : expOf q ≠ -1074) :
    2 ^ 52 ≤ |⌈q / (2 : ℚ) ^ expOf q⌉| := by
  have hp := two_zpow_pos (expOf q)
  have h := le_abs_expOf hq he
  rcases lt_or_gt_of_ne hq with hn | hn
  · rw [abs_of_neg hn] at h
    have : ⌈q / (2 : ℚ) ^ expOf q⌉ ≤ -(2 ^ 52) := by
      rw [Int.ceil_le, div_le_iff₀ hp]; push_cast; linarith
    rw [abs_of_neg (by omega)]
    omega
  · rw [abs_of_pos hn] at h
    have : (2 ^ 52 : ℤ) ≤ ⌈q / (2 : ℚ) ^ expOf q⌉ := by
      have h1 : (2 ^ 52 : ℚ) ≤ q / (2 : ℚ) ^ expOf q := by rw [le_div_iff₀ hp]; exact h
      have h2 := h1.trans (Int.le_ceil _)
      exact_mod_cast h2
    rw [abs_of_pos (by omega)]
    exact this

theorem roundUp_zero : roundUp 0 = 0 := by
  rw [roundUp_eq]; simp

/-- Rounding upward gives a double unless it overflows. -/
theorem isDouble_roundUp {q : ℚ} (h : |roundUp q| ≤ maxDouble) : IsDouble (roundUp q) := by
  by_cases hq : q = 0
  · subst hq; rw [roundUp_zero]; exact isDouble_zero
  have hp := two_zpow_pos (expOf q)
  have hm := ceil_abs_le q
  have hlow : -1074 ≤ expOf q := le_max_left _ _
  rw [roundUp_eq] at h ⊢
  set m := ⌈q / (2 : ℚ) ^ expOf q⌉ with hmdef
  rw [abs_mul, abs_of_pos hp] at h
  have hmax : maxDouble < (2 : ℚ) ^ (1024 : ℤ) := by
    have e : (2 : ℚ) ^ (1024 : ℤ) = 2 ^ 53 * 2 ^ 971 := by
      rw [show (1024 : ℤ) = ((53 + 971 : ℕ) : ℤ) from rfl, zpow_natCast, pow_add]
    rw [e, maxDouble]
    exact mul_lt_mul_of_pos_right (by norm_num) (pow_pos (by norm_num) _)
  have key : ∀ k : ℕ, (2 ^ k : ℤ) ≤ |m| → expOf q + k < 1024 := by
    intro k hk
    have h1 : (2 : ℚ) ^ (expOf q + k) ≤ |(m : ℚ)| * 2 ^ expOf q := by
      rw [zpow_add₀ (by norm_num), mul_comm]
      refine mul_le_mul_of_nonneg_right ?_ hp.le
      rw [zpow_natCast]
      exact_mod_cast hk
    have h2 : (2 : ℚ) ^ (expOf q + k) < 2 ^ (1024 : ℤ) := (h1.trans h).trans_lt hmax
    exact (zpow_lt_zpow_iff_right₀ (by norm_num)).mp h2
  rcases lt_or_eq_of_le hm with hm' | hm'
  · refine ⟨m, expOf q, hm', hlow, ?_, rfl⟩
    by_cases he : expOf q = -1074
    · omega
    · have := key 52 (by rw [hmdef]; exact_mod_cast ceil_abs_ge hq he)
      push_cast at this
      omega
  · have := key 53 (by rw [hm'])
    push_cast at this
    rcases abs_eq (by norm_num : (0 : ℤ) ≤ 2 ^ 53) |>.mp hm' with h1 | h1
    · refine ⟨2 ^ 52, expOf q + 1, by norm_num, by omega, by omega, ?_⟩
      rw [h1, zpow_add₀ (by norm_num)]; push_cast; ring
    · refine ⟨-2 ^ 52, expOf q + 1, by norm_num, by omega, by omega, ?_⟩
      rw [h1, zpow_add₀ (by norm_num)]; push_cast; ring

/-- Rounding upward gives nothing above a double that will do. -/
theorem roundUp_le {q d : ℚ} (hd : IsDouble d) (h : q ≤ d) : roundUp q ≤ d := by
  by_cases hq : q = 0
  · subst hq; rw [roundUp_zero]; exact h
  have hp := two_zpow_pos (expOf q)
  obtain ⟨m, e, h1, h2, h3, rfl⟩ := hd
  rw [roundUp_eq]
  by_cases hle : expOf q ≤ e
  · obtain ⟨k, hk⟩ := Int.eq_ofNat_of_zero_le (Int.sub_nonneg.mpr hle)
    have he : (m : ℚ) * 2 ^ e = ((m * 2 ^ k : ℤ) : ℚ) * 2 ^ expOf q := by
      have : e = k + expOf q := by omega
      rw [this, zpow_add₀ (by norm_num), zpow_natCast]; push_cast; ring
    rw [he]
    refine mul_le_mul_of_nonneg_right ?_ hp.le
    rw [he, ← div_le_iff₀ hp] at h
    exact_mod_cast Int.ceil_le.mpr h
  · have he : expOf q ≠ -1074 := by omega
    have hb := le_abs_expOf hq he
    have hdl : |(m : ℚ) * 2 ^ e| < 2 ^ 52 * 2 ^ expOf q := by
      rw [abs_mul, abs_of_pos (two_zpow_pos e)]
      have h4 : |(m : ℚ)| < 2 ^ 53 := by exact_mod_cast h1
      have h5 : |(m : ℚ)| * 2 ^ e < 2 ^ 53 * 2 ^ e := mul_lt_mul_of_pos_right h4 (two_zpow_pos e)
      have h6 : (2 : ℚ) ^ 53 * 2 ^ e ≤ 2 ^ 52 * 2 ^ expOf q := by
        have : (2 : ℚ) ^ (e + 1) ≤ 2 ^ expOf q := zpow_le_zpow_right₀ (by norm_num) (by omega)
        rw [zpow_add₀ (by norm_num)] at this
        norm_num at this ⊢
        linarith
      linarith
    obtain ⟨d1, d2⟩ := abs_lt.mp hdl
    rcases lt_or_gt_of_ne hq with hn | hn
    · rw [abs_of_neg hn] at hb
      have : ⌈q / (2 : ℚ) ^ expOf q⌉ ≤ -(2 ^ 52) := by
        rw [Int.ceil_le, div_le_iff₀ hp]; push_cast; linarith
      have : (⌈q / (2 : ℚ) ^ expOf q⌉ : ℚ) ≤ -(2 ^ 52) := by exact_mod_cast this
      have := mul_le_mul_of_nonneg_right this hp.le
      linarith
    · rw [abs_of_pos hn] at hb
      linarith

theorem least_roundUp {q : ℚ} (h : |roundUp q| ≤ maxDouble) : LeastDouble q (roundUp q) :=
  ⟨isDouble_roundUp h, le_roundUp q, fun _ hd hq => roundUp_le hd hq⟩

theorem roundUp_double {q : ℚ} (h : IsDouble q) : roundUp q = q :=
  le_antisymm (roundUp_le h le_rfl) (le_roundUp q)

/-! ## Decimal literals -/

theorem isDigit_iff (c : Char) : c.isDigit = true ↔ '0' ≤ c ∧ c ≤ '9' := by
  simp only [Char.isDigit, ge_iff_le, Bool.and_eq_true, decide_eq_true_eq]
  rfl

theorem digitsVal_append (ds : List Char) (c : Char) :
    digitsVal (ds ++ [c]) = 10 * digitsVal ds + (c.toNat - 48) := by
  simp [digitsVal, List.foldl_append]

theorem digitsVal_eq (ds : List Char) :
    digitsVal ds = Nat.ofDigits 10 (ds.reverse.map fun c => c.toNat - 48) := by
  induction ds using List.reverseRecOn with
  | nil => rfl
  | append_singleton ds c ih =>
    rw [digitsVal_append, ih]
    simp [Nat.ofDigits_cons, Nat.add_comm]

theorem isDigits_iff {ds : List Char} {n : Nat} :
    IsDigits ds n ↔ ds.all Char.isDigit = true ∧ n = digitsVal ds := by
  simp only [IsDigits, List.all_eq_true, isDigit_iff, digitsVal_eq]

theorem expVal_iff {s : List Char} {e : Int} : expVal s = some e ↔ IsExp s e := by
  constructor
  · intro h
    cases s with
    | nil => left; simpa [expVal, eq_comm] using h
    | cons c r =>
      right
      simp only [expVal] at h
      split_ifs at h with hc
      split at h
      · rename_i ds
        split_ifs at h with hd
        simp only [Option.some.injEq] at h
        exact ⟨c, ['-'], ds, digitsVal ds, hc, rfl, hd.1, isDigits_iff.mpr ⟨hd.2, rfl⟩,
          .inl ⟨rfl, h.symm⟩⟩
      · rename_i ds
        split_ifs at h with hd
        simp only [Option.some.injEq] at h
        exact ⟨c, ['+'], ds, digitsVal ds, hc, rfl, hd.1, isDigits_iff.mpr ⟨hd.2, rfl⟩,
          .inr ⟨.inl rfl, h.symm⟩⟩
      · rename_i ds
        split_ifs at h with hd
        simp only [Option.some.injEq] at h
        exact ⟨c, [], r, digitsVal r, hc, rfl, hd.1, isDigits_iff.mpr ⟨hd.2, rfl⟩,
          .inr ⟨.inr rfl, h.symm⟩⟩
  · rintro (⟨rfl, rfl⟩ | ⟨c, sg, ds, n, hc, rfl, hne, hd, hs⟩)
    · rfl
    · obtain ⟨h1, rfl⟩ := isDigits_iff.mp hd
      simp only [expVal, hc, if_true]
      rcases hs with ⟨rfl, rfl⟩ | ⟨rfl | rfl, rfl⟩
      · simp [hne, h1]
      · simp [hne, h1]
      · simp only [List.nil_append]
        split
        · simp at h1
        · simp at h1
        · simp [hne, h1]

theorem exp_head {s : List Char} {e : Int} (h : IsExp s e) :
    s = [] ∨ ∃ c r, s = c :: r ∧ c.isDigit = false ∧ c ≠ '.' := by
  rcases h with ⟨rfl, _⟩ | ⟨c, sg, ds, n, hc, rfl, _⟩
  · exact .inl rfl
  · refine .inr ⟨c, _, rfl, ?_⟩
    rcases hc with rfl | rfl <;> decide

theorem span_append {p : Char → Bool} {a b : List Char} (ha : a.all p = true)
    (hb : b = [] ∨ ∃ c r, b = c :: r ∧ p c = false) :
    (a ++ b).takeWhile p = a ∧ (a ++ b).dropWhile p = b := by
  rw [List.all_eq_true] at ha
  rw [List.takeWhile_append_of_pos ha, List.dropWhile_append_of_pos ha]
  rcases hb with rfl | ⟨c, r, rfl, hc⟩
  · simp
  · simp [hc]

theorem span_spec (p : Char → Bool) (s : List Char) : (s.takeWhile p).all p = true ∧
    (s.dropWhile p = [] ∨ ∃ c r, s.dropWhile p = c :: r ∧ p c = false) := by
  constructor
  · rw [List.all_eq_true]
    intro c hc
    exact List.mem_takeWhile_imp hc
  · cases h : s.dropWhile p with
    | nil => exact .inl rfl
    | cons c r =>
      refine .inr ⟨c, r, rfl, ?_⟩
      have := List.head_dropWhile_not p (l := s) (by rw [h]; simp)
      simpa [h] using this

theorem value_eq (n : Nat) (k : Nat) (e : Int) :
    (n : ℚ) * (10 : ℚ) ^ (e - (k : Int)) = n / 10 ^ k * (10 : ℚ) ^ e := by
  rw [zpow_sub₀ (by norm_num), zpow_natCast]
  field_simp

theorem fracPart_other {r : List Char} (h : r = [] ∨ ∃ c r', r = c :: r' ∧ c ≠ '.') :
    fracPart r = ([], r) := by
  rcases h with rfl | ⟨c, r', rfl, hc⟩
  · rfl
  · unfold fracPart
    split
    · rename_i h
      simp only [List.cons.injEq] at h
      exact absurd h.1 hc
    · rfl

theorem unsignedVal_iff {s : List Char} {q : ℚ} : unsignedVal s = some q ↔ IsDec s q := by
  constructor
  · intro h
    unfold unsignedVal at h
    simp only at h
    obtain ⟨hd1, hd2⟩ := span_spec Char.isDigit s
    have hs := List.takeWhile_append_dropWhile (p := Char.isDigit) (l := s)
    generalize s.takeWhile Char.isDigit = ip at *
    generalize s.dropWhile Char.isDigit = r at *
    split_ifs at h with hne
    simp only [Option.map_eq_some_iff] at h
    obtain ⟨e, he, rfl⟩ := h
    rw [expVal_iff] at he
    rw [value_eq]
    by_cases hr : ∃ r', r = '.' :: r'
    · obtain ⟨r', rfl⟩ := hr
      simp only [fracPart] at he hne ⊢
      obtain ⟨hf1, _⟩ := span_spec Char.isDigit r'
      have hr := List.takeWhile_append_dropWhile (p := Char.isDigit) (l := r')
      refine ⟨ip, _, _, _, e, .inl ?_, hne, isDigits_iff.mpr ⟨?_, rfl⟩, he, rfl⟩
      · rw [List.append_assoc, List.cons_append, hr, hs]
      · rw [List.all_append, hd1, hf1]; rfl
    · have : fracPart r = ([], r) := fracPart_other (by
        cases r with
        | nil => exact .inl rfl
        | cons c r' => exact .inr ⟨c, r', rfl, fun hc => hr ⟨r', by rw [hc]⟩⟩)
      rw [this] at he hne ⊢
      simp only at he hne ⊢
      exact ⟨ip, [], r, _, e, .inr ⟨hs.symm, rfl⟩, hne, isDigits_iff.mpr ⟨by simpa using hd1, rfl⟩, he, rfl⟩
  · rintro ⟨ip, fp, ex, n, e, hs, hne, hn, he, rfl⟩
    obtain ⟨h1, rfl⟩ := isDigits_iff.mp hn
    simp only [List.all_append, Bool.and_eq_true] at h1
    have hh := exp_head he
    rcases hs with rfl | ⟨rfl, rfl⟩
    · have k1 := span_append (p := Char.isDigit) (a := ip) (b := '.' :: (fp ++ ex)) h1.1
        (.inr ⟨'.', _, rfl, by decide⟩)
      have k2 := span_append (p := Char.isDigit) (a := fp) (b := ex) h1.2
        (hh.imp id fun ⟨c, r, a, b, _⟩ => ⟨c, r, a, b⟩)
      rw [List.append_assoc, List.cons_append]
      unfold unsignedVal
      simp only [k1.1, k1.2, fracPart, k2.1, k2.2, hne, if_false]
      rw [expVal_iff.mpr he, Option.map_some, value_eq]
    · have k1 := span_append (p := Char.isDigit) (a := ip) (b := ex) h1.1
        (hh.imp id fun ⟨c, r, a, b, _⟩ => ⟨c, r, a, b⟩)
      have k3 : fracPart ex = ([], ex) := fracPart_other
        (hh.imp id fun ⟨c, r, a, _, b⟩ => ⟨c, r, a, b⟩)
      unfold unsignedVal
      simp only [k1.1, k1.2, k3, hne, if_false]
      rw [expVal_iff.mpr he, Option.map_some, value_eq]

/-- No literal without sign begins with a sign. -/
theorem unsigned_head {c : Char} {s : List Char} {q : ℚ} (h : unsignedVal (c :: s) = some q) :
    c ≠ '-' ∧ c ≠ '+' := by
  constructor <;> rintro rfl <;> simp [unsignedVal, fracPart, List.takeWhile, List.dropWhile] at h <;> revert h <;> decide

end Verif.Proof
