import Verif.Proof.Prefix
import Mathlib.Tactic.NormNum
import Mathlib.Tactic.Positivity

/-! # C57: what the prefix printer writes can be read back -/

namespace Verif.Props
open Verif Verif.Model Verif.Model.Smt2 Verif.Model.Prefix Verif.Spec Verif.Spec.Smt2
  Verif.Spec.Prefix Verif.Proof.Prefix

/-- C57 for expressions: the text printed for an expression is read, whatever follows it, as a term
with the value of the expression, for all values of the variables.  Missing: real constants
(`C57_real_constant`), numbers that 19 digits do not give exactly (`C57_digits`), integers beyond
`2^53` (`C57_large_integer`); names the scanner does not take for names. -/
theorem C57_expression_partial (N : Numerals) (name : Nat → String) (V B : Nat → Prop)
    (hn : ∀ i, V i ∨ B i → IsName (name i)) (c : Cell) (h : OkC (Exact N) V B c) :
    ∃ ws t, printE N name c = .ok ws ∧
      (∀ n rest, ws.length ≤ n → parseT N n (ws ++ rest) = .ok (t, rest)) ∧
      ∀ I E F x p, (∀ a, I.f2 .pow a 1 = a) → (∀ i, V i → E (name i) = .num (x i)) →
        (∀ i, B i → E (name i) = .tf (p i)) → den I E F t = .num (cval I x p c) := by
  obtain ⟨ws, hw, t, ht, hv⟩ := printE_good (fun i h => hn i (.inl h)) (fun i h => hn i (.inr h)) c h
  exact ⟨ws, t, hw, ht.2, fun I E F x p hI h1 h2 => hv I E F x p hI ⟨h1, h2⟩⟩

/-- C57 for formulas: the text printed for a formula is read as a term with the truth value of the
formula.  Missing: as for expressions, and quantified formulas (the printer throws). -/
theorem C57_formula_partial (N : Numerals) (name : Nat → String) (V B : Nat → Prop)
    (hn : ∀ i, V i ∨ B i → IsName (name i)) (f : FCell) (h : OkF (Exact N) V B f) :
    ∃ ws t, printF N name f = .ok ws ∧
      (∀ n rest, ws.length ≤ n → parseT N n (ws ++ rest) = .ok (t, rest)) ∧
      ∀ I E F x p, (∀ a, I.f2 .pow a 1 = a) → (∀ i, V i → E (name i) = .num (x i)) →
        (∀ i, B i → E (name i) = .tf (p i)) → den I E F t = .tf (ctrue I x p f) := by
  obtain ⟨ws, hw, t, ht, hv⟩ := printF_good (fun i h => hn i (.inl h)) (fun i h => hn i (.inr h)) f h
  exact ⟨ws, t, hw, ht.2, fun I E F x p hI h1 h2 => hv I E F x p hI ⟨h1, h2⟩⟩

/-! ### A concrete case -/

/-- Numbers printed and read exactly. -/
def exactNum : Numerals := ⟨id, fun _ => true, id, id, id, fun l u => (l + u) / 2⟩

/-- `x`, `y` are numbers, `b` is Boolean. -/
def prefixName (i : Nat) : String := if i = 1 then "x" else if i = 2 then "y" else "b"

/-- `b ∧ 1/2 + sin x - 3·x·y^2 + ite(x ≠ y, x/y, 2) ≤ 7`. -/
def prefixDemo : FCell :=
  .conj (.cons (.var 3) (.cons (.rel .leq (.add (1 / 2) (.cons (.un .sin (.var 1)) 1
    (.cons (.mul 1 (.cons (.var 1) (.const 1) (.cons (.var 2) (.const 2) .nil))) (-3)
    (.cons (.ite (.rel .neq (.var 1) (.var 2)) (.bin .div (.var 1) (.var 2)) (.const 2)) 1 .nil))))
    (.const 7)) .nil))

theorem exactNum_exact (q : ℚ) (h : |q| ≤ 2 ^ 53) : Exact exactNum q := ⟨rfl, fun _ => h, fun _ => rfl⟩

/-- The hypotheses are met by `prefixDemo`. -/
example : (∀ i, (i = 1 ∨ i = 2) ∨ i = 3 → IsName (prefixName i)) ∧
    OkF (Exact exactNum) (fun i => i = 1 ∨ i = 2) (fun i => i = 3) prefixDemo := by
  constructor
  · rintro i ((rfl | rfl) | rfl) <;> rfl
  · have e : ∀ q : ℚ, |q| ≤ 2 ^ 53 → Exact exactNum q := exactNum_exact
    show _ ∧ _
    refine ⟨by simp, rfl, ⟨⟨e _ ?_, by simp, .inl rfl, e _ ?_, ⟨e _ ?_, by simp, fun _ b e => by simp,
      .inl rfl, e _ ?_, .inr rfl, e _ ?_, trivial⟩, e _ ?_, ⟨⟨.inl rfl, .inr rfl⟩,
      ⟨.inl rfl, .inr rfl⟩, e _ ?_⟩, e _ ?_, trivial⟩, e _ ?_⟩, trivial⟩ <;> norm_num

/-- Its text. -/
example : printF exactNum prefixName prefixDemo = .ok
    [.lp, .txt "and", .txt "b", .lp, .txt "<=", .lp, .txt "+", .num (1 / 2),
      .lp, .txt "sin", .txt "x", .rp,
      .lp, .txt "*", .lp, .txt "-", .num 3, .rp, .lp, .txt "*", .txt "x",
        .lp, .txt "^", .txt "y", .num 2, .rp, .rp, .rp,
      .lp, .txt "ite", .lp, .txt "not", .lp, .txt "=", .txt "x", .txt "y", .rp, .rp,
        .lp, .txt "/", .txt "x", .txt "y", .rp, .num 2, .rp, .rp, .num 7, .rp, .rp] := by
  decide +kernel

/-! ### Where it fails -/

/-- Two real constants with different values are printed in the same way. -/
theorem C57_real_constant (N : Numerals) (name : Nat → String) :
    ∃ l u, rcValue l u true ≠ rcValue l u false ∧
      printE N name (.rconst l u true) = printE N name (.rconst l u false) :=
  ⟨0, 1, by decide, rfl⟩

/-- An integer above `2^53` is printed, even exactly, but its text is not accepted. -/
theorem C57_large_integer (N : Numerals) (name : Nat → String) (n : Nat)
    (hN : N.pr (2 ^ 53 + 2) = 2 ^ 53 + 2) :
    ∃ ws, printE N name (.const (2 ^ 53 + 2)) = .ok ws ∧ parseT N (n + 1) ws = .throw := by
  have h : lit N (2 ^ 53 + 2) = .throw := by
    rw [lit, if_pos ⟨by decide +kernel, by norm_num⟩, if_neg (by norm_num)]
  refine ⟨[.num (2 ^ 53 + 2)], ?_, by simp only [parseT, h]⟩
  rw [printE, printConst, if_pos (by norm_num), hN]

/-- The double nearest to `1/10`. -/
def tenth : ℚ := 3602879701896397 / 2 ^ 55

/-- The double nearest to `1/10` is printed with 19 digits and read back as another number. -/
theorem C57_digits (N : Numerals) (name : Nat → String) (n : Nat)
    (hN : Rounded19 tenth (N.pr tenth)) :
    ∃ ws t, ∃ r : ℝ, printE N name (.const tenth) = .ok ws ∧ parseT N (n + 1) ws = .ok (t, []) ∧
      (∀ I E F, den I E F t = .num r) ∧ r ≠ tenth := by
  have ht : (1 / 10 : ℚ) < tenth ∧ tenth < 11 / 100 := by unfold tenth; constructor <;> norm_num
  obtain ⟨m, k, h1, h2, hr, hd⟩ := hN
  have h1 : (10 ^ 18 : ℚ) ≤ m := by exact_mod_cast h1
  have h2' : (m : ℚ) + 1 ≤ 10 ^ 19 := by exact_mod_cast h2
  have hp : (0 : ℚ) < 10 ^ k := zpow_pos (by norm_num) k
  obtain ⟨hd1, hd2⟩ := abs_le.mp hd
  have hk : k = -19 := by
    apply le_antisymm
    · by_contra hc
      have : (10 : ℚ) ^ (-18 : ℤ) ≤ 10 ^ k := zpow_le_zpow_right₀ (by norm_num) (by omega)
      have : (m : ℚ) * 10 ^ k ≥ 10 ^ 18 * 10 ^ k := by gcongr
      norm_num at *
      linarith
    · by_contra hc
      have : (10 : ℚ) ^ k ≤ 10 ^ (-20 : ℤ) := zpow_le_zpow_right₀ (by norm_num) (by omega)
      have : ((m : ℚ) + 1) * 10 ^ k ≤ 10 ^ 19 * 10 ^ k := by gcongr
      norm_num at *
      linarith
  subst hk
  have hne : N.pr tenth ≠ tenth := by
    intro e
    rw [e] at hr
    have : ((m * 2 ^ 55 : ℕ) : ℚ) = ((3602879701896397 * 10 ^ 19 : ℕ) : ℚ) := by
      push_cast
      unfold tenth at hr
      have h10 : ((10 : ℚ) ^ (-19 : ℤ)) = 1 / 10 ^ 19 := by norm_num
      rw [h10] at hr
      field_simp at hr
      linarith
    have : m * 2 ^ 55 = 3602879701896397 * 10 ^ 19 := by exact_mod_cast this
    omega
  have hlt : N.pr tenth < 1 := by
    have : (10 : ℚ) ^ (-19 : ℤ) ≤ 1 := by norm_num
    linarith
  have hw : printE N name (.const tenth) = .ok [.num (N.pr tenth)] := by
    rw [printE, printConst, if_pos (by linarith)]
  obtain ⟨t, hl, hv⟩ : ∃ t, lit N (N.pr tenth) = .ok t ∧
      ∀ I E F, den I E F t = .num (N.pr tenth : ℚ) := by
    unfold lit
    split_ifs with h h'
    · exact ⟨_, rfl, fun _ _ _ => rfl⟩
    · exact absurd (hlt.le.trans (by norm_num)) h'
    · exact ⟨_, rfl, fun _ _ _ => rfl⟩
    · exact ⟨_, rfl, fun _ _ _ => rfl⟩
  exact ⟨_, t, _, hw, by simp only [parseT, hl], hv, by exact_mod_cast hne⟩

/-- The 19 digits are 0.1000000000000000056. -/
example : Rounded19 tenth (1000000000000000056 / 10 ^ 19) := by
  refine ⟨1000000000000000056, -19, by norm_num, by norm_num, by norm_num, ?_⟩
  unfold tenth
  rw [abs_le]; constructor <;> norm_num

end Verif.Props
