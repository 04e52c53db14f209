import Verif.Proof.CellSet
import Verif.Props.Literal

/-!
# C16: the structural order
-/

namespace Verif.Props
open Verif.Model Verif.Spec Verif.Proof

/-- **C16, strict weak order.**  For all expressions and all formulas, `Less` is irreflexive and
transitive, and being unordered is transitive: what ordered containers require.  Equal terms are
unordered. -/
theorem C16_strict_order :
    StrictWeak (fun a b : Cell => a.less b = true) ∧
      StrictWeak (fun f g : FCell => f.less g = true) := by
  constructor <;> constructor
  · intro a h; exact lt_irrefl _ ((less_iff a a).mp h)
  · intro a b c h k
    exact (less_iff _ _).mpr (((less_iff _ _).mp h).trans ((less_iff _ _).mp k))
  · intro a b c h1 h2 h3 h4
    simp only [less_iff, not_lt] at h1 h2 h3 h4 ⊢
    exact ⟨h3.trans h1, h2.trans h4⟩
  · intro a h; exact lt_irrefl _ ((lessF_iff a a).mp h)
  · intro a b c h k
    exact (lessF_iff _ _).mpr (((lessF_iff _ _).mp h).trans ((lessF_iff _ _).mp k))
  · intro a b c h1 h2 h3 h4
    simp only [lessF_iff, not_lt] at h1 h2 h3 h4 ⊢
    exact ⟨h3.trans h1, h2.trans h4⟩

/-- **C16, unordered means equal.**  Terms are left unordered exactly when `EqualTo` holds, that
is when they are the same, if no two different real constants in them have the same
representative.  `_partial`: without the hypothesis it is false (`C16_real_constant`). -/
theorem C16_total_partial {S : RC → Prop} (hS : Apart S) :
    (∀ a b : Cell, RcC S a → RcC S b →
      ((a.less b = false ∧ b.less a = false) ↔ a.equalTo b = true) ∧
      (a.equalTo b = true ↔ a = b)) ∧
    (∀ f g : FCell, RcF S f → RcF S g →
      ((f.less g = false ∧ g.less f = false) ↔ f.equalTo g = true) ∧
      (f.equalTo g = true ↔ f = g)) := by
  constructor
  · intro a b ha hb
    refine ⟨?_, equalTo_iff a b⟩
    rw [equalTo_iff]
    constructor
    · rintro ⟨h1, h2⟩
      rw [← Bool.not_eq_true, less_iff, not_lt] at h1 h2
      exact code_inj hS ha hb (le_antisymm h2 h1)
    · rintro rfl
      have := C16_strict_order.1.irrefl a
      simpa using this
  · intro a b ha hb
    refine ⟨?_, equalTo_iffF a b⟩
    rw [equalTo_iffF]
    constructor
    · rintro ⟨h1, h2⟩
      rw [← Bool.not_eq_true, lessF_iff, not_lt] at h1 h2
      exact codeF_inj' hS ha hb (le_antisymm h2 h1)
    · rintro rfl
      have := C16_strict_order.2.irrefl a
      simpa using this

/-- **C16, nothing dropped.**  The operands of a conjunction or disjunction built by insertion into
a set are exactly the formulas inserted, and the set does not depend on the order of insertion.
`_partial`: as in `C16_total_partial`. -/
theorem C16_set_partial {S : RC → Prop} (hS : Apart S) (l : List FCell) (hl : ∀ f ∈ l, RcF S f) :
    (∀ f, f ∈ (insertAll l .nil).toList ↔ f ∈ l) ∧
      ∀ l', (∀ f, f ∈ l' ↔ f ∈ l) → insertAll l' .nil = insertAll l .nil := by
  have key : ∀ l : List FCell, (∀ f ∈ l, RcF S f) →
      ∀ f, f ∈ (insertAll l .nil).toList ↔ f ∈ l := by
    intro l hl f
    constructor
    · intro h
      rcases mem_insertAll l h with h | h
      · exact h
      · simp [FCells.toList] at h
    · intro h
      obtain ⟨g, hg, e⟩ := mem_insertAll_new l (fs := .nil) h
      have hgl : g ∈ l := by
        rcases mem_insertAll l hg with h | h
        · exact h
        · simp [FCells.toList] at h
      rwa [← codeF_inj' hS (hl g hgl) (hl f h) e]
  have hnil : Inc .nil := by simp [Inc, FCells.toList]
  refine ⟨key l hl, fun l' h => ?_⟩
  refine inc_ext (inc_insertAll _ _ hnil) (inc_insertAll _ _ hnil) fun f => ?_
  rw [key l hl, key l' (fun f hf => hl f ((h f).mp hf)), h]

/-- `x ≤ 1`, `x ≤ y + 2z`, `x ≤ 0.1` (between its two doubles), the negation of the last. -/
def someFormulas : List FCell :=
  let r := Cell.rconst (3602879701896396 / 2 ^ 55) (3602879701896397 / 2 ^ 55) false
  let g := FCell.rel .leq (.var 1) r
  [.rel .leq (.var 1) (.const 1),
   .rel .leq (.var 1) (.add 0 (.cons (.var 2) 1 (.cons (.var 3) 2 .nil))), g, .neg g, g]

example : ∀ f ∈ someFormulas,
    RcF (fun r => r = (3602879701896396 / 2 ^ 55, 3602879701896397 / 2 ^ 55, false)) f := by
  intro f hf
  simp only [someFormulas, List.mem_cons, List.not_mem_nil, or_false] at hf
  rcases hf with rfl | rfl | rfl | rfl | rfl <;> simp [RcF, RcC, RcT]

example : (insertAll someFormulas .nil).toList.length = 4 := by decide +kernel

/-! ## Real constants with the same representative -/

/-- `0.99999999999999999` and `1.00000000000000001`: both are written 1 when rounded. -/
def belowOne : Cell := .rconst (1 - 1 / 2 ^ 53) 1 false
/-- See `belowOne`. -/
def aboveOne : Cell := .rconst 1 (1 + 1 / 2 ^ 52) true

/-- What the parser makes of the two literals. -/
theorem literals_one (near : ℚ → ℚ) (hn : ∀ q, 1 - 1 / 2 ^ 54 < q → q < 1 + 1 / 2 ^ 53 → near q = 1) :
    decLiteral (fun _ => false) near "0.99999999999999999".toList =
        .ok (.range (1 - 1 / 2 ^ 53) 1 false) ∧
      decLiteral (fun _ => false) near "1.00000000000000001".toList =
        .ok (.range 1 (1 + 1 / 2 ^ 52) true) := by
  have d1 : decVal "0.99999999999999999".toList = some (99999999999999999 / 10 ^ 17) := by
    decide +kernel
  have d2 : decVal "-0.99999999999999999".toList = some (-(99999999999999999 / 10 ^ 17)) := by
    decide +kernel
  have d3 : decVal "1.00000000000000001".toList = some (100000000000000001 / 10 ^ 17) := by
    decide +kernel
  have d4 : decVal "-1.00000000000000001".toList = some (-(100000000000000001 / 10 ^ 17)) := by
    decide +kernel
  have f1 : flipSign "0.99999999999999999".toList = "-0.99999999999999999".toList := by decide
  have f2 : flipSign "1.00000000000000001".toList = "-1.00000000000000001".toList := by decide
  have l1 : Int.log 2 (99999999999999999 / 10 ^ 17 : ℚ) = -1 := by
    apply le_antisymm
    · have := (Int.lt_zpow_iff_log_lt (R := ℚ) (b := 2) (by norm_num) (x := 0)
        (r := 99999999999999999 / 10 ^ 17) (by norm_num)).mp (by norm_num)
      push_cast at this
      omega
    · exact (Int.zpow_le_iff_le_log (R := ℚ) (b := 2) (by norm_num) (x := -1)
        (r := 99999999999999999 / 10 ^ 17) (by norm_num)).mp (by norm_num)
  have l2 : Int.log 2 (100000000000000001 / 10 ^ 17 : ℚ) = 0 := by
    apply le_antisymm
    · have := (Int.lt_zpow_iff_log_lt (R := ℚ) (b := 2) (by norm_num) (x := 1)
        (r := 100000000000000001 / 10 ^ 17) (by norm_num)).mp (by norm_num)
      push_cast at this
      omega
    · exact (Int.zpow_le_iff_le_log (R := ℚ) (b := 2) (by norm_num) (x := 0)
        (r := 100000000000000001 / 10 ^ 17) (by norm_num)).mp (by norm_num)
  have r1 : roundUp (99999999999999999 / 10 ^ 17) = 1 := by
    unfold roundUp
    rw [abs_of_pos (by norm_num), l1]
    norm_num
  have r2 : roundUp (-(99999999999999999 / 10 ^ 17)) = -(1 - 1 / 2 ^ 53) := by
    unfold roundUp
    rw [abs_neg, abs_of_pos (by norm_num), l1]
    norm_num
  have r3 : roundUp (100000000000000001 / 10 ^ 17) = 1 + 1 / 2 ^ 52 := by
    unfold roundUp
    rw [abs_of_pos (by norm_num), l2]
    norm_num
  have r4 : roundUp (-(100000000000000001 / 10 ^ 17)) = -1 := by
    unfold roundUp
    rw [abs_neg, abs_of_pos (by norm_num), l2]
    norm_num
  have hm : ∀ q : ℚ, |q| ≤ 2 → ¬ maxDouble < |q| := by
    intro q hq h
    have h1 : (1 : ℚ) ≤ 2 ^ 971 := one_le_pow₀ (by norm_num)
    have : (2 : ℚ) ≤ maxDouble := by
      unfold maxDouble
      generalize (2 : ℚ) ^ 971 = y at h1
      norm_num
      linarith
    linarith
  have b1 : near (99999999999999999 / 10 ^ 17) = 1 := hn _ (by norm_num) (by norm_num)
  have b3 : near (100000000000000001 / 10 ^ 17) = 1 := hn _ (by norm_num) (by norm_num)
  have s1 : ∀ (round : ℚ → ℚ) t q v, decVal t = some q → round q = v → |v| ≤ 2 →
      stod (fun _ => false) round t = .ok v := by
    intro round t q v h1 h2 h3
    simp [stod, h1, h2, hm v h3]
  constructor
  · simp only [decLiteral, stringToInterval, f1]
    rw [s1 _ _ _ _ d1 r1 (by norm_num), s1 _ _ _ _ d2 r2 (by norm_num [abs_le]),
      s1 _ _ _ _ d1 b1 (by norm_num)]
    simp [bind, Outcome.bind]
  · simp only [decLiteral, stringToInterval, f2]
    rw [s1 _ _ _ _ d3 r3 (by norm_num [abs_le]), s1 _ _ _ _ d4 r4 (by norm_num [abs_le]),
      s1 _ _ _ _ d3 b3 (by norm_num)]
    simp [bind, Outcome.bind]

/-- **C16 fails for real constants.**  The two constants differ, no real number is in both except
the double 1, and `EqualTo` tells them apart; `Less` does not.  So the conjunction
`x ≥ 1.00000000000000001 ∧ x ≥ 0.99999999999999999` keeps only the operand inserted first. -/
theorem C16_real_constant :
    belowOne.equalTo aboveOne = false ∧ belowOne.less aboveOne = false ∧
      aboveOne.less belowOne = false ∧
      insertAll [.rel .geq (.var 1) belowOne, .rel .geq (.var 1) aboveOne] .nil =
        .cons (.rel .geq (.var 1) belowOne) .nil ∧
      insertAll [.rel .geq (.var 1) aboveOne, .rel .geq (.var 1) belowOne] .nil =
        .cons (.rel .geq (.var 1) aboveOne) .nil := by
  have h1 : belowOne.less aboveOne = false := by decide +kernel
  have h2 : aboveOne.less belowOne = false := by decide +kernel
  have h3 : (FCell.rel .geq (.var 1) aboveOne).less (.rel .geq (.var 1) belowOne) = false := by
    decide +kernel
  have h4 : (FCell.rel .geq (.var 1) belowOne).less (.rel .geq (.var 1) aboveOne) = false := by
    decide +kernel
  refine ⟨by decide +kernel, h1, h2, ?_, ?_⟩
  · simp [insertAll, FCells.insert, h3, h4]
  · simp [insertAll, FCells.insert, h3, h4]

end Verif.Props
