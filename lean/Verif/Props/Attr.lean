import Verif.Spec.Attr
import Verif.Props.ExprNorm

/-!
# C66: what a cell records about itself
-/

namespace Verif.Props
open Verif.Model Verif.Spec Verif.Proof

theorem mem_insVar {i x : Nat} : ∀ {l : List Nat}, i ∈ insVar x l ↔ i = x ∨ i ∈ l
  | [] => by simp [insVar]
  | y :: ys => by
    have ih := mem_insVar (i := i) (x := x) (l := ys)
    unfold insVar
    split_ifs with h1 h2
    · simp
    · subst h2; simp
    · simp only [List.mem_cons, ih]
      tauto

theorem mem_unionVars {i : Nat} : ∀ {xs ys : List Nat}, i ∈ unionVars xs ys ↔ i ∈ xs ∨ i ∈ ys
  | [], ys => by simp [unionVars]
  | x :: xs, ys => by
    have ih := mem_unionVars (i := i) (xs := xs) (ys := insVar x ys)
    unfold unionVars at ih ⊢
    rw [List.foldl_cons, ih, mem_insVar, List.mem_cons]
    tauto

theorem sorted_insVar {x : Nat} : ∀ {l : List Nat}, l.Pairwise (· < ·) → (insVar x l).Pairwise (· < ·)
  | [], _ => by simp [insVar]
  | y :: ys, h => by
    rw [List.pairwise_cons] at h
    unfold insVar
    split_ifs with h1 h2
    · exact List.pairwise_cons.mpr ⟨fun z hz => (by
        rcases List.mem_cons.mp hz with rfl | hz
        · exact h1
        · exact lt_trans h1 (h.1 z hz)), List.pairwise_cons.mpr h⟩
    · exact List.pairwise_cons.mpr h
    · refine List.pairwise_cons.mpr ⟨fun z hz => ?_, sorted_insVar h.2⟩
      rcases mem_insVar.mp hz with rfl | hz
      · omega
      · exact h.1 z hz

mutual
theorem occ_cell {i : Nat} : ∀ e : Cell, i ∈ e.vars ↔ Occ i e
  | .const _ => by simp [Cell.vars, Occ]
  | .rconst .. => by simp [Cell.vars, Occ]
  | .var _ => by simp [Cell.vars, Occ]
  | .nan => by simp [Cell.vars, Occ]
  | .uf .. => by simp [Cell.vars, Occ]
  | .add _ ts => by simp only [Cell.vars, Occ, occ_terms ts]
  | .mul _ fs => by simp only [Cell.vars, Occ, occ_factors fs]
  | .un _ a => by simp only [Cell.vars, Occ, occ_cell a]
  | .bin _ a b => by simp only [Cell.vars, Occ, mem_unionVars, occ_cell a, occ_cell b]
  | .ite c a b => by simp only [Cell.vars, Occ, mem_unionVars, occ_fml c, occ_cell a, occ_cell b]
theorem occ_terms {i : Nat} : ∀ ts : CTerms, i ∈ ts.vars ↔ OccT i ts
  | .nil => by simp [CTerms.vars, OccT]
  | .cons e _ ts => by simp only [CTerms.vars, OccT, mem_unionVars, occ_cell e, occ_terms ts]
theorem occ_factors {i : Nat} : ∀ fs : CFactors, i ∈ fs.vars ↔ OccG i fs
  | .nil => by simp [CFactors.vars, OccG]
  | .cons b e fs => by
    simp only [CFactors.vars, OccG, mem_unionVars, occ_cell b, occ_cell e, occ_factors fs]
theorem occ_fml {i : Nat} : ∀ f : FCell, i ∈ f.vars ↔ OccF i f
  | .ff => by simp [FCell.vars, OccF]
  | .tt => by simp [FCell.vars, OccF]
  | .var _ => by simp [FCell.vars, OccF]
  | .rel _ a b => by simp only [FCell.vars, OccF, mem_unionVars, occ_cell a, occ_cell b]
  | .conj fs => by simp only [FCell.vars, OccF, occ_fmls fs]
  | .disj fs => by simp only [FCell.vars, OccF, occ_fmls fs]
  | .neg f => by simp only [FCell.vars, OccF, occ_fml f]
  | .all vs f => by simp [FCell.vars, OccF, occ_fml f]
theorem occ_fmls {i : Nat} : ∀ fs : FCells, i ∈ fs.vars ↔ OccL i fs
  | .nil => by simp [FCells.vars, OccL]
  | .cons f fs => by simp only [FCells.vars, OccL, mem_unionVars, occ_fml f, occ_fmls fs]
end

section
variable {v w : CVal} (h : SameReading v w)
include h
mutual
theorem same_cell : ∀ e : Cell, (∀ i, Occ i e → v.var i = w.var i) → ev v e = ev w e
  | .const _, _ => rfl
  | .rconst .., _ => by simp only [ev, h.rc]
  | .var i, k => by simp only [ev, k i rfl]
  | .nan, _ => rfl
  | .uf f vs, k => by simp only [ev]; exact h.uf f vs k
  | .add _ ts, k => by simp only [ev, same_terms ts k]
  | .mul _ fs, k => by simp only [ev, same_factors fs k]
  | .un f a, k => by simp only [ev, same_cell a k, h.un]
  | .bin f a b, k => by
    simp only [ev, same_cell a fun i hi => k i (.inl hi), same_cell b fun i hi => k i (.inr hi), h.bin]
  | .ite c a b, k => by
    simp only [ev, same_cell a fun i hi => k i (.inr (.inl hi)),
      same_cell b fun i hi => k i (.inr (.inr hi)), h.cond c (same_fml c fun i hi => k i (.inl hi))]
theorem same_terms : ∀ ts : CTerms, (∀ i, OccT i ts → v.var i = w.var i) → evT v ts = evT w ts
  | .nil, _ => rfl
  | .cons e _ ts, k => by
    simp only [evT, same_cell e fun i hi => k i (.inl hi), same_terms ts fun i hi => k i (.inr hi)]
theorem same_factors : ∀ fs : CFactors, (∀ i, OccG i fs → v.var i = w.var i) → evG v fs = evG w fs
  | .nil, _ => rfl
  | .cons b e fs, k => by
    simp only [evG, same_cell b fun i hi => k i (.inl hi), same_cell e fun i hi => k i (.inr (.inl hi)),
      same_factors fs fun i hi => k i (.inr (.inr hi))]
theorem same_fml : ∀ f : FCell, (∀ i, OccF i f → v.var i = w.var i) → tv v f = tv w f
  | .ff, _ => rfl
  | .tt, _ => rfl
  | .var i, k => by simp only [tv, k i rfl]
  | .rel op a b, k => by
    simp only [tv, same_cell a fun i hi => k i (.inl hi), same_cell b fun i hi => k i (.inr hi)]
  | .conj fs, k => by simp only [tv]; exact (same_fmls fs k).1
  | .disj fs, k => by simp only [tv]; exact (same_fmls fs k).2
  | .neg f, k => by simp only [tv, same_fml f k]
  | .all .., _ => rfl
theorem same_fmls : ∀ fs : FCells, (∀ i, OccL i fs → v.var i = w.var i) →
    tvAll v fs = tvAll w fs ∧ tvAny v fs = tvAny w fs
  | .nil, _ => ⟨rfl, rfl⟩
  | .cons f fs, k => by
    obtain ⟨h1, h2⟩ := same_fmls fs fun i hi => k i (.inr hi)
    simp only [tvAll, tvAny, same_fml f fun i hi => k i (.inl hi), h1, h2, and_self]
end
end

theorem isIte (c : FCell) (a b : Cell) : IsIte (.ite c a b) ↔ True := Iff.rfl
theorem noIte : (∀ q, IsIte (.const q) ↔ False) ∧ (∀ l u f, IsIte (.rconst l u f) ↔ False) ∧
    (∀ i, IsIte (.var i) ↔ False) ∧ (∀ c ts, IsIte (.add c ts) ↔ False) ∧
    (∀ c fs, IsIte (.mul c fs) ↔ False) ∧ (∀ f a, IsIte (.un f a) ↔ False) ∧
    (∀ f a b, IsIte (.bin f a b) ↔ False) ∧ (IsIte .nan ↔ False) ∧
    (∀ f vs, IsIte (.uf f vs) ↔ False) := by
  simp [IsIte]

mutual
theorem ite_cell : ∀ e : Cell, e.hasIte = true ↔ ∃ s, Spec.Part s e ∧ IsIte s
  | .const _ => by simp [Cell.hasIte, Spec.Part, noIte]
  | .rconst .. => by simp [Cell.hasIte, Spec.Part, noIte]
  | .var _ => by simp [Cell.hasIte, Spec.Part, noIte]
  | .nan => by simp [Cell.hasIte, Spec.Part, noIte]
  | .uf .. => by simp [Cell.hasIte, Spec.Part, noIte]
  | .add _ ts => by
    simp only [Cell.hasIte, Spec.Part, ite_terms ts, or_and_right, exists_or, exists_eq_left, noIte,
      false_or]
  | .mul _ fs => by
    simp only [Cell.hasIte, Spec.Part, ite_factors fs, or_and_right, exists_or, exists_eq_left, noIte,
      false_or]
  | .un _ a => by
    simp only [Cell.hasIte, Spec.Part, ite_cell a, or_and_right, exists_or, exists_eq_left, noIte, false_or]
  | .bin _ a b => by
    simp only [Cell.hasIte, Spec.Part, Bool.or_eq_true, ite_cell a, ite_cell b, or_and_right, exists_or,
      exists_eq_left, noIte, false_or]
  | .ite c a b => by
    simp only [Cell.hasIte, Spec.Part, or_and_right, exists_or, exists_eq_left, isIte, true_or]
theorem ite_terms : ∀ ts : CTerms, ts.hasIte = true ↔ ∃ s, PartT s ts ∧ IsIte s
  | .nil => by simp [CTerms.hasIte, PartT]
  | .cons e _ ts => by
    simp only [CTerms.hasIte, PartT, Bool.or_eq_true, ite_cell e, ite_terms ts, or_and_right, exists_or]
theorem ite_factors : ∀ fs : CFactors, fs.hasIte = true ↔ ∃ s, PartG s fs ∧ IsIte s
  | .nil => by simp [CFactors.hasIte, PartG]
  | .cons b e fs => by
    simp only [CFactors.hasIte, PartG, Bool.or_eq_true, ite_cell b, ite_cell e, ite_factors fs,
      or_and_right, exists_or, or_assoc]
end

mutual
theorem ite_fml : ∀ f : FCell, f.hasIte = true ↔ ∃ a, SideOf a f ∧ a.hasIte = true
  | .ff => by simp [FCell.hasIte, SideOf]
  | .tt => by simp [FCell.hasIte, SideOf]
  | .var _ => by simp [FCell.hasIte, SideOf]
  | .rel _ a b => by
    simp only [FCell.hasIte, SideOf, Bool.or_eq_true, or_and_right, exists_or, exists_eq_left]
  | .conj fs => by simp only [FCell.hasIte, SideOf, ite_fmls fs]
  | .disj fs => by simp only [FCell.hasIte, SideOf, ite_fmls fs]
  | .neg f => by simp only [FCell.hasIte, SideOf, ite_fml f]
  | .all _ f => by simp only [FCell.hasIte, SideOf, ite_fml f]
theorem ite_fmls : ∀ fs : FCells, fs.hasIte = true ↔ ∃ a, SideOfL a fs ∧ a.hasIte = true
  | .nil => by simp [FCells.hasIte, SideOfL]
  | .cons f fs => by
    simp only [FCells.hasIte, SideOfL, Bool.or_eq_true, ite_fml f, ite_fmls fs, or_and_right, exists_or]
end

theorem natPow_const {e : Cell} (h : e.natPow = true) :
    ∃ k : ℕ, e = .const (k : ℚ) := by
  cases e with
  | const q =>
    simp only [Cell.natPow, Bool.and_eq_true, decide_eq_true_eq, isInt32] at h
    obtain ⟨h1, _, _, h2⟩ := h
    refine ⟨q.num.toNat, ?_⟩
    have : (q.num.toNat : ℤ) = q.num := Int.toNat_of_nonneg (Rat.num_nonneg.mpr h1)
    have e1 : ((q.num.toNat : ℤ) : ℚ) = (q.num : ℚ) := by rw [this]
    rw [(Rat.den_eq_one_iff q).mp h2] at e1
    congr 1
    exact_mod_cast e1.symm
  | _ => cases h

theorem pw_nat (x : ℝ) (k : ℕ) : pw x ((k : ℚ) : ℝ) = some (x ^ k) := by
  unfold pw
  have h1 : (((k : ℚ) : ℝ)) = ⌊((k : ℚ) : ℝ)⌋ := by simp
  rw [if_pos h1, if_neg]
  · simp
  · rintro ⟨_, h⟩
    have : (0 : ℝ) ≤ ((k : ℚ) : ℝ) := by positivity
    linarith

mutual
theorem poly_cell (rc : ℚ → ℚ → Bool → ℝ) : ∀ e : Cell, e.isPoly = true → NoZeroDiv e →
    ∃ p : MvPolynomial ℕ ℝ, ∀ v : CVal, v.rc = rc → ev v e = some (MvPolynomial.eval v.var p)
  | .const q, _, _ => ⟨.C q, fun v _ => by simp [ev]⟩
  | .rconst l u f, _, _ => ⟨.C (rc l u f), fun v h => by simp [ev, h]⟩
  | .var i, _, _ => ⟨.X i, fun v _ => by simp [ev]⟩
  | .add c ts, h, k => by
    obtain ⟨p, hp⟩ := poly_terms rc ts h k
    exact ⟨.C c + p, fun v hv => by simp [ev, hp v hv]⟩
  | .mul c fs, h, k => by
    obtain ⟨p, hp⟩ := poly_factors rc fs h k
    exact ⟨.C c * p, fun v hv => by simp [ev, hp v hv]⟩
  | .bin .div a b, h, k => by
    simp only [Cell.isPoly, Bool.and_eq_true] at h
    obtain ⟨p, hp⟩ := poly_cell rc a h.1 k.1
    cases b with
    | const q =>
      have hq : (q : ℝ) ≠ 0 := by
        intro e
        exact k.2.2 rfl (by rw [Rat.cast_eq_zero.mp e])
      exact ⟨p * .C (1 / (q : ℝ)), fun v hv => by
        simp [ev, hp v hv, quo, hq, div_eq_mul_inv]⟩
    | _ => cases h.2
  | .bin .pow a b, h, k => by
    simp only [Cell.isPoly, Bool.and_eq_true] at h
    obtain ⟨p, hp⟩ := poly_cell rc a h.1 k.1
    obtain ⟨n, rfl⟩ := natPow_const h.2
    exact ⟨p ^ n, fun v hv => by
      simp only [ev, hp v hv, Option.bind_some, pw_nat, map_pow]⟩
  | .bin .min _ _, h, _ => by cases h
  | .bin .max _ _, h, _ => by cases h
  | .bin .atan2 _ _, h, _ => by cases h
  | .un .., h, _ => by cases h
  | .ite .., h, _ => by cases h
  | .nan, h, _ => by cases h
  | .uf .., h, _ => by cases h
theorem poly_terms (rc : ℚ → ℚ → Bool → ℝ) : ∀ ts : CTerms, ts.isPoly = true → NoZeroDivT ts →
    ∃ p : MvPolynomial ℕ ℝ, ∀ v : CVal, v.rc = rc → evT v ts = some (MvPolynomial.eval v.var p)
  | .nil, _, _ => ⟨0, fun v _ => by simp [evT]⟩
  | .cons e q ts, h, k => by
    simp only [CTerms.isPoly, Bool.and_eq_true] at h
    obtain ⟨p, hp⟩ := poly_cell rc e h.1 k.1
    obtain ⟨r, hr⟩ := poly_terms rc ts h.2 k.2
    exact ⟨.C q * p + r, fun v hv => by simp [evT, hp v hv, hr v hv]⟩
theorem poly_factors (rc : ℚ → ℚ → Bool → ℝ) : ∀ fs : CFactors, fs.isPoly = true → NoZeroDivG fs →
    ∃ p : MvPolynomial ℕ ℝ, ∀ v : CVal, v.rc = rc → evG v fs = some (MvPolynomial.eval v.var p)
  | .nil, _, _ => ⟨1, fun v _ => by simp [evG]⟩
  | .cons b e fs, h, k => by
    simp only [CFactors.isPoly, Bool.and_eq_true] at h
    obtain ⟨p, hp⟩ := poly_cell rc b h.1.1 k.1
    obtain ⟨n, rfl⟩ := natPow_const h.1.2
    obtain ⟨r, hr⟩ := poly_factors rc fs h.2 k.2.2
    exact ⟨p ^ n * r, fun v hv => by
      have h2 : ev v (.const (n : ℚ)) = some ((n : ℚ) : ℝ) := rfl
      simp only [evG, hp v hv, hr v hv, h2, Option.bind_some, pw_nat, Option.map_some, map_pow, map_mul]⟩
end

/-! ## Properties -/

/-- **C66.**  `GetVariables` are the variables that occur. -/
theorem C66_variables (i : Nat) (e : Cell) : i ∈ e.vars ↔ Occ i e := occ_cell e

/-- **C66.**  `GetFreeVariables` are the variables that occur free. -/
theorem C66_free_variables (i : Nat) (f : FCell) : i ∈ f.vars ↔ OccF i f := occ_fml f

/-- **C66.**  The value of an expression depends on its variables only. -/
theorem C66_depends (e : Cell) (v w : CVal) (h : SameReading v w)
    (k : ∀ i ∈ e.vars, v.var i = w.var i) : ev v e = ev w e :=
  same_cell h e fun i hi => k i ((occ_cell e).mpr hi)

/-- **C66.**  The truth of a formula depends on its free variables only. -/
theorem C66_depends_formula (f : FCell) (v w : CVal) (h : SameReading v w)
    (k : ∀ i ∈ f.vars, v.var i = w.var i) : tv v f = tv w f :=
  same_fml h f fun i hi => k i ((occ_fml f).mpr hi)

/-- **C66.**  `include_ite` is true exactly if there is an if-then-else in the expression. -/
theorem C66_include_ite (e : Cell) : e.hasIte = true ↔ ∃ s, Spec.Part s e ∧ IsIte s := ite_cell e

/-- **C66.**  The same for formulas, below quantifiers as well. -/
theorem C66_include_ite_formula (f : FCell) :
    f.hasIte = true ↔ ∃ a, SideOf a f ∧ ∃ s, Spec.Part s a ∧ IsIte s := by
  rw [ite_fml]
  exact exists_congr fun a => and_congr_right fun _ => ite_cell a

/-- **C66.**  `is_polynomial` is true only of polynomials. -/
theorem C66_polynomial (rc : ℚ → ℚ → Bool → ℝ) (e : Cell) (h : e.isPoly = true)
    (hz : NoZeroDiv e) : IsPolynomial rc e := poly_cell rc e h hz

/-! ## Cases -/

/-- `x₁·(x₂ + ½)³/7`, as it is stored. -/
def cubeXY : Cell :=
  .bin .div (.mul 1 (.cons (.var 1) (.const 1)
    (.cons (.add (1 / 2) (.cons (.var 2) 1 .nil)) (.const 3) .nil))) (.const 7)

/-- The hypotheses of `C66_polynomial` are met. -/
example : cubeXY.isPoly = true ∧ NoZeroDiv cubeXY ∧ cubeXY.vars = [1, 2] := by
  refine ⟨by decide +kernel, ?_, by decide +kernel⟩
  simp [cubeXY, NoZeroDiv, NoZeroDivT, NoZeroDivG]

/-- `2^x₁` is not a polynomial, nor is `1/x₁`. -/
example : Cell.isPoly (.bin .pow (.const 2) (.var 1)) = false ∧
    Cell.isPoly (.bin .div (.const 1) (.var 1)) = false := by decide +kernel

/-- An if-then-else in an exponent is seen, and one below a quantifier. -/
example : Cell.hasIte (.mul 2 (.cons (.var 1) (.ite (.rel .lt (.var 1) (.const 0)) (.const 2)
      (.const 3)) .nil)) = true ∧
    FCell.hasIte (.all [1] (.rel .eq (.ite .tt (.var 1) (.const 0)) (.const 0))) = true := by
  decide +kernel

/-- The hypotheses of `C66_depends` are met by valuations that differ at another variable. -/
example (f : Nat → ℝ) (x : ℝ) : let v : CVal := ⟨f, fun _ _ _ => 0, fun _ _ => none, fun _ _ _ => none,
      fun _ => true, fun _ _ => none⟩
    let w : CVal := { v with var := fun i => if i = 3 then x else f i }
    SameReading v w ∧ ∀ i ∈ cubeXY.vars, v.var i = w.var i := by
  refine ⟨⟨rfl, rfl, rfl, fun _ _ _ => rfl, fun _ _ => rfl⟩, fun i hi => ?_⟩
  have : cubeXY.vars = [1, 2] := by decide +kernel
  rw [this] at hi
  have : i ≠ 3 := by
    intro h
    subst h
    revert hi
    decide
  simp [this]

/-- The converse fails: `x^2147483647·x` is a polynomial, but not said to be one. -/
theorem C66_large :
    let e : Cell := .bin .pow (.var 1) (.const 2147483648)
    build exactA 30 (.mul (.pow (.var 1) (.const 2147483647)) (.var 1)) = .ok e ∧
      (∀ rc, IsPolynomial rc e) ∧ e.isPoly = false := by
  refine ⟨of_gives (by decide +kernel), fun rc => ⟨.X 1 ^ 2147483648, fun v _ => ?_⟩, by decide +kernel⟩
  have h := pw_nat (v.var 1) 2147483648
  simp only [ev, Option.bind_some, map_pow, MvPolynomial.eval_X]
  rw [← h]
  norm_cast

end Verif.Props
