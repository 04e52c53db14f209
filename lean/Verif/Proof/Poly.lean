import Verif.Proof.Expand
import Verif.Spec.Poly

/-!
# Expanded polynomials are sums of monomials
-/

namespace Verif.Proof
open Verif.Model Verif.Spec

/-- Powers of variables, of total degree at most `D`. -/
inductive MonoG : Nat → CFactors → Prop
  | nil {D} : MonoG D .nil
  | cons {D d i k : Nat} {fs : CFactors} : 0 < k → k + d ≤ D → MonoG d fs →
      MonoG D (.cons (.var i) (.const (k : ℚ)) fs)

/-- A monomial with a coefficient, of degree at most `D`. -/
inductive TermX : Nat → Cell → Prop
  | const {D} (q : ℚ) : TermX D (.const q)
  | var {D} (i : Nat) : 1 ≤ D → TermX D (.var i)
  | pow {D} (i k : Nat) : 2 ≤ k → k ≤ D → TermX D (.bin .pow (.var i) (.const (k : ℚ)))
  | mul {D} (c : ℚ) (fs : CFactors) : MonoG D fs → TermX D (.mul c fs)

/-- A monomial without a coefficient. -/
inductive MonoX : Nat → Cell → Prop
  | var {D} (i : Nat) : 1 ≤ D → MonoX D (.var i)
  | pow {D} (i k : Nat) : 2 ≤ k → k ≤ D → MonoX D (.bin .pow (.var i) (.const (k : ℚ)))
  | mul {D} (fs : CFactors) : MonoG D fs → MonoX D (.mul 1 fs)

inductive MonoT : Nat → CTerms → Prop
  | nil {D} : MonoT D .nil
  | cons {D e q ts} : MonoX D e → MonoT D ts → MonoT D (.cons e q ts)

/-- A sum of monomials. -/
inductive PolyX : Nat → Cell → Prop
  | term {D e} : TermX D e → PolyX D e
  | add {D} (c : ℚ) (ts : CTerms) : MonoT D ts → PolyX D (.add c ts)

theorem MonoG.mono {D E fs} (h : MonoG D fs) (k : D ≤ E) : MonoG E fs := by
  cases h with
  | nil => exact .nil
  | cons h1 h2 h3 => exact .cons h1 (le_trans h2 k) h3

theorem TermX.mono {D E e} (h : TermX D e) (k : D ≤ E) : TermX E e := by
  cases h with
  | const q => exact .const q
  | var i h => exact .var i (le_trans h k)
  | pow i m h1 h2 => exact .pow i m h1 (le_trans h2 k)
  | mul c fs h => exact .mul c fs (h.mono k)

theorem MonoX.mono {D E e} (h : MonoX D e) (k : D ≤ E) : MonoX E e := by
  cases h with
  | var i h => exact .var i (le_trans h k)
  | pow i m h1 h2 => exact .pow i m h1 (le_trans h2 k)
  | mul fs h => exact .mul fs (h.mono k)

theorem MonoX.term {D e} (h : MonoX D e) : TermX D e := by
  cases h with
  | var i h => exact .var i h
  | pow i m h1 h2 => exact .pow i m h1 h2
  | mul fs h => exact .mul 1 fs h

theorem MonoT.mono {D E ts} (h : MonoT D ts) (k : D ≤ E) : MonoT E ts := by
  induction h with
  | nil => exact .nil
  | cons h1 _ ih => exact .cons (h1.mono k) ih

theorem PolyX.mono {D E e} (h : PolyX D e) (k : D ≤ E) : PolyX E e := by
  cases h with
  | term h => exact .term (h.mono k)
  | add c ts h => exact .add c ts (h.mono k)

variable {A : Arith} (hA : Arith.Exact A)

include hA in
theorem addE_consts {n : Nat} {p q : ℚ} {r : Cell} (h : addE A n (.const p) (.const q) = .ok r) :
    r = .const (p + q) := by
  cases n with
  | zero => cases h
  | succ n =>
    unfold addE at h
    split_ifs at h with h1 h2
    · rw [equalTo_iff] at h1
      cases h1; cases h; simp
    · rw [equalTo_iff] at h2
      cases h2; cases h; simp
    · simp only [Run.ok.injEq] at h
      rw [← h, hA.rnd]

include hA in
theorem mulIns_mono {i k : Nat} (hk : 0 < k) : ∀ {n : Nat} {fs fs' : CFactors} {D : Nat}, MonoG D fs →
    mulIns A n (.var i) (.const (k : ℚ)) fs = .ok fs' → MonoG (D + k) fs'
  | 0, _, _, _, _, h => by cases h
  | n + 1, _, fs', D, hf, h => by
    cases hf with
    | nil =>
      simp only [mulIns, Run.ok.injEq] at h
      subst h
      exact .cons hk (d := 0) (by omega) .nil
    | @cons D d j l fs h1 h2 h3 =>
      unfold mulIns at h
      split_ifs at h with hl hg
      · cases h
        exact .cons hk (by omega) (.cons h1 h2 h3)
      · obtain ⟨gs, e1, e2⟩ := bindR_ok h
        cases e2
        exact .cons h1 (by omega) (mulIns_mono hk h3 e1)
      · obtain ⟨s, e1, e2⟩ := bindR_ok h
        have := addE_consts hA e1
        subst this
        split_ifs at e2 with h0
        · cases e2
          exact h3.mono (by omega)
        · cases e2
          have : (l : ℚ) + (k : ℚ) = ((l + k : ℕ) : ℚ) := by push_cast; rfl
          rw [this]
          exact .cons (by omega) (d := d) (by omega) h3

include hA in
theorem mulTerm_mono {i k : Nat} (hk : 0 < k) {n : Nat} {fs fs' : CFactors} {D : Nat} (hf : MonoG D fs)
    (h : mulTerm A n fs (.var i) (.const (k : ℚ)) = .ok fs') : MonoG (D + k) fs' := by
  cases n with
  | zero => cases h
  | succ n =>
    unfold mulTerm at h
    rw [if_neg (by simp [Cell.isConst])] at h
    exact mulIns_mono hA hk hf h

include hA in
theorem mulMap_mono : ∀ {n : Nat} {gs fs fs' : CFactors} {D E : Nat}, MonoG D fs → MonoG E gs →
    mulMap A n fs gs = .ok fs' → MonoG (D + E) fs'
  | 0, _, _, _, _, _, _, _, h => by cases h
  | n + 1, _, fs, fs', D, E, hf, hg, h => by
    cases hg with
    | nil =>
      simp only [mulMap, Run.ok.injEq] at h
      subst h
      exact hf.mono (by omega)
    | @cons _ d j l gs h1 h2 h3 =>
      unfold mulMap at h
      obtain ⟨hs, e1, e2⟩ := bindR_ok h
      exact (mulMap_mono (mulTerm_mono hA h1 hf e1) h3 e2).mono (by omega)

include hA in
theorem mulExpr_mono {n : Nat} {c c' : ℚ} {fs fs' : CFactors} {D E : Nat} {e : Cell} (hf : MonoG D fs)
    (he : TermX E e) (h : mulExpr A n (c, fs) e = .ok (c', fs')) : MonoG (D + E) fs' := by
  cases n with
  | zero => cases h
  | succ n =>
    unfold mulExpr at h
    by_cases hc : c = 0
    · rw [if_pos hc] at h
      cases h
      exact hf.mono (by omega)
    rw [if_neg hc] at h
    cases he with
    | const q =>
      simp only at h
      split_ifs at h
      · cases h; exact .nil
      · cases h; exact hf.mono (by omega)
    | var i h1 =>
      obtain ⟨gs, e1, e2⟩ := bindR_ok h
      cases e2
      have e1 : mulTerm A n fs (.var i) (.const ((1 : ℕ) : ℚ)) = .ok fs' := by simpa using e1
      exact (mulTerm_mono hA one_pos hf e1).mono (by omega)
    | pow i k h1 h2 =>
      obtain ⟨gs, e1, e2⟩ := bindR_ok h
      cases e2
      exact (mulTerm_mono hA (by omega) hf e1).mono (by omega)
    | mul d gs h1 =>
      obtain ⟨hs, e1, e2⟩ := bindR_ok h
      cases e2
      exact mulMap_mono hA hf h1 e1

theorem powE_var {n i k D : Nat} {r : Cell} (hk : 0 < k) (hD : k ≤ D)
    (h : powE A n (.var i) (.const (k : ℚ)) = .ok r) : MonoX D r := by
  cases n with
  | zero => cases h
  | succ n =>
    unfold powE at h
    simp only at h
    rw [if_neg (by exact_mod_cast (by omega : k ≠ 0))] at h
    by_cases h1 : (k : ℚ) = 1
    · rw [if_pos h1] at h
      cases h
      exact .var i (by omega)
    · rw [if_neg h1] at h
      cases h
      have : k ≠ 1 := by rintro rfl; exact h1 (by norm_num)
      exact .pow i k (by omega) hD

theorem getMul_mono {n : Nat} {c : ℚ} {fs : CFactors} {D : Nat} {r : Cell} (hf : MonoG D fs)
    (h : getMul A n (c, fs) = .ok r) : TermX D r := by
  cases n with
  | zero => cases h
  | succ n =>
    unfold getMul at h
    dsimp only at h
    by_cases hc : c = 0
    · rw [if_pos hc] at h
      cases h
      exact .const 0
    rw [if_neg hc] at h
    cases hf with
    | nil => cases h; exact .const c
    | @cons _ d i k gs h1 h2 h3 =>
      cases h3 with
      | nil =>
        simp only at h
        split_ifs at h
        · exact (powE_var h1 (by omega) h).term
        · cases h
          exact .mul c _ (.cons h1 h2 .nil)
      | cons g1 g2 g3 =>
        cases h
        exact .mul c _ (.cons h1 h2 (.cons g1 g2 g3))

theorem getMul_one_mono {n : Nat} {fs : CFactors} {D : Nat} {r : Cell} (hf : MonoG D fs)
    (h : getMul A n (1, fs) = .ok r) : r = .const 1 ∨ MonoX D r := by
  cases n with
  | zero => cases h
  | succ n =>
    unfold getMul at h
    dsimp only at h
    rw [if_neg one_ne_zero] at h
    cases hf with
    | nil => cases h; exact .inl rfl
    | @cons _ d i k gs h1 h2 h3 =>
      cases h3 with
      | nil =>
        simp only [if_true] at h
        exact .inr (powE_var h1 (by omega) h)
      | cons g1 g2 g3 =>
        cases h
        exact .inr (.mul _ (.cons h1 h2 (.cons g1 g2 g3)))

include hA in
theorem twoX {n : Nat} {a b r : Cell} {D E : Nat} (ha : TermX D a) (hb : TermX E b)
    (h : (do
      let f ← mulExpr A n (1, .nil) a
      let g ← mulExpr A n f b
      getMul A n g) = .ok r) : TermX (D + E) r := by
  obtain ⟨⟨c1, f⟩, e1, h⟩ := bindR_ok h
  obtain ⟨⟨c2, g⟩, e2, h⟩ := bindR_ok h
  have k1 := mulExpr_mono hA (D := 0) .nil ha e1
  exact (getMul_mono (mulExpr_mono hA k1 hb e2) h).mono (by omega)

include hA in
theorem oneX {n : Nat} {b r : Cell} {c : ℚ} {fs : CFactors} {D E : Nat} (hf : MonoG D fs)
    (hb : TermX E b) (h : (do
      let f ← mulExpr A n (c, fs) b
      getMul A n f) = .ok r) : TermX (D + E) r := by
  obtain ⟨⟨c1, f⟩, e1, h⟩ := bindR_ok h
  exact getMul_mono (mulExpr_mono hA hf hb e1) h

include hA in
theorem sucX {n i k D : Nat} {r : Cell} (hD : 1 + k ≤ D) (h : (do
      let s ← addE A n (.const 1) (.const (k : ℚ))
      powE A n (.var i) s) = .ok r) : TermX D r := by
  obtain ⟨s, e1, h⟩ := bindR_ok h
  have := addE_consts hA e1
  subst this
  have e : (1 : ℚ) + (k : ℚ) = ((1 + k : ℕ) : ℚ) := by push_cast; rfl
  rw [e] at h
  exact (powE_var (by omega) hD h).term

include hA in
theorem mulFlat_mono {n : Nat} {a b r : Cell} {D E : Nat} (ha : TermX D a) (hb : TermX E b)
    (h : mulFlat A n a b = .ok r) : TermX (D + E) r := by
  cases n with
  | zero => cases h
  | succ n =>
    unfold mulFlat at h
    cases ha with
    | const p =>
      cases hb with
      | const q =>
        simp only at h
        split_ifs at h
        · cases n with
          | zero => cases h
          | succ n =>
            unfold powE at h
            simp only at h
            split_ifs at h
            split at h
            · cases h; exact .const _
            · cases h
        · exact twoX hA (D := D) (.const p) (.const q) h
      | var i h1 =>
        simp only [Cell.equalTo, if_false, Bool.false_eq_true] at h
        exact twoX hA (D := D) (.const p) (.var i h1) h
      | pow i k h1 h2 =>
        simp only [Cell.equalTo, if_false, Bool.false_eq_true] at h
        exact twoX hA (D := D) (.const p) (.pow i k h1 h2) h
      | mul c fs hf =>
        exact (oneX hA hf (TermX.const (D := D) p) h).mono (by omega)
    | var j hj =>
      cases hb with
      | const q =>
        simp only [Cell.equalTo, if_false, Bool.false_eq_true] at h
        exact twoX hA (E := E) (.var j hj) (.const q) h
      | var i h1 =>
        simp only at h
        split_ifs at h
        · have h : powE A n (.var j) (.const ((2 : ℕ) : ℚ)) = .ok r := by exact_mod_cast h
          exact (powE_var (D := D + E) (by omega) (by omega) h).term
        · exact twoX hA (.var j hj) (.var i h1) h
      | pow i k h1 h2 =>
        simp only at h
        split_ifs at h
        · exact sucX hA (by omega) h
        · exact twoX hA (.var j hj) (.pow i k h1 h2) h
      | mul c fs hf =>
        exact (oneX hA hf (.var j hj) h).mono (by omega)
    | pow j l hl1 hl2 =>
      cases hb with
      | const q =>
        simp only [Cell.equalTo, if_false, Bool.false_eq_true] at h
        exact twoX hA (E := E) (.pow j l hl1 hl2) (.const q) h
      | var i h1 =>
        simp only at h
        split_ifs at h
        · exact sucX hA (by omega) h
        · exact twoX hA (.pow j l hl1 hl2) (.var i h1) h
      | pow i k h1 h2 =>
        simp only at h
        split_ifs at h with c1 c2
        · obtain ⟨s, e1, h⟩ := bindR_ok h
          have := addE_consts hA e1
          subst this
          have e : (l : ℚ) + (k : ℚ) = ((l + k : ℕ) : ℚ) := by push_cast; rfl
          rw [e] at h
          exact (powE_var (D := D + E) (by omega) (by omega) h).term
        · simp [Cell.equalTo] at c2
        · exact twoX hA (.pow j l hl1 hl2) (.pow i k h1 h2) h
      | mul c fs hf =>
        simp only [Cell.equalTo, if_false, Bool.false_eq_true] at h
        exact (oneX hA hf (.pow j l hl1 hl2) h).mono (by omega)
    | mul d gs hg =>
      cases hb with
      | const q => exact oneX hA (E := E) hg (.const q) h
      | var i h1 => exact oneX hA hg (.var i h1) h
      | pow i k h1 h2 =>
        simp only [Cell.equalTo, if_false, Bool.false_eq_true] at h
        exact oneX hA hg (.pow i k h1 h2) h
      | mul c fs hf => exact oneX hA hg (.mul c fs hf) h

include hA in
theorem mulRest_mono {n : Nat} {a b r : Cell} {D E : Nat} (ha : TermX D a) (hb : TermX E b)
    (h : mulRest A n a b = .ok r) : TermX (D + E) r := by
  cases n with
  | zero => cases h
  | succ n =>
    unfold mulRest at h
    cases ha with
    | const p =>
      cases hb with
      | const q => cases h; exact .const _
      | var i h1 =>
        simp only at h
        split_ifs at h
        · exact mulFlat_mono hA (D := D) (.const p) (.var i h1) h
        · cases h; exact .const 0
        · exact mulFlat_mono hA (D := D) (.const p) (.var i h1) h
      | pow i k h1 h2 =>
        simp only at h
        split_ifs at h
        · exact mulFlat_mono hA (D := D) (.const p) (.pow i k h1 h2) h
        · cases h; exact .const 0
        · exact mulFlat_mono hA (D := D) (.const p) (.pow i k h1 h2) h
      | mul c fs hf =>
        simp only at h
        split_ifs at h
        · exact (getMul_mono hf h).mono (by omega)
        · cases h; exact .const 0
        · exact mulFlat_mono hA (D := D) (.const p) (.mul c fs hf) h
    | var j hj =>
      cases hb with
      | const q =>
        simp only at h
        split_ifs at h
        · exact mulFlat_mono hA (E := E) (.var j hj) (.const q) h
        · cases h; exact .const 0
        · exact mulFlat_mono hA (E := E) (.var j hj) (.const q) h
      | var i h1 => exact mulFlat_mono hA (.var j hj) (.var i h1) h
      | pow i k h1 h2 => exact mulFlat_mono hA (.var j hj) (.pow i k h1 h2) h
      | mul c fs hf => exact mulFlat_mono hA (.var j hj) (.mul c fs hf) h
    | pow j l hl1 hl2 =>
      cases hb with
      | const q =>
        simp only at h
        split_ifs at h
        · exact mulFlat_mono hA (E := E) (.pow j l hl1 hl2) (.const q) h
        · cases h; exact .const 0
        · exact mulFlat_mono hA (E := E) (.pow j l hl1 hl2) (.const q) h
      | var i h1 => exact mulFlat_mono hA (.pow j l hl1 hl2) (.var i h1) h
      | pow i k h1 h2 => exact mulFlat_mono hA (.pow j l hl1 hl2) (.pow i k h1 h2) h
      | mul c fs hf => exact mulFlat_mono hA (.pow j l hl1 hl2) (.mul c fs hf) h
    | mul d gs hg =>
      cases hb with
      | const q =>
        simp only at h
        split_ifs at h
        · exact (getMul_mono hg h).mono (by omega)
        · cases h; exact .const 0
        · exact mulFlat_mono hA (E := E) (.mul d gs hg) (.const q) h
      | var i h1 => exact mulFlat_mono hA (.mul d gs hg) (.var i h1) h
      | pow i k h1 h2 => exact mulFlat_mono hA (.mul d gs hg) (.pow i k h1 h2) h
      | mul c fs hf => exact mulFlat_mono hA (.mul d gs hg) (.mul c fs hf) h

include hA in
theorem mulE_mono {n : Nat} {a b r : Cell} {D E : Nat} (ha : TermX D a) (hb : TermX E b)
    (h : mulE A n a b = .ok r) : TermX (D + E) r := by
  cases n with
  | zero => cases h
  | succ n =>
    unfold mulE at h
    by_cases h1 : a.equalTo (.const 1) = true
    · rw [if_pos h1] at h
      cases h
      exact hb.mono (by omega)
    rw [if_neg h1] at h
    by_cases h2 : b.equalTo (.const 1) = true
    · rw [if_pos h2] at h
      cases h
      exact ha.mono (by omega)
    rw [if_neg h2] at h
    have : mulRest A n a b = .ok r := by
      cases ha <;> cases hb <;> exact h
    exact mulRest_mono hA ha hb this

theorem addTerm_mono {D : Nat} {q : ℚ} {e : Cell} (he : MonoX D e) : ∀ {ts : CTerms}, MonoT D ts →
    MonoT D (CTerms.addTerm A q e ts)
  | _, .nil => .cons he .nil
  | _, .cons (e := k) (q := p) (ts := ts) h1 h2 => by
    unfold CTerms.addTerm
    split_ifs
    · exact .cons he (.cons h1 h2)
    · exact .cons h1 (addTerm_mono he h2)
    · exact h2
    · exact .cons h1 h2

theorem addMap_mono {D : Nat} : ∀ {us ts ts' : CTerms}, MonoT D ts → MonoT D us →
    CTerms.addMap A ts us = .ok ts' → MonoT D ts'
  | _, ts, ts', ht, .nil, h => by
    cases h; exact ht
  | _, ts, ts', ht, .cons h1 h2, h => by
    unfold CTerms.addMap at h
    split_ifs at h
    exact addMap_mono (addTerm_mono h1 ht) h2 h

theorem negate_mono {D : Nat} : ∀ {ts : CTerms}, MonoT D ts → MonoT D ts.negate
  | _, .nil => .nil
  | _, .cons h1 h2 => .cons h1 (negate_mono h2)

theorem addExpr_mono {n D : Nat} {c c' : ℚ} {ts ts' : CTerms} {e : Cell} (ht : MonoT D ts)
    (he : PolyX D e) (h : addExpr A n (c, ts) e = .ok (c', ts')) : MonoT D ts' := by
  cases n with
  | zero => cases h
  | succ n =>
    unfold addExpr at h
    cases he with
    | add d us hu =>
      obtain ⟨x, e1, e2⟩ := bindR_ok h
      cases e2
      exact addMap_mono ht hu e1
    | term he =>
      cases he with
      | const q => cases h; exact ht
      | var i h1 => cases h; exact addTerm_mono (.var i h1) ht
      | pow i k h1 h2 => cases h; exact addTerm_mono (.pow i k h1 h2) ht
      | mul d fs hf =>
        simp only at h
        split_ifs at h with hd
        · cases h
          subst hd
          exact addTerm_mono (.mul fs hf) ht
        · obtain ⟨t, e1, h⟩ := bindR_ok h
          rcases getMul_one_mono hf e1 with rfl | hx
          · cases h
          · split_ifs at h
            cases h
            exact addTerm_mono hx ht

include hA in
theorem getAdd_mono {n D : Nat} {c : ℚ} {ts : CTerms} {r : Cell} (ht : MonoT D ts)
    (h : getAdd A n (c, ts) = .ok r) : PolyX D r := by
  cases n with
  | zero => cases h
  | succ n =>
    unfold getAdd at h
    cases ht with
    | nil => cases h; exact .term (.const c)
    | @cons e q us h1 h2 =>
      cases h2 with
      | nil =>
        simp only at h
        split_ifs at h
        · exact .term ((mulE_mono hA (D := 0) (.const q) h1.term h).mono (by omega))
        · cases h; exact .add c _ (.cons h1 .nil)
      | cons g1 g2 => cases h; exact .add c _ (.cons h1 (.cons g1 g2))

include hA in
theorem addE_mono {n D : Nat} {a b r : Cell} (ha : PolyX D a) (hb : PolyX D b)
    (h : addE A n a b = .ok r) : PolyX D r := by
  cases n with
  | zero => cases h
  | succ n =>
    unfold addE at h
    by_cases h1 : a.equalTo (.const 0) = true
    · rw [if_pos h1] at h
      cases h
      exact hb
    rw [if_neg h1] at h
    by_cases h2 : b.equalTo (.const 0) = true
    · rw [if_pos h2] at h
      cases h
      exact ha
    rw [if_neg h2] at h
    have one : ∀ {c ts e r}, MonoT D ts → PolyX D e → (do
        let f ← addExpr A n (c, ts) e
        getAdd A n f) = .ok r → PolyX D r := by
      intro c ts e r ht he h
      obtain ⟨⟨c1, f⟩, e1, h⟩ := bindR_ok h
      exact getAdd_mono hA (addExpr_mono ht he e1) h
    have two : (do
        let f ← addExpr A n (0, .nil) a
        let g ← addExpr A n f b
        getAdd A n g) = .ok r → PolyX D r := by
      intro h
      obtain ⟨⟨c1, f⟩, e1, h⟩ := bindR_ok h
      exact one (addExpr_mono .nil ha e1) hb h
    cases ha with
    | add c ts ht => exact one ht hb h
    | term ha' =>
      cases hb with
      | add c ts ht =>
        have ha := PolyX.term ha'
        cases ha' <;> exact one ht ha h
      | term hb' =>
        cases ha' <;> cases hb' <;> first | (cases h; exact .term (.const _)) | exact two h

include hA in
theorem negE_mono {n D : Nat} {a r : Cell} (ha : PolyX D a) (h : negE A n a = .ok r) : PolyX D r := by
  cases ha with
  | add c ts ht => exact getAdd_mono hA (negate_mono ht) h
  | term ha =>
    cases ha with
    | const q => cases h; exact .term (.const _)
    | var i h1 => exact .term ((mulE_mono hA (D := 0) (.const _) (.var i h1) h).mono (by omega))
    | pow i k h1 h2 => exact .term ((mulE_mono hA (D := 0) (.const _) (.pow i k h1 h2) h).mono (by omega))
    | mul c fs hf => exact .term (getMul_mono hf h)

include hA in
theorem minusE_mono {n D : Nat} {a b r : Cell} (ha : PolyX D a) (hb : PolyX D b)
    (h : minusE A n a b = .ok r) : PolyX D r := by
  obtain ⟨m, e1, h⟩ := bindR_ok h
  exact addE_mono hA ha (negE_mono hA hb e1) h

include hA in
theorem expMul_mono : ∀ n : Nat,
    (∀ {a b r : Cell} {D E : Nat}, PolyX D a → PolyX E b → expMul A n a b = .ok r → PolyX (D + E) r) ∧
    (∀ {r b x : Cell} {ts : CTerms} {D E : Nat}, PolyX (D + E) r → MonoT D ts → PolyX E b →
      expMulL A n r ts b = .ok x → PolyX (D + E) x) ∧
    (∀ {r a x : Cell} {ts : CTerms} {D E : Nat}, PolyX (D + E) r → PolyX D a → MonoT E ts →
      expMulR A n r a ts = .ok x → PolyX (D + E) x)
  | 0 => by
    refine ⟨fun _ _ h => ?_, fun _ _ _ h => ?_, fun _ _ _ h => ?_⟩ <;> cases h
  | n + 1 => by
    obtain ⟨ih1, ih2, ih3⟩ := expMul_mono n
    refine ⟨fun {a b r D E} ha hb h => ?_, fun {r b x ts D E} hr ht hb h => ?_,
      fun {r a x ts D E} hr ha ht h => ?_⟩
    · unfold expMul at h
      cases ha with
      | add c ts ht =>
        obtain ⟨s, e1, h⟩ := bindR_ok h
        have := ih1 (D := D) (.term (.const c)) hb e1
        exact ih2 this ht hb h
      | term ha' =>
        cases hb with
        | add c ts ht =>
          have ha := PolyX.term ha'
          have key : (do
              let r ← expMul A n a (.const c)
              expMulR A n r a ts) = .ok r := by cases ha' <;> exact h
          obtain ⟨s, e1, h⟩ := bindR_ok key
          have := ih1 (E := E) ha (.term (.const c)) e1
          exact ih3 this ha ht h
        | term hb' =>
          have key : mulE A n a b = .ok r := by cases ha' <;> cases hb' <;> exact h
          exact .term (mulE_mono hA ha' hb' key)
    · unfold expMulL at h
      cases ht with
      | nil => cases h; exact hr
      | @cons e q us h1 h2 =>
        obtain ⟨u, e1, h⟩ := bindR_ok h
        obtain ⟨w, e2, h⟩ := bindR_ok h
        obtain ⟨z, e3, h⟩ := bindR_ok h
        have k1 := (ih1 (D := 0) (.term (.const q)) (.term h1.term) e1).mono (by omega : _ ≤ D)
        exact ih2 (addE_mono hA hr (ih1 k1 hb e2) e3) h2 hb h
    · unfold expMulR at h
      cases ht with
      | nil => cases h; exact hr
      | @cons e q us h1 h2 =>
        obtain ⟨u, e1, h⟩ := bindR_ok h
        obtain ⟨w, e2, h⟩ := bindR_ok h
        obtain ⟨z, e3, h⟩ := bindR_ok h
        have k1 := (ih1 (E := 0) ha (.term (.const q)) e1).mono (by omega : _ ≤ D)
        exact ih3 (addE_mono hA hr (ih1 k1 (.term h1.term) e2) e3) ha h2 h

include hA in
theorem expPowN_mono {b : Cell} {D : Nat} (hb : PolyX D b) : ∀ {n k : Nat} {r : Cell},
    expPowN A n b k = .ok r → PolyX (k * D) r
  | 0, _, _, h => by cases h
  | n + 1, k, r, h => by
    unfold expPowN at h
    by_cases h0 : k = 0
    · rw [if_pos h0] at h
      cases h
    rw [if_neg h0] at h
    by_cases h1 : k = 1
    · rw [if_pos h1] at h
      cases h
      subst h1
      exact hb.mono (by omega)
    rw [if_neg h1] at h
    obtain ⟨x, e1, h⟩ := bindR_ok h
    have hx := expPowN_mono hb e1
    by_cases h2 : k % 2 = 1
    · rw [if_pos h2] at h
      obtain ⟨t, e2, h⟩ := bindR_ok h
      have := (expMul_mono hA n).1 ((expMul_mono hA n).1 hb hx e2) hx h
      refine this.mono (le_of_eq ?_)
      have h3 : k = 2 * (k / 2) + 1 := by omega
      conv_rhs => rw [h3]
      ring
    · rw [if_neg h2] at h
      have := (expMul_mono hA n).1 hx hx h
      refine this.mono (le_of_eq ?_)
      have h3 : k = 2 * (k / 2) := by omega
      conv_rhs => rw [h3]
      ring

theorem int32_nat {k : Nat} (h : k < 2 ^ 31) : isInt32 (k : ℚ) = true := by
  simp only [isInt32, decide_eq_true_eq]
  have h1 : (0 : ℚ) ≤ k := by positivity
  have h2 : (k : ℚ) ≤ ((2 ^ 31 - 1 : ℕ) : ℚ) := by exact_mod_cast (by omega)
  refine ⟨by linarith, ?_, by simp⟩
  norm_num at h2 ⊢
  exact h2

include hA in
theorem expPow_mono {n D k : Nat} {b r : Cell} (hb : PolyX D b) (hk : 0 < k) (hk2 : k < 2 ^ 31)
    (hp : k ≠ 1 → ¬ IsProduct b) (hM : D < 2 ^ 31)
    (h : expPow A n b (.const (k : ℚ)) = .ok r) : PolyX (k * D) r := by
  have hD : D ≤ k * D := Nat.le_mul_of_pos_left D hk
  have hk0 : (k : ℚ) ≠ 0 := by exact_mod_cast (by omega)
  cases hb with
  | add c ts ht =>
    unfold expPow at h
    simp only at h
    have hq : ¬ ((k : ℚ) ≤ 0 ∨ isInt32 (k : ℚ) = false) := by
      rw [int32_nat hk2]
      rintro (h | h)
      · exact absurd h (not_le.mpr (by exact_mod_cast hk))
      · cases h
    rw [if_neg hq] at h
    have := expPowN_mono hA (.add c ts ht) h
    simpa using this
  | term hb =>
    have h : powE A n b (.const (k : ℚ)) = .ok r := by cases hb <;> exact h
    cases n with
    | zero => cases h
    | succ n =>
      cases hb with
      | const q =>
        unfold powE at h
        simp only at h
        split_ifs at h
        split at h
        · cases h; exact .term (.const _)
        · cases h
      | var i h1 => exact .term (powE_var hk (by nlinarith) h).term
      | pow i m h1 h2 =>
        unfold powE at h
        simp only at h
        rw [if_neg hk0] at h
        by_cases h3 : (k : ℚ) = 1
        · rw [if_pos h3] at h
          cases h
          exact .term (.pow i m h1 (by omega))
        · rw [if_neg h3, if_pos ⟨int32_nat (by omega), int32_nat hk2⟩, hA.rnd] at h
          cases h
          have e : (m : ℚ) * (k : ℚ) = ((m * k : ℕ) : ℚ) := by push_cast; rfl
          rw [e]
          exact .term (.pow i (m * k) (by nlinarith) (by nlinarith))
      | mul c fs hf =>
        have h1 : k = 1 := by
          by_contra hne
          exact hp hne trivial
        subst h1
        unfold powE at h
        simp only at h
        rw [if_neg hk0, if_pos (by norm_num)] at h
        cases h
        exact .term (.mul c fs (hf.mono hD))

section
variable {n : Nat}
include hA
mutual
theorem expand_poly : ∀ (e r : Cell) (D : Nat), D < 2 ^ 31 → PolyE (expandC A n) e D →
    expandC A n e = .ok r → PolyX D r
  | .const q, r, D, _, _, h => by cases h; exact .term (.const q)
  | .var i, r, D, _, hp, h => by cases h; exact .term (.var i hp)
  | .add c ts, r, D, hD, hp, h => expand_polyT ts _ r D hD hp (.term (.const c)) h
  | .mul c fs, r, D, hD, hp, h =>
    (expand_polyG fs _ r 0 D (by omega) hp (.term (.const c)) h).mono (by omega)
  | .bin .pow a (.const q), r, D, hD, hp, h => by
    simp only [PolyE] at hp
    obtain ⟨k, d, rfl, h1, h2, h3, h4, h5⟩ := hp
    have hd : d < 2 ^ 31 := by nlinarith
    simp only [expandC] at h
    obtain ⟨x, e1, h⟩ := bindR_ok h
    obtain ⟨y, e2, h⟩ := bindR_ok h
    cases e2
    exact (expPow_mono hA (expand_poly a x d hd h4 e1) h1 h2 (fun hk => h5 hk x e1) hd h).mono h3
  | .bin .pow _ (.rconst ..), _, _, _, hp, _ => by simp [PolyE] at hp
  | .bin .pow _ (.var _), _, _, _, hp, _ => by simp [PolyE] at hp
  | .bin .pow _ (.add ..), _, _, _, hp, _ => by simp [PolyE] at hp
  | .bin .pow _ (.mul ..), _, _, _, hp, _ => by simp [PolyE] at hp
  | .bin .pow _ (.un ..), _, _, _, hp, _ => by simp [PolyE] at hp
  | .bin .pow _ (.bin ..), _, _, _, hp, _ => by simp [PolyE] at hp
  | .bin .pow _ (.ite ..), _, _, _, hp, _ => by simp [PolyE] at hp
  | .bin .pow _ .nan, _, _, _, hp, _ => by simp [PolyE] at hp
  | .bin .pow _ (.uf ..), _, _, _, hp, _ => by simp [PolyE] at hp
  | .bin .div .., _, _, _, hp, _ => by simp [PolyE] at hp
  | .bin .min .., _, _, _, hp, _ => by simp [PolyE] at hp
  | .bin .max .., _, _, _, hp, _ => by simp [PolyE] at hp
  | .bin .atan2 .., _, _, _, hp, _ => by simp [PolyE] at hp
  | .rconst .., _, _, _, hp, _ => by simp [PolyE] at hp
  | .un .., _, _, _, hp, _ => by simp [PolyE] at hp
  | .ite .., _, _, _, hp, _ => by simp [PolyE] at hp
  | .nan, _, _, _, hp, _ => by simp [PolyE] at hp
  | .uf .., _, _, _, hp, _ => by simp [PolyE] at hp
theorem expand_polyT : ∀ (ts : CTerms) (s r : Cell) (D : Nat), D < 2 ^ 31 →
    PolyET (expandC A n) ts D → PolyX D s → expandT A n s ts = .ok r → PolyX D r
  | .nil, s, r, D, _, _, hs, h => by cases h; exact hs
  | .cons e q ts, s, r, D, hD, hp, hs, h => by
    simp only [PolyET] at hp
    simp only [expandT] at h
    obtain ⟨x, e1, h⟩ := bindR_ok h
    obtain ⟨y, e2, h⟩ := bindR_ok h
    obtain ⟨z, e3, h⟩ := bindR_ok h
    have k1 := expand_poly e x D hD hp.1 e1
    have k2 := (expMul_mono hA n).1 (E := 0) k1 (.term (.const q)) e2
    exact expand_polyT ts z r D hD hp.2 (addE_mono hA hs k2 e3) h
theorem expand_polyG : ∀ (fs : CFactors) (s r : Cell) (E D : Nat), E + D < 2 ^ 31 →
    PolyEG (expandC A n) fs D → PolyX E s → expandG A n s fs = .ok r → PolyX (E + D) r
  | .nil, s, r, E, D, _, _, hs, h => by cases h; exact hs.mono (by omega)
  | .cons b e fs, s, r, E, D, hD, hp, hs, h => by
    simp only [PolyEG] at hp
    obtain ⟨k, d, m, rfl, h1, h2, h3, h4, h5, h6⟩ := hp
    have hd : d ≤ k * d := Nat.le_mul_of_pos_left d h1
    simp only [expandG] at h
    obtain ⟨x, e1, h⟩ := bindR_ok h
    obtain ⟨y, e2, h⟩ := bindR_ok h
    cases e2
    obtain ⟨p, e3, h⟩ := bindR_ok h
    obtain ⟨z, e4, h⟩ := bindR_ok h
    have k1 := expand_poly b x d (by omega) h4 e1
    have k2 := expPow_mono hA k1 h1 h2 (fun hk => h5 hk x e1) (by omega) e3
    have k3 := (expMul_mono hA n).1 hs k2 e4
    exact (expand_polyG fs z r (E + k * d) m (by omega) h6 k3 h).mono (by omega)
end
end

end Verif.Proof
