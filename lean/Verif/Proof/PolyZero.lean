import Verif.Proof.Poly
import Mathlib.Algebra.MvPolynomial.Funext

/-!
# An expanded polynomial that is zero everywhere is the constant 0
-/

namespace Verif.Proof
open Verif.Model Verif.Spec

theorem pw_natPow (x : ℝ) (k : ℕ) : pw x ((k : ℚ) : ℝ) = some (x ^ k) := by
  have h := pw_int x (k : ℤ)
  rw [if_neg (fun h => by omega)] at h
  simpa using h

theorem less_vars {i j : Nat} : (Cell.var i).less (.var j) = true ↔ i < j := by
  simp [Cell.less, lessC, Cell.size, Cell.kind]

theorem less_self (a : Cell) : ¬ a.less a = true := by
  rw [less_iff]; exact lt_irrefl _

/-! ## Exponents -/

/-- The exponents of a product of powers of variables. -/
noncomputable def expsG : CFactors → (ℕ →₀ ℕ)
  | .cons (.var i) (.const q) fs => Finsupp.single i q.num.toNat + expsG fs
  | _ => 0

/-- The factors of a monomial. -/
def facs : Cell → CFactors
  | .var i => .cons (.var i) (.const 1) .nil
  | .bin _ a b => .cons a b .nil
  | .mul _ fs => fs
  | _ => .nil

theorem expsG_cons (i k : Nat) (fs : CFactors) :
    expsG (.cons (.var i) (.const (k : ℚ)) fs) = Finsupp.single i k + expsG fs := by
  simp [expsG]

/-- A variable below all the bases has no exponent. -/
theorem expsG_below {D : Nat} {fs : CFactors} (h : MonoG D fs) {i : Nat}
    (hi : ∀ b ∈ keysG fs, (Cell.var i).less b = true) : expsG fs i = 0 := by
  induction h with
  | nil => rfl
  | @cons D d j k fs _ _ _ ih =>
    rw [expsG_cons]
    have h1 : i < j := less_vars.mp (hi (.var j) (by simp [keysG]))
    have h2 := ih fun b hb => hi b (by simp [keysG, hb])
    simp [h2, Finsupp.single_apply, Nat.ne_of_gt h1]

theorem expsG_inj {D : Nat} {fs : CFactors} (h : MonoG D fs) : ∀ {E : Nat} {gs : CFactors},
    MonoG E gs → Sorted (keysG fs) → Sorted (keysG gs) → expsG fs = expsG gs → fs = gs := by
  induction h with
  | nil =>
    intro E gs hg _ _ he
    cases hg with
    | nil => rfl
    | @cons _ d j k gs hk _ _ =>
      have := DFunLike.congr_fun he j
      rw [expsG_cons] at this
      simp [expsG] at this
      omega
  | @cons D d i k fs hk _ hf ih =>
    intro E gs hg s1 s2 he
    cases hg with
    | nil =>
      have := DFunLike.congr_fun he i
      rw [expsG_cons] at this
      simp [expsG] at this
      omega
    | @cons _ d' j m gs hm _ hg =>
      simp only [keysG, Sorted, List.pairwise_cons] at s1 s2
      have a1 : expsG fs i = 0 := expsG_below hf s1.1
      have a2 : expsG gs j = 0 := expsG_below hg s2.1
      rw [expsG_cons, expsG_cons] at he
      have hij : i = j := by
        rcases lt_trichotomy i j with hlt | heq | hgt
        · have b : expsG gs i = 0 := expsG_below hg fun b hb =>
            less_trans (less_vars.mpr hlt) (s2.1 b hb)
          have := DFunLike.congr_fun he i
          simp [a1, b, Nat.ne_of_gt hlt] at this
          omega
        · exact heq
        · have b : expsG fs j = 0 := expsG_below hf fun b hb =>
            less_trans (less_vars.mpr hgt) (s1.1 b hb)
          have := DFunLike.congr_fun he j
          simp [a2, b, Nat.ne_of_gt hgt] at this
          omega
      subst hij
      have hkm : k = m := by
        have := DFunLike.congr_fun he i
        simpa [a1, a2] using this
      subst hkm
      rw [ih hg s1.2 s2.2 (add_left_cancel he)]

theorem facs_mono {D : Nat} {e : Cell} (h : MonoX D e) : MonoG D (facs e) := by
  cases h with
  | var i h =>
    have := MonoG.cons (i := i) (k := 1) (D := D) (d := 0) one_pos (by omega) .nil
    simpa [facs] using this
  | pow i k h1 h2 => exact .cons (by omega) (by omega : k + 0 ≤ D) .nil
  | mul fs h => exact h

theorem facs_sorted {D : Nat} {e : Cell} (h : MonoX D e) (hn : NF e) : Sorted (keysG (facs e)) := by
  cases h with
  | var i h => simp [facs, keysG, Sorted]
  | pow i k h1 h2 => simp [facs, keysG, Sorted]
  | mul fs h => exact hn.2.2.1

theorem facs_inj {D E : Nat} {a b : Cell} (ha : MonoX D a) (hb : MonoX E b) (na : NF a) (nb : NF b)
    (h : facs a = facs b) : a = b := by
  cases ha with
  | var i _ =>
    cases hb with
    | var j _ => simpa [facs] using h
    | pow j m h1 _ =>
      simp only [facs, CFactors.cons.injEq, Cell.const.injEq] at h
      have : (m : ℚ) = 1 := h.2.1.symm
      have : m = 1 := by exact_mod_cast this
      omega
    | mul gs _ =>
      simp only [facs] at h
      subst h
      have := nb.2.2.2.2 rfl
      simp [keysG] at this
  | pow i k h1 _ =>
    cases hb with
    | var j _ =>
      simp only [facs, CFactors.cons.injEq, Cell.const.injEq] at h
      have : k = 1 := by exact_mod_cast h.2.1
      omega
    | pow j m h1 _ =>
      simp only [facs, CFactors.cons.injEq] at h
      rw [h.1, h.2.1]
    | mul gs _ =>
      simp only [facs] at h
      subst h
      have := nb.2.2.2.2 rfl
      simp [keysG] at this
  | mul fs _ =>
    cases hb with
    | var j _ =>
      simp only [facs] at h
      subst h
      have := na.2.2.2.2 rfl
      simp [keysG] at this
    | pow j m h1 _ =>
      simp only [facs] at h
      subst h
      have := na.2.2.2.2 rfl
      simp [keysG] at this
    | mul gs _ =>
      simp only [facs] at h
      rw [h]

/-- The exponents of a monomial. -/
noncomputable def exps (e : Cell) : ℕ →₀ ℕ := expsG (facs e)

theorem exps_inj {D E : Nat} {a b : Cell} (ha : MonoX D a) (hb : MonoX E b) (na : NF a) (nb : NF b)
    (h : exps a = exps b) : a = b :=
  facs_inj ha hb na nb (expsG_inj (facs_mono ha) (facs_mono hb) (facs_sorted ha na)
    (facs_sorted hb nb) h)

theorem exps_ne {D : Nat} {a : Cell} (ha : MonoX D a) (na : NF a) : exps a ≠ 0 := by
  intro h
  have h1 := expsG_inj (facs_mono ha) (.nil (D := 0)) (facs_sorted ha na) (by simp [keysG, Sorted])
    (by rw [show expsG .nil = 0 from rfl]; exact h)
  cases ha with
  | var i h => simp [facs] at h1
  | pow i k _ _ => simp [facs] at h1
  | mul fs _ => exact na.2.2.2.1 h1

/-! ## Values -/

open MvPolynomial

theorem evG_mono {D : Nat} {fs : CFactors} (h : MonoG D fs) (v : CVal) :
    evG v fs = some (eval v.var (monomial (expsG fs) (1 : ℝ))) := by
  induction h with
  | nil => simp [evG, expsG]
  | @cons D d i k fs _ _ _ ih =>
    simp only [evG, ev, Option.bind_some, pw_natPow, ih, Option.map_some, expsG_cons]
    rw [show monomial (Finsupp.single i k + expsG fs) (1 : ℝ) =
      monomial (Finsupp.single i k) 1 * monomial (expsG fs) 1 by rw [monomial_mul, one_mul]]
    rw [map_mul]
    simp [eval_monomial]

theorem ev_mono {D : Nat} {e : Cell} (h : MonoX D e) (v : CVal) :
    ev v e = some (eval v.var (monomial (exps e) (1 : ℝ))) := by
  have k := evG_mono (facs_mono h) v
  rw [exps, ← k]
  cases h with
  | var i _ => simp [facs, ev, evG, pw_one]
  | pow i m _ _ => simp [facs, ev, evG, pw_natPow]
  | mul fs _ => simp [facs, ev]

/-- The polynomial of a sum of monomials. -/
noncomputable def polyT : CTerms → MvPolynomial ℕ ℝ
  | .nil => 0
  | .cons e q ts => monomial (exps e) (q : ℝ) + polyT ts

theorem evT_mono {D : Nat} {ts : CTerms} (h : MonoT D ts) (v : CVal) :
    evT v ts = some (eval v.var (polyT ts)) := by
  induction h with
  | nil => simp [evT, polyT]
  | @cons e q ts h1 _ ih =>
    simp only [evT, ev_mono h1, Option.bind_some, ih, Option.map_some, polyT, map_add]
    simp [eval_monomial]

theorem polyT_coeff {D : Nat} {ts : CTerms} (h : MonoT D ts) (hn : NFT ts) {E : Nat} {e : Cell}
    (he : MonoX E e) (ne : NF e) (hk : ∀ b ∈ keysT ts, e ≠ b) : coeff (exps e) (polyT ts) = 0 := by
  induction h with
  | nil => simp [polyT]
  | @cons a q ts h1 _ ih =>
    rw [polyT, coeff_add, ih hn.2.2.2 fun b hb => hk b (by simp [keysT, hb]), coeff_monomial,
      if_neg, add_zero]
    intro h
    exact hk a (by simp [keysT]) (exps_inj h1 he hn.1 ne h).symm

/-- An expanded polynomial in normal form that is zero everywhere is the constant 0. -/
theorem poly_zero {D : Nat} {r : Cell} (h : PolyX D r) (hn : NF r)
    (hz : ∀ f : ℕ → ℝ, ∃ v : CVal, v.var = f ∧ ev v r = some 0) : r = .const 0 := by
  cases h with
  | term h =>
    obtain ⟨v, h1, h2⟩ := hz fun _ => 1
    cases h with
    | const q =>
      simp only [ev, Option.some.injEq] at h2
      have : q = 0 := by exact_mod_cast h2
      rw [this]
    | var i _ => simp [ev, h1] at h2
    | pow i k _ _ =>
      simp only [ev, h1, Option.bind_some, pw_natPow, one_pow, Option.some.injEq] at h2
      exact absurd h2 one_ne_zero
    | mul c fs hf =>
      simp only [ev, evG_mono hf, h1, Option.map_some, Option.some.injEq, eval_monomial, one_mul,
        one_pow] at h2
      have h3 : c = 0 := by simpa [Finsupp.prod] using h2
      exact absurd h3 hn.1
  | add c ts ht =>
    exfalso
    have h0 : C (c : ℝ) + polyT ts = 0 := by
      apply MvPolynomial.funext
      intro f
      obtain ⟨v, h1, h2⟩ := hz f
      simp only [ev, evT_mono ht, h1, Option.map_some, Option.some.injEq] at h2
      simpa using h2
    obtain ⟨n1, s1, n2, _⟩ := hn
    cases ht with
    | nil => exact n2 rfl
    | @cons e q ts he ht =>
      simp only [keysT, Sorted, List.pairwise_cons] at s1
      have k := congrArg (coeff (exps e)) h0
      rw [polyT, coeff_add, coeff_add, coeff_monomial, if_pos rfl, coeff_C,
        if_neg (exps_ne he n1.1).symm, polyT_coeff ht n1.2.2.2 he n1.1 (fun b hb hb' => by
          subst hb'; exact less_self _ (s1.1 _ hb))] at k
      simp only [zero_add, add_zero, coeff_zero] at k
      exact n1.2.2.1 (by exact_mod_cast k)

/-! ## Polynomial expressions -/

/-- Exponents are integers, there are no real constants and there is always a value. -/
def Plain (S : RC → Prop) (e : Cell) : Prop := WholePow e ∧ RcC S e ∧ ∀ v, ∃ x, ev v e = some x

mutual
theorem polyE_plain {f : Cell → Run Cell} {S : RC → Prop} :
    ∀ (e : Cell) (D : Nat), PolyE f e D → Plain S e
  | .const q, _, _ => ⟨trivial, trivial, fun _ => ⟨_, rfl⟩⟩
  | .var _, _, _ => ⟨trivial, trivial, fun _ => ⟨_, rfl⟩⟩
  | .add c ts, D, h => by
    obtain ⟨h1, h2, h3⟩ := polyET_plain (S := S) ts D h
    refine ⟨h1, h2, fun v => ?_⟩
    obtain ⟨x, hx⟩ := h3 v
    exact ⟨c + x, by simp [ev, hx]⟩
  | .mul c fs, D, h => by
    obtain ⟨h1, h2, h3⟩ := polyEG_plain (S := S) fs D h
    refine ⟨h1, h2, fun v => ?_⟩
    obtain ⟨x, hx⟩ := h3 v
    exact ⟨c * x, by simp [ev, hx]⟩
  | .bin .pow a (.const q), D, h => by
    simp only [PolyE] at h
    obtain ⟨k, d, rfl, _, h2, _, h4, _⟩ := h
    obtain ⟨k1, k2, k3⟩ := polyE_plain (S := S) a d h4
    refine ⟨⟨k1, trivial, fun _ => ⟨_, rfl, int32_nat h2⟩⟩, ⟨k2, trivial⟩, fun v => ?_⟩
    obtain ⟨x, hx⟩ := k3 v
    exact ⟨x ^ k, by simp only [ev, hx, Option.bind_some, pw_natPow]⟩
  | .bin .pow _ (.rconst ..), _, hp => by simp [PolyE] at hp
  | .bin .pow _ (.var _), _, hp => by simp [PolyE] at hp
  | .bin .pow _ (.add ..), _, hp => by simp [PolyE] at hp
  | .bin .pow _ (.mul ..), _, hp => by simp [PolyE] at hp
  | .bin .pow _ (.un ..), _, hp => by simp [PolyE] at hp
  | .bin .pow _ (.bin ..), _, hp => by simp [PolyE] at hp
  | .bin .pow _ (.ite ..), _, hp => by simp [PolyE] at hp
  | .bin .pow _ .nan, _, hp => by simp [PolyE] at hp
  | .bin .pow _ (.uf ..), _, hp => by simp [PolyE] at hp
  | .bin .div .., _, hp => by simp [PolyE] at hp
  | .bin .min .., _, hp => by simp [PolyE] at hp
  | .bin .max .., _, hp => by simp [PolyE] at hp
  | .bin .atan2 .., _, hp => by simp [PolyE] at hp
  | .rconst .., _, hp => by simp [PolyE] at hp
  | .un .., _, hp => by simp [PolyE] at hp
  | .ite .., _, hp => by simp [PolyE] at hp
  | .nan, _, hp => by simp [PolyE] at hp
  | .uf .., _, hp => by simp [PolyE] at hp
theorem polyET_plain {f : Cell → Run Cell} {S : RC → Prop} : ∀ (ts : CTerms) (D : Nat),
    PolyET f ts D → WholePowT ts ∧ RcT S ts ∧ ∀ v, ∃ x, evT v ts = some x
  | .nil, _, _ => ⟨trivial, trivial, fun _ => ⟨_, rfl⟩⟩
  | .cons e q ts, D, h => by
    obtain ⟨a1, a2, a3⟩ := polyE_plain (S := S) e D h.1
    obtain ⟨b1, b2, b3⟩ := polyET_plain (S := S) ts D h.2
    refine ⟨⟨a1, b1⟩, ⟨a2, b2⟩, fun v => ?_⟩
    obtain ⟨x, hx⟩ := a3 v
    obtain ⟨y, hy⟩ := b3 v
    exact ⟨q * x + y, by simp [evT, hx, hy]⟩
theorem polyEG_plain {f : Cell → Run Cell} {S : RC → Prop} : ∀ (fs : CFactors) (D : Nat),
    PolyEG f fs D → WholePowG fs ∧ RcG S fs ∧ ∀ v, ∃ x, evG v fs = some x
  | .nil, _, _ => ⟨trivial, trivial, fun _ => ⟨_, rfl⟩⟩
  | .cons b e fs, D, h => by
    simp only [PolyEG] at h
    obtain ⟨k, d, r, rfl, _, h2, _, h4, _, h6⟩ := h
    obtain ⟨a1, a2, a3⟩ := polyE_plain (S := S) b d h4
    obtain ⟨b1, b2, b3⟩ := polyEG_plain (S := S) fs r h6
    refine ⟨⟨a1, trivial, ⟨_, rfl, int32_nat h2⟩, b1⟩, ⟨a2, trivial, b2⟩, fun v => ?_⟩
    obtain ⟨x, hx⟩ := a3 v
    obtain ⟨y, hy⟩ := b3 v
    exact ⟨x ^ k * y, by
      simp only [evG, ev, hx, hy, Option.bind_some, pw_natPow, Option.map_some]⟩
end

end Verif.Proof
