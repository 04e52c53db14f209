import Verif.Proof.Linear
import Verif.Props.Cells

/-!
# C47, C48: simplification keeps values
-/

namespace Verif.Props
open Verif.Model Verif.Spec Verif.Proof

/-- **C48.**  Sums, differences and opposites of expressions in normal form are in normal form (in
particular no coefficient is zero), and their value is the sum, difference or opposite of the
values.  `_partial`: for exact arithmetic on constants, real constants with different
representatives that are no integers, and operands that are different objects; without these it is
false (`C48_rounding`, `C48_real`, `C48_alias`). -/
theorem C48_sum_partial {A : Arith} (hA : Arith.Exact A) {S : RC → Prop} (hS : Apart S)
    (hI : NoInt S) (n : Nat) (a b r : Cell) (ha : RcC S a) (hb : RcC S b) (na : NF a) (nb : NF b) :
    (addE A n a b = .ok r → RcC S r ∧ NF r ∧
      ∀ v x y, ev v a = some x → ev v b = some y → ev v r = some (x + y)) ∧
    (minusE A n a b = .ok r → RcC S r ∧ NF r ∧
      ∀ v x y, ev v a = some x → ev v b = some y → ev v r = some (x - y)) ∧
    (negE A n a = .ok r → RcC S r ∧ NF r ∧ ∀ v x, ev v a = some x → ev v r = some (-x)) := by
  have ih := norm_all hA hS hI n
  refine ⟨fun h => ?_, fun h => ?_, fun h => ?_⟩
  · obtain ⟨g, w⟩ := ih.add a b r ⟨ha, na⟩ ⟨hb, nb⟩ h
    exact ⟨g.1, g.2, w⟩
  · obtain ⟨g, w⟩ := minusE_ok hA hS hI ⟨ha, na⟩ ⟨hb, nb⟩ h
    exact ⟨g.1, g.2, w⟩
  · obtain ⟨g, w⟩ := negE_ok hA hS hI ⟨ha, na⟩ h
    exact ⟨g.1, g.2, w⟩

/-- **C47.**  Products, quotients and powers of expressions in normal form: the value is the
product, quotient or power of the values, and products and quotients are in normal form; powers
are, unless a power with an integer exponent is raised to anything but an integer.  `_partial`:
for operands in this normal form, and as in `C48_sum_partial`; false in general (`C47_root`,
`C47_square_root`, `C47_real`, `C47_alias`), and `pow` can be undefined behaviour (`C47_ub`). -/
theorem C47_product_partial {A : Arith} (hA : Arith.Exact A) {S : RC → Prop} (hS : Apart S)
    (hI : NoInt S) (n : Nat) (a b r : Cell) (ha : RcC S a) (hb : RcC S b) (na : NF a) (nb : NF b) :
    (mulE A n a b = .ok r → RcC S r ∧ NF r ∧
      ∀ v x y, ev v a = some x → ev v b = some y → ev v r = some (x * y)) ∧
    (divE A n a b = .ok r → RcC S r ∧ NF r ∧
      ∀ v x y z, ev v a = some x → ev v b = some y → quo x y = some z → ev v r = some z) ∧
    (powE A n a b = .ok r →
      ((¬ PowInt a ∨ ∃ q, b = .const q ∧ isInt32 q = true) → RcC S r ∧ NF r) ∧
      ∀ v x y z, ev v a = some x → ev v b = some y → pw x y = some z → ev v r = some z) := by
  have ih := norm_all hA hS hI n
  refine ⟨fun h => ?_, fun h => ?_, fun h => ⟨fun hp => ?_, fun v x y z hx hy hz => ?_⟩⟩
  · obtain ⟨g, w⟩ := ih.mul a b r ⟨ha, na⟩ ⟨hb, nb⟩ h
    exact ⟨g.1, g.2, w⟩
  · obtain ⟨g, w⟩ := ih.div a b r ⟨ha, na⟩ ⟨hb, nb⟩ h
    refine ⟨g.1, g.2, fun v x y z hx hy hz => ?_⟩
    rw [quo_some] at hz
    rw [w v x y hx hy hz.1, hz.2]
  · exact pow_good hA hI a b r ⟨ha, na⟩ ⟨hb, nb⟩ hp h
  · exact pow_ev hA hI a b r ha h v x y z hx hy hz

/-- **C47, C48 for everything a caller builds** with the operators from variables and constants:
if the value of what was written is defined, it is the value of the expression built.
`_partial`: as before; exponents are integers or the base is a variable or a constant. -/
theorem C47_built_partial {A : Arith} (hA : Arith.Exact A) {S : RC → Prop} (hS : Apart S)
    (hI : NoInt S) (n : Nat) (t : Tree) (ht : Tame S t) (r : Cell) (h : build A n t = .ok r) :
    RcC S r ∧ NF r ∧ ∀ v x, val v t = some x → ev v r = some x := by
  induction t generalizing r with
  | const q =>
    simp only [build, Run.ok.injEq] at h
    subst h
    exact ⟨trivial, trivial, fun v x hx => hx⟩
  | rconst l u f =>
    simp only [build, Run.ok.injEq] at h
    subst h
    exact ⟨ht, trivial, fun v x hx => hx⟩
  | var i =>
    simp only [build, Run.ok.injEq] at h
    subst h
    exact ⟨trivial, trivial, fun v x hx => hx⟩
  | add a b iha ihb =>
    obtain ⟨x, e1, h⟩ := bindR_ok h
    obtain ⟨y, e2, h⟩ := bindR_ok h
    obtain ⟨r1, n1, w1⟩ := iha ht.1 x e1
    obtain ⟨r2, n2, w2⟩ := ihb ht.2 y e2
    obtain ⟨g1, g2, w⟩ := (C48_sum_partial hA hS hI n x y r r1 r2 n1 n2).1 h
    refine ⟨g1, g2, fun v z hz => ?_⟩
    simp only [val, Option.bind_eq_some_iff, Option.map_eq_some_iff] at hz
    obtain ⟨p, hp, q, hq, rfl⟩ := hz
    exact w v p q (w1 v p hp) (w2 v q hq)
  | sub a b iha ihb =>
    obtain ⟨x, e1, h⟩ := bindR_ok h
    obtain ⟨y, e2, h⟩ := bindR_ok h
    obtain ⟨r1, n1, w1⟩ := iha ht.1 x e1
    obtain ⟨r2, n2, w2⟩ := ihb ht.2 y e2
    obtain ⟨g1, g2, w⟩ := (C48_sum_partial hA hS hI n x y r r1 r2 n1 n2).2.1 h
    refine ⟨g1, g2, fun v z hz => ?_⟩
    simp only [val, Option.bind_eq_some_iff, Option.map_eq_some_iff] at hz
    obtain ⟨p, hp, q, hq, rfl⟩ := hz
    exact w v p q (w1 v p hp) (w2 v q hq)
  | neg a iha =>
    obtain ⟨x, e1, h⟩ := bindR_ok h
    obtain ⟨r1, n1, w1⟩ := iha ht x e1
    obtain ⟨g1, g2, w⟩ := (C48_sum_partial hA hS hI n x x r r1 r1 n1 n1).2.2 h
    refine ⟨g1, g2, fun v z hz => ?_⟩
    simp only [val, Option.map_eq_some_iff] at hz
    obtain ⟨p, hp, rfl⟩ := hz
    exact w v p (w1 v p hp)
  | mul a b iha ihb =>
    obtain ⟨x, e1, h⟩ := bindR_ok h
    obtain ⟨y, e2, h⟩ := bindR_ok h
    obtain ⟨r1, n1, w1⟩ := iha ht.1 x e1
    obtain ⟨r2, n2, w2⟩ := ihb ht.2 y e2
    obtain ⟨g1, g2, w⟩ := (C47_product_partial hA hS hI n x y r r1 r2 n1 n2).1 h
    refine ⟨g1, g2, fun v z hz => ?_⟩
    simp only [val, Option.bind_eq_some_iff, Option.map_eq_some_iff] at hz
    obtain ⟨p, hp, q, hq, rfl⟩ := hz
    exact w v p q (w1 v p hp) (w2 v q hq)
  | div a b iha ihb =>
    obtain ⟨x, e1, h⟩ := bindR_ok h
    obtain ⟨y, e2, h⟩ := bindR_ok h
    obtain ⟨r1, n1, w1⟩ := iha ht.1 x e1
    obtain ⟨r2, n2, w2⟩ := ihb ht.2 y e2
    obtain ⟨g1, g2, w⟩ := (C47_product_partial hA hS hI n x y r r1 r2 n1 n2).2.1 h
    refine ⟨g1, g2, fun v z hz => ?_⟩
    simp only [val, Option.bind_eq_some_iff] at hz
    obtain ⟨p, hp, q, hq, hz⟩ := hz
    exact w v p q z (w1 v p hp) (w2 v q hq) hz
  | pow a b iha ihb =>
    obtain ⟨x, e1, h⟩ := bindR_ok h
    obtain ⟨y, e2, h⟩ := bindR_ok h
    obtain ⟨r1, n1, w1⟩ := iha ht.1 x e1
    obtain ⟨r2, n2, w2⟩ := ihb ht.2.1 y e2
    obtain ⟨g, w⟩ := (C47_product_partial hA hS hI n x y r r1 r2 n1 n2).2.2 h
    have side : ¬ PowInt x ∨ ∃ q, y = .const q ∧ isInt32 q = true := by
      rcases ht.2.2 with ⟨q, rfl, hq⟩ | ⟨i, rfl⟩ | ⟨q, rfl⟩ | ⟨l, u, f, rfl⟩
      · simp only [build, Run.ok.injEq] at e2
        exact Or.inr ⟨q, e2.symm, hq⟩
      all_goals
        simp only [build, Run.ok.injEq] at e1
        subst e1
        left
        rintro ⟨_, _, e, _⟩
        simp at e
    refine ⟨(g side).1, (g side).2, fun v z hz => ?_⟩
    simp only [val, Option.bind_eq_some_iff] at hz
    obtain ⟨p, hp, q, hq, hz⟩ := hz
    exact w v p q z (w1 v p hp) (w2 v q hq) hz

/-- **C48 for everything a caller builds** by adding, subtracting and scaling from variables and
constants: the calls return (with little depth), the value of the expression built is the value of
what was written, and it is in normal form, without zero coefficients.  `_partial`: arithmetic on
constants is exact (`C48_rounding`). -/
theorem C48_linear_partial {A : Arith} (hA : Arith.Exact A) (n : Nat) (t : Tree) (ht : Linear t) :
    ∃ r, build A (n + 9) t = .ok r ∧ NF r ∧ ∀ v, ∃ x, val v t = some x ∧ ev v r = some x := by
  have hdef : ∀ t, Linear t → ∀ v, ∃ x, val v t = some x := by
    intro t ht v
    induction t with
    | const q => exact ⟨_, rfl⟩
    | var i => exact ⟨_, rfl⟩
    | rconst l u f => exact ht.elim
    | add a b iha ihb =>
      obtain ⟨x, hx⟩ := iha ht.1
      obtain ⟨y, hy⟩ := ihb ht.2
      exact ⟨x + y, by simp [val, hx, hy]⟩
    | sub a b iha ihb =>
      obtain ⟨x, hx⟩ := iha ht.1
      obtain ⟨y, hy⟩ := ihb ht.2
      exact ⟨x - y, by simp [val, hx, hy]⟩
    | neg a iha =>
      obtain ⟨x, hx⟩ := iha ht
      exact ⟨-x, by simp [val, hx]⟩
    | mul a b iha ihb =>
      have h1 : ∃ x, val v a = some x := by
        rcases ht with ⟨⟨q, rfl⟩, -⟩ | ⟨h, -⟩
        · exact ⟨_, rfl⟩
        · exact iha h
      have h2 : ∃ x, val v b = some x := by
        rcases ht with ⟨-, h⟩ | ⟨-, q, rfl⟩
        · exact ihb h
        · exact ⟨_, rfl⟩
      obtain ⟨x, hx⟩ := h1
      obtain ⟨y, hy⟩ := h2
      exact ⟨x * y, by simp [val, hx, hy]⟩
    | div a b => exact ht.elim
    | pow a b => exact ht.elim
  have htame : ∀ t, Linear t → Tame (fun _ => False) t := by
    intro t ht
    induction t with
    | const q => trivial
    | var i => trivial
    | rconst l u f => exact ht.elim
    | add a b iha ihb => exact ⟨iha ht.1, ihb ht.2⟩
    | sub a b iha ihb => exact ⟨iha ht.1, ihb ht.2⟩
    | neg a iha => exact iha ht
    | mul a b iha ihb =>
      rcases ht with ⟨⟨q, rfl⟩, h⟩ | ⟨h, q, rfl⟩
      · exact ⟨trivial, ihb h⟩
      · exact ⟨iha h, trivial⟩
    | div a b => exact ht.elim
    | pow a b => exact ht.elim
  have hok : ∀ t, Linear t → ∃ r, build A (n + 9) t = .ok r ∧ Lin r := by
    intro t ht
    induction t with
    | const q => exact ⟨_, rfl, .inl ⟨q, rfl⟩⟩
    | var i => exact ⟨_, rfl, .inr (.inl trivial)⟩
    | rconst l u f => exact ht.elim
    | add a b iha ihb =>
      obtain ⟨x, e1, hx⟩ := iha ht.1
      obtain ⟨y, e2, hy⟩ := ihb ht.2
      simp only [build, e1, e2, Run.bind_ok]
      exact add_lin A n hx hy
    | sub a b iha ihb =>
      obtain ⟨x, e1, hx⟩ := iha ht.1
      obtain ⟨y, e2, hy⟩ := ihb ht.2
      simp only [build, e1, e2, Run.bind_ok]
      exact sub_lin A n hx hy
    | neg a iha =>
      obtain ⟨x, e1, hx⟩ := iha ht
      simp only [build, e1, Run.bind_ok]
      exact neg_lin A n hx
    | mul a b iha ihb =>
      rcases ht with ⟨⟨q, rfl⟩, h⟩ | ⟨h, q, rfl⟩
      · obtain ⟨y, e2, hy⟩ := ihb h
        simp only [build, e2, Run.bind_ok]
        exact scale_lin A (n + 2) q hy
      · obtain ⟨x, e1, hx⟩ := iha h
        simp only [build, e1, Run.bind_ok]
        exact scale_lin' A (n + 2) q hx
    | div a b => exact ht.elim
    | pow a b => exact ht.elim
  obtain ⟨r, e, -⟩ := hok t ht
  have h := C47_built_partial hA (S := fun _ => False) (fun _ _ h => h.elim) (fun _ h => h.elim)
    (n + 9) t (htame t ht) r e
  refine ⟨r, e, h.2.1, fun v => ?_⟩
  obtain ⟨x, hx⟩ := hdef t ht v
  exact ⟨x, hx, h.2.2 v x hx⟩

/-- `sqrt` and `abs`, with their usual meaning. -/
theorem C47_sqrt (v : CVal) (hs : ∀ x, v.un .sqrt x = if 0 ≤ x then some (Real.sqrt x) else none)
    (ha : ∀ x, v.un .abs x = some |x|) (a : Cell) (x : ℝ) (hx : ev v a = some x) :
    ev v (absE a) = some |x| ∧ (0 ≤ x → ev v (sqrtE a) = some (Real.sqrt x)) := by
  have habs : ∀ a x, ev v a = some x → ev v (absE a) = some |x| := by
    intro a x hx
    unfold absE
    split
    · simp only [ev, Option.some.injEq] at hx ⊢
      rw [← hx]; push_cast; rfl
    · simp [ev, hx, ha]
  refine ⟨habs a x hx, fun h0 => ?_⟩
  have hgen : ev v (.un .sqrt a) = some (Real.sqrt x) := by
    simp only [ev, hx, hs, Option.bind_some]
    rw [if_pos h0]
  unfold sqrtE
  split
  · split_ifs with h
    · subst h
      obtain ⟨y, p, hy, hp, hw⟩ := ev_pow.mp hx
      simp only [ev, Option.some.injEq, Rat.cast_ofNat] at hp
      rw [← hp, pw_two, Option.some.injEq] at hw
      rw [habs _ y hy, ← hw, Real.sqrt_mul_self_eq_abs]
    · exact hgen
  · exact hgen

/-! ## An exact arithmetic, and cases -/

/-- Exact arithmetic; powers of constants are computed for small natural exponents only. -/
def exactA : Arith where
  rnd q := q
  pow p q := if q.den = 1 ∧ 0 ≤ q.num ∧ q.num ≤ 64 then some (p ^ q.num.toNat) else none

theorem exactA_exact : Arith.Exact exactA := by
  refine ⟨fun _ => rfl, fun p q r h => ?_⟩
  simp only [exactA] at h
  split_ifs at h with hc
  obtain ⟨h1, h2, -⟩ := hc
  simp only [Option.some.injEq] at h
  have hq : q = (q.num : ℚ) := ((Rat.den_eq_one_iff q).mp h1).symm
  have hn : q.num = (q.num.toNat : ℤ) := (Int.toNat_of_nonneg h2).symm
  have hq' : (q : ℝ) = ((q.num : ℤ) : ℝ) := by
    conv_lhs => rw [hq]
    push_cast; rfl
  rw [hq', pw_int, if_neg (fun hh => absurd hh.2 (not_lt.mpr h2))]
  rw [← h]
  congr 1
  conv_lhs => rw [hn]
  rw [zpow_natCast]; push_cast; rfl

/-- Did the run end with this expression? -/
def gives (x : Run Cell) (r : Cell) : Bool :=
  match x with
  | .ok a => a.equalTo r
  | _ => false

theorem of_gives {x : Run Cell} {r : Cell} (h : gives x r = true) : x = .ok r := by
  unfold gives at h
  split at h
  · rw [equalTo_iff] at h; rw [h]
  · simp at h

/-- `(x + 2y)·z − 3/z·(x + 2y)² + x^y·x^2·x^(−y)` -/
def someTree : Tree :=
  let s : Tree := .add (.var 1) (.mul (.const 2) (.var 2))
  .add (.sub (.mul s (.var 3)) (.mul (.div (.const 3) (.var 3)) (.pow s (.const 2))))
    (.mul (.mul (.pow (.var 1) (.var 2)) (.pow (.var 1) (.const 2)))
      (.pow (.var 1) (.neg (.var 2))))

example : Tame (fun _ => False) someTree := by
  simp only [someTree, Tame, and_true, true_and]
  refine ⟨.inl ⟨2, rfl, by decide +kernel⟩, ⟨.inr (.inl ⟨1, rfl⟩), .inl ⟨2, rfl, by decide +kernel⟩⟩,
    .inr (.inl ⟨1, rfl⟩)⟩

/-- What it becomes; the last part is `x²`. -/
example : ∃ r, build exactA 30 someTree = .ok r := by
  let s : Cell := .add 0 (.cons (.var 1) 1 (.cons (.var 2) 2 .nil))
  refine ⟨_, of_gives (r := .add 0
    (.cons (.mul 1 (.cons (.var 3) (.const 1) (.cons s (.const 1) .nil))) 1
      (.cons (.bin .div (.mul 3 (.cons s (.const 2) .nil)) (.var 3)) (-1)
        (.cons (.bin .pow (.var 1) (.const 2)) 1 .nil)))) ?_⟩
  decide +kernel

/-- `2·(x + y) − 3·x + 5`: the sum is not distributed over. -/
example : build exactA 9 (.add (.sub (.mul (.const 2) (.add (.var 1) (.var 2)))
      (.mul (.var 1) (.const 3))) (.const 5)) =
    .ok (.add 5 (.cons (.var 1) (-3)
      (.cons (.add 0 (.cons (.var 1) 1 (.cons (.var 2) 1 .nil))) 2 .nil))) :=
  of_gives (by decide +kernel)

example : Apart (fun _ => False) ∧ NoInt (fun _ => False) :=
  ⟨fun _ _ h => h.elim, fun _ h => h.elim⟩

/-! ## Where it fails -/

/-- Values of variables and real constants; nothing else has a value. -/
def valuation (f : Nat → ℝ) (g : ℚ → ℚ → Bool → ℝ) : CVal :=
  ⟨f, g, fun _ _ => none, fun _ _ _ => none, fun _ => true, fun _ _ => none⟩

/-- The product of two variables, as it is stored. -/
def timesXY : Cell := .mul 1 (.cons (.var 1) (.const 1) (.cons (.var 2) (.const 1) .nil))

theorem ev_timesXY (v : CVal) : ev v timesXY = some (v.var 1 * v.var 2) := by
  simp [timesXY, ev, evG, pw_one]

theorem pw_one_half : pw 1 (1 / 2) = some 1 := by
  have := pw_pos (x := 1) (by norm_num) (1 / 2)
  rw [this, Real.one_rpow]

/-- **C47 is false**: `(x²)^½·y`, which is `|x|·y`, becomes `x·y`.  In SMT-LIB this is
`(* (^ (^ x 2) 0.5) y)`. -/
theorem C47_root :
    let t : Tree := .mul (.pow (.pow (.var 1) (.const 2)) (.const (1 / 2))) (.var 2)
    let v := valuation (fun i => if i = 1 then -1 else 1) fun _ _ _ => 0
    build exactA 30 t = .ok timesXY ∧ val v t = some 1 ∧ ev v timesXY = some (-1) := by
  refine ⟨of_gives (by decide +kernel), ?_, ?_⟩
  · simp only [val, valuation, Option.bind_some, Option.map_some, if_true, Rat.cast_ofNat, pw_two]
    norm_num [pw_one_half]
  · rw [ev_timesXY]; norm_num [valuation]

/-- So does `(x·x)^½·y`. -/
theorem C47_square_root :
    let t : Tree := .mul (.pow (.mul (.var 1) (.var 1)) (.const (1 / 2))) (.var 2)
    let v := valuation (fun i => if i = 1 then -1 else 1) fun _ _ _ => 0
    build exactA 30 t = .ok timesXY ∧ val v t = some 1 ∧ ev v timesXY = some (-1) := by
  refine ⟨of_gives (by decide +kernel), ?_, ?_⟩
  · simp only [val, valuation, Option.bind_some, Option.map_some, if_true]
    norm_num [pw_one_half]
  · rw [ev_timesXY]; norm_num [valuation]

/-- `pow(pow(x, y), 2)` is undefined behaviour: the exponent `y` is read as a constant. -/
theorem C47_ub (A : Arith) (n : Nat) (q : ℚ) (hq : isInt32 q = true) (h0 : q ≠ 0) (h1 : q ≠ 1) :
    build A (n + 1) (.pow (.pow (.var 1) (.var 2)) (.const q)) = .ub := by
  have e1 : powE A (n + 1) (.var 1) (.var 2) = .ok (.bin .pow (.var 1) (.var 2)) := by
    simp [powE]
  show (do
    let x ← (do let x ← Run.ok (Cell.var 1); let y ← Run.ok (Cell.var 2); powE A (n + 1) x y)
    let y ← Run.ok (Cell.const q)
    powE A (n + 1) x y) = .ub
  simp only [Run.bind_ok, e1]
  simp [powE, hq, h0, h1]

/-- **C48 is false** with real constants: the literals `0.99999999999999999` and
`1.00000000000000001` have the same representative, so their difference is 0. -/
theorem C48_real :
    let t : Tree := .sub (.rconst (1 - 1 / 2 ^ 53) 1 false) (.rconst 1 (1 + 1 / 2 ^ 52) true)
    build exactA 30 t = .ok (.const 0) ∧
      ∀ v x, val v t = some x → ev v (.const 0) = some x →
        v.rc (1 - 1 / 2 ^ 53) 1 false = v.rc 1 (1 + 1 / 2 ^ 52) true := by
  refine ⟨of_gives (by decide +kernel), fun v x h1 h2 => ?_⟩
  simp only [val, ev, Option.bind_some, Option.map_some, Option.some.injEq, Rat.cast_zero] at h1 h2
  linarith

/-- **C47 is false** with real constants: a literal just above 2 has the representative 2, and
`(x^R)²` becomes `x⁴`. -/
theorem C47_real :
    let t : Tree := .pow (.pow (.var 1) (.rconst 2 (2 + 1 / 2 ^ 51) true)) (.const 2)
    let v := valuation (fun _ => 2) fun _ _ _ => 2 + 1 / 2 ^ 60
    build exactA 30 t = .ok (.bin .pow (.var 1) (.const 4)) ∧
      ∃ x y, val v t = some x ∧ ev v (.bin .pow (.var 1) (.const 4)) = some y ∧ x ≠ y := by
  refine ⟨of_gives (by decide +kernel), ?_⟩
  have h2 : (0 : ℝ) < 2 := by norm_num
  refine ⟨2 ^ ((2 : ℝ) + 1 / 2 ^ 60) * 2 ^ ((2 : ℝ) + 1 / 2 ^ 60), 2 ^ ((4 : ℚ) : ℝ), by
    simp only [val, valuation, Option.bind_some, Rat.cast_ofNat, pw_two, pw_pos h2], by
    simp only [ev, valuation, Option.bind_some, pw_pos h2], ?_⟩
  rw [← Real.rpow_add h2]
  refine ne_of_gt (Real.rpow_lt_rpow_of_exponent_lt (by norm_num) ?_)
  push_cast
  norm_num

/-- **C48 is false** in double arithmetic: constants are added with rounding. -/
theorem C48_rounding (A : Arith) (hA : A.rnd (2 ^ 53 + 1) = 2 ^ 53) (n : Nat) :
    let t : Tree := .add (.const (2 ^ 53)) (.const 1)
    build A (n + 1) t = .ok (.const (2 ^ 53)) ∧ ∀ v, val v t = some (2 ^ 53 + 1) := by
  refine ⟨?_, fun v => ?_⟩
  · show (do
      let x ← Run.ok (Cell.const (2 ^ 53))
      let y ← Run.ok (Cell.const 1)
      addE A (n + 1) x y) = _
    simp only [Run.bind_ok]
    have e0 : (Cell.const (2 ^ 53)).equalTo (.const 0) = false := by decide +kernel
    simp [addE, hA, e0]
  · simp [val]

/-- `e += e` for `x + y`, and `e *= e` for `x·y`, leave `e` as it is if no other expression shares
its cell: the map of the left side is moved out before that of the right side, which is the same,
is read.  In Python, `e = x + y; e += e`. -/
theorem C48_alias :
    let s : Cell := .add 0 (.cons (.var 1) 1 (.cons (.var 2) 1 .nil))
    build exactA 30 (.add (.var 1) (.var 2)) = .ok s ∧
      addSelf exactA 30 true s = .ok s ∧
      addSelf exactA 30 false s = .ok (.add 0 (.cons (.var 1) 2 (.cons (.var 2) 2 .nil))) ∧
      build exactA 30 (.mul (.var 1) (.var 2)) = .ok timesXY ∧
      mulSelf exactA 30 true timesXY = .ok timesXY := by
  exact ⟨of_gives (by decide +kernel), of_gives (by decide +kernel), of_gives (by decide +kernel),
    of_gives (by decide +kernel), of_gives (by decide +kernel)⟩

end Verif.Props
