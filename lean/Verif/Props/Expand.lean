import Verif.Proof.Expand
import Verif.Props.ExprNorm

/-!
# C64, C65: expansion and substitution keep the value
-/

namespace Verif.Props
open Verif.Model Verif.Spec Verif.Proof

section
variable {A : Arith} (hA : Arith.Exact A) {S : RC → Prop} (hS : Apart S) (hI : NoInt S) {n : Nat}
include hA hS hI

/-! ## C64 -/

/-- **C64.**  Expanding an expression gives a normal form that has the same value wherever the
expression has one.  `_partial`: arithmetic on constants is exact; real constants with the same
representative are the same and none is an integer; no power with an exponent that is not an integer
has a base that expands to an integer power (`C64_root`). -/
theorem C64_value_partial (e r : Cell) (he : RcC S e ∧ NF e) (hr : Rooted (expandC A n) e)
    (h : expandC A n e = .ok r) :
    RcC S r ∧ NF r ∧ ∀ v, StdOps v → ∀ x, ev v e = some x → ev v r = some x := by
  obtain ⟨g, w⟩ := expand_cell hA hS hI e r he hr h
  exact ⟨g.1, g.2, w⟩

/-- **C64.**  In particular if all exponents are integers. -/
theorem C64_whole_partial (e r : Cell) (he : RcC S e ∧ NF e) (hw : WholePow e)
    (h : expandC A n e = .ok r) :
    RcC S r ∧ NF r ∧ ∀ v, StdOps v → ∀ x, ev v e = some x → ev v r = some x :=
  C64_value_partial hA hS hI e r he (rooted_whole _ e hw) h

/-- **C64.**  The test of `symbolic/symbolic_expression.h:211-215` is right when it says that two
expressions are equal: `(p.Expand() - q.Expand()).EqualTo(0)` only if `p` and `q` have the same
value wherever both have one. -/
theorem C64_test_partial (p q p' q' r : Cell) (hp : RcC S p ∧ NF p) (hq : RcC S q ∧ NF q)
    (wp : WholePow p) (wq : WholePow q) (ep : expandC A n p = .ok p') (eq : expandC A n q = .ok q')
    (h : minusE A n p' q' = .ok r) (h0 : r.equalTo (.const 0) = true) (v : CVal) (hv : StdOps v)
    (x y : ℝ) (hx : ev v p = some x) (hy : ev v q = some y) : x = y := by
  obtain ⟨g1, w1⟩ := expand_cell hA hS hI p p' hp (rooted_whole _ p wp) ep
  obtain ⟨g2, w2⟩ := expand_cell hA hS hI q q' hq (rooted_whole _ q wq) eq
  obtain ⟨_, w⟩ := minusE_ok hA hS hI g1 g2 h
  have hz := w v x y (w1 v hv x hx) (w2 v hv y hy)
  rw [equalTo_iff] at h0
  subst h0
  simp only [ev, Option.some.injEq, Rat.cast_zero] at hz
  linarith

/-! ## C65 -/

/-- **C65.**  After a substitution an expression has the value that it had with the values of the
replacements.  `_partial`: as `C64_value_partial`, and there are no uninterpreted functions
(`C65_root`, `C65_uf`). -/
theorem C65_value_partial {s : CSubst} {g : FCell → Run FCell}
    (hs : ∀ i e, s.find i = some e → RcC S e ∧ NF e)
    (hg : ∀ c c', g c = .ok c' → RcF S c → RcF S c') (e r : Cell) (he : RcC S e ∧ NF e)
    (hu : NoUf e) (hr : Rooted (substC A n s g) e) (h : substC A n s g e = .ok r) :
    RcC S r ∧ NF r ∧ ∀ v w, StdOps v → After s g v w → ∀ x, ev w e = some x → ev v r = some x := by
  obtain ⟨k, w⟩ := subst_cell hA hS hI hs hg e r he hu hr h
  exact ⟨k.1, k.2, w⟩

/-- **C65.**  In particular if all exponents are integers. -/
theorem C65_whole_partial {s : CSubst} {g : FCell → Run FCell}
    (hs : ∀ i e, s.find i = some e → RcC S e ∧ NF e)
    (hg : ∀ c c', g c = .ok c' → RcF S c → RcF S c') (e r : Cell) (he : RcC S e ∧ NF e)
    (hu : NoUf e) (hw : WholePow e) (h : substC A n s g e = .ok r) :
    RcC S r ∧ NF r ∧ ∀ v w, StdOps v → After s g v w → ∀ x, ev w e = some x → ev v r = some x :=
  C65_value_partial hA hS hI hs hg e r he hu (rooted_whole _ e hw) h

/-- **C65.**  Partial evaluation: the value at any point that agrees with the environment is kept.
`_partial`: as `C65_value_partial`. -/
theorem C65_partial_evaluation_partial {g : FCell → Run FCell}
    (hg : ∀ c c', g c = .ok c' → RcF S c → RcF S c') (env : List (Nat × ℚ)) (e r : Cell)
    (he : RcC S e ∧ NF e) (hu : NoUf e) (hw : WholePow e) (h : evalPartial A n g env e = .ok r) :
    RcC S r ∧ NF r ∧ ∀ v, StdOps v → (∀ c c', g c = .ok c' → v.cond c = v.cond c') →
      v.cond .tt = true → v.cond .ff = false →
      (∀ i q, env.find? (fun p => p.1 = i) = some (i, q) → v.var i = q) →
      ∀ x, ev v e = some x → ev v r = some x := by
  unfold evalPartial at h
  split at h
  · cases h
    exact ⟨he.1, he.2, fun v _ _ _ _ _ x hx => hx⟩
  · have hs : ∀ i e, CSubst.find (env.map fun p => (p.1, Cell.const p.2)) i = some e →
        RcC S e ∧ NF e := by
      intro i e hi
      rw [find_map, Option.map_eq_some_iff] at hi
      obtain ⟨p, _, rfl⟩ := hi
      exact ⟨trivial, trivial⟩
    obtain ⟨k, k2, w⟩ := C65_whole_partial hA hS hI hs hg e r he hu hw h
    refine ⟨k, k2, fun v hv hc ht hf hd x hx => w v v hv ⟨fun i => ?_, rfl, rfl, rfl, hc, ht, hf⟩ x hx⟩
    rw [find_map]
    cases hi : env.find? (fun p => p.1 = i) with
    | none => rfl
    | some p =>
      have hp := List.find?_some hi
      simp only [decide_eq_true_eq] at hp
      obtain ⟨j, q⟩ := p
      simp only at hp
      subst hp
      simp only [Option.map_some, Option.getD_some, ev]
      rw [hd j q hi]

end

/-! ## Cases -/

/-- Values of variables, with the usual `abs`, `sqrt`, `min` and `max`. -/
noncomputable def pointVal (f : Nat → ℝ) : CVal :=
  ⟨f, fun _ _ _ => 0,
    fun g x => match g with
      | .abs => some |x|
      | .sqrt => if 0 ≤ x then some (Real.sqrt x) else none
      | _ => none,
    fun g x y => match g with
      | .min => some (min x y)
      | .max => some (max x y)
      | _ => none,
    fun c => match c with
      | .tt => true
      | _ => false,
    fun _ _ => none⟩

theorem pointVal_std (f : Nat → ℝ) : StdOps (pointVal f) :=
  ⟨fun _ => rfl, fun _ => rfl, fun _ _ => rfl, fun _ _ => rfl⟩

/-- `x₁ + x₂` -/
def sumXY : Cell := .add 0 (.cons (.var 1) 1 (.cons (.var 2) 1 .nil))

/-- The hypotheses of `C64_value_partial` and `C64_whole_partial` are met; there are three terms. -/
example : RcC (fun _ => False) sumXY ∧ NF sumXY ∧ WholePow (.bin .pow sumXY (.const 2)) ∧
    expandC exactA 30 (.bin .pow sumXY (.const 2)) = .ok
      (.add 0 (.cons (.mul 1 (.cons (.var 1) (.const 1) (.cons (.var 2) (.const 1) .nil))) 2
        (.cons (.bin .pow (.var 1) (.const 2)) 1 (.cons (.bin .pow (.var 2) (.const 2)) 1 .nil)))) := by
  refine ⟨?_, ?_, ⟨?_, trivial, fun _ => ⟨2, rfl, by decide +kernel⟩⟩, of_gives (by decide +kernel)⟩
  · simp [sumXY, RcC, RcT]
  · refine ⟨?_, ?_, by simp, by simp [keysT]⟩
    · simp [NFT, NF, Cell.isConst]
    · simp only [keysT, Sorted]
      decide +kernel
  · simp [sumXY, WholePow, WholePowT]

/-- The test recognises `(x + y)² = x² + 2xy + y²`. -/
example : (do
    let p ← build exactA 30 (.pow (.add (.var 1) (.var 2)) (.const 2))
    let q ← build exactA 30 (.add (.add (.pow (.var 1) (.const 2))
      (.mul (.const 2) (.mul (.var 1) (.var 2)))) (.pow (.var 2) (.const 2)))
    let p' ← expandC exactA 30 p
    let q' ← expandC exactA 30 q
    minusE exactA 30 p' q') = .ok (.const 0) := of_gives (by decide +kernel)

/-- The hypotheses of the theorems on C65 are met: `(x + y)²` with `x ↦ z - y` becomes `z²`. -/
example : let s : CSubst := [(1, .add 0 (.cons (.var 2) (-1) (.cons (.var 3) 1 .nil)))]
    substC exactA 30 s (fun c => .ok c) (.bin .pow sumXY (.const 2)) =
      .ok (.bin .pow (.var 3) (.const 2)) ∧
    ∀ f, After s (fun c => .ok c) (pointVal f)
      (pointVal fun i => if i = 1 then f 3 - f 2 else f i) := by
  refine ⟨of_gives (by decide +kernel), fun f => ⟨fun i => ?_, rfl, rfl, rfl, ?_, rfl, rfl⟩⟩
  · simp only [CSubst.find]
    by_cases h : 1 = i
    · subst h
      simp [ev, evT, pointVal]
      ring
    · simp [h, ev, pointVal, Ne.symm h]
  · intro c c' h
    cases h
    rfl

/-! ## Where it fails -/

/-- `(x₁ + 1)² − 2x₁ − 1` -/
def hiddenSquare : Cell :=
  .add (-1) (.cons (.var 1) (-2)
    (.cons (.bin .pow (.add 1 (.cons (.var 1) 1 .nil)) (.const 2)) 1 .nil))

/-- `((x₁ + 1)² − 2x₁ − 1)^½·x₂` -/
def hiddenRoot : Cell :=
  .mul 1 (.cons (.var 2) (.const 1) (.cons hiddenSquare (.const (1 / 2)) .nil))

/-- **C64 is false**: `((x + 1)² − 2x − 1)^½·y`, which is `|x|·y`, expands to `x·y`. -/
theorem C64_root :
    let t : Tree := .mul (.var 2) (.pow (.sub (.sub (.pow (.add (.var 1) (.const 1)) (.const 2))
      (.mul (.const 2) (.var 1))) (.const 1)) (.const (1 / 2)))
    let v := pointVal fun i => if i = 1 then -1 else 1
    build exactA 30 t = .ok hiddenRoot ∧ expandC exactA 30 hiddenRoot = .ok timesXY ∧
      ev v hiddenRoot = some 1 ∧ ev v timesXY = some (-1) := by
  refine ⟨of_gives (by decide +kernel), of_gives (by decide +kernel), ?_, ?_⟩
  · have h : ev (pointVal fun i => if i = 1 then -1 else 1) hiddenSquare = some 1 := by
      simp [hiddenSquare, ev, evT, pointVal, pw_two]
      norm_num
    simp only [hiddenRoot, ev, evG, h, Option.bind_some]
    norm_num [pointVal, pw_one, pw_one_half]
  · rw [ev_timesXY]
    norm_num [pointVal]

/-- Expanding once need not be enough: `(x + y)^½·((x + y)^(3/2) + 1)` becomes
`(x + y)² + (x + y)^½`.  So the assertions of `symbolic/symbolic_expression_cell.cc:135-136` fail for
products of it. -/
theorem C64_again :
    let e : Cell := .mul 1 (.cons sumXY (.const (1 / 2))
      (.cons (.add 1 (.cons (.bin .pow sumXY (.const (3 / 2))) 1 .nil)) (.const 1) .nil))
    let r : Cell := .add 0 (.cons (.bin .pow sumXY (.const (1 / 2))) 1
      (.cons (.bin .pow sumXY (.const 2)) 1 .nil))
    build exactA 30 (.mul (.pow (.add (.var 1) (.var 2)) (.const (1 / 2)))
        (.add (.pow (.add (.var 1) (.var 2)) (.const (3 / 2))) (.const 1))) = .ok e ∧
      expandC exactA 30 e = .ok r ∧ expandC exactA 30 r ≠ .ok r := by
  refine ⟨of_gives (by decide +kernel), of_gives (by decide +kernel), fun h => ?_⟩
  have k : gives (expandC exactA 30 (.add 0 (.cons (.bin .pow sumXY (.const (1 / 2))) 1
      (.cons (.bin .pow sumXY (.const 2)) 1 .nil)))) (.add 0
      (.cons (.bin .pow sumXY (.const (1 / 2))) 1
      (.cons (.bin .pow sumXY (.const 2)) 1 .nil))) = false := by decide +kernel
  rw [h] at k
  simp only [gives] at k
  rw [(equalTo_iff _ _).mpr rfl] at k
  cases k

/-- The test of `symbolic/symbolic_expression.h:211-215` may fail for equal polynomials: powers of
products are not expanded, `(x·y)²` and `x²·y²` are told apart. -/
theorem C64_incomplete :
    let p : Cell := .bin .pow timesXY (.const 2)
    let q : Cell := .mul 1 (.cons (.var 1) (.const 2) (.cons (.var 2) (.const 2) .nil))
    (∀ v, ev v p = ev v q) ∧ expandC exactA 30 p = .ok p ∧ expandC exactA 30 q = .ok q ∧
      minusE exactA 30 p q = .ok (.add 0 (.cons q (-1) (.cons p 1 .nil))) := by
  refine ⟨fun v => ?_, of_gives (by decide +kernel), of_gives (by decide +kernel),
    of_gives (by decide +kernel)⟩
  simp [ev, ev_timesXY, evG, pw_two]
  ring

/-- **C65 is false**: `√x·y`, written `x^½·y`, becomes `z·y` when `x` is replaced by `z²`. -/
theorem C65_root :
    let e : Cell := .mul 1 (.cons (.var 2) (.const 1) (.cons (.var 3) (.const (1 / 2)) .nil))
    let s : CSubst := [(3, .bin .pow (.var 1) (.const 2))]
    let v := pointVal fun i => if i = 1 then -1 else 1
    build exactA 30 (.mul (.var 2) (.pow (.var 3) (.const (1 / 2)))) =
        .ok e ∧
      substC exactA 30 s (fun c => .ok c) e = .ok timesXY ∧
      After s (fun c => .ok c) v (pointVal fun i => if i = 1 then -1 else 1) ∧
      ev (pointVal fun i => if i = 1 then -1 else 1) e = some 1 ∧ ev v timesXY = some (-1) := by
  refine ⟨of_gives (by decide +kernel), of_gives (by decide +kernel),
    ⟨fun i => ?_, rfl, rfl, rfl, ?_, rfl, rfl⟩, ?_, ?_⟩
  · simp only [CSubst.find]
    by_cases h : 3 = i
    · subst h
      simp [ev, pointVal, pw_two]
    · simp [h, ev, pointVal]
  · intro c c' h
    cases h
    rfl
  · simp [ev, evG, pointVal, pw_one]
    simpa using pw_one_half
  · rw [ev_timesXY]
    norm_num [pointVal]

/-- **C65 is false** for uninterpreted functions: a variable that is not replaced is lost. -/
theorem C65_uf (A : Arith) (n : Nat) (g : FCell → Run FCell) (f : List Nat) :
    substC A n [(1, .var 3)] g (.uf f [1, 2]) = .ok (.uf f [3]) := rfl

end Verif.Props
