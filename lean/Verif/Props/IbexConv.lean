import Verif.Proof.IbexConv
import Verif.Props.ExprNorm

/-!
# C51: the constraint given to IBEX is the formula
-/

namespace Verif.Props
open Verif.Model Verif.Spec Verif.Proof

/-- **C51.**  Let a relation, possibly negated, be converted, and let both its sides have values at
the point.  If it is true there, so is the constraint, for some values of its interval constants;
and without decimal literals it is true there exactly if the constraint is.  Assumed of IBEX: its
functions mean what those of the expressions mean, square roots and powers of positive numbers are
right, literals are in their intervals.  `_partial`: no base of a power with an exponent that is
not an integer constant may be 0 or negative at the point, and the difference of the two sides is
only right as in `C48_sum_partial`; otherwise the claim is false (`C51_rounding`, `C51_real`). -/
theorem C51_constraint_partial {A : Arith} (hA : Arith.Exact A) {S : RC → Prop} (hS : Apart S)
    (hI : NoInt S) (ids : List Nat) (n : Nat) (f : FCell) (c : ICtr)
    (hf : Sides (fun e => RcC S e ∧ NF e) f) (h : convert A ids n f = .ok (some c))
    (v : CVal) (g : ℝ → ℝ → Set ℝ) (p : Nat → ℝ)
    (hvar : ∀ i k, placeOf i ids = some k → p k = v.var i)
    (hrc : ∀ l u b, S (l, u, b) → (l : ℝ) ≤ v.rc l u b ∧ v.rc l u b ≤ u)
    (hpow : ∀ x y, 0 < x → g x y = {x ^ y})
    (hsqrt : ∀ x, 0 ≤ x → v.un .sqrt x = some (Real.sqrt x))
    (hpos : BasesPos v g p c.node) (P : Prop) (ht : truth v f = some P) :
    (P → ∃ x ∈ inode v g p c.node, cmpHolds c.cmp x) ∧
    ((∀ t, ¬ S t) → (∃ x ∈ inode v g p c.node, cmpHolds c.cmp x) → P) := by
  have all := conv_all hA hS hI (ids := ids) (v := v) (g := g) (p := p)
    ⟨hvar, hrc, hpow, hsqrt⟩ n
  have rel : ∀ a b k, (RcC S a ∧ NF a) → (RcC S b ∧ NF b) →
      convRel A ids n k a b = .ok (some c) → ∀ x y, ev v a = some x → ev v b = some y →
      c.cmp = k ∧ Enc S v g p c.node (x - y) := by
    intro a b k ga gb h x y hx hy
    obtain ⟨d, e1, h⟩ := bindR_ok h
    obtain ⟨r, e2, h⟩ := bindR_ok h
    simp only [Run.ok.injEq, Option.some.injEq] at h
    subst h
    obtain ⟨gd, wd⟩ := minusE_ok hA hS hI ga gb e1
    exact ⟨rfl, all.cell d r e2 gd hpos _ (wd v x y hx hy)⟩
  have fin : ∀ (k : ICmp) (d : ℝ) (Q : Prop), c.cmp = k ∧ Enc S v g p c.node d →
      (Q ↔ cmpHolds k d) → (Q → ∃ x ∈ inode v g p c.node, cmpHolds c.cmp x) ∧
      ((∀ t, ¬ S t) → (∃ x ∈ inode v g p c.node, cmpHolds c.cmp x) → Q) := by
    rintro k d Q ⟨rfl, h1, h2⟩ hQ
    refine ⟨fun q => ⟨d, h1, hQ.mp q⟩, ?_⟩
    rintro hS ⟨x, hx, hk⟩
    rw [h2 hS x hx] at hk
    exact hQ.mpr hk
  have gen : ∀ (f : FCell) (pol : Bool) (P : Prop), Sides (fun e => RcC S e ∧ NF e) f →
      convF A ids n f pol = .ok (some c) → truth v f = some P →
      ((if pol then P else ¬ P) → ∃ x ∈ inode v g p c.node, cmpHolds c.cmp x) ∧
      ((∀ t, ¬ S t) → (∃ x ∈ inode v g p c.node, cmpHolds c.cmp x) → if pol then P else ¬ P) := by
    intro f
    induction f using fcell_ind with
    | rel op a b =>
      intro pol P hf h ht
      simp only [truth, Option.bind_eq_some_iff, Option.map_eq_some_iff] at ht
      obtain ⟨x, hx, y, hy, ht⟩ := ht
      have R := fun k h => rel a b k hf.1 hf.2 h x y hx hy
      cases op <;> cases pol <;>
        simp only [convF, if_true, if_false, Bool.false_eq_true, Run.ok.injEq, reduceCtorEq] at h <;>
        · refine fin _ _ _ (R _ h) ?_
          subst ht
          simp only [cmpHolds, if_true, if_false, Bool.false_eq_true, ne_eq, not_not, not_lt,
            not_le]
          first
            | exact sub_eq_zero.symm
            | (constructor <;> intro <;> linarith)
    | neg f ih =>
      intro pol P hf h ht
      simp only [truth, Option.map_eq_some_iff] at ht
      obtain ⟨Q, hQ, rfl⟩ := ht
      have := ih (!pol) Q hf h hQ
      cases pol
      · simpa using this
      · simpa using this
    | other f h1 h2 =>
      intro pol P hf h
      cases f <;> first | exact absurd rfl (h1 _ _ _) | exact absurd rfl (h2 _) | simp [convF] at h
  simpa using gen f true P hf h ht

/-- **C51.**  No constraint is made exactly for formulas that are true and for those that say that
two expressions differ. -/
theorem C51_none (A : Arith) (ids : List Nat) (n : Nat) (f : FCell) :
    convert A ids n f = .ok none ↔ NoConstraint f true := by
  have rel : ∀ a b k, convRel A ids n k a b ≠ .ok none := by
    intro a b k h
    obtain ⟨d, e1, h⟩ := bindR_ok h
    obtain ⟨r, e2, h⟩ := bindR_ok h
    simp at h
  have gen : ∀ (f : FCell) (pol : Bool), convF A ids n f pol = .ok none ↔ NoConstraint f pol := by
    intro f
    induction f using fcell_ind with
    | rel op a b => intro pol; cases op <;> cases pol <;> simp [convF, NoConstraint, rel]
    | neg f ih => intro pol; exact ih _
    | other f h1 h2 =>
      intro pol
      cases f <;> first
        | exact absurd rfl (h1 _ _ _)
        | exact absurd rfl (h2 _)
        | simp [convF, NoConstraint]
  exact gen f true

/-- **C51 for expressions.**  The value of an expression, where it is defined, is a value of the
converted one, and the only one if there are no decimal literals.  `_partial` as before. -/
theorem C51_expression_partial {A : Arith} (hA : Arith.Exact A) {S : RC → Prop} (hS : Apart S)
    (hI : NoInt S) (ids : List Nat) (n : Nat) (e : Cell) (r : INode)
    (he : RcC S e ∧ NF e) (h : convC A ids n e = .ok r) (v : CVal) (g : ℝ → ℝ → Set ℝ)
    (p : Nat → ℝ) (hvar : ∀ i k, placeOf i ids = some k → p k = v.var i)
    (hrc : ∀ l u b, S (l, u, b) → (l : ℝ) ≤ v.rc l u b ∧ v.rc l u b ≤ u)
    (hpow : ∀ x y, 0 < x → g x y = {x ^ y})
    (hsqrt : ∀ x, 0 ≤ x → v.un .sqrt x = some (Real.sqrt x))
    (hpos : BasesPos v g p r) (x : ℝ) (hx : ev v e = some x) :
    x ∈ inode v g p r ∧ ((∀ t, ¬ S t) → inode v g p r = {x}) := by
  obtain ⟨h1, h2⟩ := (conv_all hA hS hI (ids := ids) (v := v) (g := g) (p := p)
    ⟨hvar, hrc, hpow, hsqrt⟩ n).cell e r h he hpos x hx
  exact ⟨h1, fun h => Set.eq_singleton_iff_unique_mem.mpr ⟨h1, h2 h⟩⟩

/-! ## Cases -/

/-- Did the run end with this constraint? -/
def givesCtr (x : Run (Option ICtr)) (c : ICtr) : Bool :=
  match x with
  | .ok (some d) => d == c
  | _ => false

theorem of_givesCtr {x : Run (Option ICtr)} {c : ICtr} (h : givesCtr x c = true) :
    x = .ok (some c) := by
  unfold givesCtr at h
  split at h
  · rw [beq_iff_eq] at h; rw [h]
  · simp at h

/-- `¬ (−x·y² > sqrt(3·x) + y^z)` over a box with the variables `y`, `x`, `z`. -/
def someRel : FCell :=
  .neg (.rel .gt (.mul (-1) (.cons (.var 1) (.const 1) (.cons (.var 2) (.const 2) .nil)))
    (.add 0 (.cons (.un .sqrt (.mul 3 (.cons (.var 1) (.const 1) .nil))) 1
      (.cons (.bin .pow (.var 2) (.var 3)) 1 .nil))))

/-- It becomes `−1·x¹·y² − sqrt(3·x¹) − y^z ≤ 0`. -/
theorem someRel_conv : convert exactA [2, 1, 3] 30 someRel = .ok (some
    ⟨.sub (.sub (.mul (.mul (.const (-1) (-1)) (.powInt (.sym 1) 1)) (.powInt (.sym 0) 2))
      (.un .sqrt (.mul (.const 3 3) (.powInt (.sym 1) 1)))) (.powExp (.sym 0) (.sym 2)), .leq⟩) :=
  of_givesCtr (by decide +kernel)

/-- The hypotheses are met by it: its sides are in normal form, and at all points where `y` is
positive so is the base of the power. -/
example : Sides (fun e => RcC (fun _ => False) e ∧ NF e) someRel ∧
    ∀ v g (p : Nat → ℝ), 0 < p 0 → ∀ c, convert exactA [2, 1, 3] 30 someRel = .ok (some c) →
      BasesPos v g p c.node := by
  refine ⟨⟨⟨?_, ?_⟩, ?_, ?_⟩, ?_⟩
  · simp [RcC, RcG]
  · simp only [NF, NFG, PowInt, keysG, Sorted, List.pairwise_cons]
    refine ⟨by norm_num, by simp, ?_, by simp, by norm_num⟩
    simp only [List.mem_singleton, forall_eq, List.not_mem_nil, false_implies, implies_true,
      List.Pairwise.nil, and_true]
    decide +kernel
  · simp [RcC, RcT, RcG]
  · simp only [NF, NFT, NFG, PowInt, keysT, keysG, Sorted, List.pairwise_cons]
    simp only [List.mem_singleton, forall_eq, List.not_mem_nil, false_implies, implies_true,
      List.Pairwise.nil, and_true, List.length_cons, List.length_nil]
    refine ⟨?_, ?_, by simp, by simp⟩
    · simp [Cell.isConst]
    · decide +kernel
  · intro v g p hp c h
    rw [someRel_conv] at h
    simp only [Run.ok.injEq, Option.some.injEq] at h
    subst h
    simpa [BasesPos, inode] using hp

/-! ## Where it fails -/

theorem rounding_conv (A : Arith) {N M : ℚ} (hM : M ≠ 0) (hA : A.rnd (N + 1) = M) :
    convert A [1, 2] 30 (.rel .eq (.add N (.cons (.var 1) 1 .nil))
      (.add (-1) (.cons (.var 2) 1 .nil))) =
      .ok (some ⟨.sub (.add (.const M M) (.sym 0)) (.sym 1), .eq⟩) := by
  have l1 : (Cell.var 2).less (.var 1) = false := by decide +kernel
  have l2 : (Cell.var 1).less (.var 2) = true := by decide +kernel
  have e1 : minusE A 30 (.add N (.cons (.var 1) 1 .nil)) (.add (-1) (.cons (.var 2) 1 .nil)) =
      .ok (.add M (.cons (.var 1) 1 (.cons (.var 2) (-1) .nil))) := by
    simp [minusE, negE, CTerms.negate, getAdd, addE, addExpr, CTerms.addMap, CTerms.addTerm,
      Cell.isConst, l1, l2, hA, Cell.equalTo]
  simp only [convert, convF, convRel, e1, Run.bind_ok, if_true]
  have : convC A [1, 2] 30 (.add M (.cons (.var 1) 1 (.cons (.var 2) (-1) .nil))) =
      .ok (.sub (.add (.const M M) (.sym 0)) (.sym 1)) := by
    simp [convC, convT, placeOf, hM]
    norm_num
  rw [this]
  rfl

/-- **C51 is false** in double arithmetic: `x + 2^53 = y − 1` becomes `2^53 + x − y = 0`, because
`2^53 + 1` is rounded to `2^53`.  At `x = 0`, `y = 2^53 + 1` the formula is true and the constraint
is not. -/
theorem C51_rounding (A : Arith) (hA : A.rnd (2 ^ 53 + 1) = 2 ^ 53) (v : CVal)
    (g : ℝ → ℝ → Set ℝ) (hx : v.var 1 = 0) (hy : v.var 2 = 2 ^ 53 + 1) :
    let f : FCell := .rel .eq (.add (2 ^ 53) (.cons (.var 1) 1 .nil))
      (.add (-1) (.cons (.var 2) 1 .nil))
    let c : ICtr := ⟨.sub (.add (.const (2 ^ 53) (2 ^ 53)) (.sym 0)) (.sym 1), .eq⟩
    convert A [1, 2] 30 f = .ok (some c) ∧ truth v f = some True ∧
      ¬ ∃ x ∈ inode v g (fun k => v.var (k + 1)) c.node, cmpHolds c.cmp x := by
  refine ⟨rounding_conv A (by norm_num) hA, ?_, ?_⟩
  · simp only [truth, ev, evT, Option.bind_some, Option.map_some, hx, hy, Rat.cast_one,
      Rat.cast_neg, Rat.cast_pow, Rat.cast_ofNat, Option.some.injEq, eq_iff_iff, iff_true]
    norm_num
  · simp only [inode, cmpHolds]
    rintro ⟨x, ⟨a, ⟨b, hb, d, hd, rfl⟩, e, he, rfl⟩, h⟩
    simp only [Set.mem_Icc, Set.mem_singleton_iff, hx, hy, zero_add, Nat.reduceAdd] at hb hd he h
    rw [hd, he] at h
    have := hb.2
    push_cast at this
    linarith

/-- **C51 is false** with decimal literals: `x + 0.99999999999999999 = 1.00000000000000001` becomes
`x = 0`, because the literals have the same representative and are taken to be equal. -/
theorem C51_real (v : CVal) (g : ℝ → ℝ → Set ℝ)
    (h1 : v.rc (1 - 1 / 2 ^ 53) 1 false = 1 - 1 / 10 ^ 17)
    (h2 : v.rc 1 (1 + 1 / 2 ^ 52) true = 1 + 1 / 10 ^ 17) (hx : v.var 1 = 2 / 10 ^ 17) :
    let f : FCell := .rel .eq (.add 0 (.cons (.rconst (1 - 1 / 2 ^ 53) 1 false) 1
      (.cons (.var 1) 1 .nil))) (.rconst 1 (1 + 1 / 2 ^ 52) true)
    let c : ICtr := ⟨.sym 0, .eq⟩
    convert exactA [1] 30 f = .ok (some c) ∧ truth v f = some True ∧
      ¬ ∃ x ∈ inode v g (fun k => v.var (k + 1)) c.node, cmpHolds c.cmp x := by
  refine ⟨of_givesCtr (by decide +kernel), ?_, ?_⟩
  · simp only [truth, ev, evT, Option.bind_some, Option.map_some, h1, h2, hx, Rat.cast_one,
      Rat.cast_zero, Option.some.injEq, eq_iff_iff, iff_true]
    norm_num
  · simp [inode, cmpHolds, hx]

end Verif.Props
