import Verif.Proof.Objective

/-!
# C61, C62, C63: evaluation, the objective of the local optimiser, differentiability
-/

namespace Verif.Props
open Verif.Model Verif.Spec Verif.Proof

section
variable {D : Type} {C : EvalCfg D} {val : D → Option ℝ} {v : CVal} {env : Envt D}

/-! ## C61 -/

/-- **C61.**  If the evaluation of an expression that has a value returns, it returns that value.
`_partial`: no rounding; conditions in the expression have truth values and are about variables with
entries. -/
theorem C61_value_partial (hN : Num.Exact C.num val v) (hv : EvalFun v) (hT : Tells val v env)
    (hne : env ≠ []) (e : Cell) (d : D) (x : ℝ) (hD : Definite (Known env) v e)
    (h : evalC C env e = .ok d) (hx : ev v e = some x) : val d = some x :=
  agree_cell hN hv hT hne e d x hD h hx

/-- **C61.**  The same for formulas. -/
theorem C61_truth_partial (hN : Num.Exact C.num val v) (hv : EvalFun v) (hT : Tells val v env)
    (hne : env ≠ []) (f : FCell) (b t : Bool) (hk : ∀ x, f.occurs x = true → Known env x)
    (hD : DefiniteF (Known env) v f) (h : evalF C env f = .ok b) (ht : tv v f = some t) : b = t :=
  agree_fml hN hv hT hne f b t hk hD h ht

/-- **C61.**  If an expression has a value and its variables have entries, evaluation returns: it
neither throws nor reads a NaN.  `_partial`: as before; no uninterpreted function; no negative
number is raised to an integer that is no `int` (it throws then, `C61_large_power`). -/
theorem C61_returns_partial (hN : Num.Exact C.num val v) (hv : EvalFun v) (hT : Tells val v env)
    (hne : env ≠ []) (e : Cell) (x : ℝ) (hk : ∀ x, e.occurs x = true → Known env x)
    (hD : Definite (Known env) v e) (hF : Fair v e) (hx : ev v e = some x) :
    ∃ d, evalC C env e = .ok d ∧ val d = some x := by
  obtain ⟨d, hd⟩ := returns_cell hN hv hT hne e x hk hD hF hx
  exact ⟨d, hd, agree_cell hN hv hT hne e d x hD hd hx⟩

/-- **C61.**  The same for formulas. -/
theorem C61_decides_partial (hN : Num.Exact C.num val v) (hv : EvalFun v) (hT : Tells val v env)
    (hne : env ≠ []) (f : FCell) (t : Bool) (hk : ∀ x, f.occurs x = true → Known env x)
    (hD : DefiniteF (Known env) v f) (hF : FairF v f) (ht : tv v f = some t) :
    evalF C env f = .ok t := by
  obtain ⟨b, hb⟩ := returns_fml hN hv hT hne f t hk hD hF ht
  rw [hb, agree_fml hN hv hT hne f b t hk hD hb ht]

/-- **C61.**  Conversely, what is returned for an expression is its value, so that evaluation throws
where there is none.  `_partial`: for expressions without conditions, logarithms, tangents, `atan2`,
and whose exponents are natural numbers; it is false otherwise (`C61_unchecked`). -/
theorem C61_defined_partial (hN : Num.Exact C.num val v) (hv : EvalFun v) (hs : StdFun v)
    (hT : Tells val v env) (e : Cell) (d : D) (hS : Steady e) (h : evalC C env e = .ok d) :
    ∃ x, ev v e = some x ∧ val d = some x :=
  sound_cell hN hv hs hT e d hS h

/-! ## C62 -/

variable {A : Arith} {n : Nat}

/-- **C62.**  Whatever was asked of a cached expression before, exceptions included, the value and
the gradient are those of one whose cache is empty. -/
theorem C62_cache {e : Cell} {c : Cached D} (hc : History C A n e c) (box : List Nat)
    (xs : List D) (w : Bool) :
    (nloptObjective C A n box xs w c).1 =
      (nloptObjective C A n box xs w { expr := e, env := c.env, grad := [] }).1 := by
  obtain ⟨rfl, h⟩ := history_ok hc
  rw [(objective_cached box xs w c h).1,
    (objective_cached box xs w { expr := c.expr, env := c.env, grad := [] }
      (fun x r h => by cases h)).1]

theorem objectiveOf_ok {e : Cell} {c : Envt D} {box : List Nat} {xs gs : List D} {w : Bool} {d : D}
    (h : objectiveOf C A n box xs w e c = .ok (d, gs)) :
    box ≠ [] ∧ ∃ env', setPoint C.num box xs c = (.ok (), env') ∧ evalC C env' e = .ok d ∧
      (w = true → gradOf C A n e env' box = .ok gs) := by
  unfold objectiveOf at h
  by_cases hl : xs.length ≠ box.length ∨ xs.length = 0
  · rw [if_pos hl] at h
    cases h
  rw [if_neg hl] at h
  refine ⟨by rintro rfl; simp_all, ?_⟩
  generalize setPoint C.num box xs c = p at *
  obtain ⟨u, env'⟩ := p
  cases u with
  | throw => cases h
  | ub => cases h
  | oof => cases h
  | ok u =>
    refine ⟨env', rfl, ?_⟩
    simp only at h
    cases w with
    | false =>
      simp only [Bool.false_eq_true, if_false] at h
      cases he : evalC C env' e with
      | ok d' =>
        rw [he] at h
        cases h
        exact ⟨rfl, fun h => by cases h⟩
      | throw => rw [he] at h; cases h
      | ub => rw [he] at h; cases h
    | true =>
      simp only [if_true] at h
      cases hg : gradOf C A n e env' box with
      | ok g =>
        rw [hg] at h
        simp only at h
        cases he : evalC C env' e with
        | ok d' =>
          rw [he] at h
          cases h
          exact ⟨rfl, fun _ => rfl⟩
        | throw => rw [he] at h; cases h
        | ub => rw [he] at h; cases h
      | throw => rw [hg] at h; cases h
      | ub => rw [hg] at h; cases h
      | oof => rw [hg] at h; cases h

theorem point_facts {box : List Nat} {xs : List D} {env env' : Envt D} (hb : box ≠ [])
    (hw : Shows val v box xs)
    (ho : ∀ x d, x ∉ box → envFind x env = some d → val d = some (v.var x))
    (h : setPoint C.num box xs env = (.ok (), env')) :
    Tells val v env' ∧ env' ≠ [] ∧ (fun x => x ∈ box ∨ Known env x) = Known env' := by
  obtain ⟨h1, h2⟩ := setPoint_tells box xs env env' hw ho h
  refine ⟨h1, ?_, funext fun x => propext (h2 x)⟩
  rintro rfl
  cases box with
  | nil => exact hb rfl
  | cons x box => exact absurd ((h2 x).1 (.inl (by simp))) (by simp [Known, envFind])

/-- **C62.**  The value that the optimiser gets is the value of the expression at the point it asks
for; the variables that are not in the box have the values of the environment of the run.
`_partial`: no rounding. -/
theorem C62_value_partial (hN : Num.Exact C.num val v) (hv : EvalFun v) {e : Cell} {c : Cached D}
    (hc : History C A n e c) (box : List Nat) (xs gs : List D) (w : Bool) (d : D) (y : ℝ)
    (hw : Shows val v box xs)
    (ho : ∀ x d, x ∉ box → envFind x c.env = some d → val d = some (v.var x))
    (hD : Definite (fun x => x ∈ box ∨ Known c.env x) v e) (hy : ev v e = some y)
    (h : (nloptObjective C A n box xs w c).1 = .ok (d, gs)) : val d = some y := by
  obtain ⟨rfl, hk⟩ := history_ok hc
  rw [(objective_cached box xs w c hk).1] at h
  obtain ⟨hb, env', h1, h2, _⟩ := objectiveOf_ok h
  obtain ⟨hT, hne, hK⟩ := point_facts hb hw ho h1
  rw [hK] at hD
  exact agree_cell hN hv hT hne _ d y hD h2 hy

theorem setPoint_others {N : Num D} : ∀ (box : List Nat) (xs : List D) (env : Envt D) (x : Nat),
    x ∉ box → envFind x (setPoint N box xs env).2 = envFind x env
  | [], _, env, x, _ => by simp [setPoint]
  | _ :: _, [], env, x, _ => by simp [setPoint]
  | y :: box, d :: ds, env, x, hx => by
    simp only [List.mem_cons, not_or] at hx
    simp only [setPoint]
    split_ifs
    · rfl
    · rw [setPoint_others box ds _ x hx.2, envFind_set, if_neg (Ne.symm hx.1)]

theorem objective_others (box : List Nat) (xs : List D) (w : Bool) (c : Cached D)
    (hc : CacheOk A n c) (x : Nat) (hx : x ∉ box) :
    envFind x (nloptObjective C A n box xs w c).2.env = envFind x c.env := by
  have hp := setPoint_others (N := C.num) box xs c.env x hx
  unfold nloptObjective
  by_cases h : xs.length ≠ box.length ∨ xs.length = 0
  · rw [if_pos h]
  · rw [if_neg h]
    generalize setPoint C.num box xs c.env = p at *
    obtain ⟨u, env⟩ := p
    cases u with
    | ok u =>
      obtain ⟨_, _, k3, _⟩ := setGrad_cached (C := C) (n := n) (A := A) box { c with env := env } hc
      cases w with
      | true =>
        simp only [if_true]
        generalize setGrad C A n box { c with env := env } = q at *
        obtain ⟨gs, c2⟩ := q
        simp only at k3 hp ⊢
        rw [← k3] at hp
        cases gs with
        | ok gs =>
          simp only
          cases evalC C c2.env c2.expr <;> exact hp
        | throw => exact hp
        | ub => exact hp
        | oof => exact hp
      | false =>
        simp only [Bool.false_eq_true, if_false]
        cases evalC C env c.expr <;> exact hp
    | throw => exact hp
    | ub => exact hp
    | oof => exact hp

/-- **C62.**  In a run of the optimiser, the variables that are not in its box keep the values of the
environment that the run was started with, whatever is asked. -/
theorem C62_run {e : Cell} {c : Cached D} (hc : History C A n e c) (env : Envt D) (box : List Nat)
    (asks : List (List D × Bool)) (x : Nat) (hx : x ∉ box) :
    envFind x (asks.foldl (fun c a => c.after C A n (.ask box a.1 a.2))
      (c.after C A n (.start env))).env = envFind x env := by
  have gen : ∀ (asks : List (List D × Bool)) (c : Cached D), History C A n e c →
      envFind x (asks.foldl (fun c a => c.after C A n (.ask box a.1 a.2)) c).env =
        envFind x c.env := by
    intro asks
    induction asks with
    | nil => intros; rfl
    | cons a asks ih =>
      intro c hc
      rw [List.foldl_cons, ih _ (History.event hc _)]
      exact objective_others box a.1 a.2 c (history_ok hc).2 x hx
  exact gen asks _ (History.event hc _)

/-- **C62.**  The gradient that the optimiser gets are the partial derivatives of the expression at
the point, in the order of the variables of the box.  `_partial`: no rounding; as
`C52_derivative_partial`, all parts of the expression are differentiable at the point and bases of
products are not 0 (`C62_nan`, `C63_sqrt`). -/
theorem C62_gradient_partial (hA : Arith.Exact A) {S : RC → Prop} (hS : Apart S) (hI : NoInt S)
    (hN : Num.Exact C.num val v) (hv : EvalFun v) (hs : StdFun v) {e : Cell} {c : Cached D}
    (hc : History C A n e c) (he : RcC S e ∧ NF e) (box : List Nat) (xs gs : List D) (d : D) (y : ℝ)
    (hw : Shows val v box xs)
    (ho : ∀ x d, x ∉ box → envFind x c.env = some d → val d = some (v.var x))
    (hD : Definite (fun x => x ∈ box ∨ Known c.env x) v e) (hy : ev v e = some y)
    (hm : Smooth v e) (h : (nloptObjective C A n box xs true c).1 = .ok (d, gs)) :
    Gradient val v e box gs := by
  obtain ⟨rfl, hk⟩ := history_ok hc
  rw [(objective_cached box xs true c hk).1] at h
  obtain ⟨hb, env', h1, _, h3⟩ := objectiveOf_ok h
  obtain ⟨hT, hne, hK⟩ := point_facts hb hw ho h1
  rw [hK] at hD
  exact grad_ok hA hS hI hN hv hs hT hne he hD hy hm box gs (h3 rfl)

/-! ## C63 -/

/-- **C63.**  An expression is said to be differentiable if and only if there is no `abs`, `min`,
`max`, if-then-else or uninterpreted function in it. -/
theorem C63_kinks (e : Cell) (b : Bool) (h : isDiffC e = .ok b) :
    b = true ↔ ∀ s, Part s e → ¬ Kink s := by
  cases b
  · obtain ⟨s, hs, hk⟩ := (isDiff_cell e).2.2.1 h
    exact ⟨fun h => (by cases h), fun k => absurd hk (k s hs)⟩
  · exact ⟨fun _ => (isDiff_cell e).2.1 h, fun _ => rfl⟩

/-- **C63.**  Then nothing in it makes differentiation, by any variable, throw for being unsupported
(compare `C52_refused`). -/
theorem C63_supported (e : Cell) (h : isDiffC e = .ok true) (x : Nat) : Supported x e :=
  (isDiff_cell e).1 h x

/-- **C63.**  A formula is said to be differentiable if and only if it has no quantifier and the two
sides of all its relations are differentiable; then they can be differentiated. -/
theorem C63_formula (f : FCell) (b : Bool) (h : isDiffF f = .ok b) :
    (b = true ↔ ¬ Quantified f ∧
      ∀ op a c, RelIn op a c f → ∀ s, Part s a ∨ Part s c → ¬ Kink s) ∧
    (b = true → ∀ op a c, RelIn op a c f → ∀ x, Supported x a ∧ Supported x c) := by
  cases b
  · refine ⟨⟨fun h => (by cases h), fun ⟨k1, k2⟩ => ?_⟩, fun h => (by cases h)⟩
    rcases isDiff_not f h with k | ⟨op, a, c, hr, k⟩
    · exact absurd k k1
    · rcases k with k | k
      · obtain ⟨s, hs, hk⟩ := (isDiff_cell a).2.2.1 k
        exact absurd hk (k2 op a c hr s (.inl hs))
      · obtain ⟨s, hs, hk⟩ := (isDiff_cell c).2.2.1 k
        exact absurd hk (k2 op a c hr s (.inr hs))
  · refine ⟨⟨fun _ => ⟨isDiff_flat f h, fun op a c hr s hs => ?_⟩, fun _ => rfl⟩,
      fun _ op a c hr x => ?_⟩
    · obtain ⟨ha, hb⟩ := isDiff_fml f h hr
      exact hs.elim ((isDiff_cell a).2.1 ha s) ((isDiff_cell c).2.1 hb s)
    · obtain ⟨ha, hb⟩ := isDiff_fml f h hr
      exact ⟨(isDiff_cell a).1 ha x, (isDiff_cell c).1 hb x⟩

/-- The hypothesis of `C63_formula` is met with either answer. -/
example : isDiffF (.disj (.cons (.rel .geq (.un .sin (.var 1)) (.const 0)) .nil)) = .ok true ∧
    isDiffF (.disj (.cons (.rel .geq (.un .abs (.var 1)) (.const 0)) .nil)) = .ok false ∧
    isDiffF (.neg (.all [1] (.rel .geq (.var 1) (.const 0)))) = .ok false := by decide +kernel

/-- **C63.**  So the gradient-based optimiser, which is chosen for such expressions, gets partial
derivatives, without a condition on the conditions in the expression.  `_partial`: as
`C62_gradient_partial`. -/
theorem C63_gradient_partial (hA : Arith.Exact A) {S : RC → Prop} (hS : Apart S) (hI : NoInt S)
    (hN : Num.Exact C.num val v) (hv : EvalFun v) (hs : StdFun v) {e : Cell} {c : Cached D}
    (hd : isDiffC e = .ok true) (hc : History C A n e c) (he : RcC S e ∧ NF e) (box : List Nat)
    (xs gs : List D) (d : D) (y : ℝ) (hw : Shows val v box xs)
    (ho : ∀ x d, x ∉ box → envFind x c.env = some d → val d = some (v.var x))
    (hy : ev v e = some y) (hm : Smooth v e)
    (h : (nloptObjective C A n box xs true c).1 = .ok (d, gs)) : Gradient val v e box gs :=
  C62_gradient_partial hA hS hI hN hv hs hc he box xs gs d y hw ho ((isDiff_cell e).2.2.2 hd _ _)
    hy hm h

end

/-! ## Numbers without rounding -/

open Classical in
/-- Reals, and `none` for what is no number.  Unary functions and `atan2` as in the valuation. -/
noncomputable def realNum (v : CVal) : Num (Option ℝ) where
  ofQ q := some q
  add a b := a.bind fun x => b.map fun y => x + y
  mul a b := a.bind fun x => b.map fun y => x * y
  div a b := a.bind fun x => b.bind fun y => quo x y
  pow a b := a.bind fun x => b.bind fun y => pw x y
  atan2 a b := a.bind fun x => b.bind fun y => v.bin .atan2 x y
  un f a := a.bind fun x => v.un f x
  lt a b := decide (∃ x y, a = some x ∧ b = some y ∧ x < y)
  le a b := decide (∃ x y, a = some x ∧ b = some y ∧ x ≤ y)
  eq a b := decide (∃ x y, a = some x ∧ b = some y ∧ x = y)
  nan a := a.isNone
  finite a := a.isSome
  int a := decide (∃ x, a = some x ∧ ∃ k : ℤ, x = k ∧ -2 ^ 31 ≤ k ∧ k ≤ 2 ^ 31 - 1)

theorem realNum_exact (v : CVal) : Num.Exact (realNum v) id v := by
  constructor <;> intros <;> simp_all [realNum, quo, eq_comm]

/-- Evaluation with these numbers. -/
noncomputable def realCfg (v : CVal) : EvalCfg (Option ℝ) := ⟨realNum v, fun _ _ _ => .throw⟩

/-- The usual functions and the truth of conditions. -/
noncomputable def evalVal (p : Nat → ℝ) (c : FCell → Bool) : CVal :=
  { stdVal p with rc := fun l u f => rcValue l u f, cond := c }

theorem evalVal_std (p : Nat → ℝ) (c : FCell → Bool) : StdFun (evalVal p c) := by
  constructor <;> intros <;> simp_all [evalVal, stdVal]

theorem evalVal_fun (p : Nat → ℝ) (c : FCell → Bool) : EvalFun (evalVal p c) := by
  constructor <;> intros <;> simp_all [evalVal, stdVal] <;> grind

/-! ## Cases -/

/-- `if x ≤ 2 then x² + 3·y else 1/x` -/
def someIte : Cell :=
  .ite (.rel .leq (.var 1) (.const 2))
    (.add 0 (.cons (.bin .pow (.var 1) (.const 2)) 1 (.cons (.var 2) 3 .nil)))
    (.bin .div (.const 1) (.var 1))

/-- At `x = -1`, `y = 2` its value is 7, and that is what evaluation returns. -/
example : let v := evalVal (fun i => if i = 1 then -1 else 2) fun _ => true
    ∃ d, evalC (realCfg v) [(1, some (-1)), (2, some 2)] someIte = .ok d ∧ d = some 7 := by
  intro v
  have hx : ev v someIte = some 7 := by
    simp only [someIte, v, ev, evT, evalVal, stdVal, Option.bind_some, Option.map_some, if_true,
      Rat.cast_ofNat, pw_two]
    norm_num
  have h1 : Tells id v [(1, some (-1)), (2, some (2 : ℝ))] := by
    intro x d hd
    simp only [envFind] at hd
    split_ifs at hd with h h'
    · subst h; cases hd; simp [v, evalVal, stdVal]
    · subst h'; cases hd; simp [v, evalVal, stdVal]
  refine C61_returns_partial (realNum_exact v) (evalVal_fun _ _) h1 (by simp) someIte 7 ?_ ?_ ?_ hx
  · intro x hx
    simp only [someIte, Cell.occurs, FCell.occurs, CTerms.occurs, Bool.or_false, Bool.or_eq_true,
      beq_iff_eq, Bool.false_or] at hx
    simp only [Known, envFind]
    split_ifs with h h' <;> first | rfl | omega
  · refine ⟨fun x hx => ?_, ⟨trivial, trivial⟩, ?_, fun _ => ⟨⟨trivial, trivial⟩, trivial, trivial⟩,
      fun _ => ⟨trivial, trivial⟩⟩
    · simp only [Cell.occurs, FCell.occurs, Bool.or_false, beq_iff_eq] at hx
      subst hx
      rfl
    · simp only [tv, ev, v, evalVal, stdVal, RelOp.On]
      norm_num
  · refine ⟨⟨trivial, trivial⟩, fun _ => ⟨⟨trivial, trivial, fun _ x y _ hy => ?_⟩, trivial, trivial⟩,
      fun _ => ⟨trivial, trivial, fun h => by cases h⟩⟩
    simp only [ev, Option.some.injEq] at hy
    intro _ k hk
    rw [← hy] at hk
    have : k = 2 := by exact_mod_cast hk.symm
    subst this
    norm_num

/-- `sqrt(x² − 3·y)/x` is steady. -/
example : Steady (.bin .div (.un .sqrt (.add 0 (.cons (.bin .pow (.var 1) (.const (2 : ℕ))) 1
    (.cons (.var 2) (-3) .nil)))) (.var 1)) :=
  ⟨⟨by decide, by decide, ⟨trivial, 2, rfl⟩, trivial, trivial⟩, trivial⟩

/-- `2·exp(x)`. -/
def twiceExp : Cell := .mul 2 (.cons (.un .exp (.var 1)) (.const 1) .nil)

theorem twiceExp_diff : diffC exactA 30 1 twiceExp = .ok twiceExp := of_gives (by decide +kernel)

theorem twiceExp_eval (p : Nat → ℝ) (c : FCell → Bool) (t : ℝ) (env : Envt (Option ℝ))
    (h : envFind 1 env = some (some t)) :
    evalC (realCfg (evalVal p c)) env twiceExp = .ok (some (2 * Real.exp t)) := by
  simp [twiceExp, evalC, evalG, evalUn, realCfg, realNum, h, evalVal, stdVal, pw_one]

/-- The hypotheses of `C62_gradient_partial` and `C63_gradient_partial` are met: `2·exp(x)` at any
point, after the gradient was asked for at 5. -/
example (t : ℝ) : let v := evalVal (fun _ => t) fun _ => true
    ∃ c : Cached (Option ℝ), History (realCfg v) exactA 30 twiceExp c ∧ c.grad ≠ [] ∧
      isDiffC twiceExp = .ok true ∧
      (nloptObjective (realCfg v) exactA 30 [1] [some t] true c).1 =
        .ok (some (2 * Real.exp t), [some (2 * Real.exp t)]) ∧
      Gradient id v twiceExp [1] [some (2 * Real.exp t)] := by
  intro v
  let c0 : Cached (Option ℝ) := ⟨twiceExp, [(1, some 5)], [(1, twiceExp)]⟩
  have h0 : c0 = (Cached.fresh twiceExp).after (realCfg v) exactA 30 (.ask [1] [some 5] true) := by
    have h5 := twiceExp_eval (fun _ => t) (fun _ => true) 5 [(1, some 5)] rfl
    have hn : (realCfg v).num.nan (some 5) = false := rfl
    simp only [Cached.after, nloptObjective, Cached.fresh, setPoint, hn, envSet, setGrad,
      Cached.diff, gradFind, twiceExp_diff]
    simp [v, h5, c0]
  have hc : History (realCfg v) exactA 30 twiceExp c0 := h0 ▸ History.event History.new _
  have ht : (nloptObjective (realCfg v) exactA 30 [1] [some t] true c0).1 =
      .ok (some (2 * Real.exp t), [some (2 * Real.exp t)]) := by
    have h5 := twiceExp_eval (fun _ => t) (fun _ => true) t [(1, some t)] rfl
    have hn : (realCfg v).num.nan (some t) = false := rfl
    simp [nloptObjective, setPoint, hn, envSet, setGrad, Cached.diff, gradFind, c0, v, h5]
  refine ⟨c0, hc, by simp [c0], rfl, ht, ?_⟩
  have hy : ev v twiceExp = some (2 * (Real.exp t * 1)) := by
    simp [twiceExp, v, ev, evG, evalVal, stdVal, pw_one]
  refine C63_gradient_partial exactA_exact (S := fun _ => False) (fun _ _ h => h.elim)
    (fun _ h => h.elim) (realNum_exact v) (evalVal_fun _ _) (evalVal_std _ _) rfl hc ?_ [1] [some t]
    _ _ _ ⟨rfl, trivial⟩ ?_ hy ?_ ht
  · refine ⟨?_, ?_⟩
    · simp [twiceExp, RcC, RcG]
    · simp [twiceExp, NF, NFG, PowInt, keysG, Sorted]
  · intro x d hx hd
    simp only [c0, envFind] at hd
    split_ifs at hd with h
    subst h
    simp at hx
  · simp only [twiceExp, v, Smooth, SmoothG, ev, evalVal, stdVal, UnSmooth]
    refine ⟨.inr ⟨trivial, fun x _ => trivial⟩, trivial, fun x hx => ?_, trivial⟩
    simp only [Option.bind_some, Option.some.injEq] at hx
    subst hx
    have := Real.exp_pos t
    exact ⟨.inl this, this.ne'⟩

/-- `x·|y|` has a kink, `x·sin(y)` has none. -/
example : isDiffC (.mul 1 (.cons (.var 1) (.const 1) (.cons (.un .abs (.var 2)) (.const 1) .nil))) =
      .ok false ∧
    isDiffC (.mul 1 (.cons (.var 1) (.const 1) (.cons (.un .sin (.var 2)) (.const 1) .nil))) =
      .ok true := by
  decide +kernel

/-! ## Where it fails -/

/-- **C61 is false** for products: `x^½` is refused at `x = -1`, but `x^½·y` is not; what is
returned is no number. -/
theorem C61_unchecked :
    let v := evalVal (fun i => if i = 1 then -1 else 2) fun _ => true
    let env : Envt (Option ℝ) := [(1, some (-1)), (2, some 2)]
    evalC (realCfg v) env (.bin .pow (.var 1) (.const (1 / 2))) = .throw ∧
    evalC (realCfg v) env
      (.mul 1 (.cons (.var 1) (.const (1 / 2)) (.cons (.var 2) (.const 1) .nil))) = .ok none := by
  intro v env
  have hp : pw (-1) (1 / 2) = none := by
    cases h : pw (-1) (1 / 2) with
    | none => rfl
    | some a =>
      obtain ⟨k, hk, _⟩ := pw_neg (by norm_num) h
      have : (2 * k : ℤ) = 1 := by
        have : (2 * k : ℝ) = 1 := by rw [← hk]; norm_num
        exact_mod_cast this
      omega
  have hi : ¬ ∃ k : ℤ, (1 / 2 : ℝ) = k ∧ -2 ^ 31 ≤ k ∧ k ≤ 2 ^ 31 - 1 := by
    rintro ⟨k, hk, _⟩
    have : (2 * k : ℤ) = 1 := by
      have : (2 * k : ℝ) = 1 := by rw [← hk]; norm_num
      exact_mod_cast this
    omega
  have e1 : envFind 1 env = some (some (-1)) := rfl
  have e2 : envFind 2 env = some (some 2) := rfl
  have hc : (((1 / 2 : ℚ) : ℚ) : ℝ) = 1 / 2 := by norm_num
  constructor
  · simp only [evalC, e1, realCfg, realNum, Option.isNone_some, Bool.false_eq_true, if_false,
      Outcome.bind_ok, evalBin, hc]
    refine if_pos ?_
    simp only [Option.isSome_some, Bool.true_and, Bool.and_true, Bool.and_eq_true,
      decide_eq_true_eq, Bool.not_eq_true', decide_eq_false_iff_not, Option.some.injEq]
    refine ⟨⟨-1, 0, rfl, by norm_num, by norm_num⟩, ?_⟩
    rintro ⟨x, rfl, h⟩
    exact hi h
  · simp only [evalC, evalG, e1, e2, realCfg, realNum, Option.isNone_some, Bool.false_eq_true,
      if_false, Outcome.bind_ok, hc, Option.bind_some, hp, Option.map_none, Option.bind_none]

/-- **C61 is false** for negative numbers raised to integers above `2³¹ − 1`: `x^(2³¹)` is refused at
`x = -1`, where its value is 1. -/
theorem C61_large_power :
    let v := evalVal (fun _ => -1) fun _ => true
    evalC (realCfg v) [(1, some (-1))] (.bin .pow (.var 1) (.const (2 ^ 31))) = .throw ∧
    ev v (.bin .pow (.var 1) (.const (2 ^ 31))) = some 1 := by
  intro v
  have hc : (((2 ^ 31 : ℚ) : ℚ) : ℝ) = (2 ^ 31 : ℕ) := by norm_num
  constructor
  · have e1 : envFind 1 [(1, some (-1 : ℝ))] = some (some (-1)) := rfl
    simp only [evalC, e1, realCfg, realNum, Option.isNone_some, Bool.false_eq_true, if_false,
      Outcome.bind_ok, evalBin]
    refine if_pos ?_
    simp only [Option.isSome_some, Bool.true_and, Bool.and_true, Bool.and_eq_true,
      decide_eq_true_eq, Bool.not_eq_true', decide_eq_false_iff_not, Option.some.injEq]
    refine ⟨⟨-1, 0, rfl, by norm_num, by norm_num⟩, ?_⟩
    rintro ⟨x, rfl, k, hk, _, h⟩
    rw [hc] at hk
    have : k = 2 ^ 31 := by exact_mod_cast hk.symm
    rw [this] at h
    norm_num at h
  · simp only [ev, v, evalVal, stdVal, Option.bind_some, hc, pw_nat]
    norm_num

/-- **C62 is false** where a factor is 0: the gradient of `2·atan(x)` at 0 is no number, although its
derivative there is 2. -/
theorem C62_nan :
    let e : Cell := .mul 2 (.cons (.un .atan (.var 1)) (.const 1) .nil)
    let v := evalVal (fun _ => 0) fun _ => true
    (nloptObjective (realCfg v) exactA 30 [1] [some 0] true (Cached.fresh e)).1 =
      .ok (some 0, [none]) ∧ DerivAt (CVal.at v 1) e 0 2 ∧ isDiffC e = .ok true := by
  intro e v
  refine ⟨?_, ⟨fun t => 2 * Real.arctan t, ?_, ?_⟩, rfl⟩
  · have hp : pw 0 (-1) = none := by
      have := pw_int 0 (-1)
      simpa using this
    have hn : (realCfg v).num.nan (some 0) = false := rfl
    have hq : (quo 0 1) = some 0 := by simp [quo]
    simp only [nloptObjective, setPoint, hn, envSet, setGrad, Cached.fresh, Cached.diff, gradFind,
      e, twice_atan.1]
    simp [evalC, evalG, evalT, evalUn, evalBin, envFind, realCfg, realNum, v, evalVal, stdVal, pw_one,
      pw_two, hp, hq]
  · refine Filter.Eventually.of_forall fun t => ?_
    simp [e, v, CVal.at, ev, evG, evalVal, stdVal, pw_one]
  · have := (Real.hasDerivAt_arctan 0).const_mul 2
    simpa using this

/-- **C63.**  That an expression is said to be differentiable does not mean that it is: `sqrt(x)` is
said to be, its value at 0 is 0, and the optimiser that asks for its gradient there gets an
exception. -/
theorem C63_sqrt :
    let e : Cell := .un .sqrt (.var 1)
    let v := evalVal (fun _ => 0) fun _ => true
    isDiffC e = .ok true ∧ ev v e = some 0 ∧
    (nloptObjective (realCfg v) exactA 30 [1] [some 0] false (Cached.fresh e)).1 = .ok (some 0, []) ∧
    (nloptObjective (realCfg v) exactA 30 [1] [some 0] true (Cached.fresh e)).1 = .throw := by
  intro e v
  have hd : diffC exactA 30 1 e = .ok (.bin .div (.const 1)
      (.mul 2 (.cons (.un .sqrt (.var 1)) (.const 1) .nil))) := of_gives (by decide +kernel)
  have hn : (realCfg v).num.nan (some 0) = false := rfl
  refine ⟨rfl, by simp [e, v, ev, evalVal, stdVal], ?_, ?_⟩
  · simp [nloptObjective, setPoint, hn, envSet, Cached.fresh, e]
    simp [evalC, evalUn, envFind, realCfg, realNum, v, evalVal, stdVal]
  · simp only [nloptObjective, setPoint, hn, envSet, setGrad, Cached.fresh, Cached.diff, gradFind, hd]
    simp [evalC, evalG, evalUn, evalBin, envFind, realCfg, realNum, v, evalVal, stdVal, pw_one]

end Verif.Props
