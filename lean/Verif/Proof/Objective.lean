import Verif.Proof.Evaluate
import Verif.Proof.Keep
import Verif.Props.Diff

/-!
# Lemmas on the objective of the local optimiser
-/

namespace Verif.Proof
open Verif.Model Verif.Spec Verif.Props

/-! ## Environments -/

theorem envFind_set {D : Type} (x y : Nat) (d : D) : ∀ env : Envt D,
    envFind y (envSet x d env) = if x = y then some d else envFind y env
  | [] => by simp [envSet, envFind]
  | (z, c) :: env => by
    simp only [envSet]
    split_ifs with h1 h2 h2
    · subst h1; subst h2; simp [envFind]
    · subst h1; simp [envFind, h2]
    · subst h2; simp [envFind, h1, envFind_set]
    · simp [envFind, envFind_set, h2]

theorem setPoint_tells {D : Type} {N : Num D} {val : D → Option ℝ} {v : CVal} :
    ∀ (box : List Nat) (xs : List D) (env env' : Envt D), Shows val v box xs →
      (∀ x d, x ∉ box → envFind x env = some d → val d = some (v.var x)) →
      setPoint N box xs env = (.ok (), env') →
      Tells val v env' ∧ ∀ x, (x ∈ box ∨ Known env x) ↔ Known env' x
  | [], [], env, env', _, h, he => by
    simp only [setPoint, Prod.mk.injEq, true_and] at he
    subst he
    exact ⟨fun x d hd => h x d (by simp) hd, fun x => by simp⟩
  | x :: box, d :: ds, env, env', hs, h, he => by
    simp only [setPoint] at he
    split_ifs at he with hn
    · cases he
    obtain ⟨h1, h2⟩ := setPoint_tells box ds _ env' hs.2 (fun y c hy hc => by
      rw [envFind_set] at hc
      split_ifs at hc with hxy
      · subst hxy
        cases hc
        exact hs.1
      · exact h y c (by simp [hy, Ne.symm hxy]) hc) he
    refine ⟨h1, fun y => ?_⟩
    rw [← h2 y]
    simp only [List.mem_cons, Known, envFind_set]
    by_cases hxy : x = y
    · subst hxy
      simp
    · simp [hxy, Ne.symm hxy]
  | [], _ :: _, _, _, hs, _, _ => hs.elim
  | _ :: _, [], _, _, hs, _, _ => hs.elim

/-! ## The cache -/

/-- The cache holds derivatives. -/
def CacheOk {D : Type} (A : Arith) (n : Nat) (c : Cached D) : Prop :=
  ∀ x r, gradFind x c.grad = some r → diffC A n x c.expr = .ok r

section
variable {D : Type} {A : Arith} {n : Nat} {C : EvalCfg D}

theorem diff_cached {x : Nat} {c : Cached D} (hc : CacheOk A n c) :
    (c.diff A n x).1 = diffC A n x c.expr ∧ (c.diff A n x).2.expr = c.expr ∧
      (c.diff A n x).2.env = c.env ∧ CacheOk A n (c.diff A n x).2 := by
  unfold Cached.diff
  cases h : gradFind x c.grad with
  | some r => exact ⟨(hc x r h).symm, rfl, rfl, hc⟩
  | none =>
    cases h2 : diffC A n x c.expr with
    | ok r =>
      refine ⟨rfl, rfl, rfl, fun y s hy => ?_⟩
      simp only [gradFind] at hy
      split_ifs at hy with hxy
      · subst hxy
        cases hy
        exact h2
      · exact hc y s hy
    | throw => exact ⟨rfl, rfl, rfl, hc⟩
    | ub => exact ⟨rfl, rfl, rfl, hc⟩
    | oof => exact ⟨rfl, rfl, rfl, hc⟩

/-- The gradient without a cache. -/
def gradOf (C : EvalCfg D) (A : Arith) (n : Nat) (e : Cell) (env : Envt D) : List Nat → Run (List D)
  | [] => .ok []
  | x :: xs =>
    match diffC A n x e with
    | .ok r =>
      match evalC C env r with
      | .ok g =>
        match gradOf C A n e env xs with
        | .ok gs => .ok (g :: gs)
        | .throw => .throw
        | .ub => .ub
        | .oof => .oof
      | .throw => .throw
      | .ub => .ub
    | .throw => .throw
    | .ub => .ub
    | .oof => .oof

theorem setGrad_cached : ∀ (xs : List Nat) (c : Cached D), CacheOk A n c →
    (setGrad C A n xs c).1 = gradOf C A n c.expr c.env xs ∧
      (setGrad C A n xs c).2.expr = c.expr ∧ (setGrad C A n xs c).2.env = c.env ∧
      CacheOk A n (setGrad C A n xs c).2
  | [], c, hc => ⟨rfl, rfl, rfl, hc⟩
  | x :: xs, c, hc => by
    obtain ⟨h1, h2, h3, h4⟩ := diff_cached (x := x) hc
    obtain ⟨k1, k2, k3, k4⟩ := setGrad_cached xs _ h4
    simp only [setGrad, gradOf]
    generalize c.diff A n x = p at *
    obtain ⟨r, c1⟩ := p
    simp only at *
    rw [h2, h3] at k1
    rw [← h1]
    cases r with
    | ok r =>
      simp only
      rw [← h3]
      cases he : evalC C c1.env r with
      | ok g =>
        simp only
        rw [h3, ← k1]
        generalize setGrad C A n xs c1 = q at *
        obtain ⟨gs, c2⟩ := q
        simp only at *
        cases gs <;> exact ⟨rfl, k2.trans h2, k3.trans h3, k4⟩
      | throw => exact ⟨rfl, h2, rfl, h4⟩
      | ub => exact ⟨rfl, h2, rfl, h4⟩
    | throw => exact ⟨rfl, h2, h3, h4⟩
    | ub => exact ⟨rfl, h2, h3, h4⟩
    | oof => exact ⟨rfl, h2, h3, h4⟩

/-- Value and gradient without a cache. -/
def objectiveOf (C : EvalCfg D) (A : Arith) (n : Nat) (box : List Nat) (xs : List D)
    (wantGrad : Bool) (e : Cell) (env : Envt D) : Run (D × List D) :=
  if xs.length ≠ box.length ∨ xs.length = 0 then .ub
  else
    match setPoint C.num box xs env with
    | (.ok (), env) =>
      match if wantGrad then gradOf C A n e env box else .ok [] with
      | .ok gs =>
        match evalC C env e with
        | .ok d => .ok (d, gs)
        | .throw => .throw
        | .ub => .ub
      | .throw => .throw
      | .ub => .ub
      | .oof => .oof
    | (.throw, _) => .throw
    | (.ub, _) => .ub
    | (.oof, _) => .oof

theorem objective_cached (box : List Nat) (xs : List D) (w : Bool) (c : Cached D)
    (hc : CacheOk A n c) :
    (nloptObjective C A n box xs w c).1 = objectiveOf C A n box xs w c.expr c.env ∧
      (nloptObjective C A n box xs w c).2.expr = c.expr ∧
      CacheOk A n (nloptObjective C A n box xs w c).2 := by
  unfold nloptObjective objectiveOf
  by_cases h : xs.length ≠ box.length ∨ xs.length = 0
  · rw [if_pos h, if_pos h]
    exact ⟨rfl, rfl, hc⟩
  · rw [if_neg h, if_neg h]
    generalize setPoint C.num box xs c.env = p
    obtain ⟨u, env⟩ := p
    cases u with
    | ok u =>
      have hc1 : CacheOk A n { c with env := env } := hc
      obtain ⟨k1, k2, k3, k4⟩ := setGrad_cached (C := C) box _ hc1
      cases w with
      | true =>
        simp only [if_true]
        simp only at k1 k2 k3
        rw [← k1]
        generalize setGrad C A n box { c with env := env } = q at *
        obtain ⟨gs, c2⟩ := q
        simp only at k1 k2 k3 k4 ⊢
        subst k3
        cases gs with
        | ok gs =>
          simp only [k2]
          cases evalC C c2.env c.expr <;> exact ⟨rfl, k2, k4⟩
        | throw => exact ⟨rfl, k2, k4⟩
        | ub => exact ⟨rfl, k2, k4⟩
        | oof => exact ⟨rfl, k2, k4⟩
      | false =>
        simp only [Bool.false_eq_true, if_false]
        cases evalC C env c.expr <;> exact ⟨rfl, rfl, hc⟩
    | throw => exact ⟨rfl, rfl, hc⟩
    | ub => exact ⟨rfl, rfl, hc⟩
    | oof => exact ⟨rfl, rfl, hc⟩

theorem history_ok {e : Cell} {c : Cached D} (h : History C A n e c) :
    c.expr = e ∧ CacheOk A n c := by
  induction h with
  | new => exact ⟨rfl, fun x r h => by cases h⟩
  | event h k ih =>
    cases k with
    | ask box xs w =>
      obtain ⟨_, h2, h3⟩ := objective_cached (C := C) box xs w _ ih.2
      exact ⟨h2.trans ih.1, h3⟩
    | start env => exact ⟨ih.1, ih.2⟩

end

/-! ## Conditions in derivatives -/

theorem definite_hered (dom : Nat → Prop) (v : CVal) :
    Inherits (Definite dom v) (DefiniteT dom v) (DefiniteG dom v) where
  const _ := trivial
  add _ _ := Iff.rfl
  mul _ _ := Iff.rfl
  un _ _ := Iff.rfl
  bin _ _ _ := Iff.rfl
  nilT := trivial
  consT _ _ _ := Iff.rfl
  nilG := trivial
  consG _ _ _ := Iff.rfl

theorem at_self (v : CVal) (x : Nat) : CVal.at v x (v.var x) = v := by
  unfold CVal.at
  rw [Function.update_eq_self]

theorem at_along (v : CVal) (x : Nat) : Along x (CVal.at v x) := by
  constructor <;> intros <;> simp_all [CVal.at, Function.update]

theorem at_std {v : CVal} (hs : StdFun v) (x : Nat) (t : ℝ) : StdFun (CVal.at v x t) :=
  ⟨hs.log, hs.abs, hs.exp, hs.sqrt, hs.sin, hs.cos, hs.tan, hs.asin, hs.acos, hs.atan, hs.sinh,
    hs.cosh, hs.tanh, hs.atan2⟩

theorem grad_ok {D : Type} {C : EvalCfg D} {A : Arith} {n : Nat} {val : D → Option ℝ} {v : CVal}
    {env : Envt D} (hA : Arith.Exact A) {S : RC → Prop} (hS : Apart S) (hI : NoInt S)
    (hN : Num.Exact C.num val v) (hv : EvalFun v) (hs : StdFun v) (hT : Tells val v env)
    (hne : env ≠ []) {e : Cell} (he : RcC S e ∧ NF e) (hD : Definite (Known env) v e)
    {y : ℝ} (hy : ev v e = some y) (hm : Smooth v e) : ∀ (box : List Nat) (gs : List D),
      gradOf C A n e env box = .ok gs → Gradient val v e box gs
  | [], gs, h => by
    simp only [gradOf, Run.ok.injEq] at h
    subst h
    trivial
  | x :: xs, gs, h => by
    simp only [gradOf] at h
    cases hd : diffC A n x e with
    | ok r =>
      rw [hd] at h
      simp only at h
      cases hg : evalC C env r with
      | ok g =>
        rw [hg] at h
        simp only at h
        cases ht : gradOf C A n e env xs with
        | ok t =>
          rw [ht] at h
          simp only [Run.ok.injEq] at h
          subst h
          refine ⟨?_, grad_ok hA hS hI hN hv hs hT hne he hD hy hm xs t ht⟩
          obtain ⟨_, _, d, h3, h4⟩ := C52_derivative_partial hA hS hI n x e r he hd (CVal.at v x)
            (at_along v x) (at_std hs x) (v.var x) y (by rw [at_self]; exact hy)
            (by rw [at_self]; exact hm)
          rw [at_self] at h3
          have hr := keep_diff (A := A) (definite_hered (Known env) v) n x e hD r hd
          exact ⟨d, agree_cell hN hv hT hne r g d hr hg h3, h4⟩
        | throw => rw [ht] at h; cases h
        | ub => rw [ht] at h; cases h
        | oof => rw [ht] at h; cases h
      | throw => rw [hg] at h; cases h
      | ub => rw [hg] at h; cases h
    | throw => rw [hd] at h; cases h
    | ub => rw [hd] at h; cases h
    | oof => rw [hd] at h; cases h

/-! ## Differentiable expressions -/

mutual
theorem isDiff_cell : ∀ e : Cell, (isDiffC e = .ok true → ∀ x, Supported x e) ∧
    (isDiffC e = .ok true → ∀ s, Part s e → ¬ Kink s) ∧
    (isDiffC e = .ok false → ∃ s, Part s e ∧ Kink s) ∧
    (isDiffC e = .ok true → ∀ dom v, Definite dom v e)
  | .const _ => ⟨fun _ _ => trivial, fun _ s h => (by cases h; exact id), fun h => (by cases h),
      fun _ _ _ => trivial⟩
  | .rconst .. => ⟨fun _ _ => trivial, fun _ s h => (by cases h; exact id), fun h => (by cases h),
      fun _ _ _ => trivial⟩
  | .var _ => ⟨fun _ _ => trivial, fun _ s h => (by cases h; exact id), fun h => (by cases h),
      fun _ _ _ => trivial⟩
  | .add c ts => by
    obtain ⟨h1, h2, h3, h4⟩ := isDiff_terms ts
    refine ⟨h1, fun h s hs => ?_, fun h => ?_, h4⟩
    · rcases hs with rfl | hs
      · exact id
      · exact h2 h s hs
    · obtain ⟨s, hs, hk⟩ := h3 h
      exact ⟨s, .inr hs, hk⟩
  | .mul c fs => by
    obtain ⟨h1, h2, h3, h4⟩ := isDiff_factors fs
    refine ⟨h1, fun h s hs => ?_, fun h => ?_, h4⟩
    · rcases hs with rfl | hs
      · exact id
      · exact h2 h s hs
    · obtain ⟨s, hs, hk⟩ := h3 h
      exact ⟨s, .inr hs, hk⟩
  | .un f a => by
    obtain ⟨h1, h2, h3, h4⟩ := isDiff_cell a
    by_cases hf : f = .abs
    · subst hf
      refine ⟨fun h => (by cases h), fun h => (by cases h), fun _ => ⟨_, .inl rfl, trivial⟩,
        fun h => (by cases h)⟩
    · have hd : isDiffC (.un f a) = isDiffC a := by cases f <;> first | rfl | exact absurd rfl hf
      rw [hd]
      refine ⟨fun h x => ?_, fun h s hs => ?_, fun h => ?_, h4⟩
      · simp only [Supported, if_neg hf]
        exact h1 h x
      · rcases hs with rfl | hs
        · cases f <;> first | exact id | exact absurd rfl hf
        · exact h2 h s hs
      · obtain ⟨s, hs, hk⟩ := h3 h
        exact ⟨s, .inr hs, hk⟩
  | .bin f a b => by
    obtain ⟨h1, h2, h3, h4⟩ := isDiff_cell a
    obtain ⟨k1, k2, k3, k4⟩ := isDiff_cell b
    by_cases hf : f = .min ∨ f = .max
    · have hd : isDiffC (.bin f a b) = .ok false := by rcases hf with rfl | rfl <;> rfl
      rw [hd]
      refine ⟨fun h => (by cases h), fun h => (by cases h), fun _ => ⟨_, .inl rfl, ?_⟩,
        fun h => (by cases h)⟩
      rcases hf with rfl | rfl <;> trivial
    · have hd : isDiffC (.bin f a b) = (do
          let t ← isDiffC a
          if t then isDiffC b else .ok false) := by
        cases f <;> first | rfl | (exact absurd (Or.inl rfl) hf) | (exact absurd (Or.inr rfl) hf)
      rw [hd]
      have both : ((do
          let t ← isDiffC a
          if t then isDiffC b else .ok false) : Outcome Bool) = .ok true →
          isDiffC a = .ok true ∧ isDiffC b = .ok true := by
        intro h
        obtain ⟨t, e1, e2⟩ := outcome_bind h
        cases t
        · cases e2
        · exact ⟨e1, e2⟩
      refine ⟨fun h x => ?_, fun h s hs => ?_, fun h => ?_, fun h dom v => ?_⟩
      · obtain ⟨e1, e2⟩ := both h
        simp only [Supported, if_neg hf]
        exact ⟨h1 e1 x, k1 e2 x⟩
      · obtain ⟨e1, e2⟩ := both h
        rcases hs with rfl | hs | hs
        · cases f <;> first | exact id | (exact absurd (Or.inl rfl) hf) | (exact absurd (Or.inr rfl) hf)
        · exact h2 e1 s hs
        · exact k2 e2 s hs
      · obtain ⟨t, e1, e2⟩ := outcome_bind h
        cases t
        · obtain ⟨s, hs, hk⟩ := h3 e1
          exact ⟨s, .inr (.inl hs), hk⟩
        · obtain ⟨s, hs, hk⟩ := k3 e2
          exact ⟨s, .inr (.inr hs), hk⟩
      · obtain ⟨e1, e2⟩ := both h
        exact ⟨h4 e1 dom v, k4 e2 dom v⟩
  | .ite c a b => ⟨fun h => (by cases h), fun h => (by cases h), fun _ => ⟨_, .inl rfl, trivial⟩,
      fun h => (by cases h)⟩
  | .nan => ⟨fun h => (by cases h), fun h => (by cases h), fun h => (by cases h), fun h => (by cases h)⟩
  | .uf n vs => ⟨fun h => (by cases h), fun h => (by cases h), fun _ => ⟨.uf n vs, rfl, trivial⟩,
      fun h => (by cases h)⟩
theorem isDiff_terms : ∀ ts : CTerms, (isDiffT ts = .ok true → ∀ x, SupportedT x ts) ∧
    (isDiffT ts = .ok true → ∀ s, PartT s ts → ¬ Kink s) ∧
    (isDiffT ts = .ok false → ∃ s, PartT s ts ∧ Kink s) ∧
    (isDiffT ts = .ok true → ∀ dom v, DefiniteT dom v ts)
  | .nil => ⟨fun _ _ => trivial, fun _ s h => h.elim, fun h => (by cases h), fun _ _ _ => trivial⟩
  | .cons e q ts => by
    obtain ⟨h1, h2, h3, h4⟩ := isDiff_cell e
    obtain ⟨k1, k2, k3, k4⟩ := isDiff_terms ts
    have both : isDiffT (.cons e q ts) = .ok true → isDiffC e = .ok true ∧ isDiffT ts = .ok true := by
      intro h
      simp only [isDiffT] at h
      obtain ⟨t, e1, e2⟩ := outcome_bind h
      cases t
      · cases e2
      · exact ⟨e1, e2⟩
    refine ⟨fun h x => ⟨h1 (both h).1 x, k1 (both h).2 x⟩, fun h s hs => ?_, fun h => ?_,
      fun h dom v => ⟨h4 (both h).1 dom v, k4 (both h).2 dom v⟩⟩
    · exact hs.elim (h2 (both h).1 s) (k2 (both h).2 s)
    · simp only [isDiffT] at h
      obtain ⟨t, e1, e2⟩ := outcome_bind h
      cases t
      · obtain ⟨s, hs, hk⟩ := h3 e1
        exact ⟨s, .inl hs, hk⟩
      · obtain ⟨s, hs, hk⟩ := k3 e2
        exact ⟨s, .inr hs, hk⟩
theorem isDiff_factors : ∀ fs : CFactors, (isDiffG fs = .ok true → ∀ x, SupportedG x fs) ∧
    (isDiffG fs = .ok true → ∀ s, PartG s fs → ¬ Kink s) ∧
    (isDiffG fs = .ok false → ∃ s, PartG s fs ∧ Kink s) ∧
    (isDiffG fs = .ok true → ∀ dom v, DefiniteG dom v fs)
  | .nil => ⟨fun _ _ => trivial, fun _ s h => h.elim, fun h => (by cases h), fun _ _ _ => trivial⟩
  | .cons b e fs => by
    obtain ⟨h1, h2, h3, h4⟩ := isDiff_cell b
    obtain ⟨l1, l2, l3, l4⟩ := isDiff_cell e
    obtain ⟨k1, k2, k3, k4⟩ := isDiff_factors fs
    have all : isDiffG (.cons b e fs) = .ok true →
        isDiffC b = .ok true ∧ isDiffC e = .ok true ∧ isDiffG fs = .ok true := by
      intro h
      simp only [isDiffG] at h
      obtain ⟨t, e1, e2⟩ := outcome_bind h
      cases t
      · cases e2
      · obtain ⟨u, e3, e4⟩ := outcome_bind e2
        cases u
        · cases e4
        · exact ⟨e1, e3, e4⟩
    refine ⟨fun h x => ⟨h1 (all h).1 x, l1 (all h).2.1 x, k1 (all h).2.2 x⟩, fun h s hs => ?_,
      fun h => ?_, fun h dom v => ⟨h4 (all h).1 dom v, l4 (all h).2.1 dom v, k4 (all h).2.2 dom v⟩⟩
    · exact hs.elim (h2 (all h).1 s) fun hs => hs.elim (l2 (all h).2.1 s) (k2 (all h).2.2 s)
    · simp only [isDiffG] at h
      obtain ⟨t, e1, e2⟩ := outcome_bind h
      cases t
      · obtain ⟨s, hs, hk⟩ := h3 e1
        exact ⟨s, .inl hs, hk⟩
      · obtain ⟨u, e3, e4⟩ := outcome_bind e2
        cases u
        · obtain ⟨s, hs, hk⟩ := l3 e3
          exact ⟨s, .inr (.inl hs), hk⟩
        · obtain ⟨s, hs, hk⟩ := k3 e4
          exact ⟨s, .inr (.inr hs), hk⟩
end

mutual
theorem isDiff_fml {op : RelOp} {a b : Cell} : ∀ f : FCell, isDiffF f = .ok true →
    RelIn op a b f → isDiffC a = .ok true ∧ isDiffC b = .ok true
  | .ff, _, h => h.elim
  | .tt, _, h => h.elim
  | .var _, _, h => h.elim
  | .rel o c d, h, hr => by
    obtain ⟨rfl, rfl, rfl⟩ := hr
    simp only [isDiffF] at h
    obtain ⟨t, e1, e2⟩ := outcome_bind h
    cases t
    · cases e2
    · exact ⟨e1, e2⟩
  | .conj fs, h, hr => isDiff_fmls fs h hr
  | .disj fs, h, hr => isDiff_fmls fs h hr
  | .neg f, h, hr => isDiff_fml f h hr
  | .all .., _, h => h.elim
theorem isDiff_fmls {op : RelOp} {a b : Cell} : ∀ fs : FCells, isDiffL fs = .ok true →
    RelInL op a b fs → isDiffC a = .ok true ∧ isDiffC b = .ok true
  | .nil, _, h => h.elim
  | .cons f fs, h, hr => by
    simp only [isDiffL] at h
    obtain ⟨t, e1, e2⟩ := outcome_bind h
    cases t
    · cases e2
    · exact hr.elim (isDiff_fml f e1) (isDiff_fmls fs e2)
end

mutual
theorem isDiff_flat : ∀ f : FCell, isDiffF f = .ok true → ¬ Quantified f
  | .ff, _ => id
  | .tt, _ => id
  | .var _, _ => id
  | .rel .., _ => id
  | .conj fs, h => isDiff_flats fs h
  | .disj fs, h => isDiff_flats fs h
  | .neg f, h => isDiff_flat f h
  | .all .., h => by cases h
theorem isDiff_flats : ∀ fs : FCells, isDiffL fs = .ok true → ¬ QuantifiedL fs
  | .nil, _ => id
  | .cons f fs, h => by
    simp only [isDiffL] at h
    obtain ⟨t, e1, e2⟩ := outcome_bind h
    cases t
    · cases e2
    · exact fun k => k.elim (isDiff_flat f e1) (isDiff_flats fs e2)
end

mutual
theorem isDiff_not : ∀ f : FCell, isDiffF f = .ok false →
    Quantified f ∨ ∃ op a b, RelIn op a b f ∧ (isDiffC a = .ok false ∨ isDiffC b = .ok false)
  | .ff, h => by cases h
  | .tt, h => by cases h
  | .var _, h => by cases h
  | .rel o c d, h => by
    simp only [isDiffF] at h
    obtain ⟨t, e1, e2⟩ := outcome_bind h
    refine .inr ⟨o, c, d, ⟨rfl, rfl, rfl⟩, ?_⟩
    cases t
    · exact .inl e1
    · exact .inr e2
  | .conj fs, h => isDiff_nots fs h
  | .disj fs, h => isDiff_nots fs h
  | .neg f, h => isDiff_not f h
  | .all .., _ => .inl trivial
theorem isDiff_nots : ∀ fs : FCells, isDiffL fs = .ok false →
    QuantifiedL fs ∨ ∃ op a b, RelInL op a b fs ∧ (isDiffC a = .ok false ∨ isDiffC b = .ok false)
  | .nil, h => by cases h
  | .cons f fs, h => by
    simp only [isDiffL] at h
    obtain ⟨t, e1, e2⟩ := outcome_bind h
    cases t
    · rcases isDiff_not f e1 with k | ⟨op, a, b, k1, k2⟩
      · exact .inl (.inl k)
      · exact .inr ⟨op, a, b, .inl k1, k2⟩
    · rcases isDiff_nots fs e2 with k | ⟨op, a, b, k1, k2⟩
      · exact .inl (.inr k)
      · exact .inr ⟨op, a, b, .inr k1, k2⟩
end

end Verif.Proof
