import Verif.Proof.Smt2Run
import Verif.Proof.Smt2Scope

/-! # C38-C42: the SMT-LIB front end

Scripts are compared with the problem they pose to the context: the valuations that the calls made
on the context allow.  C39, C40 and C41 share the theorem about scripts. -/

namespace Verif.Props
open Verif Verif.Model Verif.Model.Smt2 Verif.Spec Verif.Spec.Smt2 Verif.Proof Verif.Proof.Smt2

/-! ## C39, C40, C41: meaning of terms -/

/-- C39, C40 and C41 for scripts: the problem posed is the problem stated, for scripts with `let` in
assertions, quantifiers over one variable with bounds that leave it a value or over any number of
variables without bounds, and functions.  Missing: `let` below quantifiers and in bodies of
functions (`C39_let_forall`, `C39_let_function`), quantifiers over several variables with bounds
(`C40_leak`; `C40_forall_partial` for those whose bounded variables all occur in the body), empty
bounds (`C40_empty`).  Scripts with scopes are in `C39_scopes_partial`. -/
theorem C39_script_partial (use : List Cmd → Nat) (s : List SCmd) (d : Drv)
    (h : run use s {} = .ok d) (ht : TameScript s) (I : Interp) (xs : List ℝ) :
    stated I s xs ↔ posed I d.log xs := by
  obtain ⟨new, hl, -, -, -, hs⟩ := run_spec s inv_init h ht
  have hl : d.log = new := by simpa using hl
  rw [stated, posed, hl, hs I (fun _ => 0) _ _ (by constructor <;> intro n <;> simp)]
  constructor
  · rintro ⟨ρ, _, h1, h2⟩; exact ⟨ρ, h1, h2⟩
  · rintro ⟨ρ, h1, h2⟩; exact ⟨ρ, by simp, h1, h2⟩

/-- `x` and `y` with `x + (let (y = 2x, z = y) in y * z) > 0`, `f(a, b) = a - b`,
`f(f(y, x), y) = 3` and `∀ w ∈ [0, 1]. p ∨ w ≤ x`. -/
example :
    let s : List SCmd := [.declare "x" .real none, .declare "y" .real (some (.fin 0, .pinf)),
      .declare "p" .bool none,
      .assert (.rel .gt (.add (.sym "x") [.let_ ["y", "z"] [.mul (.num 2) [.sym "x"], .sym "y"]
        (.mul (.sym "y") [.sym "z"])]) (.num 0)),
      .define "f" [("a", .real), ("b", .real)] .real (.sub (.sym "a") [.sym "b"]),
      .assert (.eq (.call "f" [.call "f" [.sym "y", .sym "x"], .sym "y"]) (.num 3)),
      .assert (.all [⟨"w", .real, some (0, 1)⟩] (.or [.sym "p", .rel .le (.sym "w") (.sym "x")]))]
    (∃ d, run (fun _ => 1) s {} = .ok d) ∧ TameScript s := by
  intro s
  refine ⟨⟨_, rfl⟩, ?_⟩
  simp only [s, TameScript, Tame, Tames, LetFree, LetFrees, TameBinds, SBind.Inhabited]
  simp [InBinds]
  exact ⟨0, by simp [Srt.toType, typeOk]⟩

/-- `∀ y. let z = y in z ≥ 0` is false, but the problem posed has a solution: the binding `z = y` is
asserted outside the quantifier. -/
theorem C39_let_forall : ∃ (s : List SCmd) (d : Drv), run (fun _ => 0) s {} = .ok d ∧
    ∀ I, ¬ stated I s [] ∧ posed I d.log [] := by
  refine ⟨[.assert (.all [⟨"y", .real, none⟩]
    (.let_ ["z"] [.sym "y"] (.rel .ge (.sym "z") (.num 0))))], _, rfl, fun I => ⟨fun h => ?_, ?_⟩⟩
  · have h := h.1
    simp only [den, SVal.asProp] at h
    have := h [-1] (by simp [InBinds, typeOk, Srt.toType])
    simp [dens, den, Names.binds, Names.sets, Names.set, toVal, Srt.toType, liftR, relOf] at this
    norm_num at this
  · refine ⟨fun _ => 0, fun c hc => ?_, rfl⟩
    revert c
    change ∀ c ∈ [Cmd.newVar .continuous, .newVar .continuous, .declare ⟨1, .continuous⟩ false,
      .assert (.rel .eq (.var ⟨1, .continuous⟩) (.var ⟨0, .continuous⟩)),
      .assert (.rel .geq (.var ⟨1, .continuous⟩) (.const 0))], _
    simp [CmdHolds, holds, relSem, eval, typeOk]

/-- With `f(x) = let z = x in z`, `f(1) = 1 ∧ f(2) = 2` is true, but the problem posed has no
solution: the binding `z = x` is asserted once, and both calls give `z`. -/
theorem C39_let_function : ∃ (s : List SCmd) (d : Drv), run (fun _ => 0) s {} = .ok d ∧
    ∀ I, stated I s [] ∧ ¬ posed I d.log [] := by
  refine ⟨[.define "f" [("x", .real)] .real (.let_ ["z"] [.sym "x"] (.sym "z")),
    .assert (.eq (.call "f" [.num 1]) (.num 1)), .assert (.eq (.call "f" [.num 2]) (.num 2))],
    _, rfl, fun I => ⟨?_, ?_⟩⟩
  · simp [stated, holdsScript, den, dens, Funs.define, fits, Names.params, Names.sets, Names.set,
      eqV, SVal.asProp]
  · rintro ⟨ρ, h, _⟩
    revert h
    change (∀ c ∈ [Cmd.newVar .continuous, .declare ⟨0, .continuous⟩ false, .newVar .continuous,
      .declare ⟨1, .continuous⟩ false,
      .assert (.rel .eq (.var ⟨1, .continuous⟩) (.var ⟨0, .continuous⟩)),
      .assert (.rel .eq (.var ⟨1, .continuous⟩) (.const 1)),
      .assert (.rel .eq (.var ⟨1, .continuous⟩) (.const 2))], _) → _
    intro h
    have h1 := h (.assert (.rel .eq (.var ⟨1, .continuous⟩) (.const 1))) (by simp)
    have h2 := h (.assert (.rel .eq (.var ⟨1, .continuous⟩) (.const 2))) (by simp)
    simp only [CmdHolds, holds, relSem, eval] at h1 h2
    rw [h1] at h2
    norm_num at h2

/-! ## C40: quantifiers -/

/-- C40 when every variable with bounds occurs in the body (after the elimination of the Boolean
variables), also for several variables of all sorts: the quantifier holds exactly when the body
holds for all values of the variables within their bounds. -/
theorem C40_forall_partial (I : Interp) (ρ : Valuation) (bs : List SBind) (vs : List Variable)
    (dom body : Fml) (hd : domain bs vs = .ok dom)
    (ht : vs.map Variable.type = bs.map fun b => sortType b.srt) (hb : SortedF body)
    (hu : ∀ v ∈ boundedVars bs vs, v ∈ (elimBool vs body).fv) :
    holds I ρ (mkForall vs dom body) ↔ ∀ ρ' : Valuation, (∀ v, v ∉ vs → ρ' v = ρ v) →
      InBinds bs (vs.map ρ') → holds I ρ' body := by
  obtain ⟨k1, _, _, k4, k5, k6⟩ := domain_spec hd (by simpa using ht)
  rw [mkForall_spec hb k1 k5 k4 (.inl hu)]
  constructor
  · intro h ρ' e hi
    obtain ⟨h1, h2⟩ := (k6 I ρ').mp hi
    exact h ρ' e h1 h2
  · intro h ρ' e h1 h2
    exact h ρ' e ((k6 I ρ').mpr ⟨h1, h2⟩)

/-- `∀ x ∈ [0, 1], y ∈ [-1, 2], b. (b ∧ x ≤ y) ∨ (¬b ∧ y ≤ z)`. -/
example :
    let x : Variable := ⟨0, .continuous⟩
    let y : Variable := ⟨1, .integer⟩
    let z : Variable := ⟨2, .continuous⟩
    let b : Variable := ⟨3, .boolean⟩
    let bs : List SBind := [⟨"x", .real, some (0, 1)⟩, ⟨"y", .int, some (-1, 2)⟩, ⟨"b", .bool, none⟩]
    let body : Fml := .disj [.conj [.bvar b, .rel .leq (.var x) (.var y)],
      .conj [.neg (.bvar b), .rel .leq (.var y) (.var z)]]
    (∃ dom, domain bs [x, y, b] = .ok dom) ∧
    [x, y, b].map Variable.type = bs.map (fun b => sortType b.srt) ∧ SortedF body ∧
    ∀ v ∈ boundedVars bs [x, y, b], v ∈ (elimBool [x, y, b] body).fv := by
  intro x y z b bs body
  exact ⟨⟨_, rfl⟩, rfl, by simp [body, SortedF, SortedFs, SortedE, x, y, z, b], by decide +kernel⟩

/-- `∀ x ∈ [0, 1], y ∈ [0, 1]. x ≥ 2` is false, but the problem posed has a solution: `y` does not
occur in the body, so it is not quantified, but its bounds remain in the premise. -/
theorem C40_leak : ∃ (s : List SCmd) (d : Drv), run (fun _ => 0) s {} = .ok d ∧
    ∀ I, ¬ stated I s [] ∧ posed I d.log [] := by
  let x : Variable := ⟨0, .continuous⟩
  let y : Variable := ⟨1, .continuous⟩
  refine ⟨[.assert (.all [⟨"x", .real, some (0, 1)⟩, ⟨"y", .real, some (0, 1)⟩]
    (.rel .ge (.sym "x") (.num 2)))], _, rfl, fun I => ⟨fun h => ?_, ?_⟩⟩
  · have h := h.1
    simp only [den, SVal.asProp] at h
    have := h [0, 0] (by simp [InBinds, typeOk, Srt.toType])
    simp [den, Names.binds, Names.set, toVal, Srt.toType, liftR, relOf] at this
    norm_num at this
  · refine ⟨fun _ => 5, fun c hc => ?_, rfl⟩
    revert c
    change ∀ c ∈ [Cmd.newVar .continuous, .newVar .continuous, .assert (mkForall [x, y]
      (andF (andF (andF (andF .tt (mkRel .leq (.const 0) (.var y))) (mkRel .leq (.var y) (.const 1)))
        (mkRel .leq (.const 0) (.var x))) (mkRel .leq (.var x) (.const 1)))
      (mkRel .geq (.var x) (.const 2)))], _
    have e : mkForall [x, y]
      (andF (andF (andF (andF .tt (mkRel .leq (.const 0) (.var y))) (mkRel .leq (.var y) (.const 1)))
        (mkRel .leq (.const 0) (.var x))) (mkRel .leq (.var x) (.const 1)))
      (mkRel .geq (.var x) (.const 2)) = .all [x] (.disj [.neg (.conj
        [.rel .leq (.const 0) (.var y), .rel .leq (.var y) (.const 1),
        .rel .leq (.const 0) (.var x), .rel .leq (.var x) (.const 1)]),
        .rel .geq (.var x) (.const 2)]) := by decide +kernel
    rw [e]
    simp only [List.mem_cons, List.not_mem_nil, or_false, forall_eq_or_imp, forall_eq, CmdHolds,
      true_and]
    rw [holds_all]
    intro ρ' h1 _
    have hy : ρ' y = 5 := h1 y (by simp [x, y])
    rw [holds_disj]
    refine ⟨_, by simp; left; rfl, ?_⟩
    rw [holds_neg, holds_conj]
    intro h
    have := h (.rel .leq (.var y) (.const 1)) (by simp)
    simp only [holds, relSem, eval, hy] at this
    norm_num at this

/-- `∀ y ∈ [1, 0]. z ≥ 2` is true whatever `z` is, but the problem posed wants `z ≥ 2`: the bounds
are dropped with the variable. -/
theorem C40_empty : ∃ (s : List SCmd) (d : Drv), run (fun _ => 0) s {} = .ok d ∧
    ∀ I, stated I s [0] ∧ ¬ posed I d.log [0] := by
  let z : Variable := ⟨0, .continuous⟩
  refine ⟨[.declare "z" .real none, .assert (.all [⟨"y", .real, some (1, 0)⟩]
    (.rel .ge (.sym "z") (.num 2)))], _, rfl, fun I => ⟨?_, ?_⟩⟩
  · refine ⟨0, [], rfl, by simp [typeOk, Srt.toType], trivial, ?_, rfl⟩
    simp only [den, SVal.asProp]
    intro xs hx
    exfalso
    match xs, hx with
    | [x], hx =>
      have := hx.2.1 1 0 rfl
      norm_num at this
      linarith
  · rintro ⟨ρ, h, hx⟩
    revert h hx
    change (∀ c ∈ [Cmd.newVar .continuous, .declare z true, .newVar .continuous,
      .assert (.rel .geq (.var z) (.const 2))], _) → _ = [ρ z] → _
    intro h hx
    have h1 := h (.assert (.rel .geq (.var z) (.const 2))) (by simp)
    simp only [CmdHolds, holds, relSem, eval] at h1
    simp only [List.cons.injEq, and_true] at hx
    rw [← hx] at h1
    norm_num at h1

/-! ## C41: functions -/

/-- A call with the wrong number of arguments is an error. -/
theorem C41_count (fd : FunDef) (args : List Term) (h : args.length ≠ fd.params.length) :
    fd.apply args = .throw := by
  simp [FunDef.apply, Ne.symm h]

/-- Arguments of the wrong sorts are an error, and so is a body of the wrong sort. -/
theorem C41_sorts (fd : FunDef) (args : List Term) (r : Term) (h : fd.apply args = .ok r) :
    fd.body.checkSort fd.ret = true ∧
    List.Forall₂ (fun p a => a.checkType p.type = true) fd.params args := by
  unfold FunDef.apply at h
  split_ifs at h with h1 h2
  refine ⟨h2, ?_⟩
  simp only [ne_eq, not_not] at h1
  revert h1 h
  generalize fd.params = ps
  generalize fd.body = t
  clear h2
  induction ps generalizing args t with
  | nil =>
    intro h hl
    cases args with
    | nil => exact .nil
    | cons a as => simp at hl
  | cons p ps ih =>
    intro h hl
    cases args with
    | nil => simp at hl
    | cons a as =>
      simp only [applyLoop] at h
      split_ifs at h with hc
      exact .cons hc (ih as _ h (by simpa using hl))

/-- Parameters are replaced simultaneously, also when arguments contain what looks like a
parameter of the same function: with `f(a, b) = a - b`, `f(b, a)` is `b - a`. -/
example :
    let s : List SCmd := [.declare "a" .real none, .declare "b" .real none,
      .define "f" [("a", .real), ("b", .real)] .real (.sub (.sym "a") [.sym "b"]),
      .assert (.eq (.call "f" [.sym "b", .sym "a"]) (.num 3))]
    TameScript s ∧ (∃ d, run (fun _ => 0) s {} = .ok d) ∧
      ∀ I x y, stated I s [x, y] ↔ y - x = 3 := by
  intro s
  refine ⟨by simp [s, TameScript, Tame, Tames, LetFree, LetFrees], ⟨_, rfl⟩, fun I x y => ?_⟩
  simp [s, stated, holdsScript, den, dens, Funs.define, fits, Names.params, Names.set,
    eqV, SVal.asProp, lift2, toVal, Srt.toType, typeOk, inBounds]

/-! ## C42: Boolean variables -/

/-- C42: eliminating the Boolean variables of a list gives a formula that holds exactly when the
formula holds for all truth values of those variables. -/
theorem C42_eliminate (I : Interp) (ρ : Valuation) (vs : List Variable) (f : Fml) (hf : SortedF f) :
    holds I ρ (elimBool vs f) ↔ ∀ ρ' : Valuation,
      (∀ v, ¬ (v ∈ vs ∧ v.type = .boolean) → ρ' v = ρ v) →
      (∀ v ∈ vs, v.type = .boolean → ρ' v = 0 ∨ ρ' v = 1) → holds I ρ' f := by
  rw [(elimBool_spec hf).2.2.2 ρ]
  have : ∀ v : Variable, (v.type = .boolean → v ∉ vs) ↔ ¬ (v ∈ vs ∧ v.type = .boolean) := by
    intro v; tauto
  simp only [this]

/-- None of the eliminated variables is left. -/
theorem C42_gone (vs : List Variable) (f : Fml) (hf : SortedF f) :
    ∀ v ∈ (elimBool vs f).fv, v ∈ f.fv ∧ ¬ (v ∈ vs ∧ v.type = .boolean) :=
  (elimBool_spec (I := ⟨fun _ _ => 0, fun _ _ _ => 0⟩) hf).2.1
    (fun v => v ∈ f.fv ∧ ¬ (v ∈ vs ∧ v.type = .boolean)) fun v hv h =>
      ⟨hv, fun ⟨h1, h2⟩ => h h2 h1⟩

/-- `(b ∨ x > 0) ∧ (¬b ∨ x < 1)` becomes `x < 1 ∧ x > 0`. -/
example :
    let x : Variable := ⟨0, .continuous⟩
    let b : Variable := ⟨1, .boolean⟩
    let f : Fml := .conj [.disj [.bvar b, .rel .gt (.var x) (.const 0)],
      .disj [.neg (.bvar b), .rel .lt (.var x) (.const 1)]]
    SortedF f ∧ elimBool [x, b] f =
      .conj [.rel .lt (.var x) (.const 1), .rel .gt (.var x) (.const 0)] := by
  intro x b f
  exact ⟨by simp [f, SortedF, SortedFs, SortedE, x, b], by decide +kernel⟩

/-! ## C38: names -/

/-- C38 but for closed scopes: a script that runs uses in every command only names declared or
defined by an earlier command, and functions with the right number of arguments.  In particular
names bound by `let`, `forall` and as parameters are not usable outside.  Missing: names declared in
a closed scope are still usable (`C38_pop`). -/
theorem C38_declared_partial (use : List Cmd → Nat) (s : List SCmd) (d : Drv)
    (h : run use s {} = .ok d) : DeclaredBefore ([], []) s :=
  run_declared s declares_init h

/-- The name bound by `let` is not usable after it, nor the parameter of a function. -/
example (use : List Cmd → Nat) (d : Drv) : run use [.declare "x" .real none,
      .define "f" [("a", .real)] .real (.let_ ["y"] [.sym "a"] (.sym "y")),
      .assert (.rel .gt (.sym "y") (.num 0))] {} ≠ .ok d ∧
    run use [.define "f" [("a", .real)] .real (.sym "a"),
      .assert (.rel .gt (.call "f" [.num 0, .num 1]) (.num 0))] {} ≠ .ok d ∧
    ∃ d, run (fun _ => 0) [.declare "x" .real none,
      .define "f" [("a", .real)] .real (.let_ ["y"] [.sym "a"] (.sym "y")),
      .assert (.rel .gt (.call "f" [.sym "x"]) (.num 0))] {} = .ok d := by
  refine ⟨fun h => ?_, fun h => ?_, ⟨_, rfl⟩⟩
  all_goals
    have := C38_declared_partial _ _ _ h
    simp [DeclaredBefore, CmdUsesOnly, UsesOnly, Decls.add, freeNames, freeNamess, callNames,
      callNamess, Decls.arity] at this

/-- The names in scope after `(push 1) (declare x) (pop 1)` do not include `x`, but using it is not
an error. -/
theorem C38_pop : ∃ (s : List SCmd) (d : Drv), run (fun _ => 0) s {} = .ok d ∧
    ¬ WellScoped ([], []) [] s := by
  refine ⟨[.push 1, .declare "x" .real none, .pop 1, .assert (.rel .gt (.sym "x") (.num 0))],
    _, rfl, fun h => ?_⟩
  simp [WellScoped, CmdUsesOnly, UsesOnly, Decls.add, freeNames] at h

end Verif.Props
