import Mathlib.Tactic.NormNum
import Verif.Proof.Contractor
import Verif.Proof.Minimize
import Verif.Props.Subst
import Verif.Props.Session

/-! # C36: Minimize characterises the minimisers -/

namespace Verif.Props
open Verif Verif.Model Verif.Spec Verif.Proof

theorem psi_fresh {next : Nat} {b : Box} {stack : List Fml} {objs : List Expr}
    {psi : Fml} {zs : List Variable} {next' : Nat}
    (h : minimizePsi next b stack objs = .ok (psi, zs, next')) : ∀ z ∈ zs, next ≤ z.id := by
  unfold minimizePsi at h
  obtain ⟨r, hr, h⟩ := bindR_ok h
  split_ifs at h with hb hv
  simp only [Run.ok.injEq, Prod.mk.injEq] at h
  obtain ⟨rfl, rfl, rfl⟩ := h
  intro z hz
  rw [(objectives_holds (I := ⟨fun _ _ => 0, fun _ _ _ => 0⟩) (ρ := fun _ => 0) objs _ _ _).2.2,
    List.mem_map] at hz
  obtain ⟨i, _, rfl⟩ := hz
  simp only
  omega

theorem psi_holds (I : Interp) {next : Nat} {b : Box} {stack : List Fml} {objs : List Expr}
    {psi : Fml} {zs : List Variable} {next' : Nat} (wf : BoxWf b)
    (hs : ∀ f ∈ stack, SortedF f ∧ Old next f) (ho : ∀ f ∈ objs, SortedE f ∧ OldE next f)
    (h : minimizePsi next b stack objs = .ok (psi, zs, next')) (ρ : Valuation)
    (hρ : Feasible I b stack ρ) :
    (∃ τ : Valuation, (∀ v, v ∉ zs → τ v = ρ v) ∧ holds I τ psi) ↔
      Minimal I b stack objs ρ := by
  unfold minimizePsi at h
  obtain ⟨r, hr, h⟩ := bindR_ok h
  obtain ⟨hi, hd⟩ := relatedLoop_ok (objs := objs) ⟨addVars_nodup List.nodup_nil, fun f hf v hv =>
    mem_addVars.mpr (.inr (List.mem_flatMap.mpr ⟨f, hf, hv⟩)), by simp⟩ hr
  split_ifs at h with hb hv
  simp only [List.any_eq_true, decide_eq_true_eq, not_exists, not_and, not_not] at hb hv
  simp only [Run.ok.injEq, Prod.mk.injEq] at h
  obtain ⟨rfl, rfl, rfl⟩ := h
  set n := r.vars.length with hn
  set xs := r.vars with hxs
  set Y : Variable → Variable := yOf next xs with hY
  set s : Subst := { ex := (freshFor next xs).map fun p => (p.1, .var p.2) } with hsdef
  have hlook : ∀ v, lookupV v s.ex = if v ∈ xs then some (.var (Y v)) else none :=
    lookup_fresh hi.nodup
  have hys : (freshFor next xs).map Prod.snd = xs.map Y := by
    rw [freshFor_yOf hi.nodup, List.map_map]
    rfl
  have hYid : ∀ v ∈ xs, next ≤ (Y v).id ∧ (Y v).id < next + n := by
    intro v hv'
    have := List.idxOf_lt_length_of_mem hv'
    simp only [hY, yOf]
    omega
  have hfresh : FreshS next s := by
    intro v w hw
    unfold substVars at hw
    split_ifs at hw
    · simp [hsdef, lookupV] at hw
    · rw [hlook] at hw
      split_ifs at hw with hv'
      · simp only [Expr.vars, List.mem_singleton] at hw
        subst hw
        exact (hYid v hv').1
      · cases hw
  have hreb : ∀ σ v, rebind I σ s v = if v ∈ xs then σ (Y v) else σ v := by
    intro σ v
    unfold rebind
    by_cases hv' : v ∈ xs
    · rw [if_neg (hb v hv'), hlook, if_pos hv', if_pos hv']
      simp [eval]
    · rw [hlook, if_neg hv', if_neg hv']
      simp [hsdef, lookupV]
  have hz : ∀ z ∈ (objectives s objs (next + n) .tt (mkDisj (toSet
      (((freshFor next xs).flatMap fun p => negBounds p.2 (b.getV p.1)) ++
      r.cons.map fun f => notF (f.substitute s))))).2.2, ∃ i, i < objs.length ∧
        z = ⟨next + n + i, .continuous⟩ := by
    intro z hz
    rw [(objectives_holds (I := I) (ρ := ρ) objs _ _ _).2.2] at hz
    simp only [List.mem_map, List.mem_range] at hz
    obtain ⟨i, hi', rfl⟩ := hz
    exact ⟨i, hi', rfl⟩
  have hzs : ∀ i, i < objs.length → (⟨next + n + i, .continuous⟩ : Variable) ∈
      (objectives s objs (next + n) .tt (mkDisj (toSet
      (((freshFor next xs).flatMap fun p => negBounds p.2 (b.getV p.1)) ++
      r.cons.map fun f => notF (f.substitute s))))).2.2 := by
    intro i hi'
    rw [(objectives_holds (I := I) (ρ := ρ) objs _ _ _).2.2]
    exact List.mem_map.mpr ⟨i, List.mem_range.mpr hi', rfl⟩
  set zs := (objectives s objs (next + n) .tt (mkDisj (toSet
      (((freshFor next xs).flatMap fun p => negBounds p.2 (b.getV p.1)) ++
      r.cons.map fun f => notF (f.substitute s))))).2.2 with hzsdef
  -- variables of the constraints and objectives are no `z`
  have hzold : ∀ v : Variable, v.id < next → v ∉ zs := by
    intro v hv' hm
    obtain ⟨i, _, rfl⟩ := hz v hm
    simp only at hv'
    omega
  have hxin : ∀ x ∈ xs, InItv (ρ x) (b.getV x) := fun x hx =>
    hρ.inBox.2 _ x (index_of_mem (hv x hx)).2
  -- the matrix of the quantified formula
  have hmat : ∀ σ : Valuation, holds I σ (objectives s objs (next + n) .tt (mkDisj (toSet
      (((freshFor next xs).flatMap fun p => negBounds p.2 (b.getV p.1)) ++
      r.cons.map fun f => notF (f.substitute s))))).2.1 ↔
      ((∃ x ∈ xs, ¬ InItv (σ (Y x)) (b.getV x)) ∨ (∃ f ∈ r.cons, ¬ holds I (rebind I σ s) f)) ∨
      ∃ i f, objs[i]? = some f ∧ σ ⟨next + n + i, .continuous⟩ ≤ eval I (rebind I σ s) f := by
    intro σ
    rw [(objectives_holds objs _ _ _).2.1, holds_mkDisj]
    refine or_congr ?_ ?_
    · simp only [mem_toSet, List.mem_append, or_and_right, exists_or]
      refine or_congr ?_ ?_
      · constructor
        · rintro ⟨f, hf, hh⟩
          rw [freshFor_yOf hi.nodup, List.mem_flatMap] at hf
          obtain ⟨p, hp, hf⟩ := hf
          obtain ⟨x, hx, rfl⟩ := List.mem_map.mp hp
          exact ⟨x, hx, (negBounds_holds (hxin x hx)).mp ⟨f, hf, hh⟩⟩
        · rintro ⟨x, hx, hh⟩
          obtain ⟨f, hf, hh⟩ := (negBounds_holds (I := I) (hxin x hx)).mpr hh
          refine ⟨f, ?_, hh⟩
          rw [freshFor_yOf hi.nodup, List.mem_flatMap]
          exact ⟨(x, Y x), List.mem_map.mpr ⟨x, hx, rfl⟩, hf⟩
      · have key : ∀ f ∈ r.cons, (holds I σ (f.substitute s) ↔ holds I (rebind I σ s) f) := by
          intro f hf
          have hf' := hs f (hi.sub f hf).1
          exact C15_formula_partial I σ s f hf'.1 (noCapture_old f s hfresh hf'.2)
        constructor
        · rintro ⟨g, hg, hh⟩
          obtain ⟨f, hf, rfl⟩ := List.mem_map.mp hg
          rw [holds_notF, key f hf] at hh
          exact ⟨f, hf, hh⟩
        · rintro ⟨f, hf, hh⟩
          exact ⟨_, List.mem_map.mpr ⟨f, hf, rfl⟩, by rw [holds_notF, key f hf]; exact hh⟩
    · refine exists_congr fun i => exists_congr fun f => and_congr_right fun hf => ?_
      have hf' := ho f (List.mem_of_getElem? hf)
      rw [C15_expression_partial I σ s f hf'.1 (noCapture_old_e f s hfresh hf'.2)]
  have hpsi : ∀ τ : Valuation, holds I τ (andF (objectives s objs (next + n) .tt (mkDisj (toSet
      (((freshFor next xs).flatMap fun p => negBounds p.2 (b.getV p.1)) ++
      r.cons.map fun f => notF (f.substitute s))))).1 (forallF ((freshFor next xs).map Prod.snd)
      (objectives s objs (next + n) .tt (mkDisj (toSet
      (((freshFor next xs).flatMap fun p => negBounds p.2 (b.getV p.1)) ++
      r.cons.map fun f => notF (f.substitute s))))).2.1)) ↔
      (∀ i f, objs[i]? = some f → τ ⟨next + n + i, .continuous⟩ = eval I τ f) ∧
      ∀ σ : Valuation, (∀ v, v ∉ xs.map Y → σ v = τ v) → (∀ v ∈ xs.map Y, typeOk v.type (σ v)) →
        ((∃ x ∈ xs, ¬ InItv (σ (Y x)) (b.getV x)) ∨ (∃ f ∈ r.cons, ¬ holds I (rebind I σ s) f)) ∨
        ∃ i f, objs[i]? = some f ∧ σ ⟨next + n + i, .continuous⟩ ≤ eval I (rebind I σ s) f := by
    intro τ
    rw [holds_andF, (objectives_holds objs _ _ _).1, holds_forallF, holds_all, hys]
    simp only [holds_tt, true_and, hmat]
  simp only [hpsi]
  have hYz : ∀ i, (⟨next + n + i, .continuous⟩ : Variable) ∉ xs.map Y := by
    intro i hm
    obtain ⟨x, hx, he⟩ := List.mem_map.mp hm
    have h1 := (hYid x hx).2
    have h2 : (Y x).id = next + n + i := by rw [he]
    omega
  have hYold : ∀ v : Variable, v.id < next → v ∉ xs.map Y := by
    intro v hv' hm
    obtain ⟨x, hx, he⟩ := List.mem_map.mp hm
    have h1 := (hYid x hx).1
    rw [he] at h1
    omega
  constructor
  · rintro ⟨τ, hτ, hA, hB⟩ σ hσ
    -- the competitor in the place of `y`
    let σ' : Valuation := fun v => if v ∈ xs.map Y then σ (xs.getD (v.id - next) v) else τ v
    have hσY : ∀ x ∈ xs, σ' (Y x) = σ x := by
      intro x hx
      have hm : Y x ∈ xs.map Y := List.mem_map.mpr ⟨x, hx, rfl⟩
      simp only [σ', if_pos hm]
      congr 1
      simp only [hY, yOf, Nat.add_sub_cancel_left]
      have := List.idxOf_lt_length_of_mem hx
      rw [List.getD_eq_getElem?_getD, List.getElem?_eq_getElem this, Option.getD_some]
      exact List.getElem_idxOf this
    have hσ'r : ∀ v ∈ xs, rebind I σ' s v = σ v := fun v hv' => by
      rw [hreb, if_pos hv', hσY v hv']
    rcases hB σ' (fun v hv' => by simp only [σ', if_neg hv']) (fun v hv' => by
      obtain ⟨x, hx, rfl⟩ := List.mem_map.mp hv'
      rw [hσY x hx]
      exact hσ.typed x (hv x hx)) with (⟨x, hx, hn⟩ | ⟨f, hf, hn⟩) | ⟨i, f, hf, hle⟩
    · rw [hσY x hx] at hn
      exact absurd (hσ.inBox.2 _ x (index_of_mem (hv x hx)).2) hn
    · refine absurd ?_ hn
      rw [holds_congr I f _ σ fun v hv' => hσ'r v ((hi.sub f hf).2 v hv')]
      exact hσ.holds f (hi.sub f hf).1
    · have hf' := List.mem_of_getElem? hf
      refine ⟨f, hf', ?_⟩
      rw [eval_congr I f _ σ fun v hv' => hσ'r v (hi.objs f hf' v hv')] at hle
      simp only [σ', if_neg (hYz i)] at hle
      rw [hA i f hf] at hle
      rwa [eval_congr I f τ ρ fun v hv' => hτ v (hzold v (vars_old_e f (ho f hf').2 v hv'))] at hle
  · intro hmin
    classical
    let τ : Valuation := fun v => if v ∈ zs then
      ((objs[v.id - (next + n)]?).map (eval I ρ)).getD 0 else ρ v
    have hτold : ∀ f ∈ objs, eval I τ f = eval I ρ f := fun f hf =>
      eval_congr I f τ ρ fun v hv' => by
        simp only [τ, if_neg (hzold v (vars_old_e f (ho f hf).2 v hv'))]
    have hτz : ∀ i f, objs[i]? = some f → τ ⟨next + n + i, .continuous⟩ = eval I ρ f := by
      intro i f hf
      have hi' : i < objs.length := by
        by_contra hc
        rw [List.getElem?_eq_none (by omega)] at hf
        cases hf
      simp only [τ, if_pos (hzs i hi'), Nat.add_sub_cancel_left, hf, Option.map_some,
        Option.getD_some]
    refine ⟨τ, fun v hv' => by simp only [τ, if_neg hv'], fun i f hf => ?_, fun σ h1 h2 => ?_⟩
    · rw [hτz i f hf, hτold f (List.mem_of_getElem? hf)]
    · rw [or_iff_not_imp_left]
      intro hno
      simp only [not_or, not_exists, not_and, not_not] at hno
      obtain ⟨hbd, hcs⟩ := hno
      -- the point with the values of `y`
      let σ' : Valuation := fun v => if v ∈ xs then σ (Y v) else ρ v
      have hσ' : ∀ v ∈ xs, σ' v = σ (Y v) := fun v hvx => by simp only [σ', if_pos hvx]
      have hfeas : Feasible I b stack σ' := by
        refine ⟨⟨hρ.inBox.1, fun i v hiv => ?_⟩, fun v hvb => ?_, fun f hf => ?_⟩
        · by_cases hvx : v ∈ xs
          · simp only [σ', if_pos hvx]
            have := hbd v hvx
            rwa [Box.getV, index_unique wf hiv] at this
          · simp only [σ', if_neg hvx]
            exact hρ.inBox.2 i v hiv
        · by_cases hvx : v ∈ xs
          · simp only [σ', if_pos hvx]
            exact h2 (Y v) (List.mem_map.mpr ⟨v, hvx, rfl⟩)
          · simp only [σ', if_neg hvx]
            exact hρ.typed v hvb
        · rcases hd f hf with hc | hc
          · rw [holds_congr I f σ' (rebind I σ s) fun v hv' => by
              rw [hreb, if_pos ((hi.sub f hc).2 v hv'), hσ' v ((hi.sub f hc).2 v hv')]]
            exact hcs f hc
          · rw [holds_congr I f σ' ρ fun v hv' => by
              have : v ∉ xs := by
                intro hvx
                simp only [haveIntersection, List.any_eq_false, decide_eq_true_eq] at hc
                exact hc v hvx hv'
              simp only [σ', if_neg this]]
            exact hρ.holds f hf
      obtain ⟨f, hf, hle⟩ := hmin σ' hfeas
      obtain ⟨i, hi', rfl⟩ := List.mem_iff_getElem.mp hf
      have hfi : objs[i]? = some objs[i] := List.getElem?_eq_getElem hi'
      refine ⟨i, objs[i], hfi, ?_⟩
      rw [h1 _ (hYz i), hτz i _ hfi]
      rwa [eval_congr I objs[i] (rebind I σ s) σ' fun v hv' => by
        rw [hreb, if_pos (hi.objs _ hf v hv'), hσ' v (hi.objs _ hf v hv')]]

/-- C36, also for several objectives: `Minimize` asserts, in the context with new variables declared,
a constraint of which the following holds.  Among the points of the box that satisfy the constraints
on the stack (all of them, not only those collected by the code), it can be met by a choice of the
new variables exactly at those that no other such point improves on in all objectives. -/
theorem C36_pareto (I : Interp) (cfg : CCfg) (c c' : Ctx) (objs : List Expr) (wf : BoxWf c.box)
    (hs : ∀ f ∈ c.stack.vec, SortedF f ∧ Old c.sat.abs.next f)
    (ho : ∀ f ∈ objs, SortedE f ∧ OldE c.sat.abs.next f) (h : minimize cfg c objs = .ok c') :
    ∃ (psi : Fml) (zs : List Variable) (d : Ctx), (∀ z ∈ zs, c.sat.abs.next ≤ z.id) ∧
      d.box = zs.foldl addToBox c.box ∧ d.stack = c.stack ∧ assertF cfg d psi = .ok c' ∧
      ∀ ρ, Feasible I c.box c.stack.vec ρ →
        ((∃ τ : Valuation, (∀ v, v ∉ zs → τ v = ρ v) ∧ holds I τ psi) ↔
          ∀ σ, Feasible I c.box c.stack.vec σ → ∃ f ∈ objs, eval I ρ f ≤ eval I σ f) := by
  unfold minimize at h
  obtain ⟨⟨psi, zs, n⟩, hr, h⟩ := bindR_ok h
  have hz : ∀ z ∈ zs, c.sat.abs.next ≤ z.id := psi_fresh hr
  refine ⟨psi, zs, { c.setBox (zs.foldl addToBox c.box) with
    sat := { c.sat with abs := { c.sat.abs with next := n } } }, hz, ?_, rfl, lift_ok h,
    fun ρ hρ => psi_holds I wf hs ho hr ρ hρ⟩
  simp [Ctx.box, Ctx.setBox]

/-- C36: with one objective, exactly at the minimisers. -/
theorem C36_minimum (I : Interp) (cfg : CCfg) (c c' : Ctx) (f : Expr) (wf : BoxWf c.box)
    (hs : ∀ f ∈ c.stack.vec, SortedF f ∧ Old c.sat.abs.next f)
    (ho : SortedE f ∧ OldE c.sat.abs.next f) (h : minimize cfg c [f] = .ok c') :
    ∃ (psi : Fml) (zs : List Variable) (d : Ctx), (∀ z ∈ zs, c.sat.abs.next ≤ z.id) ∧
      d.box = zs.foldl addToBox c.box ∧ d.stack = c.stack ∧ assertF cfg d psi = .ok c' ∧
      ∀ ρ, Feasible I c.box c.stack.vec ρ →
        ((∃ τ : Valuation, (∀ v, v ∉ zs → τ v = ρ v) ∧ holds I τ psi) ↔
          ∀ σ, Feasible I c.box c.stack.vec σ → eval I ρ f ≤ eval I σ f) := by
  obtain ⟨psi, zs, d, h1, h2, h3, h4, h5⟩ := C36_pareto I cfg c c' [f] wf hs (by simpa using ho) h
  exact ⟨psi, zs, d, h1, h2, h3, h4, fun ρ hρ => by rw [h5 ρ hρ]; simp⟩

/-- C36 for `Maximize`. -/
theorem C36_maximum (I : Interp) (cfg : CCfg) (c c' : Ctx) (f : Expr) (wf : BoxWf c.box)
    (hs : ∀ f ∈ c.stack.vec, SortedF f ∧ Old c.sat.abs.next f)
    (ho : SortedE f ∧ OldE c.sat.abs.next f) (h : maximize cfg c f = .ok c') :
    ∃ (psi : Fml) (zs : List Variable) (d : Ctx), (∀ z ∈ zs, c.sat.abs.next ≤ z.id) ∧
      d.box = zs.foldl addToBox c.box ∧ d.stack = c.stack ∧ assertF cfg d psi = .ok c' ∧
      ∀ ρ, Feasible I c.box c.stack.vec ρ →
        ((∃ τ : Valuation, (∀ v, v ∉ zs → τ v = ρ v) ∧ holds I τ psi) ↔
          ∀ σ, Feasible I c.box c.stack.vec σ → eval I σ f ≤ eval I ρ f) := by
  obtain ⟨psi, zs, d, h1, h2, h3, h4, h5⟩ :=
    C36_minimum I cfg c c' (.mul (.const (-1)) f) wf hs ⟨⟨trivial, ho.1⟩, trivial, ho.2⟩ h
  refine ⟨psi, zs, d, h1, h2, h3, h4, fun ρ hρ => ?_⟩
  rw [h5 ρ hρ]
  simp [eval]

/-- The collection of related constraints ends: `Minimize` stops. -/
theorem C36_stops (next : Nat) (b : Box) (stack : List Fml) (objs : List Expr) :
    minimizePsi next b stack objs ≠ .oof := by
  obtain ⟨r, hr⟩ := relatedLoop_total (stack := stack) (n := stack.length + 1)
    (r := ⟨addVars [] (objs.flatMap Expr.vars), [], false⟩) List.nodup_nil (by simp) (by simp)
  unfold minimizePsi
  rw [hr, Run.bind_ok]
  split_ifs <;> simp

/-- The hypotheses are met: `x` in `[0, 4]`, `y` in `[1, 2]` and `w`, with `x + y ≥ 3` asserted,
minimising `x`.  The constraint, written out, says `z0 = x` and that for all `x'`, `y'` one of the
bounds or `x' + y' ≥ 3` is violated or `z0 ≤ x'`; `w` does not occur. -/
example :
    let x : Variable := ⟨0, .continuous⟩
    let y : Variable := ⟨1, .continuous⟩
    let w : Variable := ⟨2, .continuous⟩
    let x' : Variable := ⟨3, .continuous⟩
    let y' : Variable := ⟨4, .continuous⟩
    let z : Variable := ⟨5, .continuous⟩
    let b : Box := ⟨[x, y, w], [⟨.fin 0, .fin 4⟩, ⟨.fin 1, .fin 2⟩, ⟨.ninf, .pinf⟩], false⟩
    let f : Fml := .rel .geq (.add (.var x) (.var y)) (.const 3)
    let g : Fml := .rel .leq (.var w) (.const 7)
    minimizePsi 3 b [f, g] [.var x] = .ok (.conj [.rel .eq (.var z) (.var x), .all [x', y'] (.disj [
      .neg (.rel .leq (.const 0) (.var x')), .neg (.rel .leq (.var x') (.const 4)),
      .neg (.rel .leq (.const 1) (.var y')), .neg (.rel .leq (.var y') (.const 2)),
      .neg (.rel .geq (.add (.var x') (.var y')) (.const 3)), .rel .leq (.var z) (.var x')])],
      [z], 6) := by
  decide +kernel

example : ∃ (cfg : CCfg) (c c' : Ctx) (f : Expr), minimize cfg c [f] = .ok c' ∧ BoxWf c.box ∧
    (∀ f ∈ c.stack.vec, SortedF f ∧ Old c.sat.abs.next f) ∧ SortedE f ∧ OldE c.sat.abs.next f ∧
    ∀ I, Feasible I c.box c.stack.vec fun _ => 1 := by
  let x : Variable := ⟨0, .continuous⟩
  let y : Variable := ⟨1, .continuous⟩
  let f : Fml := .rel .leq (.add (.var x) (.var y)) (.const 3)
  let c : Ctx := { Ctx.init 2 with
    boxes := { vec := [⟨[x, y], [⟨.fin 0, .fin 4⟩, ⟨.fin 1, .pinf⟩], false⟩] }
    stack := { vec := [f] } }
  obtain ⟨c', hc'⟩ : ∃ c', minimize demoCfg c [.var x] = .ok c' := by
    let x' : Variable := ⟨2, .continuous⟩
    let y' : Variable := ⟨3, .continuous⟩
    let z : Variable := ⟨4, .continuous⟩
    let e : Fml := .rel .eq (.var z) (.var x)
    let q : Fml := .disj [.neg (.rel .leq (.const 0) (.var x')), .neg (.rel .leq (.var x') (.const 4)),
      .neg (.rel .leq (.const 1) (.var y')),
      .neg (.rel .leq (.add (.var x') (.var y')) (.const 3)), .rel .leq (.var z) (.var x')]
    let n : Fml := .disj [.rel .gt (.const 0) (.var x'), .rel .gt (.var x') (.const 4),
      .rel .gt (.const 1) (.var y'), .rel .gt (.add (.var x') (.var y')) (.const 3),
      .rel .leq (.var z) (.var x')]
    let psi : Fml := .conj [e, .all [x', y'] q]
    let d : Ctx := c.setBox (addToBox c.box z)
    have h1 : minimizePsi c.sat.abs.next c.box c.stack.vec [.var x] = .ok (psi, [z], 5) := by
      decide +kernel
    have h2 : naiveCnf q = .ok n := by
      have : nnf true q = n := by decide +kernel
      rw [naiveCnf, this]
      simp only [naiveVisit, naiveVisitList, n, Outcome.bind_ok]
      decide +kernel
    have h3 : tseitin 5 psi = .ok ([e, .all [x', y'] n], 6) := by
      simp only [tseitin, tsVisit, tsVisitList, psi, e, h2, Outcome.bind_ok]
      decide +kernel
    have h4 : Filter.filter demoCfg.th.dbl psi d.box = .ok (.notFiltered, d.box) := by decide +kernel
    have h5 : iteProcess 5 psi = (psi, [], 5) := by decide +kernel
    have h6 : ∀ r : Outcome SatState, (match r with | .ok _ => true | _ => false) = true →
        ∃ s, r = .ok s := by
      intro r hr
      cases r with
      | ok s => exact ⟨s, rfl⟩
      | throw => cases hr
      | ub => cases hr
    let s0 : SatState := { c.sat with abs := { c.sat.abs with next := 5 } }
    obtain ⟨s, hs⟩ : ∃ s, addFormula s0 psi = .ok s := by
      apply h6
      have : tseitin s0.abs.next psi = .ok ([e, .all [x', y'] n], 6) := h3
      rw [addFormula, this]
      decide +kernel
    have h7 : assertF demoCfg { d with sat := s0 } psi =
        .ok { d with stack := c.stack.pushBack psi, sat := s } := by
      have t1 : psi ≠ .tt := by simp [psi]
      have t2 : psi ≠ .ff := by simp [psi]
      have t3 : ({ d with sat := s0 } : Ctx).box.empty = false := by decide +kernel
      unfold assertF
      rw [if_neg t1, t3, if_neg (by decide), if_neg t2]
      have h4' : Filter.filter demoCfg.th.dbl psi ({ d with sat := s0 } : Ctx).box =
        .ok (.notFiltered, d.box) := h4
      have hs' : addFormula { s0 with abs := { s0.abs with next := 5 } } psi = .ok s := hs
      rw [h4', Outcome.bind_ok]
      have t4 : d.box.bot = false := by decide +kernel
      have t5 : iteProcess (({ d with sat := s0 } : Ctx).setBox d.box).sat.abs.next psi =
        (psi, [], 5) := h5
      simp only [t4, Bool.false_eq_true, if_false, t5, List.foldl_nil]
      have t6 : addFormula { ((({ d with sat := s0 } : Ctx).setBox d.box).setBox
        (({ d with sat := s0 } : Ctx).setBox d.box).box).sat with
          abs := { ((({ d with sat := s0 } : Ctx).setBox d.box).setBox
        (({ d with sat := s0 } : Ctx).setBox d.box).box).sat.abs with next := 5 } } psi = .ok s := hs
      rw [t6, Outcome.bind_ok]
      rfl
    exact ⟨_, by rw [minimize, h1, Run.bind_ok]; exact congrArg Run.lift h7⟩
  refine ⟨demoCfg, c, c', .var x, hc', ⟨rfl, by decide⟩, ?_, by simp [SortedE, x],
    by simp [OldE, x, c, Ctx.init], ?_⟩
  · intro g hg
    simp only [c, List.mem_singleton] at hg
    subst hg
    simp [f, SortedF, SortedE, Old, OldE, x, y, c, Ctx.init]
  · intro I
    refine ⟨⟨rfl, ?_⟩, ?_, ?_⟩
    · intro i v hi
      match i with
      | 0 => simp [c, Ctx.box, InItv, below, above, Box.get]
      | 1 => simp [c, Ctx.box, InItv, below, above, Box.get]
      | n + 2 => simp [c, Ctx.box] at hi
    · intro v hv
      have hv : v = x ∨ v = y := by simpa [c, Ctx.box] using hv
      rcases hv with rfl | rfl <;> trivial
    · intro g hg
      simp only [c, List.mem_singleton] at hg
      subst hg
      simp [f, relSem, eval]
      norm_num

/-- With a constraint that relates the objective to a Boolean variable, nothing is installed:
`Minimize` throws. -/
theorem C36_boolean : ∃ (b : Box) (f : Fml) (e : Expr), SortedF f ∧ SortedE e ∧
    (∀ v ∈ f.fv, v ∈ b.vars) ∧ (∀ v ∈ e.vars, v ∈ b.vars) ∧ minimizePsi 2 b [f] [e] = .throw := by
  let x : Variable := ⟨0, .continuous⟩
  let p : Variable := ⟨1, .boolean⟩
  refine ⟨⟨[x, p], [⟨.fin 0, .fin 4⟩, ⟨.fin 0, .fin 1⟩], false⟩,
    .disj [.bvar p, .rel .geq (.var x) (.const 1)], .var x, ?_, ?_, ?_, ?_, by decide +kernel⟩ <;>
    simp [SortedF, SortedFs, SortedE, x, p, Fml.fv, Fml.fvList, Expr.vars]

end Verif.Props
