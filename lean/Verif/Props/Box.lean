import Verif.Proof.Box
import Verif.Proof.BoxHeap

/-!
# Boxes: C05 - C08
-/

namespace Verif.Props
open Verif Verif.Model Verif.Spec

/-! ## C05: bisecting a box loses no point and creates none -/

/-- C05.  Whenever `Box::bisect` returns two halves: they have the variables of the box, agree
with it on all other coordinates, cover every well-typed point of the box, contain no point
outside of it, have a non-empty interval in the bisected coordinate, and are disjoint if the
coordinate is not continuous. -/
theorem C05_bisect (fp : Fp) (hc : CutInside fp) (b b1 b2 : Box) (i : Nat) (wf : BoxWf b)
    (h : b.bisect fp i = .ok (b1, b2)) :
    (b1.vars = b.vars ∧ b2.vars = b.vars) ∧
    (∀ j, j ≠ i → b1.get j = b.get j ∧ b2.get j = b.get j) ∧
    (∀ ρ, TypedOn ρ b.vars → InBox ρ b → InBox ρ b1 ∨ InBox ρ b2) ∧
    (∀ ρ, InBox ρ b1 ∨ InBox ρ b2 → InBox ρ b) ∧
    ((∃ x : ℝ, InItv x (b1.get i)) ∧ ∃ x : ℝ, InItv x (b2.get i)) ∧
    (∀ v, b.vars[i]? = some v → v.type ≠ .continuous → ∀ ρ, ¬ (InBox ρ b1 ∧ InBox ρ b2)) := by
  obtain ⟨f1, f2, _, _, f3⟩ := Proof.bisect_frame h
  obtain ⟨n1, n2⟩ := Proof.bisect_nonempty hc wf h
  exact ⟨⟨f1, f2⟩, f3, fun ρ ht hρ => Proof.bisect_cover wf h ht hρ,
    fun ρ hρ => Proof.bisect_sub hc wf h hρ,
    ⟨Proof.exists_in_of_not_isEmpty n1, Proof.exists_in_of_not_isEmpty n2⟩,
    fun v hv ht ρ => Proof.bisect_disjoint wf h hv ht ρ⟩

/-- C05, the call succeeds: a bisectable coordinate of a variable that is not Boolean is
bisected.  Partial: for integer and binary variables the bounds must be integral or infinite
(see `C05_nonintegral_bounds` for what happens otherwise). -/
theorem C05_bisect_total_partial (fp : Fp) (b : Box) (i : Nat) (v : Variable)
    (hv : b.vars[i]? = some v) (hb : fp.bisectable (b.get i) = true)
    (hbool : v.type ≠ .boolean)
    (hint : v.type ≠ .continuous → (b.get i).lb.ceil = (b.get i).lb ∧
      (b.get i).ub.floor = (b.get i).ub) :
    ∃ b1 b2, b.bisect fp i = .ok (b1, b2) := by
  obtain ⟨⟨b1, b2⟩, h⟩ := Proof.bisect_total hv hb hbool hint
  exact ⟨b1, b2, h⟩

/-- The integer variable `x` with the interval `[1/5, 9/10]`: bisectable, but `Box::bisect`
violates its own assertion `lb <= mid_floor` (`dreal/util/box.cc:199`). -/
theorem C05_nonintegral_bounds :
    ∃ (b : Box) (i : Nat), BoxWf b ∧ exactFp.bisectable (b.get i) = true ∧
      b.bisect exactFp i = .ub :=
  ⟨⟨[⟨1, .integer⟩], [⟨.fin (1 / 5), .fin (9 / 10)⟩], false⟩, 0, ⟨rfl, by decide⟩, by decide +kernel,
    by decide +kernel⟩

/-- Concrete case: `x : Int ∈ [0, 5]`, `y ∈ [0, 1]`, bisected on `x`. -/
example : (⟨[⟨1, .integer⟩, ⟨2, .continuous⟩], [⟨.fin 0, .fin 5⟩, ⟨.fin 0, .fin 1⟩], false⟩ :
    Box).bisect exactFp 0 =
      .ok (⟨[⟨1, .integer⟩, ⟨2, .continuous⟩], [⟨.fin 0, .fin 2⟩, ⟨.fin 0, .fin 1⟩], false⟩,
           ⟨[⟨1, .integer⟩, ⟨2, .continuous⟩], [⟨.fin 3, .fin 5⟩, ⟨.fin 0, .fin 1⟩], false⟩) := by
  decide +kernel

/-- Concrete case, continuous. -/
example : (⟨[⟨1, .integer⟩, ⟨2, .continuous⟩], [⟨.fin 0, .fin 5⟩, ⟨.fin 0, .fin 1⟩], false⟩ :
    Box).bisect exactFp 1 =
      .ok (⟨[⟨1, .integer⟩, ⟨2, .continuous⟩], [⟨.fin 0, .fin 5⟩, ⟨.fin 0, .fin (1/2)⟩], false⟩,
           ⟨[⟨1, .integer⟩, ⟨2, .continuous⟩], [⟨.fin 0, .fin 5⟩, ⟨.fin (1/2), .fin 1⟩], false⟩) := by
  decide +kernel

example : CutInside exactFp := exactFp_cutInside

/-! ## C06: branching picks a widest splittable coordinate -/

/-- C06.  `FindMaxDiam` on a non-empty candidate set returns normally; an offered coordinate is a
bisectable candidate of positive diameter, not smaller than that of any bisectable candidate; if
none is offered, no candidate is bisectable with a positive diameter. -/
theorem C06_find_max_diam (fp : Fp) (b : Box) (active : List Nat) (hne : active ≠ []) :
    ∃ d r, b.findMaxDiam fp active = .ok (d, r) ∧
      (∀ i, r = some i → i ∈ active ∧ fp.bisectable (b.get i) = true ∧
        .fin 0 < fp.diam (b.get i) ∧
        ∀ j ∈ active, fp.bisectable (b.get j) = true → fp.diam (b.get j) ≤ fp.diam (b.get i)) ∧
      (r = none → ¬ ∃ j ∈ active, fp.bisectable (b.get j) = true ∧ .fin 0 < fp.diam (b.get j)) := by
  rcases hr : b.maxDiamLoop fp active (.fin 0, none) with ⟨d, r⟩
  refine ⟨d, r, by simp [Box.findMaxDiam, hne, hr], ?_, ?_⟩
  · rintro i rfl
    obtain ⟨h1, h2, h3, h4, h5⟩ := Proof.maxDiam_some hr
    exact ⟨h1, h2, h3 ▸ h4, h5⟩
  · rintro rfl ⟨j, hj, hb, hlt⟩
    exact absurd (Proof.maxDiam_none hr j hj hb) (not_le.mpr hlt)

/-- C06 for `Box::MaxDiam`, which looks at all coordinates. -/
theorem C06_max_diam (fp : Fp) (b : Box) :
    (∀ i, (b.maxDiam fp).2 = some i → i < b.size ∧ fp.bisectable (b.get i) = true ∧
        (b.maxDiam fp).1 = fp.diam (b.get i) ∧
        ∀ j < b.size, fp.bisectable (b.get j) = true → fp.diam (b.get j) ≤ fp.diam (b.get i)) ∧
    ((b.maxDiam fp).2 = none →
      ¬ ∃ j < b.size, fp.bisectable (b.get j) = true ∧ .fin 0 < fp.diam (b.get j)) := by
  rcases hr : b.maxDiam fp with ⟨d, r⟩
  constructor
  · rintro i rfl
    obtain ⟨h1, h2, h3, _, h5⟩ := Proof.maxDiam_some hr
    exact ⟨List.mem_range.mp h1, h2, h3, fun j hj => h5 j (List.mem_range.mpr hj)⟩
  · rintro rfl ⟨j, hj, hb, hlt⟩
    exact absurd (Proof.maxDiam_none hr j (List.mem_range.mpr hj) hb) (not_le.mpr hlt)

/-- C06 for `BranchLargestFirst`: the halves are those of bisecting the chosen coordinate. -/
theorem C06_branch (fp : Fp) (b b1 b2 : Box) (active : List Nat) (i : Nat)
    (h : b.branchLargestFirst fp active = .ok (some (i, b1, b2))) :
    i ∈ active ∧ b.bisect fp i = .ok (b1, b2) ∧
    ∀ j ∈ active, fp.bisectable (b.get j) = true → fp.diam (b.get j) ≤ fp.diam (b.get i) := by
  unfold Box.branchLargestFirst Box.findMaxDiam at h
  by_cases hne : active = []
  · simp [hne] at h
  · simp only [hne, if_false, Outcome.bind_ok] at h
    rcases hr : b.maxDiamLoop fp active (.fin 0, none) with ⟨d, r⟩
    rw [hr] at h
    cases r with
    | none => simp at h
    | some k =>
      cases hb : b.bisect fp k with
      | throw => simp [hb] at h
      | ub => simp [hb] at h
      | ok p =>
        simp only [hb, Outcome.bind_ok, Outcome.ok.injEq, Option.some.injEq, Prod.mk.injEq] at h
        obtain ⟨rfl, rfl, rfl⟩ := h
        obtain ⟨h1, _, _, _, h5⟩ := Proof.maxDiam_some hr
        exact ⟨h1, hb, h5⟩

/-- Concrete case: three coordinates, the widest one is not a candidate. -/
example : (⟨[⟨1, .continuous⟩, ⟨2, .continuous⟩, ⟨3, .continuous⟩],
    [⟨.fin 0, .fin 9⟩, ⟨.fin 0, .fin 1⟩, ⟨.fin 0, .fin 2⟩], false⟩ : Box).findMaxDiam exactFp
      [1, 2] = .ok (.fin 2, some 2) := by decide +kernel

/-! ## C07: boxes are values -/

/-- C07.  Every history of creating, copying, assigning, destroying, extending, writing and
reading boxes shows, for every handle, exactly the box that handle would own if nothing were
shared.  Partial: accesses by variable name variables of the box
(see `C07_read_leaks_to_copies`). -/
theorem C07_boxes_are_values_partial (ops : List BoxOp) (vs : BoxVals)
    (hd : opsDeclared [] ops) (h : boxValRun [] ops = .ok vs) :
    ∃ s, BoxHeap.init.run ops = .ok s ∧ ShowsValues s vs := by
  obtain ⟨s, h1, h2⟩ := Proof.rel_run (s := BoxHeap.init) (vs := []) ⟨rfl, fun _ => trivial⟩ hd h
  exact ⟨s, h1, Proof.rel_shows h2⟩

/-- Two copies of a box on `x`; one is extended by `y` and then written; the other is not
affected. -/
example : opsDeclared [] [.new, .add 0 ⟨1, .continuous⟩, .copy 0, .add 1 ⟨2, .binary⟩,
      .setV 1 ⟨1, .continuous⟩ ⟨.fin 3, .fin 4⟩] ∧
    boxValRun [] [.new, .add 0 ⟨1, .continuous⟩, .copy 0, .add 1 ⟨2, .binary⟩,
      .setV 1 ⟨1, .continuous⟩ ⟨.fin 3, .fin 4⟩] =
    .ok [some ⟨[⟨1, .continuous⟩], [Itv.univ], false⟩,
      some ⟨[⟨1, .continuous⟩, ⟨2, .binary⟩], [⟨.fin 3, .fin 4⟩, ⟨.fin 0, .fin 1⟩], false⟩] := by
  refine ⟨?_, by decide +kernel⟩
  refine ⟨trivial, fun s h => ?_⟩
  simp only [boxValStep, Outcome.ok.injEq] at h; subst h
  refine ⟨trivial, fun s h => ?_⟩
  simp [boxValStep, BoxVals.box?] at h; subst h
  refine ⟨trivial, fun s h => ?_⟩
  simp [boxValStep, BoxVals.box?] at h; subst h
  refine ⟨trivial, fun s h => ?_⟩
  simp [boxValStep, BoxVals.box?] at h; subst h
  refine ⟨fun b hb => ?_, fun s h => trivial⟩
  simp [BoxVals.box?] at hb; subst hb; simp

/-- Reading a box at a variable it does not have (`const` in C++) makes **another** box, a copy
sharing its tables, claim to have that variable. -/
theorem C07_read_leaks_to_copies :
    ∃ (ops : List BoxOp) (s s' : BoxHeap) (y : Variable),
      BoxHeap.init.run ops = .ok s ∧ s.step (.readV 0 y) = .ok s' ∧
      s.hasVar 1 y = some false ∧ s'.hasVar 1 y = some true :=
  ⟨[.new, .add 0 ⟨1, .continuous⟩, .copy 0], _, _, ⟨2, .continuous⟩, rfl, rfl,
    by decide +kernel, by decide +kernel⟩

/-! ## C08: access by variable touches that variable only -/

/-- C08 for variables of the box: reading gives the variable's interval, writing replaces it and
nothing else.  Partial: says nothing for a variable that is not in the box
(see `C08_undeclared_*`). -/
theorem C08_access_declared_partial (b : Box) (wf : BoxWf b) (v : Variable) (iv : Itv) (i : Nat)
    (hv : b.vars[i]? = some v) :
    b.getV v = b.get i ∧ (b.setV v iv).getV v = iv ∧
    (b.setV v iv).vars = b.vars ∧ (b.setV v iv).bot = b.bot ∧
    ∀ w ∈ b.vars, w ≠ v → (b.setV v iv).getV w = b.getV w := by
  have hi := Proof.index_unique wf hv
  have hl : i < b.vals.length := by rw [wf.1]; exact Proof.lt_of_getElem? hv
  have hix : ∀ w, (b.setV v iv).index w = b.index w := fun w => rfl
  refine ⟨by rw [Box.getV, hi], ?_, rfl, rfl, ?_⟩
  · rw [Box.getV, hix, Box.setV, hi, Proof.get_set_self hl]
  · intro w hw hne
    obtain ⟨_, h2⟩ := Proof.index_of_mem hw
    rw [Box.getV, hix, Box.setV, hi, Box.getV]
    refine Proof.get_set_ne ?_
    rintro rfl
    rw [hv] at h2
    exact hne (Option.some.inj h2).symm

/-- Reading at a variable that is not in the box returns the interval of the first variable. -/
theorem C08_undeclared_read (b : Box) (v : Variable) (hv : v ∉ b.vars) : b.getV v = b.get 0 := by
  simp [Box.getV, Box.index, hv]

/-- Writing at a variable that is not in the box overwrites the first variable's interval. -/
theorem C08_undeclared_write (b : Box) (wf : BoxWf b) (v w : Variable) (hv : v ∉ b.vars)
    (hw : b.vars[0]? = some w) (iv : Itv) : (b.setV v iv).getV w = iv := by
  have hi := Proof.index_unique wf hw
  have hl : 0 < b.vals.length := by rw [wf.1]; exact Proof.lt_of_getElem? hw
  have hix : (b.setV v iv).index w = b.index w := rfl
  have h0 : b.index v = 0 := by simp [Box.index, hv]
  rw [Box.getV, hix, hi, Box.setV, h0, Proof.get_set_self hl]

/-- After a look-up of an undeclared `y`, adding `y` to the box leaves `y` bound to the interval
of the first variable: writing `y` then changes `x`. -/
theorem C08_undeclared_then_added :
    ∃ (s : BoxHeap) (x y : Variable), x ≠ y ∧
      BoxHeap.init.run [.new, .add 0 x, .setV 0 x ⟨.fin 0, .fin 1⟩, .readV 0 y, .add 0 y,
        .setV 0 y ⟨.fin 5, .fin 6⟩] = .ok s ∧
      s.getV 0 x = some ⟨.fin 5, .fin 6⟩ :=
  ⟨_, ⟨1, .continuous⟩, ⟨2, .continuous⟩, by decide, rfl, by decide +kernel⟩

/-- Concrete case of `C08_access_declared_partial`. -/
example : BoxWf ⟨[⟨1, .continuous⟩, ⟨2, .continuous⟩],
    [⟨.fin 0, .fin 9⟩, ⟨.fin 0, .fin 1⟩], false⟩ ∧
    ([⟨1, .continuous⟩, ⟨2, .continuous⟩] : List Variable)[1]? = some ⟨2, .continuous⟩ :=
  ⟨⟨rfl, by decide⟩, rfl⟩

end Verif.Props
