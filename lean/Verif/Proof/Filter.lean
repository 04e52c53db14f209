import Verif.Spec.Filter
import Verif.Proof.Eval
import Verif.Proof.Contractor

/-!
# Absorbing bounds: lemmas
-/

namespace Verif.Proof
open Verif Verif.Model Verif.Spec Verif.Model.Filter

/-- `b'` is `b` with the interval of `v` restricted to the values satisfying `P`. -/
structure UpdOk (b : Box) (v : Variable) (P : ℝ → Prop) (b' : Box) : Prop where
  shape : b'.vars = b.vars ∧ b'.vals.length = b.vals.length
  live : b'.bot = false → b.bot = false ∧ (∀ j, j ≠ b.index v → b'.get j = b.get j) ∧
    (∀ x, InItv x (b'.getV v) ↔ InItv x (b.getV v) ∧ P x) ∧
    ((∃ x, InItv x (b.getV v)) → ∃ x, InItv x (b'.getV v))
  dead : b'.bot = true → b.bot = true ∨ ∀ x, InItv x (b.getV v) → ¬ P x

theorem updOk_same {b : Box} {v P} (h : ∀ x, InItv x (b.getV v) → P x) : UpdOk b v P b :=
  ⟨⟨rfl, rfl⟩, fun hb => ⟨hb, fun _ _ => rfl, fun x => ⟨fun hx => ⟨hx, h x hx⟩, fun hx => hx.1⟩,
    fun hx => hx⟩, fun hb => Or.inl hb⟩

theorem updOk_empty {b b' : Box} {v P} (hv : b'.vars = b.vars)
    (hl : b'.vals.length = b.vals.length) (hb : b'.bot = true)
    (h : b.bot = true ∨ ∀ x, InItv x (b.getV v) → ¬ P x) : UpdOk b v P b' :=
  ⟨⟨hv, hl⟩, fun hb' => by simp [hb] at hb', fun _ => h⟩

theorem setV_getV {b : Box} (wf : BoxWf b) {v} (hv : v ∈ b.vars) {iv : Itv} :
    (b.setV v iv).getV v = iv := by
  have h := (index_of_mem hv).2
  have hl : b.index v < b.vals.length := by rw [wf.1]; exact lt_of_getElem? h
  show (b.set (b.index v) iv).get (b.index v) = iv
  exact get_set_self hl

theorem updOk_set {b : Box} (wf : BoxWf b) {v P iv} (hv : v ∈ b.vars) (hb : b.bot = false)
    (h : ∀ x, InItv x iv ↔ InItv x (b.getV v) ∧ P x) (hne : ∃ x, InItv x iv) :
    UpdOk b v P (b.setV v iv) := by
  refine ⟨⟨rfl, by simp [Box.setV, Box.set]⟩, fun _ => ⟨hb, fun j hj => ?_, ?_, ?_⟩, fun h2 => ?_⟩
  · exact get_set_ne (Ne.symm hj)
  · rw [setV_getV wf hv]; exact h
  · rw [setV_getV wf hv]; exact fun _ => hne
  · exact Or.inl h2

theorem updLower_ok {b : Box} (wf : BoxWf b) {v} (hv : v ∈ b.vars) (q : ℚ) :
    UpdOk b v (fun x => (q : ℝ) ≤ x) (updLower b v q).2 ∧
    (updLower b v q).1 ≠ .notFiltered ∧
    ((updLower b v q).1 = .withoutChange → (updLower b v q).2 = b) := by
  unfold updLower
  cases hb : b.bot with
  | true => simp only [if_true]; exact ⟨updOk_empty rfl rfl rfl (Or.inl hb), by simp, by simp⟩
  | false =>
    simp only [Bool.false_eq_true, if_false]
    split_ifs with h1 h2
    · refine ⟨updOk_same fun x hx => ?_, by simp, by simp⟩
      exact below_mono h1 hx.1
    · refine ⟨updOk_set wf hv hb ?_ ?_, by simp, by simp⟩
      · intro x
        constructor
        · rintro ⟨h3, h4⟩
          exact ⟨⟨below_mono (le_of_lt (not_le.mp h1)) h3, h4⟩, h3⟩
        · rintro ⟨h3, h4⟩
          exact ⟨h4, h3.2⟩
      · refine exists_in_of_not_isEmpty (not_isEmpty_iff.mpr ⟨h2, by simp, ?_⟩)
        intro h3; rw [h3] at h2; simp at h2
    · refine ⟨updOk_empty rfl rfl rfl (Or.inr fun x hx hq => h2 ?_), by simp, by simp⟩
      exact below_le_above (a := .fin q) hq hx.2

theorem updUpper_ok {b : Box} (wf : BoxWf b) {v} (hv : v ∈ b.vars) (q : ℚ) :
    UpdOk b v (fun x => x ≤ (q : ℝ)) (updUpper b v q).2 ∧
    (updUpper b v q).1 ≠ .notFiltered ∧
    ((updUpper b v q).1 = .withoutChange → (updUpper b v q).2 = b) := by
  unfold updUpper
  cases hb : b.bot with
  | true => simp only [if_true]; exact ⟨updOk_empty rfl rfl rfl (Or.inl hb), by simp, by simp⟩
  | false =>
    simp only [Bool.false_eq_true, if_false]
    split_ifs with h1 h2
    · refine ⟨updOk_same fun x hx => ?_, by simp, by simp⟩
      exact above_mono h1 hx.2
    · refine ⟨updOk_set wf hv hb ?_ ?_, by simp, by simp⟩
      · intro x
        constructor
        · rintro ⟨h3, h4⟩
          exact ⟨⟨h3, above_mono (le_of_lt (not_le.mp h1)) h4⟩, h4⟩
        · rintro ⟨h3, h4⟩
          exact ⟨h3.1, h4⟩
      · refine exists_in_of_not_isEmpty (not_isEmpty_iff.mpr ⟨h2, ?_, by simp⟩)
        intro h3; rw [h3] at h2; simp at h2
    · refine ⟨updOk_empty rfl rfl rfl (Or.inr fun x hx hq => h2 ?_), by simp, by simp⟩
      exact below_le_above (b := .fin q) hx.1 hq

theorem updEq_ok {b : Box} (wf : BoxWf b) {v} (hv : v ∈ b.vars) (q : ℚ) :
    UpdOk b v (fun x => (q : ℝ) ≤ x ∧ x ≤ q) (updEq b v q).2 ∧
    (updEq b v q).1 ≠ .notFiltered ∧
    ((updEq b v q).1 = .withoutChange → (updEq b v q).2 = b) := by
  unfold updEq
  cases hb : b.bot with
  | true => simp only [if_true]; exact ⟨updOk_empty rfl rfl rfl (Or.inl hb), by simp, by simp⟩
  | false =>
    simp only [Bool.false_eq_true, if_false]
    split_ifs with h1 h2
    · refine ⟨updOk_same fun x hx => ?_, by simp, by simp⟩
      have e : b.getV v = Itv.point q := by
        obtain ⟨e1, e2⟩ := h1
        cases hg : b.getV v with
        | mk l u => rw [hg] at e1 e2; simp only at e1 e2; rw [e1, e2]; rfl
      rw [e, in_point] at hx
      exact ⟨hx ▸ le_refl _, hx ▸ le_refl _⟩
    · refine ⟨updOk_set wf hv hb ?_ ⟨q, in_point.mpr rfl⟩, by simp, by simp⟩
      intro x
      rw [in_point]
      constructor
      · rintro rfl; exact ⟨in_hasQ.mp h2, le_refl _, le_refl _⟩
      · rintro ⟨_, h3, h4⟩; exact le_antisymm h4 h3
    · refine ⟨updOk_empty rfl rfl rfl (Or.inr fun x hx hq => h2 ?_), by simp, by simp⟩
      rw [in_hasQ, le_antisymm hq.1 hq.2]; exact hx

theorem updEqItv_ok {b : Box} (wf : BoxWf b) {v} (hv : v ∈ b.vars) (lo hi : ℚ) :
    UpdOk b v (fun x => (lo : ℝ) ≤ x ∧ x ≤ hi) (updEqItv b v lo hi).2 ∧
    (updEqItv b v lo hi).1 ≠ .notFiltered ∧
    ((updEqItv b v lo hi).1 = .withoutChange → (updEqItv b v lo hi).2 = b) := by
  have hin : ∀ x, InItv x ((b.getV v).inter ⟨.fin lo, .fin hi⟩) ↔
      InItv x (b.getV v) ∧ ((lo : ℝ) ≤ x ∧ x ≤ hi) := fun x => in_inter
  unfold updEqItv
  cases hb : b.bot with
  | true => simp only [if_true]; exact ⟨updOk_empty rfl rfl rfl (Or.inl hb), by simp, by simp⟩
  | false =>
    simp only [Bool.false_eq_true, if_false]
    split_ifs with h1 h2
    · refine ⟨updOk_same fun x hx => ?_, by simp, by simp⟩
      obtain ⟨h3, h4⟩ := hx
      rw [h1.1] at h3; rw [h1.2] at h4
      exact ⟨h3, h4⟩
    · refine ⟨updOk_empty rfl (by simp [Box.setV, Box.set, Box.setEmpty]) rfl
        (Or.inr fun x hx hq => ?_), by simp, by simp⟩
      exact not_in_of_isEmpty h2 x ((hin x).mpr ⟨hx, hq⟩)
    · exact ⟨updOk_set wf hv hb hin (exists_in_of_not_isEmpty (by simpa using h2)), by simp,
        by simp⟩

/-- What the filter does with `v op [lo, hi]`. -/
def Acts (d : Dbl) (b : Box) (v : Variable) (lo hi : ℚ) (r : FilterRes) (b' : Box) : RelOp → Prop
  | .eq => (lo = hi ∧ updEq b v lo = (r, b')) ∨ updEqItv b v lo hi = (r, b')
  | .neq => r = .notFiltered ∧ b' = b
  | .geq => updLower b v lo = (r, b')
  | .leq => updUpper b v hi = (r, b')
  | .gt => updStrictLower d b v lo = .ok (r, b')
  | .lt => updStrictUpper d b v hi = .ok (r, b')

/-- The relation with the negations pushed in decides what `visit` does. -/
def relAct (d : Dbl) (b : Box) (x y : Expr) : RelOp → Outcome (FilterRes × Box)
  | .eq => .ok (visitEq b true x y)
  | .neq => .ok (visitEq b false x y)
  | .gt => visitGt d b true x y
  | .leq => visitGt d b false x y
  | .geq => visitGeq d b true x y
  | .lt => visitGeq d b false x y

theorem visit_asRel {d : Dbl} {b : Box} : ∀ (f : Fml) (pol : Bool) {op x y},
    asRel f = some (op, x, y) →
    visit d b pol f = relAct d b x y (if pol then op else op.neg) := by
  intro f
  induction f using Fml.rec (motive_1 := fun _ => True) (motive_3 := fun _ => True) with
  | rel o x' y' =>
    intro pol op x y h
    simp only [asRel, Option.some.injEq, Prod.mk.injEq] at h
    obtain ⟨rfl, rfl, rfl⟩ := h
    cases o <;> cases pol <;> rfl
  | neg f ih =>
    intro pol op x y h
    simp only [asRel, Option.map_eq_some_iff] at h
    obtain ⟨⟨o, x', y'⟩, h1, h2⟩ := h
    simp only [Prod.mk.injEq] at h2
    obtain ⟨rfl, rfl, rfl⟩ := h2
    simp only [visit]
    rw [ih (!pol) h1]
    cases pol <;> cases o <;> rfl
  | _ => first | trivial | (intro pol op x y h; simp [asRel] at h)

theorem visit_none {d : Dbl} {b : Box} : ∀ (f : Fml) (pol : Bool), asRel f = none →
    visit d b pol f = .ok (.notFiltered, b) := by
  intro f
  induction f using Fml.rec (motive_1 := fun _ => True) (motive_3 := fun _ => True) with
  | rel o x' y' => intro pol h; simp [asRel] at h
  | neg f ih =>
    intro pol h
    simp only [asRel, Option.map_eq_none_iff] at h
    simp only [visit]; exact ih _ h
  | _ => first | trivial | (intro pol h; rfl)

theorem filter_cases {d : Dbl} {f : Fml} {b : Box} {r b'} (h : filter d f b = .ok (r, b')) :
    (asBound f = none ∧ r = .notFiltered ∧ b' = b) ∨
    ∃ v op lo hi ex, asBound f = some (v, op, lo, hi, ex) ∧ Acts d b v lo hi r b' op := by
  unfold filter at h
  cases hr : asRel f with
  | none =>
    rw [visit_none f true hr] at h
    simp only [Outcome.ok.injEq, Prod.mk.injEq] at h
    exact Or.inl ⟨by simp [asBound, hr], h.1.symm, h.2.symm⟩
  | some p =>
    obtain ⟨op, x, y⟩ := p
    rw [visit_asRel f true hr] at h
    simp only [if_true] at h
    have key : ∀ (x y : Expr), relAct d b x y op = .ok (r, b') →
        asBound f = (match x, y with
          | .var v, e => (asNum e).map fun n => (v, op, n)
          | e, .var v => (asNum e).map fun n => (v, flipRel op, n)
          | _, _ => none) → (asBound f = none ∧ r = .notFiltered ∧ b' = b) ∨
        ∃ v op lo hi ex, asBound f = some (v, op, lo, hi, ex) ∧ Acts d b v lo hi r b' op := by
      intro x y h hb
      cases op <;> cases x <;> cases y <;>
        simp only [relAct, visitEq, visitGt, visitGeq, Outcome.ok.injEq, Prod.mk.injEq, if_true,
          Bool.false_eq_true, if_false, asNum, Option.map_some, Option.map_none, flipRel] at h hb <;>
        first
        | exact Or.inl ⟨hb, h.1.symm, h.2.symm⟩
        | exact Or.inr ⟨_, _, _, _, _, hb, h⟩
        | exact Or.inr ⟨_, _, _, _, _, hb, h.1.symm, h.2.symm⟩
        | exact Or.inr ⟨_, _, _, _, _, hb, Or.inr h⟩
        | exact Or.inr ⟨_, _, _, _, _, hb, Or.inl ⟨rfl, h⟩⟩
    refine key x y h ?_
    simp only [asBound, hr]
    cases x <;> cases y <;> rfl

/-- The values the filter keeps for `v op [lo, hi]`. -/
def keeps (d : Dbl) (t : VType) (lo hi : ℚ) (x : ℝ) : RelOp → Prop
  | .eq => (lo : ℝ) ≤ x ∧ x ≤ hi
  | .neq => True
  | .geq => (lo : ℝ) ≤ x
  | .leq => x ≤ hi
  | .gt => if t = .continuous then ((d.nextafter lo d.maxv : ℚ) : ℝ) ≤ x else (lo : ℝ) ≤ x
  | .lt => if t = .continuous then x ≤ ((d.nextafter hi d.minv : ℚ) : ℝ) else x ≤ (hi : ℝ)

theorem acts_ok {d : Dbl} {b : Box} (wf : BoxWf b) {v lo hi r b' op} (hv : v ∈ b.vars)
    (h : Acts d b v lo hi r b' op) :
    UpdOk b v (fun x => keeps d v.type lo hi x op) b' ∧
    (r = .withoutChange → b' = b) ∧
    (r = .notFiltered → op = .neq ∨ ((op = .gt ∨ op = .lt) ∧ v.type ≠ .continuous)) := by
  cases op with
  | eq =>
    rcases h with ⟨rfl, h⟩ | h
    · obtain ⟨h1, h2, h3⟩ := updEq_ok wf hv lo
      rw [h] at h1 h2 h3
      exact ⟨h1, h3, fun h => absurd h h2⟩
    · obtain ⟨h1, h2, h3⟩ := updEqItv_ok wf hv lo hi
      rw [h] at h1 h2 h3
      exact ⟨h1, h3, fun h => absurd h h2⟩
  | neq =>
    obtain ⟨rfl, rfl⟩ := h
    exact ⟨updOk_same fun _ _ => trivial, by simp, fun _ => Or.inl rfl⟩
  | geq =>
    have h : updLower b v lo = (r, b') := h
    obtain ⟨h1, h2, h3⟩ := updLower_ok wf hv lo
    rw [h] at h1 h2 h3
    exact ⟨h1, h3, fun h => absurd h h2⟩
  | leq =>
    have h : updUpper b v hi = (r, b') := h
    obtain ⟨h1, h2, h3⟩ := updUpper_ok wf hv hi
    rw [h] at h1 h2 h3
    exact ⟨h1, h3, fun h => absurd h h2⟩
  | gt =>
    have h : updStrictLower d b v lo = .ok (r, b') := h
    unfold updStrictLower at h
    cases ht : v.type with
    | continuous =>
      simp only [ht, Outcome.ok.injEq] at h
      obtain ⟨h1, h2, h3⟩ := updLower_ok wf hv (d.nextafter lo d.maxv)
      rw [h] at h1 h2 h3
      exact ⟨by simpa only [keeps, if_true] using h1, h3, fun h => absurd h h2⟩
    | integer =>
      simp only [ht, Outcome.ok.injEq, Prod.mk.injEq] at h
      obtain ⟨h1, h2, h3⟩ := updLower_ok wf hv lo
      rw [h.2] at h1
      exact ⟨by simpa [keeps] using h1, by simp [← h.1], fun _ => by simp⟩
    | binary =>
      simp only [ht, Outcome.ok.injEq, Prod.mk.injEq] at h
      obtain ⟨h1, h2, h3⟩ := updLower_ok wf hv lo
      rw [h.2] at h1
      exact ⟨by simpa [keeps] using h1, by simp [← h.1], fun _ => by simp⟩
    | boolean => simp [ht] at h
  | lt =>
    have h : updStrictUpper d b v hi = .ok (r, b') := h
    unfold updStrictUpper at h
    cases ht : v.type with
    | continuous =>
      simp only [ht, Outcome.ok.injEq] at h
      obtain ⟨h1, h2, h3⟩ := updUpper_ok wf hv (d.nextafter hi d.minv)
      rw [h] at h1 h2 h3
      exact ⟨by simpa only [keeps, if_true] using h1, h3, fun h => absurd h h2⟩
    | integer =>
      simp only [ht, Outcome.ok.injEq, Prod.mk.injEq] at h
      obtain ⟨h1, h2, h3⟩ := updUpper_ok wf hv hi
      rw [h.2] at h1
      exact ⟨by simpa [keeps] using h1, by simp [← h.1], fun _ => by simp⟩
    | binary =>
      simp only [ht, Outcome.ok.injEq, Prod.mk.injEq] at h
      obtain ⟨h1, h2, h3⟩ := updUpper_ok wf hv hi
      rw [h.2] at h1
      exact ⟨by simpa [keeps] using h1, by simp [← h.1], fun _ => by simp⟩
    | boolean => simp [ht] at h

/-- What a bound says about the value of its variable. -/
theorem asBound_holds {I : Interp} {ρ : Valuation} {f v op lo hi ex}
    (h : asBound f = some (v, op, lo, hi, ex)) :
    (holds I ρ f ↔ relSem op (ρ v) (ex : ℝ)) ∧ v ∈ f.fv ∧ (∀ w ∈ f.fv, w = v) ∧
    (RcOkF f → lo ≤ ex ∧ ex ≤ hi) := by
  unfold asBound at h
  have hnum : ∀ {e : Expr} {n : ℚ × ℚ × ℚ}, asNum e = some n → eval I ρ e = (n.2.2 : ℝ) ∧
      e.vars = [] ∧ (RcOkE e → n.1 ≤ n.2.2 ∧ n.2.2 ≤ n.2.1) := by
    intro e n hn
    cases e <;> simp only [asNum, Option.some.injEq, reduceCtorEq] at hn
    · subst hn; simp [eval, Expr.vars]
    · subst hn; simp [eval, Expr.vars, RcOkE]
  split at h
  · rename_i op' w e hr
    simp only [Option.map_eq_some_iff, Prod.mk.injEq] at h
    obtain ⟨n, hn, rfl, rfl, rfl⟩ := h
    obtain ⟨h1, h2, h3⟩ := hnum hn
    have hfv := asRel_fv hr
    refine ⟨by rw [asRel_holds hr, h1]; rfl, ?_, ?_, ?_⟩
    · rw [hfv]; simp [Expr.vars]
    · intro u hu; rw [hfv, h2] at hu; simpa [Expr.vars] using hu
    · intro hrc; exact h3 ((asRel_rc hr).mp hrc).2
  · rename_i op' e w hne hr
    simp only [Option.map_eq_some_iff, Prod.mk.injEq] at h
    obtain ⟨n, hn, rfl, rfl, rfl⟩ := h
    obtain ⟨h1, h2, h3⟩ := hnum hn
    have hfv := asRel_fv hr
    refine ⟨?_, ?_, ?_, ?_⟩
    · rw [asRel_holds hr, h1]
      show relSem op' _ (ρ w) ↔ _
      cases op' <;> simp only [relSem, flipRel] <;> first | exact eq_comm | exact ne_comm | exact Iff.rfl
    · rw [hfv]; simp [Expr.vars]
    · intro u hu; rw [hfv, h2] at hu; simpa [Expr.vars] using hu
    · intro hrc; exact h3 ((asRel_rc hr).mp hrc).1
  · cases h

theorem UpdOk.wf {b v P b'} (h : UpdOk b v P b') (wf : BoxWf b) : BoxWf b' :=
  ⟨by rw [h.shape.2, h.shape.1]; exact wf.1, by rw [h.shape.1]; exact wf.2⟩

theorem getV_congr {b b' : Box} (h : b'.vars = b.vars) (v) : b'.getV v = b'.get (b.index v) := by
  simp only [Box.getV, Box.index, h]

theorem updOk_in {b v P b'} (h : UpdOk b v P b') (hv : v ∈ b.vars) {ρ : Valuation} :
    InBox ρ b' ↔ InBox ρ b ∧ P (ρ v) := by
  have hi := (index_of_mem hv).2
  constructor
  · rintro ⟨h1, h2⟩
    obtain ⟨l1, l2, l3, l4⟩ := h.live h1
    have h3 := h2 (b.index v) v (by rw [h.shape.1]; exact hi)
    rw [← getV_congr h.shape.1, l3] at h3
    refine ⟨⟨l1, fun i w hw => ?_⟩, h3.2⟩
    by_cases hj : i = b.index v
    · subst hj
      rw [hi] at hw; cases hw; exact h3.1
    · rw [← l2 i hj]; exact h2 i w (by rw [h.shape.1]; exact hw)
  · rintro ⟨⟨h1, h2⟩, h3⟩
    have hin := h2 _ v hi
    have hb : b'.bot = false := by
      by_contra hb
      rcases h.dead (by simpa using hb) with h4 | h4
      · rw [h1] at h4; cases h4
      · exact h4 _ hin h3
    obtain ⟨l1, l2, l3, l4⟩ := h.live hb
    refine ⟨hb, fun i w hw => ?_⟩
    rw [h.shape.1] at hw
    by_cases hj : i = b.index v
    · subst hj
      rw [hi] at hw; cases hw
      rw [← getV_congr h.shape.1, l3]
      exact ⟨hin, h3⟩
    · rw [l2 i hj]; exact h2 i w hw

/-- A value of `v` that satisfies the bound and avoids the gap is kept. -/
theorem keeps_of_sem {d : Dbl} (hd : DblOk d) {t : VType} {lo hi ex : ℚ} {x : ℝ} {op : RelOp}
    (hrc : lo ≤ ex ∧ ex ≤ hi) (h : relSem op x (ex : ℝ))
    (hg : t = .continuous → (op = .gt → ¬ ((lo : ℝ) < x ∧ x < d.succ lo)) ∧
      (op = .lt → ¬ ((d.pred hi : ℝ) < x ∧ x < hi))) : keeps d t lo hi x op := by
  have h1 : (lo : ℝ) ≤ ex := by exact_mod_cast hrc.1
  have h2 : (ex : ℝ) ≤ hi := by exact_mod_cast hrc.2
  cases op with
  | eq => simp only [relSem] at h; subst h; exact ⟨h1, h2⟩
  | neq => trivial
  | geq => exact h1.trans h
  | leq => exact le_trans h h2
  | gt =>
    simp only [relSem, gt_iff_lt] at h
    simp only [keeps]
    split_ifs with ht
    · simp only [Dbl.nextafter]
      split_ifs with e1 e2
      · rw [← e1]; linarith
      · by_contra hlt
        exact (hg ht).1 rfl ⟨by linarith, not_le.mp hlt⟩
      · have : ((d.pred lo : ℚ) : ℝ) < lo := by exact_mod_cast hd.pred lo
        linarith
    · linarith
  | lt =>
    simp only [relSem] at h
    simp only [keeps]
    split_ifs with ht
    · simp only [Dbl.nextafter]
      split_ifs with e1 e2
      · rw [← e1]; linarith
      · have : (hi : ℝ) < (d.succ hi : ℚ) := by exact_mod_cast hd.succ hi
        linarith
      · by_contra hlt
        exact (hg ht).2 rfl ⟨not_le.mp hlt, by linarith⟩
    · linarith

theorem filter_spec {I : Interp} {d : Dbl} (hd : DblOk d) {f : Fml} {b b' : Box}
    {r : FilterRes} (wf : BoxWf b) (hv : ∀ v ∈ f.fv, v ∈ b.vars) (hrc : RcOkF f)
    (h : filter d f b = .ok (r, b')) :
    b'.vars = b.vars ∧ BoxWf b' ∧ (∀ ρ, InBox ρ b' → InBox ρ b) ∧
    (∀ ρ, InBox ρ b → holds I ρ f → NoGap d ρ f → InBox ρ b') ∧
    (r = .withoutChange → b' = b) ∧
    (r = .notFiltered → b' = b ∨ ∃ v op n, asBound f = some (v, op, n) ∧
      (op = .gt ∨ op = .lt) ∧ (v.type = .integer ∨ v.type = .binary)) := by
  rcases filter_cases h with ⟨h1, rfl, rfl⟩ | ⟨v, op, lo, hi, ex, h1, h2⟩
  · exact ⟨rfl, wf, fun _ h => h, fun _ h _ _ => h, fun _ => rfl, fun _ => Or.inl rfl⟩
  · obtain ⟨b1, b2, b3, b4⟩ := asBound_holds (I := I) (ρ := fun _ => 0) h1
    have hvb := hv v b2
    obtain ⟨a1, a2, a3⟩ := acts_ok wf hvb h2
    refine ⟨a1.shape.1, a1.wf wf, fun ρ hρ => ((updOk_in a1 hvb).mp hρ).1, fun ρ hρ hh hg => ?_,
      a2, fun hr => ?_⟩
    · rw [updOk_in a1 hvb]
      exact ⟨hρ, keeps_of_sem hd (b4 hrc) ((asBound_holds h1).1.mp hh) (hg _ _ _ _ _ h1)⟩
    · rcases a3 hr with rfl | ⟨ho, ht⟩
      · exact Or.inl h2.2
      · refine Or.inr ⟨v, op, _, h1, ho, ?_⟩
        cases hvt : v.type with
        | continuous => exact absurd hvt ht
        | integer => exact Or.inl rfl
        | binary => exact Or.inr rfl
        | boolean =>
          rcases ho with rfl | rfl
          · have h2 : updStrictLower d b v lo = .ok (r, b') := h2
            simp [updStrictLower, hvt] at h2
          · have h2 : updStrictUpper d b v hi = .ok (r, b') := h2
            simp [updStrictUpper, hvt] at h2

end Verif.Proof
