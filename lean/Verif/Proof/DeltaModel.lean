import Verif.Proof.DeltaInv
import Verif.Proof.ModelVars
import Verif.Proof.Tighten

/-! # From the box of a delta-sat answer to its model -/

namespace Verif.Proof
open Verif Verif.Model Verif.Spec

theorem get_getV {b : Box} (hw : BoxWf b) {i : Nat} {v} (h : b.vars[i]? = some v) :
    b.get i = b.getV v := by
  obtain ⟨hi, rfl⟩ := List.getElem?_eq_some_iff.mp h
  unfold Box.getV Box.index
  rw [if_pos (List.getElem_mem hi), hw.2.idxOf_getElem]

theorem two_points {iv : Itv} (h1 : iv.isEmpty = false) (h2 : ∀ q, iv ≠ Itv.point q) :
    ∃ x y : ℝ, InItv x iv ∧ InItv y iv ∧ x ≠ y := by
  rw [not_isEmpty_iff] at h1
  obtain ⟨l, u⟩ := iv
  obtain ⟨h1, h3, h4⟩ := h1
  cases l <;> cases u <;> simp_all [InItv, below, above]
  · rename_i q
    exact ⟨q, le_rfl, q - 1, by linarith, by linarith⟩
  · exact ⟨0, 1, by norm_num⟩
  · rename_i p q
    refine ⟨p, ⟨le_rfl, by exact_mod_cast h1⟩, q, ⟨by exact_mod_cast h1, le_rfl⟩, fun e => ?_⟩
    have : p = q := by exact_mod_cast e
    exact h2 p (by rw [this]; rfl)
  · rename_i q
    exact ⟨q, le_rfl, q + 1, by linarith, by linarith⟩

/-- The value of a point of the model of a continuous or Boolean variable. -/
theorem model_value {fp rnd} {δ : ℚ} {mv b t m ρ} (hz : DiamZero fp) (hδ : 0 ≤ δ) (hw : BoxWf b)
    (ht : tighten fp rnd δ b = .ok t) (hm : extractModel mv t = .ok m) {v} (hv : v ∈ b.vars)
    (htype : v.type = .continuous ∨ v.type = .boolean)
    (hvm : v ∈ m.vars) (hρ : InBox ρ m) : InItv (ρ v) (b.getV v) ∨ (v.type = .boolean ∧ ρ v = 1 ∧
      ∃ x y : ℝ, InItv x (b.getV v) ∧ InItv y (b.getV v) ∧ x ≠ y) := by
  obtain ⟨t1, -, t3⟩ := tighten_spec hw ht
  obtain ⟨-, m2⟩ := extractModel_values hm t1.2
  have hi : InItv (ρ v) (t.getV v) := by
    rw [← (m2 v hvm).2]; exact inBox_getV hρ hvm
  have h := t3 v hv
  unfold tighten1 at h
  split at h
  · rename_i hd
    rcases htype with e | e <;> rw [e] at h <;> simp only [Outcome.ok.injEq] at h <;>
      rw [← h] at hi
    · exact .inl (inItv_inter.mp hi).1
    · refine .inr ⟨e, by simpa using (inItv_point.mp hi), two_points ?_ ?_⟩
      · by_contra hc
        have := hz (b.getV v) (.inl (by simpa using hc))
        have := hd.trans_le this
        simp at this; linarith
      · intro q hq
        have := hz (b.getV v) (.inr ⟨q, hq⟩)
        have := hd.trans_le this
        simp at this; linarith
  · simp only [Outcome.ok.injEq] at h
    rw [← h] at hi; exact .inl hi

theorem near_of_values {b : Box} {ρ : Valuation} (hw : BoxWf b) (hbot : b.bot = false)
    (key : ∀ v ∈ b.vars, InItv (ρ v) (b.getV v) ∨ (v.type = .boolean ∧ ρ v = 1 ∧
      ∃ x y : ℝ, InItv x (b.getV v) ∧ InItv y (b.getV v) ∧ x ≠ y)) : ∃ ρ', Near b ρ ρ' := by
  classical
  refine ⟨fun v => if h : v ∈ b.vars ∧ ¬ InItv (ρ v) (b.getV v) then
    (((key v h.1).resolve_left h.2).2.2).choose else ρ v, ⟨hbot, fun i v hv => ?_⟩, fun v hv => ?_,
    fun v hv hb => ?_⟩
  · rw [get_getV hw hv]
    dsimp only
    split
    · rename_i h
      exact (((key v h.1).resolve_left h.2).2.2).choose_spec.choose_spec.1
    · rename_i h
      by_contra hc
      exact h ⟨List.mem_of_getElem? hv, hc⟩
  · split
    · rename_i h
      exact absurd ((key v h.1).resolve_left h.2).1 hv
    · rfl
  · split
    · rename_i h
      exact .inr ((key v h.1).resolve_left h.2).2
    · exact .inl rfl

/-- A point of the model of continuous and Boolean variables is next to one of the box. -/
theorem near_model {fp rnd} {δ : ℚ} {mv b t m ρ} (hz : DiamZero fp) (hδ : 0 ≤ δ) (hw : BoxWf b)
    (hbot : b.bot = false) (ht : tighten fp rnd δ b = .ok t) (hm : extractModel mv t = .ok m)
    (htype : ∀ v ∈ b.vars, v.type = .continuous ∨ v.type = .boolean)
    (hall : ∀ v ∈ b.vars, v ∈ m.vars) (hρ : InBox ρ m) : ∃ ρ', Near b ρ ρ' :=
  near_of_values hw hbot fun v hv => model_value hz hδ hw ht hm hv (htype v hv) (hall v hv) hρ

/-- The same when the model leaves out variables, which are continuous and have values. -/
theorem near_model_part {fp rnd} {δ : ℚ} {mv b t m ρ} (hz : DiamZero fp) (hδ : 0 ≤ δ)
    (hw : BoxWf b) (hbot : b.bot = false) (ht : tighten fp rnd δ b = .ok t)
    (hm : extractModel mv t = .ok m)
    (htype : ∀ v ∈ b.vars, v.type = .continuous ∨ v.type = .boolean)
    (hout : ∀ v ∈ b.vars, v ∉ m.vars → ∃ x : ℝ, InItv x (b.getV v)) (hρ : InBox ρ m) :
    ∃ ρ1 ρ', (∀ v, v ∈ m.vars ∨ v ∉ b.vars → ρ1 v = ρ v) ∧ Near b ρ1 ρ' := by
  classical
  let ρ1 : Valuation := fun v => if h : v ∈ b.vars ∧ v ∉ m.vars then (hout v h.1 h.2).choose else ρ v
  have h1 : ∀ v, v ∈ m.vars ∨ v ∉ b.vars → ρ1 v = ρ v := fun v hv => by
    simp only [ρ1]
    rw [dif_neg]
    rintro ⟨h1, h2⟩
    exact hv.elim h2 (fun h => h h1)
  refine ⟨ρ1, ?_⟩
  have key : ∃ ρ', Near b ρ1 ρ' := near_of_values hw hbot fun v hv => by
    by_cases hvm : v ∈ m.vars
    · rw [h1 v (.inl hvm)]
      exact model_value hz hδ hw ht hm hv (htype v hv) hvm hρ
    · left
      simp only [ρ1]
      rw [dif_pos ⟨hv, hvm⟩]
      exact (hout v hv hvm).choose_spec
  obtain ⟨ρ', hn⟩ := key
  exact ⟨ρ', h1, hn⟩

/-- The asserted formula is in the problems of all scopes inside the one it was asserted in. -/
theorem laterCond_asserted {cfg : CCfg} {S k c k' c' f} (hk : k.levels ≠ [])
    (hf : f ∈ k.top.asserted) (h : LaterCond cfg S k c k' c') :
    k.levels.length ≤ k'.levels.length ∧
    ∀ i, i + k.levels.length ≤ k'.levels.length → ∃ P, k'.levels[i]? = some P ∧ f ∈ P.asserted := by
  have hpos : 0 < k.levels.length := List.length_pos_iff.mpr hk
  induction h with
  | refl =>
    refine ⟨le_rfl, fun i hi => ?_⟩
    have : i = 0 := by omega
    subst this
    obtain ⟨P, Ps, e⟩ := List.exists_cons_of_ne_nil hk
    refine ⟨P, by rw [e]; rfl, ?_⟩
    simpa [Books.top, e] using hf
  | step h h1 h2 h3 h4 ih =>
    rename_i k' c' cmd a c''
    obtain ⟨i1, i2⟩ := ih
    obtain ⟨P, Ps, e⟩ : ∃ P Ps, k'.levels = P :: Ps :=
      List.exists_cons_of_ne_nil (by intro e; rw [e, List.length_nil] at i1; omega)
    have top : k'.top = P := by simp [Books.top, e]
    have set : ∀ (Q : Problem) (K : Books), K.levels = Q :: k'.levels.tail →
        (f ∈ P.asserted → f ∈ Q.asserted) → k.levels.length ≤ K.levels.length ∧
        ∀ i, i + k.levels.length ≤ K.levels.length → ∃ P, K.levels[i]? = some P ∧ f ∈ P.asserted := by
      intro Q K hK hQ
      rw [hK, e, List.tail_cons]
      rw [e] at i1 i2
      refine ⟨by simpa using i1, fun i hi => ?_⟩
      obtain ⟨R, r1, r2⟩ := i2 i (by simpa using hi)
      rcases i with _ | i
      · simp at r1; subst r1
        exact ⟨Q, rfl, hQ r2⟩
      · exact ⟨R, by simpa using r1, r2⟩
    cases cmd with
    | newVar t => exact ⟨i1, i2⟩
    | declare v b =>
      exact set _ _ rfl (fun h => by simpa [top] using h)
    | setInterval v lb ub =>
      exact set _ _ rfl (fun h => by simpa [top] using h)
    | assert g =>
      exact set _ _ rfl (fun h => by simp [top, h])
    | check => exact ⟨i1, i2⟩
    | push =>
      simp only [Books.step, List.length_cons]
      refine ⟨by omega, fun i hi => ?_⟩
      rcases i with _ | i
      · obtain ⟨R, r1, r2⟩ := i2 0 (by omega)
        rw [e] at r1; simp at r1; subst r1
        exact ⟨_, rfl, by rw [top]; exact r2⟩
      · simpa using i2 i (by omega)
    | pop =>
      have := h4 rfl
      simp only [Books.step, List.length_tail]
      refine ⟨by omega, fun i hi => ?_⟩
      obtain ⟨R, r1, r2⟩ := i2 (i + 1) (by omega)
      exact ⟨R, by rw [List.getElem?_tail]; exact r1, r2⟩

theorem later_cond {cfg : CCfg} {S k c k' c'} (h : Later cfg S k c k' c') :
    LaterCond cfg S k c k' c' := by
  induction h with
  | refl => exact .refl
  | step _ h1 h2 h3 h4 ih => exact .step ih h1 (.inl h2) h3 h4

theorem later_asserted {cfg : CCfg} {S k c k' c' f} (hk : k.levels ≠ [])
    (hf : f ∈ k.top.asserted) (h : Later cfg S k c k' c') :
    k.levels.length ≤ k'.levels.length ∧
    ∀ i, i + k.levels.length ≤ k'.levels.length → ∃ P, k'.levels[i]? = some P ∧ f ∈ P.asserted :=
  laterCond_asserted hk hf (later_cond h)

theorem later_posesCond {cfg : CCfg} {S k c k' c'} (hk : PosesCond cfg S k c)
    (h : LaterCond cfg S k c k' c') : PosesCond cfg S k' c' := by
  induction h with
  | refl => exact hk
  | step _ h1 h2 h3 _ ih => exact .step ih h1 h2 h3

theorem later_posesPlain {cfg : CCfg} {S k c k' c'} (hk : PosesPlain cfg S k c)
    (h : Later cfg S k c k' c') : PosesPlain cfg S k' c' := by
  induction h with
  | refl => exact hk
  | step _ h1 h2 h3 _ ih => exact .step ih h1 h2 h3

end Verif.Proof
