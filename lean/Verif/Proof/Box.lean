import Verif.Proof.Itv

namespace Verif.Proof
open Verif.Model Verif.Spec

theorem newItv_eq (t : VType) : newItv t = Box.initItv t := by cases t <;> rfl

theorem get_set_self {b : Box} {i : Nat} {iv : Itv} (h : i < b.vals.length) :
    (b.set i iv).get i = iv := by
  simp [Box.set, Box.get, List.getD_eq_getElem?_getD, h]

theorem get_set_ne {b : Box} {i j : Nat} {iv : Itv} (h : i ≠ j) :
    (b.set i iv).get j = b.get j := by
  simp [Box.set, Box.get, List.getD_eq_getElem?_getD, h]

@[simp] theorem set_vars {b : Box} {i : Nat} {iv : Itv} : (b.set i iv).vars = b.vars := rfl
@[simp] theorem set_bot {b : Box} {i : Nat} {iv : Itv} : (b.set i iv).bot = b.bot := rfl

theorem set_wf {b : Box} {i : Nat} {iv : Itv} (h : BoxWf b) : BoxWf (b.set i iv) :=
  ⟨by simp [Box.set, h.1], h.2⟩

theorem lt_of_getElem? {α} {l : List α} {i : Nat} {a : α} (h : l[i]? = some a) :
    i < l.length := by
  by_contra hn
  rw [List.getElem?_eq_none (by omega)] at h
  cases h

/-- Points of a box with one coordinate rewritten. -/
theorem in_set {b : Box} (wf : BoxWf b) {i : Nat} {v : Variable} (hv : b.vars[i]? = some v)
    {iv : Itv} {ρ : Valuation} :
    InBox ρ (b.set i iv) ↔ b.bot = false ∧ InItv (ρ v) iv ∧
      ∀ j w, j ≠ i → b.vars[j]? = some w → InItv (ρ w) (b.get j) := by
  have hl : i < b.vals.length := by rw [wf.1]; exact lt_of_getElem? hv
  constructor
  · rintro ⟨h1, h2⟩
    refine ⟨h1, ?_, ?_⟩
    · have := h2 i v hv; rwa [get_set_self hl] at this
    · intro j w hj hw
      have := h2 j w hw; rwa [get_set_ne (Ne.symm hj)] at this
  · rintro ⟨h1, h2, h3⟩
    refine ⟨h1, fun j w hw => ?_⟩
    by_cases hj : j = i
    · subst hj
      rw [get_set_self hl]
      have : w = v := by simp at hw; rw [hw] at hv; exact Option.some.inj hv
      rw [this]; exact h2
    · rw [get_set_ne (Ne.symm hj)]; exact h3 j w hj hw

theorem in_box_split {b : Box} {i : Nat} {v : Variable} (hv : b.vars[i]? = some v)
    {ρ : Valuation} :
    InBox ρ b ↔ b.bot = false ∧ InItv (ρ v) (b.get i) ∧
      ∀ j w, j ≠ i → b.vars[j]? = some w → InItv (ρ w) (b.get j) := by
  constructor
  · rintro ⟨h1, h2⟩
    exact ⟨h1, h2 i v hv, fun j w _ hw => h2 j w hw⟩
  · rintro ⟨h1, h2, h3⟩
    refine ⟨h1, fun j w hw => ?_⟩
    by_cases hj : j = i
    · subst hj
      have : w = v := by rw [hw] at hv; exact Option.some.inj hv
      rw [this]; exact h2
    · exact h3 j w hj hw

theorem integral_of_typeOk {t : VType} (ht : t = .integer ∨ t = .binary) {x : ℝ}
    (h : typeOk t x) : ∃ n : ℤ, x = n := by
  rcases ht with rfl | rfl
  · exact h
  · rcases h with rfl | rfl
    · exact ⟨0, by simp⟩
    · exact ⟨1, by simp⟩

/-- What a successful bisection does: which variable, and the two new intervals. -/
theorem bisect_ok {fp : Fp} {b b1 b2 : Box} {i : Nat} (h : b.bisect fp i = .ok (b1, b2)) :
    ∃ v, b.vars[i]? = some v ∧ fp.bisectable (b.get i) = true ∧ v.type ≠ .boolean ∧
      ((v.type = .continuous ∧ b1 = b.set i ⟨(b.get i).lb, .fin (fp.cut (b.get i))⟩ ∧
          b2 = b.set i ⟨.fin (fp.cut (b.get i)), (b.get i).ub⟩) ∨
       ((v.type = .integer ∨ v.type = .binary) ∧
        (b.get i).lb ≤ (b.get i).lb.ceil ∧
        (b.get i).lb.ceil ≤ .fin (⌊fp.mid (b.get i)⌋ : ℤ) ∧
        .fin ((⌊fp.mid (b.get i)⌋ : ℤ) + 1) ≤ (b.get i).ub.floor ∧
        (b.get i).ub.floor ≤ (b.get i).ub ∧
        b1 = b.set i ⟨(b.get i).lb.ceil, .fin (⌊fp.mid (b.get i)⌋ : ℤ)⟩ ∧
        b2 = b.set i ⟨.fin ((⌊fp.mid (b.get i)⌋ : ℤ) + 1), (b.get i).ub.floor⟩)) := by
  unfold Box.bisect at h
  cases hv : b.vars[i]? with
  | none => rw [hv] at h; cases h
  | some v =>
    rw [hv] at h
    simp only at h
    by_cases hb : fp.bisectable (b.get i) = true
    · rw [if_pos hb] at h
      refine ⟨v, rfl, hb, ?_, ?_⟩
      · intro ht; rw [ht] at h; cases h
      · cases ht : v.type <;> rw [ht] at h <;> simp only at h
        · left
          simp only [Box.bisectCont, Outcome.ok.injEq, Prod.mk.injEq] at h
          exact ⟨rfl, h.1.symm, h.2.symm⟩
        · right
          simp only [Box.bisectInt] at h
          split at h
          · rename_i hc
            simp only [Outcome.ok.injEq, Prod.mk.injEq] at h
            exact ⟨Or.inl rfl, hc.1, hc.2.1, hc.2.2.1, hc.2.2.2, h.1.symm, h.2.symm⟩
          · cases h
        · right
          simp only [Box.bisectInt] at h
          split at h
          · rename_i hc
            simp only [Outcome.ok.injEq, Prod.mk.injEq] at h
            exact ⟨Or.inr rfl, hc.1, hc.2.1, hc.2.2.1, hc.2.2.2, h.1.symm, h.2.symm⟩
          · cases h
        · cases h
    · rw [if_neg hb] at h; cases h

theorem bisect_frame {fp : Fp} {b b1 b2 : Box} {i : Nat} (h : b.bisect fp i = .ok (b1, b2)) :
    b1.vars = b.vars ∧ b2.vars = b.vars ∧ b1.bot = b.bot ∧ b2.bot = b.bot ∧
    ∀ j, j ≠ i → b1.get j = b.get j ∧ b2.get j = b.get j := by
  obtain ⟨v, hv, _, _, h | h⟩ := bisect_ok h
  · obtain ⟨_, rfl, rfl⟩ := h
    exact ⟨rfl, rfl, rfl, rfl, fun j hj => ⟨get_set_ne (Ne.symm hj), get_set_ne (Ne.symm hj)⟩⟩
  · obtain ⟨_, _, _, _, _, rfl, rfl⟩ := h
    exact ⟨rfl, rfl, rfl, rfl, fun j hj => ⟨get_set_ne (Ne.symm hj), get_set_ne (Ne.symm hj)⟩⟩

theorem bisect_wf {fp : Fp} {b b1 b2 : Box} {i : Nat} (wf : BoxWf b)
    (h : b.bisect fp i = .ok (b1, b2)) : BoxWf b1 ∧ BoxWf b2 := by
  obtain ⟨v, hv, _, _, h | h⟩ := bisect_ok h
  · obtain ⟨_, rfl, rfl⟩ := h
    exact ⟨set_wf wf, set_wf wf⟩
  · obtain ⟨_, _, _, _, _, rfl, rfl⟩ := h
    exact ⟨set_wf wf, set_wf wf⟩

theorem bisect_cover {fp : Fp} {b b1 b2 : Box} {i : Nat} (wf : BoxWf b)
    (h : b.bisect fp i = .ok (b1, b2)) {ρ : Valuation} (ht : TypedOn ρ b.vars)
    (hρ : InBox ρ b) : InBox ρ b1 ∨ InBox ρ b2 := by
  obtain ⟨v, hv, hb, _, h | h⟩ := bisect_ok h
  · obtain ⟨_, rfl, rfl⟩ := h
    rw [in_set wf hv, in_set wf hv]
    obtain ⟨h1, h2, h3⟩ := (in_box_split hv).mp hρ
    rcases le_total (ρ v) (fp.cut (b.get i) : ℝ) with hle | hle
    · exact Or.inl ⟨h1, ⟨h2.1, hle⟩, h3⟩
    · exact Or.inr ⟨h1, ⟨hle, h2.2⟩, h3⟩
  · obtain ⟨hty, _, _, _, _, rfl, rfl⟩ := h
    rw [in_set wf hv, in_set wf hv]
    obtain ⟨h1, h2, h3⟩ := (in_box_split hv).mp hρ
    obtain ⟨n, hn⟩ := integral_of_typeOk hty (ht v (List.mem_of_getElem? hv))
    rw [hn] at h2 ⊢
    rcases le_or_gt n ⌊fp.mid (b.get i)⌋ with hle | hgt
    · exact Or.inl ⟨h1, ⟨below_ceil h2.1, by simp only [above]; exact_mod_cast hle⟩, h3⟩
    · refine Or.inr ⟨h1, ⟨?_, above_floor h2.2⟩, h3⟩
      have : ⌊fp.mid (b.get i)⌋ + 1 ≤ n := hgt
      simp only [below]
      exact_mod_cast this

theorem mid_inside {fp : Fp} {iv : Itv} (h : fp.bisectable iv = true) :
    iv.isEmpty = false ∧ iv.lb < .fin (fp.mid iv) ∧ .fin (fp.mid iv) < iv.ub := by
  simpa [Fp.bisectable, and_assoc] using h

theorem bisect_sub {fp : Fp} (hc : CutInside fp) {b b1 b2 : Box} {i : Nat} (wf : BoxWf b)
    (h : b.bisect fp i = .ok (b1, b2)) {ρ : Valuation} (hρ : InBox ρ b1 ∨ InBox ρ b2) :
    InBox ρ b := by
  obtain ⟨v, hv, hb, _, h | h⟩ := bisect_ok h
  · obtain ⟨_, rfl, rfl⟩ := h
    rw [in_set wf hv, in_set wf hv] at hρ
    rw [in_box_split hv]
    have hcut := hc _ hb
    rcases hρ with ⟨h1, h2, h3⟩ | ⟨h1, h2, h3⟩
    · exact ⟨h1, ⟨h2.1, above_mono (le_of_lt hcut.2) h2.2⟩, h3⟩
    · exact ⟨h1, ⟨below_mono (le_of_lt hcut.1) h2.1, h2.2⟩, h3⟩
  · obtain ⟨_, c1, c2, c3, c4, rfl, rfl⟩ := h
    rw [in_set wf hv, in_set wf hv] at hρ
    rw [in_box_split hv]
    have hlt : (EQ.fin (⌊fp.mid (b.get i)⌋ : ℤ)) ≤ .fin ((⌊fp.mid (b.get i)⌋ : ℤ) + 1) := by
      simp
    rcases hρ with ⟨h1, h2, h3⟩ | ⟨h1, h2, h3⟩
    · exact ⟨h1, in_mono c1 (le_trans hlt (le_trans c3 c4)) h2, h3⟩
    · exact ⟨h1, in_mono (le_trans c1 (le_trans c2 hlt)) c4 h2, h3⟩

/-- Both halves have a non-empty interval in the bisected coordinate. -/
theorem bisect_nonempty {fp : Fp} (hc : CutInside fp) {b b1 b2 : Box} {i : Nat} (wf : BoxWf b)
    (h : b.bisect fp i = .ok (b1, b2)) :
    (b1.get i).isEmpty = false ∧ (b2.get i).isEmpty = false := by
  obtain ⟨v, hv, hb, _, h | h⟩ := bisect_ok h
  · obtain ⟨_, rfl, rfl⟩ := h
    have hl : i < b.vals.length := by rw [wf.1]; exact lt_of_getElem? hv
    rw [get_set_self hl, get_set_self hl, not_isEmpty_iff, not_isEmpty_iff]
    obtain ⟨hne, _, _⟩ := mid_inside hb
    rw [not_isEmpty_iff] at hne
    have hcut := hc _ hb
    exact ⟨⟨le_of_lt hcut.1, hne.2.1, by simp⟩, ⟨le_of_lt hcut.2, by simp, hne.2.2⟩⟩
  · obtain ⟨_, c1, c2, c3, c4, rfl, rfl⟩ := h
    have hl : i < b.vals.length := by rw [wf.1]; exact lt_of_getElem? hv
    rw [get_set_self hl, get_set_self hl, not_isEmpty_iff, not_isEmpty_iff]
    refine ⟨⟨c2, ?_, by simp⟩, ⟨c3, by simp, ?_⟩⟩
    · intro e
      simp only at e
      rw [e] at c2; simp at c2
    · intro e
      simp only at e
      rw [e] at c3; simp at c3

/-- The halves of an integer coordinate are disjoint. -/
theorem bisect_disjoint {fp : Fp} {b b1 b2 : Box} {i : Nat} (wf : BoxWf b)
    (h : b.bisect fp i = .ok (b1, b2)) {v : Variable} (hv : b.vars[i]? = some v)
    (ht : v.type ≠ .continuous) (ρ : Valuation) : ¬ (InBox ρ b1 ∧ InBox ρ b2) := by
  obtain ⟨w, hw, hb, _, h | h⟩ := bisect_ok h
  · rw [hv] at hw
    cases hw
    exact absurd h.1 ht
  · rw [hv] at hw
    cases hw
    obtain ⟨_, c1, c2, c3, c4, rfl, rfl⟩ := h
    rw [in_set wf hv, in_set wf hv]
    rintro ⟨⟨_, h1, _⟩, ⟨_, h2, _⟩⟩
    have a1 := h1.2
    have a2 := h2.1
    simp only [above, below] at a1 a2
    have : (((⌊fp.mid (b.get i)⌋ : ℤ) + 1 : ℚ) : ℝ) ≤ ((⌊fp.mid (b.get i)⌋ : ℤ) : ℚ) :=
      le_trans a2 a1
    push_cast at this
    linarith

/-- A bisectable coordinate of non-Boolean type with integral bounds (if of integer type) is
bisected without violating an assertion. -/
theorem bisect_total {fp : Fp} {b : Box} {i : Nat} {v : Variable} (hv : b.vars[i]? = some v)
    (hb : fp.bisectable (b.get i) = true) (hbool : v.type ≠ .boolean)
    (hint : v.type ≠ .continuous → (b.get i).lb.ceil = (b.get i).lb ∧
      (b.get i).ub.floor = (b.get i).ub) :
    ∃ r, b.bisect fp i = .ok r := by
  unfold Box.bisect
  rw [hv]
  simp only [hb, if_true]
  have key : (b.get i).lb.ceil = (b.get i).lb → (b.get i).ub.floor = (b.get i).ub →
      ∃ r, Box.bisectInt fp b i (b.get i) = .ok r := by
    intro e1 e2
    obtain ⟨_, m1, m2⟩ := mid_inside hb
    unfold Box.bisectInt
    simp only
    rw [if_pos]
    · exact ⟨_, rfl⟩
    · refine ⟨le_ceil _, ?_, ?_, floor_le _⟩
      · revert m1 e1
        cases (b.get i).lb <;> simp [EQ.ceil]
        rename_i q
        intro e m1
        have : ((⌈q⌉ : ℤ) : ℚ) ≤ fp.mid (b.get i) := by rw [e]; exact le_of_lt m1
        exact Int.le_floor.mpr this
      · revert m2 e2
        cases (b.get i).ub <;> simp [EQ.floor]
        rename_i q
        intro e m2
        have h1 : fp.mid (b.get i) < ((⌊q⌋ : ℤ) : ℚ) := by rw [e]; exact m2
        have h2 : ⌊fp.mid (b.get i)⌋ < ⌊q⌋ := Int.floor_lt.mpr h1
        have h3 : ⌊fp.mid (b.get i)⌋ + 1 ≤ ⌊q⌋ := h2
        exact_mod_cast h3
  cases ht : v.type
  · exact ⟨_, rfl⟩
  · exact key (hint (by simp [ht])).1 (hint (by simp [ht])).2
  · exact key (hint (by simp [ht])).1 (hint (by simp [ht])).2
  · exact absurd ht hbool

/-! ### The widest coordinate -/

theorem maxDiamLoop_spec (fp : Fp) (b : Box) (is : List Nat) (acc : EQ × Option Nat) :
    acc.1 ≤ (b.maxDiamLoop fp is acc).1 ∧
    (∀ j ∈ is, fp.bisectable (b.get j) = true → fp.diam (b.get j) ≤ (b.maxDiamLoop fp is acc).1) ∧
    (b.maxDiamLoop fp is acc = acc ∨
      ∃ j ∈ is, (b.maxDiamLoop fp is acc) = (fp.diam (b.get j), some j) ∧
        fp.bisectable (b.get j) = true ∧ acc.1 < fp.diam (b.get j)) := by
  induction is generalizing acc with
  | nil => exact ⟨le_refl _, by simp, Or.inl rfl⟩
  | cons i is ih =>
    unfold Box.maxDiamLoop
    by_cases h : acc.1 < fp.diam (b.get i) ∧ fp.bisectable (b.get i) = true
    · rw [if_pos h]
      obtain ⟨h1, h2, h3⟩ := ih (fp.diam (b.get i), some i)
      refine ⟨le_trans (le_of_lt h.1) h1, ?_, Or.inr ?_⟩
      · intro j hj hb
        rcases List.mem_cons.mp hj with rfl | hj
        · exact h1
        · exact h2 j hj hb
      · rcases h3 with h3 | ⟨j, hj, he, hb, hlt⟩
        · exact ⟨i, by simp, h3, h.2, h.1⟩
        · exact ⟨j, by simp [hj], he, hb, lt_trans h.1 hlt⟩
    · rw [if_neg h]
      obtain ⟨h1, h2, h3⟩ := ih acc
      refine ⟨h1, ?_, ?_⟩
      · intro j hj hb
        rcases List.mem_cons.mp hj with rfl | hj
        · have : ¬ acc.1 < fp.diam (b.get j) := fun hlt => h ⟨hlt, hb⟩
          exact le_trans (not_lt.mp this) h1
        · exact h2 j hj hb
      · rcases h3 with h3 | ⟨j, hj, he, hb, hlt⟩
        · exact Or.inl h3
        · exact Or.inr ⟨j, by simp [hj], he, hb, hlt⟩

theorem maxDiam_some {fp : Fp} {b : Box} {is : List Nat} {d : EQ} {i : Nat}
    (h : b.maxDiamLoop fp is (.fin 0, none) = (d, some i)) :
    i ∈ is ∧ fp.bisectable (b.get i) = true ∧ d = fp.diam (b.get i) ∧ .fin 0 < d ∧
    ∀ j ∈ is, fp.bisectable (b.get j) = true → fp.diam (b.get j) ≤ fp.diam (b.get i) := by
  obtain ⟨_, h2, h3⟩ := maxDiamLoop_spec fp b is (.fin 0, none)
  rw [h] at h2 h3
  rcases h3 with h3 | ⟨j, hj, he, hb, hlt⟩
  · simp at h3
  · simp only [Prod.mk.injEq, Option.some.injEq] at he
    obtain ⟨rfl, rfl⟩ := he
    exact ⟨hj, hb, rfl, hlt, h2⟩

theorem maxDiam_none {fp : Fp} {b : Box} {is : List Nat} {d : EQ}
    (h : b.maxDiamLoop fp is (.fin 0, none) = (d, none)) :
    ∀ j ∈ is, fp.bisectable (b.get j) = true → fp.diam (b.get j) ≤ .fin 0 := by
  obtain ⟨_, h2, h3⟩ := maxDiamLoop_spec fp b is (.fin 0, none)
  rw [h] at h2 h3
  rcases h3 with h3 | ⟨j, hj, he, hb, hlt⟩
  · simp only [Prod.mk.injEq, and_true] at h3
    rw [h3] at h2
    exact h2
  · simp at he

/-! ### Access by variable -/

theorem index_of_mem {b : Box} {v : Variable} (h : v ∈ b.vars) :
    b.index v = b.vars.idxOf v ∧ b.vars[b.index v]? = some v := by
  have : b.index v = b.vars.idxOf v := by simp [Box.index, h]
  refine ⟨this, ?_⟩
  rw [this]
  exact List.getElem?_idxOf h

theorem index_unique {b : Box} (wf : BoxWf b) {v : Variable} {i : Nat}
    (h : b.vars[i]? = some v) : b.index v = i := by
  have hm : v ∈ b.vars := List.mem_of_getElem? h
  have h2 := (index_of_mem hm).2
  exact (List.getElem?_inj (lt_of_getElem? h2) wf.2).mp (h2.trans h.symm)

end Verif.Proof
