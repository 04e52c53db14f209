import Verif.Proof.CellsInj

/-!
# Ordered sets of formulas
-/

namespace Verif.Proof
open Verif.Model Verif.Spec

theorem less_false (f g : FCell) : f.less g = false ↔ codeF g ≤ codeF f := by
  rw [← not_lt, ← lessF_iff]; simp

/-- Strictly increasing codes. -/
def Inc (fs : FCells) : Prop := fs.toList.Pairwise fun f g => codeF f < codeF g

theorem mem_insert {x : FCell} : ∀ {fs : FCells} {g : FCell}, g ∈ (FCells.insert x fs).toList →
    g = x ∨ g ∈ fs.toList
  | .nil, g, h => by simpa [FCells.insert, FCells.toList] using h
  | .cons f fs, g, h => by
    unfold FCells.insert at h
    split_ifs at h with h1 h2
    · simpa [FCells.toList] using h
    · simp only [FCells.toList, List.mem_cons] at h ⊢
      rcases h with h | h
      · exact Or.inr (Or.inl h)
      · rcases mem_insert h with h | h
        · exact Or.inl h
        · exact Or.inr (Or.inr h)
    · exact Or.inr h

theorem mem_insert_old {x : FCell} : ∀ {fs : FCells} {g : FCell}, g ∈ fs.toList →
    g ∈ (FCells.insert x fs).toList
  | .nil, g, h => by simp [FCells.toList] at h
  | .cons f fs, g, h => by
    unfold FCells.insert
    split_ifs with h1 h2
    · simp only [FCells.toList, List.mem_cons] at h ⊢; exact Or.inr h
    · simp only [FCells.toList, List.mem_cons] at h ⊢
      rcases h with h | h
      · exact Or.inl h
      · exact Or.inr (mem_insert_old h)
    · exact h

/-- The new formula, or one the order does not tell from it, is stored. -/
theorem mem_insert_new (x : FCell) : ∀ fs : FCells,
    ∃ g ∈ (FCells.insert x fs).toList, codeF g = codeF x
  | .nil => ⟨x, by simp [FCells.insert, FCells.toList], rfl⟩
  | .cons f fs => by
    unfold FCells.insert
    split_ifs with h1 h2
    · exact ⟨x, by simp [FCells.toList], rfl⟩
    · obtain ⟨g, hg, e⟩ := mem_insert_new x fs
      exact ⟨g, by simp [FCells.toList, hg], e⟩
    · rw [Bool.not_eq_true, less_false] at h1 h2
      exact ⟨f, by simp [FCells.toList], le_antisymm h1 h2⟩

theorem inc_insert (x : FCell) : ∀ fs : FCells, Inc fs → Inc (FCells.insert x fs)
  | .nil, _ => by simp [Inc, FCells.insert, FCells.toList]
  | .cons f fs, h => by
    unfold Inc at h ⊢
    unfold FCells.insert
    split_ifs with h1 h2
    · rw [lessF_iff] at h1
      simp only [FCells.toList, List.pairwise_cons, List.mem_cons] at h ⊢
      refine ⟨?_, h⟩
      rintro g (rfl | hg)
      · exact h1
      · exact h1.trans (h.1 g hg)
    · rw [lessF_iff] at h2
      simp only [FCells.toList, List.pairwise_cons] at h ⊢
      refine ⟨fun g hg => ?_, inc_insert x fs h.2⟩
      rcases mem_insert hg with rfl | hg
      · exact h2
      · exact h.1 g hg
    · exact h

theorem toList_inj : ∀ {fs gs : FCells}, fs.toList = gs.toList → fs = gs
  | .nil, .nil, _ => rfl
  | .nil, .cons .., h => by simp [FCells.toList] at h
  | .cons .., .nil, h => by simp [FCells.toList] at h
  | .cons f fs, .cons g gs, h => by
    simp only [FCells.toList, List.cons.injEq] at h
    rw [h.1, toList_inj h.2]

theorem inc_insertAll (l : List FCell) : ∀ fs, Inc fs → Inc (insertAll l fs) := by
  induction l with
  | nil => exact fun _ h => h
  | cons x l ih => exact fun fs h => ih _ (inc_insert x fs h)

theorem mem_insertAll (l : List FCell) : ∀ {fs : FCells} {g : FCell},
    g ∈ (insertAll l fs).toList → g ∈ l ∨ g ∈ fs.toList := by
  induction l with
  | nil => exact fun h => Or.inr h
  | cons x l ih =>
    intro fs g h
    rcases ih h with h | h
    · exact Or.inl (List.mem_cons_of_mem _ h)
    · rcases mem_insert h with rfl | h
      · exact Or.inl List.mem_cons_self
      · exact Or.inr h

theorem mem_insertAll_old (l : List FCell) : ∀ {fs : FCells} {g : FCell},
    g ∈ fs.toList → g ∈ (insertAll l fs).toList := by
  induction l with
  | nil => exact fun h => h
  | cons x l ih => exact fun h => ih (mem_insert_old h)

theorem mem_insertAll_new (l : List FCell) : ∀ {fs : FCells} {x : FCell}, x ∈ l →
    ∃ g ∈ (insertAll l fs).toList, codeF g = codeF x := by
  induction l with
  | nil => intro fs x h; simp at h
  | cons y l ih =>
    intro fs x h
    rcases List.mem_cons.mp h with rfl | h
    · obtain ⟨g, hg, e⟩ := mem_insert_new x fs
      exact ⟨g, mem_insertAll_old l hg, e⟩
    · exact ih h

/-- Increasing sets with the same members are the same. -/
theorem inc_ext {fs gs : FCells} (h1 : Inc fs) (h2 : Inc gs)
    (h : ∀ f, f ∈ fs.toList ↔ f ∈ gs.toList) : fs = gs := by
  apply toList_inj
  have n1 : fs.toList.Nodup := h1.imp (fun hlt e => by subst e; exact lt_irrefl _ hlt)
  have n2 : gs.toList.Nodup := h2.imp (fun hlt e => by subst e; exact lt_irrefl _ hlt)
  have hp : fs.toList.Perm gs.toList := (List.perm_ext_iff_of_nodup n1 n2).mpr h
  exact hp.eq_of_pairwise (fun a b _ _ hab hba => absurd (hab.trans hba) (lt_irrefl _)) h1 h2

end Verif.Proof
