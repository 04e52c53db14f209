import Verif.Proof.VarSet
import Verif.Model.Explain
import Mathlib.Data.List.Lex

/-!
# C68: sets of variables
-/

namespace Verif.Props
open Verif Verif.Model Verif.Spec Verif.Proof

/-- All sequences of operations on any number of sets do what they should: afterwards the objects are
in order and have the elements that the same operations on sets give, if no object is inserted into
itself or erased from itself.  Missing: that case, see `C68_self`. -/
theorem C68_operations_partial (σ : VarSets) (cs : List VarCmd) (hσ : ∀ i, Ordered (σ i))
    (hc : ∀ c ∈ cs, NoAlias c) :
    ∃ σ', runVars σ cs = .ok σ' ∧ (∀ i, Ordered (σ' i)) ∧
      ∀ i, idSet (σ' i) = setRun (fun i => idSet (σ i)) cs i := by
  obtain ⟨σ', h1, h2, h3⟩ := run_vars cs hσ hc
  exact ⟨σ', h1, h2, fun i => congrFun h3 i⟩

/-- Ids 3, 1, 3, 2 are inserted into the first set, 2 and 5 into the second; intersection and
difference go to two other sets. -/
def setDemo : List VarCmd :=
  [.insert 0 ⟨3, .continuous⟩, .insert 0 ⟨1, .continuous⟩, .insert 0 ⟨3, .continuous⟩,
   .insert 0 ⟨2, .continuous⟩, .insert 1 ⟨2, .continuous⟩, .insert 1 ⟨5, .continuous⟩,
   .meet 2 0 1, .sub 3 0 1, .add 0 0 1]

example : (∀ c ∈ setDemo, NoAlias c) ∧ (∀ i : Nat, Ordered ((fun _ => [] : VarSets) i)) ∧
    (List.range 4).map (setRun (fun _ => ∅) setDemo) = [{1, 2, 3, 5}, {2, 5}, {2}, {1, 3}] := by
  refine ⟨by simp [setDemo, NoAlias], fun _ => by simp [Ordered], by decide⟩

/-- `v.erase(v)` and `v -= v` are undefined (both can be called from Python): the loop advances an
iterator to an element that was erased. -/
theorem C68_self (σ : VarSets) (i : Nat) (h : σ i ≠ []) : stepVars σ (.eraseAll i i) = .ub := by
  rw [stepVars, if_pos ⟨rfl, h⟩]

example : stepVars (fun _ => [⟨3, .continuous⟩]) (.eraseAll 0 0) = .ub := C68_self _ 0 (by simp)

/-- `erase` returns the number of elements that it erased. -/
theorem C68_erased (s t : VarSet) (v : Variable) (hs : Ordered s) (ht : Ordered t) :
    (VarSet.erase v s).1 = (if v.id ∈ idSet s then 1 else 0) ∧
      (VarSet.eraseAll s t).1 = (idSet s ∩ idSet t).card :=
  ⟨(erase_ok v s hs).2.2, (eraseAll_ok hs ht).2.2⟩

/-- The questions are answered right: membership, inclusion, proper inclusion, equality, and whether
there is a common element. -/
theorem C68_questions (s t : VarSet) (v : Variable) (hs : Ordered s) (ht : Ordered t) :
    (VarSet.mem v s = true ↔ v.id ∈ idSet s) ∧
    (VarSet.isSubsetOf s t = true ↔ idSet s ⊆ idSet t) ∧
    (VarSet.isSupersetOf s t = true ↔ idSet t ⊆ idSet s) ∧
    (VarSet.isStrictSubsetOf s t = true ↔ idSet s ⊂ idSet t) ∧
    (VarSet.isStrictSupersetOf s t = true ↔ idSet t ⊂ idSet s) ∧
    (VarSet.equal s t = true ↔ idSet s = idSet t) ∧
    (VarSet.haveCommon s t = true ↔ (idSet s ∩ idSet t).Nonempty) := by
  have he := equal_ok hs ht
  refine ⟨mem_ok v s, includes_ok t s ht hs, includes_ok s t hs ht, ?_, ?_, he, ?_⟩
  · unfold VarSet.isStrictSubsetOf
    rw [Finset.ssubset_iff_subset_ne]
    split
    · rename_i h; simp [he.mp h]
    · rename_i h
      rw [VarSet.isSubsetOf, includes_ok t s ht hs]
      exact ⟨fun g => ⟨g, fun e => h (he.mpr e)⟩, fun g => g.1⟩
  · unfold VarSet.isStrictSupersetOf
    rw [Finset.ssubset_iff_subset_ne]
    split
    · rename_i h; simp [he.mp h]
    · rename_i h
      rw [VarSet.isSupersetOf, VarSet.isSubsetOf, includes_ok s t hs ht]
      exact ⟨fun g => ⟨g, fun e => h (he.mpr e.symm)⟩, fun g => g.1⟩
  · rw [haveCommon_ok, idSet_ne, common_ok s t hs ht]

def setA : VarSet := [⟨1, .continuous⟩, ⟨4, .integer⟩]
def setB : VarSet := [⟨1, .continuous⟩, ⟨2, .continuous⟩, ⟨4, .integer⟩]

example : Ordered setA ∧ Ordered setB ∧ VarSet.isStrictSubsetOf setA setB = true ∧
    VarSet.isSubsetOf setB setA = false ∧ VarSet.haveCommon setA setB = true :=
  ⟨by simp [setA, Ordered], by simp [setB, Ordered], by decide, by decide,
    (C68_questions setA setB ⟨1, .continuous⟩ (by simp [setA, Ordered])
      (by simp [setB, Ordered])).2.2.2.2.2.2.mpr (by decide)⟩

/-- The order of sets is a strict total order. -/
theorem C68_order (s t u : VarSet) (hs : Ordered s) (ht : Ordered t) :
    VarSet.less s s = false ∧
    (VarSet.less s t = true → VarSet.less t u = true → VarSet.less s u = true) ∧
    (VarSet.less s t = true ∨ VarSet.less t s = true ∨ idSet s = idSet t) := by
  refine ⟨?_, ?_, ?_⟩
  · rw [← Bool.not_eq_true, less_ids]; exact lt_irrefl _
  · rw [less_ids, less_ids, less_ids]; exact lt_trans
  · rw [less_ids, less_ids, ← equal_ok hs ht, equal_ids]
    rcases lt_trichotomy (s.map fun v => v.id) (t.map fun v => v.id) with h | h | h
    · exact .inl h
    · exact .inr (.inr h)
    · exact .inr (.inl h)

example : VarSet.less setB setA = true ∧ VarSet.less setA setB = false := by decide

/-- The walk over both sets is what the explanation of conflicts (C49) uses it for: if ids are those of
one variable, it finds out whether there is a common variable. -/
theorem C68_explanation (s t : VarSet) (hs : Ordered s) (ht : Ordered t)
    (hid : ∀ v ∈ s, ∀ w ∈ t, v.id = w.id → v = w) :
    VarSet.haveCommon s t = haveIntersection s t := by
  rw [Bool.eq_iff_iff, (C68_questions s t default hs ht).2.2.2.2.2.2]
  simp only [haveIntersection, List.any_eq_true, decide_eq_true_eq]
  constructor
  · rintro ⟨n, hn⟩
    rw [Finset.mem_inter] at hn
    obtain ⟨v, hv, h1⟩ := idSet_mem.mp hn.1
    obtain ⟨w, hw, h2⟩ := idSet_mem.mp hn.2
    exact ⟨v, hv, hid v hv w hw (h1.trans h2.symm) ▸ hw⟩
  · rintro ⟨v, hv, hw⟩
    exact ⟨v.id, Finset.mem_inter.mpr ⟨idSet_mem.mpr ⟨v, hv, rfl⟩, idSet_mem.mpr ⟨v, hw, rfl⟩⟩⟩

example : ∀ v ∈ setA, ∀ w ∈ setB, v.id = w.id → v = w := by decide

end Verif.Props
