import Verif.Spec.VarSet
import Mathlib.Tactic.Tauto

/-!
# Sets of variables: lemmas
-/

namespace Verif.Proof
open Verif Verif.Model Verif.Spec

theorem idSet_nil : idSet [] = ∅ := rfl

theorem idSet_cons (v : Variable) (s : VarSet) : idSet (v :: s) = insert v.id (idSet s) := by
  simp [idSet]

theorem idSet_mem {n : Nat} {s : VarSet} : n ∈ idSet s ↔ ∃ v ∈ s, v.id = n := by
  simp [idSet]

theorem ordered_cons {v : Variable} {s : VarSet} :
    Ordered (v :: s) ↔ (∀ n ∈ idSet s, v.id < n) ∧ Ordered s := by
  unfold Ordered
  rw [List.pairwise_cons]
  refine and_congr_left fun _ => ⟨fun h n hn => ?_, fun h w hw => ?_⟩
  · obtain ⟨w, hw, rfl⟩ := idSet_mem.mp hn
    exact h w hw
  · exact h _ (idSet_mem.mpr ⟨w, hw, rfl⟩)

theorem insert_ok (v : Variable) : ∀ s : VarSet, idSet (VarSet.insert v s) = insert v.id (idSet s) ∧
    (Ordered s → Ordered (VarSet.insert v s))
  | [] => by simp [VarSet.insert, idSet, Ordered]
  | w :: ws => by
    obtain ⟨h1, h2⟩ := insert_ok v ws
    unfold VarSet.insert
    split
    · rename_i h
      refine ⟨idSet_cons _ _, fun ho => ?_⟩
      rw [ordered_cons]
      refine ⟨fun n hn => ?_, ho⟩
      rw [idSet_cons, Finset.mem_insert] at hn
      rcases hn with rfl | hn
      · exact h
      · exact lt_trans h ((ordered_cons.mp ho).1 n hn)
    · split
      · rename_i h
        refine ⟨by rw [idSet_cons, h1, idSet_cons, Finset.insert_comm], fun ho => ?_⟩
        rw [ordered_cons] at ho ⊢
        refine ⟨fun n hn => ?_, h2 ho.2⟩
        rw [h1, Finset.mem_insert] at hn
        rcases hn with rfl | hn
        · exact h
        · exact ho.1 n hn
      · rename_i h3 h4
        have : v.id = w.id := by omega
        refine ⟨?_, id⟩
        rw [idSet_cons, this, Finset.insert_idem]

theorem insertAll_ok : ∀ t s : VarSet, idSet (VarSet.insertAll s t) = idSet s ∪ idSet t ∧
    (Ordered s → Ordered (VarSet.insertAll s t))
  | [], s => ⟨by simp [VarSet.insertAll, idSet], id⟩
  | v :: t, s => by
    obtain ⟨h1, h2⟩ := insert_ok v s
    obtain ⟨h3, h4⟩ := insertAll_ok t (VarSet.insert v s)
    refine ⟨?_, fun h => h4 (h2 h)⟩
    show idSet (VarSet.insertAll (VarSet.insert v s) t) = _
    rw [h3, h1, idSet_cons]
    ext n; simp only [Finset.mem_union, Finset.mem_insert]; tauto

theorem erase_ok (v : Variable) : ∀ s : VarSet, Ordered s →
    idSet (VarSet.erase v s).2 = (idSet s).erase v.id ∧ Ordered (VarSet.erase v s).2 ∧
      (VarSet.erase v s).1 = if v.id ∈ idSet s then 1 else 0
  | [], _ => by simp [VarSet.erase, idSet, Ordered]
  | w :: ws, ho => by
    rw [ordered_cons] at ho
    obtain ⟨h1, h2, h3⟩ := erase_ok v ws ho.2
    unfold VarSet.erase
    split
    · rename_i h
      have e : v.id = w.id := by simp at h; omega
      have hn : w.id ∉ idSet ws := fun h => lt_irrefl _ (ho.1 _ h)
      refine ⟨?_, ho.2, ?_⟩
      · show idSet ws = _
        rw [idSet_cons, e, Finset.erase_insert hn]
      · rw [if_pos (by rw [idSet_cons, e]; exact Finset.mem_insert_self ..)]
    · rename_i h
      have e : v.id ≠ w.id := by intro e; simp [e] at h
      refine ⟨?_, ?_, ?_⟩
      · rw [idSet_cons, h1, idSet_cons, Finset.erase_insert_of_ne (Ne.symm e)]
      · rw [ordered_cons]
        refine ⟨fun n hn => ?_, h2⟩
        rw [h1] at hn
        exact ho.1 n (Finset.mem_of_mem_erase hn)
      · show (VarSet.erase v ws).1 = _
        rw [h3, idSet_cons]
        simp [Finset.mem_insert, e]

theorem eraseAll_fold : ∀ (t s : VarSet) (k : Nat), Ordered s → Ordered t →
    let r := t.foldl (fun acc v => (acc.1 + (VarSet.erase v acc.2).1, (VarSet.erase v acc.2).2)) (k, s)
    idSet r.2 = idSet s \ idSet t ∧ Ordered r.2 ∧ r.1 = k + (idSet s ∩ idSet t).card
  | [], s, k, hs, _ => by simp [idSet, hs]
  | v :: t, s, k, hs, ht => by
    obtain ⟨h1, h2, h3⟩ := erase_ok v s hs
    rw [ordered_cons] at ht
    obtain ⟨g1, g2, g3⟩ := eraseAll_fold t _ (k + (VarSet.erase v s).1) h2 ht.2
    refine ⟨?_, g2, ?_⟩
    · refine g1.trans ?_
      rw [h1, idSet_cons]
      ext n; simp only [Finset.mem_sdiff, Finset.mem_erase, Finset.mem_insert]; tauto
    · refine g3.trans ?_
      rw [h3, h1, idSet_cons]
      have hv : v.id ∉ idSet t := fun h => lt_irrefl _ (ht.1 _ h)
      have e : (idSet s).erase v.id ∩ idSet t = idSet s ∩ idSet t := by
        ext n
        simp only [Finset.mem_inter, Finset.mem_erase]
        refine ⟨fun h => ⟨h.1.2, h.2⟩, fun h => ⟨⟨fun e => hv (e ▸ h.2), h.1⟩, h.2⟩⟩
      rw [e]
      split
      · rename_i h
        rw [Finset.inter_insert_of_mem h, Finset.card_insert_of_notMem (by simp [hv])]
        omega
      · rename_i h
        rw [Finset.inter_insert_of_notMem h, Nat.add_zero]

theorem eraseAll_ok {s t : VarSet} (hs : Ordered s) (ht : Ordered t) :
    idSet (VarSet.eraseAll s t).2 = idSet s \ idSet t ∧ Ordered (VarSet.eraseAll s t).2 ∧
      (VarSet.eraseAll s t).1 = (idSet s ∩ idSet t).card := by
  have := eraseAll_fold t s 0 hs ht
  simpa [VarSet.eraseAll] using this

theorem mem_ok (v : Variable) (s : VarSet) : VarSet.mem v s = true ↔ v.id ∈ idSet s := by
  rw [idSet_mem, VarSet.mem, List.any_eq_true]
  refine exists_congr fun w => and_congr_right fun _ => ?_
  simp; omega

theorem includes_ok : ∀ s t : VarSet, Ordered s → Ordered t →
    (VarSet.includes s t = true ↔ idSet t ⊆ idSet s)
  | s, [], _, _ => by cases s <;> simp [VarSet.includes, idSet]
  | [], y :: ys, _, _ => by
    simp only [VarSet.includes, Bool.false_eq_true, false_iff, idSet_cons, idSet_nil]
    intro h
    simpa using h (Finset.mem_insert_self _ _)
  | x :: xs, y :: ys, hs, ht => by
    have hs' := ordered_cons.mp hs
    have ht' := ordered_cons.mp ht
    unfold VarSet.includes
    split
    · rename_i h
      simp only [Bool.false_eq_true, false_iff]
      intro hsub
      have := hsub (by rw [idSet_cons]; exact Finset.mem_insert_self _ _ : y.id ∈ idSet (y :: ys))
      rw [idSet_cons, Finset.mem_insert] at this
      rcases this with e | e
      · omega
      · exact absurd (hs'.1 _ e) (by omega)
    · split
      · rename_i h
        rw [includes_ok xs (y :: ys) hs'.2 ht]
        refine ⟨fun hsub n hn => by rw [idSet_cons]; exact Finset.mem_insert_of_mem (hsub hn),
          fun hsub n hn => ?_⟩
        have := hsub hn
        rw [idSet_cons, Finset.mem_insert] at this
        rcases this with e | e
        · rw [idSet_cons, Finset.mem_insert] at hn
          rcases hn with e' | e'
          · omega
          · exact absurd (ht'.1 _ e') (by omega)
        · exact e
      · rename_i h1 h2
        have e : x.id = y.id := by omega
        rw [includes_ok xs ys hs'.2 ht'.2, idSet_cons, idSet_cons, e]
        refine ⟨fun hsub => Finset.insert_subset_insert _ hsub, fun hsub n hn => ?_⟩
        have := hsub (Finset.mem_insert_of_mem hn)
        rw [Finset.mem_insert] at this
        rcases this with e' | e'
        · exact absurd (ht'.1 _ hn) (by omega)
        · exact e'

theorem equal_ids : ∀ s t : VarSet, VarSet.equal s t = true ↔ s.map (·.id) = t.map (·.id)
  | [], [] => by simp [VarSet.equal]
  | [], _ :: _ => by simp [VarSet.equal]
  | _ :: _, [] => by simp [VarSet.equal]
  | x :: xs, y :: ys => by
    simp only [VarSet.equal, Bool.and_eq_true, decide_eq_true_eq, equal_ids xs ys, List.map_cons,
      List.cons.injEq]

theorem ids_eq : ∀ {s t : VarSet}, Ordered s → Ordered t → idSet s = idSet t →
    s.map (·.id) = t.map (·.id)
  | [], [], _, _, _ => rfl
  | [], y :: ys, _, _, h => by
    have : y.id ∈ idSet [] := by rw [h, idSet_cons]; exact Finset.mem_insert_self _ _
    simp [idSet] at this
  | x :: xs, [], _, _, h => by
    have : x.id ∈ idSet [] := by rw [← h, idSet_cons]; exact Finset.mem_insert_self _ _
    simp [idSet] at this
  | x :: xs, y :: ys, hs, ht, h => by
    rw [ordered_cons] at hs ht
    have hx : x.id ∈ idSet (y :: ys) := by rw [← h, idSet_cons]; exact Finset.mem_insert_self _ _
    have hy : y.id ∈ idSet (x :: xs) := by rw [h, idSet_cons]; exact Finset.mem_insert_self _ _
    rw [idSet_cons, Finset.mem_insert] at hx hy
    have e : x.id = y.id := by
      rcases hx with hx | hx
      · exact hx
      · rcases hy with hy | hy
        · exact hy.symm
        · have h1 := ht.1 _ hx
          have h2 := hs.1 _ hy
          omega
    have hxs : x.id ∉ idSet xs := fun h => lt_irrefl _ (hs.1 _ h)
    have hys : x.id ∉ idSet ys := fun h => lt_irrefl _ (e ▸ ht.1 _ h)
    rw [idSet_cons, idSet_cons, ← e] at h
    have h' : idSet xs = idSet ys := by
      rw [← Finset.erase_insert hxs, h, Finset.erase_insert hys]
    simp only [List.map_cons, List.cons.injEq]
    exact ⟨e, ids_eq hs.2 ht.2 h'⟩

theorem equal_ok {s t : VarSet} (hs : Ordered s) (ht : Ordered t) :
    VarSet.equal s t = true ↔ idSet s = idSet t := by
  rw [equal_ids]
  exact ⟨fun h => by unfold idSet; rw [h], ids_eq hs ht⟩

theorem less_ids : ∀ s t : VarSet, VarSet.less s t = true ↔ s.map (·.id) < t.map (·.id)
  | s, [] => by cases s <;> simp [VarSet.less]
  | [], _ :: _ => by simp [VarSet.less]
  | x :: xs, y :: ys => by
    unfold VarSet.less
    simp only [List.map_cons, List.cons_lt_cons_iff]
    split
    · rename_i h; simp [h]
    · split
      · rename_i h1 h2
        simp only [Bool.false_eq_true, false_iff, not_or]
        exact ⟨h1, fun h => by omega⟩
      · rename_i h1 h2
        rw [less_ids xs ys]
        have : x.id = y.id := by omega
        simp [this]

theorem common_ok (s t : VarSet) : Ordered s → Ordered t →
    idSet (VarSet.common s t) = idSet s ∩ idSet t := by
  fun_induction VarSet.common s t with
  | case1 => intro _ _; simp [idSet]
  | case2 => intro _ _; simp [idSet]
  | case3 x xs y ys h ih =>
    intro hs ht
    have hs' := ordered_cons.mp hs
    have ht' := ordered_cons.mp ht
    rw [ih hs'.2 ht, idSet_cons x]
    rw [Finset.insert_inter_of_notMem]
    rw [idSet_cons, Finset.mem_insert]
    rintro (e | e)
    · omega
    · exact absurd (ht'.1 _ e) (by omega)
  | case4 x xs y ys h1 h ih =>
    intro hs ht
    have hs' := ordered_cons.mp hs
    have ht' := ordered_cons.mp ht
    rw [ih hs ht'.2, idSet_cons y]
    rw [Finset.inter_insert_of_notMem]
    rw [idSet_cons, Finset.mem_insert]
    rintro (e | e)
    · omega
    · exact absurd (hs'.1 _ e) (by omega)
  | case5 x xs y ys h1 h2 ih =>
    intro hs ht
    have hs' := ordered_cons.mp hs
    have ht' := ordered_cons.mp ht
    have e : x.id = y.id := by omega
    rw [idSet_cons, ih hs'.2 ht'.2, idSet_cons, idSet_cons, e, Finset.insert_inter_distrib]

theorem haveCommon_ok (s t : VarSet) :
    VarSet.haveCommon s t = true ↔ VarSet.common s t ≠ [] := by
  fun_induction VarSet.haveCommon s t with
  | case1 => simp [VarSet.common]
  | case2 => simp [VarSet.common]
  | case3 x xs y ys h ih => rw [ih, VarSet.common, if_pos h]
  | case4 x xs y ys h1 h2 =>
    rw [VarSet.common, if_neg h1, if_neg (by simpa using h2)]
    simp
  | case5 x xs y ys h1 h2 ih =>
    rw [ih]
    conv_rhs => rw [VarSet.common, if_neg h1, if_pos (by simpa using h2)]

theorem idSet_ne {s : VarSet} : s ≠ [] ↔ (idSet s).Nonempty := by
  cases s with
  | nil => simp [idSet]
  | cons v s => simp [idSet_cons]

theorem step_vars {σ : VarSets} (hσ : ∀ i, Ordered (σ i)) {c : VarCmd} (hc : NoAlias c) :
    ∃ σ', stepVars σ c = .ok σ' ∧ (∀ i, Ordered (σ' i)) ∧
      (fun i => idSet (σ' i)) = setStep (fun i => idSet (σ i)) c := by
  have key : ∀ i s, Ordered s → (∀ j, Ordered ((VarSets.put σ i s) j)) ∧
      (fun j => idSet ((VarSets.put σ i s) j)) = putSet (fun j => idSet (σ j)) i (idSet s) := by
    intro i s hs
    refine ⟨fun j => ?_, ?_⟩
    · unfold VarSets.put; split
      · exact hs
      · exact hσ j
    · funext j
      unfold VarSets.put putSet
      split <;> rfl
  cases c with
  | insert i v =>
    obtain ⟨h1, h2⟩ := insert_ok v (σ i)
    obtain ⟨k1, k2⟩ := key i _ (h2 (hσ i))
    exact ⟨_, rfl, k1, by rw [k2, h1]; rfl⟩
  | insertAll i j =>
    obtain ⟨h1, h2⟩ := insertAll_ok (σ j) (σ i)
    obtain ⟨k1, k2⟩ := key i _ (h2 (hσ i))
    refine ⟨_, by rw [stepVars, if_neg (fun h => hc h.1)], k1, by rw [k2, h1]; rfl⟩
  | erase i v =>
    obtain ⟨h1, h2, -⟩ := erase_ok v (σ i) (hσ i)
    obtain ⟨k1, k2⟩ := key i _ h2
    exact ⟨_, rfl, k1, by rw [k2, h1]; rfl⟩
  | eraseAll i j =>
    obtain ⟨h1, h2, -⟩ := eraseAll_ok (hσ i) (hσ j)
    obtain ⟨k1, k2⟩ := key i _ h2
    refine ⟨_, by rw [stepVars, if_neg (fun h => hc h.1)], k1, by rw [k2, h1]; rfl⟩
  | add k i j =>
    obtain ⟨h1, h2⟩ := insertAll_ok (σ j) (σ i)
    obtain ⟨k1, k2⟩ := key k _ (h2 (hσ i))
    exact ⟨_, rfl, k1, by rw [k2, h1]; rfl⟩
  | sub k i j =>
    obtain ⟨h1, h2, -⟩ := eraseAll_ok (hσ i) (hσ j)
    obtain ⟨k1, k2⟩ := key k _ h2
    exact ⟨_, rfl, k1, by rw [k2, h1]; rfl⟩
  | meet k i j =>
    have h0 := common_ok (σ i) (σ j) (hσ i) (hσ j)
    obtain ⟨h1, h2⟩ := insertAll_ok (VarSet.common (σ i) (σ j)) []
    obtain ⟨k1, k2⟩ := key k _ (h2 (by simp [Ordered]))
    refine ⟨_, rfl, k1, ?_⟩
    unfold VarSet.intersect
    rw [k2, h1, h0, idSet_nil, Finset.empty_union]
    rfl

theorem run_vars : ∀ (cs : List VarCmd) {σ : VarSets}, (∀ i, Ordered (σ i)) → (∀ c ∈ cs, NoAlias c) →
    ∃ σ', runVars σ cs = .ok σ' ∧ (∀ i, Ordered (σ' i)) ∧
      (fun i => idSet (σ' i)) = setRun (fun i => idSet (σ i)) cs
  | [], σ, hσ, _ => ⟨σ, rfl, hσ, rfl⟩
  | c :: cs, σ, hσ, hc => by
    obtain ⟨σ1, h1, h2, h3⟩ := step_vars hσ (hc c (List.mem_cons_self ..))
    obtain ⟨σ2, g1, g2, g3⟩ := run_vars cs h2 (fun c h => hc c (List.mem_cons_of_mem _ h))
    refine ⟨σ2, ?_, g2, ?_⟩
    · rw [runVars, h1]; exact g1
    · rw [g3, h3]; rfl

end Verif.Proof
