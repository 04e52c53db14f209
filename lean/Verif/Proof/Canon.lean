import Verif.Spec.Build
import Verif.Proof.Nnf

/-! The construction API delivers canonical formulas. -/

namespace Verif.Proof
open Verif Verif.Model Verif.Spec

theorem insertF_nodup {f s} (h : s.Nodup) : (insertF f s).Nodup := by
  unfold insertF
  split_ifs with hf
  · exact h
  · rw [List.nodup_append]
    refine ⟨h, by simp, ?_⟩
    intro a ha b hb hab
    simp at hb; subst hab; subst hb; exact hf ha

theorem insertF_length {f s} : s.length ≤ (insertF f s).length := by
  unfold insertF; split_ifs <;> simp

theorem foldl_insertF_nodup {gs s : List Fml} (h : s.Nodup) :
    (gs.foldl (fun s g => insertF g s) s).Nodup := by
  induction gs generalizing s with
  | nil => exact h
  | cons g gs ih => exact ih (insertF_nodup h)

theorem foldl_insertF_length {gs s : List Fml} :
    s.length ≤ (gs.foldl (fun s g => insertF g s) s).length := by
  induction gs generalizing s with
  | nil => simp
  | cons g gs ih => exact le_trans insertF_length ih

/-- An operand list of a canonical conjunction (disjunction): `bad` is the forbidden kind. -/
structure Ops (bad : Fml → Prop) (s : List Fml) : Prop where
  nodup : s.Nodup
  canon : ∀ f ∈ s, Canon f
  tt : .tt ∉ s
  ff : .ff ∉ s
  flat : ∀ f ∈ s, ¬ bad f

def IsConj (f : Fml) : Prop := ∃ gs, f = .conj gs
def IsDisj (f : Fml) : Prop := ∃ gs, f = .disj gs

theorem Ops.nil {bad} : Ops bad [] := ⟨by simp, by simp, by simp, by simp, by simp⟩

theorem Ops.insert {bad f s} (h : Ops bad s) (hf : Canon f) (h1 : f ≠ .tt) (h2 : f ≠ .ff)
    (h3 : ¬ bad f) : Ops bad (insertF f s) := by
  refine ⟨insertF_nodup h.nodup, ?_, ?_, ?_, ?_⟩
  · intro g hg; rw [mem_insertF] at hg
    rcases hg with rfl | hg; exacts [hf, h.canon g hg]
  · rw [mem_insertF]; rintro (h' | h'); exacts [h1 h'.symm, h.tt h']
  · rw [mem_insertF]; rintro (h' | h'); exacts [h2 h'.symm, h.ff h']
  · intro g hg; rw [mem_insertF] at hg
    rcases hg with rfl | hg; exacts [h3, h.flat g hg]

theorem Ops.union {bad gs s} (h : Ops bad s) (hg : Ops bad gs) :
    Ops bad (gs.foldl (fun s g => insertF g s) s) := by
  refine ⟨foldl_insertF_nodup h.nodup, ?_, ?_, ?_, ?_⟩
  · intro g hg'; rw [mem_foldl_insertF] at hg'
    rcases hg' with h' | h'; exacts [hg.canon g h', h.canon g h']
  · rw [mem_foldl_insertF]; rintro (h' | h'); exacts [hg.tt h', h.tt h']
  · rw [mem_foldl_insertF]; rintro (h' | h'); exacts [hg.ff h', h.ff h']
  · intro g hg'; rw [mem_foldl_insertF] at hg'
    rcases hg' with h' | h'; exacts [hg.flat g h', h.flat g h']

theorem Ops.of_conj {fs} (h : Canon (.conj fs)) : Ops IsConj fs ∧ 2 ≤ fs.length := by
  cases h with
  | conj h1 h2 h3 h4 h5 h6 =>
    exact ⟨⟨h1, h3, h4, h5, fun f hf ⟨gs, hgs⟩ => h6 gs (hgs ▸ hf)⟩, h2⟩

theorem Ops.to_conj {fs} (h : Ops IsConj fs) (hl : 2 ≤ fs.length) : Canon (.conj fs) :=
  .conj h.nodup hl h.canon h.tt h.ff (fun gs hgs => h.flat _ hgs ⟨gs, rfl⟩)

theorem Ops.of_disj {fs} (h : Canon (.disj fs)) : Ops IsDisj fs ∧ 2 ≤ fs.length := by
  cases h with
  | disj h1 h2 h3 h4 h5 h6 =>
    exact ⟨⟨h1, h3, h4, h5, fun f hf ⟨gs, hgs⟩ => h6 gs (hgs ▸ hf)⟩, h2⟩

theorem Ops.to_disj {fs} (h : Ops IsDisj fs) (hl : 2 ≤ fs.length) : Canon (.disj fs) :=
  .disj h.nodup hl h.canon h.tt h.ff (fun gs hgs => h.flat _ hgs ⟨gs, rfl⟩)

theorem Ops.mergeConj {f s} (h : Ops IsConj s) (hf : Canon f) (h1 : f ≠ .tt) (h2 : f ≠ .ff) :
    Ops IsConj (mergeConj f s) := by
  unfold Model.mergeConj
  split
  · exact h.union (Ops.of_conj hf).1
  · rename_i hne
    exact h.insert hf h1 h2 (fun ⟨gs, hgs⟩ => hne gs hgs)

theorem Ops.mergeDisj {f s} (h : Ops IsDisj s) (hf : Canon f) (h1 : f ≠ .tt) (h2 : f ≠ .ff) :
    Ops IsDisj (mergeDisj f s) := by
  unfold Model.mergeDisj
  split
  · exact h.union (Ops.of_disj hf).1
  · rename_i hne
    exact h.insert hf h1 h2 (fun ⟨gs, hgs⟩ => hne gs hgs)

theorem mergeConj_length {f s} : s.length ≤ (mergeConj f s).length := by
  unfold Model.mergeConj; split
  exacts [foldl_insertF_length, insertF_length]

theorem mergeDisj_length {f s} : s.length ≤ (mergeDisj f s).length := by
  unfold Model.mergeDisj; split
  exacts [foldl_insertF_length, insertF_length]

theorem insertF_two {f g : Fml} (h : f ≠ g) : (insertF g (insertF f [])).length = 2 := by
  simp [insertF, h.symm]

theorem Canon.andF {f g} (hf : Canon f) (hg : Canon g) : Canon (andF f g) := by
  unfold Model.andF
  split_ifs with h1 h2 h3 h4 h5
  · exact hf
  · exact .ff
  · exact hg
  · exact hf
  · exact hf
  · split
    · obtain ⟨ho, hl⟩ := Ops.of_conj hf
      exact (ho.mergeConj hg h4 h2).to_conj (le_trans hl mergeConj_length)
    · obtain ⟨ho, hl⟩ := Ops.of_conj hg
      exact (ho.mergeConj hf h3 h1).to_conj (le_trans hl mergeConj_length)
    · rename_i hn1 hn2
      refine Ops.to_conj ?_ (le_of_eq (insertF_two h5).symm)
      exact (Ops.nil.insert hf h3 h1 (fun ⟨gs, h⟩ => hn1 gs h)).insert hg h4 h2
        (fun ⟨gs, h⟩ => hn2 gs h)

theorem Canon.orF {f g} (hf : Canon f) (hg : Canon g) : Canon (orF f g) := by
  unfold Model.orF
  split_ifs with h1 h2 h3 h4 h5
  · exact hf
  · exact .tt
  · exact hg
  · exact hf
  · exact hf
  · split
    · obtain ⟨ho, hl⟩ := Ops.of_disj hf
      exact (ho.mergeDisj hg h2 h4).to_disj (le_trans hl mergeDisj_length)
    · obtain ⟨ho, hl⟩ := Ops.of_disj hg
      exact (ho.mergeDisj hf h1 h3).to_disj (le_trans hl mergeDisj_length)
    · rename_i hn1 hn2
      refine Ops.to_disj ?_ (le_of_eq (insertF_two h5).symm)
      exact (Ops.nil.insert hf h1 h3 (fun ⟨gs, h⟩ => hn1 gs h)).insert hg h2 h4
        (fun ⟨gs, h⟩ => hn2 gs h)

theorem Canon.notF {f} (hf : Canon f) : Canon (notF f) := by
  unfold Model.notF
  split_ifs with h1 h2
  · exact .ff
  · exact .tt
  · split
    · cases hf with
      | neg h _ _ _ => exact h
    · rename_i hn
      exact .neg hf h1 h2 hn

theorem conjLoop_ops {fs ops l} (hf : ∀ g ∈ fs, Canon g) (ho : Ops IsConj ops)
    (h : conjLoop fs ops = some l) : Ops IsConj l := by
  induction fs generalizing ops with
  | nil => simp [conjLoop] at h; subst h; exact ho
  | cons f fs ih =>
    unfold conjLoop at h
    split_ifs at h with h1 h2
    · exact ih (fun g hg => hf g (by simp [hg])) ho h
    · exact ih (fun g hg => hf g (by simp [hg])) (ho.mergeConj (hf f (by simp)) h2 h1) h

theorem disjLoop_ops {fs ops l} (hf : ∀ g ∈ fs, Canon g) (ho : Ops IsDisj ops)
    (h : disjLoop fs ops = some l) : Ops IsDisj l := by
  induction fs generalizing ops with
  | nil => simp [disjLoop] at h; subst h; exact ho
  | cons f fs ih =>
    unfold disjLoop at h
    split_ifs at h with h1 h2
    · exact ih (fun g hg => hf g (by simp [hg])) ho h
    · exact ih (fun g hg => hf g (by simp [hg])) (ho.mergeDisj (hf f (by simp)) h1 h2) h

theorem Canon.mkConj {fs} (h : ∀ g ∈ fs, Canon g) : Canon (mkConj fs) := by
  unfold Model.mkConj
  have := fun l => conjLoop_ops (l := l) h Ops.nil
  split <;> rename_i h'
  · exact .ff
  · exact .tt
  · exact (this _ h').canon _ (by simp)
  · rename_i l hn1 hn2
    refine (this _ h').to_conj ?_
    match l, hn1, hn2 with
    | [], hn1, _ => exact absurd rfl hn1
    | [a], _, hn2 => exact absurd rfl (hn2 a)
    | a :: b :: l, _, _ => simp

theorem Canon.mkDisj {fs} (h : ∀ g ∈ fs, Canon g) : Canon (mkDisj fs) := by
  unfold Model.mkDisj
  have := fun l => disjLoop_ops (l := l) h Ops.nil
  split <;> rename_i h'
  · exact .tt
  · exact .ff
  · exact (this _ h').canon _ (by simp)
  · rename_i l hn1 hn2
    refine (this _ h').to_disj ?_
    match l, hn1, hn2 with
    | [], hn1, _ => exact absurd rfl hn1
    | [a], _, hn2 => exact absurd rfl (hn2 a)
    | a :: b :: l, _, _ => simp

theorem Canon.mkRel {op a b} : Canon (mkRel op a b) := by
  unfold Model.mkRel
  split
  · split_ifs
    exacts [.tt, .ff]
  · exact .rel

mutual
theorem build_canon : ∀ b : Build, Canon b.run
  | .tt => by simp only [Build.run]; exact .tt
  | .ff => by simp only [Build.run]; exact .ff
  | .bvar v => by simp only [Build.run]; exact .bvar
  | .rel op a b => by simp only [Build.run]; exact Canon.mkRel
  | .and a b => by simp only [Build.run]; exact Canon.andF (build_canon a) (build_canon b)
  | .or a b => by simp only [Build.run]; exact Canon.orF (build_canon a) (build_canon b)
  | .not a => by simp only [Build.run]; exact Canon.notF (build_canon a)
  | .imply a b => by
    simp only [Build.run, implyF]
    exact Canon.orF (Canon.notF (build_canon a)) (build_canon b)
  | .iff a b => by
    simp only [Build.run, iffF, implyF]
    exact Canon.andF (Canon.orF (Canon.notF (build_canon a)) (build_canon b))
      (Canon.orF (Canon.notF (build_canon b)) (build_canon a))
  | .eq a b => by
    simp only [Build.run, eqF]
    exact Canon.andF (Canon.orF (Canon.notF (build_canon a)) (build_canon b))
      (Canon.orF (Canon.notF (build_canon b)) (build_canon a))
  | .conj as => by simp only [Build.run]; exact Canon.mkConj (buildList_canon as)
  | .disj as => by simp only [Build.run]; exact Canon.mkDisj (buildList_canon as)
  | .all vs a => by simp only [Build.run, forallF]; exact .all (build_canon a)
theorem buildList_canon : ∀ as : List Build, ∀ g ∈ Build.runList as, Canon g
  | [] => by simp [Build.runList]
  | a :: as => by
    intro g hg
    simp only [Build.runList, List.mem_cons] at hg
    rcases hg with rfl | hg
    exacts [build_canon a, buildList_canon as g hg]
end

end Verif.Proof
