import Verif.Model.Api
import Verif.Proof.DeltaInv

/-! # Histories of the library interface -/

namespace Verif.Proof
open Verif Verif.Model Verif.Spec

theorem mem_insertVar {v w : Variable} : ∀ {vs : List Variable}, w ∈ insertVar v vs ↔ w = v ∨ w ∈ vs
  | [] => by simp [insertVar]
  | u :: us => by
    unfold insertVar
    split_ifs with h1 h2
    · subst h1; simp
    · simp
    · simp only [List.mem_cons, mem_insertVar (vs := us)]; tauto

theorem mem_varSet {w : Variable} : ∀ {vs : List Variable}, w ∈ varSet vs ↔ w ∈ vs
  | [] => by simp [varSet]
  | v :: vs => by
    rw [varSet, List.foldr_cons, mem_insertVar, ← varSet, mem_varSet, List.mem_cons]

/-- Ids grow along the list. -/
theorem insertVar_sorted {v : Variable} : ∀ {vs : List Variable},
    vs.Pairwise (fun a b => a.id < b.id) → (∀ w ∈ vs, w.id = v.id → w = v) →
    (insertVar v vs).Pairwise (fun a b => a.id < b.id)
  | [], _, _ => by simp [insertVar]
  | u :: us, h, hv => by
    rw [List.pairwise_cons] at h
    unfold insertVar
    split_ifs with h1 h2
    · exact List.pairwise_cons.mpr h
    · refine List.pairwise_cons.mpr ⟨fun w hw => ?_, List.pairwise_cons.mpr h⟩
      rcases List.mem_cons.mp hw with rfl | hw
      · exact h2
      · exact lt_trans h2 (h.1 w hw)
    · refine List.pairwise_cons.mpr ⟨fun w hw => ?_, insertVar_sorted h.2 fun w hw =>
        hv w (by simp [hw])⟩
      rcases mem_insertVar.mp hw with rfl | hw
      · have : u.id ≠ w.id := fun e => h1 (hv u (by simp) e).symm
        omega
      · exact h.1 w hw

theorem varSet_sorted : ∀ {vs : List Variable}, (∀ v ∈ vs, ∀ w ∈ vs, v.id = w.id → v = w) →
    (varSet vs).Pairwise (fun a b => a.id < b.id)
  | [], _ => by simp [varSet]
  | v :: vs, h => by
    rw [varSet, List.foldr_cons, ← varSet]
    refine insertVar_sorted (varSet_sorted fun a ha b hb => h a (by simp [ha]) b (by simp [hb]))
      fun w hw e => ?_
    exact h w (by simp [mem_varSet.mp hw]) v (by simp) e

theorem declareAll_sat : ∀ (vs : List Variable) (c : Ctx), (declareAll vs c).sat = c.sat
  | [], _ => rfl
  | v :: vs, c => by rw [declareAll, declareAll_sat vs]; simp [declare, Ctx.setBox]

/-- The books after declaring the variables. -/
def booksOf (made us : List Variable) : Books :=
  { made := made, used := us, levels := [{ dom := us.map fun v => (v, newItv v.type) }] }

theorem plain_declareAll {cfg : CCfg} {S : Expr → Expr → Prop} {made : List Variable} :
    ∀ (vs us : List Variable) (c : Ctx), PosesPlain cfg S (booksOf made us) c →
    (∀ v ∈ vs, v ∈ made) → vs.Nodup → (∀ v ∈ vs, v ∉ us) →
    PosesPlain cfg S (booksOf made (vs.reverse ++ us)) (declareAll vs c)
  | [], _, _, h, _, _, _ => h
  | v :: vs, us, c, h, hm, hn, hd => by
    rw [List.nodup_cons] at hn
    have h1 : PosesPlain cfg S ((booksOf made us).step c.sat.abs.next (.declare v true))
        (declare c v true) :=
      .step (a := []) h ⟨hm v (by simp), .inr ⟨hd v (by simp), id⟩⟩ (.inl rfl) rfl
    have e : (booksOf made us).step c.sat.abs.next (.declare v true) = booksOf made (v :: us) := by
      have : v ∉ (booksOf made us).top.dom.map Prod.fst := by
        simpa [booksOf, Books.top] using hd v (by simp)
      simp only [Books.step, if_neg this]
      rfl
    rw [e] at h1
    have := plain_declareAll vs (v :: us) _ h1 (fun w hw => hm w (by simp [hw])) hn.2
      (fun w hw hx => by
        rcases List.mem_cons.mp hx with rfl | hx
        · exact hn.1 hw
        · exact hd w (by simp [hw]) hx)
    simpa [declareAll] using this

theorem reach_declareAll {cfg : CCfg} {made : List Variable} :
    ∀ (vs us : List Variable) (c : Ctx), Reach cfg { made := made, scopes := [us] } c →
    (∀ v ∈ vs, v ∈ made) →
    Reach cfg { made := made, scopes := [vs.reverse ++ us] } (declareAll vs c)
  | [], _, _, h, _ => h
  | v :: vs, us, c, h, hm => by
    have h1 : Reach cfg _ (declare c v true) :=
      .step (a := []) (cmd := .declare v true) h (hm v (by simp)) rfl
    have := reach_declareAll vs (v :: us) _ h1 (fun w hw => hm w (by simp [hw]))
    simpa [declareAll] using this

end Verif.Proof
