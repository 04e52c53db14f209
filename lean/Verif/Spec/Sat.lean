import Verif.Model.Sat

/-!
# What is assumed of PicoSAT, and a small SAT solver meeting it
-/

namespace Verif.Spec
open Verif Verif.Model

/-- The literal is true: positive literals are variables, negative ones their negations. -/
def LitTrue (σ : Nat → Bool) (l : Int) : Prop :=
  (0 < l ∧ σ l.natAbs = true) ∨ (l < 0 ∧ σ l.natAbs = false)

instance (σ l) : Decidable (LitTrue σ l) := by unfold LitTrue; infer_instance

/-- Every clause has a true literal. -/
def Satisfies (σ : Nat → Bool) (cs : List (List Int)) : Prop := ∀ c ∈ cs, ∃ l ∈ c, LitTrue σ l

instance (σ cs) : Decidable (Satisfies σ cs) := by unfold Satisfies; infer_instance

/-- PicoSAT answers correctly: after "unsatisfiable" no assignment satisfies the clauses; after
"satisfiable" the values it reports, possibly not for all variables, make a literal of every
clause true. -/
structure PicosatOk (ps : Picosat) : Prop where
  unsat : ∀ n p m cs, ps n p m cs = .unsat → ∀ σ, ¬ Satisfies σ cs
  sat : ∀ n p m cs d, ps n p m cs = .sat d → ∀ c ∈ cs, ∃ l ∈ c,
    (0 < l ∧ d l.natAbs = 1) ∨ (l < 0 ∧ d l.natAbs ≠ 0 ∧ d l.natAbs ≠ 1)

/-- Try all values of the variables `1 … n`. -/
def trySat (cs : List (List Int)) : Nat → (Nat → Bool) → Option (Nat → Bool)
  | 0, σ => if Satisfies σ cs then some σ else none
  | n + 1, σ =>
    match trySat cs n fun i => if i = n + 1 then false else σ i with
    | some τ => some τ
    | none => trySat cs n fun i => if i = n + 1 then true else σ i

/-- The largest variable of the clauses. -/
def topVar (cs : List (List Int)) : Nat := (cs.flatten.map Int.natAbs).foldr max 0

def demoSat : Picosat := fun _ _ _ cs =>
  match trySat cs (topVar cs) fun _ => false with
  | some σ => .sat fun i => if σ i then 1 else -1
  | none => .unsat

theorem le_topVar {cs : List (List Int)} {c l} (hc : c ∈ cs) (hl : l ∈ c) :
    l.natAbs ≤ topVar cs := by
  have : l.natAbs ∈ cs.flatten.map Int.natAbs :=
    List.mem_map.mpr ⟨l, List.mem_flatten.mpr ⟨c, hc, hl⟩, rfl⟩
  unfold topVar
  generalize cs.flatten.map Int.natAbs = xs at this
  induction xs with
  | nil => cases this
  | cons x xs ih =>
    simp only [List.foldr_cons]
    rcases List.mem_cons.mp this with rfl | h
    · exact le_max_left _ _
    · exact le_trans (ih h) (le_max_right _ _)

theorem satisfies_congr {cs : List (List Int)} {σ τ : Nat → Bool}
    (h : ∀ i, i ≤ topVar cs → σ i = τ i) (hs : Satisfies σ cs) : Satisfies τ cs := by
  intro c hc
  obtain ⟨l, hl, ht⟩ := hs c hc
  refine ⟨l, hl, ?_⟩
  unfold LitTrue at *
  rwa [← h _ (le_topVar hc hl)]

theorem trySat_some {cs : List (List Int)} : ∀ {n σ τ}, trySat cs n σ = some τ → Satisfies τ cs
  | 0, σ, τ, h => by
    simp only [trySat] at h
    split at h
    · cases h; assumption
    · cases h
  | n + 1, σ, τ, h => by
    simp only [trySat] at h
    split at h
    · rename_i τ' h'
      cases h; exact trySat_some h'
    · exact trySat_some h

theorem trySat_none {cs : List (List Int)} : ∀ {n σ}, trySat cs n σ = none →
    ∀ τ, (∀ i, n < i → τ i = σ i) → (τ 0 = σ 0) → ¬ Satisfies τ cs
  | 0, σ, h, τ, h1, h0 => by
    simp only [trySat] at h
    split at h
    · cases h
    · rename_i hn
      have : τ = σ := by
        funext i
        rcases Nat.eq_zero_or_pos i with rfl | hi
        · exact h0
        · exact h1 i hi
      rw [this]; exact hn
  | n + 1, σ, h, τ, h1, h0 => by
    simp only [trySat] at h
    split at h
    · cases h
    · rename_i h'
      cases hv : τ (n + 1) with
      | false =>
        refine trySat_none h' τ (fun i hi => ?_) (by simp [h0])
        split
        · rename_i he; rw [he, hv]
        · exact h1 i (by omega)
      | true =>
        refine trySat_none h τ (fun i hi => ?_) (by simp [h0])
        split
        · rename_i he; rw [he, hv]
        · exact h1 i (by omega)

theorem demoSat_ok : PicosatOk demoSat where
  unsat := by
    intro n p m cs h σ hs
    unfold demoSat at h
    split at h
    · cases h
    · rename_i hn
      refine trySat_none hn (fun i => if 0 < i ∧ i ≤ topVar cs then σ i else false)
        (fun i hi => by simp; omega) (by simp) ?_
      intro c hc
      obtain ⟨l, hl, ht⟩ := hs c hc
      refine ⟨l, hl, ?_⟩
      have h1 := le_topVar hc hl
      unfold LitTrue at *
      have h2 : 0 < l.natAbs := by
        rcases ht with h | h <;> omega
      simpa [h1, h2] using ht
  sat := by
    intro n p m cs d h c hc
    unfold demoSat at h
    split at h
    · rename_i σ hσ
      cases h
      obtain ⟨l, hl, ht⟩ := trySat_some hσ c hc
      refine ⟨l, hl, ?_⟩
      unfold LitTrue at ht
      rcases ht with ⟨h1, h2⟩ | ⟨h1, h2⟩
      · left; exact ⟨h1, by simp [h2]⟩
      · right; exact ⟨h1, by simp [h2], by simp [h2]⟩
    · cases h

end Verif.Spec
