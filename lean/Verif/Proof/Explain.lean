import Verif.Spec.Explain

/-!
# The conflict closure: lemmas
-/

namespace Verif.Proof
open Verif Verif.Model Verif.Spec

theorem haveIntersection_iff {vs ws : List Variable} :
    haveIntersection vs ws = true ↔ ∃ v, v ∈ vs ∧ v ∈ ws := by
  simp [haveIntersection]

/-- What a round may do: insert constraints of `used` linked to one of `is`. -/
structure Grew (used is : List Fml) (a b : List Fml × Bool) : Prop where
  mono : a.1 ⊆ b.1
  flag : a.2 = true → b.2 = true
  new : ∀ g ∈ b.1, g ∈ a.1 ∨ (g ∈ used ∧ ∃ f ∈ is, ∃ v, v ∈ f.fv ∧ v ∈ g.fv)
  quiet : b.2 = false → b.1 = a.1
  loud : b.2 = true → a.2 = true ∨ ∃ g ∈ b.1, g ∈ used ∧ g ∉ a.1

theorem Grew.refl (used is a) : Grew used is a a :=
  ⟨List.Subset.refl _, fun h => h, fun _ h => Or.inl h, fun _ => rfl, fun h => Or.inl h⟩

theorem Grew.trans {used is js a b c} (h1 : Grew used is a b) (h2 : Grew used js b c)
    (hi : is ⊆ js) : Grew used js a c where
  mono := List.Subset.trans h1.mono h2.mono
  flag := fun h => h2.flag (h1.flag h)
  new := fun g hg => by
    rcases h2.new g hg with h | h
    · rcases h1.new g h with h | ⟨u, f, hf, v, hv⟩
      · exact Or.inl h
      · exact Or.inr ⟨u, f, hi hf, v, hv⟩
    · exact Or.inr h
  quiet := fun h => by
    rw [h2.quiet h, h1.quiet]
    cases hb : b.2 with
    | false => rfl
    | true => rw [h2.flag hb] at h; cases h
  loud := fun h => by
    rcases h2.loud h with h | ⟨g, hg, hu, hn⟩
    · rcases h1.loud h with h | ⟨g, hg, hu, hn⟩
      · exact Or.inl h
      · exact Or.inr ⟨g, h2.mono hg, hu, hn⟩
    · exact Or.inr ⟨g, hg, hu, fun h => hn (h1.mono h)⟩

theorem explInner_grew {used : List Fml} {fi : Fml} : ∀ (js : List Fml) (acc : List Fml × Bool),
    js ⊆ used → Grew used [fi] acc (explInner fi js acc) ∧
    ∀ fj ∈ js, (∃ v, v ∈ fi.fv ∧ v ∈ fj.fv) → fj ∈ (explInner fi js acc).1
  | [], acc, _ => ⟨Grew.refl _ _ _, by simp⟩
  | fj :: js, acc, hs => by
    have hs' : js ⊆ used := fun x hx => hs (by simp [hx])
    simp only [explInner]
    split_ifs with h1 h2
    · obtain ⟨g1, g2⟩ := explInner_grew (used := used) (fi := fi) js acc hs'
      refine ⟨g1, fun g hg hv => ?_⟩
      rcases List.mem_cons.mp hg with rfl | hg
      · exact g1.mono h1
      · exact g2 g hg hv
    · obtain ⟨g1, g2⟩ := explInner_grew (used := used) (fi := fi) js (fj :: acc.1, true) hs'
      have hv0 := haveIntersection_iff.mp h2
      have hstep : Grew used [fi] acc (fj :: acc.1, true) := by
        refine ⟨fun x hx => by simp [hx], fun _ => rfl, fun g hg => ?_, by simp, fun _ => ?_⟩
        · rcases List.mem_cons.mp hg with rfl | hg
          · exact Or.inr ⟨hs (by simp), fi, by simp, hv0⟩
          · exact Or.inl hg
        · exact Or.inr ⟨fj, by simp, hs (by simp), h1⟩
      refine ⟨hstep.trans g1 (List.Subset.refl _), fun g hg hv => ?_⟩
      rcases List.mem_cons.mp hg with rfl | hg
      · exact g1.mono (by simp)
      · exact g2 g hg hv
    · obtain ⟨g1, g2⟩ := explInner_grew (used := used) (fi := fi) js acc hs'
      refine ⟨g1, fun g hg hv => ?_⟩
      rcases List.mem_cons.mp hg with rfl | hg
      · exact absurd (haveIntersection_iff.mpr hv) h2
      · exact g2 g hg hv

theorem explRound_grew {used : List Fml} : ∀ (is : List Fml) (acc : List Fml × Bool),
    Grew used is acc (explRound used is acc) ∧
    ∀ fi ∈ is, ∀ fj ∈ used, (∃ v, v ∈ fi.fv ∧ v ∈ fj.fv) → fj ∈ (explRound used is acc).1
  | [], acc => ⟨Grew.refl _ _ _, by simp⟩
  | fi :: is, acc => by
    simp only [explRound]
    obtain ⟨g1, g2⟩ := explInner_grew (used := used) (fi := fi) used acc (List.Subset.refl _)
    obtain ⟨k1, k2⟩ := explRound_grew (used := used) is (explInner fi used acc)
    have g1' : Grew used (fi :: is) acc (explInner fi used acc) :=
      g1.trans (Grew.refl _ _ _) (by simp)
    have k1' : Grew used (fi :: is) (explInner fi used acc)
        (explRound used is (explInner fi used acc)) :=
      k1.trans (Grew.refl _ _ _) (by simp)
    refine ⟨g1'.trans k1' (List.Subset.refl _), fun f hf g hg hv => ?_⟩
    rcases List.mem_cons.mp hf with rfl | hf
    · exact k1.mono (g2 g hg hv)
    · exact k2 f hf g hg hv

/-- What the loop returns: everything in it was there or is connected, and it is closed. -/
theorem explLoop_ok {used : List Fml} {P : Fml → Prop}
    (hP : ∀ f g v, P f → g ∈ used → v ∈ f.fv → v ∈ g.fv → P g) : ∀ (n : Nat) (ex r : List Fml),
    (∀ g ∈ ex, P g) → explLoop used n ex = .ok r →
    ex ⊆ r ∧ (∀ g ∈ r, P g) ∧
    ∀ f ∈ r, ∀ g ∈ used, (∃ v, v ∈ f.fv ∧ v ∈ g.fv) → g ∈ r
  | 0, ex, r, _, h => by simp [explLoop] at h
  | n + 1, ex, r, hex, h => by
    simp only [explLoop] at h
    obtain ⟨g1, g2⟩ := explRound_grew (used := used) ex (ex, false)
    split_ifs at h with hf
    · have hex' : ∀ g ∈ (explRound used ex (ex, false)).1, P g := by
        intro g hg
        rcases g1.new g hg with h | ⟨hu, f, hf, v, h1, h2⟩
        · exact hex g h
        · exact hP f g v (hex f hf) hu h1 h2
      obtain ⟨k1, k2, k3⟩ := explLoop_ok hP n _ r hex' h
      exact ⟨List.Subset.trans g1.mono k1, k2, k3⟩
    · simp only [Run.ok.injEq] at h; subst h
      have e := g1.quiet (by simpa using hf)
      simp only at e
      rw [e] at g2 ⊢
      exact ⟨List.Subset.refl _, hex, g2⟩

theorem explLoop_total {used : List Fml} : ∀ (n : Nat) (ex : List Fml),
    (used.filter fun f => f ∉ ex).length < n → ∃ r, explLoop used n ex = .ok r
  | 0, ex, h => by simp at h
  | n + 1, ex, h => by
    simp only [explLoop]
    obtain ⟨g1, _⟩ := explRound_grew (used := used) ex (ex, false)
    split_ifs with hf
    · apply explLoop_total n
      obtain h' | ⟨g, hg, hu, hn⟩ := g1.loud hf
      · cases h'
      · have hlt : (used.filter fun f => f ∉ (explRound used ex (ex, false)).1).length <
            (used.filter fun f => f ∉ ex).length := by
          have hsub : (used.filter fun f => f ∉ (explRound used ex (ex, false)).1) =
              (used.filter fun f => f ∉ ex).filter
                fun f => f ∉ (explRound used ex (ex, false)).1 := by
            rw [List.filter_filter]
            congr 1
            funext f
            by_cases h1 : f ∈ (explRound used ex (ex, false)).1
            · simp [h1]
            · have : f ∉ ex := fun h2 => h1 (g1.mono h2)
              simp [h1, this]
          rw [hsub]
          apply List.length_filter_lt_length_iff_exists.mpr
          exact ⟨g, by simp [hu]; exact hn, by simpa using hg⟩
        omega
    · exact ⟨_, rfl⟩

theorem explInit_mem {witness used g} : g ∈ explInit witness used ↔
    g ∈ used ∧ (g.fv = [] ∨ ∃ v ∈ witness, v ∈ g.fv) := by
  simp only [explInit, List.mem_filter, Bool.or_eq_true, List.isEmpty_iff, haveIntersection_iff]

theorem explanation_iff {n witness used r} (h : explanation n witness used = .ok r) (g : Fml) :
    g ∈ r ↔ g ∈ used ∧ (g.fv = [] ∨ Connected witness used g) := by
  have cu : ∀ {g}, Connected witness used g → g ∈ used := fun hc => by cases hc <;> assumption
  unfold explanation at h
  split_ifs at h with hw
  · simp only [Run.ok.injEq] at h; subst h
    rw [explInit_mem]
    simp only [List.isEmpty_iff] at hw
    subst hw
    have : ∀ g, ¬ Connected [] used g := by
      intro g hg
      induction hg with
      | here _ h _ => cases h
      | next _ _ _ _ ih => exact ih
    simp [this]
  · obtain ⟨k1, k2, k3⟩ := explLoop_ok (P := fun g => g ∈ used ∧ (g.fv = [] ∨
      Connected witness used g)) (by
        rintro f g v ⟨hf, h1⟩ hg hvf hvg
        rcases h1 with h1 | h1
        · rw [h1] at hvf; cases hvf
        · exact ⟨hg, Or.inr (.next h1 hg hvf hvg)⟩) n _ r (by
        intro g hg
        rw [explInit_mem] at hg
        obtain ⟨hu, h1 | ⟨v, h1, h2⟩⟩ := hg
        · exact ⟨hu, Or.inl h1⟩
        · exact ⟨hu, Or.inr (.here hu h1 h2)⟩) h
    refine ⟨k2 g, fun ⟨hu, hg⟩ => ?_⟩
    rcases hg with hg | hg
    · exact k1 (explInit_mem.mpr ⟨hu, Or.inl hg⟩)
    · induction hg with
      | here h1 h2 h3 => exact k1 (explInit_mem.mpr ⟨h1, Or.inr ⟨_, h2, h3⟩⟩)
      | next h1 h2 h3 h4 ih => exact k3 _ (ih ⟨cu h1, Or.inr h1⟩ (cu h1)) _ h2 ⟨_, h3, h4⟩

theorem explanation_total (witness used) :
    ∃ r, explanation (used.length + 1) witness used = .ok r := by
  unfold explanation
  split_ifs
  · exact ⟨_, rfl⟩
  · exact explLoop_total _ _ (Nat.lt_succ_of_le (List.length_filter_le _ _))

end Verif.Proof
