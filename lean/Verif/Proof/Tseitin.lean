import Verif.Model.Tseitin
import Verif.Proof.Fv

/-! Helper lemmas for definitional CNF. -/

namespace Verif.Proof
open Verif Verif.Model Verif.Spec

/-- The recorded definitions hold. -/
def Defs (I : Interp) (ρ : Valuation) (m : List (Variable × Fml)) : Prop :=
  ∀ p ∈ m, (ρ p.1 = 1 ↔ holds I ρ p.2)

theorem Defs_append {I ρ m n} : Defs I ρ (m ++ n) ↔ Defs I ρ m ∧ Defs I ρ n := by
  simp only [Defs, List.mem_append]
  constructor
  · intro h; exact ⟨fun p hp => h p (Or.inl hp), fun p hp => h p (Or.inr hp)⟩
  · rintro ⟨h1, h2⟩ p (hp | hp); exacts [h1 p hp, h2 p hp]

/-- Variables of a formula or introduced between two counter values. -/
def Mid (V : Variable → Prop) (n n' : Nat) (v : Variable) : Prop :=
  V v ∨ (n ≤ v.id ∧ v.id < n')

/-- What a visit that started with counter `n` and ended with counter `n'` recorded. -/
structure TsMap (I : Interp) (V : Variable → Prop) (n n' : Nat) (m : List (Variable × Fml)) :
    Prop where
  le : n ≤ n'
  ids : ∀ p ∈ m, n ≤ p.1.id ∧ p.1.id < n'
  nodup : (m.map Prod.fst).Nodup
  fvs : ∀ p ∈ m, FvIn (Mid V n n') p.2
  ext : ∀ ρ : Valuation, ∃ ρ' : Valuation, (∀ v, v ∉ m.map Prod.fst → ρ' v = ρ v) ∧
    (∀ v ∈ m.map Prod.fst, ρ' v = 0 ∨ ρ' v = 1) ∧ Defs I ρ' m

theorem TsMap.nil (I : Interp) (V) (n : Nat) : TsMap I V n n [] where
  le := le_rfl
  ids := by simp
  nodup := by simp
  fvs := by simp
  ext := fun ρ => ⟨ρ, by simp, by simp, by simp [Defs]⟩

theorem Defs_congr {I ρ ρ' m} (h1 : ∀ p ∈ m, ρ p.1 = ρ' p.1)
    (h2 : ∀ p ∈ m, ∀ v ∈ p.2.fv, ρ v = ρ' v) : Defs I ρ m ↔ Defs I ρ' m := by
  constructor
  · intro h p hp
    rw [← h1 p hp, h p hp, holds_congr I p.2 ρ ρ' (h2 p hp)]
  · intro h p hp
    rw [h1 p hp, h p hp, holds_congr I p.2 ρ ρ' (h2 p hp)]

theorem Mid.mono {V W : Variable → Prop} {n n' k k' : Nat} {v} (h : Mid V n n' v)
    (hV : V v → W v) (hn : k ≤ n) (hn' : n' ≤ k') : Mid W k k' v := by
  rcases h with h | ⟨h1, h2⟩
  · exact Or.inl (hV h)
  · exact Or.inr ⟨by omega, by omega⟩

/-- Sequencing. -/
theorem TsMap.append {I : Interp} {V} {n n' n'' : Nat} {m m'}
    (hV : ∀ v, V v → v.id < n) (h : TsMap I V n n' m) (h' : TsMap I V n' n'' m') :
    TsMap I V n n'' (m ++ m') := by
  have hle := h.le
  have hle' := h'.le
  have hdis : ∀ v, v ∈ m.map Prod.fst → v ∉ m'.map Prod.fst := by
    intro v hv hv'
    obtain ⟨p, hp, rfl⟩ := List.mem_map.mp hv
    obtain ⟨q, hq, hqe⟩ := List.mem_map.mp hv'
    have h1 := (h.ids p hp).2
    have h2 := (h'.ids q hq).1
    rw [hqe] at h2; omega
  refine ⟨le_trans hle hle', ?_, ?_, ?_, ?_⟩
  · intro p hp
    rcases List.mem_append.mp hp with hp | hp
    · have := h.ids p hp; omega
    · have := h'.ids p hp; omega
  · rw [List.map_append, List.nodup_append]
    refine ⟨h.nodup, h'.nodup, ?_⟩
    intro a ha b hb hab
    subst hab
    exact hdis a ha hb
  · intro p hp
    rcases List.mem_append.mp hp with hp | hp
    · exact (h.fvs p hp).mono (fun v hv => hv.mono id le_rfl hle')
    · exact (h'.fvs p hp).mono (fun v hv => hv.mono id hle le_rfl)
  · intro ρ
    obtain ⟨ρ1, ha1, hb1, hd1⟩ := h.ext ρ
    obtain ⟨ρ2, ha2, hb2, hd2⟩ := h'.ext ρ1
    have hkey : ∀ v : Variable, v.id < n' → ρ2 v = ρ1 v := by
      intro v hv
      refine ha2 v (fun hm => ?_)
      obtain ⟨q, hq, rfl⟩ := List.mem_map.mp hm
      have := (h'.ids q hq).1; omega
    refine ⟨ρ2, ?_, ?_, ?_⟩
    · intro v hv
      rw [List.map_append, List.mem_append] at hv
      push Not at hv
      rw [ha2 v hv.2, ha1 v hv.1]
    · intro v hv
      rw [List.map_append, List.mem_append] at hv
      rcases hv with hv | hv
      · rw [ha2 v (hdis v hv)]; exact hb1 v hv
      · exact hb2 v hv
    · rw [Defs_append]
      refine ⟨?_, hd2⟩
      rw [Defs_congr (ρ' := ρ1)]
      · exact hd1
      · intro p hp; exact hkey _ (h.ids p hp).2
      · intro p hp v hv
        rcases h.fvs p hp v hv with h' | h'
        · exact hkey v (lt_of_lt_of_le (hV v h') hle)
        · exact hkey v h'.2

/-- Defining one more variable. -/
theorem TsMap.define {I : Interp} {V} {n n' : Nat} {m} {φ : Fml} {b : Variable} {k k' : Nat}
    (hV : ∀ v, V v → v.id < k)
    (h : TsMap I V n n' m) (hφ : FvIn (Mid V n n') φ)
    (hb : (b.id = n' ∧ k = n ∧ k' = n' + 1) ∨ (b.id = k ∧ n = k + 1 ∧ k' = n')) :
    TsMap I V k k' (m ++ [(b, φ)]) ∧ (∀ p ∈ m ++ [(b, φ)], b ∉ p.2.fv) := by
  have hle := h.le
  have hbm : b ∉ m.map Prod.fst := by
    intro hm
    obtain ⟨p, hp, rfl⟩ := List.mem_map.mp hm
    have := h.ids p hp; omega
  have hbf : ∀ ψ, FvIn (Mid V n n') ψ → b ∉ ψ.fv := by
    intro ψ hψ hm
    rcases hψ b hm with h' | h'
    · have := hV b h'; omega
    · omega
  refine ⟨⟨by omega, ?_, ?_, ?_, ?_⟩, ?_⟩
  · intro p hp
    rcases List.mem_append.mp hp with hp | hp
    · have := h.ids p hp; omega
    · simp only [List.mem_singleton] at hp; subst hp; dsimp only; omega
  · rw [List.map_append, List.nodup_append]
    refine ⟨h.nodup, by simp, ?_⟩
    intro a ha c hc hac
    simp only [List.map_cons, List.map_nil, List.mem_singleton] at hc
    subst hac; subst hc; exact hbm ha
  · intro p hp
    rcases List.mem_append.mp hp with hp | hp
    · exact (h.fvs p hp).mono (fun v hv => hv.mono id (by omega) (by omega))
    · simp only [List.mem_singleton] at hp; subst hp
      exact hφ.mono (fun v hv => hv.mono id (by omega) (by omega))
  · intro ρ
    obtain ⟨ρ1, ha1, hb1, hd1⟩ := h.ext ρ
    classical
    let ρ2 : Valuation := fun v => if v = b then (if holds I ρ1 φ then 1 else 0) else ρ1 v
    have hne : ∀ v, v ≠ b → ρ2 v = ρ1 v := fun v hv => by simp [ρ2, hv]
    have hbv : ρ2 b = if holds I ρ1 φ then 1 else 0 := by simp [ρ2]
    refine ⟨ρ2, ?_, ?_, ?_⟩
    · intro v hv
      rw [List.map_append, List.mem_append] at hv
      push Not at hv
      have : v ≠ b := by simpa using hv.2
      rw [hne v this, ha1 v hv.1]
    · intro v hv
      by_cases hvb : v = b
      · subst hvb; rw [hbv]; split_ifs <;> simp
      · rw [hne v hvb]
        rw [List.map_append, List.mem_append] at hv
        exact hb1 v (hv.resolve_right (by simpa using hvb))
    · rw [Defs_append]
      constructor
      · rw [Defs_congr (ρ' := ρ1)]
        · exact hd1
        · intro p hp
          refine hne _ (fun he => hbm ?_)
          rw [← he]; exact List.mem_map_of_mem hp
        · intro p hp v hv
          refine hne _ (fun he => hbf p.2 (h.fvs p hp) (he ▸ hv))
      · intro p hp
        simp only [List.mem_singleton] at hp; subst hp
        dsimp only
        rw [hbv, holds_congr I φ ρ2 ρ1 (fun v hv => hne v (fun he => hbf φ hφ (he ▸ hv)))]
        split_ifs with hh <;> simp [hh]
  · intro p hp
    rcases List.mem_append.mp hp with hp | hp
    · exact hbf _ (h.fvs p hp)
    · simp only [List.mem_singleton] at hp; subst hp; exact hbf _ hφ

/-- What a visit delivers. -/
def TsSpec (I : Interp) (f : Fml) (s : TsState) (g : Fml) (s' : TsState) : Prop :=
  ∃ m, s'.map = s.map ++ m ∧
    (∀ V : Variable → Prop, FvIn V f → (∀ v, V v → v.id < s.next) →
      TsMap I V s.next s'.next m ∧ FvIn (Mid V s.next s'.next) g ∧
      (m = [] ∨ ∃ h φ, g = .bvar h ∧ (h, φ) ∈ m ∧ ∀ p ∈ m, h ∉ p.2.fv)) ∧
    (∀ ρ, Defs I ρ m → (holds I ρ g ↔ holds I ρ f))

def TsSpecList (I : Interp) (fs : List Fml) (s : TsState) (gs : List Fml) (s' : TsState) :
    Prop :=
  ∃ m, s'.map = s.map ++ m ∧
    (∀ V : Variable → Prop, (∀ f ∈ fs, FvIn V f) → (∀ v, V v → v.id < s.next) →
      TsMap I V s.next s'.next m ∧ ∀ g ∈ gs, FvIn (Mid V s.next s'.next) g) ∧
    (∀ ρ, Defs I ρ m → ((∀ g ∈ gs, holds I ρ g) ↔ ∀ f ∈ fs, holds I ρ f) ∧
      ((∃ g ∈ gs, holds I ρ g) ↔ ∃ f ∈ fs, holds I ρ f))

theorem TsSpec.self {I f s} : TsSpec I f s f s :=
  ⟨[], by simp, fun V hV _ => ⟨TsMap.nil I V _, hV.mono (fun v hv => Or.inl hv), Or.inl rfl⟩,
    fun _ _ => Iff.rfl⟩

theorem TsSpec.define {I : Interp} {f : Fml} {s s' : TsState} {φ : Fml} {m}
    (hm : s'.map = s.map ++ m)
    (h : ∀ V : Variable → Prop, FvIn V f → (∀ v, V v → v.id < s.next) →
      TsMap I V s.next s'.next m ∧ FvIn (Mid V s.next s'.next) φ)
    (hh : ∀ ρ, Defs I ρ m → (holds I ρ φ ↔ holds I ρ f)) :
    TsSpec I f s (s'.define φ).1 (s'.define φ).2 := by
  refine ⟨m ++ [(s'.freshVar, φ)], by simp [TsState.define, hm], ?_, ?_⟩
  · intro V hV hid
    obtain ⟨h1, h2⟩ := h V hV hid
    have := TsMap.define (b := s'.freshVar) (k := s.next) (k' := s'.next + 1) hid h1 h2
      (Or.inl ⟨rfl, rfl, rfl⟩)
    refine ⟨this.1, ?_, Or.inr ⟨_, φ, rfl, by simp, this.2⟩⟩
    simp only [TsState.define, FvIn_bvar]
    have := h1.le
    exact Or.inr ⟨by simp [TsState.freshVar]; omega, by simp [TsState.freshVar]⟩
  · intro ρ hρ
    rw [Defs_append] at hρ
    have := hρ.2 (s'.freshVar, φ) (by simp)
    simp only [TsState.define, holds_bvar]
    rw [this, hh ρ hρ.1]

theorem holds_getClauses {I ρ g} : (∀ c ∈ g.getClauses, holds I ρ c) ↔ holds I ρ g := by
  unfold Fml.getClauses
  split <;> simp

theorem FvIn_getClauses {P} {g : Fml} (h : FvIn P g) : ∀ c ∈ g.getClauses, FvIn P c := by
  unfold Fml.getClauses
  split
  · exact FvIn_conj.mp h
  · simpa using h

theorem holds_tsQuantify {I ρ vs c} :
    holds I ρ (tsQuantify vs c) ↔ holds I ρ (.all vs c) := by
  unfold tsQuantify
  split_ifs with h
  · simp
  · rw [holds_all]
    simp only [List.any_eq_true, decide_eq_true_eq, not_exists, not_and] at h
    constructor
    · intro hc σ hσ _
      rw [holds_congr I c σ ρ (fun v hv => hσ v (h v hv))]; exact hc
    · intro H
      have := H (fun v => if v ∈ vs then 0 else ρ v) (fun v hv => by simp [hv])
        (fun v hv => by
          simp only [hv, if_true]
          cases v.type <;> simp [typeOk]
          exact ⟨0, by simp⟩)
      rwa [holds_congr I c _ ρ (fun v hv => by simp [h v hv])] at this

theorem FvIn_tsQuantify {P vs c} (h : FvIn (fun v => v ∈ vs ∨ P v) c) :
    FvIn P (tsQuantify vs c) := by
  unfold tsQuantify
  split_ifs with hh
  · exact FvIn_forallF h
  · simp only [List.any_eq_true, decide_eq_true_eq, not_exists, not_and] at hh
    intro v hv
    exact (h v hv).resolve_left (hh v hv)

theorem FvIn_tsQuantify_list {P vs} {g : Fml} (h : FvIn (fun v => v ∈ vs ∨ P v) g) :
    ∀ c ∈ toSet (g.getClauses.map (tsQuantify vs)), FvIn P c := by
  intro c hc
  rw [mem_toSet, List.mem_map] at hc
  obtain ⟨d, hd, rfl⟩ := hc
  exact FvIn_tsQuantify (FvIn_getClauses h d hd)

theorem holds_tsQuantify_list {I ρ vs} {g : Fml} :
    (∀ c ∈ toSet (g.getClauses.map (tsQuantify vs)), holds I ρ c) ↔
      holds I ρ (.all vs g) := by
  have : (∀ c ∈ toSet (g.getClauses.map (tsQuantify vs)), holds I ρ c) ↔
      ∀ d ∈ g.getClauses, holds I ρ (.all vs d) := by
    simp only [mem_toSet, List.mem_map, forall_exists_index, and_imp,
      forall_apply_eq_imp_iff₂, holds_tsQuantify]
  rw [this]
  simp only [holds_all]
  constructor
  · intro H σ hσ ht
    rw [← holds_getClauses]
    exact fun c hc => H c hc σ hσ ht
  · intro H d hd σ hσ ht
    exact holds_getClauses.mpr (H σ hσ ht) d hd

mutual
theorem tsVisit_spec (I : Interp) (f : Fml) (s : TsState) (g : Fml) (s' : TsState)
    (h : tsVisit f s = .ok (g, s')) : TsSpec I f s g s' := by
  cases f with
  | ff => simp only [tsVisit, Outcome.ok.injEq, Prod.mk.injEq] at h; obtain ⟨rfl, rfl⟩ := h; exact .self
  | tt => simp only [tsVisit, Outcome.ok.injEq, Prod.mk.injEq] at h; obtain ⟨rfl, rfl⟩ := h; exact .self
  | bvar v => simp only [tsVisit, Outcome.ok.injEq, Prod.mk.injEq] at h; obtain ⟨rfl, rfl⟩ := h; exact .self
  | rel op a b => simp only [tsVisit, Outcome.ok.injEq, Prod.mk.injEq] at h; obtain ⟨rfl, rfl⟩ := h; exact .self
  | all vs f =>
    obtain ⟨g0, hg0, _, hm⟩ := naiveVisit_ok (nnf true f) (nnf_ok f)
    have hm' : ∀ ρ, holds I ρ g0 ↔ holds I ρ f := fun ρ => by
      rw [hm]; simp [nnf, nnfVisit_holds]
    have hg0' : naiveCnf f = .ok g0 := hg0
    simp only [tsVisit, hg0', Outcome.bind_ok] at h
    have hsem : ∀ ρ, (∀ c ∈ toSet (g0.getClauses.map (tsQuantify vs)), holds I ρ c) ↔
        holds I ρ (.all vs f) := by
      intro ρ; rw [holds_tsQuantify_list, holds_all, holds_all]; simp only [hm']
    have hfv : ∀ V : Variable → Prop, FvIn V (.all vs f) →
        ∀ c ∈ toSet (g0.getClauses.map (tsQuantify vs)), FvIn V c := by
      intro V hV
      exact FvIn_tsQuantify_list ((FvIn_all.mp hV).naiveCnf hg0')
    split_ifs at h with hcl
    split at h
    · rename_i c hc
      simp only [Outcome.ok.injEq, Prod.mk.injEq] at h
      obtain ⟨rfl, rfl⟩ := h
      rw [hc] at hsem hfv
      refine ⟨[], by simp, fun V hV _ => ⟨TsMap.nil I V _, ?_, Or.inl rfl⟩, ?_⟩
      · exact (hfv V hV c (by simp)).mono (fun v hv => Or.inl hv)
      · intro ρ _; rw [← hsem]; simp
    · simp only [Outcome.ok.injEq] at h
      have h1 : g = (s.define (mkConj (toSet (g0.getClauses.map (tsQuantify vs))))).1 := by rw [h]
      have h2 : s' = (s.define (mkConj (toSet (g0.getClauses.map (tsQuantify vs))))).2 := by rw [h]
      rw [h1, h2]
      refine TsSpec.define (m := []) (by simp) ?_ ?_
      · intro V hV hid
        exact ⟨TsMap.nil I V _, (FvIn.mkConj (hfv V hV)).mono (fun v hv => Or.inl hv)⟩
      · intro ρ _; rw [holds_mkConj]; exact hsem ρ
  | conj fs =>
    simp only [tsVisit] at h
    cases hl : tsVisitList fs s with
    | throw => rw [hl] at h; simp at h
    | ub => rw [hl] at h; simp at h
    | ok r =>
      obtain ⟨gs, s1⟩ := r
      rw [hl] at h
      simp only [Outcome.bind_ok, Outcome.ok.injEq] at h
      obtain ⟨m, hm, hmap, hsem⟩ := tsVisitList_spec I fs s gs s1 hl
      have h1 : g = (s1.define (mkConj (toSet gs))).1 := by rw [h]
      have h2 : s' = (s1.define (mkConj (toSet gs))).2 := by rw [h]
      rw [h1, h2]
      refine TsSpec.define hm ?_ ?_
      · intro V hV hid
        obtain ⟨ha, hb⟩ := hmap V (FvIn_conj.mp hV) hid
        exact ⟨ha, FvIn.mkConj (fun x hx => hb x (mem_toSet.mp hx))⟩
      · intro ρ hρ
        simp only [holds_mkConj, mem_toSet, holds_conj]
        exact (hsem ρ hρ).1
  | disj fs =>
    simp only [tsVisit] at h
    cases hl : tsVisitList fs s with
    | throw => rw [hl] at h; simp at h
    | ub => rw [hl] at h; simp at h
    | ok r =>
      obtain ⟨gs, s1⟩ := r
      rw [hl] at h
      simp only [Outcome.bind_ok, Outcome.ok.injEq] at h
      obtain ⟨m, hm, hmap, hsem⟩ := tsVisitList_spec I fs s gs s1 hl
      have h1 : g = (s1.define (mkDisj (toSet gs))).1 := by rw [h]
      have h2 : s' = (s1.define (mkDisj (toSet gs))).2 := by rw [h]
      rw [h1, h2]
      refine TsSpec.define hm ?_ ?_
      · intro V hV hid
        obtain ⟨ha, hb⟩ := hmap V (FvIn_disj.mp hV) hid
        exact ⟨ha, FvIn.mkDisj (fun x hx => hb x (mem_toSet.mp hx))⟩
      · intro ρ hρ
        simp only [holds_mkDisj, mem_toSet, holds_disj]
        exact (hsem ρ hρ).2
  | neg f =>
    simp only [tsVisit] at h
    split_ifs at h with ha
    · simp only [Outcome.ok.injEq, Prod.mk.injEq] at h; obtain ⟨rfl, rfl⟩ := h; exact .self
    · cases hl : tsVisit f { s with next := s.next + 1 } with
      | throw => rw [hl] at h; simp at h
      | ub => rw [hl] at h; simp at h
      | ok r =>
        obtain ⟨g1, s1⟩ := r
        rw [hl] at h
        simp only [Outcome.bind_ok, Outcome.ok.injEq, Prod.mk.injEq] at h
        obtain ⟨rfl, rfl⟩ := h
        obtain ⟨m, hm, hmap, hsem⟩ := tsVisit_spec I f _ g1 s1 hl
        refine ⟨m ++ [(s.freshVar, notF g1)], by simp [hm], ?_, ?_⟩
        · intro V hV hid
          obtain ⟨h1, h2, _⟩ := hmap V (FvIn_neg.mp hV) (fun v hv => Nat.lt_succ_of_lt (hid v hv))
          have := TsMap.define (b := s.freshVar) (k := s.next) (k' := s1.next) hid h1 h2.notF
            (Or.inr ⟨rfl, rfl, rfl⟩)
          refine ⟨this.1, ?_, Or.inr ⟨_, notF g1, rfl, by simp, this.2⟩⟩
          simp only [FvIn_bvar]
          have := h1.le
          exact Or.inr ⟨by simp [TsState.freshVar], by simp [TsState.freshVar] at this ⊢; omega⟩
        · intro ρ hρ
          rw [Defs_append] at hρ
          have := hρ.2 (s.freshVar, notF g1) (by simp)
          simp only [holds_bvar, holds_neg] at this ⊢
          rw [this, holds_notF, hsem ρ hρ.1]
theorem tsVisitList_spec (I : Interp) (fs : List Fml) (s : TsState) (gs : List Fml)
    (s' : TsState) (h : tsVisitList fs s = .ok (gs, s')) : TsSpecList I fs s gs s' := by
  cases fs with
  | nil =>
    simp only [tsVisitList, Outcome.ok.injEq, Prod.mk.injEq] at h
    obtain ⟨rfl, rfl⟩ := h
    exact ⟨[], by simp, fun V _ _ => ⟨TsMap.nil I V _, by simp⟩, by simp⟩
  | cons f fs =>
    simp only [tsVisitList] at h
    cases h1 : tsVisit f s with
    | throw => rw [h1] at h; simp at h
    | ub => rw [h1] at h; simp at h
    | ok r =>
      obtain ⟨g, s1⟩ := r
      rw [h1] at h
      simp only [Outcome.bind_ok] at h
      cases h2 : tsVisitList fs s1 with
      | throw => rw [h2] at h; simp at h
      | ub => rw [h2] at h; simp at h
      | ok r =>
        obtain ⟨gs', s2⟩ := r
        rw [h2] at h
        simp only [Outcome.bind_ok, Outcome.ok.injEq, Prod.mk.injEq] at h
        obtain ⟨rfl, rfl⟩ := h
        obtain ⟨m, hm, hmap, hsem⟩ := tsVisit_spec I f s g s1 h1
        obtain ⟨m', hm', hmap', hsem'⟩ := tsVisitList_spec I fs s1 gs' s2 h2
        refine ⟨m ++ m', by simp [hm, hm'], ?_, ?_⟩
        · intro V hV hid
          obtain ⟨ha, hb, _⟩ := hmap V (hV f (by simp)) hid
          obtain ⟨ha', hb'⟩ := hmap' V (fun x hx => hV x (by simp [hx]))
            (fun v hv => lt_of_lt_of_le (hid v hv) ha.le)
          refine ⟨ha.append hid ha', ?_⟩
          intro x hx
          simp only [List.mem_cons] at hx
          rcases hx with rfl | hx
          · exact hb.mono (fun v hv => hv.mono id le_rfl ha'.le)
          · exact (hb' x hx).mono (fun v hv => hv.mono id ha.le le_rfl)
        · intro ρ hρ
          rw [Defs_append] at hρ
          simp only [List.mem_cons, forall_eq_or_imp, exists_eq_or_imp]
          rw [hsem ρ hρ.1, (hsem' ρ hρ.2).1, (hsem' ρ hρ.2).2]
          exact ⟨Iff.rfl, Iff.rfl⟩
end

/-! ### The clauses -/

theorem tsAdd_holds {I ρ f} : (∀ c ∈ tsAdd f, holds I ρ c) ↔ holds I ρ f := by
  unfold tsAdd
  split_ifs with h
  · subst h; simp
  · simp

theorem cnfize_holds {I : Interp} {b f cs} (h : cnfize b f = .ok cs) (ρ : Valuation) :
    (∀ c ∈ cs, holds I ρ c) ↔ (ρ b = 1 ↔ holds I ρ f) := by
  unfold cnfize at h
  split at h <;> simp only [Outcome.ok.injEq, reduceCtorEq] at h <;> subst h
  · rename_i fs
    simp only [List.mem_append, or_imp, forall_and, tsAdd_holds, List.mem_flatMap,
      forall_exists_index, and_imp]
    rw [forall_comm]
    have : (∀ (b_1 : Fml), b_1 ∈ fs → ∀ a ∈ tsAdd (orF (notF (.bvar b)) b_1), holds I ρ a) ↔
        (ρ b = 1 → ∀ g ∈ fs, holds I ρ g) := by
      simp only [tsAdd_holds, holds_orF, holds_notF, holds_bvar]
      constructor
      · intro h hb g hg; exact (h g hg).resolve_left (fun h => h hb)
      · intro h g hg
        by_cases hb : ρ b = 1
        exacts [Or.inr (h hb g hg), Or.inl hb]
    have this' : (∀ (a b_1 : Fml), b_1 ∈ fs → a ∈ tsAdd (orF (notF (.bvar b)) b_1) →
        holds I ρ a) ↔ (ρ b = 1 → ∀ g ∈ fs, holds I ρ g) := by
      rw [← this]
      constructor
      · intro h g hg a ha; exact h a g hg ha
      · intro h a g hg ha; exact h g hg a ha
    rw [forall_comm, this']
    simp only [holds_orF, holds_mkDisj, mem_toSet, List.mem_map, holds_bvar, holds_conj]
    constructor
    · rintro ⟨h1, h2⟩
      refine ⟨h1, fun h => h2.resolve_left ?_⟩
      rintro ⟨x, ⟨g, hg, rfl⟩, hx⟩
      rw [holds_notF] at hx
      exact hx (h g hg)
    · intro h
      refine ⟨h.mp, ?_⟩
      by_cases hb : ρ b = 1
      · exact Or.inr hb
      · left
        have : ¬ ∀ g ∈ fs, holds I ρ g := fun hh => hb (h.mpr hh)
        push Not at this
        obtain ⟨g, hg, hng⟩ := this
        exact ⟨_, ⟨g, hg, rfl⟩, by rw [holds_notF]; exact hng⟩
  · rename_i fs
    simp only [List.mem_append, or_imp, forall_and, tsAdd_holds, List.mem_flatMap,
      forall_exists_index, and_imp, holds_orF, holds_notF, holds_bvar, mem_toSet, List.mem_map,
      holds_disj]
    constructor
    · rintro ⟨h1, h2⟩
      refine ⟨fun hb => h1.resolve_left (fun h => h hb), ?_⟩
      rintro ⟨g, hg, hh⟩
      have := tsAdd_holds.mp (fun c hc => h2 c (notF g) g hg rfl hc)
      simp only [holds_orF, holds_notF, holds_bvar] at this
      exact this.resolve_left (fun h => h hh)
    · intro h
      refine ⟨?_, ?_⟩
      · by_cases hb : ρ b = 1
        exacts [Or.inr (h.mp hb), Or.inl hb]
      · intro c x g hg hx hc
        subst hx
        refine tsAdd_holds.mpr ?_ c hc
        simp only [holds_orF, holds_notF, holds_bvar]
        by_cases hh : holds I ρ g
        exacts [Or.inr (h.mpr ⟨g, hg, hh⟩), Or.inl hh]
  · simp only [List.mem_append, or_imp, forall_and, tsAdd_holds, holds_implyF, holds_bvar]
    exact ⟨fun h => ⟨h.1, h.2⟩, fun h => ⟨h.mp, h.mpr⟩⟩

theorem tsClauses_holds {I : Interp} {head m cs} (h : tsClauses head m = .ok cs)
    (ρ : Valuation) : (∀ c ∈ cs, holds I ρ c) ↔
      ∀ p ∈ m, if p.1 = head then holds I ρ p.2 else (ρ p.1 = 1 ↔ holds I ρ p.2) := by
  induction m generalizing cs with
  | nil => simp [tsClauses] at h; subst h; simp
  | cons p m ih =>
    obtain ⟨b, f⟩ := p
    simp only [tsClauses] at h
    cases h1 : tsEntry head b f with
    | throw => rw [h1] at h; simp at h
    | ub => rw [h1] at h; simp at h
    | ok c1 =>
      rw [h1] at h
      simp only [Outcome.bind_ok] at h
      cases h2 : tsClauses head m with
      | throw => rw [h2] at h; simp at h
      | ub => rw [h2] at h; simp at h
      | ok c2 =>
        rw [h2] at h
        simp only [Outcome.bind_ok, Outcome.ok.injEq] at h
        subst h
        simp only [List.mem_append, or_imp, forall_and, List.mem_cons, forall_eq]
        rw [ih h2]
        refine and_congr_left (fun _ => ?_)
        unfold tsEntry at h1
        split_ifs at h1 ⊢ with hb
        · simp only [Outcome.ok.injEq] at h1
          subst h1
          exact holds_getClauses
        · exact cnfize_holds h1 ρ

theorem tseitin_equisat (I : Interp) (next : Nat) (f : Fml) (cs : List Fml) (next' : Nat)
    (hf : ∀ v ∈ f.fv, v.id < next) (h : tseitin next f = .ok (cs, next')) (ρ : Valuation) :
    holds I ρ f ↔ ∃ ρ' : Valuation,
      (∀ v, ρ' v ≠ ρ v → next ≤ v.id ∧ v.id < next' ∧ (ρ' v = 0 ∨ ρ' v = 1)) ∧
      ∀ c ∈ cs, holds I ρ' c := by
  simp only [tseitin] at h
  cases hv : tsVisit f { next := next } with
  | throw => rw [hv] at h; simp at h
  | ub => rw [hv] at h; simp at h
  | ok r =>
    obtain ⟨g, s⟩ := r
    rw [hv] at h
    simp only [Outcome.bind_ok] at h
    obtain ⟨m, hm, hmap, hsem⟩ := tsVisit_spec I f _ g s hv
    simp only [List.nil_append] at hm
    obtain ⟨hts, hgfv, hhead⟩ := hmap (fun v => v ∈ f.fv) (fun v hv => hv) hf
    have hagree : ∀ ρ' : Valuation, (∀ v, ρ' v ≠ ρ v → next ≤ v.id) →
        (holds I ρ' f ↔ holds I ρ f) := by
      intro ρ' hρ'
      refine holds_congr I f ρ' ρ (fun v hv => ?_)
      by_contra hne
      have h1 := hρ' v hne
      have h2 := hf v hv
      omega
    split_ifs at h with hnil
    · simp only [Outcome.ok.injEq, Prod.mk.injEq] at h
      obtain ⟨rfl, rfl⟩ := h
      rw [hm] at hnil
      subst hnil
      have hs := fun ρ => hsem ρ (by simp [Defs])
      constructor
      · intro hh; exact ⟨ρ, by simp, by simpa [hs] using hh⟩
      · rintro ⟨ρ', h1, h2⟩
        rw [← hagree ρ' (fun v hv => (h1 v hv).1), ← hs ρ']
        exact h2 g (by simp)
    · rw [hm] at hnil h
      rcases hhead with hhead | ⟨hd, φ, rfl, hmem, hnot⟩
      · exact absurd hhead hnil
      · simp only at h
        cases hc : tsClauses hd m with
        | throw => rw [hc] at h; simp at h
        | ub => rw [hc] at h; simp at h
        | ok c0 =>
          rw [hc] at h
          simp only [Outcome.bind_ok, Outcome.ok.injEq, Prod.mk.injEq] at h
          obtain ⟨rfl, rfl⟩ := h
          constructor
          · intro hh
            obtain ⟨ρ', ha, hb, hd'⟩ := hts.ext ρ
            refine ⟨ρ', ?_, ?_⟩
            · intro v hv
              have hvm : v ∈ m.map Prod.fst := by
                by_contra hn; exact hv (ha v hn)
              obtain ⟨p, hp, rfl⟩ := List.mem_map.mp hvm
              exact ⟨(hts.ids p hp).1, (hts.ids p hp).2, hb _ hvm⟩
            · rw [tsClauses_holds hc]
              intro p hp
              have hdp := hd' p hp
              split_ifs with hph
              · rw [← hdp, hph]
                have := (hsem ρ' hd').mpr ((hagree ρ' ?_).mpr hh)
                · simpa using this
                · intro v hv
                  have hvm : v ∈ m.map Prod.fst := by
                    by_contra hn; exact hv (ha v hn)
                  obtain ⟨p, hp, rfl⟩ := List.mem_map.mp hvm
                  exact (hts.ids p hp).1
              · exact hdp
          · rintro ⟨ρ', h1, h2⟩
            rw [tsClauses_holds hc] at h2
            let ρ2 : Valuation := fun v => if v = hd then 1 else ρ' v
            have hne : ∀ v, v ≠ hd → ρ2 v = ρ' v := fun v hv => by simp [ρ2, hv]
            have hhd : ρ2 hd = 1 := by simp [ρ2]
            have hhold : ∀ p ∈ m, (holds I ρ2 p.2 ↔ holds I ρ' p.2) := by
              intro p hp
              refine holds_congr I _ _ _ (fun v hvp => hne v ?_)
              intro he
              exact hnot p hp (he ▸ hvp)
            have hdefs : Defs I ρ2 m := by
              intro p hp
              rw [hhold p hp]
              have := h2 p hp
              split_ifs at this with hph
              · rw [hph, hhd]; simp [this]
              · rw [hne _ hph]; exact this
            have := (hsem ρ2 hdefs).mp (by simpa using hhd)
            rwa [hagree ρ2 ?_] at this
            intro v hv
            by_cases hvh : v = hd
            · subst hvh; exact (hts.ids _ hmem).1
            · rw [hne v hvh] at hv; exact (h1 v hv).1

end Verif.Proof
