import Verif.Proof.Apply
import Verif.Proof.Contractor

/-! # The translation of quantifiers -/

namespace Verif.Proof.Smt2
open Verif Verif.Model Verif.Model.Smt2 Verif.Spec Verif.Spec.Smt2 Verif.Proof

variable {I : Interp} {ρ : Valuation}

theorem typeOk_zero (t : VType) : typeOk t 0 := by
  cases t <;> simp [typeOk]
  exact ⟨0, by simp⟩

/-- What the domain formula says. -/
theorem domain_spec : ∀ {bs : List SBind} {vs : List Variable} {dom : Fml},
    domain bs vs = .ok dom → vs.map Variable.type = bs.map (fun b => b.srt.toType) →
    FvIn (fun v => v ∈ boundedVars bs vs) dom ∧ SortedF dom ∧
    (∀ B : Variable → Prop, TQ (fun vs _ => ∀ v ∈ vs, B v) (.fml dom)) ∧
    (boundedVars bs vs = [] → dom = .tt) ∧
    (∀ v ∈ boundedVars bs vs, v ∈ vs ∧ v.type ≠ .boolean) ∧
    (∀ I ρ, InBinds bs (vs.map ρ) ↔ (∀ v ∈ vs, typeOk v.type (ρ v)) ∧ holds I ρ dom)
  | [], vs, dom, h, ht => by
    have : vs = [] := by simpa using ht
    subst this
    simp only [domain, Outcome.ok.injEq] at h
    subst h
    exact ⟨by simp, by simp [SortedF], fun B => by simp [TQ, HerF], fun _ => rfl,
      by simp [boundedVars], fun I ρ => by simp [InBinds]⟩
  | b :: bs, [], dom, h, ht => by simp at ht
  | b :: bs, v :: vs, dom, h, ht => by
    simp only [List.map_cons, List.cons.injEq] at ht
    simp only [domain] at h
    obtain ⟨f, hf, h⟩ := bindO_ok h
    obtain ⟨k1, k2, k3, k4, k5, k6⟩ := domain_spec hf ht.2
    cases hb : b.dom with
    | none =>
      simp only [hb, Outcome.ok.injEq] at h
      subst h
      simp only [boundedVars, hb]
      refine ⟨k1, k2, k3, k4, fun w hw => ⟨by simp [(k5 w hw).1], (k5 w hw).2⟩, fun I ρ => ?_⟩
      simp only [List.map_cons, InBinds, sortType_eq, hb, ← ht.1, k6 I ρ]
      simp
      tauto
    | some p =>
      obtain ⟨l, u⟩ := p
      simp only [hb] at h
      split_ifs at h with hv
      simp only [Outcome.ok.injEq] at h
      subst h
      have e1 : HerF (fun v => v.type ≠ .boolean) (fun v => v.type = .boolean) (fun _ _ => True)
          (mkRel .leq (.const l) (.var v)) := her_mkRel (by simp [HerE]) (by simpa [HerE] using hv)
      have e2 : HerF (fun v => v.type ≠ .boolean) (fun v => v.type = .boolean) (fun _ _ => True)
          (mkRel .leq (.var v) (.const u)) := her_mkRel (by simpa [HerE] using hv) (by simp [HerE])
      simp only [boundedVars, hb]
      refine ⟨?_, ?_, fun B => ?_, fun hn => ?_, fun w hw => ?_, fun I ρ => ?_⟩
      · refine FvIn.andF (FvIn.andF (k1.mono fun w hw => by simp [hw])
          (FvIn.mkRel (op := .leq) ?_)) (FvIn.mkRel (op := .leq) ?_) <;>
          intro w hw <;> simp [Fml.fv, Expr.vars] at hw <;> subst hw <;> simp
      · exact (sortedF_iff _).mpr (her_andF (her_andF ((sortedF_iff _).mp k2) e1) e2)
      · exact her_andF (her_andF (k3 B) (her_mkRel (by simp [HerE]) (by simp [HerE])))
          (her_mkRel (by simp [HerE]) (by simp [HerE]))
      · simp at hn
      · rcases List.mem_cons.mp hw with rfl | hw
        · exact ⟨by simp, hv⟩
        · exact ⟨by simp [(k5 w hw).1], (k5 w hw).2⟩
      · simp only [List.map_cons, InBinds, sortType_eq, hb, ← ht.1, k6 I ρ, holds_andF, holds_mkRel, eval, relSem,
          Option.some.injEq, Prod.mk.injEq]
        simp
        tauto

/-- The quantifier translation is right if no bounded variable drops out of the body, or there is
one variable and its bounds leave it a value. -/
theorem mkForall_spec {vs D : List Variable} {dom f : Fml} (hf : SortedF f)
    (hdv : FvIn (fun v => v ∈ D) dom) (hD : ∀ v ∈ D, v ∈ vs ∧ v.type ≠ .boolean)
    (hdt : D = [] → dom = .tt)
    (H : (∀ v ∈ D, v ∈ (elimBool vs f).fv) ∨
      ∃ v, vs = [v] ∧ ∃ x, typeOk v.type x ∧ ∀ ρ : Valuation, ρ v = x → holds I ρ dom) :
    holds I ρ (mkForall vs dom f) ↔ ∀ ρ' : Valuation, (∀ v, v ∉ vs → ρ' v = ρ v) →
      (∀ v ∈ vs, typeOk v.type (ρ' v)) → holds I ρ' dom → holds I ρ' f := by
  have hd : ∀ v ∈ dom.fv, v ∈ vs ∧ v.type ≠ .boolean := fun v hv => hD v (hdv v hv)
  obtain ⟨_, _, _, hel⟩ := elimBool_spec (I := I) (bs := vs) hf
  set g := elimBool vs f with hg
  have pull : ∀ τ : Valuation, (∀ v ∈ vs, v.type ≠ .boolean → typeOk v.type (τ v)) →
      (∀ v, v ∉ vs → τ v = ρ v) →
      (∀ σ : Valuation, (∀ v, (v.type = .boolean → v ∉ vs) → σ v = τ v) → holds I σ dom) →
      (∀ ρ' : Valuation, (∀ v, v ∉ vs → ρ' v = ρ v) →
        (∀ v ∈ vs, typeOk v.type (ρ' v)) → holds I ρ' dom → holds I ρ' f) → holds I τ g := by
    intro τ h1 h2 h3 h
    refine (hel τ).mpr fun σ e1 e2 => h σ (fun v hv => ?_) (fun v hv => ?_) (h3 σ e1)
    · rw [e1 v fun _ => hv, h2 v hv]
    · by_cases hb : v.type = .boolean
      · simpa [hb, typeOk] using e2 v hv hb
      · rw [e1 v fun e => absurd e hb]
        exact h1 v hv hb
  have self : ∀ σ : Valuation, (∀ v ∈ vs, typeOk v.type (σ v)) → holds I σ g → holds I σ f := by
    intro σ h1 h2
    refine (hel σ).mp h2 σ (fun _ _ => rfl) fun v hv hb => ?_
    simpa [hb, typeOk] using h1 v hv
  unfold mkForall
  simp only [← hg]
  split_ifs with hq
  · have hq' : ∀ v ∈ vs, v ∉ g.fv := by
      intro v hv hm
      have : (vs.filter fun v => v ∈ g.fv) = [] := by simpa using hq
      have : v ∈ (vs.filter fun v => v ∈ g.fv) := List.mem_filter.mpr ⟨hv, by simpa using hm⟩
      simp_all
    have same : ∀ σ : Valuation, (∀ v, v ∉ vs → σ v = ρ v) → (holds I σ g ↔ holds I ρ g) :=
      fun σ hσ => holds_congr I g _ _ fun v hv => hσ v fun h => hq' v h hv
    constructor
    · intro h ρ' e1 e2 _
      exact self ρ' e2 ((same ρ' e1).mpr h)
    · intro h
      have bool0 : (∀ v ∈ D, False) → dom = .tt := fun h =>
        hdt (List.eq_nil_iff_forall_not_mem.mpr fun v hv => h v hv)
      rcases H with H | ⟨v, rfl, x, hx, H⟩
      · have : dom = .tt := bool0 fun v hv => hq' v (hD v hv).1 (H v hv)
        subst this
        refine (same (fun v => if v ∈ vs then 0 else ρ v) (fun v hv => by simp [hv])).mp
          (pull _ (fun v hv _ => by simp [hv, typeOk_zero]) (fun v hv => by simp [hv]) (by simp) h)
      · refine (same (fun w => if w = v then x else ρ w) (fun w hw => by
          simp at hw; simp [hw])).mp
          (pull _ (fun w hw _ => by simp at hw; simp [hw, hx]) (fun w hw => by
            simp at hw; simp [hw]) (fun σ hσ => ?_) h)
        by_cases hb : v.type = .boolean
        · have : dom = .tt := bool0 fun w hw => by
            obtain ⟨a, b⟩ := hD w hw
            simp at a
            exact b (a ▸ hb)
          simp [this]
        · exact H σ (by rw [hσ v fun e => absurd e hb]; simp)
  · have dq : ∀ v ∈ dom.fv, v ∈ vs.filter fun v => v ∈ g.fv := by
      intro v hv
      rcases H with H | ⟨w, rfl, _⟩
      · exact List.mem_filter.mpr ⟨(hd v hv).1, by simpa using H v (hdv v hv)⟩
      · have : v = w := by simpa using (hd v hv).1
        subst this
        by_contra hn
        apply hq
        simp only [List.isEmpty_iff, List.filter_eq_nil_iff]
        intro u hu hm
        simp at hu
        subst hu
        exact hn (List.mem_filter.mpr ⟨by simp, hm⟩)
    rw [holds_forallF, holds_all]
    simp only [holds_implyF]
    have memq : ∀ v, v ∈ (vs.filter fun v => v ∈ g.fv) ↔ v ∈ vs ∧ v ∈ g.fv := by simp
    constructor
    · intro h ρ' e1 e2 hd'
      refine self ρ' e2 ?_
      have := h (fun v => if v ∈ vs ∧ v ∈ g.fv then ρ' v else ρ v)
        (fun v hv => by rw [memq] at hv; simp [hv])
        (fun v hv => by rw [memq] at hv; simpa [hv] using e2 v hv.1)
        ((holds_congr I dom _ _ fun v hv => by
          have := dq v hv
          rw [memq] at this
          simp [this]).mpr hd')
      refine (holds_congr I g _ _ fun v hv => ?_).mp this
      by_cases hm : v ∈ vs
      · simp [hm, hv]
      · simp [hm, e1 v hm]
    · intro h σ e1 e2 hd'
      have := pull (fun v => if v ∈ vs ∧ v ∉ g.fv then 0 else σ v) (fun v hv _ => by
          by_cases hm : v ∈ g.fv
          · simpa [hm] using e2 v ((memq v).mpr ⟨hv, hm⟩)
          · simp [hm, hv, typeOk_zero])
        (fun v hv => by simp only [hv, false_and, if_false]; exact e1 v (by simp [memq, hv]))
        (fun τ hτ => (holds_congr I dom _ _ fun v hv => by
          have h1 := dq v hv
          rw [memq] at h1
          rw [hτ v fun e => absurd e (hd v hv).2]
          simp [h1]).mpr hd') h
      refine (holds_congr I g _ _ fun v hv => ?_).mp this
      simp [hv]

theorem mkForall_struct {vs D : List Variable} {dom f : Fml} (hf : SortedF f) (hd : SortedF dom)
    (hdv : FvIn (fun v => v ∈ D) dom) (hD : ∀ v ∈ D, v ∈ vs) :
    SortedF (mkForall vs dom f) ∧
    (∀ P : Variable → Prop, (∀ v ∈ f.fv, v ∉ vs → P v) →
      (∀ v ∈ D, (∃ w ∈ vs, w ∈ (elimBool vs f).fv) → v ∈ (elimBool vs f).fv ∨ P v) → FvIn P (mkForall vs dom f)) ∧
    (∀ B : Variable → Prop, (∀ v ∈ vs, B v) → TQ (fun vs _ => ∀ v ∈ vs, B v) (.fml dom) →
      TQ (fun vs _ => ∀ v ∈ vs, B v) (.fml f) →
      TQ (fun vs _ => ∀ v ∈ vs, B v) (.fml (mkForall vs dom f))) := by
  obtain ⟨h1, h2, h3, _⟩ := elimBool_spec (I := ⟨fun _ _ => 0, fun _ _ _ => 0⟩) (bs := vs) hf
  unfold mkForall
  simp only
  set g := elimBool vs f
  split_ifs with hq
  · refine ⟨h1, fun P h _ => ?_, fun B hB _ hf => h3 B hf⟩
    have k := h2 (fun v => (v ∉ vs → P v)) fun v hv _ => h v hv
    intro v hv
    refine k v hv fun hm => ?_
    have : v ∈ (vs.filter fun v => v ∈ g.fv) := List.mem_filter.mpr ⟨hm, by simpa using hv⟩
    have e : (vs.filter fun v => v ∈ g.fv) = [] := by simpa using hq
    rw [e] at this
    simp at this
  · have dom' : ∀ P : Variable → Prop, (∀ v ∈ f.fv, v ∉ vs → P v) → (∀ v ∈ D, v ∈ g.fv ∨ P v) →
        FvIn (fun v => v ∈ (vs.filter fun v => v ∈ g.fv) ∨ P v) (implyF dom g) := by
      intro P h hP
      refine FvIn.implyF (fun v hv => ?_) (fun v hv => ?_)
      · rcases hP v (hdv v hv) with h | h
        · exact .inl (List.mem_filter.mpr ⟨hD v (hdv v hv), by simpa using h⟩)
        · exact .inr h
      · by_cases hm : v ∈ vs
        · exact .inl (List.mem_filter.mpr ⟨hm, by simpa using hv⟩)
        · exact .inr (h2 (fun v => v ∉ vs → P v) (fun v hv _ => h v hv) v hv hm)
    have ex : ∃ w ∈ vs, w ∈ g.fv := by
      by_contra hn
      push Not at hn
      exact hq (by simpa using hn)
    refine ⟨?_, fun P h hP => FvIn_forallF (dom' P h fun v hv => hP v hv ex), fun B hB hd' hf => ?_⟩
    · refine (sortedF_iff _).mpr ?_
      simp only [forallF, implyF, HerF, true_and]
      exact her_orF (her_notF ((sortedF_iff _).mp hd)) ((sortedF_iff _).mp h1)
    · simp only [forallF, implyF, TQ, HerF]
      exact ⟨fun v hv => hB v (List.mem_filter.mp (List.mem_filter.mp hv).1).1,
        her_orF (her_notF hd') (h3 B hf)⟩

end Verif.Proof.Smt2
