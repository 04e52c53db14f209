import Verif.Proof.DeltaLoop
import Verif.Spec.WeakIte

/-!
# Conditionals and the δ-weakening

From truth values of the atoms of the formula without conditionals to the weakening of the formula
with conditionals.
-/

namespace Verif.Proof
open Verif Verif.Model Verif.Spec

theorem weakCAll_iff {I δ ρ p fs} : weakCAll I δ ρ p fs ↔ ∀ f ∈ fs, weakC I δ ρ p f := by
  induction fs with
  | nil => simp [weakCAll]
  | cons f fs ih => simp [weakCAll, ih]

theorem weakCAny_iff {I δ ρ p fs} : weakCAny I δ ρ p fs ↔ ∃ f ∈ fs, weakC I δ ρ p f := by
  induction fs with
  | nil => simp [weakCAny]
  | cons f fs ih => simp [weakCAny, ih]

theorem defCs_iff {D I δ ρ fs} : DefCs D I δ ρ fs ↔ ∀ f ∈ fs, DefC D I δ ρ f := by
  induction fs with
  | nil => simp [DefCs]
  | cons f fs ih => simp [DefCs, ih]

/-! ### Without conditionals -/

theorem approxE_iff {I δ ρ} : ∀ {e : Expr} {x : ℝ}, IteFreeE e → (ApproxE I δ ρ e x ↔ x = eval I ρ e)
  | .const _, x, _ => by simp [ApproxE, eval]
  | .rconst _, x, _ => by simp [ApproxE, eval]
  | .var _, x, _ => by simp [ApproxE, eval]
  | .add a b, x, h => by
    simp only [ApproxE, eval]
    constructor
    · rintro ⟨y, z, h1, h2, h3⟩
      rw [h3, (approxE_iff h.1).mp h1, (approxE_iff h.2).mp h2]
    · intro h3
      exact ⟨_, _, (approxE_iff h.1).mpr rfl, (approxE_iff h.2).mpr rfl, h3⟩
  | .mul a b, x, h => by
    simp only [ApproxE, eval]
    constructor
    · rintro ⟨y, z, h1, h2, h3⟩
      rw [h3, (approxE_iff h.1).mp h1, (approxE_iff h.2).mp h2]
    · intro h3
      exact ⟨_, _, (approxE_iff h.1).mpr rfl, (approxE_iff h.2).mpr rfl, h3⟩
  | .app1 f a, x, h => by
    have h : IteFreeE a := h
    simp only [ApproxE, eval]
    constructor
    · rintro ⟨y, h1, h3⟩
      rw [h3, (approxE_iff h).mp h1]
    · intro h3
      exact ⟨_, (approxE_iff h).mpr rfl, h3⟩
  | .app2 f a b, x, h => by
    simp only [ApproxE, eval]
    constructor
    · rintro ⟨y, z, h1, h2, h3⟩
      rw [h3, (approxE_iff h.1).mp h1, (approxE_iff h.2).mp h2]
    · intro h3
      exact ⟨_, _, (approxE_iff h.1).mpr rfl, (approxE_iff h.2).mpr rfl, h3⟩
  | .ite _ _ _, _, h => absurd h id

theorem defA_iff {D I δ ρ} : ∀ {e : Expr}, IteFreeE e → (DefA D I δ ρ e ↔ DefE D I ρ e)
  | .const _, _ => by simp [DefA, DefE]
  | .rconst _, _ => by simp [DefA, DefE]
  | .var _, _ => by simp [DefA, DefE]
  | .add a b, h => by simp only [DefA, DefE, defA_iff h.1, defA_iff h.2]
  | .mul a b, h => by simp only [DefA, DefE, defA_iff h.1, defA_iff h.2]
  | .app1 f a, h => by
    have h : IteFreeE a := h
    simp only [DefA, DefE, defA_iff h, approxE_iff h, forall_eq]
  | .app2 f a b, h => by
    simp only [DefA, DefE, defA_iff h.1, defA_iff h.2, approxE_iff h.1, approxE_iff h.2]
    simp
  | .ite _ _ _, h => absurd h id

mutual
theorem weakC_iff {I δ ρ} : ∀ (f : Fml) (p : Bool), IteFree f →
    (weakC I δ ρ p f ↔ weakF I δ ρ p f)
  | .ff, p, _ => by simp [weakC, weakF]
  | .tt, p, _ => by simp [weakC, weakF]
  | .bvar v, p, _ => by simp [weakC, weakF]
  | .rel op a b, p, h => by
    simp only [weakC, weakF, approxE_iff h.1, approxE_iff h.2]
    simp
  | .conj fs, p, h => by
    simp only [weakC, weakF, weakC_all fs p h, weakC_any fs p h]
  | .disj fs, p, h => by
    simp only [weakC, weakF, weakC_all fs p h, weakC_any fs p h]
  | .neg f, p, h => by
    simp only [weakC, weakF]
    exact weakC_iff f (!p) h
  | .all _ _, p, _ => by simp [weakC, weakF]
theorem weakC_all {I δ ρ} : ∀ (fs : List Fml) (p : Bool), IteFreeList fs →
    (weakCAll I δ ρ p fs ↔ weakAll I δ ρ p fs)
  | [], p, _ => by simp [weakCAll, weakAll]
  | f :: fs, p, h => by simp only [weakCAll, weakAll, weakC_iff f p h.1, weakC_all fs p h.2]
theorem weakC_any {I δ ρ} : ∀ (fs : List Fml) (p : Bool), IteFreeList fs →
    (weakCAny I δ ρ p fs ↔ weakAny I δ ρ p fs)
  | [], p, _ => by simp [weakCAny, weakAny]
  | f :: fs, p, h => by simp only [weakCAny, weakAny, weakC_iff f p h.1, weakC_any fs p h.2]
end

mutual
theorem defC_of {D I δ ρ} : ∀ (f : Fml), IteFree f → DefF D I ρ f → DefC D I δ ρ f
  | .ff, _, _ => by simp [DefC]
  | .tt, _, _ => by simp [DefC]
  | .bvar v, _, _ => by simp [DefC]
  | .rel op a b, h, hd => ⟨(defA_iff h.1).mpr hd.1, (defA_iff h.2).mpr hd.2⟩
  | .conj fs, h, hd => by simp only [DefC]; exact defCs_of fs h hd
  | .disj fs, h, hd => by simp only [DefC]; exact defCs_of fs h hd
  | .neg f, h, hd => by simp only [DefC]; exact defC_of f h hd
  | .all _ _, _, _ => by simp [DefC]
theorem defCs_of {D I δ ρ} : ∀ (fs : List Fml), IteFreeList fs → DefFs D I ρ fs → DefCs D I δ ρ fs
  | [], _, _ => by simp [DefCs]
  | f :: fs, h, hd => ⟨defC_of f h.1 hd.1, defCs_of fs h.2 hd.2⟩
end

/-! ### Only the variables of a formula matter -/

mutual
theorem approxE_congr {I δ ρ ρ'} : ∀ (e : Expr), (∀ v ∈ e.vars, ρ v = ρ' v) → ∀ x : ℝ,
    (ApproxE I δ ρ e x ↔ ApproxE I δ ρ' e x)
  | .const _, _, x => by simp [ApproxE]
  | .rconst _, _, x => by simp [ApproxE]
  | .var v, h, x => by simp [ApproxE, h v (by simp [Expr.vars])]
  | .add a b, h, x => by
    simp only [ApproxE, approxE_congr a (fun v hv => h v (by simp [Expr.vars, hv])),
      approxE_congr b (fun v hv => h v (by simp [Expr.vars, hv]))]
  | .mul a b, h, x => by
    simp only [ApproxE, approxE_congr a (fun v hv => h v (by simp [Expr.vars, hv])),
      approxE_congr b (fun v hv => h v (by simp [Expr.vars, hv]))]
  | .app1 f a, h, x => by
    simp only [ApproxE, approxE_congr a (fun v hv => h v (by simp [Expr.vars, hv]))]
  | .app2 f a b, h, x => by
    simp only [ApproxE, approxE_congr a (fun v hv => h v (by simp [Expr.vars, hv])),
      approxE_congr b (fun v hv => h v (by simp [Expr.vars, hv]))]
  | .ite c a b, h, x => by
    simp only [ApproxE, weakC_congr c (fun v hv => h v (by simp [Expr.vars, hv])),
      approxE_congr a (fun v hv => h v (by simp [Expr.vars, hv])),
      approxE_congr b (fun v hv => h v (by simp [Expr.vars, hv]))]
theorem weakC_congr {I δ ρ ρ'} : ∀ (f : Fml), (∀ v ∈ f.fv, ρ v = ρ' v) → ∀ p : Bool,
    (weakC I δ ρ p f ↔ weakC I δ ρ' p f)
  | .ff, _, p => by simp [weakC]
  | .tt, _, p => by simp [weakC]
  | .bvar v, h, p => by simp [weakC, h v (by simp [Fml.fv])]
  | .rel op a b, h, p => by
    simp only [weakC, approxE_congr a (fun v hv => h v (by simp [Fml.fv, hv])),
      approxE_congr b (fun v hv => h v (by simp [Fml.fv, hv]))]
  | .conj fs, h, p => by
    obtain ⟨h1, h2⟩ := weakCs_congr (I := I) (δ := δ) fs (fun v hv => h v (by simpa [Fml.fv] using hv)) p
    simp only [weakC, h1, h2]
  | .disj fs, h, p => by
    obtain ⟨h1, h2⟩ := weakCs_congr (I := I) (δ := δ) fs (fun v hv => h v (by simpa [Fml.fv] using hv)) p
    simp only [weakC, h1, h2]
  | .neg f, h, p => by
    simp only [weakC]
    exact weakC_congr f (fun v hv => h v (by simpa [Fml.fv] using hv)) (!p)
  | .all _ _, _, p => by simp [weakC]
theorem weakCs_congr {I δ ρ ρ'} : ∀ (fs : List Fml), (∀ v ∈ Fml.fvList fs, ρ v = ρ' v) →
    ∀ p : Bool, (weakCAll I δ ρ p fs ↔ weakCAll I δ ρ' p fs) ∧
      (weakCAny I δ ρ p fs ↔ weakCAny I δ ρ' p fs)
  | [], _, p => by simp [weakCAll, weakCAny]
  | f :: fs, h, p => by
    obtain ⟨h1, h2⟩ := weakCs_congr (I := I) (δ := δ) fs (fun v hv => h v (by simp [Fml.fvList, hv])) p
    have h3 := weakC_congr (I := I) (δ := δ) f (fun v hv => h v (by simp [Fml.fvList, hv])) p
    simp only [weakCAll, weakCAny, h1, h2, h3, and_self]
end

mutual
theorem defA_congr {D I δ ρ ρ'} : ∀ (e : Expr), (∀ v ∈ e.vars, ρ v = ρ' v) →
    (DefA D I δ ρ e ↔ DefA D I δ ρ' e)
  | .const _, _ => by simp [DefA]
  | .rconst _, _ => by simp [DefA]
  | .var v, h => by simp [DefA]
  | .add a b, h => by
    simp only [DefA, defA_congr a (fun v hv => h v (by simp [Expr.vars, hv])),
      defA_congr b (fun v hv => h v (by simp [Expr.vars, hv]))]
  | .mul a b, h => by
    simp only [DefA, defA_congr a (fun v hv => h v (by simp [Expr.vars, hv])),
      defA_congr b (fun v hv => h v (by simp [Expr.vars, hv]))]
  | .app1 f a, h => by
    simp only [DefA, defA_congr a (fun v hv => h v (by simp [Expr.vars, hv])),
      approxE_congr a (fun v hv => h v (by simp [Expr.vars, hv]))]
  | .app2 f a b, h => by
    simp only [DefA, defA_congr a (fun v hv => h v (by simp [Expr.vars, hv])),
      defA_congr b (fun v hv => h v (by simp [Expr.vars, hv])),
      approxE_congr a (fun v hv => h v (by simp [Expr.vars, hv])),
      approxE_congr b (fun v hv => h v (by simp [Expr.vars, hv]))]
  | .ite c a b, h => by
    simp only [DefA, defC_congr c (fun v hv => h v (by simp [Expr.vars, hv])),
      weakC_congr c (fun v hv => h v (by simp [Expr.vars, hv])),
      defA_congr a (fun v hv => h v (by simp [Expr.vars, hv])),
      defA_congr b (fun v hv => h v (by simp [Expr.vars, hv]))]
theorem defC_congr {D I δ ρ ρ'} : ∀ (f : Fml), (∀ v ∈ f.fv, ρ v = ρ' v) →
    (DefC D I δ ρ f ↔ DefC D I δ ρ' f)
  | .ff, _ => by simp [DefC]
  | .tt, _ => by simp [DefC]
  | .bvar v, h => by simp [DefC]
  | .rel op a b, h => by
    simp only [DefC, defA_congr a (fun v hv => h v (by simp [Fml.fv, hv])),
      defA_congr b (fun v hv => h v (by simp [Fml.fv, hv]))]
  | .conj fs, h => by
    simp only [DefC]
    exact defCs_congr fs (fun v hv => h v (by simpa [Fml.fv] using hv))
  | .disj fs, h => by
    simp only [DefC]
    exact defCs_congr fs (fun v hv => h v (by simpa [Fml.fv] using hv))
  | .neg f, h => by
    simp only [DefC]
    exact defC_congr f (fun v hv => h v (by simpa [Fml.fv] using hv))
  | .all _ _, _ => by simp [DefC]
theorem defCs_congr {D I δ ρ ρ'} : ∀ (fs : List Fml), (∀ v ∈ Fml.fvList fs, ρ v = ρ' v) →
    (DefCs D I δ ρ fs ↔ DefCs D I δ ρ' fs)
  | [], _ => by simp [DefCs]
  | f :: fs, h => by
    simp only [DefCs, defC_congr f (fun v hv => h v (by simp [Fml.fvList, hv])),
      defCs_congr fs (fun v hv => h v (by simp [Fml.fvList, hv]))]
end

/-! ### The definitions are only added -/

mutual
theorem iteE_added : ∀ (e : Expr) (g : Fml) (s : IteState),
    ∀ a ∈ s.added, a ∈ (iteE e g s).2.added
  | .const _, _, _, _, h => by simpa [iteE] using h
  | .rconst _, _, _, _, h => by simpa [iteE] using h
  | .var _, _, _, _, h => by simpa [iteE] using h
  | .add a b, g, s, _, h => by
    simp only [iteE]; exact iteE_added b g _ _ (iteE_added a g s _ h)
  | .mul a b, g, s, _, h => by
    simp only [iteE]; exact iteE_added b g _ _ (iteE_added a g s _ h)
  | .app1 f a, g, s, _, h => by
    simp only [iteE]; exact iteE_added a g s _ h
  | .app2 f a b, g, s, _, h => by
    simp only [iteE]; exact iteE_added b g _ _ (iteE_added a g s _ h)
  | .ite c a b, g, s, _, h => by
    simp only [iteE, IteState.finish, List.mem_append]
    exact .inl (iteE_added b _ _ _ (iteE_added a _ _ _ (iteF_added c g s.start _ h)))
theorem iteF_added : ∀ (f : Fml) (g : Fml) (s : IteState),
    ∀ a ∈ s.added, a ∈ (iteF f g s).2.added
  | .ff, _, _, _, h => by simpa [iteF] using h
  | .tt, _, _, _, h => by simpa [iteF] using h
  | .bvar _, _, _, _, h => by simpa [iteF] using h
  | .rel op a b, g, s, _, h => by
    simp only [iteF]; exact iteE_added b g _ _ (iteE_added a g s _ h)
  | .conj fs, g, s, _, h => by simp only [iteF]; exact iteList_added fs g s _ h
  | .disj fs, g, s, _, h => by simp only [iteF]; exact iteList_added fs g s _ h
  | .neg f, g, s, _, h => by simp only [iteF]; exact iteF_added f g s _ h
  | .all _ _, _, _, _, h => by simpa [iteF] using h
theorem iteList_added : ∀ (fs : List Fml) (g : Fml) (s : IteState),
    ∀ a ∈ s.added, a ∈ (iteList fs g s).2.added
  | [], _, _, _, h => by simpa [iteList] using h
  | f :: fs, g, s, _, h => by
    simp only [iteList]; exact iteList_added fs g _ _ (iteF_added f g s _ h)
end

/-! ### With conditionals -/

/-- All truth values are right up to `δ`. -/
abbrev AllP (_ : RelOp) (_ _ : Expr) : Prop := True

theorem mkRel_fits {D I V ρ M} {δ : ℝ} (hδ : 0 ≤ δ) (h : Fits D I δ AllP V ρ M) {op a b}
    (ha : DefE D I ρ a) (hb : DefE D I ρ b) :
    (bh M (mkRel op a b) → weakRel δ op (eval I ρ a) (eval I ρ b)) ∧
    (¬ bh M (mkRel op a b) → weakRel δ op.neg (eval I ρ a) (eval I ρ b)) := by
  unfold mkRel
  split
  · rename_i c hc
    have := testZero_iff op c _ _ (constDiff_val (I := I) (ρ := ρ) hc)
    split_ifs with ht
    · exact ⟨fun _ => weak_of_sem hδ (this.mp ht), fun hn => absurd (by simp) hn⟩
    · exact ⟨fun hn => absurd hn (by simp),
        fun _ => weak_of_sem hδ (relSem_neg.mpr fun hr => ht (this.mpr hr))⟩
  · exact ⟨fun hb' => h.yes op a b trivial ha hb (by simpa using hb'),
      fun hb' => h.no op a b trivial ha hb (by simpa using hb')⟩

section
variable {D : Dom} {I : Interp} {δ : ℝ} {V : Variable → Prop} {ρ : Valuation} {M : BMod}

mutual
theorem iteE_weak (hδ : 0 ≤ δ) (h : Fits D I δ AllP V ρ M) : ∀ (e : Expr) (g : Fml) (s : IteState),
    QFreeE e → WfE V e → DefA D I δ ρ e → bh M g → (∀ a ∈ (iteE e g s).2.added, bh M a) →
    DefE D I ρ (iteE e g s).1 ∧ ApproxE I δ ρ e (eval I ρ (iteE e g s).1)
  | .const _, _, _, _, _, _, _, _ => by simp [iteE, DefE, ApproxE, eval]
  | .rconst _, _, _, _, _, _, _, _ => by simp [iteE, DefE, ApproxE, eval]
  | .var _, _, _, _, _, _, _, _ => by simp [iteE, DefE, ApproxE, eval]
  | .add a b, g, s, hq, hw, hd, hg, had => by
    simp only [iteE] at had ⊢
    obtain ⟨a1, a2⟩ := iteE_weak hδ h a g s hq.1 hw.1 hd.1 hg
      (fun x hx => had x (iteE_added b g _ x hx))
    obtain ⟨b1, b2⟩ := iteE_weak hδ h b g _ hq.2 hw.2 hd.2 hg had
    exact ⟨⟨a1, b1⟩, _, _, a2, b2, by simp [eval]⟩
  | .mul a b, g, s, hq, hw, hd, hg, had => by
    simp only [iteE] at had ⊢
    obtain ⟨a1, a2⟩ := iteE_weak hδ h a g s hq.1 hw.1 hd.1 hg
      (fun x hx => had x (iteE_added b g _ x hx))
    obtain ⟨b1, b2⟩ := iteE_weak hδ h b g _ hq.2 hw.2 hd.2 hg had
    exact ⟨⟨a1, b1⟩, _, _, a2, b2, by simp [eval]⟩
  | .app1 f a, g, s, hq, hw, hd, hg, had => by
    simp only [iteE] at had ⊢
    obtain ⟨a1, a2⟩ := iteE_weak hδ h a g s hq hw hd.1 hg had
    exact ⟨⟨a1, hd.2 _ a2⟩, _, a2, by simp [eval]⟩
  | .app2 f a b, g, s, hq, hw, hd, hg, had => by
    simp only [iteE] at had ⊢
    obtain ⟨a1, a2⟩ := iteE_weak hδ h a g s hq.1 hw.1 hd.1 hg
      (fun x hx => had x (iteE_added b g _ x hx))
    obtain ⟨b1, b2⟩ := iteE_weak hδ h b g _ hq.2 hw.2 hd.2.1 hg had
    exact ⟨⟨a1, b1, hd.2.2 _ _ a2 b2⟩, _, _, a2, b2, by simp [eval]⟩
  | .ite c a b, g, s, hq, hw, hd, hg, had => by
    simp only [iteE] at had ⊢
    set rc := iteF c g s.start with hrc
    set ra := iteE a (andF g rc.1) rc.2 with hra
    set rb := iteE b (andF g (notF rc.1)) ra.2 with hrb
    simp only [IteState.finish, List.mem_append, List.mem_cons, List.not_mem_nil, or_false] at had
    have hadb : ∀ x ∈ rb.2.added, bh M x := fun x hx => had x (.inl hx)
    have hada : ∀ x ∈ ra.2.added, bh M x := fun x hx => hadb x (iteE_added b _ _ x hx)
    have hadc : ∀ x ∈ rc.2.added, bh M x := fun x hx => hada x (iteE_added a _ _ x hx)
    obtain ⟨c1, c2⟩ := iteF_weak hδ h c g s.start hq.1 hw.1 hd.1 hg hadc
    refine ⟨trivial, ?_⟩
    by_cases hc : bh M rc.1
    · obtain ⟨a1, a2⟩ := iteE_weak hδ h a (andF g rc.1) rc.2 hq.2.1 hw.2.1 (hd.2.1 (c1 hc))
        (by simp [hg, hc]) hada
      have hx := had _ (.inr (.inl rfl))
      simp only [iteDef, bh_orF, bh_notF, bh_andF] at hx
      have hx := hx.resolve_left (fun hn => hn ⟨hg, hc⟩)
      exact .inl ⟨c1 hc, _, a2, (mkRel_fits hδ h (a := .var s.freshVar) trivial a1).1 hx⟩
    · obtain ⟨b1, b2⟩ := iteE_weak hδ h b (andF g (notF rc.1)) ra.2 hq.2.2 hw.2.2 (hd.2.2 (c2 hc))
        (by simp [hg, hc]) hadb
      have hx := had _ (.inr (.inr rfl))
      simp only [iteDef, bh_orF, bh_notF, bh_andF] at hx
      have hx := hx.resolve_left (fun hn => hn ⟨hg, hc⟩)
      exact .inr ⟨c2 hc, _, b2, (mkRel_fits hδ h (a := .var s.freshVar) trivial b1).1 hx⟩
theorem iteF_weak (hδ : 0 ≤ δ) (h : Fits D I δ AllP V ρ M) : ∀ (f : Fml) (g : Fml) (s : IteState),
    QFree f → WfF V f → DefC D I δ ρ f → bh M g → (∀ a ∈ (iteF f g s).2.added, bh M a) →
    (bh M (iteF f g s).1 → weakC I δ ρ true f) ∧ (¬ bh M (iteF f g s).1 → weakC I δ ρ false f)
  | .ff, _, _, _, _, _, _, _ => by simp [iteF, weakC]
  | .tt, _, _, _, _, _, _, _ => by simp [iteF, weakC]
  | .bvar v, _, _, _, hw, _, _, _ => by
    simp only [iteF, bh_bvar, weakC]
    have := h.bool v hw.2 hw.1
    exact ⟨fun hb => by simpa using this.mp hb, fun hb => by simpa using fun h' => hb (this.mpr h')⟩
  | .rel op a b, g, s, hq, hw, hd, hg, had => by
    simp only [iteF] at had ⊢
    obtain ⟨a1, a2⟩ := iteE_weak hδ h a g s hq.1 hw.1 hd.1 hg
      (fun x hx => had x (iteE_added b g _ x hx))
    obtain ⟨b1, b2⟩ := iteE_weak hδ h b g _ hq.2 hw.2 hd.2 hg had
    obtain ⟨m1, m2⟩ := mkRel_fits hδ h (op := op) a1 b1
    simp only [weakC]
    exact ⟨fun hb => ⟨_, _, a2, b2, by simpa using m1 hb⟩,
      fun hb => ⟨_, _, a2, b2, by simpa using m2 hb⟩⟩
  | .conj fs, g, s, hq, hw, hd, hg, had => by
    simp only [iteF] at had ⊢
    simp only [DefC] at hd
    obtain ⟨l1, l2, -⟩ := iteList_weak hδ h fs g s hq hw hd hg had
    simp only [bh_mkConj, mem_toSet, weakC, if_true, Bool.false_eq_true, if_false]
    exact ⟨l1, fun hn => l2 (by push Not at hn; exact hn)⟩
  | .disj fs, g, s, hq, hw, hd, hg, had => by
    simp only [iteF] at had ⊢
    simp only [DefC] at hd
    obtain ⟨-, -, l3, l4⟩ := iteList_weak hδ h fs g s hq hw hd hg had
    simp only [bh_mkDisj, mem_toSet, weakC, if_true, Bool.false_eq_true, if_false]
    exact ⟨l3, fun hn => l4 (by push Not at hn; exact hn)⟩
  | .neg f, g, s, hq, hw, hd, hg, had => by
    simp only [iteF] at had ⊢
    simp only [DefC] at hd
    obtain ⟨l1, l2⟩ := iteF_weak hδ h f g s hq hw hd hg had
    simp only [bh_notF, weakC, Bool.not_true, Bool.not_false, not_not]
    exact ⟨l2, l1⟩
  | .all _ _, _, _, hq, _, _, _, _ => absurd hq id
theorem iteList_weak (hδ : 0 ≤ δ) (h : Fits D I δ AllP V ρ M) : ∀ (fs : List Fml) (g : Fml)
    (s : IteState), QFrees fs → WfFs V fs → DefCs D I δ ρ fs → bh M g →
    (∀ a ∈ (iteList fs g s).2.added, bh M a) →
    ((∀ x ∈ (iteList fs g s).1, bh M x) → weakCAll I δ ρ true fs) ∧
    ((∃ x ∈ (iteList fs g s).1, ¬ bh M x) → weakCAny I δ ρ false fs) ∧
    ((∃ x ∈ (iteList fs g s).1, bh M x) → weakCAny I δ ρ true fs) ∧
    ((∀ x ∈ (iteList fs g s).1, ¬ bh M x) → weakCAll I δ ρ false fs)
  | [], _, _, _, _, _, _, _ => by simp [iteList, weakCAll]
  | f :: fs, g, s, hq, hw, hd, hg, had => by
    simp only [iteList] at had ⊢
    obtain ⟨f1, f2⟩ := iteF_weak hδ h f g s hq.1 hw.1 hd.1 hg
      (fun x hx => had x (iteList_added fs g _ x hx))
    obtain ⟨l1, l2, l3, l4⟩ := iteList_weak hδ h fs g _ hq.2 hw.2 hd.2 hg had
    simp only [List.mem_cons, forall_eq_or_imp, exists_eq_or_imp, weakCAll, weakCAny]
    exact ⟨fun hx => ⟨f1 hx.1, l1 hx.2⟩, Or.imp f2 l2, Or.imp f1 l3,
      fun hx => ⟨f2 hx.1, l4 hx.2⟩⟩
end

/-- `Process`: the processed formula gives the weakening of the formula. -/
theorem iteProcess_weak (hδ : 0 ≤ δ) (h : Fits D I δ AllP V ρ M) {f : Fml} {next : Nat}
    (hq : QFree f) (hw : WfF V f) (hd : DefC D I δ ρ f) (hb : bh M (iteProcess next f).1) :
    weakC I δ ρ true f := by
  have key : bh M (iteF f .tt { next := next }).1 ∧
      ∀ a ∈ (iteF f .tt { next := next }).2.added, bh M a := by
    simp only [iteProcess, iteResult] at hb
    split at hb
    · rename_i hc
      rw [← hc.1, hc.2]
      exact ⟨hb, by simp⟩
    · simpa using hb
  exact (iteF_weak hδ h f .tt _ hq hw hd (by simp) key.2).1 key.1

end

end Verif.Proof
