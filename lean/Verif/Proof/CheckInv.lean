import Verif.Proof.SatInv
import Verif.Proof.Vars

/-!
# What a check keeps, and why "unsat" is right
-/

namespace Verif.Proof
open Verif Verif.Model Verif.Spec

/-! ### The cache of contractors -/

/-- Every variable has kept the place `H` gives it in all the boxes for which contractors were
built; the contractors of quantified formulas were built for variables satisfying `A`. -/
def CacheInv (H : Variable → Option Nat) (A : List Variable → Prop) (cache : Cache) : Prop :=
  ∀ f c, (f, c) ∈ cache → ∃ b : Box, litCtc f b = .ok c ∧ b.vars.Nodup ∧
    (f.isAll = true → A b.vars) ∧
    (f.isAll = false → ∀ v ∈ f.fv, ∃ i : Nat, b.vars[i]? = some v ∧ H v = some i)

theorem CacheInv.mono {H H' A A' cache} (hH : ∀ v i, H v = some i → H' v = some i)
    (hA : ∀ ws, A ws → A' ws) (h : CacheInv H A cache) : CacheInv H' A' cache := by
  intro f c hm
  obtain ⟨b, h2, h3, h1, h4⟩ := h f c hm
  refine ⟨b, h2, h3, fun ha => hA _ (h1 ha), fun ha v hv => ?_⟩
  obtain ⟨i, g1, g2⟩ := h4 ha v hv
  exact ⟨i, g1, hH _ _ g2⟩

theorem CacheInv.ok {H A cache} {vs : List Variable}
    (hp : ∀ (i : Nat) v, vs[i]? = some v → H v = some i) (hA : ∀ ws, A ws → ws = vs)
    (h : CacheInv H A cache) : CacheOk vs cache := by
  intro f c hm hv
  obtain ⟨b, h2, h3, h1, h4⟩ := h f c hm
  refine ⟨b, h2, h3, fun ha => hA _ (h1 ha), fun ha v hf => ?_⟩
  obtain ⟨i, g1, g2⟩ := h4 ha v hf
  obtain ⟨j, hj⟩ := List.mem_iff_getElem?.mp (hv v hf)
  have := hp j v hj
  rw [g2] at this; cases this
  exact ⟨i, g1, hj⟩

theorem cachedCtc_mem {f b cache r} (h : cachedCtc f b cache = .ok r) :
    ∀ g c, (g, c) ∈ r.2 → (g, c) ∈ cache ∨ (g = f ∧ litCtc f b = .ok c) := by
  unfold cachedCtc at h
  split at h
  · simp only [Outcome.ok.injEq] at h; subst h; exact fun _ _ h => .inl h
  · obtain ⟨c, h1, h2⟩ := bindO_ok h
    simp only [Outcome.ok.injEq] at h2; subst h2
    intro g c' hm
    rcases List.mem_cons.mp hm with hm | hm
    · cases hm; exact .inr ⟨rfl, h1⟩
    · exact .inl hm

theorem buildLoop_mem {d vs} : ∀ {fs cache s r}, buildLoop d fs cache s = .ok r →
    Shape vs s.box → ∀ g c, (g, c) ∈ r.2.1 → (g, c) ∈ cache ∨
      (g ∈ fs ∧ ∃ b : Box, b.vars = vs ∧ litCtc g b = .ok c)
  | [], cache, s, r, h, _ => by
    simp only [buildLoop, Outcome.ok.injEq] at h; subst h; exact fun _ _ h => .inl h
  | f :: fs, cache, s, r, h, hs => by
    simp only [buildLoop] at h
    obtain ⟨⟨res, b'⟩, h1, h2⟩ := bindO_ok h
    have hb := filter_shape h1 hs
    have up : ∀ {g c} {cache' : Cache}, ((g, c) ∈ cache' ∨
        (g ∈ fs ∧ ∃ b : Box, b.vars = vs ∧ litCtc g b = .ok c)) →
        ((g, c) ∈ cache' → (g, c) ∈ cache ∨ (g ∈ f :: fs ∧ ∃ b : Box, b.vars = vs ∧
          litCtc g b = .ok c)) →
        ((g, c) ∈ cache ∨ (g ∈ f :: fs ∧ ∃ b : Box, b.vars = vs ∧ litCtc g b = .ok c)) := by
      rintro g c cache' (h | ⟨h, h'⟩) hc
      · exact hc h
      · exact .inr ⟨by simp [h], h'⟩
    cases res with
    | notFiltered =>
      simp only at h2
      obtain ⟨q, h3, h4⟩ := bindO_ok h2
      obtain ⟨rest, h5, h6⟩ := bindO_ok h4
      simp only [Outcome.ok.injEq] at h6; subst h6
      have hs' : Shape vs (if s.box ≠ b' then { s with box := b' }.addUsed f else s).box := by
        split
        · exact hb
        · exact hs
      intro g c hm
      refine up (buildLoop_mem h5 hs' g c hm) (fun hm' => ?_)
      rcases cachedCtc_mem h3 g c hm' with h | ⟨rfl, h⟩
      · exact .inl h
      · exact .inr ⟨by simp, _, hs'.1, h⟩
    | withChange =>
      simp only at h2
      split at h2
      · simp only [Outcome.ok.injEq] at h2; subst h2; exact fun _ _ h => .inl h
      · intro g c hm
        exact up (buildLoop_mem h2 (s := { s with box := b' }.addUsed f) hb g c hm) (fun h => .inl h)
    | withoutChange =>
      simp only at h2
      intro g c hm
      exact up (buildLoop_mem h2 (s := { s with box := b' }) hb g c hm) (fun h => .inl h)

theorem theoryCheck_mem {env cfg vs cache tick b fs ans cache' tick'} (hs : Shape vs b)
    (h : theoryCheck env cfg cache tick b fs = .ok (ans, cache', tick')) :
    ∀ g c, (g, c) ∈ cache' → (g, c) ∈ cache ∨
      (g ∈ fs ∧ ∃ b : Box, b.vars = vs ∧ litCtc g b = .ok c) := by
  unfold theoryCheck at h
  obtain ⟨⟨o, c1, s⟩, h1, h2⟩ := bindR_ok h
  have key : ∀ g c, (g, c) ∈ c1 → (g, c) ∈ cache ∨
      (g ∈ fs ∧ ∃ b : Box, b.vars = vs ∧ litCtc g b = .ok c) := by
    have h1 := lift_ok h1
    unfold buildContractor at h1
    split at h1
    · simp only [Outcome.ok.injEq, Prod.mk.injEq] at h1
      rw [← h1.2.1]; exact fun _ _ h => .inl h
    · obtain ⟨r, g1, g2⟩ := bindO_ok h1
      have hr := buildLoop_mem g1 (vs := vs) hs
      split at g2
      · simp only [Outcome.ok.injEq, Prod.mk.injEq] at g2
        have := g2.2; rw [this] at hr; exact hr
      · simp only at g2
        split at g2
        · obtain ⟨_, -, g3⟩ := bindO_ok g2
          obtain ⟨_, -, g4⟩ := bindO_ok g3
          simp only [Outcome.ok.injEq, Prod.mk.injEq] at g4
          have := g4.2; rw [this] at hr; exact hr
        · obtain ⟨_, -, g3⟩ := bindO_ok g2
          simp only [Outcome.ok.injEq, Prod.mk.injEq] at g3
          have := g3.2; rw [this] at hr; exact hr
  suffices c1 = cache' by rw [← this]; exact key
  cases o with
  | some c =>
    simp only at h2
    obtain ⟨_, h3, h4⟩ := bindR_ok h2
    obtain ⟨⟨res, s'⟩, h5, h6⟩ := bindR_ok h4
    simp only at h6
    split at h6
    · obtain ⟨e, h7, h8⟩ := bindR_ok h6
      simp only [Run.ok.injEq, Prod.mk.injEq] at h8; exact h8.2.1
    · simp only [Run.ok.injEq, Prod.mk.injEq] at h6; exact h6.2.1
  | none =>
    simp only at h2
    split at h2
    · obtain ⟨e, h7, h8⟩ := bindR_ok h2
      simp only [Run.ok.injEq, Prod.mk.injEq] at h8; exact h8.2.1
    · cases h2

theorem theoryCheck_cacheInv {env cfg vs cache tick b fs ans cache' tick' H A} (hs : Shape vs b)
    (hn : vs.Nodup) (hp : ∀ (i : Nat) v, vs[i]? = some v → H v = some i)
    (hf : ∀ f ∈ fs, AtomF (· ∈ vs) f) (ha : ∀ f ∈ fs, f.isAll = true → A vs)
    (hc : CacheInv H A cache)
    (h : theoryCheck env cfg cache tick b fs = .ok (ans, cache', tick')) : CacheInv H A cache' := by
  intro f c hm
  rcases theoryCheck_mem hs h f c hm with h | ⟨h1, b', h2, h3⟩
  · exact hc f c h
  · refine ⟨b', h3, by rw [h2]; exact hn, fun h => by rw [h2]; exact ha f h1 h, fun _ v hv => ?_⟩
    obtain ⟨j, hj⟩ := List.mem_iff_getElem?.mp (AtomF.fv f (hf f h1) v hv).2
    exact ⟨j, by rw [h2]; exact hj, hp j v hj⟩

/-! ### Without quantifiers -/

/-- The formula has no quantifiers (outside conditions). -/
abbrev QF (f : Fml) : Prop := ForAtoms (fun _ _ _ => True) (fun _ => True) NoQ f

/-- No name stands for a quantified formula. -/
def NoAll (T : List (Variable × Fml)) : Prop := ∀ p ∈ T, p.2.isAll = false

theorem qf_of {f} (hs : Simple f) (ha : f.isAll = false) : QF f := by
  cases f <;> first | trivial | exact absurd hs id | cases ha

theorem qf_notAll {f} (h : QF f) : f.isAll = false := by
  cases f <;> first | rfl | exact absurd h id

theorem mkRel_notAll {op a b} : (mkRel op a b).isAll = false := by
  unfold mkRel; repeat' split
  all_goals rfl

theorem absAtomic_noAll {f s} (hf : f.isAll = false) (hs : NoAll s.table) :
    NoAll (absAtomic f s).2.table := by
  intro p hp
  rcases absAtomic_ext.2 p hp with h | h
  · exact hs p h
  · rw [h]; exact hf

mutual
theorem absVisit_noAll (f : Fml) (s : AbsState) (hf : QF f) (hs : NoAll s.table) :
    NoAll (absVisit f s).2.table := by
  unfold absVisit
  split
  · exact hs
  · cases f with
    | ff => exact hs
    | tt => exact hs
    | bvar v => exact hs
    | rel op a b =>
      cases op <;> simp only [absRel] <;>
        first | exact absAtomic_noAll rfl hs | exact absAtomic_noAll mkRel_notAll hs
    | all vs f => exact absurd hf id
    | conj fs => exact absVisitList_noAll fs s (forAtomsL_iff.mp hf) hs
    | disj fs => exact absVisitList_noAll fs s (forAtomsL_iff.mp hf) hs
    | neg f => exact absVisit_noAll f s hf hs
theorem absVisitList_noAll (fs : List Fml) (s : AbsState) (hf : ∀ f ∈ fs, QF f)
    (hs : NoAll s.table) : NoAll (absVisitList fs s).2.table := by
  cases fs with
  | nil => exact hs
  | cons f fs =>
    simp only [absVisitList]
    exact absVisitList_noAll fs _ (fun g hg => hf g (by simp [hg]))
      (absVisit_noAll f s (hf f (by simp)) hs)
end

theorem addFormula_noAll {s f s'} (hf : QF f) (hs : NoAll s.abs.table)
    (h : addFormula s f = .ok s') : NoAll s'.abs.table := by
  simp only [addFormula] at h
  obtain ⟨⟨cs, n2⟩, h1, h2⟩ := bindO_ok h
  simp only at h2
  rw [addClauses_abs h2]
  obtain ⟨q, hq, -, hat⟩ := tseitin_atoms (fun _ => tsQ_no) h1 hf
  exact absVisitList_noAll cs _ (fun c hc => ForAtoms.mono (fun _ _ _ h => h) (fun _ _ => trivial)
    (fun _ _ h => h) c (hat c hc)) hs

theorem learnedLits_noAll : ∀ {fs : List Fml} {s : SatState} {r : List Int × SatState},
    (∀ f ∈ fs, QF f) → NoAll s.abs.table → learnedLits s fs = .ok r → NoAll r.2.abs.table
  | [], s, r, _, hs, h => by
    simp only [learnedLits, Outcome.ok.injEq] at h; subst h; exact hs
  | f :: fs, s, r, hf, hs, h => by
    simp only [learnedLits] at h
    obtain ⟨l, h1, h⟩ := bindO_ok h
    obtain ⟨⟨ls, s2⟩, h2, h⟩ := bindO_ok h
    simp only [Outcome.ok.injEq] at h; subst h
    exact learnedLits_noAll (fs := fs) (r := (ls, s2)) (fun g hg => hf g (by simp [hg]))
      (absVisit_noAll f s.abs (hf f (by simp)) hs) h2

theorem addLearned_noAll {s s' fs} (hf : ∀ f ∈ fs, QF f) (hs : NoAll s.abs.table)
    (h : addLearned s fs = .ok s') : NoAll s'.abs.table := by
  simp only [addLearned] at h
  obtain ⟨⟨ls, s2⟩, h1, h⟩ := bindO_ok h
  simp only [Outcome.ok.injEq] at h
  rw [← h]; exact learnedLits_noAll hf hs h1

theorem theoryLits_qf {s ps fs} (ht : TabInv s.abs) (hs : NoAll s.abs.table)
    (h : theoryLits s ps = .ok fs) : ∀ f ∈ fs, QF f := by
  intro f hf
  obtain ⟨v, b, a, -, h2, rfl⟩ := (theoryLits_mem h).1 f hf
  have := qf_of (ht.simple _ h2) (hs _ h2)
  cases b
  · exact ForAtoms.notF this
  · exact this

/-! ### The local box of the loop -/

/-- The numerical values of the point are in the box. -/
def LoopIn (b : Box) (ρ : Valuation) : Prop :=
  ∃ ρp : Valuation, InBox ρp b ∧ TypedOn ρp b.vars ∧ ∀ v : Variable, v.type ≠ .boolean → ρp v = ρ v

theorem loopIn_self {b ρ} (h1 : InBox ρ b) (h2 : TypedOn ρ b.vars) : LoopIn b ρ :=
  ⟨ρ, h1, h2, fun _ _ => rfl⟩

theorem inItv_point0 (q : ℚ) : InItv (q : ℝ) (Itv.point q) := by
  simp [InItv, below, above, Itv.point]

theorem loopIn_setV {b : Box} {ρ v} (wf : BoxWf b) (hv : v ∈ b.vars) (ht : v.type = .boolean)
    (x : Bool) (h : LoopIn b ρ) : LoopIn (b.setV v (Itv.point (if x then 1 else 0))) ρ := by
  obtain ⟨ρp, h1, h2, h3⟩ := h
  have hi := (index_of_mem hv).2
  have hl : b.index v < b.vals.length := by rw [wf.1]; exact lt_of_getElem? hi
  have hvars : (b.setV v (Itv.point (if x then 1 else 0))).vars = b.vars := rfl
  refine ⟨fun w => if w = v then (if x then 1 else 0) else ρp w, ⟨h1.1, fun i w hw => ?_⟩,
    fun w hw => ?_, fun w hw => ?_⟩
  · rw [hvars] at hw
    show InItv _ ((b.set (b.index v) _).get i)
    by_cases hwv : w = v
    · subst hwv
      have : i = b.index w := by
        exact (List.getElem?_inj (lt_of_getElem? hw) wf.2).mp (by rw [hw, hi])
      subst this
      rw [get_set_self hl]
      have := inItv_point0 (if x then 1 else 0)
      cases x <;> simpa using this
    · have hne : b.index v ≠ i := by
        rintro rfl
        rw [hi] at hw; cases hw; exact hwv rfl
      rw [get_set_ne hne]
      simp only [if_neg hwv]
      exact h1.2 i w hw
  · simp only
    split
    · rename_i he
      rw [he, ht]
      cases x <;> simp [typeOk]
    · exact h2 w hw
  · simp only
    rw [if_neg (by rintro rfl; exact hw ht)]
    exact h3 w hw

theorem loopIn_writeBools {vs ρ} : ∀ {ps : List (Variable × Bool)} {b : Box}, Shape vs b →
    (∀ v x, (v, x) ∈ ps → v.type = .boolean ∧ v ∈ vs) → LoopIn b ρ → LoopIn (writeBools b ps) ρ
  | [], _, _, _, h => h
  | p :: ps, b, hs, hp, h => by
    simp only [writeBools]
    obtain ⟨h1, h2⟩ := hp p.1 p.2 (by simp)
    refine loopIn_writeBools (shape_setV hs _ _) (fun v x hm => hp v x (by simp [hm])) ?_
    exact loopIn_setV hs.2 (by rw [hs.1]; exact h2) h1 p.2 h

/-! ### The loop -/

theorem checkLoop_inv {cfg : CCfg} {vs : List Variable} {H A} (hd : DblOk cfg.th.dbl)
    (hp : PicosatOk cfg.ps) (hn : vs.Nodup)
    (hH : ∀ (i : Nat) v, vs[i]? = some v → H v = some i) (hA : ∀ ws, A ws → ws = vs) {D I} (he : EnvOk D I cfg.env) :
    ∀ {n box s cache tick o s' cache' tick'},
    checkLoop cfg n box s cache tick = .ok (o, s', cache', tick') →
    Shape vs box → SatStr vs s → (∀ v ∈ vs, v.id < s.abs.next) → CacheInv H A cache →
    (A vs ∨ NoAll s.abs.table) →
    SatStr vs s' ∧ TabExt s.abs s'.abs ∧ s'.maxVar = s.maxVar ∧ CacheInv H A cache' ∧
    (NoAll s.abs.table → NoAll s'.abs.table) ∧
    (∀ ρ, LoopIn box ρ → SatWit D I cfg.th.dbl s ρ → SatWit D I cfg.th.dbl s' ρ) ∧
    (o = none → ∀ ρ, LoopIn box ρ → ¬ SatWit D I cfg.th.dbl s ρ)
  | 0, _, _, _, _, _, _, _, _, h, _, _, _, _, _ => by simp [checkLoop] at h
  | n + 1, box, s, cache, tick, o, s', cache', tick', h, hs, hst, hv, hc, hall => by
    simp only [checkLoop] at h
    obtain ⟨⟨sm, s1⟩, h1, h2⟩ := bindR_ok h
    have h1 := lift_ok h1
    cases sm with
    | none =>
      simp only [Run.ok.injEq, Prod.mk.injEq] at h2
      obtain ⟨rfl, rfl, rfl, rfl⟩ := h2
      obtain ⟨e, hno⟩ := satCheck_none hp h1
      subst e
      exact ⟨satStr_calls hst, .refl _, rfl, hc, fun h => h, fun ρ _ hw => satWit_calls hw,
        fun _ ρ _ => hno D I _ ρ⟩
    | some m =>
      obtain ⟨e, hbool, hth⟩ := satCheck_some hst h1
      have hw := writeBools_shape (ps := m.bool) hs
      have hst1 : SatStr vs s1 := by rw [e]; exact satStr_calls hst
      have hwit1 : ∀ ρ, SatWit D I cfg.th.dbl s ρ → SatWit D I cfg.th.dbl s1 ρ := by
        intro ρ hw; rw [e]; exact satWit_calls hw
      have ha1 : s1.abs = s.abs := by rw [e]
      have hm1 : s1.maxVar = s.maxVar := by rw [e]
      simp only at h2
      split at h2
      · simp only [Run.ok.injEq, Prod.mk.injEq] at h2
        obtain ⟨rfl, rfl, rfl, rfl⟩ := h2
        exact ⟨hst1, by rw [ha1]; exact .refl _, hm1, hc, by rw [ha1]; exact fun h => h,
          fun ρ _ hw => hwit1 ρ hw, by simp⟩
      · obtain ⟨fs, h3, h4⟩ := bindR_ok h2
        have hfs := hth fs (lift_ok h3)
        obtain ⟨⟨t, c', tk⟩, h5, h6⟩ := bindR_ok h4
        have hqf : NoAll s.abs.table → ∀ f ∈ fs, QF f := fun hno =>
          theoryLits_qf hst1.tab (by rw [ha1]; exact hno) (lift_ok h3)
        have hc' := theoryCheck_cacheInv hw hn hH (fun f hf => (hfs f hf).1) (A := A)
          (fun f hf ha => hall.elim id fun hno => by
            rw [qf_notAll (hqf hno f hf)] at ha; cases ha) hc h5
        cases t with
        | sat b =>
          simp only [Run.ok.injEq, Prod.mk.injEq] at h6
          obtain ⟨rfl, rfl, rfl, rfl⟩ := h6
          exact ⟨hst1, by rw [ha1]; exact .refl _, hm1, hc', by rw [ha1]; exact fun h => h,
            fun ρ _ hw => hwit1 ρ hw, by simp⟩
        | unsat E =>
          simp only at h6
          obtain ⟨s2, h7, h8⟩ := bindR_ok h6
          have hlits : LitsOk fs (writeBools box m.bool).vars := by
            refine ⟨fun f hf => wfF_rc f (hfs f hf).1.wf, fun f hf v hv' => ?_⟩
            rw [hw.1]
            exact (AtomF.fv f (hfs f hf).1 v hv').2
          obtain ⟨hE, hconf⟩ := theoryCheck_unsat he hd hw.2 hlits
            (by rw [hw.1]; exact hc.ok hH hA) h5
          have hv1 : ∀ v ∈ vs, v.id < s1.abs.next := by rw [ha1]; exact hv
          obtain ⟨k1, k2, k3, k4⟩ := addLearned_str hst1 hv1 (fun f hf => (hfs f (hE f hf)).1)
            (lift_ok h7)
          have hkeep : ∀ ρ, LoopIn box ρ → SatWit D I cfg.th.dbl s ρ →
              SatWit D I cfg.th.dbl s2 ρ := by
            intro ρ hin hwit
            refine k4 D I _ ρ (hwit1 ρ hwit) (fun hall => ?_)
            obtain ⟨ρp, g1, g2, g3⟩ := loopIn_writeBools hs hbool hin
            have hag : ∀ f ∈ E, ∀ v ∈ f.fv, ρp v = ρ v := fun f hf v hv' =>
              g3 v (AtomF.fv f (hfs f (hE f hf)).1 v hv').1
            have hreg : ∀ f ∈ E, RegF D I cfg.th.dbl ρp f := fun f hf =>
              regF_congr f (hag f hf) ((hfs f (hE f hf)).2 D I _ ρ hwit)
            exact hconf ρp g1 g2 (fun f hf => regF_def f (hreg f hf))
              (fun f hf => regF_noGap (hreg f hf))
              (fun f hf => (holds_congr I f _ _ (hag f hf)).mpr (hall f hf))
          have hno2 : NoAll s.abs.table → NoAll s2.abs.table := fun hno =>
            addLearned_noAll (fun f hf => hqf hno f (hE f hf)) (by rw [ha1]; exact hno) (lift_ok h7)
          obtain ⟨i1, i2, i3, i4, i7, i5, i6⟩ := checkLoop_inv hd hp hn hH hA he h8 hw k1
            (fun v hv' => lt_of_lt_of_le (hv1 v hv') k2.le) hc' (hall.imp id hno2)
          have hin' : ∀ ρ, LoopIn box ρ → LoopIn (writeBools box m.bool) ρ := fun ρ h =>
            loopIn_writeBools hs hbool h
          exact ⟨i1, by rw [← ha1]; exact k2.trans i2, i3.trans (k3.trans hm1), i4, fun h => i7 (hno2 h),
            fun ρ h1 h2 => i5 ρ (hin' ρ h1) (hkeep ρ h1 h2),
            fun ho ρ h1 h2 => i6 ho ρ (hin' ρ h1) (hkeep ρ h1 h2)⟩

end Verif.Proof
