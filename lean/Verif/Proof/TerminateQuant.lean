import Verif.Proof.TerminateCheck

/-!
# A check of quantified assertions ends: lemmas

SAT variables and names correspond after every history of calls.
-/

namespace Verif.Proof
open Verif Verif.Model Verif.Spec

variable {G : Finset EQ}

/-! ## Names of SAT variables -/

theorem addFormula_satd {vs s f s'} {B : Variable → Prop}
    (hs : SatStr vs s) (hd : SatD s) (hv : ∀ v ∈ vs, v.id < s.abs.next)
    (hB : ∀ v, B v → v.type = .boolean ∧ v ∈ vs ∧ v ∉ s.abs.table.map Prod.fst)
    (hf : ForAtoms (AtomP (· ∈ vs)) B (QB (WfQ (· ∈ vs))) f) (h : addFormula s f = .ok s') :
    SatD s' := by
  simp only [addFormula] at h
  obtain ⟨⟨cs, n2⟩, h1, h2⟩ := bindO_ok h
  simp only at h2
  have hflt : ∀ v ∈ f.fv, v.id < s.abs.next := ForAtoms.fv_lt (fun v h => hv v h)
    (fun v h => hv v (hB v h).2.1) hf
  obtain ⟨q, hq, hn2, hat⟩ := tseitin_atoms (fun _ => tsQ_body wfQ_ok) h1 hf
  simp only at hn2 hat
  have hle : s.abs.next ≤ n2 := tseitin_next h1
  obtain ⟨m, hm, hmap, -⟩ := tsVisit_spec ⟨fun _ _ => 0, fun _ _ _ => 0⟩ f _ q.1 q.2 hq
  simp only [List.nil_append] at hm
  have hts := (hmap (fun v => v ∈ f.fv) (fun v hv => hv) hflt).1
  have hkeys : ∀ v, v ∈ q.2.map.map Prod.fst →
      v.type = .boolean ∧ s.abs.next ≤ v.id ∧ v.id < n2 := by
    intro v hk
    obtain ⟨p, hp, rfl⟩ := List.mem_map.mp hk
    refine ⟨tsVisit_bool f hq (by simp) p hp, ?_⟩
    rw [hn2]
    rw [hm] at hp
    exact hts.ids p hp
  set B' : Variable → Prop := fun v => B v ∨ v ∈ q.2.map.map Prod.fst with hB'
  set a0 : AbsState := { s.abs with next := n2 } with ha0
  set a := absVisitList cs a0 with ha
  have hi0 : AbsInv a0 := ⟨hs.tab.abs.boolean, fun p hp => lt_of_lt_of_le (hs.tab.abs.lt p hp) hle,
    hs.tab.abs.sorted, hs.tab.abs.nodup, hs.tab.abs.fv⟩
  have hclt : ∀ c ∈ cs, ∀ v ∈ c.fv, v.id < a0.next := fun c hc =>
    ForAtoms.fv_lt (fun v h => lt_of_lt_of_le (hv v h) hle) (fun v h => by
      rcases h with h | h
      · exact lt_of_lt_of_le (hv v (hB v h).2.1) hle
      · exact (hkeys v h).2.2) (hat c hc)
  obtain ⟨s1, s2, s3, s4, s5⟩ := absVisitList_spec cs a0 hi0 hclt
  obtain ⟨x1, x2⟩ := absVisitList_ext cs a0 hs.tab.simple
  have e : TabExt s.abs a.2 := ⟨hle.trans x1.le, x1.pre, fun p hp => by
    rcases x1.new p hp with h | h
    · exact .inl h
    · exact .inr (hle.trans h)⟩
  have hout : ∀ v, B' v → ∀ b, (v, b) ∉ a.2.table := by
    intro v hv' b hb
    rcases x1.new _ hb with h | h
    · rcases hv' with hv' | hv'
      · exact (hB v hv').2.2 (List.mem_map_of_mem (f := Prod.fst) h)
      · have := hs.tab.abs.lt _ h
        have := (hkeys v hv').2.1
        simp only at *; omega
    · simp only [ha0] at h
      rcases hv' with hv' | hv'
      · have := hv v (hB v hv').2.1; omega
      · have := (hkeys v hv').2.2; omega
  have hnegP : ∀ (op : RelOp) (a b : Expr), AtomP (· ∈ vs) op a b → AtomP (· ∈ vs) op.neg a b :=
    fun _ _ _ h => h
  obtain ⟨-, hnam⟩ := absVisitList_named hnegP cs a0 hat
  set ts' := (tseitinKeys s.abs.next f).foldl ScopedSet.insert s.tseitinVars with hts'
  have htm : ∀ i, s.tseitinVars.set i = true → ts'.set i = true :=
    fun i hi => inserts_mem _ _ _ (.inr hi)
  have hs1 := satStr_abs hs e ⟨s1, x2⟩ htm
  have hvok : ∀ g ∈ a.1, ∀ v ∈ g.fv, VarOk vs { s with abs := a.2, tseitinVars := ts' } v := by
    intro g hg v hv'
    rcases (hnam g hg).fv v hv' with hb | ⟨b, hb, hb2⟩
    · refine ⟨?_, ?_, ?_, fun b hb' => absurd hb' (hout v hb b)⟩
      · rcases hb with hb | hb
        exacts [(hB v hb).1, (hkeys v hb).1]
      · refine lt_of_lt_of_le (b := n2) ?_ x1.le
        rcases hb with hb | hb
        exacts [lt_of_lt_of_le (hv v (hB v hb).2.1) hle, (hkeys v hb).2.2]
      · rcases hb with hb | hb
        · exact .inr (.inr (hB v hb).2.1)
        · refine .inr (.inl (inserts_mem _ _ _ (.inl ?_)))
          unfold tseitinKeys
          rw [hq]
          obtain ⟨p, hp, rfl⟩ := List.mem_map.mp hb
          exact List.mem_map_of_mem (f := fun p : Variable × Fml => p.1.id) hp
    · refine ⟨s1.boolean _ hb, s1.lt _ hb, .inl ⟨b, hb⟩, fun b' hb' => ?_⟩
      rw [table_fun s1 hb' hb]
      exact simple_atomF (x2 _ hb) hb2
  obtain ⟨y1, y2, y3, y4, -⟩ := addClauses_str hs1 hvok h2
  exact (addClauses_bool hs1 ⟨hd.inv, hd.lsym⟩ hvok h2).1

theorem learnedLits_satd {vs} : ∀ {fs : List Fml} {s : SatState} {r : List Int × SatState},
    SatStr vs s → (∀ v ∈ vs, v.id < s.abs.next) → (∀ f ∈ fs, AtomF (· ∈ vs) f) →
    learnedLits s fs = .ok r → ∀ l ∈ r.1, ∃ v, s.toSym.map l.natAbs = some v
  | [], s, r, _, _, _, h => by
    simp only [learnedLits, Outcome.ok.injEq] at h; subst h
    simp
  | f :: fs, s, r, hs, hv, hf, h => by
    simp only [learnedLits] at h
    obtain ⟨l, h1, h⟩ := bindO_ok h
    obtain ⟨⟨ls, s2⟩, h2, h⟩ := bindO_ok h
    simp only [Outcome.ok.injEq] at h; subst h
    have haf := hf f (by simp)
    have hflt : ∀ v ∈ f.fv, v.id < s.abs.next := fun v h => hv v (AtomF.fv f haf v h).2
    have hsp : AbsSpec f s.abs (absConvert f s.abs).1 (absConvert f s.abs).2 :=
      absVisit_spec f s.abs hs.tab.abs hflt
    obtain ⟨e1, e2⟩ : TabExt s.abs (absConvert f s.abs).2 ∧ _ := absVisit_ext f s.abs hs.tab.simple
    have hs1 := satStr_abs (ts := s.tseitinVars) hs e1 ⟨hsp.inv, e2⟩ (fun _ h => h)
    have ih := learnedLits_satd (fs := fs) hs1
      (fun v h => lt_of_lt_of_le (hv v h) e1.le) (fun g hg => hf g (by simp [hg])) h2
    intro x hx
    rcases List.mem_cons.mp hx with rfl | hx
    · exact (satLit_bool hs1 h1).1
    · exact ih x hx

theorem addLearned_satd {vs s s' fs} (hs : SatStr vs s) (hd : SatD s)
    (hv : ∀ v ∈ vs, v.id < s.abs.next)
    (hf : ∀ f ∈ fs, AtomF (· ∈ vs) f) (h : addLearned s fs = .ok s') : SatD s' := by
  simp only [addLearned] at h
  obtain ⟨⟨ls, s2⟩, h1, h⟩ := bindO_ok h
  simp only [Outcome.ok.injEq] at h
  obtain ⟨a1, -⟩ := learnedLits_str hs hv hf h1
  have a2 := learnedLits_satd hs hv hf h1
  simp only at a1 a2 h
  rw [a1] at h
  subst h
  refine ⟨hd.inv, fun c hc l hl => ?_⟩
  rcases List.mem_append.mp hc with hc | hc
  · exact hd.lsym c hc l hl
  · simp only [List.mem_singleton] at hc; subst hc; exact a2 l hl

theorem checkLoop_satd {cfg : CCfg} {vs : List Variable} {H A} (hd : DblOk cfg.th.dbl)
    (hn : vs.Nodup)
    (hH : ∀ (i : Nat) v, vs[i]? = some v → H v = some i) (hA : ∀ ws, A ws → ws = vs) {D I}
    (he : EnvOk D I cfg.env) :
    ∀ {n box s cache tick o s' cache' tick'},
    checkLoop cfg n box s cache tick = .ok (o, s', cache', tick') →
    Shape vs box → SatStr vs s → SatD s → (∀ v ∈ vs, v.id < s.abs.next) → CacheInv H A cache →
    (A vs ∨ NoAll s.abs.table) → SatD s'
  | 0, _, _, _, _, _, _, _, _, h, _, _, _, _, _, _ => by simp [checkLoop] at h
  | n + 1, box, s, cache, tick, o, s', cache', tick', h, hs, hst, hsd, hv, hc, hall => by
    simp only [checkLoop] at h
    obtain ⟨⟨sm, s1⟩, h1, h2⟩ := bindR_ok h
    have h1 := lift_ok h1
    cases sm with
    | none =>
      simp only [Run.ok.injEq, Prod.mk.injEq] at h2
      obtain ⟨rfl, rfl, rfl, rfl⟩ := h2
      unfold satCheck at h1
      dsimp only at h1
      split at h1
      · cases h1
      · cases h1; exact ⟨hsd.inv, hsd.lsym⟩
      · cases h1
    | some m =>
      obtain ⟨e, hbool, hth⟩ := satCheck_some hst h1
      have hw := writeBools_shape (ps := m.bool) hs
      have hst1 : SatStr vs s1 := by rw [e]; exact satStr_calls hst
      have hsd1 : SatD s1 := by rw [e]; exact ⟨hsd.inv, hsd.lsym⟩
      have ha1 : s1.abs = s.abs := by rw [e]
      simp only at h2
      split at h2
      · simp only [Run.ok.injEq, Prod.mk.injEq] at h2
        obtain ⟨rfl, rfl, rfl, rfl⟩ := h2
        exact hsd1
      · obtain ⟨fs, h3, h4⟩ := bindR_ok h2
        have hfs := hth fs (lift_ok h3)
        obtain ⟨⟨t, c', tk⟩, h5, h6⟩ := bindR_ok h4
        have hqf : NoAll s.abs.table → ∀ f ∈ fs, QF f := fun hno =>
          theoryLits_qf hst1.tab (by rw [ha1]; exact hno) (lift_ok h3)
        have hc' := theoryCheck_cacheInv hw hn hH (fun f hf => (hfs f hf).1) (A := A)
          (fun f hf ha => hall.elim id fun hno => by
            rw [qf_notAll (hqf hno f hf)] at ha; cases ha) hc h5
        cases t with
        | sat b =>
          simp only [Run.ok.injEq, Prod.mk.injEq] at h6
          obtain ⟨rfl, rfl, rfl, rfl⟩ := h6
          exact hsd1
        | unsat E =>
          simp only at h6
          obtain ⟨s2, h7, h8⟩ := bindR_ok h6
          have hlits : LitsOk fs (writeBools box m.bool).vars := by
            refine ⟨fun f hf => wfF_rc f (hfs f hf).1.wf, fun f hf v hv' => ?_⟩
            rw [hw.1]
            exact (AtomF.fv f (hfs f hf).1 v hv').2
          obtain ⟨hE, -⟩ := theoryCheck_unsat he hd hw.2 hlits
            (by rw [hw.1]; exact hc.ok hH hA) h5
          have hv1 : ∀ v ∈ vs, v.id < s1.abs.next := by rw [ha1]; exact hv
          obtain ⟨k1, k2, -⟩ := addLearned_str hst1 hv1 (fun f hf => (hfs f (hE f hf)).1)
            (lift_ok h7)
          have kd := addLearned_satd hst1 hsd1 hv1 (fun f hf => (hfs f (hE f hf)).1) (lift_ok h7)
          have hno2 : NoAll s.abs.table → NoAll s2.abs.table := fun hno =>
            addLearned_noAll (fun f hf => hqf hno f (hE f hf)) (by rw [ha1]; exact hno) (lift_ok h7)
          exact checkLoop_satd hd hn hH hA he h8 hw k1 kd
            (fun v hv' => lt_of_lt_of_le (hv1 v hv') k2.le) hc' (hall.imp id hno2)

/-! ## The scopes -/

/-- In each of the open scopes names and SAT variables correspond. -/
def AllS : Ctx → List Problem → Prop
  | _, [] => True
  | c, _ :: Ps => SatD c.sat ∧ ∀ p, PopsTo c p → AllS (withPart c p) Ps

theorem AllS.grow : ∀ {Ps c c'}, AllS c Ps → problemPart c' = problemPart c → AllS c' Ps
  | [], _, _, _, _ => trivial
  | P :: Ps, c, c', h, hp => by
    have hp' := hp
    unfold problemPart at hp'
    simp only [ProblemPart.mk.injEq] at hp'
    obtain ⟨p1, p2, p3, p4, p5, p6⟩ := hp'
    refine ⟨⟨by rw [p3, p4]; exact h.1.inv, by rw [p4, p6]; exact h.1.lsym⟩, fun p hpp => ?_⟩
    exact AllS.grow (h.2 p (PopsTo.of_part hp.symm hpp)) rfl

theorem AllS.flat {c c' P P' Ps} (h : AllS c (P :: Ps)) (e : CtxExt c c') (h' : SatD c'.sat) :
    AllS c' (P' :: Ps) :=
  ⟨h', fun p hp => (h.2 p (CtxExt.pops' e hp)).grow (c' := withPart c' p) rfl⟩

section
variable {D : Dom} {I : Interp}

theorem ks_assert {cfg : CCfg} {k H c f c'} (hd : DblOk cfg.th.dbl)
    (h : KInv D I cfg.th.dbl k H c) (hsd : SatD c.sat)
    (hu : k.Uses c.sat.abs.next (.assert f)) (hs : assertF cfg c f = .ok c') : SatD c'.sat := by
  obtain ⟨P, Ps, hk, ht, hl, hall⟩ := h.cons
  obtain ⟨hu, hold, hbi⟩ := hu
  have hu : WfF P.Declared f := by rw [← ht]; exact hu
  have hvb : ∀ v ∈ f.fv, v ∈ c.box.vars := fun v hv => (hl.dom v (wfF_fv f hu v hv)).1
  unfold assertF at hs
  split at hs
  · simp only [Outcome.ok.injEq] at hs
    rw [← hs]; exact hsd
  split at hs
  · simp only [Outcome.ok.injEq] at hs
    rw [← hs]; exact hsd
  split at hs
  · simp only [Outcome.ok.injEq] at hs
    rw [← hs]; exact hsd
  obtain ⟨⟨res, bf⟩, h1, h2⟩ := bindO_ok hs
  obtain ⟨f1, f2, -⟩ := filter_spec (I := I) hd hl.wf hvb (wfF_rc f hu) h1
  set b1 : Box := if bf.bot then wipeBox cfg bf else bf with hb1
  have hb1s : Shape c.box.vars b1 := by
    rw [hb1]; split
    · exact wipe_shape ⟨f1, f2⟩
    · exact ⟨f1, f2⟩
  cases res with
  | withChange => simp only [Outcome.ok.injEq] at h2; rw [← h2]; exact hsd
  | withoutChange => simp only [Outcome.ok.injEq] at h2; rw [← h2]; exact hsd
  | notFiltered =>
  simp only at h2
  obtain ⟨s2, h3, h4⟩ := bindO_ok h2
  simp only [Outcome.ok.injEq] at h4
  set n0 := c.sat.abs.next with hn0
  have hsp := iteF_spec n0 f .tt { next := n0 } hold le_rfl
  obtain ⟨q1, q2, q3, q4, -⟩ := ProcSpec.of hsp le_rfl hold
  obtain ⟨kw, kr⟩ := ProcKeep.of hsp le_rfl hold
  set r := iteF f .tt { next := n0 } with hr
  have hproc : iteProcess (c.setBox b1).sat.abs.next f =
      (iteResult f r.1 r.2.added, r.2.vars, r.2.next) := rfl
  rw [hproc] at h3 h4
  simp only at h3 h4
  set g := iteResult f r.1 r.2.added with hg
  set n1 := r.2.next with hn1
  set b2 := r.2.vars.foldl addToBox b1 with hb2
  have hb2mem : ∀ w, w ∈ b2.vars ↔ w ∈ c.box.vars ∨ w ∈ r.2.vars := by
    intro w; rw [hb2, addAll_mem, hb1s.1]
  set s1 : SatState := { c.sat with abs := { c.sat.abs with next := n1 } } with hs1
  have hstr1 : SatStr b2.vars s1 := by
    have := satStr_abs (ts := c.sat.tseitinVars) hl.str (tabExt_next q1) (tabInv_next h.tab q1)
      (fun _ h => h)
    exact satStr_vars (fun v hv => (hb2mem v).mpr (.inl hv)) this
  have hlt : ∀ v ∈ b2.vars, v.id < s1.abs.next := by
    intro v hv
    rcases (hb2mem v).mp hv with hv | hv
    · exact lt_of_lt_of_le (hl.kinds v hv).1 q1
    · exact (q2 v hv).2.1
  have hntab : ∀ v ∈ b2.vars, v ∉ c.sat.abs.table.map Prod.fst := by
    intro v hv hk'
    obtain ⟨p, hp, rfl⟩ := List.mem_map.mp hk'
    have hb := h.tab.abs.boolean p hp
    rcases (hb2mem _).mp hv with hv | hv
    · rcases (hl.kinds _ hv).2 with hdc | hdc
      · exact (h.made _ (hl.dom _ hdc).2).2 (List.mem_map_of_mem hp)
      · rw [hb] at hdc; cases hdc.2
    · have := (q2 _ hv).2.2; rw [hb] at this; cases this
  have hwfg : WfF (· ∈ b2.vars) g := kw _ (fun v hv => (hb2mem v).mpr (.inr hv))
    (wfF_mono (fun v hv => (hb2mem v).mpr (.inl (hl.dom v hv).1)) f hu)
  have hatg : ForAtoms (AtomP (· ∈ b2.vars)) (fun v => v.type = .boolean ∧ v ∈ b2.vars)
      (QB (WfQ (· ∈ b2.vars))) g :=
    wf_atoms hwfg q4 (fun v h1 h2 => ⟨h1, h2⟩)
  have := addFormula_satd hstr1 ⟨hsd.inv, hsd.lsym⟩ hlt
    (fun v hv => ⟨hv.1, hv.2, hntab v hv.2⟩) hatg h3
  rw [← h4]; exact this

theorem ks_check {cfg : CCfg} {k H c o c'} (hd : DblOk cfg.th.dbl)
    (he : EnvOk D I cfg.env) (h : KInv D I cfg.th.dbl k H c) (hsd : SatD c.sat)
    (hs : checkSat cfg c = .ok (o, c')) : SatD c'.sat := by
  obtain ⟨P, Ps, hk, ht, hl, hall⟩ := h.cons
  simp only [checkSat] at hs
  obtain ⟨⟨o1, s1, cache1, t1⟩, h1, h2⟩ := bindR_ok hs
  have g1 : c'.sat = s1 := by
    cases o1 with
    | none =>
      simp only [Run.ok.injEq, Prod.mk.injEq] at h2
      rw [← h2.2]
    | some b =>
      simp only at h2
      obtain ⟨t, -, h2⟩ := bindR_ok h2
      obtain ⟨m, -, h2⟩ := bindR_ok h2
      simp only [Run.ok.injEq, Prod.mk.injEq] at h2
      rw [← h2.2]
  have hcache : CacheInv H (fun ws => (k.built ∨ k.quant) ∧ ws = c.box.vars) c.cache :=
    h.cache.mono (fun _ _ h => h) (fun ws hw => ⟨.inl hw.1, hw.2⟩)
  rw [g1]
  unfold checkCore at h1
  split at h1
  · cases h1; exact hsd
  split at h1
  · cases h1; exact hsd
  split at h1
  · cases h1; exact hsd
  · have hA : ((k.built ∨ k.quant) ∧ c.box.vars = c.box.vars) ∨ NoAll c.sat.abs.table := by
      by_cases hq : k.quant
      · exact .inl ⟨.inr hq, rfl⟩
      · exact .inr (h.plain hq)
    exact checkLoop_satd hd hl.wf.2 hl.pos (fun _ h => h.2) he h1
      ⟨rfl, hl.wf⟩ hl.str hsd (fun v hv => (hl.kinds v hv).1) hcache hA

/-- After every history of calls SAT variables and names correspond. -/
theorem ks_poses {cfg : CCfg} (hd : DblOk cfg.th.dbl) (hp : PicosatOk cfg.ps)
    (he : EnvOk D I cfg.env) {k c} (h : Poses cfg k c) : AllS c k.levels := by
  induction h with
  | init next made hm => exact ⟨⟨by simp [Ctx.init], by simp [Ctx.init]⟩, fun p hp => trivial⟩
  | @step k c cmd a c' hprev hu hs ih =>
    obtain ⟨H, hKI⟩ := kinv_poses hd hp he hprev
    obtain ⟨P, Ps, hk, ht, hl, -⟩ := hKI.cons
    rw [hk] at ih
    cases cmd with
    | newVar t =>
      simp only [stepCmd, Run.ok.injEq, Prod.mk.injEq] at hs
      show AllS _ k.levels
      rw [← hs.2, hk]
      exact ih.grow rfl
    | declare v m =>
      simp only [stepCmd, Run.ok.injEq, Prod.mk.injEq] at hs
      have hsat : (declare c v m).sat = c.sat := by unfold declare; simp only; split <;> rfl
      show AllS _ (k.setTop { k.top with dom := _ }).levels
      rw [levels_setTop hk, ← hs.2]
      exact ih.flat (ctxExt_declare hKI.wf v m) (by rw [hsat]; exact ih.1)
    | setInterval v lb ub =>
      simp only [stepCmd] at hs
      obtain ⟨c1, h1, h2⟩ := bindR_ok hs
      simp only [Run.ok.injEq, Prod.mk.injEq] at h2
      show AllS _ (k.setTop { k.top with dom := _ }).levels
      rw [levels_setTop hk, ← h2.2]
      refine ih.flat (ctxExt_setInterval hKI.wf (lift_ok h1)) ?_
      have h1 := lift_ok h1
      unfold setInterval at h1
      split at h1
      · cases h1; exact ih.1
      · cases h1
    | assert f =>
      simp only [stepCmd] at hs
      obtain ⟨c1, h1, h2⟩ := bindR_ok hs
      simp only [Run.ok.injEq, Prod.mk.injEq] at h2
      show AllS _ (k.setTop { k.top with asserted := _ }).levels
      rw [levels_setTop hk, ← h2.2]
      exact ih.flat (ctxExt_assertF hKI.wf (lift_ok h1)) (ks_assert hd hKI ih.1 hu (lift_ok h1))
    | check =>
      simp only [stepCmd] at hs
      obtain ⟨c1, h1, h2⟩ := bindR_ok hs
      simp only [Run.ok.injEq, Prod.mk.injEq] at h2
      show AllS _ k.levels
      rw [← h2.2, hk]
      exact ih.flat (ctxExt_checkSat hKI.wf h1) (ks_check hd he hKI ih.1 h1)
    | push =>
      simp only [stepCmd, Run.ok.injEq, Prod.mk.injEq] at hs
      rw [← hs.2]
      show AllS _ (k.top :: k.levels)
      refine ⟨⟨ih.1.inv, ih.1.lsym⟩, fun p hp => ?_⟩
      have := hp.unique (popsTo_push hKI.wf)
      subst this
      rw [hk]
      exact ih.grow (c' := withPart (ctxPush c) (problemPart c)) rfl
    | pop =>
      simp only [stepCmd] at hs
      obtain ⟨c1, h1, h2⟩ := bindR_ok hs
      simp only [Run.ok.injEq, Prod.mk.injEq] at h2
      rw [← h2.2]
      have hp := popsTo_of_pop (lift_ok h1)
      show AllS _ k.levels.tail
      rw [hk]
      exact (ih.2 _ hp).grow (c' := c1) rfl

end

/-! ## The check -/

theorem checkSat_ends_all {D I} {cfg : CCfg} (hd : DblOk cfg.th.dbl)
    (hp : PicosatOk cfg.ps) (he : EnvOk D I cfg.env)
    (hG : GridOps G cfg.env.ib) (hbr : BranchGrid G cfg.env.brancher)
    (h0 : EQ.fin 0 ∈ G) (h1 : EQ.fin 1 ∈ G) {k : Books} {c : Ctx}
    (hev : EvalEnds G cfg.env c.box.vars (c.sat.abs.table.map (·.2)))
    (hj : ParTurns G cfg.env cfg.th c.box.vars.length)
    (hk : Poses cfg k c) (hb : Bounded G c.box) (hz : IntsSized c.box)
    (hat : ∀ p ∈ c.sat.abs.table, p.2 ≠ .tt ∧ p.2 ≠ .ff)
    (hlg : ∀ p ∈ c.sat.abs.table, ∀ b : Bool, LitGrid G cfg.th.dbl (if b then p.2 else notF p.2))
    (hq : (∃ p ∈ c.sat.abs.table, p.2.isAll = true) →
      ∀ p ∈ c.sat.abs.table, ∀ b : Bool, ¬ IntStrict (if b then p.2 else notF p.2))
    (hpr : pruneBound G c.box.vars.length (c.sat.maxVar + 2) ≤ cfg.env.fuel)
    (hs : searchBound G c.box.vars.length ≤ cfg.th.fuel)
    (hr : 3 ^ (c.sat.maxVar + 1) < cfg.rounds) : checkSat cfg c ≠ .oof := by
  obtain ⟨H, hKI⟩ := kinv_poses hd hp he hk
  have hks := ks_poses hd hp he hk
  obtain ⟨P, Ps, hk1, _, hl, -⟩ := hKI.cons
  rw [hk1] at hks
  obtain ⟨A, hA, hcache, hatm⟩ : ∃ A : List Variable → Prop, (∀ ws, A ws → ws = c.box.vars) ∧
      CacheInv H A c.cache ∧ ∀ p ∈ c.sat.abs.table, Atm (A c.box.vars) p.2 := by
    refine ⟨fun ws => (k.built ∨ k.quant) ∧ ws = c.box.vars, fun _ h => h.2,
      hKI.cache.mono (fun _ _ h => h) (fun ws hw => ⟨.inl hw.1, hw.2⟩), fun p hp => ?_⟩
    have h1 := hKI.tab.simple p hp
    have h2 := hat p hp
    have h3 : ¬ k.quant → p.2.isAll = false := fun h => hKI.plain h p hp
    generalize p.2 = a at h1 h2 h3
    cases a with
    | rel op x y => exact .inl ⟨op, x, y, rfl⟩
    | all qs g =>
      refine .inr ⟨⟨qs, g, rfl⟩, .inr ?_, rfl⟩
      by_contra hq
      exact absurd (h3 hq) (by simp [Fml.isAll])
    | tt => exact absurd rfl h2.1
    | ff => exact absurd rfl h2.2
    | _ => exact absurd h1 id
  unfold checkSat
  refine run_bind_oof ?_ fun r _ => ?_
  · unfold checkCore
    split
    · intro h; cases h
    · rename_i hne
      split
      · intro h; cases h
      · split
        · intro h; cases h
        · exact checkLoop_ends hd hp hl.wf.2 hl.pos hA he hG hbr h0 h1 hj hpr hs
            _ _ _ _ _ ⟨rfl, hl.wf⟩ hl.str (fun v hv => (hl.kinds v hv).1) hcache hks.1 hatm rfl
            hb hz hlg hev (fun h => ⟨by simpa [Box.empty] using hne, hq h⟩) (lt_of_le_of_lt (livePs_card _ _) hr)
  · dsimp only
    split
    · exact run_bind_oof (lift_oof _) fun t _ => run_bind_oof (lift_oof _) fun m _ h => by cases h
    · intro h; cases h

end Verif.Proof
