import Verif.Proof.SatInv
import Verif.Proof.BoolSem

/-!
# What the clauses say about the formulas they come from

The converse direction of `Verif.Proof.SatInv`: a Boolean reading of the names under which every
clause has a true literal makes the added formulas true.
-/

namespace Verif.Proof
open Verif Verif.Model Verif.Spec

/-- Each SAT variable is the one its name is mapped to, and literals have names. -/
structure SatD (s : SatState) : Prop where
  inv : ∀ n v, s.toSym.map n = some v → s.toSat.map v.id = some n
  lsym : ∀ c ∈ s.clauses.vec, ∀ l ∈ c, ∃ v, s.toSym.map l.natAbs = some v

/-- The literal is true under a reading of the names. -/
def LitB (s : SatState) (B : Variable → Prop) (l : Int) : Prop :=
  ∃ v, s.toSym.map l.natAbs = some v ∧ ((0 < l ∧ B v) ∨ (l < 0 ∧ ¬ B v))

/-- Every clause has a true literal. -/
def ClausesB (s : SatState) (B : Variable → Prop) : Prop :=
  ∀ c ∈ s.clauses.vec, ∃ l ∈ c, LitB s B l

theorem LitB.old {s s' B l} (h : s'.toSym.map l.natAbs = s.toSym.map l.natAbs) :
    LitB s' B l ↔ LitB s B l := by unfold LitB; rw [h]

theorem makeSatVar_d {vs s v} (hs : SatStr vs s) (hd : SatD s) (hv : VarOk vs s v) :
    SatD (makeSatVar s v) := by
  unfold makeSatVar
  split
  · exact hd
  · rename_i hn
    refine ⟨fun n w hw => ?_, fun c hc l hl => ?_⟩
    · simp only [insert_at] at hw ⊢
      split at hw
      · cases hw; simp_all
      · rename_i hne
        have h1 := hd.inv n w hw
        split
        · rename_i he
          rw [he] at h1; rw [h1] at hn; cases hn
        · exact h1
    · obtain ⟨w, hw⟩ := hd.lsym c hc l hl
      refine ⟨w, ?_⟩
      simp only [insert_at]
      rw [if_neg, hw]
      have := (hs.lits c hc l hl).2
      omega

theorem makeSatVars_d {vs} : ∀ {ws : List Variable} {s : SatState}, SatStr vs s → SatD s →
    (∀ v ∈ ws, VarOk vs s v) → SatD (ws.foldl makeSatVar s)
  | [], s, _, hd, _ => hd
  | v :: ws, s, hs, hd, hv => by
    obtain ⟨a1, a2⟩ := makeSatVars_str (ws := [v]) hs (by simpa using hv v (by simp))
    refine makeSatVars_d (ws := ws) (s := makeSatVar s v) a1 (makeSatVar_d hs hd (hv v (by simp))) ?_
    intro w hw
    have := hv w (by simp [hw])
    have e : (makeSatVar s v).abs = s.abs := a2.abs
    have e2 : (makeSatVar s v).tseitinVars = s.tseitinVars := a2.ts
    exact ⟨this.bool, by rw [e]; exact this.lt, by rw [e, e2]; exact this.kind,
      by rw [e]; exact this.atom⟩

theorem satLit_bool {vs s f l} (hs : SatStr vs s) (h : satLit s f = .ok l) :
    (∃ v, s.toSym.map l.natAbs = some v) ∧ ∀ M : BMod, LitB s M.B l ↔ bh M f := by
  have key : ∀ v n, v.type = VType.boolean → s.toSat.at? v.id = .ok n →
      0 < n ∧ s.toSym.map n = some v := by
    intro v n hv hn
    have hn' : s.toSat.map v.id = some n := by
      unfold ScopedMap.at? at hn
      cases hm : s.toSat.map v.id with
      | none => rw [hm] at hn; cases hn
      | some m => rw [hm] at hn; cases hn; rfl
    obtain ⟨w, h1, h2⟩ := hs.ss _ _ hn'
    obtain ⟨g1, g2, g3⟩ := hs.sym n w h1
    have hw : w = v := bvar_eq h2 g3.bool hv
    subst hw
    exact ⟨g1, h1⟩
  cases f with
  | bvar v =>
    simp only [satLit] at h
    split at h
    · rename_i hv
      obtain ⟨n, h1, h2⟩ := bindO_ok h
      cases h2
      obtain ⟨k1, k2⟩ := key v n hv h1
      refine ⟨⟨v, by simpa using k2⟩, fun M => ?_⟩
      unfold LitB
      simp only [Int.natAbs_natCast, k2, bh_bvar, Option.some.injEq]
      constructor
      · rintro ⟨w, rfl, ⟨-, h⟩ | ⟨h, -⟩⟩
        · exact h
        · omega
      · exact fun h => ⟨v, rfl, .inl ⟨by omega, h⟩⟩
    · cases h
  | neg f =>
    cases f with
    | bvar v =>
      simp only [satLit] at h
      split at h
      · rename_i hv
        obtain ⟨n, h1, h2⟩ := bindO_ok h
        cases h2
        obtain ⟨k1, k2⟩ := key v n hv h1
        refine ⟨⟨v, by simpa using k2⟩, fun M => ?_⟩
        unfold LitB
        simp only [Int.natAbs_neg, Int.natAbs_natCast, k2, bh_neg, bh_bvar, Option.some.injEq]
        constructor
        · rintro ⟨w, rfl, ⟨h, -⟩ | ⟨-, h⟩⟩
          · omega
          · exact h
        · exact fun h => ⟨v, rfl, .inr ⟨by omega, h⟩⟩
      · cases h
    | _ => simp [satLit] at h
  | _ => simp [satLit] at h

theorem satLits_bool {vs s} (hs : SatStr vs s) : ∀ {fs ls}, satLits s fs = .ok ls →
    (∀ l ∈ ls, ∃ v, s.toSym.map l.natAbs = some v) ∧
    ∀ M : BMod, (∃ l ∈ ls, LitB s M.B l) ↔ ∃ f ∈ fs, bh M f
  | [], ls, h => by simp only [satLits, Outcome.ok.injEq] at h; subst h; simp
  | f :: fs, ls, h => by
    simp only [satLits] at h
    obtain ⟨l, h1, h⟩ := bindO_ok h
    obtain ⟨ls', h2, h⟩ := bindO_ok h
    cases h
    obtain ⟨a1, a2⟩ := satLit_bool hs h1
    obtain ⟨b1, b2⟩ := satLits_bool hs h2
    refine ⟨fun x hx => ?_, fun M => ?_⟩
    · rcases List.mem_cons.mp hx with rfl | hx
      exacts [a1, b1 x hx]
    · simp only [List.mem_cons, exists_eq_or_imp, a2 M, b2 M]

theorem clauseLits_bool {M} (f : Fml) : (∃ g ∈ clauseLits f, bh M g) ↔ bh M f := by
  cases f <;> simp [clauseLits]

/-- How the SAT state grows when clauses are added. -/
structure ClExt (s s' : SatState) : Prop where
  le : s.maxVar ≤ s'.maxVar
  old : ∀ n, n ≤ s.maxVar → s'.toSym.map n = s.toSym.map n
  cl : ∀ c ∈ s.clauses.vec, c ∈ s'.clauses.vec

theorem ClExt.refl (s) : ClExt s s := ⟨le_rfl, fun _ _ => rfl, fun _ h => h⟩

theorem ClExt.trans {a b c} (h : ClExt a b) (k : ClExt b c) : ClExt a c :=
  ⟨h.le.trans k.le, fun n hn => (k.old n (hn.trans h.le)).trans (h.old n hn),
    fun x hx => k.cl x (h.cl x hx)⟩

theorem ClausesB.back {vs s s' B} (hs : SatStr vs s) (e : ClExt s s') (h : ClausesB s' B) :
    ClausesB s B := by
  intro c hc
  obtain ⟨l, hl, ht⟩ := h c (e.cl c hc)
  exact ⟨l, hl, (LitB.old (e.old _ (hs.lits c hc l hl).2)).mp ht⟩

theorem addClause_bool {vs s f s'} (hs : SatStr vs s) (hd : SatD s)
    (hv : ∀ v ∈ f.fv, VarOk vs s v) (h : addClause s f = .ok s') :
    SatD s' ∧ ClExt s s' ∧ ∀ M : BMod, ClausesB s' M.B → bh M f := by
  simp only [addClause] at h
  obtain ⟨ls, h1, h2⟩ := bindO_ok h
  simp only [Outcome.ok.injEq] at h2; subst h2
  obtain ⟨a1, a2⟩ := makeSatVars_str hs hv
  have a3 := makeSatVars_d hs hd hv
  obtain ⟨b1, b2⟩ := satLits_bool a1 h1
  refine ⟨⟨a3.inv, ?_⟩, ⟨a2.le, a2.old, ?_⟩, ?_⟩
  · intro c hc l hl
    rcases List.mem_append.mp hc with hc | hc
    · exact a3.lsym c hc l hl
    · simp only [List.mem_singleton] at hc; subst hc; exact b1 l hl
  · intro c hc
    refine List.mem_append.mpr (.inl ?_)
    rw [a2.cl]; exact hc
  · intro M hc
    obtain ⟨l, hl, ht⟩ := hc ls (by simp [ScopedVector.pushBack])
    exact (clauseLits_bool f).mp ((b2 M).mp ⟨l, hl, ht⟩)

theorem addClauses_bool {vs} : ∀ {fs s s'}, SatStr vs s → SatD s →
    (∀ f ∈ fs, ∀ v ∈ f.fv, VarOk vs s v) → addClauses s fs = .ok s' →
    SatD s' ∧ ClExt s s' ∧ ∀ M : BMod, ClausesB s' M.B → ∀ f ∈ fs, bh M f
  | [], s, s', hs, hd, _, h => by
    simp only [addClauses, Outcome.ok.injEq] at h; subst h
    exact ⟨hd, .refl _, by simp⟩
  | f :: fs, s, s', hs, hd, hv, h => by
    simp only [addClauses] at h
    obtain ⟨s1, h1, h⟩ := bindO_ok h
    have hf := hv f (by simp)
    obtain ⟨a1, a2, a3, -⟩ := addClause_str hs hf h1
    obtain ⟨b1, b2, b3⟩ := addClause_bool hs hd hf h1
    have hv' : ∀ g ∈ fs, ∀ v ∈ g.fv, VarOk vs s1 v := fun g hg v hgv => by
      have := hv g (by simp [hg]) v hgv
      exact ⟨this.bool, by rw [a2]; exact this.lt, by rw [a2, a3]; exact this.kind,
        by rw [a2]; exact this.atom⟩
    obtain ⟨c1, -⟩ := addClauses_str a1 hv' h
    obtain ⟨d1, d2, d3⟩ := addClauses_bool a1 b1 hv' h
    refine ⟨d1, b2.trans d2, fun M hc => ?_⟩
    intro g hg
    rcases List.mem_cons.mp hg with rfl | hg
    · exact b3 M (hc.back a1 d2)
    · exact d3 M hc g hg

theorem inserts_only {K} [DecidableEq K] : ∀ (ks : List K) (s : ScopedSet K) (k : K),
    (ks.foldl ScopedSet.insert s).set k = true → k ∈ ks ∨ s.set k = true
  | [], s, k, h => .inr h
  | x :: ks, s, k, h => by
    rw [List.foldl_cons] at h
    rcases inserts_only ks _ k h with h | h
    · exact .inl (by simp [h])
    · unfold ScopedSet.insert at h
      by_cases hk : k = x
      · exact .inl (by simp [hk])
      · right
        split at h
        · exact h
        · simpa [hk] using h

/-- A condition on relations kept by negation, of relations that are not simplified away. -/
def NegClosed (P : RelOp → Expr → Expr → Prop) : Prop :=
  ∀ op a b, P op a b → P op.neg a b ∧ constDiff a b = none

theorem addFormula_bool {vs s f s'} {P : RelOp → Expr → Expr → Prop} {B : Variable → Prop}
    (hP : NegClosed P) (hs : SatStr vs s) (hd : SatD s) (hv : ∀ v ∈ vs, v.id < s.abs.next)
    (hB : ∀ v, B v → v.type = .boolean ∧ v ∈ vs ∧ v ∉ s.abs.table.map Prod.fst)
    (hf : ForAtoms (AtomP (· ∈ vs)) B (QB (WfQ (· ∈ vs))) f) (hfP : ForAtoms P (fun _ => True) NoQ f)
    (hT : ∀ p ∈ s.abs.table, Canon P p.2) (h : addFormula s f = .ok s') :
    SatD s' ∧ ClExt s s' ∧ (∀ p ∈ s'.abs.table, Canon P p.2) ∧
    (∀ i, s'.tseitinVars.set i = true →
      s.tseitinVars.set i = true ∨ (s.abs.next ≤ i ∧ i < s'.abs.next)) ∧
    ∀ M : BMod, Compl M → DefsB M s'.abs.table → ClausesB s' M.B → bh M f := by
  simp only [addFormula] at h
  obtain ⟨⟨cs, n2⟩, h1, h2⟩ := bindO_ok h
  simp only at h2
  have hflt : ∀ v ∈ f.fv, v.id < s.abs.next := ForAtoms.fv_lt (fun v h => hv v h)
    (fun v h => hv v (hB v h).2.1) hf
  obtain ⟨q, hq, hn2, hat⟩ := tseitin_atoms (fun _ => tsQ_body wfQ_ok) h1 hf
  obtain ⟨q', hq', -, hatP⟩ := tseitin_atoms (fun _ => tsQ_no) h1 hfP
  rw [hq] at hq'; cases hq'
  simp only at hn2 hat hatP
  have hle : s.abs.next ≤ n2 := tseitin_next h1
  obtain ⟨m, hm, hmap, -⟩ := tsVisit_spec ⟨fun _ _ => 0, fun _ _ _ => 0⟩ f _ q.1 q.2 hq
  simp only [List.nil_append] at hm
  have hts := (hmap (fun v => v ∈ f.fv) (fun v hv => hv) hflt).1
  have hkeys : ∀ v, v ∈ q.2.map.map Prod.fst →
      v.type = .boolean ∧ s.abs.next ≤ v.id ∧ v.id < n2 := by
    intro v hk
    obtain ⟨p, hp, rfl⟩ := List.mem_map.mp hk
    refine ⟨tsVisit_bool f hq (by simp) p hp, ?_⟩
    rw [hn2]
    rw [hm] at hp
    exact hts.ids p hp
  set B' : Variable → Prop := fun v => B v ∨ v ∈ q.2.map.map Prod.fst with hB'
  set a0 : AbsState := { s.abs with next := n2 } with ha0
  set a := absVisitList cs a0 with ha
  have hi0 : AbsInv a0 := ⟨hs.tab.abs.boolean, fun p hp => lt_of_lt_of_le (hs.tab.abs.lt p hp) hle,
    hs.tab.abs.sorted, hs.tab.abs.nodup, hs.tab.abs.fv⟩
  have hclt : ∀ c ∈ cs, ∀ v ∈ c.fv, v.id < a0.next := fun c hc =>
    ForAtoms.fv_lt (fun v h => lt_of_lt_of_le (hv v h) hle) (fun v h => by
      rcases h with h | h
      · exact lt_of_lt_of_le (hv v (hB v h).2.1) hle
      · exact (hkeys v h).2.2) (hat c hc)
  obtain ⟨s1, s2, s3, s4, s5⟩ := absVisitList_spec cs a0 hi0 hclt
  obtain ⟨x1, x2⟩ := absVisitList_ext cs a0 hs.tab.simple
  have e : TabExt s.abs a.2 := ⟨hle.trans x1.le, x1.pre, fun p hp => by
    rcases x1.new p hp with h | h
    · exact .inl h
    · exact .inr (hle.trans h)⟩
  have hout : ∀ v, B' v → ∀ b, (v, b) ∉ a.2.table := by
    intro v hv' b hb
    rcases x1.new _ hb with h | h
    · rcases hv' with hv' | hv'
      · exact (hB v hv').2.2 (List.mem_map_of_mem (f := Prod.fst) h)
      · have := hs.tab.abs.lt _ h
        have := (hkeys v hv').2.1
        simp only at *; omega
    · simp only [ha0] at h
      rcases hv' with hv' | hv'
      · have := hv v (hB v hv').2.1; omega
      · have := (hkeys v hv').2.2; omega
  have hnegP : ∀ (op : RelOp) (a b : Expr), AtomP (· ∈ vs) op a b → AtomP (· ∈ vs) op.neg a b :=
    fun _ _ _ h => h
  obtain ⟨-, hnam⟩ := absVisitList_named hnegP cs a0 hat
  set ts' := (tseitinKeys s.abs.next f).foldl ScopedSet.insert s.tseitinVars with hts'
  have htm : ∀ i, s.tseitinVars.set i = true → ts'.set i = true :=
    fun i hi => inserts_mem _ _ _ (.inr hi)
  have hs1 := satStr_abs hs e ⟨s1, x2⟩ htm
  have hvok : ∀ g ∈ a.1, ∀ v ∈ g.fv, VarOk vs { s with abs := a.2, tseitinVars := ts' } v := by
    intro g hg v hv'
    rcases (hnam g hg).fv v hv' with hb | ⟨b, hb, hb2⟩
    · refine ⟨?_, ?_, ?_, fun b hb' => absurd hb' (hout v hb b)⟩
      · rcases hb with hb | hb
        exacts [(hB v hb).1, (hkeys v hb).1]
      · refine lt_of_lt_of_le (b := n2) ?_ x1.le
        rcases hb with hb | hb
        exacts [lt_of_lt_of_le (hv v (hB v hb).2.1) hle, (hkeys v hb).2.2]
      · rcases hb with hb | hb
        · exact .inr (.inr (hB v hb).2.1)
        · refine .inr (.inl (inserts_mem _ _ _ (.inl ?_)))
          unfold tseitinKeys
          rw [hq]
          obtain ⟨p, hp, rfl⟩ := List.mem_map.mp hb
          exact List.mem_map_of_mem (f := fun p : Variable × Fml => p.1.id) hp
    · refine ⟨s1.boolean _ hb, s1.lt _ hb, .inl ⟨b, hb⟩, fun b' hb' => ?_⟩
      rw [table_fun s1 hb' hb]
      exact simple_atomF (x2 _ hb) hb2
  obtain ⟨y1, y2, y3, y4, -⟩ := addClauses_str hs1 hvok h2
  obtain ⟨z1, z2, z3⟩ := addClauses_bool hs1 ⟨hd.inv, hd.lsym⟩ hvok h2
  refine ⟨z1, ⟨z2.le, z2.old, z2.cl⟩, ?_, ?_, ?_⟩
  · rw [y2]
    exact absVisitList_tab hP cs a0 hT (forAtomsL_iff.mpr hatP)
  · intro i hi
    rw [y3] at hi
    rcases inserts_only _ _ _ hi with h | h
    · right
      unfold tseitinKeys at h
      rw [hq] at h
      obtain ⟨p, hp, rfl⟩ := List.mem_map.mp h
      have := hkeys p.1 (List.mem_map_of_mem hp)
      refine ⟨this.2.1, lt_of_lt_of_le this.2.2 ?_⟩
      rw [y2]; exact x1.le
    · exact .inl h
  · intro M hM hdef hcl
    rw [y2] at hdef
    have hb := z3 M hcl
    have hcs := ((absVisitList_bh hM cs a0
      (forAtomsL_iff.mpr fun c hc => ForAtoms.mono (fun _ _ _ h => (hP _ _ _ h).2)
        (fun _ _ => trivial) (fun _ _ h => h) c (hatP c hc)) hdef).1).mp hb
    exact tseitin_bh (ForAtoms.mono (fun _ _ _ _ => trivial) (fun _ _ => trivial)
      (fun _ _ h => h) f hfP) hflt h1 hcs

theorem learnedLits_d {vs} {P : RelOp → Expr → Expr → Prop} (hP : NegClosed P) :
    ∀ {fs : List Fml} {s : SatState} {r : List Int × SatState},
    SatStr vs s → SatD s → (∀ v ∈ vs, v.id < s.abs.next) → (∀ f ∈ fs, AtomF (· ∈ vs) f) →
    (∀ f ∈ fs, ForAtoms P (fun _ => True) NoQ f) → (∀ p ∈ s.abs.table, Canon P p.2) →
    learnedLits s fs = .ok r →
    (∀ l ∈ r.1, ∃ v, s.toSym.map l.natAbs = some v) ∧ ∀ p ∈ r.2.abs.table, Canon P p.2
  | [], s, r, hs, _, _, _, _, hT, h => by
    simp only [learnedLits, Outcome.ok.injEq] at h; subst h
    exact ⟨by simp, hT⟩
  | f :: fs, s, r, hs, hd, hv, hf, hfP, hT, h => by
    simp only [learnedLits] at h
    obtain ⟨l, h1, h⟩ := bindO_ok h
    obtain ⟨r', h2, h⟩ := bindO_ok h
    simp only [Outcome.ok.injEq] at h; subst h
    have haf := hf f (by simp)
    have hflt : ∀ v ∈ f.fv, v.id < s.abs.next := fun v h => hv v (AtomF.fv f haf v h).2
    have hsp : AbsSpec f s.abs (absConvert f s.abs).1 (absConvert f s.abs).2 :=
      absVisit_spec f s.abs hs.tab.abs hflt
    obtain ⟨e1, e2⟩ : TabExt s.abs (absConvert f s.abs).2 ∧ _ := absVisit_ext f s.abs hs.tab.simple
    have hs1 := satStr_abs (ts := s.tseitinVars) hs e1 ⟨hsp.inv, e2⟩ (fun _ h => h)
    have hT1 : ∀ p ∈ (absConvert f s.abs).2.table, Canon P p.2 :=
      absVisit_tab hP f s.abs hT (hfP f (by simp))
    obtain ⟨a1, a2⟩ := learnedLits_d hP (fs := fs) hs1 ⟨hd.inv, hd.lsym⟩
      (fun v h => lt_of_lt_of_le (hv v h) e1.le) (fun g hg => hf g (by simp [hg]))
      (fun g hg => hfP g (by simp [hg])) hT1 h2
    obtain ⟨b1, -⟩ := satLit_bool hs1 h1
    refine ⟨fun x hx => ?_, a2⟩
    rcases List.mem_cons.mp hx with rfl | hx
    exacts [b1, a1 x hx]

theorem addLearned_d {vs s s' fs} {P : RelOp → Expr → Expr → Prop} (hP : NegClosed P)
    (hs : SatStr vs s) (hd : SatD s) (hv : ∀ v ∈ vs, v.id < s.abs.next)
    (hf : ∀ f ∈ fs, AtomF (· ∈ vs) f) (hfP : ∀ f ∈ fs, ForAtoms P (fun _ => True) NoQ f)
    (hT : ∀ p ∈ s.abs.table, Canon P p.2) (h : addLearned s fs = .ok s') :
    SatD s' ∧ ClExt s s' ∧ (∀ p ∈ s'.abs.table, Canon P p.2) ∧ s'.tseitinVars = s.tseitinVars ∧
      s'.toSym = s.toSym ∧ s'.toSat = s.toSat := by
  simp only [addLearned] at h
  obtain ⟨⟨ls, s2⟩, h1, h⟩ := bindO_ok h
  simp only [Outcome.ok.injEq] at h
  obtain ⟨a1, -⟩ := learnedLits_str hs hv hf h1
  obtain ⟨b1, b2⟩ := learnedLits_d hP hs hd hv hf hfP hT h1
  simp only at a1 b1 b2 h
  rw [a1] at h
  subst h
  refine ⟨⟨hd.inv, fun c hc l hl => ?_⟩, ⟨le_rfl, fun _ _ => rfl, fun c hc => ?_⟩, b2, rfl, rfl, rfl⟩
  · rcases List.mem_append.mp hc with hc | hc
    · exact hd.lsym c hc l hl
    · simp only [List.mem_singleton] at hc; subst hc; exact b1 l hl
  · exact List.mem_append.mpr (.inl hc)

/-! ### Models -/

theorem readModel_mem {s deref v} : ∀ {is : List Nat} {i}, i ∈ is → s.toSym.map i = some v →
    deref i ≠ 0 →
    ((∃ a, (v, a) ∈ s.abs.table) →
      (v, decide (deref i = 1)) ∈ (readModel s deref is).theory) ∧
    ((∀ a, (v, a) ∉ s.abs.table) → s.tseitinVars.set v.id = false →
      (v, decide (deref i = 1)) ∈ (readModel s deref is).bool)
  | [], i, hi, _, _ => by cases hi
  | j :: is, i, hi, hs, hd => by
    have hany : (s.abs.table.any fun p => decide (p.1 = v)) = true ↔ ∃ a, (v, a) ∈ s.abs.table := by
      simp
    rcases List.mem_cons.mp hi with rfl | hi
    · simp only [readModel, hd, if_false, hs]
      refine ⟨fun h => ?_, fun h ht => ?_⟩
      · rw [if_pos (hany.mpr h)]; simp
      · rw [if_neg (fun h' => by obtain ⟨a, ha⟩ := hany.mp h'; exact h a ha), if_neg (by simp [ht])]
        simp
    · have ih := readModel_mem (is := is) hi hs hd
      simp only [readModel]
      split
      · exact ih
      · split
        · exact ih
        · split
          · exact ⟨fun h => by simp [ih.1 h], ih.2⟩
          · split
            · exact ih
            · exact ⟨ih.1, fun h ht => by simp [ih.2 h ht]⟩

/-- The model read from PicoSAT: an assignment of the names making every clause true. -/
theorem satCheck_bool {ps vs s m s'} (hp : PicosatOk ps) (hs : SatStr vs s) (hd : SatD s)
    (h : satCheck ps s = .ok (some m, s')) :
    ∃ A : Variable → Option Bool,
      (∀ v b, (v, b) ∈ m.bool ↔
        A v = some b ∧ (∀ a, (v, a) ∉ s.abs.table) ∧ s.tseitinVars.set v.id = false) ∧
      (∀ v b, (v, b) ∈ m.theory ↔ A v = some b ∧ ∃ a, (v, a) ∈ s.abs.table) ∧
      ∀ B : Variable → Prop, (∀ v b, A v = some b → (B v ↔ b = true)) → ClausesB s B := by
  unfold satCheck at h
  simp only at h
  split at h
  · rename_i deref hps
    simp only [Outcome.ok.injEq, Prod.mk.injEq, Option.some.injEq] at h
    obtain ⟨rfl, rfl⟩ := h
    let A : Variable → Option Bool := fun v =>
      match s.toSat.map v.id with
      | none => none
      | some n => if s.toSym.map n = some v ∧ deref n ≠ 0 then some (decide (deref n = 1)) else none
    have hA : ∀ v b, A v = some b ↔
        ∃ n, s.toSym.map n = some v ∧ deref n ≠ 0 ∧ b = decide (deref n = 1) := by
      intro v b
      simp only [A]
      cases hm : s.toSat.map v.id with
      | none =>
        simp only [reduceCtorEq, false_iff]
        rintro ⟨n, h1, -⟩
        rw [hd.inv n v h1] at hm; cases hm
      | some k =>
        simp only
        constructor
        · intro h
          split at h
          · rename_i hc
            cases h
            exact ⟨k, hc.1, hc.2, rfl⟩
          · cases h
        · rintro ⟨n, h1, h2, rfl⟩
          have := hd.inv n v h1
          rw [hm] at this; cases this
          rw [if_pos ⟨h1, h2⟩]
    have hr : ∀ n v, s.toSym.map n = some v → n ∈ (List.range s.maxVar).map (· + 1) := by
      intro n v hn
      obtain ⟨h1, h2, -⟩ := hs.sym n v hn
      exact List.mem_map.mpr ⟨n - 1, List.mem_range.mpr (by omega), by omega⟩
    refine ⟨A, fun v b => ?_, fun v b => ?_, fun B hB c hc => ?_⟩
    · rw [hA]
      constructor
      · intro h
        obtain ⟨i, -, h2, h3, h4, h5⟩ := readModel_bool h
        exact ⟨⟨i, h2, h3, h4⟩, h5⟩
      · rintro ⟨⟨n, h2, h3, rfl⟩, h5, h6⟩
        exact (readModel_mem (hr n v h2) h2 h3).2 h5 h6
    · rw [hA]
      constructor
      · intro h
        obtain ⟨i, -, h2, h3, h4, h5⟩ := readModel_theory h
        exact ⟨⟨i, h2, h3, h4⟩, h5⟩
      · rintro ⟨⟨n, h2, h3, rfl⟩, h5⟩
        exact (readModel_mem (hr n v h2) h2 h3).1 h5
    · obtain ⟨l, hl, ht⟩ := hp.sat _ _ _ _ _ hps c hc
      obtain ⟨v, hv⟩ := hd.lsym c hc l hl
      refine ⟨l, hl, v, hv, ?_⟩
      rcases ht with ⟨h1, h2⟩ | ⟨h1, h2, h3⟩
      · refine .inl ⟨h1, (hB v true ((hA v true).mpr ⟨_, hv, by omega, by simp [h2]⟩)).mpr rfl⟩
      · refine .inr ⟨h1, fun hb => ?_⟩
        have := (hB v false ((hA v false).mpr ⟨_, hv, h2, by simp [h3]⟩)).mp hb
        cases this
  · simp at h
  · simp at h

end Verif.Proof
