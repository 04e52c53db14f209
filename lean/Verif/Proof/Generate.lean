import Verif.Proof.Contractor
import Verif.Proof.Fv

/-!
# Properties inherited by sub-formulas; the generated contractor
-/

namespace Verif.Proof
open Verif Verif.Model Verif.Spec

/-- A property of formulas that is decided by their relations. -/
structure Hered (Q : Fml → Prop) : Prop where
  tt : Q .tt
  ff : Q .ff
  rel : ∀ {op op' a b}, Q (.rel op a b) → Q (.rel op' a b)
  neg : ∀ {f}, Q (.neg f) ↔ Q f
  conj : ∀ {fs}, Q (.conj fs) ↔ ∀ f ∈ fs, Q f
  disj : ∀ {fs}, Q (.disj fs) ↔ ∀ f ∈ fs, Q f

theorem defFs_iff {D I ρ} : ∀ {fs : List Fml}, DefFs D I ρ fs ↔ ∀ f ∈ fs, DefF D I ρ f
  | [] => by simp [DefFs]
  | f :: fs => by simp [DefFs, defFs_iff (fs := fs)]

theorem rcOkFs_iff : ∀ {fs : List Fml}, RcOkFs fs ↔ ∀ f ∈ fs, RcOkF f
  | [] => by simp [RcOkFs]
  | f :: fs => by simp [RcOkFs, rcOkFs_iff (fs := fs)]

theorem hered_def (D I ρ) : Hered (DefF D I ρ) where
  tt := by simp [DefF]
  ff := by simp [DefF]
  rel := fun h => by simpa [DefF] using h
  neg := by simp [DefF]
  conj := by simp [DefF, defFs_iff]
  disj := by simp [DefF, defFs_iff]

theorem hered_rc : Hered RcOkF where
  tt := by simp [RcOkF]
  ff := by simp [RcOkF]
  rel := fun h => by simpa [RcOkF] using h
  neg := by simp [RcOkF]
  conj := by simp [RcOkF, rcOkFs_iff]
  disj := by simp [RcOkF, rcOkFs_iff]

theorem Hered.mkConj {Q} (hQ : Hered Q) {fs} (h : ∀ g ∈ fs, Q g) : Q (mkConj fs) :=
  mkConj_ind (R := Q) (fun _ h => hQ.conj.mp h) hQ.ff hQ.tt (fun _ h => h)
    (fun _ h => hQ.conj.mpr h) h

theorem Hered.mkDisj {Q} (hQ : Hered Q) {fs} (h : ∀ g ∈ fs, Q g) : Q (mkDisj fs) :=
  mkDisj_ind (R := Q) (fun _ h => hQ.disj.mp h) hQ.ff hQ.tt (fun _ h => h)
    (fun _ h => hQ.disj.mpr h) h

theorem Hered.notF {Q} (hQ : Hered Q) {f} (h : Q f) : Q (notF f) := by
  unfold Model.notF
  split_ifs
  · exact hQ.ff
  · exact hQ.tt
  · split
    · exact hQ.neg.mp h
    · exact hQ.neg.mpr h

theorem Hered.toSet {Q : Fml → Prop} {fs : List Fml} (h : ∀ g ∈ fs, Q g) :
    ∀ g ∈ Model.toSet fs, Q g := by
  intro g hg
  rw [mem_toSet] at hg
  exact h g hg

theorem Hered.mkRel {Q} (hQ : Hered Q) {op op' a b} (h : Q (.rel op a b)) : Q (mkRel op' a b) := by
  unfold Model.mkRel
  split
  · split
    · exact hQ.tt
    · exact hQ.ff
  · exact hQ.rel h

mutual
theorem Hered.nnfVisit {Q} (hQ : Hered Q) (push pol : Bool) {f} (h : Q f) :
    Q (nnfVisit push pol f) := by
  cases f with
  | ff => cases pol <;> simp [Model.nnfVisit, hQ.tt, hQ.ff]
  | tt => cases pol <;> simp [Model.nnfVisit, hQ.tt, hQ.ff]
  | bvar v =>
    cases pol <;> simp only [Model.nnfVisit, Bool.false_eq_true, if_false, if_true]
    exacts [hQ.notF h, h]
  | rel op a b =>
    simp only [Model.nnfVisit]
    split_ifs
    exacts [h, hQ.mkRel h, hQ.notF h]
  | conj fs =>
    have h' := Hered.toSet (Hered.nnfVisitList hQ push pol (hQ.conj.mp h))
    simp only [Model.nnfVisit]
    split_ifs
    exacts [hQ.mkConj h', hQ.mkDisj h']
  | disj fs =>
    have h' := Hered.toSet (Hered.nnfVisitList hQ push pol (hQ.disj.mp h))
    simp only [Model.nnfVisit]
    split_ifs
    exacts [hQ.mkDisj h', hQ.mkConj h']
  | neg f =>
    simp only [Model.nnfVisit]
    exact Hered.nnfVisit hQ push (!pol) (hQ.neg.mp h)
  | all vs f =>
    cases pol <;> simp only [Model.nnfVisit, Bool.false_eq_true, if_false, if_true]
    exacts [hQ.notF h, h]
theorem Hered.nnfVisitList {Q} (hQ : Hered Q) (push pol : Bool) {fs : List Fml}
    (h : ∀ g ∈ fs, Q g) : ∀ g ∈ nnfVisitList push pol fs, Q g := by
  cases fs with
  | nil => simp [Model.nnfVisitList]
  | cons f fs =>
    intro g hg
    simp only [Model.nnfVisitList, List.mem_cons] at hg
    rcases hg with rfl | hg
    · exact Hered.nnfVisit hQ push pol (h f (by simp))
    · exact Hered.nnfVisitList hQ push pol (fun g hg => h g (by simp [hg])) g hg
end

/-! ### The generated contractor -/

theorem builtForAll_append {vs} : ∀ {cs ds : List Ctc},
    BuiltForAll vs (cs ++ ds) ↔ BuiltForAll vs cs ∧ BuiltForAll vs ds
  | [], ds => by simp [BuiltForAll]
  | c :: cs, ds => by simp [BuiltForAll, builtForAll_append (cs := cs), and_assoc]

theorem satAllC_append {I ρ} : ∀ {cs ds : List Ctc},
    SatAllC I ρ (cs ++ ds) ↔ SatAllC I ρ cs ∧ SatAllC I ρ ds
  | [], ds => by simp [SatAllC]
  | c :: cs, ds => by simp [SatAllC, satAllC_append (cs := cs), and_assoc]

theorem formulasCs_append : ∀ {cs ds : List Ctc},
    formulasCs (cs ++ ds) = formulasCs cs ++ formulasCs ds
  | [], ds => by simp [formulasCs]
  | c :: cs, ds => by simp [formulasCs, formulasCs_append (cs := cs)]

theorem flatten_builtFor {vs} : ∀ {cs : List Ctc}, BuiltForAll vs cs → BuiltForAll vs (flatten cs)
  | [], _ => trivial
  | c :: cs, h => by
    have ih := flatten_builtFor h.2
    cases c <;> simp only [flatten] <;> try exact ⟨h.1, ih⟩
    · exact ih
    · exact builtForAll_append.mpr ⟨h.1, ih⟩

theorem flatten_satAll {I ρ} : ∀ {cs : List Ctc}, SatAllC I ρ cs ↔ SatAllC I ρ (flatten cs)
  | [] => Iff.rfl
  | c :: cs => by
    have ih := flatten_satAll (I := I) (ρ := ρ) (cs := cs)
    cases c <;> simp only [flatten, SatAllC, ih]
    · simp [SatC]
    · rw [satAllC_append]; simp [SatC]

theorem flatten_formulas : ∀ {cs : List Ctc}, formulasCs (flatten cs) = formulasCs cs
  | [] => rfl
  | c :: cs => by
    have ih := flatten_formulas (cs := cs)
    cases c <;> simp [flatten, formulasCs, formulasC, formulasCs_append, ih]

theorem mkSeq_ok {cs c} (h : mkSeq cs = .ok c) : c = .seq (flatten cs) := by
  unfold mkSeq at h
  split at h
  · cases h
  · simp only [Outcome.ok.injEq] at h; exact h.symm

theorem mkJoin_ok {cs c} (h : mkJoin cs = .ok c) : c = .join cs := by
  unfold mkJoin at h
  split at h
  · cases h
  · simp only [Outcome.ok.injEq] at h; exact h.symm

theorem mkFwdbwd_ok {f b c} (h : mkFwdbwd f b = .ok c) : BuiltFor b.vars c ∧
    (∀ I ρ, holds I ρ f → SatC I ρ c) ∧ (∀ g ∈ formulasC c, g = f) ∧
    AllAtoms (BuiltFor b.vars) c := by
  simp only [mkFwdbwd] at h
  obtain ⟨o, h1, h2⟩ := bindO_ok h
  cases o with
  | none =>
    simp only [Outcome.ok.injEq] at h2; subst h2
    exact ⟨trivial, fun _ _ _ => trivial, by simp [formulasC], trivial⟩
  | some d =>
    simp only [Outcome.ok.injEq] at h2; subst h2
    exact ⟨⟨rfl, h1⟩, fun _ _ h => h, by simp [formulasC], ⟨rfl, h1⟩⟩

theorem mkPolytope_ok {fs b c} (h : mkPolytope fs b = .ok c) : BuiltFor b.vars c ∧
    (∀ I ρ, (∀ f ∈ fs, holds I ρ f) → SatC I ρ c) ∧ (∀ g ∈ formulasC c, g ∈ fs) ∧
    AllAtoms (BuiltFor b.vars) c := by
  simp only [mkPolytope] at h
  obtain ⟨o, h1, h2⟩ := bindO_ok h
  split at h2
  · simp only [Outcome.ok.injEq] at h2; subst h2
    exact ⟨trivial, fun _ _ _ => trivial, by simp [formulasC], trivial⟩
  · simp only [Outcome.ok.injEq] at h2; subst h2
    exact ⟨⟨rfl, h1⟩, fun _ _ h => h, by simp [formulasC], ⟨rfl, h1⟩⟩

/-- What is shown of the contractor `c` made for `f`. -/
def GenOk (b : Box) (f : Fml) (c : Ctc) : Prop :=
  BuiltFor b.vars c ∧ (∀ I ρ, holds I ρ f → SatC I ρ c) ∧
  (∀ Q, Hered Q → Q f → ∀ g ∈ formulasC c, Q g)

mutual
theorem genVisit_ok {up b} : ∀ (f : Fml) {c}, genVisit up b f = .ok c → GenOk b f c
  | .ff, c, h => by simp [genVisit] at h
  | .tt, c, h => by
    simp only [genVisit, Outcome.ok.injEq] at h; subst h
    exact ⟨trivial, fun _ _ _ => trivial, by simp [formulasC]⟩
  | .bvar _, c, h => by simp [genVisit] at h
  | .neg _, c, h => by simp [genVisit] at h
  | .all _ _, c, h => by simp [genVisit] at h
  | .rel op x y, c, h => by
    simp only [genVisit, genRel] at h
    split at h
    · obtain ⟨h1, h2, h3, _⟩ := mkPolytope_ok h
      exact ⟨h1, fun I ρ hf => h2 I ρ (by simpa using hf), fun Q _ hf g hg => by
        have := h3 g hg; simp at this; exact this ▸ hf⟩
    · obtain ⟨h1, h2, h3, _⟩ := mkFwdbwd_ok h
      exact ⟨h1, h2, fun Q _ hf g hg => h3 g hg ▸ hf⟩
  | .conj fs, c, h => by
    simp only [genVisit] at h
    obtain ⟨cs, h1, h2⟩ := bindO_ok h
    obtain ⟨g1, g2, g3⟩ := genConj_ok fs h1
    split at h2
    · obtain ⟨p, h3, h4⟩ := bindO_ok h2
      obtain ⟨p1, p2, p3, _⟩ := mkPolytope_ok h3
      rw [mkSeq_ok h4]
      refine ⟨?_, fun I ρ hf => ?_, fun Q hQ hf g hg => ?_⟩
      · exact flatten_builtFor (builtForAll_append.mpr ⟨g1, p1, trivial⟩)
      · rw [holds_conj] at hf
        have hp := p2 I ρ (fun f hfm => hf f (List.mem_of_mem_filter hfm))
        exact flatten_satAll.mp (satAllC_append.mpr ⟨g2 I ρ hf, hp, trivial⟩)
      · simp only [formulasC, flatten_formulas, formulasCs_append, formulasCs, List.append_nil,
          List.mem_append] at hg
        rcases hg with hg | hg
        · exact g3 Q hQ (hQ.conj.mp hf) g hg
        · exact hQ.conj.mp hf g (List.mem_of_mem_filter (p3 g hg))
    · rw [mkSeq_ok h2]
      refine ⟨flatten_builtFor g1, fun I ρ hf => ?_, fun Q hQ hf g hg => ?_⟩
      · rw [holds_conj] at hf
        exact flatten_satAll.mp (g2 I ρ hf)
      · simp only [formulasC, flatten_formulas] at hg
        exact g3 Q hQ (hQ.conj.mp hf) g hg
  | .disj fs, c, h => by
    simp only [genVisit] at h
    obtain ⟨cs, h1, h2⟩ := bindO_ok h
    obtain ⟨g1, g2, g3⟩ := genDisj_ok fs h1
    rw [mkJoin_ok h2]
    exact ⟨g1, fun I ρ hf => g2 I ρ (holds_disj.mp hf), fun Q hQ hf g hg =>
      g3 Q hQ (hQ.disj.mp hf) g hg⟩
theorem genConj_ok {up b} : ∀ (fs : List Fml) {cs}, genConj up b fs = .ok cs →
    BuiltForAll b.vars cs ∧ (∀ I ρ, (∀ f ∈ fs, holds I ρ f) → SatAllC I ρ cs) ∧
    (∀ Q, Hered Q → (∀ f ∈ fs, Q f) → ∀ g ∈ formulasCs cs, Q g)
  | [], cs, h => by
    simp only [genConj, Outcome.ok.injEq] at h; subst h
    exact ⟨trivial, fun _ _ _ => trivial, by simp [formulasCs]⟩
  | f :: fs, cs, h => by
    simp only [genConj] at h
    split at h
    · obtain ⟨g1, g2, g3⟩ := genConj_ok fs h
      exact ⟨g1, fun I ρ hf => g2 I ρ (fun x hx => hf x (by simp [hx])),
        fun Q hQ hf => g3 Q hQ (fun x hx => hf x (by simp [hx]))⟩
    · obtain ⟨c, h1, h2⟩ := bindO_ok h
      obtain ⟨cs', h3, h4⟩ := bindO_ok h2
      simp only [Outcome.ok.injEq] at h4; subst h4
      obtain ⟨c1, c2, c3⟩ := genVisit_ok f h1
      obtain ⟨g1, g2, g3⟩ := genConj_ok fs h3
      refine ⟨⟨c1, g1⟩, fun I ρ hf => ⟨c2 I ρ (hf f (by simp)),
        g2 I ρ (fun x hx => hf x (by simp [hx]))⟩, fun Q hQ hf g hg => ?_⟩
      simp only [formulasCs, List.mem_append] at hg
      rcases hg with hg | hg
      · exact c3 Q hQ (hf f (by simp)) g hg
      · exact g3 Q hQ (fun x hx => hf x (by simp [hx])) g hg
theorem genDisj_ok {up b} : ∀ (fs : List Fml) {cs}, genDisj up b fs = .ok cs →
    BuiltForAll b.vars cs ∧ (∀ I ρ, (∃ f ∈ fs, holds I ρ f) → SatAnyC I ρ cs) ∧
    (∀ Q, Hered Q → (∀ f ∈ fs, Q f) → ∀ g ∈ formulasCs cs, Q g)
  | [], cs, h => by
    simp only [genDisj, Outcome.ok.injEq] at h; subst h
    exact ⟨trivial, fun _ _ hf => by simp at hf, by simp [formulasCs]⟩
  | f :: fs, cs, h => by
    simp only [genDisj] at h
    obtain ⟨c, h1, h2⟩ := bindO_ok h
    obtain ⟨cs', h3, h4⟩ := bindO_ok h2
    simp only [Outcome.ok.injEq] at h4; subst h4
    obtain ⟨c1, c2, c3⟩ := genVisit_ok f h1
    obtain ⟨g1, g2, g3⟩ := genDisj_ok fs h3
    refine ⟨⟨c1, g1⟩, fun I ρ hf => ?_, fun Q hQ hf g hg => ?_⟩
    · simp only [List.mem_cons, exists_eq_or_imp] at hf
      exact hf.elim (fun h => Or.inl (c2 I ρ h)) (fun h => Or.inr (g2 I ρ h))
    · simp only [formulasCs, List.mem_append] at hg
      rcases hg with hg | hg
      · exact c3 Q hQ (hf f (by simp)) g hg
      · exact g3 Q hQ (fun x hx => hf x (by simp [hx])) g hg
end

/-! ### Flattening -/

theorem prunes_append {ib n} : ∀ (cs ds : List Ctc),
    prunes ib n (cs ++ ds) = prunes ib n cs ++ prunes ib n ds
  | [], ds => by simp [prunes]
  | c :: cs, ds => by simp [prunes, prunes_append cs ds]

theorem seqRun_append : ∀ (ps qs : List Pruner) (s : CStatus), s.box.empty = false →
    seqRun (ps ++ qs) s =
      seqRun ps s >>= fun s' => if s'.box.empty then .ok s' else seqRun qs s'
  | [], qs, s, hs => by simp [seqRun, hs]
  | p :: ps, qs, s, hs => by
    simp only [List.cons_append, seqRun]
    cases h : p s with
    | throw => simp
    | ub => simp
    | oof => simp
    | ok s' =>
      cases he : s'.box.empty with
      | true => simp [he]
      | false => simp [he, seqRun_append ps qs s' he]

theorem flatten_seqRun {ib n} : ∀ (cs : List Ctc) (s : CStatus), s.box.empty = false →
    seqRun (prunes ib n (flatten cs)) s = seqRun (prunes ib n cs) s
  | [], _, _ => rfl
  | c :: cs, s, hs => by
    have ih := fun s hs => flatten_seqRun (ib := ib) (n := n) cs s hs
    have step : ∀ d : Ctc, seqRun (prune ib n d :: prunes ib n (flatten cs)) s =
        seqRun (prune ib n d :: prunes ib n cs) s := by
      intro d
      simp only [seqRun]
      cases h : prune ib n d s with
      | throw => simp
      | ub => simp
      | oof => simp
      | ok s' =>
        cases he : s'.box.empty with
        | true => simp [he]
        | false => simp [he, ih s' he]
    cases c <;> simp only [flatten, prunes] <;> try exact step _
    · rw [ih s hs]; simp [seqRun, prune, hs]
    · rename_i ds
      rw [prunes_append, seqRun_append _ _ _ hs]
      simp only [seqRun, prune]
      cases h : seqRun (prunes ib n ds) s with
      | throw => simp
      | ub => simp
      | oof => simp
      | ok s' =>
        cases he : s'.box.empty with
        | true => simp [he]
        | false => simp [he, ih s' he]

theorem flatten_fixLoop {ib : Ibex} {m : Nat} {cs : List Ctc} : ∀ (n : Nat) (s : CStatus),
    s.box.empty = false →
    fixLoop ib.term (prunes ib m (flatten cs)) n s = fixLoop ib.term (prunes ib m cs) n s
  | 0, _, _ => rfl
  | n + 1, s, hs => by
    simp only [fixLoop, flatten_seqRun cs s hs]
    cases h : seqRun (prunes ib m cs) s with
    | throw => simp
    | ub => simp
    | oof => simp
    | ok s' =>
      cases he : s'.box.empty with
      | true => simp [he]
      | false => simp [he, flatten_fixLoop n s' he]

theorem flatten_nil_prune {ib n} {cs : List Ctc} (h : flatten cs = []) (s : CStatus)
    (hs : s.box.empty = false) : seqRun (prunes ib n cs) s = .ok s := by
  rw [← flatten_seqRun cs s hs, h]; rfl

end Verif.Proof
