import Verif.Spec.Forall
import Verif.Proof.Theory

/-!
# Pruning with counterexamples of a quantified constraint
-/

namespace Verif.Proof
open Verif Verif.Model Verif.Spec

/-! ### The contractors the generator makes -/

mutual
/-- The contractors `GenericContractorGenerator` makes: sequences and joins of atoms built for the
variables `vs`. -/
def GenC (vs : List Variable) : Ctc → Prop
  | .id => True
  | .seq cs => GenCs vs cs
  | .join cs => GenCs vs cs
  | .fwdbwd ws f c => ws = vs ∧ ibexConv vs true f = .ok (some c)
  | .polytope ws fs cs => ws = vs ∧ polyCtrs vs fs = .ok cs
  | _ => False
def GenCs (vs : List Variable) : List Ctc → Prop
  | [] => True
  | c :: cs => GenC vs c ∧ GenCs vs cs
end

theorem genCs_append {vs} : ∀ {cs ds : List Ctc}, GenCs vs (cs ++ ds) ↔ GenCs vs cs ∧ GenCs vs ds
  | [], ds => by simp [GenCs]
  | c :: cs, ds => by simp [GenCs, genCs_append (cs := cs), and_assoc]

theorem flatten_gen {vs} : ∀ {cs : List Ctc}, GenCs vs cs → GenCs vs (flatten cs)
  | [], _ => trivial
  | c :: cs, h => by
    have ih := flatten_gen h.2
    cases c <;> simp only [flatten] <;> try exact ⟨h.1, ih⟩
    · exact ih
    · exact genCs_append.mpr ⟨h.1, ih⟩

theorem mkFwdbwd_gen {f b c} (h : mkFwdbwd f b = .ok c) : GenC b.vars c := by
  simp only [mkFwdbwd] at h
  obtain ⟨o, h1, h2⟩ := bindO_ok h
  cases o with
  | none => simp only [Outcome.ok.injEq] at h2; subst h2; exact trivial
  | some d => simp only [Outcome.ok.injEq] at h2; subst h2; exact ⟨rfl, h1⟩

theorem mkPolytope_gen {fs b c} (h : mkPolytope fs b = .ok c) : GenC b.vars c := by
  simp only [mkPolytope] at h
  obtain ⟨o, h1, h2⟩ := bindO_ok h
  split at h2
  · simp only [Outcome.ok.injEq] at h2; subst h2; exact trivial
  · simp only [Outcome.ok.injEq] at h2; subst h2; exact ⟨rfl, h1⟩

mutual
theorem genVisit_gen {up b} : ∀ (f : Fml) {c}, genVisit up b f = .ok c → GenC b.vars c
  | .ff, c, h => by simp [genVisit] at h
  | .tt, c, h => by simp only [genVisit, Outcome.ok.injEq] at h; subst h; exact trivial
  | .bvar _, c, h => by simp [genVisit] at h
  | .neg _, c, h => by simp [genVisit] at h
  | .all _ _, c, h => by simp [genVisit] at h
  | .rel op x y, c, h => by
    simp only [genVisit, genRel] at h
    split at h
    · exact mkPolytope_gen h
    · exact mkFwdbwd_gen h
  | .conj fs, c, h => by
    simp only [genVisit] at h
    obtain ⟨cs, h1, h2⟩ := bindO_ok h
    have g := genConj_gen fs h1
    split at h2
    · obtain ⟨p, h3, h4⟩ := bindO_ok h2
      rw [mkSeq_ok h4]
      exact flatten_gen (genCs_append.mpr ⟨g, mkPolytope_gen h3, trivial⟩)
    · rw [mkSeq_ok h2]; exact flatten_gen g
  | .disj fs, c, h => by
    simp only [genVisit] at h
    obtain ⟨cs, h1, h2⟩ := bindO_ok h
    rw [mkJoin_ok h2]
    exact genDisj_gen fs h1
theorem genConj_gen {up b} : ∀ (fs : List Fml) {cs}, genConj up b fs = .ok cs → GenCs b.vars cs
  | [], cs, h => by simp only [genConj, Outcome.ok.injEq] at h; subst h; exact trivial
  | f :: fs, cs, h => by
    simp only [genConj] at h
    split at h
    · exact genConj_gen fs h
    · obtain ⟨c, h1, h2⟩ := bindO_ok h
      obtain ⟨cs', h3, h4⟩ := bindO_ok h2
      simp only [Outcome.ok.injEq] at h4; subst h4
      exact ⟨genVisit_gen f h1, genConj_gen fs h3⟩
theorem genDisj_gen {up b} : ∀ (fs : List Fml) {cs}, genDisj up b fs = .ok cs → GenCs b.vars cs
  | [], cs, h => by simp only [genDisj, Outcome.ok.injEq] at h; subst h; exact trivial
  | f :: fs, cs, h => by
    simp only [genDisj] at h
    obtain ⟨c, h1, h2⟩ := bindO_ok h
    obtain ⟨cs', h3, h4⟩ := bindO_ok h2
    simp only [Outcome.ok.injEq] at h4; subst h4
    exact ⟨genVisit_gen f h1, genDisj_gen fs h3⟩
end

/-! ### They return sub-boxes and keep solutions -/

mutual
theorem gen_sub {D I ib} (ok : IbexSound D I ib) {n vs} : ∀ c : Ctc,
    GenC vs c → Closed (SubR vs) (prune ib n c)
  | .id, _, s, s', h => by
    simp only [prune, Run.ok.injEq] at h; subst h; exact (subR_pre vs).refl _
  | .integer _, hb, _, _, _ => hb.elim
  | .fixpoint _, hb, _, _, _ => hb.elim
  | .worklist _, hb, _, _, _ => hb.elim
  | .forallC _ _, hb, _, _, _ => hb.elim
  | .seq cs, hb, s, s', h => by
    simp only [prune] at h; exact seqRun_closed (subR_pre vs) (gens_sub ok cs hb) s s' h
  | .join cs, hb, s, s', h => by
    intro hs
    simp only [prune, joinRun] at h
    exact joinLoop_sub hs (gens_sub ok cs hb) { s with box := s.box.setEmpty } s' hs
      (subBox_setEmpty _ _) h
  | .fwdbwd ws f c, hb, s, s', h => by
    intro hs
    obtain ⟨rfl, _⟩ := hb
    simp only [prune] at h
    obtain ⟨h1, h2⟩ := fwdbwd_shape ok hs h
    exact ⟨h1, h2 ▸ ok.bwd_sub c s.box hs.2⟩
  | .polytope ws fs cs, hb, s, s', h => by
    intro hs
    obtain ⟨rfl, _⟩ := hb
    simp only [prune] at h
    obtain ⟨h1, h2⟩ := polytope_shape ok hs h
    exact ⟨h1, h2 ▸ ok.poly_sub cs s.box hs.2⟩
theorem gens_sub {D I ib} (ok : IbexSound D I ib) {n vs} :
    ∀ cs : List Ctc, GenCs vs cs → ∀ p ∈ prunes ib n cs, Closed (SubR vs) p
  | [], _, p, hp => by simp [prunes] at hp
  | c :: cs, h, p, hp => by
    simp only [prunes, List.mem_cons] at hp
    rcases hp with rfl | hp
    · exact gen_sub ok c h.1
    · exact gens_sub ok cs h.2 p hp
end

mutual
theorem gen_keep {D I ib} (ok : IbexSound D I ib) {n vs ρ} : ∀ c : Ctc, GenC vs c →
    (∀ f ∈ formulasC c, RcOkF f) → (∀ f ∈ formulasC c, DefF D I ρ f) → SatC I ρ c →
    Closed (KeepR vs ρ) (prune ib n c)
  | .id, _, _, _, _, s, s', h => by
    simp only [prune, Run.ok.injEq] at h; subst h; exact (keepR_pre vs ρ).refl _
  | .integer _, hb, _, _, _, _, _, _ => hb.elim
  | .fixpoint _, hb, _, _, _, _, _, _ => hb.elim
  | .worklist _, hb, _, _, _, _, _, _ => hb.elim
  | .forallC _ _, hb, _, _, _, _, _, _ => hb.elim
  | .seq cs, hb, hr, hd, hsat, s, s', h => by
    simp only [prune] at h
    exact seqRun_closed (keepR_pre vs ρ) (gens_keep ok cs hb hr hd hsat) s s' h
  | .join cs, hb, hr, hd, hsat, s, s', h => by
    intro hs
    have hsub := gen_sub ok (.join cs) hb s s' h hs
    refine ⟨hsub.1, fun hin => ?_⟩
    simp only [prune, joinRun] at h
    refine joinLoop_keep hs hin (fun p hp si hsi => (gens_sub ok cs hb p hp s si hsi hs).1)
      { s with box := s.box.setEmpty } s' (show Shape vs s.box.setEmpty from hs) h (Or.inr ?_)
    exact gens_any ok cs hb hr hd hsat hs hin
  | .fwdbwd ws f c, hb, hr, hd, hsat, s, s', h => by
    intro hs
    obtain ⟨rfl, hc⟩ := hb
    simp only [prune] at h
    obtain ⟨h1, h2⟩ := fwdbwd_shape ok hs h
    obtain ⟨e1, e2, e3, e4, e5⟩ := ibexConv_holds (D := D) (I := I) (ρ := ρ) hc
    refine ⟨h1, fun hin => ?_⟩
    rw [h2]
    exact ok.bwd_sound c s.box hs.2 (by rw [hs.1]; exact e5) (e3.mp (hr f (by simp [formulasC])))
      ρ hin (e2.mp (hd f (by simp [formulasC]))) (e1.mp hsat)
  | .polytope ws fs cs, hb, hr, hd, hsat, s, s', h => by
    intro hs
    obtain ⟨rfl, hc⟩ := hb
    simp only [prune] at h
    obtain ⟨h1, h2⟩ := polytope_shape ok hs h
    refine ⟨h1, fun hin => ?_⟩
    rw [h2]
    have key : ∀ c ∈ cs, (∀ v ∈ c.e.vars, v ∈ s.box.vars) ∧ RcOkE c.e ∧ DefE D I ρ c.e ∧
        relSem c.op (eval I ρ c.e) 0 := by
      intro c hcm
      obtain ⟨f, hf, hconv⟩ := polyCtrs_mem hc c hcm
      obtain ⟨e1, e2, e3, e4, e5⟩ := ibexConv_holds (D := D) (I := I) (ρ := ρ) hconv
      exact ⟨by rw [hs.1]; exact e5, e3.mp (hr f hf), e2.mp (hd f hf), e1.mp (hsat f hf)⟩
    exact ok.poly_sound cs s.box hs.2 (fun c hcm => (key c hcm).1) (fun c hcm => (key c hcm).2.1)
      ρ hin (fun c hcm => (key c hcm).2.2.1) (fun c hcm => (key c hcm).2.2.2)
theorem gens_keep {D I ib} (ok : IbexSound D I ib) {n vs ρ} : ∀ cs : List Ctc, GenCs vs cs →
    (∀ f ∈ formulasCs cs, RcOkF f) → (∀ f ∈ formulasCs cs, DefF D I ρ f) → SatAllC I ρ cs →
    ∀ p ∈ prunes ib n cs, Closed (KeepR vs ρ) p
  | [], _, _, _, _, p, hp => by simp [prunes] at hp
  | c :: cs, h, hr, hd, hsat, p, hp => by
    simp only [prunes, List.mem_cons] at hp
    rcases hp with rfl | hp
    · exact gen_keep ok c h.1 (fun f hf => hr f (by simp [formulasCs, hf]))
        (fun f hf => hd f (by simp [formulasCs, hf])) hsat.1
    · exact gens_keep ok cs h.2 (fun f hf => hr f (by simp [formulasCs, hf]))
        (fun f hf => hd f (by simp [formulasCs, hf])) hsat.2 p hp
theorem gens_any {D I ib} (ok : IbexSound D I ib) {n vs ρ} : ∀ cs : List Ctc, GenCs vs cs →
    (∀ f ∈ formulasCs cs, RcOkF f) → (∀ f ∈ formulasCs cs, DefF D I ρ f) → SatAnyC I ρ cs →
    ∀ {s : CStatus}, Shape vs s.box → InBox ρ s.box →
    ∃ p ∈ prunes ib n cs, ∀ si, p s = .ok si → InBox ρ si.box
  | [], _, _, _, hsat, _, _, _ => hsat.elim
  | c :: cs, h, hr, hd, hsat, s, hs, hin => by
    rcases hsat with hsat | hsat
    · refine ⟨prune ib n c, by simp [prunes], fun si hsi => ?_⟩
      exact (gen_keep ok c h.1 (fun f hf => hr f (by simp [formulasCs, hf]))
        (fun f hf => hd f (by simp [formulasCs, hf])) hsat s si hsi hs).2 hin
    · obtain ⟨p, hp, hp2⟩ := gens_any (n := n) ok cs h.2
        (fun f hf => hr f (by simp [formulasCs, hf]))
        (fun f hf => hd f (by simp [formulasCs, hf])) hsat hs hin
      exact ⟨p, by simp [prunes, hp], hp2⟩
end

/-! ### They leave the other variables alone -/

/-- The intervals of variables outside `F` lose nothing. -/
def KeepOff (vs F : List Variable) (a b : Box) : Prop :=
  ∀ i v, vs[i]? = some v → v ∉ F → ∀ x : ℝ, InItv x (a.get i) → InItv x (b.get i)

/-- A box that is not emptied has no empty interval, and loses nothing outside `F` (under `P`). -/
def LocR (P : Prop) (vs F : List Variable) (s s' : CStatus) : Prop :=
  Shape vs s.box → (Shape vs s'.box ∧ SubBox s'.box s.box) ∧
    (NoneEmpty s.box → s'.box.bot = false → NoneEmpty s'.box ∧ (P → KeepOff vs F s.box s'.box))

theorem locR_pre (P vs F) : PreR (LocR P vs F) where
  refl := fun _ h => ⟨⟨h, subBox_refl _⟩, fun hn _ => ⟨hn, fun _ _ _ _ _ _ hx => hx⟩⟩
  trans := fun _ _ _ h1 h2 h => by
    obtain ⟨⟨a1, a2⟩, a3⟩ := h1 h
    obtain ⟨⟨b1, b2⟩, b3⟩ := h2 a1
    refine ⟨⟨b1, subBox_trans b2 a2⟩, fun hn hb => ?_⟩
    obtain ⟨c1, c2⟩ := a3 hn (b2 hb).1
    obtain ⟨d1, d2⟩ := b3 c1 hb
    exact ⟨d1, fun hP i v hi hv x hx => d2 hP i v hi hv x (c2 hP i v hi hv x hx)⟩
  reset := fun _ h => ⟨⟨h, subBox_refl _⟩, fun hn _ => ⟨hn, fun _ _ _ _ _ _ hx => hx⟩⟩

theorem union_loc {P : Prop} {vs F : List Variable} {a b u o : Box} (h : a.union b = .ok u)
    (hw : Shape vs a) (hwb : Shape vs b) (hu : u.bot = false)
    (ha : a.bot = false → NoneEmpty a ∧ (P → KeepOff vs F o a))
    (hb : b.bot = false → NoneEmpty b ∧ (P → KeepOff vs F o b)) :
    NoneEmpty u ∧ (P → KeepOff vs F o u) := by
  unfold Box.union at h
  split at h
  · rename_i hv
    split at h
    · simp only [Outcome.ok.injEq] at h; subst h; exact hb hu
    · split at h
      · simp only [Outcome.ok.injEq] at h; subst h; exact ha hu
      · rename_i hab hbb
        simp only [Outcome.ok.injEq] at h; subst h
        obtain ⟨a1, a2⟩ := ha (by simpa using hab)
        have hl : b.vals.length = a.vals.length := by rw [hwb.2.1, hw.2.1, hv]
        have hget : ∀ i, i < a.vals.length →
            Box.get { a with vals := List.zipWith Itv.hull a.vals b.vals } i =
              (a.get i).hull (b.get i) := by
          intro i hi
          simp [Box.get, List.getD_eq_getElem?_getD, hi, (show i < b.vals.length by omega)]
        constructor
        · intro i v hi
          have hi' : a.vars[i]? = some v := hi
          obtain ⟨x, hx⟩ := a1 i v hi'
          rw [hget i (by rw [hw.2.1]; exact lt_of_getElem? hi')]
          exact ⟨x, in_hull_left hx⟩
        · intro hP i v hi hF x hx
          rw [hget i (by rw [hw.2.1, hw.1]; exact lt_of_getElem? hi)]
          exact in_hull_left (a2 hP i v hi hF x hx)
  · cases h

theorem joinLoop_loc {P : Prop} {vs F} {s : CStatus} (hs : Shape vs s.box) (hn : NoneEmpty s.box) :
    ∀ {ps : List Pruner}, (∀ p ∈ ps, Closed (LocR P vs F) p) → ∀ (acc s' : CStatus),
      Shape vs acc.box →
      (acc.box.bot = false → NoneEmpty acc.box ∧ (P → KeepOff vs F s.box acc.box)) →
      joinLoop s ps acc = .ok s' →
      (s'.box.bot = false → NoneEmpty s'.box ∧ (P → KeepOff vs F s.box s'.box))
  | [], _, acc, s', ha, hb, h => by
    simp only [joinLoop, Run.ok.injEq] at h; subst h; exact hb
  | p :: ps, hp, acc, s', ha, hb, h => by
    simp only [joinLoop] at h
    obtain ⟨si, h1, h2⟩ := bindR_ok h
    obtain ⟨acc', h3, h4⟩ := bindR_ok h2
    obtain ⟨⟨c1, c2⟩, c3⟩ := hp p (by simp) s si h1 hs
    have hu := join_box (lift_ok h3)
    have hsh := (union_in (ρ := fun _ => 0) hu ha.2 c1.2).1
    rw [ha.1] at hsh
    exact joinLoop_loc hs hn (fun q hq => hp q (by simp [hq])) acc' s' hsh
      (fun hb' => union_loc hu ha c1 hb' hb (c3 hn)) h4

mutual
theorem gen_loc {D I ib} {P : Prop} (ok : IbexSound D I ib) (loc : IbexLocal D I ib) {n vs F} :
    ∀ c : Ctc, GenC vs c → (P → ∀ f ∈ formulasC c, RcOkF f) →
    (∀ f ∈ formulasC c, ∀ v ∈ f.fv, v ∈ F) →
    Closed (LocR P vs F) (prune ib n c)
  | .id, _, _, _, s, s', h => by
    simp only [prune, Run.ok.injEq] at h; subst h; exact (locR_pre P vs F).refl _
  | .integer _, hb, _, _, _, _, _ => hb.elim
  | .fixpoint _, hb, _, _, _, _, _ => hb.elim
  | .worklist _, hb, _, _, _, _, _ => hb.elim
  | .forallC _ _, hb, _, _, _, _, _ => hb.elim
  | .seq cs, hb, hr, hF, s, s', h => by
    simp only [prune] at h
    exact seqRun_closed (locR_pre P vs F) (gens_loc ok loc cs hb hr hF) s s' h
  | .join cs, hb, hr, hF, s, s', h => by
    intro hs
    refine ⟨gen_sub ok (.join cs) hb s s' h hs, fun hn hb' => ?_⟩
    simp only [prune, joinRun] at h
    exact joinLoop_loc hs hn (gens_loc ok loc cs hb hr hF) { s with box := s.box.setEmpty } s' hs
      (fun h => by simp [Box.setEmpty] at h) h hb'
  | .fwdbwd ws f c, hb, hr, hF, s, s', h => by
    intro hs
    refine ⟨gen_sub ok (.fwdbwd ws f c) hb s s' h hs, fun hn hb' => ?_⟩
    obtain ⟨rfl, hc⟩ := hb
    simp only [prune] at h
    obtain ⟨h1, h2⟩ := fwdbwd_shape ok hs h
    rw [h2] at hb' ⊢
    refine ⟨loc.bwd_nonempty c s.box hs.2 hn hb', fun _ i v hi hv x hx => ?_⟩
    rw [loc.bwd_local c s.box hs.2 hb' i v (by rw [hs.1]; exact hi)]
    · exact hx
    · intro hm
      have := ibexConv_holds (D := D) (I := I) (ρ := fun _ => 0) hc
      exact hv (hF f (by simp [formulasC]) v ((this.2.2.2.1 v).mp hm))
  | .polytope ws fs cs, hb, hr, hF, s, s', h => by
    intro hs
    refine ⟨gen_sub ok (.polytope ws fs cs) hb s s' h hs, fun hn hb' => ?_⟩
    obtain ⟨rfl, hc⟩ := hb
    simp only [prune] at h
    obtain ⟨h1, h2⟩ := polytope_shape ok hs h
    rw [h2] at hb' ⊢
    refine ⟨loc.poly_nonempty cs s.box hs.2 hn hb', fun hP i v hi hv x hx => ?_⟩
    have key : ∀ c ∈ cs, (∀ v ∈ c.e.vars, v ∈ s.box.vars) ∧ RcOkE c.e ∧
        ∀ v ∈ c.e.vars, v ∈ F := by
      intro c hcm
      obtain ⟨f, hf, hconv⟩ := polyCtrs_mem hc c hcm
      obtain ⟨e1, e2, e3, e4, e5⟩ := ibexConv_holds (D := D) (I := I) (ρ := fun _ => 0) hconv
      exact ⟨by rw [hs.1]; exact e5, e3.mp (hr hP f hf), fun w hw => hF f hf w ((e4 w).mp hw)⟩
    have hi' : s.box.vars[i]? = some v := by rw [hs.1]; exact hi
    have := loc.poly_local cs s.box (fun w => w = v) (fun _ => x) hs.2
      (fun c hcm => (key c hcm).1) (fun c hcm => (key c hcm).2.1)
      (fun c hcm => Or.inl fun w hw (hwv : w = v) => hv (hwv ▸ (key c hcm).2.2 w hw)) hn
      (by
        intro j w hj hwv
        cases (hwv : w = v)
        have : j = i := (List.getElem?_inj (lt_of_getElem? hj) hs.2.2).mp (hj.trans hi'.symm)
        subst this; exact hx) hb'
    exact this i v (by rw [(ok.poly_shape cs s.box).1]; exact hi') rfl
theorem gens_loc {D I ib} {P : Prop} (ok : IbexSound D I ib) (loc : IbexLocal D I ib) {n vs F} :
    ∀ cs : List Ctc, GenCs vs cs → (P → ∀ f ∈ formulasCs cs, RcOkF f) →
    (∀ f ∈ formulasCs cs, ∀ v ∈ f.fv, v ∈ F) → ∀ p ∈ prunes ib n cs, Closed (LocR P vs F) p
  | [], _, _, _, p, hp => by simp [prunes] at hp
  | c :: cs, h, hr, hF, p, hp => by
    simp only [prunes, List.mem_cons] at hp
    rcases hp with rfl | hp
    · exact gen_loc ok loc c h.1 (fun hP f hf => hr hP f (by simp [formulasCs, hf]))
        (fun f hf => hF f (by simp [formulasCs, hf]))
    · exact gens_loc ok loc cs h.2 (fun hP f hf => hr hP f (by simp [formulasCs, hf]))
        (fun f hf => hF f (by simp [formulasCs, hf])) p hp
end

/-! ### The box that is pruned -/

theorem extendBox_ok : ∀ {qs : List Variable} {b e : Box}, extendBox b qs = .ok e → BoxWf b →
    e.vars = b.vars ++ qs ∧ BoxWf e
  | [], b, e, h, wf => by simp only [extendBox, Outcome.ok.injEq] at h; subst h; simp [wf]
  | q :: qs, b, e, h, wf => by
    simp only [extendBox] at h
    obtain ⟨b', h1, h2⟩ := bindO_ok h
    unfold Box.add at h1
    split at h1
    · cases h1
    · rename_i hq
      simp only [Outcome.ok.injEq] at h1; subst h1
      obtain ⟨g1, g2⟩ := extendBox_ok h2 ⟨by simp [wf.1], by
        simp only [List.nodup_append, wf.2, List.nodup_cons, List.not_mem_nil, not_false_eq_true,
          List.nodup_nil, and_self, List.mem_singleton, true_and]
        rintro a ha _ rfl rfl; exact hq ha⟩
      exact ⟨by rw [g1]; simp, g2⟩

/-- Writing intervals to distinct variables. -/
theorem writeVars_ok (F : Variable → Itv) : ∀ {vs : List Variable} {d e : Box},
    writeVars F vs d = .ok e → BoxWf d → vs.Nodup → Shape d.vars e ∧ e.bot = d.bot ∧
      ∀ i v, d.vars[i]? = some v → e.get i = if v ∈ vs then F v else d.get i
  | [], d, e, h, wf, _ => by
    simp only [writeVars, Outcome.ok.injEq] at h; subst h
    exact ⟨⟨rfl, wf⟩, rfl, by simp⟩
  | w :: vs, d, e, h, wf, hn => by
    simp only [writeVars] at h
    split at h
    · rename_i hw
      obtain ⟨hn1, hn2⟩ := List.nodup_cons.mp hn
      obtain ⟨h1, h2, h3⟩ := writeVars_ok F h (set_wf wf) hn2
      refine ⟨h1, h2, fun i v hi => ?_⟩
      rw [h3 i v hi]
      have hiw := (index_of_mem hw).2
      by_cases hvw : v = w
      · subst hvw
        have : d.index v = i := index_unique wf hi
        rw [if_neg hn1, if_pos (by simp), Box.setV, this,
          get_set_self (by rw [wf.1]; exact lt_of_getElem? hi)]
      · have hne : d.index w ≠ i := by
          intro he; rw [he, hi] at hiw; exact hvw (Option.some.inj hiw)
        simp only [List.mem_cons, hvw, false_or]
        split
        · rfl
        · rw [Box.setV, get_set_ne hne]
    · cases h

/-- The status box: the current intervals, then the midpoints. -/
theorem ceBox_ok {fp qs} {b ce d : Box} (h : ceBox fp qs b ce = .ok d) (wf : BoxWf b)
    (cwf : BoxWf ce) (cv : ce.vars = b.vars ++ qs) :
    Shape (b.vars ++ qs) d ∧ d.bot = ce.bot ∧ (∀ i v, b.vars[i]? = some v → d.get i = b.get i) ∧
    (∀ i q, (b.vars ++ qs)[i]? = some q → q ∈ qs →
      d.get i = Itv.point (fp.mid (ce.getV q))) := by
  simp only [ceBox] at h
  obtain ⟨d1, h1, h2⟩ := bindO_ok h
  have hnd : (b.vars ++ qs).Nodup := cv ▸ cwf.2
  have hq : qs.Nodup := (List.nodup_append.mp hnd).2.1
  have hdis := (List.nodup_append.mp hnd).2.2
  obtain ⟨a1, a2, a3⟩ := writeVars_ok _ h1 cwf wf.2
  obtain ⟨b1, b2, b3⟩ := writeVars_ok _ h2 a1.2 hq
  rw [a1.1] at b1 b3
  rw [cv] at b1 b3 a3
  refine ⟨b1, b2.trans a2, fun i v hi => ?_, fun i q hi hqm => ?_⟩
  · have hi' : (b.vars ++ qs)[i]? = some v := by
      rw [List.getElem?_append_left (lt_of_getElem? hi)]; exact hi
    have hv := List.mem_of_getElem? hi
    rw [b3 i v hi', if_neg (fun hq => hdis v hv v hq rfl), a3 i v hi', if_pos hv]
    rw [Box.getV, index_unique wf hi]
  · rw [b3 i q hi, if_pos hqm]

theorem copyChanged_get (src : Box) : ∀ (is : List Nat) (b : Box), (copyChanged src is b).1.vars = b.vars ∧
    (copyChanged src is b).1.vals.length = b.vals.length ∧ (copyChanged src is b).1.bot = b.bot ∧
    ∀ i, (copyChanged src is b).1.get i =
      if i ∈ is ∧ i < b.vals.length then src.get i else b.get i
  | [], b => by simp [copyChanged]
  | j :: is, b => by
    simp only [copyChanged]
    split
    · obtain ⟨h1, h2, h3, h4⟩ := copyChanged_get src is (b.set j (src.get j))
      have hl : (b.set j (src.get j)).vals.length = b.vals.length := by simp [Box.set]
      refine ⟨h1, h2.trans hl, h3, fun i => ?_⟩
      rw [h4 i, hl]
      by_cases hij : j = i
      · subst hij
        by_cases hlt : j < b.vals.length
        · simp [hlt, get_set_self hlt]
        · simp only [hlt, and_false, if_false]
          have : b.vals.set j (src.get j) = b.vals := List.set_eq_of_length_le (not_lt.mp hlt)
          simp only [Box.get, Box.set] at this ⊢
          rw [this]
      · rw [get_set_ne hij]
        simp [Ne.symm hij]
    · rename_i he
      push Not at he
      obtain ⟨h1, h2, h3, h4⟩ := copyChanged_get src is b
      refine ⟨h1, h2, h3, fun i => ?_⟩
      rw [h4 i]
      by_cases hij : i = j
      · subst hij
        by_cases h : i ∈ is <;> by_cases hl : i < b.vals.length <;> simp [h, hl, he]
      · simp [hij]

/-- What a round with a counterexample does to the box. -/
structure CeStep (b b' : Box) (s d : Box) : Prop where
  vars : b'.vars = b.vars
  len : b'.vals.length = b.vals.length
  emp : s.bot = true → b' = b.setEmpty
  get : s.bot = false → b'.bot = b.bot ∧ ∀ i v, b.vars[i]? = some v → b'.get i = s.get i

theorem pruneCe_ok {ib fp fuel ctc qs} {b ce : Box} {r} (wf : BoxWf b)
    (h : pruneCe ib fp fuel ctc qs b ce = .ok r) : ∃ d s, ceBox fp qs b ce = .ok d ∧
      prune ib fuel ctc { box := d } = .ok s ∧ CeStep b r.1 s.box d := by
  simp only [pruneCe] at h
  obtain ⟨d, h1, h2⟩ := bindR_ok h
  obtain ⟨s, h3, h4⟩ := bindR_ok h2
  refine ⟨d, s, lift_ok h1, h3, ?_⟩
  split at h4
  · rename_i he
    simp only [Run.ok.injEq] at h4; subst h4
    exact ⟨rfl, rfl, fun _ => rfl, fun hf => by simp [Box.empty, hf] at he⟩
  · rename_i he
    simp only [Run.ok.injEq] at h4; subst h4
    obtain ⟨g1, g2, g3, g4⟩ := copyChanged_get s.box (List.range b.size) b
    refine ⟨g1, g2, fun hf => by simp [Box.empty, hf] at he, fun _ => ⟨g3, fun i v hi => ?_⟩⟩
    have hl := lt_of_getElem? hi
    show (copyChanged s.box (List.range b.size) b).1.get i = _
    rw [g4 i, if_pos ⟨by simpa [Box.size] using hl, by rw [wf.1]; exact hl⟩]

/-- The contractor under the quantifier. -/
structure Inner (vs qs : List Variable) (g : Fml) (c : Ctc) : Prop where
  gen : GenC (vs ++ qs) c
  sat : ∀ I ρ, holds I ρ g → SatC I ρ c
  rc : RcOkF g → ∀ f ∈ formulasC c, RcOkF f
  defd : ∀ D I ρ, DefF D I ρ g → ∀ f ∈ formulasC c, DefF D I ρ f
  fv : ∀ f ∈ formulasC c, ∀ v ∈ f.fv, v ∈ g.fv

theorem generate_inner {up g vs qs} {e : Box} {c : Ctc} (he : e.vars = vs ++ qs)
    (h : generate up g e = .ok c) : Inner vs qs g c := by
  unfold generate at h
  obtain ⟨g1, g2, g3⟩ := genVisit_ok _ h
  have gg := genVisit_gen _ h
  rw [he] at gg
  refine ⟨gg, fun I ρ hg => g2 I ρ ((nnfVisit_holds I ρ true true g).mpr hg), fun hr => ?_, fun D I ρ hd => ?_, ?_⟩
  · exact g3 _ hered_rc (hered_rc.nnfVisit true true hr)
  · exact g3 _ (hered_def D I ρ) ((hered_def D I ρ).nnfVisit true true hd)
  · have hQ : Hered (fun f => ∀ v ∈ f.fv, v ∈ g.fv) := by
      refine ⟨by simp [Fml.fv], by simp [Fml.fv], fun h => by simpa [Fml.fv] using h,
        by simp [Fml.fv], ?_, ?_⟩
      · intro fs
        simp only [Fml.fv, Fml.mem_fvList]
        exact ⟨fun h f hf v hv => h v ⟨f, hf, hv⟩, fun h v ⟨f, hf, hv⟩ => h f hf v hv⟩
      · intro fs
        simp only [Fml.fv, Fml.mem_fvList]
        exact ⟨fun h f hf v hv => h v ⟨f, hf, hv⟩, fun h v ⟨f, hf, hv⟩ => h f hf v hv⟩
    exact g3 _ hQ (hQ.nnfVisit true true fun v hv => hv)

/-! ### The loop -/

/-- What pruning with the quantified constraint does to a box. -/
structure FaOk (D : Dom) (I : Interp) (vs qs : List Variable) (g : Fml) (b b' : Box) : Prop where
  shape : Shape vs b'
  sub : SubBox b' b
  sound : ∀ ρ, InBox ρ b → RcOkF g → DefF D I ρ (.all qs g) → holds I ρ (.all qs g) → InBox ρ b'

/-- The same for the variables that do not occur. -/
structure FaLoc (vs qs : List Variable) (g : Fml) (b b' : Box) : Prop where
  loc : NoneEmpty b → b'.bot = false →
    NoneEmpty b' ∧ (RcOkF g → KeepOff vs (Fml.all qs g).fv b b')

theorem faOk_refl {D I vs qs g b} (h : Shape vs b) : FaOk D I vs qs g b b :=
  ⟨h, subBox_refl _, fun _ h _ _ _ => h⟩

theorem faOk_trans {D I vs qs g a b c} (h1 : FaOk D I vs qs g a b) (h2 : FaOk D I vs qs g b c) :
    FaOk D I vs qs g a c :=
  ⟨h2.shape, subBox_trans h2.sub h1.sub, fun ρ h r d q =>
    h2.sound ρ (h1.sound ρ h r d q) r d q⟩

theorem faLoc_refl {vs qs g b} : FaLoc vs qs g b b := ⟨fun hn _ => ⟨hn, fun _ _ _ _ _ _ h => h⟩⟩

theorem faLoc_trans {vs qs g a b c} (hs : SubBox c b) (h1 : FaLoc vs qs g a b)
    (h2 : FaLoc vs qs g b c) : FaLoc vs qs g a c := ⟨fun hn hb => by
  obtain ⟨a1, a2⟩ := h1.loc hn (hs hb).1
  obtain ⟨b1, b2⟩ := h2.loc a1 hb
  exact ⟨b1, fun hr i v hi hv x hx => b2 hr i v hi hv x (a2 hr i v hi hv x hx)⟩⟩

theorem pruneCe_fa {D I ib fp fuel ctc vs qs g} {b ce : Box} {r} (ok : IbexSound D I ib)
    (hin : Inner vs qs g ctc) (hs : Shape vs b) (cv : ce.vars = vs ++ qs) (cwf : BoxWf ce)
    (cb : ce.bot = false) (cty : ∀ q ∈ qs, typeOk q.type ((fp.mid (ce.getV q) : ℚ) : ℝ))
    (h : pruneCe ib fp fuel ctc qs b ce = .ok r) : FaOk D I vs qs g b r.1 := by
  obtain ⟨d, s, h1, h2, st⟩ := pruneCe_ok hs.2 h
  obtain ⟨d1, d2, d3, d4⟩ := ceBox_ok h1 hs.2 cwf (by rw [hs.1]; exact cv)
  rw [hs.1] at d1 d4
  have hsub := gen_sub ok ctc hin.gen { box := d } s h2 d1
  have hshape : Shape vs r.1 := ⟨st.vars.trans hs.1, by
    rw [BoxWf, st.vars, st.len]; exact hs.2⟩
  have hgetv : ∀ (i : Nat) (v : Variable), b.vars[i]? = some v → (vs ++ qs)[i]? = some v := by
    intro i v hi
    rw [← hs.1, List.getElem?_append_left (lt_of_getElem? hi)]; exact hi
  refine ⟨hshape, ?_, ?_⟩
  · cases he : s.box.bot with
    | true => rw [st.emp he]; exact subBox_setEmpty _ _
    | false =>
      obtain ⟨g1, g2⟩ := st.get he
      intro hb
      refine ⟨g1 ▸ hb, fun i x hx => ?_⟩
      by_cases hi : i < b.vars.length
      · have hv := List.getElem?_eq_getElem hi
        rw [g2 i _ hv] at hx
        rw [← d3 i _ hv]
        exact (hsub.2 he).2 i x hx
      · rw [get_beyond hs.2 (by omega)]; exact ⟨trivial, trivial⟩
  · intro ρ hρ hr hd hh
    classical
    let ρ' : Valuation := fun v => if v ∈ qs then ((fp.mid (ce.getV v) : ℚ) : ℝ) else ρ v
    have hag : ∀ v, v ∉ qs → ρ' v = ρ v := fun v hv => by simp [ρ', hv]
    have hty : ∀ v ∈ qs, typeOk v.type (ρ' v) := fun v hv => by
      simp only [ρ', hv, if_true]; exact cty v hv
    have hh' : holds I ρ' g := by
      simp only [holds] at hh; exact hh ρ' hag hty
    have hd' : DefF D I ρ' g := by
      simp only [DefF] at hd; exact hd ρ' hag hty
    have hdis := (List.nodup_append.mp (cv ▸ cwf.2)).2.2
    have hind : InBox ρ' d := by
      refine ⟨d2.trans cb, fun i v hi => ?_⟩
      rw [d1.1] at hi
      by_cases hq : v ∈ qs
      · rw [d4 i v hi hq]
        simp only [ρ', hq, if_true]
        exact ⟨le_refl _, le_refl _⟩
      · have hlt : i < vs.length := by
          by_contra hge
          rw [List.getElem?_append_right (by omega)] at hi
          exact hq (List.mem_of_getElem? hi)
        have hv : b.vars[i]? = some v := by
          rw [hs.1]; rwa [List.getElem?_append_left hlt] at hi
        rw [d3 i v hv, hag v hq]
        exact hρ.2 i v hv
    have hk := (gen_keep ok ctc hin.gen (hin.rc hr) (hin.defd D I ρ' hd') (hin.sat I ρ' hh')
      { box := d } s h2 d1).2 hind
    obtain ⟨g1, g2⟩ := st.get hk.1
    refine ⟨g1.trans hρ.1, fun i v hi => ?_⟩
    rw [st.vars] at hi
    rw [g2 i v hi]
    have hq : v ∉ qs := fun hq => hdis v (hs.1 ▸ List.mem_of_getElem? hi) v hq rfl
    rw [← hag v hq]
    exact hk.2 i v (by rw [hsub.1.1]; exact hgetv i v hi)

theorem pruneCe_loc {D I ib fp fuel ctc vs qs g} {b ce : Box} {r} (ok : IbexSound D I ib)
    (loc : IbexLocal D I ib) (hin : Inner vs qs g ctc) (hs : Shape vs b)
    (cv : ce.vars = vs ++ qs) (cwf : BoxWf ce)
    (h : pruneCe ib fp fuel ctc qs b ce = .ok r) : FaLoc vs qs g b r.1 := by
  obtain ⟨d, s, h1, h2, st⟩ := pruneCe_ok hs.2 h
  obtain ⟨d1, d2, d3, d4⟩ := ceBox_ok h1 hs.2 cwf (by rw [hs.1]; exact cv)
  rw [hs.1] at d1 d4
  refine ⟨fun hn hb => ?_⟩
  have he : s.box.bot = false := by
    by_contra hc
    rw [st.emp (by simpa using hc)] at hb
    simp [Box.setEmpty] at hb
  obtain ⟨g1, g2⟩ := st.get he
  have hdn : NoneEmpty d := by
    intro i v hi
    rw [d1.1] at hi
    by_cases hq : v ∈ qs
    · rw [d4 i v hi hq]; exact ⟨_, le_refl _, le_refl _⟩
    · have hlt : i < vs.length := by
        by_contra hge
        rw [List.getElem?_append_right (by omega)] at hi
        exact hq (List.mem_of_getElem? hi)
      have hv : b.vars[i]? = some v := by
        rw [hs.1]; rwa [List.getElem?_append_left hlt] at hi
      rw [d3 i v hv]; exact hn i v hv
  obtain ⟨⟨s1, s2⟩, s3⟩ := gen_loc (P := RcOkF g) (F := g.fv) ok loc ctc hin.gen hin.rc hin.fv
    { box := d } s h2 d1
  obtain ⟨n1, n2⟩ := s3 hdn he
  have hgetv : ∀ (i : Nat) (v : Variable), vs[i]? = some v → (vs ++ qs)[i]? = some v := by
    intro i v hi
    rw [List.getElem?_append_left (lt_of_getElem? hi)]; exact hi
  have hdis := (List.nodup_append.mp (cv ▸ cwf.2)).2.2
  constructor
  · intro i v hi
    rw [st.vars] at hi
    rw [g2 i v hi]
    exact n1 i v (by rw [s1.1]; exact hgetv i v (hs.1 ▸ hi))
  · intro hr i v hi hv x hx
    have hi' : b.vars[i]? = some v := by rw [hs.1]; exact hi
    rw [g2 i v hi']
    refine n2 hr i v (hgetv i v hi) ?_ x (by show InItv x (d.get i); rw [d3 i v hi']; exact hx)
    intro hg
    apply hv
    simp only [Fml.fv, List.mem_filter, decide_eq_true_eq]
    exact ⟨hg, fun hq => hdis v (List.mem_of_getElem? hi) v hq rfl⟩

theorem forallLoop_fa {σ : Type} {D I ib fp fuel ctc vs qs g} {Inv : σ → Prop}
    {find : σ → Box → Run (Option Box × σ)} (ok : IbexSound D I ib)
    (hin : Inner vs qs g ctc) (hf : FindOk fp vs qs Inv find) : ∀ (n : Nat) (st : σ) (b : Box)
    (out : List Nat) (r : Box × List Nat × σ), Inv st → Shape vs b →
    forallLoop ib fp fuel ctc qs find n st b out = .ok r →
    FaOk D I vs qs g b r.1 ∧ (IbexLocal D I ib → FaLoc vs qs g b r.1) ∧ Inv r.2.2
  | 0, _, _, _, _, _, _, h => by simp [forallLoop] at h
  | n + 1, st, b, out, r, hI, hs, h => by
    simp only [forallLoop] at h
    obtain ⟨⟨o, st'⟩, h1, h2⟩ := bindR_ok h
    have hI' := hf.inv st b _ hI hs.2 hs.1 h1
    cases o with
    | none =>
      simp only [Run.ok.injEq] at h2; subst h2
      exact ⟨faOk_refl hs, fun _ => faLoc_refl, hI'⟩
    | some ce =>
      obtain ⟨p, h3, h4⟩ := bindR_ok h2
      obtain ⟨c1, c2⟩ := hf.shape st b ce st' hI hs.2 hs.1 h1
      have c3 := hf.nonempty st b ce st' hI hs.2 hs.1 h1
      have c4 := hf.typed st b ce st' hI hs.2 hs.1 h1
      have a1 := pruneCe_fa ok hin hs c1 c2 c3 c4 h3
      have a2 := fun loc => pruneCe_loc ok loc hin hs c1 c2 h3
      split at h4
      · simp only [Run.ok.injEq] at h4; subst h4
        exact ⟨a1, a2, hI'⟩
      · obtain ⟨b1, b2, b3⟩ := forallLoop_fa ok hin hf n st' p.1 _ r hI' a1.shape h4
        exact ⟨faOk_trans a1 b1, fun loc => faLoc_trans b1.sub (a2 loc) (b2 loc), b3⟩

theorem copyChanged_shape (src : Box) : ∀ (is : List Nat) (b : Box),
    (copyChanged src is b).1.vars = b.vars ∧
      (copyChanged src is b).1.vals.length = b.vals.length
  | [], _ => ⟨rfl, rfl⟩
  | i :: is, b => by
    simp only [copyChanged]
    split
    · obtain ⟨h1, h2⟩ := copyChanged_shape src is (b.set i (src.get i))
      exact ⟨h1, h2.trans (by simp [Box.set])⟩
    · exact copyChanged_shape src is b

theorem pruneCe_shape {ib fp fuel ctc qs} {b ce : Box} {r}
    (h : pruneCe ib fp fuel ctc qs b ce = .ok r) :
    r.1.vars = b.vars ∧ r.1.vals.length = b.vals.length := by
  simp only [pruneCe] at h
  obtain ⟨d, -, h⟩ := bindR_ok h
  obtain ⟨s, -, h⟩ := bindR_ok h
  split at h
  · simp only [Run.ok.injEq] at h; subst h; exact ⟨rfl, rfl⟩
  · simp only [Run.ok.injEq] at h; subst h; exact copyChanged_shape _ _ _

theorem forallLoop_shape {σ : Type} {ib fp fuel ctc qs} {find : σ → Box → Run (Option Box × σ)} :
    ∀ (n : Nat) (st : σ) (b : Box) (out : List Nat) (r : Box × List Nat × σ),
    forallLoop ib fp fuel ctc qs find n st b out = .ok r →
    r.1.vars = b.vars ∧ r.1.vals.length = b.vals.length
  | 0, _, _, _, _, h => by simp [forallLoop] at h
  | n + 1, st, b, out, r, h => by
    simp only [forallLoop] at h
    obtain ⟨⟨o, st'⟩, -, h⟩ := bindR_ok h
    cases o with
    | none => simp only [Run.ok.injEq] at h; subst h; exact ⟨rfl, rfl⟩
    | some ce =>
      simp only at h
      obtain ⟨p, h1, h⟩ := bindR_ok h
      have hp := pruneCe_shape h1
      split at h
      · simp only [Run.ok.injEq] at h; subst h; exact hp
      · have := forallLoop_shape n st' p.1 _ r h
        exact ⟨this.1.trans hp.1, this.2.trans hp.2⟩

theorem forallPrune_shape {σ : Type} {ib fp fuel up vs f} {st : σ}
    {find : σ → Box → Run (Option Box × σ)} {b : Box} {r}
    (h : forallPrune ib fp fuel up find st vs f b = .ok r) :
    r.1.vars = b.vars ∧ r.1.vals.length = b.vals.length := by
  cases f with
  | all qs g =>
    simp only [forallPrune] at h
    obtain ⟨e, -, h⟩ := bindR_ok h
    obtain ⟨c, -, h⟩ := bindR_ok h
    exact forallLoop_shape _ _ _ _ _ h
  | _ => simp [forallPrune] at h

theorem forallPrune_fa {σ : Type} {D I ib fp fuel up vs f} {Inv : σ → Prop} {st : σ}
    {find : σ → Box → Run (Option Box × σ)} {b : Box} {r} (ok : IbexSound D I ib)
    (hf : ∀ qs g, f = .all qs g → (vs ++ qs).Nodup → FindOk fp vs qs Inv find ∧ Inv st)
    (hs : Shape vs b)
    (h : forallPrune ib fp fuel up find st vs f b = .ok r) :
    ∃ qs g, f = .all qs g ∧ FaOk D I vs qs g b r.1 ∧
      (IbexLocal D I ib → FaLoc vs qs g b r.1) ∧ Inv r.2.2 := by
  cases f with
  | all qs g =>
    simp only [forallPrune] at h
    obtain ⟨e, h1, h2⟩ := bindR_ok h
    obtain ⟨c, h3, h4⟩ := bindR_ok h2
    have hn : vs.Nodup := hs.1 ▸ hs.2.2
    obtain ⟨e1, e2⟩ := extendBox_ok (lift_ok h1) ⟨by simp, hn⟩
    obtain ⟨f1, f2⟩ := hf qs g rfl (by have := e2.2; rw [e1] at this; exact this)
    exact ⟨qs, g, rfl, forallLoop_fa ok (generate_inner e1 (lift_ok h3)) f1 fuel st b []
      r f2 hs h4⟩
  | _ => simp [forallPrune] at h

end Verif.Proof
