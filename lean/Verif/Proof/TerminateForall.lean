import Verif.Proof.TerminateCheck
import Verif.Proof.ForallFind

/-!
# The loop of the forall contractor ends: lemmas
-/

namespace Verif.Proof
open Verif Verif.Model Verif.Spec

variable {G : Finset EQ}

mutual
theorem genC_wl {vs R} : ∀ c : Ctc, GenC vs c → WlOk R c ∧ fan c = 0
  | .id, _ => ⟨trivial, rfl⟩
  | .seq cs, h => genCs_wl cs h
  | .join cs, h => genCs_wl cs h
  | .fwdbwd .., _ => ⟨trivial, rfl⟩
  | .polytope .., _ => ⟨trivial, rfl⟩
  | .integer _, h => h.elim
  | .fixpoint _, h => h.elim
  | .worklist _, h => h.elim
  | .forallC .., h => h.elim
theorem genCs_wl {vs R} : ∀ cs : List Ctc, GenCs vs cs → WlOkAll R cs ∧ fanAll cs = 0
  | [], _ => ⟨trivial, rfl⟩
  | c :: cs, h => by
    obtain ⟨a1, a2⟩ := genC_wl (R := R) c h.1
    obtain ⟨b1, b2⟩ := genCs_wl (R := R) cs h.2
    exact ⟨⟨a1, b1⟩, by simp [fanAll, a2, b2]⟩
end

mutual
theorem genC_over {vs R} : ∀ c : Ctc, GenC vs c → Over none R c
  | .id, _ => trivial
  | .seq cs, h => genCs_over cs h
  | .join cs, h => genCs_over cs h
  | .fwdbwd .., _ => trivial
  | .polytope .., _ => trivial
  | .integer _, h => h.elim
  | .fixpoint _, h => h.elim
  | .worklist _, h => h.elim
  | .forallC .., h => h.elim
theorem genCs_over {vs R} : ∀ cs : List Ctc, GenCs vs cs → OverAll none R cs
  | [], _ => trivial
  | c :: cs, h => ⟨genC_over c h.1, genCs_over cs h.2⟩
end

theorem copyChanged_none (src : Box) : ∀ (is : List Nat) (b : Box), (copyChanged src is b).2 = [] →
    (copyChanged src is b).1 = b
  | [], _, _ => rfl
  | i :: is, b, h => by
    simp only [copyChanged] at h ⊢
    split at h
    · simp at h
    · rename_i he
      rw [if_neg he]
      exact copyChanged_none src is b h

theorem copyChanged_some (src : Box) : ∀ (is : List Nat) (b : Box), (copyChanged src is b).2 ≠ [] →
    ∃ i ∈ is, b.get i ≠ src.get i
  | [], _, h => by simp [copyChanged] at h
  | i :: is, b, h => by
    simp only [copyChanged] at h
    split at h
    · rename_i he
      exact ⟨i, by simp, he⟩
    · obtain ⟨j, h1, h2⟩ := copyChanged_some src is b h
      exact ⟨j, by simp [h1], h2⟩

theorem bounded_get {b : Box} (wf : BoxWf b) : Bounded G b ↔ (b.bot = false → ∀ i v,
    b.vars[i]? = some v → (b.get i).lb ∈ G ∧ (b.get i).ub ∈ G) := by
  constructor
  · intro h hb i v hi
    have hlt : i < b.vals.length := by rw [wf.1]; exact lt_of_getElem? hi
    have : b.get i = b.vals[i] := by simp [Box.get, hlt]
    rw [this]
    exact h hb _ (List.getElem_mem hlt)
  · intro h hb iv hiv
    obtain ⟨i, hi, rfl⟩ := List.getElem_of_mem hiv
    have hlt : i < b.vars.length := by rw [← wf.1]; exact hi
    have : b.get i = b.vals[i] := by simp [Box.get, hi]
    rw [← this]
    exact h hb i _ (List.getElem?_eq_getElem hlt)

/-- One round of the loop. -/
theorem pruneCe_ends {ib fp fuel ctc vs qs} {b ce : Box} (hG : GridOps G ib)
    (hg : GenC (vs ++ qs) ctc) (hs : Shape vs b) (hb : Bounded G b) (h0 : b.bot = false)
    (cv : ce.vars = vs ++ qs) (cwf : BoxWf ce) (cb : ce.bot = false)
    (cm : ∀ q ∈ qs, EQ.fin (fp.mid (ce.getV q)) ∈ G)
    (hk : pruneBound G (vs.length + qs.length) 0 ≤ fuel) :
    pruneCe ib fp fuel ctc qs b ce ≠ .oof ∧
    ∀ r, pruneCe ib fp fuel ctc qs b ce = .ok r → Bounded G r.1 ∧ Inside r.1 b ∧
      (r.1.bot = false → r.2.2 = true → r.1.vals = b.vals ∧ r.2.1 = []) ∧
      (r.2.2 = false → r.1.bot = false ∧ r.1.vals ≠ b.vals) := by
  obtain ⟨w1, w2⟩ := genC_wl (R := fun _ => False) ctc hg
  have hd : ∀ d, ceBox fp qs b ce = .ok d → Shape (vs ++ qs) d ∧ d.bot = false ∧ Bounded G d ∧
      ∀ i v, b.vars[i]? = some v → d.get i = b.get i := by
    intro d h
    obtain ⟨d1, d2, d3, d4⟩ := ceBox_ok h hs.2 cwf (by rw [hs.1]; exact cv)
    rw [hs.1] at d1 d4
    refine ⟨d1, d2.trans cb, ?_, d3⟩
    rw [bounded_get d1.2]
    intro _ i v hi
    rw [d1.1] at hi
    by_cases hq : v ∈ qs
    · rw [d4 i v hi hq]
      exact ⟨cm v hq, cm v hq⟩
    · have hlt : i < vs.length := by
        by_contra hge
        rw [List.getElem?_append_right (by omega)] at hi
        exact hq (List.mem_of_getElem? hi)
      have hv : b.vars[i]? = some v := by
        rw [hs.1]; rwa [List.getElem?_append_left hlt] at hi
      rw [d3 i v hv]
      exact (bounded_get hs.2).mp hb h0 i v hv
  constructor
  · unfold pruneCe
    refine run_bind_oof (lift_oof _) fun d h => ?_
    obtain ⟨d1, d2, d3, -⟩ := hd d (lift_ok h)
    refine run_bind_oof ?_ fun s _ => by dsimp only; split <;> simp
    refine prune_ends hG (R := fun _ => False) (k := 2 * G.card * (vs.length + qs.length) + 1) ctc
      (genC_over ctc hg) w1 (by rw [w2]; exact hk) { box := d }
      ⟨d3, fun _ _ h => h.elim, fun _ e => by cases e⟩ ?_
    have h1 := room_card G d
    rw [d1.2.1, d1.1, List.length_append] at h1
    show room G d < _
    omega
  · intro r h
    simp only [pruneCe] at h
    obtain ⟨d, h1, h2⟩ := bindR_ok h
    obtain ⟨s, h3, h4⟩ := bindR_ok h2
    obtain ⟨d1, d2, d3, d4⟩ := hd d (lift_ok h1)
    obtain ⟨p1, p2⟩ := prune_shrinks hG fuel ctc (genC_over (R := fun _ => False) ctc hg)
      { box := d } s ⟨d3, fun _ _ h => h.elim, fun _ e => by cases e⟩ h3
    split at h4
    · simp only [Run.ok.injEq] at h4; subst h4
      refine ⟨fun h => ?_, fun h => ?_, fun h => ?_, fun h => ?_⟩
      all_goals simp [Box.setEmpty] at h
    · rename_i he
      have he : s.box.bot = false := by simpa [Box.empty] using he
      simp only [Run.ok.injEq] at h4; subst h4
      obtain ⟨g1, g2, g3, g4⟩ := copyChanged_get s.box (List.range b.size) b
      obtain ⟨-, q1, q2, q3⟩ := p2 he
      have hget : ∀ (i : Nat) (v : Variable), b.vars[i]? = some v →
          (copyChanged s.box (List.range b.size) b).1.get i = s.box.get i := by
        intro i v hi
        have hl := lt_of_getElem? hi
        rw [g4 i, if_pos ⟨by simpa [Box.size] using hl, by rw [hs.2.1]; exact hl⟩]
      have hwf : BoxWf (copyChanged s.box (List.range b.size) b).1 := by
        rw [BoxWf, g1, g2]; exact hs.2
      have hswf : BoxWf s.box := ⟨by rw [q2, q1]; exact d1.2.1, by rw [q1]; exact d1.2.2⟩
      have hext : ∀ (i : Nat) (v : Variable), b.vars[i]? = some v → s.box.vars[i]? = some v := by
        intro i v hi
        rw [q1]
        show d.vars[i]? = _
        rw [d1.1, ← hs.1, List.getElem?_append_left (lt_of_getElem? hi)]
        exact hi
      refine ⟨?_, ?_, ?_, ?_⟩
      · rw [bounded_get hwf]
        intro _ i v hi
        rw [g1] at hi
        rw [hget i v hi]
        exact (bounded_get hswf).mp p1 he i v (hext i v hi)
      · refine fun _ => ⟨h0, g1, g2, fun i => ?_⟩
        by_cases hi : i < b.vars.length
        · have hv := List.getElem?_eq_getElem hi
          rw [hget i _ hv, ← d4 i _ hv]
          exact q3 i
        · rw [get_beyond hs.2 (by omega), get_beyond hwf (by rw [g1]; omega)]
          exact ⟨le_refl _, le_refl _⟩
      · intro _ h
        rw [List.isEmpty_iff] at h
        exact ⟨by rw [copyChanged_none _ _ _ h], h⟩
      · intro h
        refine ⟨g3.trans h0, fun hv => ?_⟩
        have hne : (copyChanged s.box (List.range b.size) b).2 ≠ [] := by
          intro e; simp [e] at h
        obtain ⟨i, hi, hd⟩ := copyChanged_some _ _ _ hne
        apply hd
        have hl : i < b.vars.length := by simpa [Box.size] using hi
        rw [← hget i _ (List.getElem?_eq_getElem hl), Box.get, Box.get, hv]

theorem forallLoop_ends {σ : Type} {ib fp fuel ctc vs qs} {Inv : σ → Prop}
    {find : σ → Box → Run (Option Box × σ)} (hG : GridOps G ib)
    (hg : GenC (vs ++ qs) ctc) (hf : FindOk fp vs qs Inv find) (he : FindEnds G fp vs qs Inv find)
    (hk : pruneBound G (vs.length + qs.length) 0 ≤ fuel) : ∀ (n : Nat) (st : σ) (b : Box)
    (out : List Nat), Inv st → Shape vs b → Bounded G b → IntsSized b → b.bot = false →
    room G b < n → forallLoop ib fp fuel ctc qs find n st b out ≠ .oof ∧
      ∀ r, forallLoop ib fp fuel ctc qs find n st b out = .ok r → Bounded G r.1 ∧ Inside r.1 b ∧
        (r.1.bot = false → r.1.vals = b.vals → r.2.1 = out)
  | 0, _, _, _, _, _, _, _, _, h => by omega
  | n + 1, st, b, out, hI, hs, hb, hz, h0, hr => by
    have key : ∀ o st', find st b = .ok (o, st') → ∀ ce, o = some ce → Inv st' ∧
        pruneCe ib fp fuel ctc qs b ce ≠ .oof ∧
        ∀ p, pruneCe ib fp fuel ctc qs b ce = .ok p → Bounded G p.1 ∧ Inside p.1 b ∧
          (p.1.bot = false → p.2.2 = true → p.1.vals = b.vals ∧ p.2.1 = []) ∧
          (p.2.2 = false → Shape vs p.1 ∧ IntsSized p.1 ∧ p.1.bot = false ∧ room G p.1 < room G b) := by
      intro o st' h1 ce ho
      subst ho
      have hI' := hf.inv st b _ hI hs.2 hs.1 h1
      obtain ⟨c1, c2⟩ := hf.shape st b ce st' hI hs.2 hs.1 h1
      have c3 := hf.nonempty st b ce st' hI hs.2 hs.1 h1
      have c4 := he.grid st b ce st' hI hs.2 hs.1 h0 hb hz h1
      obtain ⟨a1, a2⟩ := pruneCe_ends (fp := fp) hG hg hs hb h0 c1 c2 c3 c4 hk
      refine ⟨hI', a1, fun p hp => ?_⟩
      obtain ⟨b1, b2, b3, b4⟩ := a2 p hp
      refine ⟨b1, b2, b3, fun h => ?_⟩
      obtain ⟨e1, e2⟩ := b4 h
      obtain ⟨-, v1, l1, i1⟩ := b2 e1
      refine ⟨⟨v1.trans hs.1, by rw [BoxWf, v1, l1]; exact hs.2⟩, ?_, e1, room_lt b2 hb e1 e2⟩
      intro _ i hi
      rw [v1] at hi
      have := hz h0 i hi
      exact ⟨this.1.trans (i1 i).1, (i1 i).2.trans this.2⟩
    unfold forallLoop
    constructor
    · refine run_bind_oof (he.ends st b hI hs.2 hs.1 h0 hb hz) fun r1 h1 => ?_
      obtain ⟨o, st'⟩ := r1
      cases o with
      | none => simp
      | some ce =>
        obtain ⟨hI', a1, a2⟩ := key _ _ h1 ce rfl
        refine run_bind_oof a1 fun p hp => ?_
        obtain ⟨b1, b2, b3, b4⟩ := a2 p hp
        split
        · simp
        · rename_i hc
          obtain ⟨s1, s2, s3, s4⟩ := b4 (by simpa using hc)
          exact (forallLoop_ends hG hg hf he hk n st' p.1 _ hI' s1 b1 s2 s3 (by omega)).1
    · intro r h
      obtain ⟨⟨o, st'⟩, h1, h2⟩ := bindR_ok h
      cases o with
      | none =>
        simp only [Run.ok.injEq] at h2; subst h2
        exact ⟨hb, inside_refl _, fun _ _ => rfl⟩
      | some ce =>
        obtain ⟨hI', a1, a2⟩ := key _ _ h1 ce rfl
        obtain ⟨p, h3, h4⟩ := bindR_ok h2
        obtain ⟨b1, b2, b3, b4⟩ := a2 p h3
        split at h4
        · rename_i hc
          simp only [Run.ok.injEq] at h4; subst h4
          refine ⟨b1, b2, fun e1 _ => ?_⟩
          rw [(b3 e1 hc).2]; rfl
        · rename_i hc
          obtain ⟨s1, s2, s3, s4⟩ := b4 (by simpa using hc)
          obtain ⟨t1, t2, -⟩ :=
            (forallLoop_ends hG hg hf he hk n st' p.1 _ hI' s1 b1 s2 s3 (by omega)).2 r h4
          refine ⟨t1, inside_trans t2 b2, fun e1 e2 => ?_⟩
          exfalso
          have u1 := room_le G t2
          have u2 : room G r.1 = room G b := by simp [room, e1, h0, e2]
          omega

theorem forallPrune_ends {σ : Type} {ib fp fuel up vs qs g} {Inv : σ → Prop} {st : σ}
    {find : σ → Box → Run (Option Box × σ)} {b : Box} (hG : GridOps G ib)
    (hf : FindOk fp vs qs Inv find) (he : FindEnds G fp vs qs Inv find) (hI : Inv st)
    (hs : Shape vs b) (hb : Bounded G b) (hz : IntsSized b) (h0 : b.bot = false)
    (hk : pruneBound G (vs.length + qs.length) 0 ≤ fuel) :
    forallPrune ib fp fuel up find st vs (.all qs g) b ≠ .oof ∧
      ∀ r, forallPrune ib fp fuel up find st vs (.all qs g) b = .ok r → Bounded G r.1 ∧
        Inside r.1 b ∧ (r.1.bot = false → r.1.vals = b.vals → r.2.1 = []) := by
  have hroom : room G b < fuel := by
    have h1 := room_card G b
    rw [hs.2.1, hs.1] at h1
    have h2 : 2 * G.card * vs.length ≤ 2 * G.card * (vs.length + qs.length) :=
      Nat.mul_le_mul_left _ (by omega)
    unfold pruneBound at hk
    omega
  have key : ∀ e c, extendBox ⟨vs, vs.map fun v => Box.initItv v.type, false⟩ qs = .ok e →
      generate up g e = .ok c → GenC (vs ++ qs) c := by
    intro e c h1 h3
    have hn : vs.Nodup := hs.1 ▸ hs.2.2
    obtain ⟨e1, e2⟩ := extendBox_ok h1 ⟨by simp, hn⟩
    exact (generate_inner e1 h3).gen
  simp only [forallPrune]
  constructor
  · refine run_bind_oof (lift_oof _) fun e h1 => run_bind_oof (lift_oof _) fun c h2 => ?_
    exact (forallLoop_ends hG (key e c (lift_ok h1) (lift_ok h2)) hf he hk fuel st b [] hI hs hb hz h0
      hroom).1
  · intro r h
    obtain ⟨e, h1, h⟩ := bindR_ok h
    obtain ⟨c, h2, h⟩ := bindR_ok h
    exact (forallLoop_ends hG (key e c (lift_ok h1) (lift_ok h2)) hf he hk fuel st b [] hI hs hb hz h0
      hroom).2 r h

/-! ## The search for counterexamples -/

/-- What a check leaves of the state of the SAT solver. -/
theorem checkLoop_tame {cfg : CCfg} {vs : List Variable} {H : Variable → Option Nat}
    (hd : DblOk cfg.th.dbl) (hp : PicosatOk cfg.ps) (hn : vs.Nodup)
    (hH : ∀ (i : Nat) v, vs[i]? = some v → H v = some i) {A : List Variable → Prop}
    (hAv : ∀ ws, A ws → ws = vs) {D I} (he : EnvOk D I cfg.env) :
    ∀ {n box s cache tick o s' cache' tick'},
      checkLoop cfg n box s cache tick = .ok (o, s', cache', tick') → Shape vs box → SatStr vs s →
      (∀ v ∈ vs, v.id < s.abs.next) → CacheInv H A cache → SatD s →
      (∀ p ∈ s.abs.table, Atm (A vs) p.2) →
      SatStr vs s' ∧ CacheInv H A cache' ∧ SatD s' ∧ s'.abs = s.abs ∧ s'.maxVar = s.maxVar
  | 0, _, _, _, _, _, _, _, _, h, _, _, _, _, _, _ => by simp [checkLoop] at h
  | n + 1, box, s, cache, tick, o, s', cache', tick', h, hsh, hst, hv, hc, hsd, hT => by
    simp only [checkLoop] at h
    obtain ⟨⟨sm, s1⟩, hr, h2⟩ := bindR_ok h
    have hr := lift_ok hr
    cases sm with
    | none =>
      simp only [Run.ok.injEq, Prod.mk.injEq] at h2
      obtain ⟨rfl, rfl, rfl, rfl⟩ := h2
      obtain ⟨e, -⟩ := satCheck_none hp hr
      subst e
      exact ⟨satStr_calls hst, hc, ⟨hsd.inv, hsd.lsym⟩, rfl, rfl⟩
    | some m =>
      obtain ⟨e, hbool, hth⟩ := satCheck_some hst hr
      have hw := writeBools_shape (ps := m.bool) hsh
      have hst1 : SatStr vs s1 := by rw [e]; exact satStr_calls hst
      have hsd1 : SatD s1 := by rw [e]; exact ⟨hsd.inv, hsd.lsym⟩
      have ha1 : s1.abs = s.abs := by rw [e]
      have hm1 : s1.maxVar = s.maxVar := by rw [e]
      simp only at h2
      split at h2
      · simp only [Run.ok.injEq, Prod.mk.injEq] at h2
        obtain ⟨rfl, rfl, rfl, rfl⟩ := h2
        exact ⟨hst1, hc, hsd1, ha1, hm1⟩
      · obtain ⟨fs, h3, h4⟩ := bindR_ok h2
        have hfs := lift_ok h3
        obtain ⟨t1, _⟩ := theoryLits_mem hfs
        have hatom := hth fs hfs
        obtain ⟨⟨t, c', tk⟩, ht, h6⟩ := bindR_ok h4
        have hT1 : ∀ p ∈ s1.abs.table, Atm (A vs) p.2 := by rw [ha1]; exact hT
        have hnoAll : ∀ f ∈ fs, f.isAll = true → A vs := by
          intro f hf hall
          obtain ⟨v, b, a, _, g1, rfl⟩ := t1 f hf
          exact (hT1 _ g1).all b hall
        have hc' := theoryCheck_cacheInv hw hn hH (fun f hf => (hatom f hf).1) (A := A) hnoAll hc ht
        cases t with
        | sat b =>
          simp only [Run.ok.injEq, Prod.mk.injEq] at h6
          obtain ⟨rfl, rfl, rfl, rfl⟩ := h6
          exact ⟨hst1, hc', hsd1, ha1, hm1⟩
        | unsat E =>
          obtain ⟨s2, hl, h7⟩ := bindR_ok h6
          have hl := lift_ok hl
          have hlits : LitsOk fs (writeBools box m.bool).vars := by
            refine ⟨fun f hf => wfF_rc f (hatom f hf).1.wf, fun f hf v hv' => ?_⟩
            rw [hw.1]
            exact (AtomF.fv f (hatom f hf).1 v hv').2
          obtain ⟨hE, -⟩ := theoryCheck_unsat he hd hw.2 hlits
            (by rw [hw.1]; exact hc.ok hH hAv) ht
          have hv1 : ∀ v ∈ vs, v.id < s1.abs.next := by rw [ha1]; exact hv
          obtain ⟨k1, -⟩ := addLearned_str hst1 hv1 (fun f hf => (hatom f (hE f hf)).1) hl
          have hl' := hl
          simp only [addLearned] at hl'
          obtain ⟨⟨ls, s3⟩, q1, q2⟩ := bindO_ok hl'
          obtain ⟨q3, q4⟩ := learned_lits hst1.tab hT1 (th := m.theory)
            (fun f hf => by
              obtain ⟨v, b, a, g0, g1, g2⟩ := t1 f (hE f hf)
              exact ⟨v, b, a, g0, g1, g2⟩) q1
          simp only [Outcome.ok.injEq] at q2
          rw [q3] at q2
          subst q2
          obtain ⟨r1, r2, r3, r4, r5⟩ := checkLoop_tame hd hp hn hH hAv he h7 hw k1 hv1 hc' (by
            refine ⟨hsd1.inv, fun c hc l hl2 => ?_⟩
            rcases List.mem_append.mp hc with hc | hc
            · exact hsd1.lsym c hc l hl2
            · rw [List.mem_singleton] at hc
              subst hc
              obtain ⟨v, b, k, _, g2, rfl⟩ := q4 l hl2
              obtain ⟨w, g3, _⟩ := hst1.ss _ _ g2
              refine ⟨w, ?_⟩
              rw [← g3]
              congr 1
              unfold litOf; split <;> simp) hT1
          exact ⟨r1, r2, r3, r4.trans ha1, r5.trans hm1⟩

/-- A context that checks and new intervals have made of `c0`. -/
structure Tame (H : Variable → Option Nat) (A : List Variable → Prop) (c0 c : Ctx) : Prop where
  shape : Shape c0.box.vars c.box
  str : SatStr c0.box.vars c.sat
  cache : CacheInv H A c.cache
  satd : SatD c.sat
  abs : c.sat.abs = c0.sat.abs
  max : c.sat.maxVar = c0.sat.maxVar

theorem Tame.setRaw {H A c0 c} (h : Tame H A c0 c) (v lb ub) : Tame H A c0 (setIntervalRaw c v lb ub) := by
  refine ⟨?_, h.str, h.cache, h.satd, h.abs, h.max⟩
  unfold setIntervalRaw
  rw [setBox_box]
  obtain ⟨e, w⟩ := h.shape
  have := shape_setV (vs := c0.box.vars) ⟨e, w⟩ v (mkItv lb ub)
  exact ⟨this.1, this.2⟩

theorem Tame.setOuter {H A c0 b} : ∀ (vs : List Variable) {c : Ctx}, Tame H A c0 c →
    Tame H A c0 (setOuter b vs c)
  | [], _, h => h
  | _ :: vs, _, h => (h.setRaw _ _ _).setOuter vs

theorem Tame.check {cfg : CCfg} {H A c0 c o c'}
    (hd : DblOk cfg.th.dbl) (hp : PicosatOk cfg.ps) (hn : c0.box.vars.Nodup)
    (hH : ∀ (i : Nat) v, c0.box.vars[i]? = some v → H v = some i)
    (hAv : ∀ ws, A ws → ws = c0.box.vars) {D I} (he : EnvOk D I cfg.env)
    (hv : ∀ v ∈ c0.box.vars, v.id < c0.sat.abs.next) (hT : ∀ p ∈ c0.sat.abs.table, Atm (A c0.box.vars) p.2)
    (h : Tame H A c0 c) (hc : checkSat cfg c = .ok (o, c')) : Tame H A c0 c' := by
  unfold checkSat at hc
  obtain ⟨⟨r, s', cache', tick'⟩, h1, h2⟩ := bindR_ok hc
  have key : SatStr c0.box.vars s' ∧ CacheInv H A cache' ∧ SatD s' ∧ s'.abs = c.sat.abs ∧
      s'.maxVar = c.sat.maxVar := by
    unfold checkCore at h1
    split at h1
    · cases h1; exact ⟨h.str, h.cache, h.satd, rfl, rfl⟩
    · split at h1
      · cases h1; exact ⟨h.str, h.cache, h.satd, rfl, rfl⟩
      · split at h1
        · cases h1; exact ⟨h.str, h.cache, h.satd, rfl, rfl⟩
        · exact checkLoop_tame hd hp hn hH hAv he h1 h.shape h.str (by rw [h.abs]; exact hv) h.cache
            h.satd (by rw [h.abs]; exact hT)
  obtain ⟨k1, k2, k3, k4, k5⟩ := key
  have fin : ∀ c2 : Ctx, c2.box = c.box → c2.sat = s' → c2.cache = cache' → Tame H A c0 c2 := by
    intro c2 e1 e2 e3
    refine ⟨by rw [e1]; exact h.shape, by rw [e2]; exact k1, by rw [e3]; exact k2,
      by rw [e2]; exact k3, by rw [e2, k4]; exact h.abs, by rw [e2, k5]; exact h.max⟩
  dsimp only at h2
  cases r with
  | none =>
    simp only [Run.ok.injEq, Prod.mk.injEq] at h2
    rw [← h2.2]; exact fin _ rfl rfl rfl
  | some b =>
    dsimp only at h2
    obtain ⟨t, -, h2⟩ := bindR_ok h2
    obtain ⟨m, -, h2⟩ := bindR_ok h2
    simp only [Run.ok.injEq, Prod.mk.injEq] at h2
    rw [← h2.2]; exact fin _ rfl rfl rfl

theorem checkSat_box {cfg : CCfg} {c o c'} (hc : checkSat cfg c = .ok (o, c')) : c'.box = c.box := by
  unfold checkSat at hc
  obtain ⟨⟨r, s', cache', tick'⟩, h1, h2⟩ := bindR_ok hc
  dsimp only at h2
  cases r with
  | none =>
    simp only [Run.ok.injEq, Prod.mk.injEq] at h2
    rw [← h2.2]; rfl
  | some b =>
    dsimp only at h2
    obtain ⟨t, -, h2⟩ := bindR_ok h2
    obtain ⟨m, -, h2⟩ := bindR_ok h2
    simp only [Run.ok.injEq, Prod.mk.injEq] at h2
    rw [← h2.2]; rfl

/-- A check of such a context ends. -/
theorem Tame.ends {cfg : CCfg} {H A c0 c}
    (hd : DblOk cfg.th.dbl) (hp : PicosatOk cfg.ps) (hn : c0.box.vars.Nodup)
    (hH : ∀ (i : Nat) v, c0.box.vars[i]? = some v → H v = some i)
    (hAv : ∀ ws, A ws → ws = c0.box.vars) {D I} (he : EnvOk D I cfg.env)
    (hv : ∀ v ∈ c0.box.vars, v.id < c0.sat.abs.next) (hT : ∀ p ∈ c0.sat.abs.table, Atm (A c0.box.vars) p.2)
    (hG : GridOps G cfg.env.ib) (hbr : BranchGrid G cfg.env.brancher)
    (hno : NoAll c0.sat.abs.table)
    (h0 : EQ.fin 0 ∈ G) (h1 : EQ.fin 1 ∈ G) (hj : ParTurns G cfg.env cfg.th c0.box.vars.length)
    (hlg : ∀ p ∈ c0.sat.abs.table, ∀ b : Bool, LitGrid G cfg.th.dbl (if b then p.2 else notF p.2))
    (hpr : pruneBound G c0.box.vars.length (c0.sat.maxVar + 2) ≤ cfg.env.fuel)
    (hs : searchBound G c0.box.vars.length ≤ cfg.th.fuel)
    (hr : 3 ^ (c0.sat.maxVar + 1) < cfg.rounds)
    (h : Tame H A c0 c) (hb : Bounded G c.box) (hz : IntsSized c.box) : checkSat cfg c ≠ .oof := by
  unfold checkSat
  refine run_bind_oof ?_ fun r _ => ?_
  · unfold checkCore
    split
    · intro h; cases h
    · split
      · intro h; cases h
      · split
        · intro h; cases h
        · exact checkLoop_ends hd hp hn hH hAv he hG hbr h0 h1 hj hpr hs
            _ _ _ _ _ h.shape h.str (by rw [h.abs]; exact hv) h.cache h.satd (by rw [h.abs]; exact hT)
            h.max hb hz (by rw [h.abs]; exact hlg)
            (fun n f hf ha => by
              obtain ⟨p, hp, rfl⟩ := List.mem_map.mp hf
              rw [h.abs] at hp; rw [hno p hp] at ha; cases ha)
            (fun ⟨p, hp, ha⟩ => by rw [h.abs] at hp; rw [hno p hp] at ha; cases ha) (lt_of_le_of_lt (livePs_card _ _) hr)
  · dsimp only
    split
    · exact run_bind_oof (lift_oof _) fun t _ => run_bind_oof (lift_oof _) fun m _ h => by cases h
    · intro h; cases h

/-! ## The intervals of the nested box -/

/-- A component with bounds in `G`, in the range of `int` if the variable is an integer variable. -/
def FineAt (G : Finset EQ) (b : Box) (i : Nat) : Prop :=
  (b.get i).lb ∈ G ∧ (b.get i).ub ∈ G ∧ (IntAt b.vars i → IntSized b i)

theorem fine_box {b : Box} (wf : BoxWf b)
    (h : ∀ (i : Nat) v, b.vars[i]? = some v → FineAt G b i) : Bounded G b ∧ IntsSized b := by
  refine ⟨(bounded_get wf).mpr fun _ i v hi => ⟨(h i v hi).1, (h i v hi).2.1⟩, fun _ i hi => ?_⟩
  obtain ⟨v, hv, ht⟩ := hi
  exact (h i v hv).2.2 ⟨v, hv, ht⟩

theorem mkItv_or (lb ub : EQ) : mkItv lb ub = Itv.empty ∨ mkItv lb ub = ⟨lb, ub⟩ := by
  unfold mkItv
  split
  · exact .inl rfl
  · exact .inr rfl

theorem setRaw_get {c : Ctx} (wf : BoxWf c.box) {v w : Variable} {i : Nat} {lb ub : EQ}
    (hv : v ∈ c.box.vars) (hi : c.box.vars[i]? = some w) :
    (setIntervalRaw c v lb ub).box.get i = if w = v then mkItv lb ub else c.box.get i := by
  unfold setIntervalRaw
  rw [setBox_box]
  show (c.box.setV v (mkItv lb ub)).get i = _
  obtain ⟨h1, h2⟩ := index_of_mem hv
  rw [Box.setV, get_put]
  by_cases h : w = v
  · subst h
    have e := index_unique wf hi
    rw [if_pos rfl, if_pos ⟨by omega, by rw [wf.1]; exact lt_of_getElem? h2⟩]
  · rw [if_neg h, if_neg]
    rintro ⟨e, -⟩
    rw [e, hi] at h2
    exact h (Option.some.inj h2)

theorem setRaw_vars (c : Ctx) (v : Variable) (lb ub : EQ) :
    (setIntervalRaw c v lb ub).box.vars = c.box.vars := by
  unfold setIntervalRaw
  rw [setBox_box]
  rfl

theorem setOuter_get {b : Box} : ∀ (us : List Variable) (c : Ctx), BoxWf c.box →
    (∀ u ∈ us, u ∈ c.box.vars) → ∀ (i : Nat) (w : Variable), c.box.vars[i]? = some w →
    (setOuter b us c).box.get i =
      if w ∈ us then mkItv (b.getV w).lb (b.getV w).ub else c.box.get i
  | [], _, _, _, _, _, _ => by simp [setOuter]
  | u :: us, c, wf, hu, i, w, hi => by
    have ev := setRaw_vars c u (b.getV u).lb (b.getV u).ub
    have hw : BoxWf (setIntervalRaw c u (b.getV u).lb (b.getV u).ub).box := by
      unfold setIntervalRaw
      rw [setBox_box]
      exact (shape_setV (vs := c.box.vars) ⟨rfl, wf⟩ u _).2
    rw [setOuter, setOuter_get us _ hw (fun x hx => by rw [ev]; exact hu x (.tail _ hx)) i w
      (by rw [ev]; exact hi), setRaw_get wf (hu u (.head _)) hi]
    by_cases h1 : w ∈ us
    · simp [h1]
    · by_cases h2 : w = u
      · subst h2; simp [h1]
      · simp [h1, h2]

/-- The nested box once it has the intervals of the outer variables. -/
theorem setOuter_fine {b : Box} {c : Ctx} (hw : BoxWf c.box) (wf : BoxWf b) (h0 : b.bot = false)
    (hv : ∀ v ∈ b.vars, v ∈ c.box.vars) (hb : Bounded G b) (hz : IntsSized b)
    (hn : EQ.ninf ∈ G) (hp : EQ.pinf ∈ G)
    (hf : ∀ (i : Nat) v, c.box.vars[i]? = some v → v ∉ b.vars → FineAt G c.box i)
    (he : (setOuter b b.vars c).box.vars = c.box.vars) :
    ∀ (i : Nat) v, (setOuter b b.vars c).box.vars[i]? = some v →
      FineAt G (setOuter b b.vars c).box i := by
  intro i v hi
  rw [he] at hi
  have e := setOuter_get (b := b) b.vars c hw hv i v hi
  unfold FineAt IntSized
  rw [he, e]
  split
  · rename_i hm
    obtain ⟨l1, l2⟩ := index_of_mem hm
    obtain ⟨g1, g2⟩ := (bounded_get wf).mp hb h0 _ _ l2
    rcases mkItv_or (b.getV v).lb (b.getV v).ub with e | e <;> rw [e]
    · exact ⟨hp, hn, fun _ => ⟨by show EQ.fin _ ≤ EQ.pinf; decide, by show EQ.ninf ≤ EQ.fin _; decide⟩⟩
    · refine ⟨g1, g2, fun hI => ?_⟩
      obtain ⟨w, hw1, hw2⟩ := hI
      rw [hi] at hw1
      cases hw1
      exact hz h0 _ ⟨v, l2, hw2⟩
  · rename_i hm
    exact hf i v hi hm

/-- The search for counterexamples ends. -/
theorem ctcFind_ends {fp : Fp} {cfg : CCfg} {refine : Box → Run Box} {H A c0} {vs qs : List Variable}
   
    (hd : DblOk cfg.th.dbl) (hp : PicosatOk cfg.ps) (hn : c0.box.vars.Nodup)
    (hH : ∀ (i : Nat) v, c0.box.vars[i]? = some v → H v = some i)
    (hAv : ∀ ws, A ws → ws = c0.box.vars) {D I} (he : EnvOk D I cfg.env)
    (hv : ∀ v ∈ c0.box.vars, v.id < c0.sat.abs.next) (hT : ∀ p ∈ c0.sat.abs.table, Atm (A c0.box.vars) p.2)
    (hG : GridOps G cfg.env.ib) (hbr : BranchGrid G cfg.env.brancher)
    (hno : NoAll c0.sat.abs.table)
    (h0 : EQ.fin 0 ∈ G) (h1 : EQ.fin 1 ∈ G) (hj : ParTurns G cfg.env cfg.th c0.box.vars.length)
    (hlg : ∀ p ∈ c0.sat.abs.table, ∀ b : Bool, LitGrid G cfg.th.dbl (if b then p.2 else notF p.2))
    (hpr : pruneBound G c0.box.vars.length (c0.sat.maxVar + 2) ≤ cfg.env.fuel)
    (hs : searchBound G c0.box.vars.length ≤ cfg.th.fuel)
    (hr : 3 ^ (c0.sat.maxVar + 1) < cfg.rounds) (hvs : ∀ v ∈ vs, v ∈ c0.box.vars)
    (hre : ∀ ce, refine ce ≠ .oof)
    (hm : ∀ ce ce', refine ce = .ok ce' → ∀ q ∈ qs, EQ.fin (fp.mid (ce'.getV q)) ∈ G) :
    FindEnds G fp vs qs (fun st => Tame H A c0 st.1 ∧
      ∀ (i : Nat) v, c0.box.vars[i]? = some v → v ∉ vs → FineAt G st.1.box i) (ctcFind cfg refine) := by
  constructor
  · intro st b hst wf hbv hb0 hb hz
    obtain ⟨ht, hfi⟩ := hst
    have ht2 := ht.setOuter (b := b) b.vars
    have hev' : (setOuter b b.vars st.1).box.vars = st.1.box.vars := ht2.shape.1.trans ht.shape.1.symm
    obtain ⟨f1, f2⟩ := fine_box ht2.shape.2 (setOuter_fine ht.shape.2 wf hb0
      (fun v h => by rw [ht.shape.1]; exact hvs v (hbv ▸ h)) hb hz hG.ninf hG.pinf
      (fun i v h1 h2 => hfi i v (ht.shape.1 ▸ h1) (hbv ▸ h2)) hev')
    unfold ctcFind
    refine run_bind_oof ?_ fun r _ => ?_
    · exact Tame.ends (cfg := { cfg with th := { cfg.th with left := !st.2 } }) hd hp hn hH hAv he hv hT hG hbr hno h0 h1
        hj hlg hpr hs hr ht2 f1 f2
    · split
      · intro h; cases h
      · exact run_bind_oof (hre _) fun _ _ h => by cases h
  · intro st b ce st' _ _ _ _ _ _ h
    unfold ctcFind at h
    obtain ⟨r, -, h2⟩ := bindR_ok h
    split at h2
    · cases h2
    · obtain ⟨ce', h3, h4⟩ := bindR_ok h2
      cases h4
      exact hm _ _ h3

/-- The invariant of the search. -/
theorem ctcFind_tame {cfg : CCfg} {refine : Box → Run Box} {H A c0} {vs : List Variable}
   
    (hd : DblOk cfg.th.dbl) (hp : PicosatOk cfg.ps) (hn : c0.box.vars.Nodup)
    (hH : ∀ (i : Nat) v, c0.box.vars[i]? = some v → H v = some i)
    (hAv : ∀ ws, A ws → ws = c0.box.vars) {D I} (he : EnvOk D I cfg.env)
    (hv : ∀ v ∈ c0.box.vars, v.id < c0.sat.abs.next) (hT : ∀ p ∈ c0.sat.abs.table, Atm (A c0.box.vars) p.2)
    (hvs : ∀ v ∈ vs, v ∈ c0.box.vars) {st st' b o}
    (hst : Tame H A c0 st.1 ∧
      ∀ (i : Nat) v, c0.box.vars[i]? = some v → v ∉ vs → FineAt G st.1.box i)
    (hbv : b.vars = vs) (h : ctcFind cfg refine st b = .ok (o, st')) :
    Tame H A c0 st'.1 ∧
      ∀ (i : Nat) v, c0.box.vars[i]? = some v → v ∉ vs → FineAt G st'.1.box i := by
  obtain ⟨ht, hfi⟩ := hst
  have ht2 := ht.setOuter (b := b) b.vars
  unfold ctcFind at h
  obtain ⟨⟨o', c'⟩, h1, h2⟩ := bindR_ok h
  have ht3 := Tame.check (cfg := { cfg with th := { cfg.th with left := !st.2 } }) hd hp hn hH hAv he hv hT ht2 h1
  have hbx := checkSat_box h1
  have hc : st'.1 = c' := by
    cases o' with
    | none => cases h2; rfl
    | some ce =>
      dsimp only at h2
      obtain ⟨ce', -, h4⟩ := bindR_ok h2
      cases h4; rfl
  rw [hc]
  refine ⟨ht3, fun i v hi hnv => ?_⟩
  rw [hbx]
  have hi' : st.1.box.vars[i]? = some v := by rw [ht.shape.1]; exact hi
  have e := setOuter_get (b := b) b.vars st.1 ht.shape.2
    (fun v h => by rw [ht.shape.1]; exact hvs v (hbv ▸ h)) i v hi'
  rw [hbv, if_neg hnv] at e
  have := hfi i v hi hnv
  unfold FineAt IntSized at this ⊢
  rw [hbv, e, ← hbv, ht2.shape.1, ← ht.shape.1]
  exact this

/-! ## The evaluator -/

/-- The evaluation of a quantified constraint ends. -/
theorem forallEval_ends {cfg : CCfg} {lits : List Fml} {H A c0} {vs : List Variable}
   
    (hd : DblOk cfg.th.dbl) (hp : PicosatOk cfg.ps) (hn : c0.box.vars.Nodup)
    (hH : ∀ (i : Nat) v, c0.box.vars[i]? = some v → H v = some i)
    (hAv : ∀ ws, A ws → ws = c0.box.vars) {D I} (he : EnvOk D I cfg.env)
    (hv : ∀ v ∈ c0.box.vars, v.id < c0.sat.abs.next) (hT : ∀ p ∈ c0.sat.abs.table, Atm (A c0.box.vars) p.2)
    (hG : GridOps G cfg.env.ib) (hbr : BranchGrid G cfg.env.brancher)
    (hno : NoAll c0.sat.abs.table)
    (h0 : EQ.fin 0 ∈ G) (h1 : EQ.fin 1 ∈ G) (hj : ParTurns G cfg.env cfg.th c0.box.vars.length)
    (hlg : ∀ p ∈ c0.sat.abs.table, ∀ b : Bool, LitGrid G cfg.th.dbl (if b then p.2 else notF p.2))
    (hpr : pruneBound G c0.box.vars.length (c0.sat.maxVar + 2) ≤ cfg.env.fuel)
    (hs : searchBound G c0.box.vars.length ≤ cfg.th.fuel)
    (hr : 3 ^ (c0.sat.maxVar + 1) < cfg.rounds) (hvs : ∀ v ∈ vs, v ∈ c0.box.vars) {c : Ctx} {b : Box}
    (ht : Tame H A c0 c)
    (hfi : ∀ (i : Nat) v, c0.box.vars[i]? = some v → v ∉ vs → FineAt G c.box i)
    (wf : BoxWf b) (hbv : b.vars = vs) (hb0 : b.bot = false) (hb : Bounded G b) (hz : IntsSized b) :
    forallEval cfg lits b c ≠ .oof := by
  have ht2 := ht.setOuter (b := b) b.vars
  have hev' : (setOuter b b.vars c).box.vars = c.box.vars := ht2.shape.1.trans ht.shape.1.symm
  obtain ⟨f1, f2⟩ := fine_box ht2.shape.2 (setOuter_fine ht.shape.2 wf hb0
    (fun v h => by rw [ht.shape.1]; exact hvs v (hbv ▸ h)) hb hz hG.ninf hG.pinf
    (fun i v h1 h2 => hfi i v (ht.shape.1 ▸ h1) (hbv ▸ h2)) hev')
  unfold forallEval
  refine run_bind_oof ?_ fun r _ => ?_
  · exact Tame.ends hd hp hn hH hAv he hv hT hG hbr hno h0 h1 hj hlg hpr hs hr ht2 f1 f2
  · split
    · intro h; cases h
    · exact run_bind_oof (lift_oof _) fun _ _ h => by cases h

/-- Its invariant. -/
theorem forallEval_tame {cfg : CCfg} {lits : List Fml} {H A c0} {vs : List Variable}
   
    (hd : DblOk cfg.th.dbl) (hp : PicosatOk cfg.ps) (hn : c0.box.vars.Nodup)
    (hH : ∀ (i : Nat) v, c0.box.vars[i]? = some v → H v = some i)
    (hAv : ∀ ws, A ws → ws = c0.box.vars) {D I} (he : EnvOk D I cfg.env)
    (hv : ∀ v ∈ c0.box.vars, v.id < c0.sat.abs.next) (hT : ∀ p ∈ c0.sat.abs.table, Atm (A c0.box.vars) p.2)
    (hvs : ∀ v ∈ vs, v ∈ c0.box.vars) {c c' : Ctx} {b : Box} {r : Verdict × Itv}
    (hst : Tame H A c0 c ∧
      ∀ (i : Nat) v, c0.box.vars[i]? = some v → v ∉ vs → FineAt G c.box i)
    (hbv : b.vars = vs) (h : forallEval cfg lits b c = .ok (r, c')) :
    Tame H A c0 c' ∧
      ∀ (i : Nat) v, c0.box.vars[i]? = some v → v ∉ vs → FineAt G c'.box i := by
  obtain ⟨ht, hfi⟩ := hst
  have ht2 := ht.setOuter (b := b) b.vars
  unfold forallEval at h
  obtain ⟨⟨o', c2⟩, h1, h2⟩ := bindR_ok h
  have ht3 := Tame.check hd hp hn hH hAv he hv hT ht2 h1
  have hbx := checkSat_box h1
  have hc : c' = c2 := by
    cases o' with
    | none => cases h2; rfl
    | some ce =>
      dsimp only at h2
      obtain ⟨m, -, h4⟩ := bindR_ok h2
      cases h4; rfl
  rw [hc]
  refine ⟨ht3, fun i v hi hnv => ?_⟩
  rw [hbx]
  have hi' : c.box.vars[i]? = some v := by rw [ht.shape.1]; exact hi
  have e := setOuter_get (b := b) b.vars c ht.shape.2
    (fun v h => by rw [ht.shape.1]; exact hvs v (hbv ▸ h)) i v hi'
  rw [hbv, if_neg hnv] at e
  have := hfi i v hi hnv
  unfold FineAt IntSized at this ⊢
  rw [hbv, e, ← hbv, ht2.shape.1, ← ht.shape.1]
  exact this

end Verif.Proof
