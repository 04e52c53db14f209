import Verif.Spec.Theory
import Verif.Proof.DefCongr
import Verif.Proof.Explain
import Verif.Proof.Filter
import Verif.Proof.Generate
import Verif.Proof.IcpPar

/-!
# Conflicts of the theory solver: lemmas
-/

namespace Verif.Proof
open Verif Verif.Model Verif.Spec

/-- The tracked point: `b` is not empty, none of its intervals is, and the intervals of the
variables in `V` contain the values of `ρ`. -/
structure Live (vs : List Variable) (V : Variable → Prop) (ρ : Valuation) (b : Box) : Prop where
  shape : Shape vs b
  bot : b.bot = false
  none : NoneEmpty b
  inOn : InOn V ρ b

/-- The recorded sets lead to the explanation `E`, whose variables are among `V`. -/
structure Leads (V : Variable → Prop) (E : List Fml) (s : CStatus) : Prop where
  witness : ∀ v ∈ s.witness, V v
  used : ∀ g ∈ s.used, ∀ v ∈ g.fv, V v → g ∈ E ∧ ∀ w ∈ g.fv, V w
  closed : ∀ g ∈ s.used, g.fv = [] → g ∈ E

theorem tracks_live (vs V ρ E) : Tracks (Leads V E) (Live vs V ρ) where
  anti := fun _ _ m h => ⟨fun v hv => h.witness v (m.2 hv), fun g hg => h.used g (m.1 hg),
    fun g hg => h.closed g (m.1 hg)⟩
  alive := fun _ h => h.bot

theorem Leads.all {V E s} (h : Leads V E s) {g} (hg : g ∈ s.used)
    (hw : ∀ v ∈ g.fv, v ∈ s.witness) : g ∈ E ∧ ∀ v ∈ g.fv, V v := by
  refine ⟨?_, fun v hv => h.witness v (hw v hv)⟩
  cases hfv : g.fv with
  | nil => exact h.closed g hg hfv
  | cons v l =>
    have hv : v ∈ g.fv := by simp [hfv]
    exact (h.used g hg v hv (h.witness v (hw v hv))).1

/-- A point of the box with the given values on `V`. -/
theorem Live.patch {vs V ρ b} (h : Live vs V ρ b) :
    ∃ ρ', InBox ρ' b ∧ ∀ v, V v → ρ' v = ρ v := by
  classical
  have hc : ∀ v : Variable, ∃ x : ℝ, v ∈ b.vars → InItv x (b.get (b.index v)) := by
    intro v
    by_cases hv : v ∈ b.vars
    · obtain ⟨x, hx⟩ := h.none _ v (index_of_mem hv).2
      exact ⟨x, fun _ => hx⟩
    · exact ⟨0, fun h => absurd h hv⟩
  choose σ hσ using hc
  refine ⟨fun v => if V v then ρ v else σ v, ⟨h.bot, fun i v hv => ?_⟩, fun v hv => by simp [hv]⟩
  by_cases hV : V v
  · simp only [hV, if_true]; exact h.inOn i v hv hV
  · simp only [hV, if_false]
    have := hσ v (List.mem_of_getElem? hv)
    rwa [index_unique h.shape.2 hv] at this

/-- A solution of `E` at `ρ`. -/
structure SolE (D : Dom) (I : Interp) (d : Dbl) (E : List Fml) (vs : List Variable)
    (ρ : Valuation) : Prop where
  typed : TypedOn ρ vs
  rc : ∀ f ∈ E, RcOkF f
  vars : ∀ f ∈ E, ∀ v ∈ f.fv, v ∈ vs
  defd : ∀ f ∈ E, DefF D I ρ f
  gap : ∀ f ∈ E, NoGap d ρ f
  sat : ∀ f ∈ E, holds I ρ f

theorem SolE.patch {D I d E vs ρ} (h : SolE D I d E vs ρ) {V : Variable → Prop} {ρ' : Valuation}
    (hρ : ∀ v, V v → ρ' v = ρ v) {f} (hf : f ∈ E) (hV : ∀ v ∈ f.fv, V v) :
    DefF D I ρ' f ∧ NoGap d ρ' f ∧ holds I ρ' f ∧ TypedOn ρ' f.fv := by
  have hc : ∀ v ∈ f.fv, ρ v = ρ' v := fun v hv => (hρ v (hV v hv)).symm
  refine ⟨(defF_congr D I f ρ ρ' hc).mp (h.defd f hf), ?_, (holds_congr I f ρ ρ' hc).mp (h.sat f hf),
    fun v hv => by rw [← hc v hv]; exact h.typed v (h.vars f hf v hv)⟩
  intro v op lo hi ex hb ht
  have hv := (asBound_holds (I := I) (ρ := ρ) hb).2.1
  rw [← hc v hv]
  exact h.gap f hf v op lo hi ex hb ht

theorem Live.congr {vs V ρ b b'} (h : Live vs V ρ b) (hs : Shape vs b') (hb : b'.bot = false)
    (hg : ∀ i v, vs[i]? = some v → b'.get i = b.get i) : Live vs V ρ b' := by
  refine ⟨hs, hb, fun i v hv => ?_, fun i v hv hV => ?_⟩
  · rw [hs.1] at hv; rw [hg i v hv]; exact h.none i v (by rw [h.shape.1]; exact hv)
  · rw [hs.1] at hv; rw [hg i v hv]; exact h.inOn i v (by rw [h.shape.1]; exact hv) hV

/-- A sub-box that keeps all points of `b` with the values of `ρ` on `V`. -/
theorem Live.step {vs V ρ b b'} (h : Live vs V ρ b) (hs : Shape vs b')
    (hn : b'.bot = false → NoneEmpty b')
    (hk : ∀ ρ', InBox ρ' b → (∀ v, V v → ρ' v = ρ v) → InBox ρ' b') : Live vs V ρ b' := by
  obtain ⟨ρ', h1, h2⟩ := h.patch
  have h3 := hk ρ' h1 h2
  refine ⟨hs, h3.1, hn h3.1, fun i v hv hV => ?_⟩
  rw [← h2 v hV]; exact h3.2 i v hv

/-! ### Atoms -/

theorem live_integer {D I d E vs V ρ} (sol : SolE D I d E vs ρ) : ∀ {is : List Nat},
    (∀ i ∈ is, ∃ v, vs[i]? = some v ∧ (v.type = .integer ∨ v.type = .binary)) →
    Closed (TrackR (Leads V E) (Live vs V ρ)) (integerLoop is)
  | [], _, s, s', h => by
    simp only [integerLoop, Run.ok.injEq] at h; subst h; exact (trackR_pre (tracks_live ..)).refl _
  | i :: is, hi, s, s', h => by
    refine ⟨mono_integerLoop _ s s' h, fun hF hL => ?_⟩
    obtain ⟨v, hv, ht⟩ := hi i (by simp)
    have hv' : s.box.vars[i]? = some v := by rw [hL.shape.1]; exact hv
    have hl : i < s.box.vals.length := by rw [hL.shape.2.1]; exact lt_of_getElem? hv'
    have hty : typeOk v.type (ρ v) := sol.typed v (List.mem_of_getElem? hv)
    have ih := fun t t' => live_integer (V := V) sol (is := is) (fun j hj => hi j (by simp [hj])) t t'
    simp only [integerLoop] at h
    split at h
    · exact (ih _ _ h).2 hF hL
    · split at h
      · split at h
        · rename_i hle
          refine (ih _ _ h).2 hF ⟨⟨hL.shape.1, set_wf hL.shape.2⟩, hL.bot, ?_, ?_⟩
          · intro j w hw
            by_cases hj : i = j
            · subst hj
              rw [get_set_self hl]
              obtain ⟨x, hx1, hx2⟩ := hL.none i v hv'
              refine exists_in_of_not_isEmpty (not_isEmpty_iff.mpr ⟨hle, ?_, ?_⟩)
              · cases hlb : (s.box.get i).lb <;> rw [hlb] at hx1 <;> simp [EQ.ceil]
                exact hx1.elim
              · cases hub : (s.box.get i).ub <;> rw [hub] at hx2 <;> simp [EQ.floor]
                exact hx2.elim
            · rw [get_set_ne hj]; exact hL.none j w hw
          · intro j w hw hV
            by_cases hj : i = j
            · subst hj
              rw [get_set_self hl]
              have hw' : s.box.vars[i]? = some w := hw
              rw [hv'] at hw'; cases hw'
              obtain ⟨n, hn⟩ := integral_of_typeOk ht hty
              have hin := hL.inOn i v hv' hV
              rw [hn] at hin ⊢
              exact ⟨below_ceil hin.1, above_floor hin.2⟩
            · rw [get_set_ne hj]; exact hL.inOn j w hw hV
        · rename_i hle
          rw [hv'] at h
          simp only [Run.ok.injEq] at h; subst h
          have hV : V v := hF.witness v (by simp [CStatus.addWitness])
          obtain ⟨n, hn⟩ := integral_of_typeOk ht hty
          have hin := hL.inOn i v hv' hV
          rw [hn] at hin
          exact absurd (below_le_above (below_ceil hin.1) (above_floor hin.2)) hle
      · exact (ih _ _ h).2 hF hL

theorem padTo_length (n : Nat) (l : List Itv) : (padTo n l).length = n := by
  simp only [padTo, List.length_take, List.length_append, List.length_replicate]; omega

theorem padTo_getD {n i : Nat} (l : List Itv) (hi : i < n) :
    (padTo n l).getD i Itv.univ = l.getD i Itv.univ := by
  simp only [padTo, List.getD_eq_getElem?_getD, List.getElem?_take, if_pos hi]
  by_cases h : i < l.length
  · rw [List.getElem?_append_left h]
  · rw [List.getElem?_append_right (by omega), List.getElem?_eq_none (l := l) (by omega),
      List.getElem?_replicate]
    split <;> rfl

/-- The components of the result of a backward contraction by position. -/
theorem posBwd_get {D I ib} (ok : IbexSound D I ib) {ws : List Variable} {c : Ctr} {b : Box} {i}
    (hi : i < b.vals.length) : (posBwd ib ws c b).2.get i =
      if i < ws.length then (ib.bwd c ⟨ws, padTo ws.length b.vals, b.bot⟩).2.get i
      else b.get i := by
  obtain ⟨s1, s2⟩ := ok.bwd_shape c ⟨ws, padTo ws.length b.vals, b.bot⟩
  simp only [padTo_length] at s2
  simp only [posBwd, Box.get, List.getD_eq_getElem?_getD, List.getElem?_take, if_pos hi]
  split
  · rw [List.getElem?_append_left (by omega)]
  · rw [List.getElem?_append_right (by omega), List.getElem?_drop]
    congr 2; omega

theorem padded_wf {ws : List Variable} (hn : ws.Nodup) (b : Box) :
    BoxWf ⟨ws, padTo ws.length b.vals, b.bot⟩ := ⟨padTo_length _ _, hn⟩

theorem padded_get {ws : List Variable} {b : Box} {i} (hi : i < ws.length) :
    (⟨ws, padTo ws.length b.vals, b.bot⟩ : Box).get i = b.get i := padTo_getD _ hi

theorem padded_none {ws : List Variable} {b : Box} (wf : BoxWf b) (hb : NoneEmpty b) :
    NoneEmpty ⟨ws, padTo ws.length b.vals, b.bot⟩ := by
  intro i w hw
  have hi : i < ws.length := lt_of_getElem? hw
  rw [padded_get hi]
  by_cases h : i < b.vars.length
  · exact hb i _ (List.getElem?_eq_getElem h)
  · refine ⟨0, ?_⟩
    rw [Box.get, List.getD_eq_getElem?_getD, List.getElem?_eq_none (by rw [wf.1]; omega)]
    exact ⟨trivial, trivial⟩

/-- What a contractor built for the variables `ws` does to a box in which the variables of the
constraint stand at the same places. -/
structure PosOk (D : Dom) (I : Interp) (f : Fml) (b : Box) (r : Bool × Box) : Prop where
  shape : Shape b.vars r.2
  inner : r.1 = true → (∀ i, r.2.get i = b.get i) ∧ r.2.bot = b.bot
  loc : r.2.bot = false → ∀ i v, b.vars[i]? = some v → v ∉ f.fv → r.2.get i = b.get i
  none : NoneEmpty b → r.2.bot = false → NoneEmpty r.2
  sub : SubBox r.2 b
  sound : RcOkF f → ∀ ρ, InBox ρ b → DefF D I ρ f → holds I ρ f → InBox ρ r.2

/-- The variables of the formula stand at the same places in both lists. -/
def Places (f : Fml) (ws vs : List Variable) : Prop :=
  ws.Nodup ∧ ∀ v ∈ f.fv, ∃ i : Nat, ws[i]? = some v ∧ vs[i]? = some v

theorem places_refl {f vs} (h : vs.Nodup) (hv : ∀ v ∈ f.fv, v ∈ vs) : Places f vs vs :=
  ⟨h, fun v hf => by obtain ⟨i, hi⟩ := List.getElem?_of_mem (hv v hf); exact ⟨i, hi, hi⟩⟩

theorem get_beyond {b : Box} (wf : BoxWf b) {i} (h : b.vars.length ≤ i) : b.get i = Itv.univ := by
  rw [Box.get, List.getD_eq_getElem?_getD, List.getElem?_eq_none (by rw [wf.1]; omega)]; rfl

theorem posBwd_ok {D I ib} (hib : IbexSound D I ib) (hloc : IbexLocal D I ib)
    {ws f c} {b : Box} (wf : BoxWf b) (hp : Places f ws b.vars)
    (hc : ibexConv ws true f = .ok (some c)) : PosOk D I f b (posBwd ib ws c b) := by
  have pwf := padded_wf hp.1 b
  obtain ⟨s1, s2⟩ := hib.bwd_shape c ⟨ws, padTo ws.length b.vals, b.bot⟩
  simp only [padTo_length] at s1 s2
  have hfv := fun ρ : Valuation => ibexConv_holds (D := D) (I := I) (ρ := ρ) hc
  have hlen : (posBwd ib ws c b).2.vals.length = b.vals.length := by
    simp only [posBwd, List.length_take, List.length_append, List.length_drop, s2]; omega
  have hwf : BoxWf (posBwd ib ws c b).2 := ⟨hlen.trans wf.1, wf.2⟩
  have hbey : ∀ i, ¬ i < b.vals.length → (posBwd ib ws c b).2.get i = b.get i := by
    intro i hi
    rw [get_beyond wf (by rw [← wf.1]; omega), get_beyond hwf]
    show b.vars.length ≤ i
    rw [← wf.1]; omega
  refine ⟨⟨rfl, hwf⟩, ?_, ?_, ?_, ?_, ?_⟩
  · intro h
    have := hloc.bwd_inner c _ pwf h
    refine ⟨fun i => ?_, by simp only [posBwd]; rw [this]⟩
    by_cases hi : i < b.vals.length
    · rw [posBwd_get hib hi]
      split
      · rename_i hw; rw [this, padded_get hw]
      · rfl
    · exact hbey i hi
  · intro hb i v hv hvf
    have hi : i < b.vals.length := by rw [wf.1]; exact lt_of_getElem? hv
    rw [posBwd_get hib hi]
    split
    · rename_i hw
      rw [← padded_get (b := b) hw]
      refine hloc.bwd_local c _ pwf hb i ws[i] (List.getElem?_eq_getElem hw) ?_
      rw [(hfv fun _ => 0).2.2.2.1]
      intro hin
      obtain ⟨j, hj1, hj2⟩ := hp.2 _ hin
      have : j = i := by
        have := hj1.trans (List.getElem?_eq_getElem hw).symm
        exact (List.getElem?_inj (lt_of_getElem? hj1) hp.1).mp this
      subst this
      rw [hv] at hj2; cases hj2
      exact hvf hin
    · rfl
  · intro hn hb i v hv
    have hi : i < b.vals.length := by rw [wf.1]; exact lt_of_getElem? hv
    rw [posBwd_get hib hi]
    split
    · rename_i hw
      exact hloc.bwd_nonempty c _ pwf (padded_none wf hn) hb i ws[i]
        (by rw [s1]; exact List.getElem?_eq_getElem hw)
    · exact hn i v hv
  · intro hb
    obtain ⟨q1, q2⟩ := hib.bwd_sub c _ pwf hb
    refine ⟨q1, fun i x hx => ?_⟩
    by_cases hi : i < b.vals.length
    · rw [posBwd_get hib hi] at hx
      split at hx
      · rename_i hw; rw [← padded_get hw]; exact q2 i x hx
      · exact hx
    · rw [← hbey i hi]; exact hx
  · intro hrc ρ hρ hd hh
    let σ : Valuation := fun w => match b.vars[ws.idxOf w]? with
      | some u => ρ u
      | none => 0
    have hσ : ∀ v ∈ f.fv, ρ v = σ v := by
      intro v hv
      obtain ⟨i, h1, h2⟩ := hp.2 v hv
      have : ws.idxOf v = i := by
        have hm := List.mem_of_getElem? h1
        refine (List.getElem?_inj (List.idxOf_lt_length_of_mem hm) hp.1).mp ?_
        rw [h1, List.getElem?_eq_getElem (List.idxOf_lt_length_of_mem hm), List.getElem_idxOf]
      simp only [σ, this, h2]
    have hi' : ∀ i w, ws[i]? = some w → ws.idxOf w = i := by
      intro i w hw
      have hm := List.mem_of_getElem? hw
      refine (List.getElem?_inj (List.idxOf_lt_length_of_mem hm) hp.1).mp ?_
      rw [hw, List.getElem?_eq_getElem (List.idxOf_lt_length_of_mem hm), List.getElem_idxOf]
    have hin : InBox σ ⟨ws, padTo ws.length b.vals, b.bot⟩ := by
      refine ⟨hρ.1, fun i w hw => ?_⟩
      rw [padded_get (lt_of_getElem? hw)]
      simp only [σ, hi' i w hw]
      cases hu : b.vars[i]? with
      | some u => exact hρ.2 i u hu
      | none =>
        rw [get_beyond wf (List.getElem?_eq_none_iff.mp hu)]
        exact ⟨trivial, trivial⟩
    obtain ⟨d1, d2, d3, d4, d5⟩ := hfv σ
    have key := hib.bwd_sound c _ pwf d5 (d3.mp hrc) σ hin
      (d2.mp ((defF_congr D I f ρ σ hσ).mp hd)) (d1.mp ((holds_congr I f ρ σ hσ).mp hh))
    refine ⟨key.1, fun i v hv => ?_⟩
    have hv' : b.vars[i]? = some v := hv
    have hi : i < b.vals.length := by rw [wf.1]; exact lt_of_getElem? hv'
    rw [posBwd_get hib hi]
    split
    · rename_i hw
      have := key.2 i ws[i] (by rw [s1]; exact List.getElem?_eq_getElem hw)
      simp only [σ, hi' i _ (List.getElem?_eq_getElem hw), hv'] at this
      exact this
    · exact hρ.2 i v hv'

theorem live_fwdbwd {D I d E vs V ρ ib n ws f c} (sol : SolE D I d E vs ρ) (hib : IbexSound D I ib)
    (hloc : IbexLocal D I ib) (hp : Places f ws vs) (hc : ibexConv ws true f = .ok (some c)) :
    Closed (TrackR (Leads V E) (Live vs V ρ)) (prune ib n (.fwdbwd ws f c)) := by
  intro s s' h
  refine ⟨prune_mono _ s s' h, fun hF hL => ?_⟩
  simp only [prune] at h
  have hbox := fwdbwd_box h
  have hok := posBwd_ok hib hloc hL.shape.2 (hL.shape.1 ▸ hp) hc
  have hvs := hL.shape.1
  subst hvs
  have hs : Shape s.box.vars s'.box := hbox ▸ hok.shape
  -- all points with the values of `ρ` on `V` are kept
  have keep : f ∈ E → (∀ v ∈ f.fv, V v) → Live s.box.vars V ρ s'.box := by
    intro hE hV
    refine hL.step hs ?_ ?_
    · rw [hbox]; exact hok.none hL.none
    · intro ρ' h1 h2
      obtain ⟨p1, p2, p3, p4⟩ := sol.patch h2 hE hV
      rw [hbox]
      exact hok.sound (sol.rc f hE) ρ' h1 p1 p3
  unfold fwdbwdRun at h
  simp only at h
  split at h
  · rename_i hin
    obtain ⟨i1, i2⟩ := hok.inner hin
    refine hL.congr hs (by rw [hbox, i2]; exact hL.bot) fun i v hv => ?_
    rw [hbox]; exact i1 i
  · split at h
    · rename_i hemp
      have hs'e := h
      simp only [Run.ok.injEq] at hs'e
      have hf : f ∈ s'.used := by rw [← hs'e]; simp [CStatus.addUsed]
      have hw : ∀ v ∈ f.fv, v ∈ s'.witness := by
        intro v hv; rw [← hs'e]
        simp only [CStatus.addUsed]
        rw [if_pos (by simpa [Box.empty] using hemp)]
        simp [hv]
      obtain ⟨hE, hV⟩ := hF.all hf hw
      exact keep hE hV
    · rename_i hemp
      have hne : s'.box.bot = false := by
        rw [hbox]; simpa [Box.empty] using hemp
      have hloc' : ∀ i v, s.box.vars[i]? = some v → v ∉ f.fv → s'.box.get i = s.box.get i := by
        intro i v hv hvf
        rw [hbox]
        exact hok.loc (hbox ▸ hne) i v hv hvf
      split at h
      · rename_i hch
        simp only [Run.ok.injEq] at h
        refine hL.congr hs hne fun i v hv => ?_
        by_cases hvf : v ∈ f.fv
        · have hi : i ∈ indexesIn ws f.fv := by
            simp only [indexesIn, List.mem_map]
            refine ⟨v, hvf, ?_⟩
            obtain ⟨j, j1, j2⟩ := hp.2 v hvf
            have hm := List.mem_of_getElem? j1
            rw [if_pos hm]
            have e1 : j = i :=
              (List.getElem?_inj (lt_of_getElem? j2) hL.shape.2.2).mp (j2.trans hv.symm)
            subst e1
            refine (List.getElem?_inj (List.idxOf_lt_length_of_mem hm) hp.1).mp ?_
            rw [j1, List.getElem?_eq_getElem (List.idxOf_lt_length_of_mem hm), List.getElem_idxOf]
          have := List.filter_eq_nil_iff.mp hch i hi
          simp only [decide_eq_true_eq, not_not] at this
          rw [this, hbox]
        · exact hloc' i v hv hvf
      · have hf : f ∈ s'.used := by
          simp only [Run.ok.injEq] at h; rw [← h]; simp [CStatus.addUsed]
        by_cases hmeet : ∃ v ∈ f.fv, V v
        · obtain ⟨v, hv, hV⟩ := hmeet
          obtain ⟨hE, hVs⟩ := hF.used f hf v hv hV
          exact keep hE hVs
        · push Not at hmeet
          refine ⟨hs, hne, ?_, ?_⟩
          · rw [hbox]; exact hok.none hL.none (hbox ▸ hne)
          · intro i v hv hV
            rw [hs.1] at hv
            rw [hloc' i v hv fun hvf => hmeet v hvf hV]
            exact hL.inOn i v hv hV

theorem addUseds_used : ∀ (fs : List Fml) (s : CStatus), ∀ f ∈ fs, f ∈ (s.addUseds fs).used
  | [], _, f, hf => by cases hf
  | g :: fs, s, f, hf => by
    simp only [CStatus.addUseds]
    rcases List.mem_cons.mp hf with rfl | hf
    · exact (mono_addUseds fs _).1 (by simp [CStatus.addUsed])
    · exact addUseds_used fs _ f hf

theorem addUseds_witness : ∀ (fs : List Fml) (s : CStatus), s.box.empty = true →
    ∀ f ∈ fs, ∀ v ∈ f.fv, v ∈ (s.addUseds fs).witness
  | [], _, _, f, hf => by cases hf
  | g :: fs, s, hb, f, hf => by
    intro v hv
    simp only [CStatus.addUseds]
    rcases List.mem_cons.mp hf with rfl | hf
    · exact (mono_addUseds fs _).2 (by simp [CStatus.addUsed, hb, hv])
    · exact addUseds_witness fs _ (by simpa using hb) f hf v hv

theorem live_polytope {D I d E vs V ρ ib n fs cs} (sol : SolE D I d E vs ρ)
    (hib : IbexSound D I ib) (hloc : IbexLocal D I ib) (hrc : ∀ f ∈ fs, RcOkF f)
    (hc : polyCtrs vs fs = .ok cs) :
    Closed (TrackR (Leads V E) (Live vs V ρ)) (prune ib n (.polytope vs fs cs)) := by
  intro s s' h
  refine ⟨prune_mono _ s s' h, fun hF hL => ?_⟩
  simp only [prune] at h
  obtain ⟨hs, hbox⟩ := polytope_shape hib hL.shape h
  have hmem := polyCtrs_mem hc
  have hvars : ∀ c ∈ cs, ∀ v ∈ c.e.vars, v ∈ s.box.vars := by
    intro c hc'
    obtain ⟨f, hf, hconv⟩ := hmem c hc'
    rw [hL.shape.1]
    exact (ibexConv_holds (D := D) (I := I) (ρ := ρ) hconv).2.2.2.2
  have hrcs : ∀ c ∈ cs, RcOkE c.e := by
    intro c hc'
    obtain ⟨f, hf, hconv⟩ := hmem c hc'
    exact (ibexConv_holds (D := D) (I := I) (ρ := ρ) hconv).2.2.1.mp (hrc f hf)
  have he : (⟨vs, s.box.vals, s.box.bot⟩ : Box) = s.box := by rw [← hL.shape.1]
  unfold polytopeRun at h
  split at h
  · cases h
  · simp only [he] at h
    split at h
    · rename_i hemp
      have hs'e := h
      simp only [Run.ok.injEq] at hs'e
      have hall : ∀ f ∈ fs, f ∈ E ∧ ∀ v ∈ f.fv, V v := by
        intro f hf
        refine hF.all (by rw [← hs'e]; exact addUseds_used fs _ f hf) ?_
        rw [← hs'e]
        exact addUseds_witness fs _ (by simpa [Box.empty] using hemp) f hf
      refine hL.step hs (fun hb => ?_) ?_
      · rw [hbox] at hb
        simp only [Box.empty] at hemp
        rw [hemp] at hb; cases hb
      · intro ρ' h1 h2
        rw [hbox]
        have hp : ∀ c ∈ cs, DefE D I ρ' c.e ∧ relSem c.op (eval I ρ' c.e) 0 := by
          intro c hc'
          obtain ⟨f, hf, hconv⟩ := hmem c hc'
          obtain ⟨hE, hV⟩ := hall f hf
          obtain ⟨p1, p2, p3, p4⟩ := sol.patch h2 hE hV
          obtain ⟨d1, d2, _⟩ := ibexConv_holds (D := D) (I := I) (ρ := ρ') hconv
          exact ⟨d2.mp p1, d1.mp p3⟩
        exact hib.poly_sound cs _ hL.shape.2 hvars hrcs ρ' h1 (fun c hc => (hp c hc).1)
          (fun c hc => (hp c hc).2)
    · rename_i hemp
      have hne : s'.box.bot = false := by rw [hbox]; simpa [Box.empty] using hemp
      split at h
      · rename_i hch
        refine hL.congr hs hne fun i v hv => ?_
        have hi : i ∈ List.range s.box.size := by
          simp only [List.mem_range, Box.size, hL.shape.1]
          exact lt_of_getElem? hv
        have := List.filter_eq_nil_iff.mp hch i hi
        simp only [decide_eq_true_eq, not_not] at this
        rw [this, hbox]; rfl
      · have hused : ∀ f ∈ fs, f ∈ s'.used := by
          intro f hf
          simp only [Run.ok.injEq] at h; rw [← h]; exact addUseds_used fs _ f hf
        refine ⟨hs, hne, ?_, ?_⟩
        · rw [hbox]; exact hloc.poly_nonempty cs _ hL.shape.2 hL.none (hbox ▸ hne)
        · rw [hbox]
          refine hloc.poly_local cs _ V ρ hL.shape.2 hvars hrcs ?_ hL.none hL.inOn (hbox ▸ hne)
          intro c hc'
          obtain ⟨f, hf, hconv⟩ := hmem c hc'
          obtain ⟨d1, d2, d3, d4, d5⟩ := ibexConv_holds (D := D) (I := I) (ρ := ρ) hconv
          by_cases hmeet : ∃ v ∈ f.fv, V v
          · obtain ⟨v, hv, hV⟩ := hmeet
            obtain ⟨hE, hVs⟩ := hF.used f (hused f hf) v hv hV
            exact Or.inr ⟨fun w hw => hVs w ((d4 w).mp hw), d2.mp (sol.defd f hE),
              d1.mp (sol.sat f hE)⟩
          · push Not at hmeet
            exact Or.inl fun w hw => hmeet w ((d4 w).mp hw)

theorem live_forall {D I d E vs V ρ ib n f} (sol : SolE D I d E vs ρ) (hfa : ForallSound D I ib)
    (hloc : ForallLocal D I ib) (hrc : RcOkF f) :
    Closed (TrackR (Leads V E) (Live vs V ρ)) (prune ib n (.forallC vs f)) := by
  intro s s' h
  refine ⟨prune_mono _ s s' h, fun hF hL => ?_⟩
  simp only [prune] at h
  have hs := forall_shape hfa hL.shape h
  simp only [forallRun] at h
  obtain ⟨⟨b, out⟩, h1, h2⟩ := bindR_ok h
  simp only [Run.ok.injEq] at h2
  have hb : s'.box = b := by rw [← h2]; rfl
  have hf : f ∈ s'.used := by rw [← h2]; simp [CStatus.addUsed]
  have keep : f ∈ E → (∀ v ∈ f.fv, V v) → Live vs V ρ s'.box := by
    intro hE hV
    refine hL.step hs ?_ ?_
    · rw [hb]; exact hloc.nonempty _ _ _ _ _ _ hL.shape.2 hL.shape.1 h1 hL.none
    · intro ρ' g1 g2
      obtain ⟨p1, p2, p3, p4⟩ := sol.patch g2 hE hV
      rw [hb]
      exact hloc.sound _ _ _ _ _ _ hL.shape.2 hL.shape.1 h1 ρ' g1 p4 (sol.rc f hE) p1 p3
  by_cases hemp : b.bot = true
  · have hw : ∀ v ∈ f.fv, v ∈ s'.witness := by
      intro v hv; rw [← h2]
      simp [CStatus.addUsed, Box.empty, hemp, hv]
    obtain ⟨hE, hV⟩ := hF.all hf hw
    exact keep hE hV
  · have hne : b.bot = false := by simpa using hemp
    by_cases hmeet : ∃ v ∈ f.fv, V v
    · obtain ⟨v, hv, hV⟩ := hmeet
      obtain ⟨hE, hVs⟩ := hF.used f hf v hv hV
      exact keep hE hVs
    · push Not at hmeet
      refine ⟨hs, by rw [hb]; exact hne, ?_, ?_⟩
      · rw [hb]; exact hloc.nonempty _ _ _ _ _ _ hL.shape.2 hL.shape.1 h1 hL.none hne
      · intro i v hv hV
        rw [hs.1] at hv
        have hv' : s.box.vars[i]? = some v := by rw [hL.shape.1]; exact hv
        rw [hb]
        exact hloc.local' _ _ _ _ _ _ hL.shape.2 hL.shape.1 h1 hrc hL.none hne i v hv'
          (fun hvf => hmeet v hvf hV) _ (hL.inOn i v hv' hV)

/-! ### The contractor that is built -/

/-- An atom of the contractor for constraints among `U`, built for boxes with variables `vs`. -/
def AtomOk (vs : List Variable) (U : List Fml) : Ctc → Prop
  | .id => True
  | .integer idxs => ∀ i ∈ idxs, ∃ v, vs[i]? = some v ∧ (v.type = .integer ∨ v.type = .binary)
  | .fwdbwd ws f c => Places f ws vs ∧ ibexConv ws true f = .ok (some c) ∧ f ∈ U
  | .polytope ws gs cs => ws = vs ∧ polyCtrs vs gs = .ok cs ∧ ∀ g ∈ gs, g ∈ U
  | .forallC ws f => ws = vs ∧ f ∈ U
  | _ => False

mutual
theorem allAtoms_imp {P Q : Ctc → Prop} (h : ∀ a, P a → Q a) : ∀ c, AllAtoms P c → AllAtoms Q c
  | .id, hc => h _ hc
  | .integer _, hc => h _ hc
  | .seq cs, hc => allAtomsL_imp h cs hc
  | .join _, hc => hc
  | .fixpoint cs, hc => allAtomsL_imp h cs hc
  | .worklist cs, hc => allAtomsL_imp h cs hc
  | .fwdbwd _ _ _, hc => h _ hc
  | .polytope _ _ _, hc => h _ hc
  | .forallC _ _, hc => h _ hc
theorem allAtomsL_imp {P Q : Ctc → Prop} (h : ∀ a, P a → Q a) : ∀ cs, AllAtomsL P cs →
    AllAtomsL Q cs
  | [], _ => trivial
  | c :: cs, hc => ⟨allAtoms_imp h c hc.1, allAtomsL_imp h cs hc.2⟩
end

theorem allAtomsL_append {P : Ctc → Prop} : ∀ {cs ds : List Ctc},
    AllAtomsL P cs → AllAtomsL P ds → AllAtomsL P (cs ++ ds)
  | [], _, _, h => h
  | _ :: _, _, h1, h2 => ⟨h1.1, allAtomsL_append h1.2 h2⟩

theorem flatten_atoms {P : Ctc → Prop} : ∀ {cs : List Ctc}, AllAtomsL P cs →
    AllAtomsL P (flatten cs)
  | [], _ => trivial
  | c :: cs, h => by
    have ih := flatten_atoms h.2
    cases c <;> simp only [flatten] <;> try exact ⟨h.1, ih⟩
    · exact ih
    · exact allAtomsL_append h.1 ih

theorem mkFixpoint_atoms {vs U} {cs : List Ctc} (h : AllAtomsL (AtomOk vs U) cs) :
    AllAtoms (AtomOk vs U) (mkFixpoint cs) := by
  unfold mkFixpoint; split
  · trivial
  · exact flatten_atoms h

theorem mkWorklist_atoms {vs U} {cs : List Ctc} (h : AllAtomsL (AtomOk vs U) cs) :
    AllAtoms (AtomOk vs U) (mkWorklist cs) := by
  unfold mkWorklist; split
  · trivial
  · exact flatten_atoms h

theorem litCtc_atoms {vs U f} {b : Box} {c} (hn : b.vars.Nodup) (hall : f.isAll = true → b.vars = vs)
    (hp : f.isAll = false → ∀ v ∈ f.fv, ∃ i : Nat, b.vars[i]? = some v ∧ vs[i]? = some v)
    (hf : f ∈ U) (h : litCtc f b = .ok c) : AllAtoms (AtomOk vs U) c := by
  unfold litCtc at h
  split at h
  · rename_i ha
    simp only [Outcome.ok.injEq] at h; subst h
    exact mkFixpoint_atoms ⟨⟨hall ha, hf⟩, trivial⟩
  · rename_i ha
    simp only [mkFwdbwd] at h
    obtain ⟨o, h1, h2⟩ := bindO_ok h
    cases o with
    | none => simp only [Outcome.ok.injEq] at h2; subst h2; trivial
    | some d =>
      simp only [Outcome.ok.injEq] at h2; subst h2
      exact ⟨⟨hn, hp (by simpa using ha)⟩, h1, hf⟩

theorem cachedCtc_ok {vs U f} {b : Box} {cache r} (hv : b.vars = vs) (hn : vs.Nodup) (hf : f ∈ U)
    (hfv : ∀ v ∈ f.fv, v ∈ vs) (hc : CacheOk vs cache) (h : cachedCtc f b cache = .ok r) :
    AllAtoms (AtomOk vs U) r.1 ∧ CacheOk vs r.2 := by
  have hp := (places_refl hn hfv).2
  unfold cachedCtc at h
  split at h
  · rename_i p hp
    simp only [Outcome.ok.injEq] at h; subst h
    have hm := List.mem_of_find?_eq_some hp
    have he := List.find?_some hp
    simp only [decide_eq_true_eq] at he
    rw [← he] at hfv
    obtain ⟨b', h1, h2, h3, h4⟩ := hc p.1 p.2 hm hfv
    rw [he] at h1 h3 h4
    exact ⟨litCtc_atoms h2 h3 h4 hf h1, hc⟩
  · obtain ⟨c, h1, h2⟩ := bindO_ok h
    simp only [Outcome.ok.injEq] at h2; subst h2
    refine ⟨litCtc_atoms (hv ▸ hn) (fun _ => hv) (fun _ => hv ▸ hp) hf h1, fun g d hg hgv => ?_⟩
    rcases List.mem_cons.mp hg with hg | hg
    · simp only [Prod.mk.injEq] at hg
      obtain ⟨rfl, rfl⟩ := hg
      exact ⟨b, h1, hv ▸ hn, fun _ => hv, fun _ => hv ▸ hp⟩
    · exact hc g d hg hgv

theorem mkInteger_atoms {U} (b : Box) : AllAtoms (AtomOk b.vars U) (mkInteger b) := by
  unfold mkInteger
  simp only
  split
  · trivial
  · intro i hi
    simp only [List.mem_filter] at hi
    cases hv : b.vars[i]? with
    | none => simp [hv] at hi
    | some v => exact ⟨v, rfl, by simpa [hv] using hi.2⟩

theorem mkPolytope_atoms {U fs} {b : Box} {c} (hf : ∀ f ∈ fs, f ∈ U)
    (h : mkPolytope fs b = .ok c) : AllAtoms (AtomOk b.vars U) c := by
  simp only [mkPolytope] at h
  obtain ⟨cs, h1, h2⟩ := bindO_ok h
  split at h2
  · simp only [Outcome.ok.injEq] at h2; subst h2; trivial
  · simp only [Outcome.ok.injEq] at h2; subst h2
    exact ⟨rfl, h1, hf⟩

/-! ### The recorded constraints are among the given ones -/

def UsedIn (U : List Fml) (s s' : CStatus) : Prop := s.used ⊆ U → s'.used ⊆ U

theorem usedIn_pre (U) : PreR (UsedIn U) where
  refl := fun _ h => h
  trans := fun _ _ _ h1 h2 h => h2 (h1 h)
  reset := fun _ h => h

theorem usedIn_addUsed {U f} (hf : f ∈ U) (s : CStatus) : UsedIn U s (s.addUsed f) := by
  intro h x hx
  simp only [CStatus.addUsed, List.mem_cons] at hx
  rcases hx with rfl | hx
  · exact hf
  · exact h hx

theorem usedIn_addUseds {U} : ∀ {fs} (_ : ∀ f ∈ fs, f ∈ U) (s : CStatus),
    UsedIn U s (s.addUseds fs)
  | [], _, _ => fun h => h
  | f :: fs, hf, s => fun h => usedIn_addUseds (fs := fs) (fun g hg => hf g (by simp [hg])) _
      (usedIn_addUsed (hf f (by simp)) s h)

theorem usedIn_integer {U} : ∀ (is : List Nat), Closed (UsedIn U) (integerLoop is)
  | [], s, s', h => by simp only [integerLoop, Run.ok.injEq] at h; subst h; exact fun h => h
  | i :: is, s, s', h => by
    simp only [integerLoop] at h
    split at h
    · exact usedIn_integer is _ _ h
    · split at h
      · split at h
        · exact fun hs => usedIn_integer is _ _ h hs
        · split at h
          · simp only [Run.ok.injEq] at h; subst h
            exact fun h => h
          · cases h
      · exact usedIn_integer is _ _ h

theorem usedIn_atom {vs U ib n} (a : Ctc) (ha : AtomOk vs U a) :
    Closed (UsedIn U) (prune ib n a) := by
  intro s s' h
  cases a with
  | id => simp only [prune, Run.ok.injEq] at h; subst h; exact fun h => h
  | integer is => simp only [prune] at h; exact usedIn_integer is s s' h
  | seq => exact ha.elim
  | join => exact ha.elim
  | fixpoint => exact ha.elim
  | worklist => exact ha.elim
  | fwdbwd ws f c =>
    simp only [prune, fwdbwdRun] at h
    split at h
    · simp only [Run.ok.injEq] at h; subst h; exact fun h => h
    · split at h
      · simp only [Run.ok.injEq] at h; subst h
        exact fun h => usedIn_addUsed ha.2.2 _ h
      · split at h
        · simp only [Run.ok.injEq] at h; subst h; exact fun h => h
        · simp only [Run.ok.injEq] at h; subst h
          exact fun h => usedIn_addUsed ha.2.2 _ h
  | polytope ws fs cs =>
    simp only [prune, polytopeRun] at h
    split at h
    · cases h
    · split at h
      · simp only [Run.ok.injEq] at h; subst h
        exact fun h => usedIn_addUseds ha.2.2 _ h
      · split at h
        · simp only [Run.ok.injEq] at h; subst h; exact fun h => h
        · simp only [Run.ok.injEq] at h; subst h
          exact fun h => usedIn_addUseds ha.2.2 _ h
  | forallC ws f =>
    simp only [prune, forallRun] at h
    obtain ⟨r, _, h2⟩ := bindR_ok h
    simp only [Run.ok.injEq] at h2; subst h2
    exact fun h => usedIn_addUsed ha.2 _ h

theorem usedIn_prune {vs U ib n c} (hc : AllAtoms (AtomOk vs U) c) :
    Closed (UsedIn U) (prune ib n c) :=
  prune_closed (usedIn_pre U) c (allAtoms_imp (fun a ha => usedIn_atom a ha) c hc)

theorem usedIn_evalBox {env U} : ∀ {fs cand s s' o}, (∀ f ∈ fs, f ∈ U) →
    evalBox env fs cand s = .ok (s', o) → UsedIn U s s'
  | [], cand, s, s', o, _, h => by
    simp only [evalBox, Run.ok.injEq, Prod.mk.injEq] at h
    obtain ⟨rfl, rfl⟩ := h
    exact fun h => h
  | f :: fs, cand, s, s', o, hf, h => by
    simp only [evalBox] at h
    obtain ⟨⟨vd, iv⟩, h1, h2⟩ := bindR_ok h
    have hu : (if f.isAll then { s with tick := s.tick + 1 } else s).used = s.used := by
      split <;> rfl
    have hfs : ∀ g ∈ fs, g ∈ U := fun g hg => hf g (by simp [hg])
    cases vd with
    | unsat =>
      simp only [Run.ok.injEq, Prod.mk.injEq] at h2
      obtain ⟨rfl, rfl⟩ := h2
      intro hs
      exact usedIn_addUsed (hf f (by simp)) _ (by simpa [hu] using hs)
    | valid => exact fun hs => usedIn_evalBox hfs h2 (by rw [hu]; exact hs)
    | unknown => exact fun hs => usedIn_evalBox hfs h2 (by rw [hu]; exact hs)

theorem usedIn_icpLoop {env c fs U} (hp : Closed (UsedIn U) (prune env.ib env.fuel c))
    (hf : ∀ f ∈ fs, f ∈ U) : ∀ {n left stack s res s'},
    icpLoop env c fs n left stack s = .ok (res, s') → UsedIn U s s'
  | n, left, [], s, res, s', h => by
    simp only [icpLoop, Run.ok.injEq, Prod.mk.injEq] at h
    obtain ⟨rfl, rfl⟩ := h
    exact fun h => h
  | 0, _, _ :: _, s, res, s', h => by simp [icpLoop] at h
  | n + 1, left, (b, d) :: stack, s, res, s', h => by
    intro hs
    simp only [icpLoop] at h
    obtain ⟨s1, h1, h2⟩ := bindR_ok h
    have u1 : s1.used ⊆ U := hp _ _ h1 hs
    split at h2
    · exact usedIn_icpLoop hp hf h2 u1
    · obtain ⟨⟨s2, o⟩, h3, h4⟩ := bindR_ok h2
      have u2 : s2.used ⊆ U := usedIn_evalBox hf h3 u1
      cases o with
      | none =>
        simp only at h4
        exact usedIn_icpLoop hp hf h4 u2
      | some cand =>
        simp only at h4
        split at h4
        · simp only [Run.ok.injEq, Prod.mk.injEq] at h4
          obtain ⟨rfl, rfl⟩ := h4
          exact u2
        · obtain ⟨br, h5, h6⟩ := bindR_ok h4
          split at h6
          · simp only [Run.ok.injEq, Prod.mk.injEq] at h6
            obtain ⟨rfl, rfl⟩ := h6
            exact u2
          · exact usedIn_icpLoop hp hf h6 u2

theorem usedIn_workerStep {env c fs U i} {p : Par} {w w' : Worker} {st n f}
    (hp : Closed (UsedIn U) (prune env.ib env.fuel c)) (hf : ∀ f ∈ fs, f ∈ U)
    (h : p.workerStep env c fs i w = .ok (w', st, n, f)) : UsedIn U w.st w'.st := by
  unfold Par.workerStep at h
  cases hpc : w.pc with
  | top =>
    simp only [hpc, Run.ok.injEq, Prod.mk.injEq] at h
    obtain ⟨rfl, -⟩ := h; split <;> exact fun h => h
  | chk =>
    simp only [hpc, Run.ok.injEq, Prod.mk.injEq] at h
    obtain ⟨rfl, -⟩ := h; split <;> exact fun h => h
  | pop =>
    simp only [hpc] at h
    split at h
    all_goals
      simp only [Run.ok.injEq, Prod.mk.injEq] at h
      obtain ⟨rfl, -⟩ := h; exact fun h => h
  | prune =>
    simp only [hpc] at h
    obtain ⟨s1, h1, h2⟩ := bindR_ok h
    simp only [Run.ok.injEq, Prod.mk.injEq] at h2
    obtain ⟨rfl, -⟩ := h2
    exact hp _ _ h1
  | eval =>
    simp only [hpc] at h
    obtain ⟨⟨s1, o⟩, h1, h2⟩ := bindR_ok h
    have := usedIn_evalBox hf h1
    cases o with
    | none =>
      simp only [Run.ok.injEq, Prod.mk.injEq] at h2
      obtain ⟨rfl, -⟩ := h2; exact this
    | some cand =>
      simp only [Run.ok.injEq, Prod.mk.injEq] at h2
      obtain ⟨rfl, -⟩ := h2; exact this
  | branch cand =>
    simp only [hpc] at h
    obtain ⟨o, h1, h2⟩ := bindR_ok h
    split at h2
    all_goals
      simp only [Run.ok.injEq, Prod.mk.injEq] at h2
      obtain ⟨rfl, -⟩ := h2; exact fun h => h
  | _ =>
    simp only [hpc, Run.ok.injEq, Prod.mk.injEq] at h
    obtain ⟨rfl, -⟩ := h; exact fun h => h

theorem usedIn_joinAll {U} : ∀ {ws s s'}, Par.joinAll ws s = .ok s' →
    (∀ w ∈ ws, w.st.used ⊆ U) → UsedIn U s s'
  | [], s, s', h, _ => by
    simp only [Par.joinAll, Outcome.ok.injEq] at h; subst h; exact fun h => h
  | w :: ws, s, s', h, hw => by
    intro hs
    simp only [Par.joinAll] at h
    obtain ⟨t, h1, h2⟩ := bindO_ok h
    refine usedIn_joinAll h2 (fun w hw' => hw w (by simp [hw'])) ?_
    simp only [CStatus.join] at h1
    obtain ⟨b, _, h3⟩ := bindO_ok h1
    simp only [Outcome.ok.injEq] at h3; subst h3
    intro x hx
    rcases List.mem_append.mp hx with hx | hx
    · exact hs hx
    · exact hw w (by simp) hx

theorem usedIn_icp {env cfg c fs U} (hp : Closed (UsedIn U) (prune env.ib env.fuel c))
    (hf : ∀ f ∈ fs, f ∈ U) {s res s'} (h : icp env cfg c fs s = .ok (res, s')) :
    UsedIn U s s' := by
  unfold icp at h
  split at h
  · unfold icpPar at h
    intro hs
    obtain ⟨s0, h1, h2⟩ := bindR_ok h
    have u0 : s0.used ⊆ U := hp _ _ h1 hs
    split at h2
    · simp only [Run.ok.injEq, Prod.mk.injEq] at h2
      obtain ⟨rfl, rfl⟩ := h2; exact u0
    · obtain ⟨p, h3, h4⟩ := bindR_ok h2
      have hw : ∀ w ∈ p.workers, w.st.used ⊆ U := by
        refine steps_inv (P := fun p => ∀ w ∈ p.workers, w.st.used ⊆ U) ?_ h3 ?_
        · intro q i q' hq hi w hw
          rcases step_cases hq with rfl | ⟨w1, w', st, n, f, hw1, hs1, rfl⟩
          · exact hi w hw
          · rcases List.mem_or_eq_of_mem_set hw with hw | rfl
            · exact hi w hw
            · exact usedIn_workerStep hp hf hs1 (hi w1 (List.mem_of_getElem? hw1))
        · intro w hw
          simp only [Par.start, List.mem_replicate] at hw
          rw [hw.2]; exact u0
      split at h4
      · obtain ⟨s1, h5, h6⟩ := bindR_ok h4
        have u1 : s1.used ⊆ U := usedIn_joinAll (lift_ok h5) hw u0
        split at h6
        · split at h6
          · simp only [Run.ok.injEq, Prod.mk.injEq] at h6
            obtain ⟨rfl, rfl⟩ := h6; exact u1
          · cases h6
        · simp only [Run.ok.injEq, Prod.mk.injEq] at h6
          obtain ⟨rfl, rfl⟩ := h6; exact u1
      · cases h4
  · exact usedIn_icpLoop hp hf h

/-! ### Tracking through the whole check -/

theorem live_prune {D I d E vs V ρ env U c} (sol : SolE D I d E vs ρ) (he : EnvOk D I env)
    (hU : LitsOk U vs) (hc : AllAtoms (AtomOk vs U) c) :
    Closed (TrackR (Leads V E) (Live vs V ρ)) (prune env.ib env.fuel c) := by
  refine prune_closed (trackR_pre (tracks_live ..)) c (allAtoms_imp (fun a ha => ?_) c hc)
  cases a with
  | id =>
    intro s s' h
    simp only [prune, Run.ok.injEq] at h; subst h
    exact (trackR_pre (tracks_live ..)).refl _
  | integer is =>
    intro s s' h
    simp only [prune] at h
    exact live_integer sol ha s s' h
  | seq => exact ha.elim
  | join => exact ha.elim
  | fixpoint => exact ha.elim
  | worklist => exact ha.elim
  | fwdbwd ws f c =>
    obtain ⟨h0, h1, h2⟩ := ha
    exact live_fwdbwd sol he.ib he.loc h0 h1
  | polytope ws fs cs =>
    obtain ⟨rfl, h1, h2⟩ := ha
    exact live_polytope sol he.ib he.loc (fun f hf => hU.rc f (h2 f hf)) h1
  | forallC ws f =>
    obtain ⟨rfl, h2⟩ := ha
    exact live_forall sol he.fa he.faLoc (hU.rc f h2)

theorem live_eval {D I d E vs V ρ env fs} (sol : SolE D I d E vs ρ) (he : EnvOk D I env)
    (hl : LitsOk fs vs) : EvalTracks env fs (Leads V E) (Live vs V ρ) := by
  intro s s' o h
  obtain ⟨m, h1, h2⟩ := evalBox_frame h
  refine ⟨m, fun ho => ?_, h2⟩
  obtain ⟨hb, f, hf, n, iv, hu, hused, hw⟩ := h1 ho
  refine ⟨hb, fun hF hL => ?_⟩
  obtain ⟨hE, hV⟩ := hF.all hused hw
  obtain ⟨ρ', g1, g2⟩ := hL.patch
  obtain ⟨p1, p2, p3, p4⟩ := sol.patch g2 hE hV
  exact evalLit_unsat he.ops he.noUnsat hu g1 p1 (hl.rc f hf)
    (fun v hv => by rw [hL.shape.1]; exact hl.vars f hf v hv) p3

theorem live_branch {D I d E vs V ρ br} (sol : SolE D I d E vs ρ) (hb : BranchOk br) :
    BranchTracks br (Live vs V ρ) := by
  intro b cand i b1 b2 h hL
  have sp := hb b cand i b1 b2 hL.shape.2 h
  obtain ⟨s1, s2⟩ := sp.shape hL.shape
  have key : ∀ b', Shape vs b' → b'.bot = b.bot → (∀ j, j ≠ i → b'.get j = b.get j) →
      (∃ x : ℝ, InItv x (b'.get i)) →
      (∀ v, vs[i]? = some v → V v → InItv (ρ v) (b'.get i)) → Live vs V ρ b' := by
    intro b' h1 h2 h3 h4 h5
    refine ⟨h1, h2 ▸ hL.bot, fun j v hv => ?_, fun j v hv hV => ?_⟩
    · by_cases hj : j = i
      · subst hj; exact h4
      · rw [h3 j hj]; exact hL.none j v (by rw [hL.shape.1, ← h1.1]; exact hv)
    · by_cases hj : j = i
      · subst hj; exact h5 v (h1.1 ▸ hv) hV
      · rw [h3 j hj]; exact hL.inOn j v (by rw [hL.shape.1, ← h1.1]; exact hv) hV
  have k1 := key b1 s1 sp.bot.1 (fun j hj => (sp.frame j hj).1) sp.nonempty.1
  have k2 := key b2 s2 sp.bot.2 (fun j hj => (sp.frame j hj).2) sp.nonempty.2
  by_cases hv : ∃ v, vs[i]? = some v ∧ V v
  · obtain ⟨v, hv, hV⟩ := hv
    have hv' : b.vars[i]? = some v := by rw [hL.shape.1]; exact hv
    rcases sp.cover v (ρ v) hv' (sol.typed v (List.mem_of_getElem? hv)) (hL.inOn i v hv' hV)
      with hc | hc
    · left; exact k1 fun w hw _ => by rw [hv] at hw; cases hw; exact hc
    · right; exact k2 fun w hw _ => by rw [hv] at hw; cases hw; exact hc
  · left; exact k1 fun w hw hV => absurd ⟨w, hw, hV⟩ hv

theorem live_filter {D I d E vs V ρ f r} {s s' : CStatus} {b' : Box} (sol : SolE D I d E vs ρ)
    (hd : DblOk d) (hv : ∀ v ∈ f.fv, v ∈ vs) (h : Filter.filter d f s.box = .ok (r, b'))
    (_ : s'.box = b') (hused : b' ≠ s.box → f ∈ s'.used)
    (hw : b' ≠ s.box → b'.bot = true → ∀ v ∈ f.fv, v ∈ s'.witness) (hF : Leads V E s')
    (hL : Live vs V ρ s.box) : Live vs V ρ b' := by
  by_cases hne : b' = s.box
  · rw [hne]; exact hL
  replace hused := hused hne
  replace hw := hw hne
  rcases filter_cases h with ⟨-, -, h3⟩ | ⟨v, op, lo, hi, ex, hab, hact⟩
  · exact absurd h3 hne
  obtain ⟨a1, a2, a3, a4⟩ := asBound_holds (I := I) (ρ := ρ) hab
  have hvb : v ∈ s.box.vars := by rw [hL.shape.1]; exact hv v a2
  obtain ⟨upd, -, -⟩ := acts_ok hL.shape.2 hvb hact
  have hs : Shape vs b' := ⟨upd.shape.1.trans hL.shape.1, upd.wf hL.shape.2⟩
  have hP : f ∈ E → keeps d v.type lo hi (ρ v) op := fun hE =>
    keeps_of_sem hd (a4 (sol.rc f hE)) (a1.mp (sol.sat f hE)) (sol.gap f hE v op lo hi ex hab)
  have hidx := (index_of_mem hvb).2
  cases hb : b'.bot with
  | true =>
    obtain ⟨hE, hV⟩ := hF.all hused (hw hb)
    rcases upd.dead hb with h1 | h1
    · rw [hL.bot] at h1; cases h1
    · exact absurd (hP hE) (h1 _ (hL.inOn _ v hidx (hV v a2)))
  | false =>
    obtain ⟨l1, l2, l3, l4⟩ := upd.live hb
    have hget : b'.getV v = b'.get (s.box.index v) := getV_congr upd.shape.1 v
    refine ⟨hs, hb, fun i w hw => ?_, fun i w hw hV => ?_⟩
    · rw [upd.shape.1] at hw
      by_cases hi : i = s.box.index v
      · subst hi; rw [← hget]; exact l4 (hL.none _ v hidx)
      · rw [l2 i hi]; exact hL.none i w hw
    · rw [upd.shape.1] at hw
      by_cases hi : i = s.box.index v
      · subst hi
        rw [hidx] at hw; cases hw
        rw [← hget, l3]
        refine ⟨hL.inOn _ v hidx hV, hP ?_⟩
        exact (hF.used f hused v a2 hV).1
      · rw [l2 i hi]; exact hL.inOn i w hw hV

theorem buildLoop_spec {D I} {d : Dbl} (hd : DblOk d) {vs : List Variable} {U : List Fml}
    (hU : LitsOk U vs) : ∀ {fs cache s o cache' s'}, (∀ f ∈ fs, f ∈ U) →
    buildLoop d fs cache s = .ok (o, cache', s') → Shape vs s.box → CacheOk vs cache →
    Shape vs s'.box ∧ CacheOk vs cache' ∧ Mono s s' ∧ UsedIn U s s' ∧
    (∀ cs, o = some cs → AllAtomsL (AtomOk vs U) cs) ∧ (o = none → s'.box.bot = true) ∧
    ∀ V ρ E, SolE D I d E vs ρ → Leads V E s' → Live vs V ρ s.box → Live vs V ρ s'.box
  | [], cache, s, o, cache', s', _, h, hs, hc => by
    simp only [buildLoop, Outcome.ok.injEq, Prod.mk.injEq] at h
    obtain ⟨rfl, rfl, rfl⟩ := h
    exact ⟨hs, hc, Mono.refl _, fun h => h, fun cs h => by cases h; trivial, by simp,
      fun _ _ _ _ _ h => h⟩
  | f :: fs, cache, s, o, cache', s', hf, h, hs, hc => by
    have hfU := hf f (by simp)
    have hfs : ∀ g ∈ fs, g ∈ U := fun g hg => hf g (by simp [hg])
    have hfv : ∀ v ∈ f.fv, v ∈ vs := hU.vars f hfU
    simp only [buildLoop] at h
    obtain ⟨⟨r, b'⟩, h1, h2⟩ := bindO_ok h
    obtain ⟨q1, q2, -, -, q5, -⟩ := filter_spec (I := I) hd hs.2
      (fun v hv => by rw [hs.1]; exact hfv v hv) (hU.rc f hfU) h1
    have hsb' : Shape vs b' := ⟨q1.trans hs.1, q2⟩
    have hmono : Mono s ({ s with box := b' }.addUsed f) :=
      (mono_addUsed { s with box := b' } f).from rfl rfl
    -- one step to a status with box `b'`
    have step : ∀ t : CStatus, t.box = b' → Mono s t → UsedIn U s t →
        (b' ≠ s.box → f ∈ t.used) → (b' ≠ s.box → b'.bot = true → ∀ v ∈ f.fv, v ∈ t.witness) →
        ∀ {o2 c1 c2 s2}, buildLoop d fs c1 t = .ok (o2, c2, s2) → CacheOk vs c1 →
        Shape vs s2.box ∧ CacheOk vs c2 ∧ Mono s s2 ∧ UsedIn U s s2 ∧
        (∀ cs, o2 = some cs → AllAtomsL (AtomOk vs U) cs) ∧ (o2 = none → s2.box.bot = true) ∧
        ∀ V ρ E, SolE D I d E vs ρ → Leads V E s2 → Live vs V ρ s.box → Live vs V ρ s2.box := by
      intro t ht hm hu hus hw o2 c1 c2 s2 hl hc1
      obtain ⟨r1, r2, r3, r4, r5, r6, r7⟩ := buildLoop_spec (D := D) (I := I) hd hU hfs hl
        (by rw [ht]; exact hsb') hc1
      refine ⟨r1, r2, hm.trans r3, fun h => r4 (hu h), r5, r6, fun V ρ E sol hF hL => ?_⟩
      refine r7 V ρ E sol hF ?_
      rw [ht]
      exact live_filter sol hd hfv h1 ht hus hw ((tracks_live vs V ρ E).anti _ _ r3 hF) hL
    cases r with
    | notFiltered =>
      simp only at h2
      obtain ⟨⟨c, c1⟩, h3, h4⟩ := bindO_ok h2
      obtain ⟨⟨o2, c2, s2⟩, h5, h6⟩ := bindO_ok h4
      simp only [Outcome.ok.injEq, Prod.mk.injEq] at h6
      obtain ⟨rfl, rfl, rfl⟩ := h6
      by_cases hne : s.box = b'
      · simp only [hne, ne_eq, not_true_eq_false, if_false] at h3 h5
        obtain ⟨k1, k2⟩ := cachedCtc_ok hsb'.1 (hsb'.1 ▸ hsb'.2.2) hfU hfv hc h3
        obtain ⟨r1, r2, r3, r4, r5, r6, r7⟩ := step s hne (Mono.refl _) (fun h => h)
          (fun h => absurd hne.symm h) (fun h => absurd hne.symm h) h5 k2
        refine ⟨r1, r2, r3, r4, fun cs hcs => ?_, fun ho => ?_, r7⟩
        · cases o2 with
          | none => simp at hcs
          | some cs2 => simp at hcs; subst hcs; exact ⟨k1, r5 cs2 rfl⟩
        · cases o2 with
          | none => exact r6 rfl
          | some cs2 => simp at ho
      · simp only [ne_eq, hne, not_false_eq_true, if_true] at h3 h5
        obtain ⟨k1, k2⟩ := cachedCtc_ok (by simpa using hsb'.1) (hsb'.1 ▸ hsb'.2.2) hfU hfv hc h3
        obtain ⟨r1, r2, r3, r4, r5, r6, r7⟩ := step ({ s with box := b' }.addUsed f) rfl
          hmono (fun h => usedIn_addUsed hfU _ h)
          (fun _ => by simp [CStatus.addUsed])
          (fun _ hb v hv => by simp [CStatus.addUsed, Box.empty, hb, hv]) h5 k2
        refine ⟨r1, r2, r3, r4, fun cs hcs => ?_, fun ho => ?_, r7⟩
        · cases o2 with
          | none => simp at hcs
          | some cs2 => simp at hcs; subst hcs; exact ⟨k1, r5 cs2 rfl⟩
        · cases o2 with
          | none => exact r6 rfl
          | some cs2 => simp at ho
    | withChange =>
      simp only at h2
      split at h2
      · rename_i hemp
        simp only [Outcome.ok.injEq, Prod.mk.injEq] at h2
        obtain ⟨rfl, rfl, rfl⟩ := h2
        have hm : Mono s { { s with box := b' }.addUsed f with
            witness := f.fv ++ ({ s with box := b' }.addUsed f).witness } :=
          ⟨((mono_addUsed { s with box := b' } f)).1, fun v hv =>
            List.mem_append_right _ ((mono_addUsed { s with box := b' } f).2 hv)⟩
        refine ⟨hsb', hc, hm, fun h => usedIn_addUsed hfU _ h, by simp, fun _ => hemp,
          fun V ρ E sol hF hL => ?_⟩
        exact live_filter sol hd hfv h1 rfl (fun _ => by simp [CStatus.addUsed])
          (fun _ _ v hv => by simp [hv]) hF hL
      · exact step _ rfl hmono
          (fun h => usedIn_addUsed hfU _ h) (fun _ => by simp [CStatus.addUsed])
          (fun _ hb v hv => by simp [CStatus.addUsed, Box.empty, hb, hv]) h2 hc
    | withoutChange =>
      simp only at h2
      have hbb := q5 rfl
      exact step { s with box := b' } rfl (Mono.refl s) (fun h => h) (fun h => absurd hbb h)
        (fun h => absurd hbb h) h2 hc

theorem buildContractor_spec {D I} {cfg : TCfg} (hd : DblOk cfg.dbl) {vs fs cache s o cache' s'}
    (hU : LitsOk fs vs) (h : buildContractor cfg fs cache s = .ok (o, cache', s'))
    (hs : Shape vs s.box) (hc : CacheOk vs cache) :
    Shape vs s'.box ∧ CacheOk vs cache' ∧ Mono s s' ∧ UsedIn fs s s' ∧
    (∀ c, o = some c → AllAtoms (AtomOk vs fs) c) ∧ (o = none → s'.box.bot = true) ∧
    ∀ V ρ E, SolE D I cfg.dbl E vs ρ → Leads V E s' → Live vs V ρ s.box → Live vs V ρ s'.box := by
  unfold buildContractor at h
  split at h
  · simp only [Outcome.ok.injEq, Prod.mk.injEq] at h
    obtain ⟨rfl, rfl, rfl⟩ := h
    refine ⟨hs, hc, Mono.refl _, fun h => h, fun c hc => ?_, by simp, fun _ _ _ _ _ h => h⟩
    simp only [Option.some.injEq] at hc; subst hc
    rw [← hs.1]; exact mkInteger_atoms _
  · obtain ⟨⟨o1, c1, s1⟩, h1, h2⟩ := bindO_ok h
    obtain ⟨r1, r2, r3, r4, r5, r6, r7⟩ := buildLoop_spec (D := D) (I := I) hd hU
      (fun f hf => hf) h1 hs hc
    cases o1 with
    | none =>
      simp only [Outcome.ok.injEq, Prod.mk.injEq] at h2
      obtain ⟨rfl, rfl, rfl⟩ := h2
      exact ⟨r1, r2, r3, r4, by simp, fun _ => r6 rfl, r7⟩
    | some cs =>
      simp only at h2
      obtain ⟨poly, hpoly, h4⟩ : ∃ poly, AllAtomsL (AtomOk vs fs) poly ∧
          Outcome.ok (some (if cfg.useWorklist = true
            then mkWorklist (cs ++ [mkInteger s1.box] ++ poly)
            else mkFixpoint (cs ++ [mkInteger s1.box] ++ poly)), c1, s1) =
          Outcome.ok (o, cache', s') := by
        split at h2
        · obtain ⟨p, h5, h6⟩ := bindO_ok h2
          refine ⟨[p], ⟨?_, trivial⟩, h6⟩
          rw [← r1.1]; exact mkPolytope_atoms (fun f hf => hf) h5
        · exact ⟨[], trivial, h2⟩
      simp only [Outcome.ok.injEq, Prod.mk.injEq] at h4
      obtain ⟨rfl, rfl, rfl⟩ := h4
      refine ⟨r1, r2, r3, r4, fun c hcc => ?_, by simp, r7⟩
      simp only [Option.some.injEq] at hcc; subst hcc
      have hall : AllAtomsL (AtomOk vs fs) (cs ++ [mkInteger s1.box] ++ poly) := by
        refine allAtomsL_append (allAtomsL_append (r5 cs rfl) ⟨?_, trivial⟩) hpoly
        rw [← r1.1]; exact mkInteger_atoms _
      split
      · exact mkWorklist_atoms hall
      · exact mkFixpoint_atoms hall

/-- The final recorded sets lead to their explanation. -/
theorem leads_of_explanation {n E} {s : CStatus} (h : explanation n s.witness s.used = .ok E) :
    Leads (fun v => v ∈ s.witness ∨ ∃ g ∈ E, v ∈ g.fv) E s ∧ E ⊆ s.used := by
  have hiff := fun g => explanation_iff h (g := g)
  refine ⟨⟨fun v hv => Or.inl hv, fun g hg v hv hV => ?_, fun g hg hfv => ?_⟩, fun g hg =>
    ((hiff g).mp hg).1⟩
  · have hE : g ∈ E := by
      rw [hiff]
      refine ⟨hg, Or.inr ?_⟩
      rcases hV with hV | ⟨g', hg', hv'⟩
      · exact .here hg hV hv
      · rcases ((hiff g').mp hg').2 with h0 | h0
        · rw [h0] at hv'; cases hv'
        · exact .next h0 hg hv' hv
    exact ⟨hE, fun w hw => Or.inr ⟨g, hE, hw⟩⟩
  · rw [hiff]; exact ⟨hg, Or.inl hfv⟩

theorem live_start {vs V ρ} {b : Box} (hs : Shape vs b) (hρ : InBox ρ b) : Live vs V ρ b :=
  ⟨hs, hρ.1, fun i v hv => ⟨_, hρ.2 i v hv⟩, fun i v hv _ => hρ.2 i v hv⟩

theorem icp_empty {env cfg c fs s s'} (hp : ∃ vs, Closed (SubR vs) (prune env.ib env.fuel c) ∧
    Shape vs s.box) (hcut : CutInside env.fp) (h : icp env cfg c fs s = .ok (true, s')) :
    s'.box.empty = false := by
  obtain ⟨vs, hp, hs⟩ := hp
  unfold icp at h
  split at h
  · obtain ⟨-, -, t, t', cand, -, -, e, -⟩ := icpPar_sat hp hcut hs h
    exact e
  · exact (icpLoop_empty h).1 rfl

theorem icp_unsat {env cfg c fs F L} (t : Tracks F L)
    (hp : Closed (TrackR F L) (prune env.ib env.fuel c)) (he : EvalTracks env fs F L)
    (hb : BranchTracks env.brancher L)
    (hb' : BranchTracks (fun b cand => Box.branchLargestFirst env.fp b cand) L)
    {s s'} (h : icp env cfg c fs s = .ok (false, s')) :
    Mono s s' ∧ s'.box.empty = true ∧ (F s' → ¬ L s.box) := by
  unfold icp at h
  split at h
  · rename_i hj
    exact icpPar_unsat t hp he hb' (by omega) h
  · obtain ⟨h1, h2⟩ := icpLoop_unsat t hp he hb h
    exact ⟨h1, (icpLoop_empty h).2 rfl (Or.inl (by simp)), fun hF => h2 rfl hF (s.box, none) (by simp)⟩

theorem atoms_sub {D I env vs U c} (he : EnvOk D I env) (hc : AllAtoms (AtomOk vs U) c) :
    Closed (SubR vs) (prune env.ib env.fuel c) := by
  refine prune_closed (subR_pre vs) c (allAtoms_imp (fun a ha => ?_) c hc)
  cases a with
  | id => exact prune_sub he.ib he.fa _ (show BuiltFor vs .id from trivial)
  | integer is => exact prune_sub he.ib he.fa _ (show BuiltFor vs (.integer is) from ha)
  | seq => exact ha.elim
  | join => exact ha.elim
  | fixpoint => exact ha.elim
  | worklist => exact ha.elim
  | fwdbwd ws f c =>
    intro s s' h hs
    simp only [prune] at h
    obtain ⟨h0, h1, h2⟩ := ha
    have hok := posBwd_ok he.ib he.loc hs.2 (hs.1 ▸ h0) h1
    have hbox := fwdbwd_box h
    exact ⟨by rw [hbox, ← hs.1]; exact hok.shape, by rw [hbox]; exact hok.sub⟩
  | polytope ws fs cs =>
    exact prune_sub he.ib he.fa _ (show BuiltFor vs (.polytope ws fs cs) from ⟨ha.1, ha.2.1⟩)
  | forallC ws f => exact prune_sub he.ib he.fa _ (show BuiltFor vs (.forallC ws f) from ha.1)

theorem theoryCheck_unsat {D I env} {cfg : TCfg} (he : EnvOk D I env) (hd : DblOk cfg.dbl)
    {cache tick b fs E cache' tick'} (wf : BoxWf b) (hl : LitsOk fs b.vars)
    (hc : CacheOk b.vars cache)
    (h : theoryCheck env cfg cache tick b fs = .ok (.unsat E, cache', tick')) :
    (∀ f ∈ E, f ∈ fs) ∧ Conflict D I cfg.dbl b E := by
  unfold theoryCheck at h
  obtain ⟨⟨o, c1, s⟩, h1, h2⟩ := bindR_ok h
  obtain ⟨r1, r2, r3, r4, r5, r6, r7⟩ := buildContractor_spec (D := D) (I := I) hd hl (lift_ok h1)
    ⟨rfl, wf⟩ hc
  have hs0 : s.used ⊆ fs := r4 (by simp)
  have hsol : ∀ {ρ} (hE : ∀ f ∈ E, f ∈ fs), InBox ρ b → TypedOn ρ b.vars →
      (∀ f ∈ E, DefF D I ρ f) → (∀ f ∈ E, NoGap cfg.dbl ρ f) → (∀ f ∈ E, holds I ρ f) →
      SolE D I cfg.dbl E b.vars ρ := fun hE _ g2 g3 g4 g5 =>
    ⟨g2, fun f hf => hl.rc f (hE f hf), fun f hf => hl.vars f (hE f hf), g3, g4, g5⟩
  cases o with
  | some c =>
    simp only at h2
    obtain ⟨_, h3, h4⟩ := bindR_ok h2
    obtain ⟨⟨res, s'⟩, h5, h6⟩ := bindR_ok h4
    have hatoms := r5 c rfl
    simp only at h6
    split at h6
    · rename_i hemp
      obtain ⟨e, h7, h8⟩ := bindR_ok h6
      simp only [Run.ok.injEq, Prod.mk.injEq, TAnswer.unsat.injEq] at h8
      obtain ⟨rfl, -, -⟩ := h8
      obtain ⟨hF, hsub⟩ := leads_of_explanation h7
      have hused : s'.used ⊆ fs := usedIn_icp (usedIn_prune hatoms) (fun f hf => hf) h5 hs0
      have hE : ∀ f ∈ e, f ∈ fs := fun f hf => hused (hsub hf)
      refine ⟨hE, fun ρ g1 g2 g3 g4 g5 => ?_⟩
      have sol := hsol hE g1 g2 g3 g4 g5
      have hres : res = false := by
        cases res with
        | false => rfl
        | true =>
          have := icp_empty ⟨b.vars, atoms_sub he hatoms, r1⟩
            he.cut h5
          rw [this] at hemp; cases hemp
      subst hres
      obtain ⟨m, -, hno⟩ := icp_unsat (tracks_live b.vars _ ρ e) (live_prune sol he hl hatoms)
        (live_eval sol he hl) (live_branch sol he.br)
        (live_branch sol (branchOk_default he.cut)) h5
      exact hno hF (r7 _ ρ e sol ((tracks_live b.vars _ ρ e).anti _ _ m hF)
        (live_start ⟨rfl, wf⟩ g1))
    · simp at h6
  | none =>
    simp only at h2
    split at h2
    · obtain ⟨e, h7, h8⟩ := bindR_ok h2
      simp only [Run.ok.injEq, Prod.mk.injEq, TAnswer.unsat.injEq] at h8
      obtain ⟨rfl, -, -⟩ := h8
      obtain ⟨hF, hsub⟩ := leads_of_explanation h7
      have hE : ∀ f ∈ e, f ∈ fs := fun f hf => hs0 (hsub hf)
      refine ⟨hE, fun ρ g1 g2 g3 g4 g5 => ?_⟩
      have sol := hsol hE g1 g2 g3 g4 g5
      have := (r7 _ ρ e sol hF (live_start ⟨rfl, wf⟩ g1)).bot
      rw [r6 rfl] at this; cases this
    · cases h2

theorem theoryCheck_cache {D I env} {cfg : TCfg} (hd : DblOk cfg.dbl)
    {cache tick b fs ans cache' tick'} (wf : BoxWf b) (hl : LitsOk fs b.vars)
    (hc : CacheOk b.vars cache) (_ : EnvOk D I env)
    (h : theoryCheck env cfg cache tick b fs = .ok (ans, cache', tick')) :
    CacheOk b.vars cache' := by
  unfold theoryCheck at h
  obtain ⟨⟨o, c1, s⟩, h1, h2⟩ := bindR_ok h
  obtain ⟨-, r2, -⟩ := buildContractor_spec (D := D) (I := I) hd hl (lift_ok h1)
    ⟨rfl, wf⟩ hc
  cases o with
  | some c =>
    simp only at h2
    obtain ⟨_, h3, h4⟩ := bindR_ok h2
    obtain ⟨⟨res, s'⟩, h5, h6⟩ := bindR_ok h4
    simp only at h6
    split at h6
    · obtain ⟨e, h7, h8⟩ := bindR_ok h6
      simp only [Run.ok.injEq, Prod.mk.injEq] at h8
      obtain ⟨-, rfl, -⟩ := h8; exact r2
    · simp only [Run.ok.injEq, Prod.mk.injEq] at h6
      obtain ⟨-, rfl, -⟩ := h6; exact r2
  | none =>
    simp only at h2
    split at h2
    · obtain ⟨e, h7, h8⟩ := bindR_ok h2
      simp only [Run.ok.injEq, Prod.mk.injEq] at h8
      obtain ⟨-, rfl, -⟩ := h8; exact r2
    · cases h2

end Verif.Proof
