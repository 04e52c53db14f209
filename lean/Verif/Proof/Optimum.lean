import Verif.Spec.Optimum
import Verif.Proof.DeltaInv
import Verif.Proof.Minimize

/-! # Lemmas on Minimize at the level of a context: the invariant of histories without scopes -/

namespace Verif.Proof
open Verif Verif.Model Verif.Spec Verif.Model.Filter

/-! ### Replacing conditionals where there are none -/

mutual
theorem iteF_same {I : Interp} {ρ : Valuation} : ∀ f g s, IteFree f → QFree f →
    (holds I ρ (iteF f g s).1 ↔ holds I ρ f)
  | .ff, _, _, _, _ => by simp only [iteF]
  | .tt, _, _, _, _ => by simp only [iteF]
  | .bvar _, _, _, _, _ => by simp only [iteF]
  | .rel op a b, g, s, h, _ => by
    simp only [iteF, iteE_free a _ _ h.1, iteE_free b _ _ h.2, holds_mkRel,
      holds_rel]
  | .conj fs, g, s, h, q => by
    simp only [iteF, holds_mkConj, holds_conj, mem_toSet]
    exact (iteList_same fs g s h q).1
  | .disj fs, g, s, h, q => by
    simp only [iteF, holds_mkDisj, holds_disj, mem_toSet]
    exact (iteList_same fs g s h q).2
  | .neg f, g, s, h, q => by
    simp only [iteF, holds_notF, holds_neg, iteF_same f g s h q]
  | .all _ _, _, _, _, q => absurd q id
theorem iteList_same {I : Interp} {ρ : Valuation} : ∀ fs g s, IteFreeList fs → QFrees fs →
    ((∀ x ∈ (iteList fs g s).1, holds I ρ x) ↔ ∀ x ∈ fs, holds I ρ x) ∧
    ((∃ x ∈ (iteList fs g s).1, holds I ρ x) ↔ ∃ x ∈ fs, holds I ρ x)
  | [], _, _, _, _ => by simp [iteList]
  | f :: fs, g, s, h, q => by
    simp only [iteList, List.mem_cons, forall_eq_or_imp, exists_eq_or_imp, iteF_same f g s h.1 q.1,
      (iteList_same fs g _ h.2 q.2).1, (iteList_same fs g _ h.2 q.2).2, and_self]
end

mutual
theorem iteF_atoms {P : RelOp → Expr → Expr → Prop} {B : Variable → Prop} : ∀ f g s, IteFree f →
    ForAtoms P B NoQ f → ForAtoms P B NoQ (iteF f g s).1
  | .ff, _, _, _, _ => by simp only [iteF]; trivial
  | .tt, _, _, _, _ => by simp only [iteF]; trivial
  | .bvar _, _, _, _, h => by simp only [iteF]; exact h
  | .rel op a b, g, s, h, q => by
    simp only [iteF, iteE_free a _ _ h.1, iteE_free b _ _ h.2]
    exact .mkRel q
  | .conj fs, g, s, h, q => by
    simp only [iteF]
    exact .mkConj fun x hx => iteList_atoms fs g s h (forAtomsL_iff.mp q) x (mem_toSet.mp hx)
  | .disj fs, g, s, h, q => by
    simp only [iteF]
    exact .mkDisj fun x hx => iteList_atoms fs g s h (forAtomsL_iff.mp q) x (mem_toSet.mp hx)
  | .neg f, g, s, h, q => by
    simp only [iteF]
    exact ForAtoms.notF (iteF_atoms f g s h q)
  | .all _ _, _, _, _, q => absurd q id
theorem iteList_atoms {P : RelOp → Expr → Expr → Prop} {B : Variable → Prop} : ∀ fs g s,
    IteFreeList fs → (∀ f ∈ fs, ForAtoms P B NoQ f) →
    ∀ x ∈ (iteList fs g s).1, ForAtoms P B NoQ x
  | [], _, _, _, _ => by simp [iteList]
  | f :: fs, g, s, h, q => by
    simp only [iteList, List.mem_cons, forall_eq_or_imp]
    exact ⟨iteF_atoms f g s h.1 (q f (by simp)),
      iteList_atoms fs g _ h.2 (fun x hx => q x (by simp [hx]))⟩
end

theorem iteProcess_same {n f} (h : IteFree f) (q : QFree f) :
    (iteProcess n f).2 = ([], n) ∧ (∀ I ρ, holds I ρ (iteProcess n f).1 ↔ holds I ρ f) ∧
    ∀ P B, ForAtoms P B NoQ f → ForAtoms P B NoQ (iteProcess n f).1 := by
  have h1 := iteF_id f .tt { next := n } h
  unfold iteProcess
  simp only [h1]
  refine ⟨trivial, fun I ρ => ?_, fun P B hf => .iteResult (iteF_atoms f _ _ h hf) (by simp)⟩
  unfold iteResult
  split
  · exact Iff.rfl
  · simp only [holds_andF, holds_mkConj, iteF_same f _ _ h q]
    simp

/-! ### What the atoms of a formula without quantifiers and conditionals satisfy -/

mutual
theorem wf_flat {V : Variable → Prop} : ∀ f, WfF V f → IteFree f → QFree f →
    ForAtoms (fun _ a b => (WfE V a ∧ WfE V b) ∧ IteFreeE a ∧ IteFreeE b)
      (fun v => v.type = .boolean ∧ V v) NoQ f
  | .ff, _, _, _ => trivial
  | .tt, _, _, _ => trivial
  | .bvar _, h, _, _ => h
  | .rel _ _ _, h, i, _ => ⟨h, i⟩
  | .conj fs, h, i, q => wf_flats fs h i q
  | .disj fs, h, i, q => wf_flats fs h i q
  | .neg f, h, i, q => wf_flat f h i q
  | .all _ _, _, _, q => absurd q id
theorem wf_flats {V : Variable → Prop} : ∀ fs, WfFs V fs → IteFreeList fs → QFrees fs →
    ForAtomsL (fun _ a b => (WfE V a ∧ WfE V b) ∧ IteFreeE a ∧ IteFreeE b)
      (fun v => v.type = .boolean ∧ V v) NoQ fs
  | [], _, _, _ => trivial
  | f :: fs, h, i, q => ⟨wf_flat f h.1 i.1 q.1, wf_flats fs h.2 i.2 q.2⟩
end

mutual
theorem def_flat {D : Dom} {I : Interp} {T : Valuation → Prop} : ∀ f, QFree f →
    (∀ σ, T σ → DefF D I σ f) →
    ForAtoms (fun _ a b => ∀ σ, T σ → DefE D I σ a ∧ DefE D I σ b) (fun _ => True) NoQ f
  | .ff, _, _ => trivial
  | .tt, _, _ => trivial
  | .bvar _, _, _ => trivial
  | .rel _ _ _, _, h => fun σ hσ => by have := h σ hσ; simpa only [DefF] using this
  | .conj fs, q, h => def_flats fs q fun σ hσ => by have := h σ hσ; simpa only [DefF] using this
  | .disj fs, q, h => def_flats fs q fun σ hσ => by have := h σ hσ; simpa only [DefF] using this
  | .neg f, q, h => def_flat f q fun σ hσ => by have := h σ hσ; simpa only [DefF] using this
  | .all _ _, q, _ => absurd q id
theorem def_flats {D : Dom} {I : Interp} {T : Valuation → Prop} : ∀ fs, QFrees fs →
    (∀ σ, T σ → DefFs D I σ fs) →
    ForAtomsL (fun _ a b => ∀ σ, T σ → DefE D I σ a ∧ DefE D I σ b) (fun _ => True) NoQ fs
  | [], _, _ => trivial
  | f :: fs, q, h =>
    ⟨def_flat f q.1 fun σ hσ => by have := h σ hσ; simp only [DefFs] at this; exact this.1,
      def_flats fs q.2 fun σ hσ => by have := h σ hσ; simp only [DefFs] at this; exact this.2⟩
end

/-! ### The invariant -/

/-- The box and the stack say what the problem says. -/
structure FlatInv (c : Ctx) (P : Problem) : Prop where
  sub : c.box.bot = false ∨ P.asserted = [] → ∀ (i : Nat) v iv, c.box.vars[i]? = some v →
    (v, iv) ∈ P.dom → ∀ x : ℝ, InItv x (c.box.get i) → InItv x iv
  all : ∀ v ∈ c.box.vars, P.Declared v
  form : ∀ f ∈ P.asserted, WfF P.Declared f ∧ IteFree f ∧ QFree f
  enf : ∀ f ∈ P.asserted, (∀ I ρ, InBox ρ c.box → holds I ρ f) ∨
    ∃ g ∈ c.stack.vec, ∀ I ρ, holds I ρ g ↔ holds I ρ f
  stk : ∀ g ∈ c.stack.vec, ∃ f ∈ P.asserted, (∀ I ρ, holds I ρ g ↔ holds I ρ f) ∧
    ∀ P B, ForAtoms P B NoQ f → ForAtoms P B NoQ g

/-- The books of a history without scopes. -/
structure FlatBooks (k : Books) : Prop where
  one : k.levels = [k.top]
  quant : ¬ k.quant
  used : ∀ v ∈ k.used, v ∈ k.made

theorem flatInv_sound {c P I ρ} (h : FlatInv c P) (hdom : ∀ v, P.Declared v → v ∈ c.box.vars)
    (hf : Feasible I c.box c.stack.vec ρ) : SolvedBy I P ρ := by
  refine ⟨fun p hp => hf.typed _ (hdom p.1 ⟨p.2, hp⟩), fun p hp => ?_, fun f hff => ?_⟩
  · obtain ⟨i, hi⟩ := List.mem_iff_getElem?.mp (hdom p.1 ⟨p.2, hp⟩)
    exact h.sub (.inl hf.inBox.1) i p.1 p.2 hi hp _ (hf.inBox.2 i p.1 hi)
  · rcases h.enf f hff with h1 | ⟨g, h1, h2⟩
    · exact h1 I ρ hf.inBox
    · exact (h2 I ρ).mp (hf.holds g h1)

section
variable {D : Dom} {I : Interp} {d : Dbl}

theorem flatInv_complete {made H s P ρ} {c : Ctx} (h : FlatInv c P)
    (hl : LvInv D I d made H s c.box c.stack.vec P) (hs : SolvedBy I P ρ)
    (hr : RegularAt D I d P ρ) : Feasible I c.box c.stack.vec ρ := by
  obtain ⟨ρ', w⟩ := hl.wit ρ hs hr
  have hag : ∀ v ∈ c.box.vars, ρ' v = ρ v := fun v hv => w.agree v (.inl (hl.dom v (h.all v hv)).2)
  refine ⟨⟨w.inBox.1, fun i v hv => ?_⟩, fun v hv => ?_, fun g hg => ?_⟩
  · rw [← hag v (List.mem_of_getElem? hv)]; exact w.inBox.2 i v hv
  · rw [← hag v hv]; exact w.typed v hv
  · obtain ⟨f, hf, h1, -⟩ := h.stk g hg
    exact (h1 I ρ).mpr (hs.holds f hf)

theorem flat_declare {k H c v m} (h : KInv D I d k H c) (hd : FlatInv c k.top)
    (hp : k.top.asserted = [] ∨ k.top.dom ≠ []) :
    FlatInv (declare c v m) (k.step c.sat.abs.next (.declare v m)).top := by
  obtain ⟨P, Ps, hk, ht, hl, -⟩ := h.cons
  rw [ht] at hp hd
  have hbox : (declare c v m).box = addToBox c.box v := by
    unfold declare; simp only; split <;> exact box_setBox _ _
  have hstk : (declare c v m).stack = c.stack := by unfold declare; simp only; split <;> rfl
  set dom' := if v ∈ P.dom.map Prod.fst then P.dom else (v, newItv v.type) :: P.dom with hdom'
  have hcase : ∀ p ∈ dom', p ∈ P.dom ∨ (p = (v, newItv v.type) ∧ v ∉ P.dom.map Prod.fst) := by
    intro p hp'
    rw [hdom'] at hp'
    split at hp'
    · exact .inl hp'
    · rename_i hn
      rcases List.mem_cons.mp hp' with h | h
      exacts [.inr ⟨h, hn⟩, .inl h]
  have hsub : ∀ p ∈ P.dom, p ∈ dom' := by
    intro p hp; rw [hdom']; split
    · exact hp
    · simp [hp]
  have hb0 : v ∉ c.box.vars → ¬ (c.box.vars = [] ∧ c.box.bot = true) := by
    rintro - ⟨e1, e2⟩
    rcases hp with ha | hne
    · obtain ⟨w, iv, h0, -⟩ := (hl.free ha).bot e2
      rw [e1] at h0; cases h0
    · obtain ⟨p, hp⟩ := List.exists_mem_of_ne_nil _ hne
      have := (hl.dom p.1 ⟨p.2, hp⟩).1
      rw [e1] at this; cases this
  have hget : ∀ (i : Nat) w, (addToBox c.box v).vars[i]? = some w →
      (c.box.vars[i]? = some w ∧ (addToBox c.box v).get i = c.box.get i) ∨
      (w = v ∧ v ∉ c.box.vars ∧ (addToBox c.box v).get i = newItv v.type) := by
    intro i w hw
    by_cases hvb : v ∈ c.box.vars
    · have e1 : addToBox c.box v = c.box := by unfold addToBox; rw [if_pos hvb]
      rw [e1] at hw ⊢; exact .inl ⟨hw, rfl⟩
    · have e1 : addToBox c.box v = { c.box with
          vars := c.box.vars ++ [v], vals := c.box.vals ++ [newItv v.type] } := by
        unfold addToBox; rw [if_neg hvb, if_neg (hb0 hvb), newItv_eq]
      rw [e1] at hw ⊢
      have hlen := hl.wf.1
      rcases getElem?_snoc hw with hw' | ⟨rfl, rfl⟩
      · have hi := lt_of_getElem? hw'
        refine .inl ⟨hw', ?_⟩
        simp only [Box.get, List.getD_eq_getElem?_getD]
        rw [List.getElem?_append_left (by omega)]
      · refine .inr ⟨rfl, hvb, ?_⟩
        simp only [Box.get, List.getD_eq_getElem?_getD]
        rw [← hlen, List.getElem?_append_right (le_refl _)]
        simp
  have hbot : (addToBox c.box v).bot = c.box.bot := by
    unfold addToBox
    split
    · rfl
    · rename_i hvb
      rw [if_neg (hb0 hvb)]
  have htop : (k.step c.sat.abs.next (.declare v m)).top = { P with dom := dom' } := by
    show (k.setTop { k.top with dom := _ }).top = _
    rw [ht]; rfl
  rw [htop]
  refine ⟨fun hc i w iv hw hiv x hx => ?_, fun w hw => ?_, fun f hf => ⟨?_, (hd.form f hf).2⟩,
    fun f hf => ?_, by rw [hstk]; exact hd.stk⟩
  · rw [hbox] at hc hw hx
    rw [hbot] at hc
    rcases hget i w hw with ⟨h1, h2⟩ | ⟨rfl, h1, h2⟩
    · rw [h2] at hx
      rcases hcase _ hiv with h3 | ⟨h3, h4⟩
      · exact hd.sub hc i w iv h1 h3 x hx
      · cases h3
        rcases (hl.kinds v (List.mem_of_getElem? h1)).2 with ⟨iv, h5⟩ | h5
        · exact absurd (List.mem_map_of_mem (f := Prod.fst) h5) h4
        · rw [h5.2]; simp [newItv, InItv, below, above]
    · rw [h2] at hx
      rcases hcase _ hiv with h3 | ⟨h3, -⟩
      · exact absurd (hl.dom w ⟨iv, h3⟩).1 h1
      · cases h3; exact hx
  · rw [hbox] at hw
    rcases addToBox_mem.mp hw with hw | rfl
    · obtain ⟨iv, hiv⟩ := hd.all w hw
      exact ⟨iv, hsub _ hiv⟩
    · show ∃ iv, (w, iv) ∈ dom'
      rw [hdom']
      split
      · rename_i hm
        obtain ⟨p, hp, he⟩ := List.mem_map.mp hm
        exact ⟨p.2, by rw [← he]; exact hp⟩
      · exact ⟨_, List.mem_cons_self⟩
  · exact wfF_mono (fun w ⟨iv, hw⟩ => ⟨iv, hsub _ hw⟩) f (hd.form f hf).1
  · rw [hstk, hbox]
    refine (hd.enf f hf).imp (fun h1 I ρ hin => h1 I ρ ⟨by rw [← hbot]; exact hin.1, ?_⟩) id
    intro i w hw
    have hvars : (addToBox c.box v).vars[i]? = some w := by
      rw [addToBox_vars]
      split
      · exact hw
      · rw [List.getElem?_append_left (lt_of_getElem? hw)]; exact hw
    have := hin.2 i w hvars
    rcases hget i w hvars with ⟨-, h2⟩ | ⟨rfl, h1, -⟩
    · rwa [h2] at this
    · exact absurd (List.mem_of_getElem? hw) h1

theorem flat_setInterval {k H c v lb ub c'} (h : KInv D I d k H c) (hd : FlatInv c k.top)
    (hp : k.top.asserted = []) (hs : setInterval c v lb ub = .ok c') :
    FlatInv c' (k.step c.sat.abs.next (.setInterval v lb ub)).top := by
  obtain ⟨P, Ps, hk, ht, hl, -⟩ := h.cons
  rw [ht] at hp hd
  unfold setInterval at hs
  split at hs
  swap
  · cases hs
  rename_i hvb
  simp only [Outcome.ok.injEq] at hs; subst hs
  have htop : (k.step c.sat.abs.next (.setInterval v lb ub)).top =
      { P with dom := P.dom.map fun p => if p.1 = v then (v, (⟨lb, ub⟩ : Itv)) else p } := by
    show (k.setTop { k.top with dom := _ }).top = _
    rw [ht]; rfl
  rw [htop]
  have hmem : ∀ w iv, (w, iv) ∈ P.dom.map (fun p => if p.1 = v then (v, (⟨lb, ub⟩ : Itv)) else p) →
      (w = v ∧ iv = ⟨lb, ub⟩) ∨ (w ≠ v ∧ (w, iv) ∈ P.dom) := by
    intro w iv hi
    obtain ⟨p, hp, he⟩ := List.mem_map.mp hi
    split at he
    · cases he; exact .inl ⟨rfl, rfl⟩
    · rename_i hne; rw [he] at hp hne; exact .inr ⟨hne, hp⟩
  have hstk : c.stack.vec = [] := (hl.free hp).stk
  refine ⟨fun _ i w iv hw hiv x hx => ?_, fun w hw => ?_, fun f hf => ?_, fun f hf => ?_,
    fun g hg => ?_⟩
  · rw [box_setBox] at hw hx
    have hw' : c.box.vars[i]? = some w := hw
    have hg : Box.get { c.box.setV v (mkItv lb ub) with
        bot := if c.box.index v = 0 then (mkItv lb ub).isEmpty
          else (c.box.setV v (mkItv lb ub)).bot } i = (c.box.setV v (mkItv lb ub)).get i := rfl
    rw [hg, setV_get hl.wf hvb hw'] at hx
    rcases hmem w iv hiv with ⟨rfl, rfl⟩ | ⟨hne, hin⟩
    · rw [if_pos rfl] at hx; exact mkItv_out hx
    · rw [if_neg hne] at hx
      exact hd.sub (.inr hp) i w iv hw' hin x hx
  · rw [box_setBox] at hw
    obtain ⟨iv, hiv⟩ := hd.all w hw
    by_cases hwv : w = v
    · exact ⟨⟨lb, ub⟩, List.mem_map.mpr ⟨(w, iv), hiv, by simp [hwv]⟩⟩
    · exact ⟨iv, List.mem_map.mpr ⟨(w, iv), hiv, by simp only [if_neg hwv]⟩⟩
  · change f ∈ P.asserted at hf
    rw [hp] at hf; cases hf
  · change f ∈ P.asserted at hf
    rw [hp] at hf; cases hf
  · change g ∈ c.stack.vec at hg
    rw [hstk] at hg; cases hg

/-- An absorbed exact bound holds in the box. -/
theorem filter_exact {dd : Dbl} (hd : DblOk dd) {f : Fml} {b b' : Box} {r : FilterRes}
    (wf : BoxWf b) (hv : ∀ v ∈ f.fv, v ∈ b.vars) (he : ExactBound dd f)
    (h : filter dd f b = .ok (r, b')) (hr : r ≠ .notFiltered) {ρ : Valuation} (hin : InBox ρ b') :
    holds I ρ f := by
  rcases filter_cases h with ⟨-, h1, -⟩ | ⟨v, op, lo, hi, ex, h1, h2⟩
  · exact absurd h1 hr
  obtain ⟨e1, e2, e3⟩ := he _ _ _ _ _ h1
  subst e1; subst e2
  obtain ⟨b1, b2, -, -⟩ := asBound_holds (I := I) (ρ := ρ) h1
  have hvb := hv v b2
  obtain ⟨a1, a2, a3⟩ := acts_ok wf hvb h2
  have hk := ((updOk_in a1 hvb).mp hin).2
  rw [b1]
  cases op with
  | eq => exact le_antisymm hk.2 hk.1
  | neq => exact absurd h2.1 hr
  | geq => exact hk
  | leq => exact hk
  | gt =>
    have h2 : updStrictLower dd b v _ = .ok (r, b') := h2
    have ht : v.type = .continuous := by
      unfold updStrictLower at h2
      cases ht : v.type with
      | continuous => rfl
      | integer => simp [ht] at h2; exact absurd h2.1.symm hr
      | binary => simp [ht] at h2; exact absurd h2.1.symm hr
      | boolean => simp [ht] at h2
    simp only [keeps, ht, if_true, Dbl.nextafter] at hk
    have hlt := (e3 ht).1 rfl
    rw [if_neg hlt.ne, if_pos hlt] at hk
    have := hd.succ hi
    simp only [relSem]
    exact lt_of_lt_of_le (by exact_mod_cast this) hk
  | lt =>
    have h2 : updStrictUpper dd b v _ = .ok (r, b') := h2
    have ht : v.type = .continuous := by
      unfold updStrictUpper at h2
      cases ht : v.type with
      | continuous => rfl
      | integer => simp [ht] at h2; exact absurd h2.1.symm hr
      | binary => simp [ht] at h2; exact absurd h2.1.symm hr
      | boolean => simp [ht] at h2
    simp only [keeps, ht, if_true, Dbl.nextafter] at hk
    have hlt := (e3 ht).2 rfl
    rw [if_neg hlt.ne', if_neg (not_lt.mpr hlt.le)] at hk
    have := hd.pred hi
    simp only [relSem]
    exact lt_of_le_of_lt hk (by exact_mod_cast this)

theorem flat_assert {cfg : CCfg} {k H c f c'} (hdo : DblOk cfg.th.dbl)
    (h : KInv D I cfg.th.dbl k H c) (hd : FlatInv c k.top)
    (hu : WfF k.top.Declared f) (hp : QFree f ∧ IteFree f ∧ ExactBound cfg.th.dbl f)
    (hs : assertF cfg c f = .ok c') :
    FlatInv c' (k.step c.sat.abs.next (.assert f)).top := by
  obtain ⟨P, Ps, hk, ht, hl, -⟩ := h.cons
  rw [ht] at hu hd
  obtain ⟨hq, hi, he⟩ := hp
  have hvb : ∀ v ∈ f.fv, v ∈ c.box.vars := fun v hv => (hl.dom v (wfF_fv f hu v hv)).1
  have htop : (k.step c.sat.abs.next (.assert f)).top = { P with asserted := f :: P.asserted } := by
    show (k.setTop { k.top with asserted := _ }).top = _
    rw [ht]; rfl
  rw [htop]
  -- what remains to be shown of the new box and the new stack
  have key : ∀ (b' : Box) (st : List Fml), c'.box = b' → c'.stack.vec = st →
      b'.vars = c.box.vars →
      (b'.bot = false → c.box.bot = false ∧ ∀ i x, InItv x (b'.get i) → InItv x (c.box.get i)) →
      ((st = c.stack.vec ∧ ∀ J ρ, InBox ρ b' → holds J ρ f) ∨
        ∃ g, st = c.stack.vec ++ [g] ∧ (∀ J ρ, holds J ρ g ↔ holds J ρ f) ∧
          ∀ P B, ForAtoms P B NoQ f → ForAtoms P B NoQ g) →
      FlatInv c' { P with asserted := f :: P.asserted } := by
    intro b' st e1 e2 e3 e4 e5
    have hin : ∀ ρ, InBox ρ b' → InBox ρ c.box := fun ρ hρ =>
      ⟨(e4 hρ.1).1, fun i v hv => (e4 hρ.1).2 i _ (hρ.2 i v (by rw [e3]; exact hv))⟩
    have hsub : ∀ g ∈ c.stack.vec, g ∈ st := by
      intro g hg
      rcases e5 with ⟨e, -⟩ | ⟨g', e, -⟩
      · rw [e]; exact hg
      · rw [e]; exact List.mem_append_left _ hg
    refine ⟨fun hc i v iv hv hiv x hx => ?_, fun v hv => ?_, fun g hg => ?_, fun g hg => ?_,
      fun g hg => ?_⟩
    · rw [e1] at hc hv hx
      have hbot : b'.bot = false := hc.resolve_right (by simp)
      obtain ⟨h1, h2⟩ := e4 hbot
      exact hd.sub (.inl h1) i v iv (by rw [← e3]; exact hv) hiv x (h2 i x hx)
    · rw [e1, e3] at hv
      exact hd.all v hv
    · rcases List.mem_cons.mp hg with rfl | hg
      · exact ⟨hu, hi, hq⟩
      · exact hd.form g hg
    · rw [e1, e2]
      rcases List.mem_cons.mp hg with rfl | hg
      · rcases e5 with ⟨-, e⟩ | ⟨g', e, e6, -⟩
        · exact .inl e
        · exact .inr ⟨g', by rw [e]; simp, e6⟩
      · exact (hd.enf g hg).imp (fun h1 J ρ hρ => h1 J ρ (hin ρ hρ))
          (fun ⟨x, x1, x2⟩ => ⟨x, hsub x x1, x2⟩)
    · rw [e2] at hg
      have old : g ∈ c.stack.vec → ∃ f_1 ∈ f :: P.asserted, (∀ I ρ, holds I ρ g ↔ holds I ρ f_1) ∧
          ∀ P B, ForAtoms P B NoQ f_1 → ForAtoms P B NoQ g := fun hg =>
        let ⟨x, x1, x2⟩ := hd.stk g hg
        ⟨x, List.mem_cons_of_mem _ x1, x2⟩
      rcases e5 with ⟨e, -⟩ | ⟨g', e, e6⟩
      · rw [e] at hg; exact old hg
      · rw [e] at hg
        rcases List.mem_append.mp hg with hg | hg
        · exact old hg
        · rw [List.mem_singleton] at hg
          exact ⟨f, List.mem_cons_self, by rw [hg]; exact e6⟩
  have refl : c.box.bot = false → c.box.bot = false ∧
      ∀ i x, InItv x (c.box.get i) → InItv x (c.box.get i) := fun h => ⟨h, fun _ _ h => h⟩
  unfold assertF at hs
  split at hs
  · rename_i htt
    simp only [Outcome.ok.injEq] at hs
    rw [← hs] at key ⊢
    exact key c.box c.stack.vec rfl rfl rfl refl (.inl ⟨rfl, fun _ _ _ => by rw [htt]; simp⟩)
  split at hs
  · rename_i hem
    simp only [Outcome.ok.injEq] at hs
    rw [← hs] at key ⊢
    refine key c.box c.stack.vec rfl rfl rfl refl (.inl ⟨rfl, fun _ _ hn => ?_⟩)
    have : c.box.bot = true := hem
    rw [hn.1] at this; cases this
  split at hs
  · simp only [Outcome.ok.injEq] at hs
    rw [← hs] at key ⊢
    have hsh := wipe_shape (cfg := cfg) (vs := c.box.vars) ⟨rfl, hl.wf⟩
    refine key (wipeBox cfg c.box) c.stack.vec (box_setBox _ _) rfl hsh.1 (fun hb => by cases hb)
      (.inl ⟨rfl, fun _ _ hn => ?_⟩)
    have := hn.1; cases this
  obtain ⟨⟨res, bf⟩, h1, h2⟩ := bindO_ok hs
  obtain ⟨f1, f2, f3, f4, -⟩ := filter_spec (I := I) hdo hl.wf hvb (wfF_rc f hu) h1
  obtain ⟨w1, -, -⟩ := filter_weak (δ := 0) hdo hl.wf hvb h1
  set b1 : Box := if bf.bot then wipeBox cfg bf else bf with hb1
  have hb1v : b1.vars = c.box.vars := by
    rw [hb1]; split
    · exact f1
    · exact f1
  have hb1b : b1.bot = false → b1 = bf ∧ bf.bot = false := by
    rw [hb1]
    split
    · intro h; cases h
    · rename_i hb; exact fun _ => ⟨rfl, by simpa using hb⟩
  have hb1sub : b1.bot = false → c.box.bot = false ∧
      ∀ i x, InItv x (b1.get i) → InItv x (c.box.get i) := fun hb => by
    obtain ⟨e1, e2⟩ := hb1b hb
    rw [e1]; exact w1 e2
  by_cases hres : res = .notFiltered
  swap
  · have hc' : c' = c.setBox b1 := by
      cases res with
      | notFiltered => exact absurd rfl hres
      | withChange => simp only [Outcome.ok.injEq] at h2; exact h2.symm
      | withoutChange => simp only [Outcome.ok.injEq] at h2; exact h2.symm
    refine key b1 c.stack.vec (by rw [hc']; exact box_setBox _ _) (by rw [hc']; rfl) hb1v hb1sub
      (.inl ⟨rfl, fun J ρ hin => ?_⟩)
    obtain ⟨e1, -⟩ := hb1b hin.1
    rw [e1] at hin
    exact filter_exact (I := J) hdo hl.wf hvb he h1 hres hin
  subst hres
  simp only at h2
  obtain ⟨s2, h3, h4⟩ := bindO_ok h2
  simp only [Outcome.ok.injEq] at h4
  obtain ⟨q1, q2, q3⟩ := iteProcess_same (n := (c.setBox b1).sat.abs.next) hi hq
  set g := (iteProcess (c.setBox b1).sat.abs.next f).1 with hg
  have hq1 : (iteProcess (c.setBox b1).sat.abs.next f).2.1 = [] := by rw [q1]
  rw [hq1, List.foldl_nil, box_setBox] at h4
  exact key b1 _ (by rw [← h4]; exact box_setBox (c.setBox b1) b1) (by rw [← h4]; rfl) hb1v hb1sub
    (.inr ⟨g, rfl, q2, q3⟩)

theorem flat_poses {cfg : CCfg} (hd : DblOk cfg.th.dbl) (hp : PicosatOk cfg.ps)
    (he : EnvOk D I cfg.env) {k c} (h : PosesExact cfg k c) :
    Poses cfg k c ∧ FlatInv c k.top ∧ FlatBooks k := by
  induction h with
  | init next made hm =>
    refine ⟨.init next made hm, ⟨?_, ?_, ?_, ?_, ?_⟩, rfl, fun h => h, ?_⟩ <;>
      simp [Books.top, Ctx.init, Ctx.box]
  | @step k c cmd a c' _ hu hx hs ih =>
    obtain ⟨hP, hF, hB⟩ := ih
    have hP' : Poses cfg (k.step c.sat.abs.next cmd) c' := .step hP hu hs
    obtain ⟨H, hK⟩ := kinv_poses hd hp he hP
    have hB1 := hB.one
    refine ⟨hP', ?_⟩
    cases cmd with
    | newVar t =>
      simp only [stepCmd, Run.ok.injEq, Prod.mk.injEq] at hs
      rw [← hs.2]
      exact ⟨⟨hF.sub, hF.all, hF.form, hF.enf, hF.stk⟩, hB.one, hB.quant,
        fun v hv => List.mem_cons_of_mem _ (hB.used v hv)⟩
    | declare v m =>
      simp only [stepCmd, Run.ok.injEq, Prod.mk.injEq] at hs
      rw [← hs.2]
      refine ⟨flat_declare hK hF hx, ?_, hB.quant, fun w hw => ?_⟩
      · show (_ :: k.levels.tail) = [_]
        rw [hB1]; rfl
      · rcases List.mem_cons.mp hw with rfl | hw
        · exact hu.1
        · exact hB.used w hw
    | setInterval v lb ub =>
      simp only [stepCmd] at hs
      obtain ⟨c1, h1, h2⟩ := bindR_ok hs
      simp only [Run.ok.injEq, Prod.mk.injEq] at h2
      rw [← h2.2]
      refine ⟨flat_setInterval hK hF hx (lift_ok h1), ?_, hB.quant, hB.used⟩
      show (_ :: k.levels.tail) = [_]
      rw [hB1]; rfl
    | assert f =>
      simp only [stepCmd] at hs
      obtain ⟨c1, h1, h2⟩ := bindR_ok hs
      simp only [Run.ok.injEq, Prod.mk.injEq] at h2
      rw [← h2.2]
      refine ⟨flat_assert hd hK hF hu.1 hx (lift_ok h1), ?_, ?_, hB.used⟩
      · show (_ :: k.levels.tail) = [_]
        rw [hB1]; rfl
      · rintro (hq | hq)
        exacts [hB.quant hq, hq hx.1]
    | check =>
      simp only [stepCmd] at hs
      obtain ⟨⟨o, c1⟩, h1, h2⟩ := bindR_ok hs
      simp only [Run.ok.injEq, Prod.mk.injEq] at h2
      rw [← h2.2]
      simp only [checkSat] at h1
      obtain ⟨⟨o1, s1, cache1, t1⟩, h3, h4⟩ := bindR_ok h1
      have hbs : c1.box = c.box ∧ c1.stack = c.stack := by
        cases o1 with
        | none =>
          simp only [Run.ok.injEq, Prod.mk.injEq] at h4
          rw [← h4.2]; exact ⟨rfl, rfl⟩
        | some b =>
          simp only at h4
          obtain ⟨t, -, h4⟩ := bindR_ok h4
          obtain ⟨m, -, h4⟩ := bindR_ok h4
          simp only [Run.ok.injEq, Prod.mk.injEq] at h4
          rw [← h4.2]; exact ⟨rfl, rfl⟩
      refine ⟨⟨?_, ?_, hF.form, ?_, ?_⟩, hB.one, hB.quant, hB.used⟩
      · rw [hbs.1]; exact hF.sub
      · rw [hbs.1]; exact hF.all
      · rw [hbs.1, hbs.2]; exact hF.enf
      · rw [hbs.2]; exact hF.stk
    | push => exact absurd hx id
    | pop => exact absurd hx id

end

end Verif.Proof
