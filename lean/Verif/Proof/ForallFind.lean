import Verif.Proof.Forall
import Verif.Proof.ModelVars
import Verif.Proof.DeltaLoop

/-! # The search for counterexamples by a nested context -/

namespace Verif.Proof
open Verif Verif.Model Verif.Spec

/-! ### Old variables under the operations on formulas -/

theorem Old.mkConj {n fs} (h : ∀ g ∈ fs, Old n g) : Old n (Model.mkConj fs) :=
  mkConj_ind (Q := Old n) (R := Old n) (fun _ h => OldList_iff.mp h) trivial trivial
    (fun _ h => h) (fun _ h => OldList_iff.mpr h) h

theorem Old.mkDisj {n fs} (h : ∀ g ∈ fs, Old n g) : Old n (Model.mkDisj fs) :=
  mkDisj_ind (Q := Old n) (R := Old n) (fun _ h => OldList_iff.mp h) trivial trivial
    (fun _ h => h) (fun _ h => OldList_iff.mpr h) h

theorem Old.andF {n f g} (hf : Old n f) (hg : Old n g) : Old n (Model.andF f g) := by
  unfold Model.andF
  have hm := fun a s (ha : Old n a) => mergeConj_mem (Q := Old n) (f := a) (s := s)
    (fun _ h => OldList_iff.mp h) ha
  split_ifs
  · exact hf
  · trivial
  · exact hg
  · exact hf
  · exact hf
  · split
    · exact OldList_iff.mpr (hm _ _ hg (OldList_iff.mp hf))
    · exact OldList_iff.mpr (hm _ _ hf (OldList_iff.mp hg))
    · refine OldList_iff.mpr (fun x hx => ?_)
      simp only [mem_insertF, List.not_mem_nil, or_false] at hx
      rcases hx with rfl | rfl <;> assumption

theorem Old.orF {n f g} (hf : Old n f) (hg : Old n g) : Old n (Model.orF f g) := by
  unfold Model.orF
  have hm := fun a s (ha : Old n a) => mergeDisj_mem (Q := Old n) (f := a) (s := s)
    (fun _ h => OldList_iff.mp h) ha
  split_ifs
  · exact hf
  · trivial
  · exact hg
  · exact hf
  · exact hf
  · split
    · exact OldList_iff.mpr (hm _ _ hg (OldList_iff.mp hf))
    · exact OldList_iff.mpr (hm _ _ hf (OldList_iff.mp hg))
    · refine OldList_iff.mpr (fun x hx => ?_)
      simp only [mem_insertF, List.not_mem_nil, or_false] at hx
      rcases hx with rfl | rfl <;> assumption

theorem Old.mkRel {n op a b} (ha : OldE n a) (hb : OldE n b) : Old n (Model.mkRel op a b) := by
  unfold Model.mkRel
  repeat' split
  all_goals first
    | exact ⟨ha, hb⟩
    | trivial

mutual
theorem Old.nnfVisit {n} (push pol : Bool) (f : Fml) (h : Old n f) :
    Old n (nnfVisit push pol f) := by
  cases f with
  | ff => simp only [Model.nnfVisit]; split <;> trivial
  | tt => simp only [Model.nnfVisit]; split <;> trivial
  | bvar v => simp only [Model.nnfVisit]; split; exacts [h, Old.notF h]
  | rel op a b =>
    simp only [Model.nnfVisit]
    split_ifs
    · exact h
    · exact Old.mkRel h.1 h.2
    · exact Old.notF h
  | conj fs =>
    have := Old.nnfVisitList push pol fs (OldList_iff.mp h)
    simp only [Model.nnfVisit]; split
    · exact Old.mkConj (fun g hg => this g (mem_toSet.mp hg))
    · exact Old.mkDisj (fun g hg => this g (mem_toSet.mp hg))
  | disj fs =>
    have := Old.nnfVisitList push pol fs (OldList_iff.mp h)
    simp only [Model.nnfVisit]; split
    · exact Old.mkDisj (fun g hg => this g (mem_toSet.mp hg))
    · exact Old.mkConj (fun g hg => this g (mem_toSet.mp hg))
  | neg f => exact Old.nnfVisit push (!pol) f h
  | all vs f => simp only [Model.nnfVisit]; split; exacts [h, Old.notF h]
theorem Old.nnfVisitList {n} (push pol : Bool) (fs : List Fml) (h : ∀ f ∈ fs, Old n f) :
    ∀ g ∈ nnfVisitList push pol fs, Old n g := by
  cases fs with
  | nil => simp [Model.nnfVisitList]
  | cons f fs =>
    simp only [Model.nnfVisitList, List.mem_cons, forall_eq_or_imp]
    exact ⟨Old.nnfVisit push pol f (h f (by simp)),
      Old.nnfVisitList push pol fs (fun g hg => h g (by simp [hg]))⟩
end

theorem OldE.addConst {n rnd e d} (h : OldE n e) : OldE n (Model.addConst rnd e d) := by
  unfold Model.addConst
  split
  · trivial
  · exact ⟨trivial, h.2⟩
  · exact ⟨h, trivial⟩

theorem Old.shiftRel {n rnd δ op l r} (hl : OldE n l) (hr : OldE n r) :
    Old n (Model.shiftRel rnd δ op l r) := by
  unfold Model.shiftRel
  split <;> split <;> first
    | exact Old.mkRel (OldE.addConst hl) hr
    | exact Old.mkRel hl (OldE.addConst hr)

theorem Old.shiftFresh {n rnd δ f g} (hf : Old n f) (h : Model.shiftFresh rnd δ f = .ok g) :
    Old n g := by
  unfold Model.shiftFresh at h
  split at h
  · simp only [Outcome.ok.injEq] at h; subst h; exact Old.shiftRel hf.1 hf.2
  · cases h

mutual
theorem OldE.strE {n rnd δ} (e : Expr) {e'} (he : OldE n e) (h : strE rnd δ e = .ok e') :
    OldE n e' := by
  cases e with
  | const q => simp only [Model.strE, Outcome.ok.injEq] at h; subst h; exact he
  | rconst r => simp only [Model.strE, Outcome.ok.injEq] at h; subst h; exact he
  | var v => simp only [Model.strE, Outcome.ok.injEq] at h; subst h; exact he
  | add a b =>
    simp only [Model.strE] at h
    obtain ⟨x, h1, h⟩ := bindO_ok h
    obtain ⟨y, h2, h⟩ := bindO_ok h
    simp only [Outcome.ok.injEq] at h; subst h
    exact ⟨OldE.strE a he.1 h1, OldE.strE b he.2 h2⟩
  | mul a b =>
    simp only [Model.strE] at h
    obtain ⟨x, h1, h⟩ := bindO_ok h
    obtain ⟨y, h2, h⟩ := bindO_ok h
    simp only [Outcome.ok.injEq] at h; subst h
    exact ⟨OldE.strE a he.1 h1, OldE.strE b he.2 h2⟩
  | app1 f a =>
    simp only [Model.strE] at h
    obtain ⟨x, h1, h⟩ := bindO_ok h
    simp only [Outcome.ok.injEq] at h; subst h
    show OldE n x
    exact OldE.strE a he h1
  | app2 f a b =>
    simp only [Model.strE] at h
    obtain ⟨x, h1, h⟩ := bindO_ok h
    obtain ⟨y, h2, h⟩ := bindO_ok h
    simp only [Outcome.ok.injEq] at h; subst h
    exact ⟨OldE.strE a he.1 h1, OldE.strE b he.2 h2⟩
  | ite c a b =>
    simp only [Model.strE] at h
    obtain ⟨z, h0, h⟩ := bindO_ok h
    obtain ⟨x, h1, h⟩ := bindO_ok h
    obtain ⟨y, h2, h⟩ := bindO_ok h
    simp only [Outcome.ok.injEq] at h; subst h
    have hz := Old.strF c he.1 h0
    have hx := OldE.strE a he.2.1 h1
    have hy := OldE.strE b he.2.2 h2
    unfold mkIte
    split
    · exact hx
    split
    · exact hy
    · exact ⟨hz, hx, hy⟩
theorem Old.strF {n rnd δ} (f : Fml) {f'} (hf : Old n f) (h : strF rnd δ f = .ok f') :
    Old n f' := by
  cases f with
  | ff => simp only [Model.strF, Outcome.ok.injEq] at h; subst h; exact hf
  | tt => simp only [Model.strF, Outcome.ok.injEq] at h; subst h; exact hf
  | bvar v => simp only [Model.strF, Outcome.ok.injEq] at h; subst h; exact hf
  | rel op a b =>
    have key : ∀ l r, strE rnd δ a = .ok l → strE rnd δ b = .ok r → OldE n l ∧ OldE n r :=
      fun l r h1 h2 => ⟨OldE.strE a hf.1 h1, OldE.strE b hf.2 h2⟩
    cases op
    case eq =>
      simp only [Model.strF] at h
      split at h
      · simp only [Outcome.ok.injEq] at h; subst h; exact hf
      · obtain ⟨l, h1, h⟩ := bindO_ok h
        obtain ⟨r, h2, h⟩ := bindO_ok h
        obtain ⟨x, h3, h⟩ := bindO_ok h
        obtain ⟨y, h4, h⟩ := bindO_ok h
        simp only [Outcome.ok.injEq] at h; subst h
        have k := key l r h1 h2
        exact Old.andF (Old.shiftFresh (Old.mkRel k.1 k.2) h3) (Old.shiftFresh (Old.mkRel k.1 k.2) h4)
    case neq =>
      simp only [Model.strF] at h
      split at h
      · obtain ⟨l, h1, h⟩ := bindO_ok h
        obtain ⟨r, h2, h⟩ := bindO_ok h
        obtain ⟨x, h3, h⟩ := bindO_ok h
        obtain ⟨y, h4, h⟩ := bindO_ok h
        simp only [Outcome.ok.injEq] at h; subst h
        have k := key l r h1 h2
        exact Old.orF (Old.shiftFresh (Old.mkRel k.1 k.2) h3) (Old.shiftFresh (Old.mkRel k.1 k.2) h4)
      · simp only [Outcome.ok.injEq] at h; subst h; trivial
    all_goals
      simp only [Model.strF] at h
      obtain ⟨l, h1, h⟩ := bindO_ok h
      obtain ⟨r, h2, h⟩ := bindO_ok h
      simp only [Outcome.ok.injEq] at h; subst h
      have k := key l r h1 h2
      exact Old.shiftRel k.1 k.2
  | conj fs => simp only [Model.strF] at h; exact Old.strAnd fs hf (ret := .tt) trivial h
  | disj fs => simp only [Model.strF] at h; exact Old.strOr fs hf (ret := .ff) trivial h
  | neg g =>
    simp only [Model.strF] at h
    obtain ⟨x, h1, h⟩ := bindO_ok h
    simp only [Outcome.ok.injEq] at h; subst h
    exact Old.notF (Old.strF g hf h1)
  | all vs g => simp [Model.strF] at h
theorem Old.strAnd {n rnd δ} (fs : List Fml) {ret f'} (hf : OldList n fs) (hr : Old n ret)
    (h : strAnd rnd δ ret fs = .ok f') : Old n f' := by
  cases fs with
  | nil => simp only [Model.strAnd, Outcome.ok.injEq] at h; subst h; exact hr
  | cons f fs =>
    simp only [Model.strAnd] at h
    obtain ⟨x, h1, h⟩ := bindO_ok h
    exact Old.strAnd fs hf.2 (Old.andF hr (Old.strF f hf.1 h1)) h
theorem Old.strOr {n rnd δ} (fs : List Fml) {ret f'} (hf : OldList n fs) (hr : Old n ret)
    (h : strOr rnd δ ret fs = .ok f') : Old n f' := by
  cases fs with
  | nil => simp only [Model.strOr, Outcome.ok.injEq] at h; subst h; exact hr
  | cons f fs =>
    simp only [Model.strOr] at h
    obtain ⟨x, h1, h⟩ := bindO_ok h
    exact Old.strOr fs hf.2 (Old.orF hr (Old.strF f hf.1 h1)) h
end

theorem Old.deltaStrengthen {n rnd ε f g} (hf : Old n f) (h : deltaStrengthen rnd ε f = .ok g) :
    Old n g := by
  unfold Model.deltaStrengthen Model.strengthen at h
  split at h
  · split at h
    · simp only [Outcome.ok.injEq] at h; subst h; exact hf
    · exact Old.strF f hf h
  · cases h

/-! ### The variables of a nested context -/

/-- The box of the nested context: the variables `us` it was given, then variables of its own. -/
structure Nest (us : List Variable) (c : Ctx) : Prop where
  wf : BoxWf c.box
  vars : ∃ ws, c.box.vars = us ++ ws ∧ ∀ w ∈ ws, ∀ u ∈ us, w.id ≠ u.id
  model : ∀ i, i ∈ c.modelVars ↔ ∃ u ∈ us, u.id = i
  nodup : c.modelVars.Nodup
  old : ∀ u ∈ us, u.id < c.sat.abs.next

theorem setBox_box (c : Ctx) (b : Box) : (c.setBox b).box = b := by
  simp [Ctx.box, Ctx.setBox, List.getLastD_eq_getLast?]

theorem Nest.keep {us} {c c' : Ctx} (h : Nest us c) (hb : Shape c.box.vars c'.box)
    (hn : c.sat.abs.next ≤ c'.sat.abs.next) (hm : c'.modelVars = c.modelVars) : Nest us c' := by
  refine ⟨hb.2, ?_, hm ▸ h.model, hm ▸ h.nodup, fun u hu => lt_of_lt_of_le (h.old u hu) hn⟩
  rw [hb.1]; exact h.vars

theorem addAll_vars : ∀ (ws : List Variable) (b : Box), ∃ ws', (ws.foldl addToBox b).vars =
    b.vars ++ ws' ∧ ∀ w ∈ ws', w ∈ ws
  | [], b => ⟨[], by simp⟩
  | w :: ws, b => by
    obtain ⟨ws', h1, h2⟩ := addAll_vars ws (addToBox b w)
    rw [List.foldl_cons, h1, addToBox_vars]
    split
    · exact ⟨ws', rfl, fun x hx => .tail _ (h2 x hx)⟩
    · refine ⟨w :: ws', by simp, fun x hx => ?_⟩
      rcases List.mem_cons.mp hx with rfl | hx
      · exact .head _
      · exact .tail _ (h2 x hx)

theorem Nest.assertF {cfg us} {c c' : Ctx} {f} (h : Nest us c) (hf : Old c.sat.abs.next f)
    (hs : assertF cfg c f = .ok c') : Nest us c' ∧ c.sat.abs.next ≤ c'.sat.abs.next := by
  have hsh : Shape c.box.vars c.box := ⟨rfl, h.wf⟩
  unfold Model.assertF at hs
  split at hs
  · simp only [Outcome.ok.injEq] at hs; subst hs; exact ⟨h, le_rfl⟩
  split at hs
  · simp only [Outcome.ok.injEq] at hs; subst hs; exact ⟨h, le_rfl⟩
  split at hs
  · simp only [Outcome.ok.injEq] at hs; subst hs
    exact ⟨h.keep (by rw [setBox_box]; exact wipe_shape hsh) le_rfl rfl, le_rfl⟩
  obtain ⟨r, h1, h2⟩ := bindO_ok hs
  have hr : Shape c.box.vars r.2 := filter_shape (r := r.1) (b' := r.2) h1 hsh
  have hr' : Shape c.box.vars (if r.2.bot then wipeBox cfg r.2 else r.2) := by
    split
    · exact wipe_shape hr
    · exact hr
  have e : Nest us (c.setBox (if r.2.bot then wipeBox cfg r.2 else r.2)) :=
    h.keep (by rw [setBox_box]; exact hr') le_rfl rfl
  generalize hc1 : c.setBox (if r.2.bot then wipeBox cfg r.2 else r.2) = c1 at *
  have hn : c1.sat.abs.next = c.sat.abs.next := by rw [← hc1]; rfl
  simp only at h2
  split at h2
  · obtain ⟨s, h3, h4⟩ := bindO_ok h2
    simp only [Outcome.ok.injEq] at h4; subst h4
    rw [← hn] at hf
    obtain ⟨r1, r2⟩ := ite_range hf
    have hn2 : (iteProcess c1.sat.abs.next f).2.2 ≤ s.abs.next := addFormula_next h3
    have hn3 : c1.sat.abs.next ≤ s.abs.next := le_trans r1 hn2
    have hbx := setBox_box c1 ((iteProcess c1.sat.abs.next f).2.1.foldl addToBox c1.box)
    refine ⟨⟨?_, ?_, e.model, e.nodup, fun u hu => lt_of_lt_of_le (e.old u hu) hn3⟩, ?_⟩
    · show BoxWf (c1.setBox _).box
      rw [hbx]
      exact addAll_wf e.wf
    · show ∃ ws, (c1.setBox _).box.vars = _ ∧ _
      rw [hbx]
      obtain ⟨ws, hw, hd⟩ := e.vars
      obtain ⟨ws', hw', hd'⟩ := addAll_vars (iteProcess c1.sat.abs.next f).2.1 c1.box
      refine ⟨ws ++ ws', by rw [hw', hw, List.append_assoc], fun w hw u hu => ?_⟩
      rcases List.mem_append.mp hw with hw | hw
      · exact hd w hw u hu
      · have := (r2 w (hd' w hw)).1
        have := e.old u hu
        omega
    · rw [← hn]; exact hn3
  · simp only [Outcome.ok.injEq] at h2; subst h2; exact ⟨e, le_of_eq hn.symm⟩

theorem OldE.mono {n m} (h : n ≤ m) : ∀ (k : Nat),
    (∀ e : Expr, sizeOf e ≤ k → OldE n e → OldE m e) ∧
    (∀ f : Fml, sizeOf f ≤ k → Old n f → Old m f)
  | 0 => by
    constructor
    · intro e he; cases e <;> simp at he
    · intro f hf; cases f <;> simp at hf
  | k + 1 => by
    obtain ⟨ihe, ihf⟩ := OldE.mono h k
    have ihl : ∀ fs : List Fml, sizeOf fs ≤ k → OldList n fs → OldList m fs := by
      intro fs
      induction fs with
      | nil => intros; trivial
      | cons f fs ih =>
        intro hs ho
        simp only [List.cons.sizeOf_spec] at hs
        exact ⟨ihf f (by omega) ho.1, ih (by omega) ho.2⟩
    constructor
    · intro e he ho
      cases e <;> simp only [OldE] at ho ⊢ <;> simp at he
      case var => omega
      case add a b => exact ⟨ihe a (by omega) ho.1, ihe b (by omega) ho.2⟩
      case mul a b => exact ⟨ihe a (by omega) ho.1, ihe b (by omega) ho.2⟩
      case app1 a => exact ihe a (by omega) ho
      case app2 a b => exact ⟨ihe a (by omega) ho.1, ihe b (by omega) ho.2⟩
      case ite c a b =>
        exact ⟨ihf c (by omega) ho.1, ihe a (by omega) ho.2.1, ihe b (by omega) ho.2.2⟩
    · intro f hf ho
      cases f <;> simp only [Old] at ho ⊢ <;> simp at hf
      case bvar => omega
      case rel a b => exact ⟨ihe a (by omega) ho.1, ihe b (by omega) ho.2⟩
      case conj fs => exact ihl fs (by omega) ho
      case disj fs => exact ihl fs (by omega) ho
      case neg g => exact ihf g (by omega) ho
      case all vs g => exact ⟨fun v hv => lt_of_lt_of_le (ho.1 v hv) h, ihf g (by omega) ho.2⟩

theorem Old.mono {n m f} (h : n ≤ m) (hf : Old n f) : Old m f :=
  (OldE.mono h (sizeOf f)).2 f le_rfl hf

theorem Nest.assertAll {cfg us} : ∀ {fs : List Fml} {c c' : Ctx}, Nest us c →
    (∀ f ∈ fs, Old c.sat.abs.next f) → assertAll cfg fs c = .ok c' →
    Nest us c' ∧ c.sat.abs.next ≤ c'.sat.abs.next
  | [], c, c', h, _, hs => by
    simp only [Model.assertAll, Outcome.ok.injEq] at hs; subst hs; exact ⟨h, le_rfl⟩
  | f :: fs, c, c', h, hf, hs => by
    simp only [Model.assertAll] at hs
    obtain ⟨c1, h1, h2⟩ := bindO_ok hs
    obtain ⟨k1, k2⟩ := h.assertF (hf f (.head _)) h1
    obtain ⟨k3, k4⟩ := k1.assertAll (fun g hg => Old.mono k2 (hf g (.tail _ hg))) h2
    exact ⟨k3, le_trans k2 k4⟩

/-- Declaring variables one after the other. -/
theorem declareAll_nest : ∀ (vs us : List Variable) (c : Ctx), (us ++ vs).Nodup →
    BoxWf c.box → c.box.vars = us → (∀ i, i ∈ c.modelVars ↔ ∃ u ∈ us, u.id = i) →
    c.modelVars.Nodup → (∀ u ∈ us ++ vs, u.id < c.sat.abs.next) →
    Nest (us ++ vs) (declareAll vs c) ∧ (declareAll vs c).box.vars = us ++ vs ∧
      (declareAll vs c).sat = c.sat
  | [], us, c, hd, hw, hv, hm, hn, ho => by
    rw [List.append_nil] at *
    exact ⟨⟨hw, ⟨[], by rw [List.append_nil]; exact hv, by simp⟩, hm, hn, ho⟩, hv, rfl⟩
  | v :: vs, us, c, hd, hw, hv, hm, hn, ho => by
    have e : us ++ v :: vs = us ++ [v] ++ vs := by simp
    have hvn : v ∉ us := by
      have := List.disjoint_of_nodup_append hd
      exact fun h => this h (.head _)
    rw [e] at hd ho ⊢
    have hbox : (declare c v true).box = addToBox c.box v := by
      show ({ c.setBox (addToBox c.box v) with modelVars := _ } : Ctx).box = _
      exact setBox_box c _
    have hmv : (declare c v true).modelVars =
        if v.id ∈ c.modelVars then c.modelVars else v.id :: c.modelVars := rfl
    have := declareAll_nest vs (us ++ [v]) (declare c v true) hd (by rw [hbox]; exact addToBox_wf hw v)
      (by rw [hbox, addToBox_vars, hv, if_neg hvn]) ?_ ?_ ho
    · exact this
    · intro i
      rw [hmv]
      have h1 := hm i
      have h2 := hm v.id
      simp only [List.mem_append, List.mem_singleton]
      split
      · rename_i hin
        rw [h1]
        constructor
        · rintro ⟨u, hu, rfl⟩; exact ⟨u, .inl hu, rfl⟩
        · rintro ⟨u, hu | rfl, rfl⟩
          · exact ⟨u, hu, rfl⟩
          · exact h2.mp hin
      · simp only [List.mem_cons, h1]
        constructor
        · rintro (rfl | ⟨u, hu, rfl⟩)
          · exact ⟨v, .inr rfl, rfl⟩
          · exact ⟨u, .inl hu, rfl⟩
        · rintro ⟨u, hu | rfl, rfl⟩
          · exact .inr ⟨u, hu, rfl⟩
          · exact .inl rfl
    · rw [hmv]
      split
      · exact hn
      · rename_i hin; exact List.nodup_cons.mpr ⟨hin, hn⟩

theorem Nest.init {next us} (hd : us.Nodup) (ho : ∀ u ∈ us, u.id < next) :
    Nest us (declareAll us (Ctx.init next)) ∧
      (declareAll us (Ctx.init next)).box.vars = us ∧
      (declareAll us (Ctx.init next)).sat = (Ctx.init next).sat := by
  have := declareAll_nest us [] (Ctx.init next) (by simpa using hd) ⟨rfl, List.nodup_nil⟩ rfl
    (by simp [Ctx.init]) List.nodup_nil
    (fun u hu => ho u (by simpa using hu))
  simpa using this

theorem declareAll_append : ∀ (us vs : List Variable) (c : Ctx),
    declareAll (us ++ vs) c = declareAll vs (declareAll us c)
  | [], _, _ => rfl
  | u :: us, vs, c => by simp only [List.cons_append, declareAll]; exact declareAll_append us vs _

theorem ctcContext_nest {cfg next ε vs qs g c} (hd : (vs ++ qs).Nodup)
    (hv : ∀ u ∈ vs ++ qs, u.id < next) (ho : Old next g)
    (h : ctcContext cfg next ε vs qs g = .ok c) : Nest (vs ++ qs) c := by
  unfold ctcContext at h
  obtain ⟨n, h1, h⟩ := bindO_ok h
  have hn : Old next (nnf true n) := Old.nnfVisit _ _ _ (Old.deltaStrengthen (Old.notF ho) h1)
  simp only at h
  split at h
  · cases h
  rw [← declareAll_append] at h
  obtain ⟨k1, -, k2⟩ := Nest.init hd hv
  generalize declareAll (vs ++ qs) (Ctx.init next) = c0 at *
  have hnx : c0.sat.abs.next = next := by rw [k2]; rfl
  generalize nnf true n = m at *
  split at h
  · exact (k1.assertAll (fun f hf => by rw [hnx]; exact OldList_iff.mp hn f hf) h).1
  · exact (k1.assertF (by rw [hnx]; exact hn) h).1

theorem Nest.setRaw {us} {c : Ctx} (h : Nest us c) (v lb ub) : Nest us (setIntervalRaw c v lb ub) := by
  refine h.keep ?_ le_rfl rfl
  unfold setIntervalRaw
  rw [setBox_box]
  exact ⟨rfl, (shape_setV (vs := c.box.vars) ⟨rfl, h.wf⟩ v (mkItv lb ub)).2⟩

theorem Nest.setOuter {us b} : ∀ (vs : List Variable) {c : Ctx}, Nest us c →
    Nest us (setOuter b vs c)
  | [], _, h => h
  | _ :: vs, _, h => (h.setRaw _ _ _).setOuter vs

theorem checkLoop_alive {cfg} : ∀ {n box s cache tick m r},
    checkLoop cfg n box s cache tick = .ok (some m, r) → box.bot = false → m.bot = false
  | 0, _, _, _, _, _, _, h, _ => by simp [checkLoop] at h
  | n + 1, box, s, cache, tick, m, r, h, hs => by
    simp only [checkLoop] at h
    obtain ⟨q, h1, h2⟩ := bindR_ok h
    cases hq : q.1 with
    | none => simp [hq] at h2
    | some sm =>
      simp only [hq] at h2
      have hw : (writeBools box sm.bool).bot = false := by rw [writeBools_bot]; exact hs
      split at h2
      · simp only [Run.ok.injEq, Prod.mk.injEq, Option.some.injEq] at h2
        rw [← h2.1]; exact hw
      · obtain ⟨fs, h3, h4⟩ := bindR_ok h2
        obtain ⟨⟨t, c', tk⟩, h5, h6⟩ := bindR_ok h4
        cases t with
        | sat b =>
          simp only [Run.ok.injEq, Prod.mk.injEq, Option.some.injEq] at h6
          rw [← h6.1]
          unfold theoryCheck at h5
          obtain ⟨⟨o, c1, s1⟩, -, g⟩ := bindR_ok h5
          cases o with
          | some c =>
            simp only at g
            obtain ⟨_, -, g⟩ := bindR_ok g
            obtain ⟨⟨res, s'⟩, -, g⟩ := bindR_ok g
            simp only at g
            split at g
            · obtain ⟨e, -, g⟩ := bindR_ok g
              simp at g
            · rename_i he
              simp only [Run.ok.injEq, Prod.mk.injEq, TAnswer.sat.injEq] at g
              rw [← g.1]
              simpa [Box.empty] using he
          | none =>
            simp only at g
            split at g
            · obtain ⟨e, -, g⟩ := bindR_ok g
              simp at g
            · cases g
        | unsat e =>
          simp only at h6
          obtain ⟨s', h7, h8⟩ := bindR_ok h6
          exact checkLoop_alive h8 hw

theorem checkCore_alive {cfg c m r} (h : checkCore cfg c = .ok (some m, r)) : m.bot = false := by
  unfold checkCore at h
  split at h
  · simp at h
  · rename_i he
    have he : c.box.bot = false := by simpa [Box.empty] using he
    split at h
    · simp at h
    · split at h
      · simp only [Run.ok.injEq, Prod.mk.injEq, Option.some.injEq] at h
        rw [← h.1]; exact he
      · exact checkLoop_alive h he

/-- The answer of a nested context: a box with exactly the variables it was given, in their order. -/
theorem Nest.answer {D I cfg us m c'} {c : Ctx} (he : EnvOk D I cfg.env)
    (h : Nest us c) (hc : checkSat cfg c = .ok (some m, c')) :
    m.vars = us ∧ BoxWf m ∧ m.bot = false := by
  obtain ⟨b, r, t, h1, h2, h3⟩ := checkSat_some hc
  have hb := checkCore_shape he h1 h.wf
  have hal := checkCore_alive h1
  obtain ⟨ht, hbot, -⟩ := tighten_spec hb.2 h2
  rw [hb.1] at ht
  obtain ⟨ws, hws, hdis⟩ := h.vars
  unfold extractModel at h3
  split at h3
  · rename_i hl
    simp only [Outcome.ok.injEq] at h3; subst h3
    refine ⟨?_, ht.2, hbot.trans hal⟩
    rw [ht.1, hws]
    have h1 : c.modelVars.length ≤ us.length := by
      have hsub : c.modelVars ⊆ us.map fun v => v.id := by
        intro i hi
        obtain ⟨u, hu, rfl⟩ := (h.model i).mp hi
        exact List.mem_map.mpr ⟨u, hu, rfl⟩
      simpa using (List.subperm_of_subset h.nodup hsub).length_le
    rw [hl, Box.size, ht.1, hws, List.length_append] at h1
    have : ws = [] := List.eq_nil_of_length_eq_zero (by omega)
    simp [this]
  · obtain ⟨b1, b2, -, b4, -⟩ := extractLoop_spec h3 ⟨rfl, List.nodup_nil⟩
    refine ⟨?_, b2, b4⟩
    rw [b1, ht.1, hws, List.nil_append, List.filter_append]
    have e1 : us.filter (fun v => decide (v.id ∈ c.modelVars)) = us :=
      List.filter_eq_self.mpr fun u hu => by simpa using (h.model _).mpr ⟨u, hu, rfl⟩
    have e2 : ws.filter (fun v => decide (v.id ∈ c.modelVars)) = [] :=
      List.filter_eq_nil_iff.mpr fun w hw => by
        simp only [decide_eq_true_eq]
        intro hi
        obtain ⟨u, hu, he⟩ := (h.model _).mp hi
        exact hdis w hw u hu he.symm
    rw [e1, e2, List.append_nil]

theorem Nest.check {cfg us o c'} {c : Ctx} (h : Nest us c) (hc : checkSat cfg c = .ok (o, c')) :
    Nest us c' := by
  obtain ⟨f1, f2, -, f3⟩ := checkSat_frame hc
  have hb : c'.box = c.box := by simp only [Ctx.box, f1]
  exact h.keep (by rw [hb]; exact ⟨rfl, h.wf⟩) f3 f2

/-- The search of a `ContractorForall` gives what the pruning relies on, when the quantified
variables are real. -/
theorem ctcFind_ok {D I fp vs qs} {cfg : CCfg} {refine : Box → Run Box} (he : EnvOk D I cfg.env)
    (hq : ∀ q ∈ qs, q.type = .continuous)
    (hr : ∀ ce ce', refine ce = .ok ce' → ce.vars = vs ++ qs → BoxWf ce → ce.bot = false →
      ce'.vars = vs ++ qs ∧ BoxWf ce' ∧ ce'.bot = false) :
    FindOk fp vs qs (fun st : Ctx × Bool => Nest (vs ++ qs) st.1) (ctcFind cfg refine) := by
  have key : ∀ (st : Ctx × Bool) b r, Nest (vs ++ qs) st.1 → ctcFind cfg refine st b = .ok r →
      Nest (vs ++ qs) r.2.1 ∧ ∀ ce, r.1 = some ce →
        ce.vars = vs ++ qs ∧ BoxWf ce ∧ ce.bot = false := by
    intro st b r hi h
    unfold ctcFind at h
    obtain ⟨⟨o, c'⟩, h1, h⟩ := bindR_ok h
    have hn := (hi.setOuter (b := b) b.vars).check h1
    cases o with
    | none =>
      simp only [Run.ok.injEq] at h; subst h
      exact ⟨hn, by simp⟩
    | some ce =>
      simp only at h
      obtain ⟨ce', h2, h⟩ := bindR_ok h
      simp only [Run.ok.injEq] at h; subst h
      obtain ⟨a1, a2, a3⟩ := (hi.setOuter (b := b) b.vars).answer
        (cfg := { cfg with th := { cfg.th with left := !st.2 } }) he h1
      refine ⟨hn, fun x hx => ?_⟩
      simp only [Option.some.injEq] at hx; subst hx
      exact hr ce ce' h2 a1 a2 a3
  refine ⟨fun st b r hi _ _ h => (key st b r hi h).1, fun st b ce st' hi _ _ h => ?_,
    fun st b ce st' hi _ _ h => ?_, fun st b ce st' hi _ _ h q hm => ?_⟩
  · have := (key st b _ hi h).2 ce rfl; exact ⟨this.1, this.2.1⟩
  · exact ((key st b _ hi h).2 ce rfl).2.2
  · rw [hq q hm]; trivial

end Verif.Proof
