import Verif.Proof.Fresh
import Verif.Proof.Vars
import Verif.Proof.Ite
import Mathlib.Data.List.Perm.Subperm
import Mathlib.Data.List.Nodup
import Mathlib.Data.List.GetD

/-! # Which variables a model has -/

namespace Verif.Proof
open Verif Verif.Model Verif.Spec

/-! ### Adding variables -/

theorem addToBox_vars (b : Box) (v) : (addToBox b v).vars = if v ∈ b.vars then b.vars else
    b.vars ++ [v] := by
  unfold addToBox
  split
  · rfl
  split
  · rename_i h; rw [h.1]; split <;> rfl
  · rfl

theorem addToBox_wf {b : Box} (h : BoxWf b) (v) : BoxWf (addToBox b v) := by
  refine ⟨?_, ?_⟩
  · unfold addToBox
    split
    · exact h.1
    split
    · split <;> rfl
    · simp [h.1]
  · rw [addToBox_vars]
    split
    · exact h.2
    · rename_i hv
      rw [List.nodup_append]
      refine ⟨h.2, by simp, ?_⟩
      rintro a ha b hb rfl
      simp only [List.mem_singleton] at hb
      subst hb; exact hv ha

theorem addToBox_mem {b : Box} {v w} : w ∈ (addToBox b v).vars ↔ w ∈ b.vars ∨ w = v := by
  rw [addToBox_vars]
  split
  · rename_i h
    constructor
    · exact .inl
    · rintro (h' | rfl)
      · exact h'
      · exact h
  · simp

theorem addAll_wf : ∀ {vs : List Variable} {b : Box}, BoxWf b → BoxWf (vs.foldl addToBox b)
  | [], _, h => h
  | v :: vs, b, h => addAll_wf (b := addToBox b v) (addToBox_wf h v)

theorem addAll_mem : ∀ {vs : List Variable} {b : Box} {w}, w ∈ (vs.foldl addToBox b).vars ↔
    w ∈ b.vars ∨ w ∈ vs
  | [], _, _ => by simp
  | v :: vs, b, w => by
    rw [List.foldl_cons, addAll_mem, addToBox_mem, List.mem_cons, or_assoc]

/-! ### The invariant -/

/-- The box holds the variables `vs`; every variable in it is one of the user's, or has an id the
user's variables do not have. -/
def BI (made : List Variable) (next : Nat) (b : Box) (vs : List Variable) : Prop :=
  BoxWf b ∧ (∀ v ∈ vs, v ∈ b.vars) ∧
    ∀ v ∈ b.vars, v ∈ made ∨ ((∀ w ∈ made, w.id ≠ v.id) ∧ v.id < next)

def BStack (made : List Variable) (next : Nat) : List (List Variable) → ScopedVector Box → Prop
  | [], _ => False
  | s :: rest, bs => BWf bs ∧ BI made next (bs.vec.getLastD ⟨[], [], false⟩) (s :: rest).flatten ∧
      ∀ bs', vpop bs = .ok bs' → BStack made next rest bs'

theorem BI.mono {made next made' next' b vs} (h : BI made next b vs) (h1 : ∀ v ∈ made, v ∈ made')
    (h2 : ∀ v ∈ made', v ∈ made ∨ next ≤ v.id) (h3 : next ≤ next') : BI made' next' b vs := by
  refine ⟨h.1, h.2.1, fun v hv => ?_⟩
  rcases h.2.2 v hv with hm | ⟨hm, hn⟩
  · exact .inl (h1 v hm)
  · refine .inr ⟨fun w hw he => ?_, by omega⟩
    rcases h2 w hw with hw | hw
    · exact hm w hw he
    · omega

theorem BStack.mono {made next made' next'} (h1 : ∀ v ∈ made, v ∈ made')
    (h2 : ∀ v ∈ made', v ∈ made ∨ next ≤ v.id) (h3 : next ≤ next') : ∀ {ss bs},
    BStack made next ss bs → BStack made' next' ss bs
  | [], _, h => h
  | _ :: _, _, h => ⟨h.1, h.2.1.mono h1 h2 h3, fun bs' hb => (h.2.2 bs' hb).mono h1 h2 h3⟩

theorem getLast_setLast {s : ScopedVector Box} (b d) : (setLast s b).vec.getLastD d = b := by
  simp [setLast, List.getLastD_eq_getLast?]

/-- Replacing the current box, possibly with more variables of the innermost scope. -/
theorem BStack.setLast {made next s s' rest bs b} (h : BStack made next (s :: rest) bs)
    (hb : BI made next b (s' :: rest).flatten) :
    BStack made next (s' :: rest) (setLast bs b) := by
  refine ⟨bwf_setLast h.1 b, ?_, ?_⟩
  · rw [getLast_setLast]; exact hb
  · rw [vpop_setLast h.1]; exact h.2.2

structure RInv (u : User) (c : Ctx) : Prop where
  made : ∀ v ∈ u.made, v.id < c.sat.abs.next
  ids : (u.made.map fun v => v.id).Nodup
  boxes : BStack u.made c.sat.abs.next u.scopes c.boxes
  nodup : c.modelVars.Nodup
  model : ∀ i, i ∈ c.modelVars ↔ ∃ v, (v ∈ u.scopes.flatten ∨ v ∈ u.gone) ∧ v.id = i
  own : ∀ v, v ∈ u.scopes.flatten ∨ v ∈ u.gone → v ∈ u.made

theorem RInv.cases {u c} (h : RInv u c) : ∃ s rest, u.scopes = s :: rest := by
  have := h.boxes
  cases hs : u.scopes with
  | nil => rw [hs] at this; exact this.elim
  | cons s rest => exact ⟨s, rest, rfl⟩

theorem RInv.box {u c} (h : RInv u c) : BI u.made c.sat.abs.next c.box u.scopes.flatten := by
  obtain ⟨s, rest, hs⟩ := h.cases
  have := h.boxes
  rw [hs] at this ⊢
  exact this.2.1

/-- A step that changes the current box and the counter only. -/
theorem RInv.keep {u c} {c' : Ctx} (h : RInv u c) {b} (hb : c'.boxes = Proof.setLast c.boxes b)
    (hn : c.sat.abs.next ≤ c'.sat.abs.next) (hm : c'.modelVars = c.modelVars)
    (hi : BI u.made c'.sat.abs.next b u.scopes.flatten) : RInv u c' := by
  refine ⟨fun v hv => lt_of_lt_of_le (h.made v hv) hn, h.ids, ?_, hm ▸ h.nodup,
    fun i => hm ▸ h.model i, h.own⟩
  obtain ⟨s, rest, hs⟩ := h.cases
  have hx := h.boxes
  rw [hs] at hx hi ⊢
  rw [hb]
  exact (hx.mono (fun _ h => h) (fun _ h => .inl h) hn).setLast hi

theorem RInv.same {u c} {c' : Ctx} (h : RInv u c) (hb : c'.boxes = c.boxes)
    (hn : c.sat.abs.next ≤ c'.sat.abs.next) (hm : c'.modelVars = c.modelVars) : RInv u c' :=
  ⟨fun v hv => lt_of_lt_of_le (h.made v hv) hn, h.ids,
    hb ▸ h.boxes.mono (fun _ h => h) (fun _ h => .inl h) hn, hm ▸ h.nodup,
    fun i => hm ▸ h.model i, h.own⟩

theorem BI.shape {made next b b' vs} (h : BI made next b vs) (hs : Shape b.vars b') :
    BI made next b' vs := by
  refine ⟨hs.2, ?_, ?_⟩
  · rw [hs.1]; exact h.2.1
  · rw [hs.1]; exact h.2.2

theorem wipe_shape {cfg vs} {b : Box} (h : Shape vs b) : Shape vs (wipeBox cfg b) := by
  refine ⟨h.1, ?_, h.2.2⟩
  unfold wipeBox
  simp only
  split <;> simp [h.2.1]

theorem ite_range {next f} (hf : Old next f) : next ≤ (iteProcess next f).2.2 ∧
    ∀ v ∈ (iteProcess next f).2.1, next ≤ v.id ∧ v.id < (iteProcess next f).2.2 := by
  obtain ⟨h1, h2, _⟩ := ProcSpec.of (iteF_spec next f .tt { next := next } hf le_rfl) le_rfl hf
  exact ⟨h1, fun v hv => ⟨(h2 v hv).1, (h2 v hv).2.1⟩⟩

theorem rinv_assert {cfg u c c' f} (h : RInv u c) (hf : Old c.sat.abs.next f)
    (hs : assertF cfg c f = .ok c') : RInv u c' := by
  have hsh : Shape c.box.vars c.box := ⟨rfl, h.box.1⟩
  unfold assertF at hs
  split at hs
  · simp only [Outcome.ok.injEq] at hs; subst hs; exact h
  split at hs
  · simp only [Outcome.ok.injEq] at hs; subst hs; exact h
  split at hs
  · simp only [Outcome.ok.injEq] at hs; subst hs
    exact h.keep (c' := c.setBox (wipeBox cfg c.box)) rfl le_rfl rfl (h.box.shape (wipe_shape hsh))
  obtain ⟨r, h1, h2⟩ := bindO_ok hs
  have hr : Shape c.box.vars r.2 := filter_shape (r := r.1) (b' := r.2) h1 hsh
  have hr' : Shape c.box.vars (if r.2.bot then wipeBox cfg r.2 else r.2) := by
    split
    · exact wipe_shape hr
    · exact hr
  have e : RInv u (c.setBox (if r.2.bot then wipeBox cfg r.2 else r.2)) :=
    h.keep (c' := c.setBox _) rfl le_rfl rfl (h.box.shape hr')
  generalize hc1 : c.setBox (if r.2.bot then wipeBox cfg r.2 else r.2) = c1 at *
  have hn : c1.sat.abs.next = c.sat.abs.next := by rw [← hc1]; rfl
  simp only at h2
  split at h2
  · obtain ⟨s, h3, h4⟩ := bindO_ok h2
    simp only [Outcome.ok.injEq] at h4; subst h4
    rw [← hn] at hf
    obtain ⟨r1, r2⟩ := ite_range hf
    have hn2 : (iteProcess c1.sat.abs.next f).2.2 ≤ s.abs.next := addFormula_next h3
    have hn3 : c1.sat.abs.next ≤ s.abs.next := le_trans r1 hn2
    refine e.keep (b := (iteProcess c1.sat.abs.next f).2.1.foldl addToBox c1.box) rfl hn3 rfl ?_
    have hb := e.box
    refine ⟨addAll_wf hb.1, fun v hv => addAll_mem.mpr (.inl (hb.2.1 v hv)), fun v hv => ?_⟩
    rcases addAll_mem.mp hv with hv | hv
    · rcases hb.2.2 v hv with hv | ⟨hv, hv'⟩
      · exact .inl hv
      · exact .inr ⟨hv, lt_of_lt_of_le hv' hn3⟩
    · obtain ⟨a1, a2⟩ := r2 v hv
      refine .inr ⟨fun w hw he => ?_, lt_of_lt_of_le a2 hn2⟩
      have := e.made w hw
      omega
  · simp only [Outcome.ok.injEq] at h2; subst h2; exact e

theorem checkSat_frame {cfg c o c'} (h : checkSat cfg c = .ok (o, c')) :
    c'.boxes = c.boxes ∧ c'.modelVars = c.modelVars ∧ c'.stack = c.stack ∧
      c.sat.abs.next ≤ c'.sat.abs.next := by
  simp only [checkSat] at h
  obtain ⟨r, h1, h2⟩ := bindR_ok h
  have := checkCore_next h1
  split at h2
  · obtain ⟨t, h3, h4⟩ := bindR_ok h2
    obtain ⟨m, h5, h6⟩ := bindR_ok h4
    simp only [Run.ok.injEq, Prod.mk.injEq] at h6
    rw [← h6.2]; exact ⟨rfl, rfl, rfl, this⟩
  · simp only [Run.ok.injEq, Prod.mk.injEq] at h2
    rw [← h2.2]; exact ⟨rfl, rfl, rfl, this⟩

theorem rinv_step {cfg u c cmd a c'} (h : RInv u c) (hu : u.Uses c.sat.abs.next cmd)
    (hs : stepCmd cfg c cmd = .ok (a, c')) : RInv (u.step c.sat.abs.next cmd) c' := by
  cases cmd with
  | newVar t =>
    simp only [stepCmd, Run.ok.injEq, Prod.mk.injEq] at hs
    rw [← hs.2]
    refine ⟨?_, ?_, ?_, h.nodup, h.model, fun v hv => .tail _ (h.own v hv)⟩
    · intro v hv
      simp only [User.step, List.mem_cons] at hv
      show v.id < c.sat.abs.next + 1
      rcases hv with rfl | hv
      · simp
      · exact lt_trans (h.made v hv) (by simp)
    · simp only [User.step, List.map_cons, List.nodup_cons]
      refine ⟨fun hm => ?_, h.ids⟩
      obtain ⟨w, hw, he⟩ := List.mem_map.mp hm
      exact absurd (h.made w hw) (by omega)
    · refine h.boxes.mono (fun v hv => .tail _ hv) (fun v hv => ?_) (Nat.le_succ _)
      simp only [User.step, List.mem_cons] at hv
      rcases hv with rfl | hv
      · exact .inr le_rfl
      · exact .inl hv
  | declare v m =>
    simp only [stepCmd, Run.ok.injEq, Prod.mk.injEq] at hs
    have hv : v ∈ u.made := hu
    have hb := h.box
    have key : ∀ s rest, u.scopes = s :: rest → ∀ s', (∀ w ∈ s', w = v ∨ w ∈ s) →
        BStack u.made c.sat.abs.next (s' :: rest) (Proof.setLast c.boxes (addToBox c.box v)) := by
      intro s rest hs s' hs'
      have hx := h.boxes
      rw [hs] at hx hb
      refine hx.setLast ⟨addToBox_wf hb.1 v, fun w hw => addToBox_mem.mpr ?_, fun w hw => ?_⟩
      · simp only [List.flatten_cons, List.mem_append] at hw
        rcases hw with hw | hw
        · rcases hs' w hw with rfl | hw
          · exact .inr rfl
          · exact .inl (hb.2.1 w (by simp [hw]))
        · exact .inl (hb.2.1 w (by simp only [List.flatten_cons, List.mem_append]; exact .inr hw))
      · rcases addToBox_mem.mp hw with hw | rfl
        · exact hb.2.2 w hw
        · exact .inl hv
    obtain ⟨s, rest, hsc⟩ := h.cases
    rw [← hs.2]
    cases m with
    | false =>
      refine ⟨h.made, h.ids, ?_, h.nodup, h.model, h.own⟩
      show BStack u.made c.sat.abs.next u.scopes _
      rw [hsc]
      exact key s rest hsc s (fun w hw => .inr hw)
    | true =>
      have hm : (declare c v true).modelVars =
        if v.id ∈ c.modelVars then c.modelVars else v.id :: c.modelVars := rfl
      have hst : u.step c.sat.abs.next (.declare v true) =
        { u with scopes := (v :: s) :: rest } := by simp only [User.step, hsc]
      rw [hst]
      refine ⟨h.made, h.ids, ?_, ?_, ?_, ?_⟩
      · exact key s rest hsc (v :: s) (fun w hw => by simpa using hw)
      · rw [hm]
        split
        · exact h.nodup
        · rename_i hn; exact List.nodup_cons.mpr ⟨hn, h.nodup⟩
      · intro i
        have h0 := h.model i
        rw [hsc] at h0
        have h1 : i ∈ (declare c v true).modelVars ↔ i = v.id ∨ i ∈ c.modelVars := by
          rw [hm]
          split
          · rename_i hin
            constructor
            · exact .inr
            · rintro (rfl | h)
              · exact hin
              · exact h
          · simp
        rw [h1, h0]
        constructor
        · rintro (rfl | ⟨w, hw, rfl⟩)
          · exact ⟨v, by simp, rfl⟩
          · refine ⟨w, ?_, rfl⟩
            rcases hw with hw | hw
            · exact .inl (by simp only [List.flatten_cons, List.cons_append, List.mem_cons]
                             exact .inr (by simpa using hw))
            · exact .inr hw
        · rintro ⟨w, hw, rfl⟩
          simp only [List.flatten_cons, List.cons_append, List.mem_cons] at hw
          rcases hw with (rfl | hw) | hw
          · exact .inl rfl
          · exact .inr ⟨w, .inl (by simpa using hw), rfl⟩
          · exact .inr ⟨w, .inr hw, rfl⟩
      · intro w hw
        simp only [List.flatten_cons, List.cons_append, List.mem_cons] at hw
        rcases hw with (rfl | hw) | hw
        · exact hv
        · exact h.own w (.inl (by rw [hsc]; simpa using hw))
        · exact h.own w (.inr hw)
  | setInterval v lb ub =>
    simp only [stepCmd] at hs
    obtain ⟨c1, h1, h2⟩ := bindR_ok hs
    simp only [Run.ok.injEq, Prod.mk.injEq] at h2
    rw [← h2.2]
    have h1 := lift_ok h1
    unfold setInterval at h1
    split at h1
    · simp only [Outcome.ok.injEq] at h1; subst h1
      exact h.keep (c' := c.setBox _) rfl le_rfl rfl
        (h.box.shape ⟨rfl, (shape_setV (vs := c.box.vars) ⟨rfl, h.box.1⟩ v (mkItv lb ub)).2⟩)
    · cases h1
  | assert f =>
    simp only [stepCmd] at hs
    obtain ⟨c1, h1, h2⟩ := bindR_ok hs
    simp only [Run.ok.injEq, Prod.mk.injEq] at h2
    rw [← h2.2]; exact rinv_assert h hu (lift_ok h1)
  | check =>
    simp only [stepCmd] at hs
    obtain ⟨⟨o, c1⟩, h1, h2⟩ := bindR_ok hs
    simp only [Run.ok.injEq, Prod.mk.injEq] at h2
    rw [← h2.2]
    obtain ⟨f1, f2, -, f3⟩ := checkSat_frame h1
    exact h.same f1 f3 f2
  | push =>
    simp only [stepCmd, Run.ok.injEq, Prod.mk.injEq] at hs
    rw [← hs.2]
    obtain ⟨s, rest, hsc⟩ := h.cases
    have hx := h.boxes
    refine ⟨h.made, h.ids, ?_, h.nodup, ?_, ?_⟩
    · refine ⟨?_, ?_, ?_⟩
      · rw [hsc] at hx; exact bwf_pushPush hx.1 _
      · have : (ctxPush c).boxes.vec.getLastD ⟨[], [], false⟩ = c.box := by
          simp [ctxPush, ScopedVector.push, ScopedVector.pushBack, List.getLastD_eq_getLast?]
        rw [this]; exact h.box
      · intro bs' hb
        have hw : VWf c.boxes := by rw [hsc] at hx; exact hx.1.vwf
        have e := (vext_pushBack (vwf_push hw) c.box).2.trans (vpop_push hw)
        have hb' : vpop (c.boxes.push.pushBack c.box) = .ok bs' := hb
        rw [e] at hb'
        cases hb'
        exact hx
    · exact h.model
    · exact h.own
  | pop =>
    simp only [stepCmd] at hs
    obtain ⟨c1, h1, h2⟩ := bindR_ok hs
    simp only [Run.ok.injEq, Prod.mk.injEq] at h2
    rw [← h2.2]
    have h1 := lift_ok h1
    have hp := (popsTo_of_pop h1).boxes
    obtain ⟨s, rest, hsc⟩ := h.cases
    have hx := h.boxes
    rw [hsc] at hx
    have hb := hx.2.2 _ hp
    simp only [ctxPop, satPop] at h1
    obtain ⟨st, -, h1⟩ := bindO_ok h1
    obtain ⟨bs, -, h1⟩ := bindO_ok h1
    obtain ⟨t, h3, h1⟩ := bindO_ok h1
    simp only [Outcome.ok.injEq] at h1; subst h1
    obtain ⟨ts, -, h3⟩ := bindO_ok h3
    obtain ⟨sym, -, h3⟩ := bindO_ok h3
    obtain ⟨sat, -, h3⟩ := bindO_ok h3
    obtain ⟨cl, -, h3⟩ := bindO_ok h3
    simp only [Outcome.ok.injEq] at h3; subst h3
    have hst : u.step c.sat.abs.next .pop = { u with scopes := rest, gone := s ++ u.gone } := by
      simp only [User.step, hsc]
    rw [hst]
    have comm : ∀ w, (w ∈ rest.flatten ∨ w ∈ s ++ u.gone) ↔
        (w ∈ u.scopes.flatten ∨ w ∈ u.gone) := by
      intro w
      rw [hsc]
      simp only [List.flatten_cons, List.mem_append]
      tauto
    refine ⟨h.made, h.ids, hb, h.nodup, fun i => ?_, fun w hw => h.own w ((comm w).mp hw)⟩
    simp only [comm]
    exact h.model i

theorem rinv_reach {cfg u c} (h : Reach cfg u c) : RInv u c := by
  induction h with
  | init next made h1 h2 =>
    refine ⟨h1, h2, ⟨?_, ⟨⟨rfl, List.nodup_nil⟩, ?_, ?_⟩, ?_⟩, List.nodup_nil, ?_, ?_⟩
    · show List.Pairwise _ [1, 0]; decide
    · simp
    · intro v hv; simp [Ctx.init] at hv
    · intro bs' hb
      rw [vpop_eq (by show List.Pairwise _ [1]; decide)] at hb
      cases hb
    · simp [Ctx.init]
    · simp
  | step _ hu hs ih => exact rinv_step ih hu hs

/-! ### Extraction of the model -/

theorem addItv_spec {b : Box} {v lb ub b'} (hw : BoxWf b) (h : b.addItv v lb ub = .ok b') :
    BoxWf b' ∧ b'.vars = b.vars ++ [v] ∧ b'.getV v = ⟨lb, ub⟩ ∧ b'.bot = b.bot ∧
      ∀ w ∈ b.vars, b'.getV w = b.getV w := by
  unfold Box.addItv Box.add at h
  split at h
  · cases h
  rename_i hv
  obtain ⟨b1, h1, h⟩ := bindO_ok h
  simp only [Outcome.ok.injEq] at h1; subst h1
  split at h
  · simp only [Outcome.ok.injEq] at h
    subst h
    have hw2 : BoxWf { b with vars := b.vars ++ [v], vals := b.vals ++ [Box.initItv v.type] } := by
      refine ⟨by simp [hw.1], ?_⟩
      show (b.vars ++ [v]).Nodup
      rw [List.nodup_append]
      refine ⟨hw.2, by simp, ?_⟩
      rintro a ha c hc rfl
      simp only [List.mem_singleton] at hc
      subst hc; exact hv ha
    have hix : ({ b with vars := b.vars ++ [v], vals := b.vals ++ [Box.initItv v.type] } : Box).index v
        = b.vals.length := by
      simp only [Box.index, List.mem_append, List.mem_singleton, or_true, if_true]
      rw [List.idxOf_append_of_notMem hv]
      simp [hw.1]
    refine ⟨set_wf hw2, rfl, ?_, rfl, ?_⟩
    · exact setV_getV hw2 (by simp)
    · intro w hw'
      have hne : w ≠ v := fun he => hv (he ▸ hw')
      have i1 : b.index w < b.vals.length := by
        simp only [Box.index, hw', if_true]; rw [hw.1]; exact List.idxOf_lt_length_iff.mpr hw'
      have i2 : (Box.setV { b with vars := b.vars ++ [v], vals := b.vals ++ [Box.initItv v.type] } v
          ⟨lb, ub⟩).index w = b.index w := by
        simp only [Box.index, Box.setV, Box.set, List.mem_append, hw', true_or, if_true]
        exact List.idxOf_append_of_mem hw'
      unfold Box.getV
      rw [i2]
      simp only [Box.setV, hix, Box.get, Box.set, List.getD_eq_getElem?_getD]
      rw [List.getElem?_set_ne (by omega), List.getElem?_append_left i1]
  · cases h

theorem extractLoop_spec {mv b} : ∀ {vs new m}, extractLoop mv b vs new = .ok m → BoxWf new →
    m.vars = new.vars ++ vs.filter (fun v => decide (v.id ∈ mv)) ∧ BoxWf m ∧
    (∀ v ∈ new.vars, m.getV v = new.getV v) ∧ m.bot = new.bot ∧
    ∀ v ∈ vs, v.id ∈ mv → m.getV v = b.getV v
  | [], new, m, h, hw => by
    simp only [extractLoop, Outcome.ok.injEq] at h; subst h
    exact ⟨by simp, hw, fun _ _ => rfl, rfl, by simp⟩
  | v :: vs, new, m, h, hw => by
    simp only [extractLoop] at h
    split at h
    · rename_i hv
      obtain ⟨n1, h1, h2⟩ := bindO_ok h
      obtain ⟨a1, a2, a3, a4, a5⟩ := addItv_spec hw h1
      obtain ⟨b1, b2, b3, b4, b5⟩ := extractLoop_spec h2 a1
      have hvm : v ∈ n1.vars := by rw [a2]; simp
      refine ⟨?_, b2, ?_, b4.trans a4, ?_⟩
      · rw [b1, a2, List.filter_cons_of_pos (by simpa using hv)]; simp
      · intro w hw'
        rw [b3 w (by rw [a2]; simp [hw']), a5 w hw']
      · intro w hw' hi
        rcases List.mem_cons.mp hw' with rfl | hw'
        · rw [b3 w hvm, a3]
        · exact b5 w hw' hi
    · rename_i hv
      obtain ⟨b1, b2, b3, b4, b5⟩ := extractLoop_spec h hw
      refine ⟨?_, b2, b3, b4, ?_⟩
      · rw [b1, List.filter_cons_of_neg (by simpa using hv)]
      · intro w hw' hi
        rcases List.mem_cons.mp hw' with rfl | hw'
        · exact absurd hi hv
        · exact b5 w hw' hi

theorem extractModel_values {mv b m} (h : extractModel mv b = .ok m) (hw : BoxWf b) :
    BoxWf m ∧ (∀ v ∈ m.vars, v ∈ b.vars ∧ m.getV v = b.getV v) := by
  unfold extractModel at h
  split at h
  · simp only [Outcome.ok.injEq] at h; subst h; exact ⟨hw, fun v hv => ⟨hv, rfl⟩⟩
  · obtain ⟨b1, b2, -, -, b5⟩ := extractLoop_spec h ⟨rfl, List.nodup_nil⟩
    refine ⟨b2, fun v hv => ?_⟩
    rw [b1] at hv
    simp only [List.nil_append, List.mem_filter, decide_eq_true_eq] at hv
    exact ⟨hv.1, b5 v hv.1 hv.2⟩

theorem extractModel_vars {u c b m} (hr : RInv u c) (hg : ∀ v ∈ u.gone, v ∈ u.scopes.flatten)
    (hs : Shape c.box.vars b) (h : extractModel c.modelVars b = .ok m) (v) :
    v ∈ m.vars ↔ v ∈ u.scopes.flatten := by
  have hb := hr.box
  have hmod : ∀ i, i ∈ c.modelVars ↔ ∃ v ∈ u.scopes.flatten, v.id = i := by
    intro i
    rw [hr.model]
    constructor
    · rintro ⟨w, hw | hw, he⟩
      · exact ⟨w, hw, he⟩
      · exact ⟨w, hg w hw, he⟩
    · rintro ⟨w, hw, he⟩; exact ⟨w, .inl hw, he⟩
  unfold extractModel at h
  split at h
  · rename_i hl
    simp only [Outcome.ok.injEq] at h; subst h
    rw [hs.1]
    refine ⟨fun hv => ?_, hb.2.1 v⟩
    rw [Box.size, hs.1] at hl
    have hsub : c.modelVars ⊆
        (c.box.vars.filter fun v => decide (v ∈ u.scopes.flatten)).map fun v => v.id := by
      intro i hi
      obtain ⟨w, hw, rfl⟩ := (hmod i).mp hi
      exact List.mem_map.mpr ⟨w, List.mem_filter.mpr ⟨hb.2.1 w hw, by simpa using hw⟩, rfl⟩
    have h1 := (List.subperm_of_subset hr.nodup hsub).length_le
    rw [List.length_map, hl] at h1
    have h2 := List.filter_sublist (l := c.box.vars)
      (p := fun v => decide (v ∈ u.scopes.flatten))
    have h3 := h2.eq_of_length_le h1
    rw [← h3] at hv
    simpa using (List.mem_filter.mp hv).2
  · obtain ⟨b1, -⟩ := extractLoop_spec h ⟨rfl, List.nodup_nil⟩
    rw [b1, hs.1]
    simp only [List.nil_append, List.mem_filter, decide_eq_true_eq]
    constructor
    · rintro ⟨hv, hi⟩
      obtain ⟨w, hw, he⟩ := (hmod _).mp hi
      have hwm := hr.own w (.inl hw)
      rcases hb.2.2 v hv with hv | ⟨hv, -⟩
      · have := List.inj_on_of_nodup_map hr.ids hwm hv he
        exact this ▸ hw
      · exact absurd he (hv w hwm)
    · intro hv
      exact ⟨hb.2.1 v hv, (hmod _).mpr ⟨v, hv, rfl⟩⟩

/-! ### Tightening -/

theorem tightenAll_length {fp rnd δ} : ∀ {vs ivs is}, tightenAll fp rnd δ vs ivs = .ok is →
    is.length = ivs.length
  | [], ivs, is, h => by simp only [tightenAll, Outcome.ok.injEq] at h; rw [h]
  | v :: vs, [], is, h => by simp only [tightenAll, Outcome.ok.injEq] at h; rw [h]
  | v :: vs, iv :: ivs, is, h => by
    simp only [tightenAll] at h
    obtain ⟨i, -, h⟩ := bindO_ok h
    obtain ⟨js, h2, h⟩ := bindO_ok h
    simp only [Outcome.ok.injEq] at h; subst h
    simp [tightenAll_length h2]

theorem tightenAll_get {fp rnd δ} : ∀ {vs ivs is}, tightenAll fp rnd δ vs ivs = .ok is →
    ∀ {i : Nat} {v : Variable} {iv}, vs[i]? = some v → ivs[i]? = some iv →
      ∃ iv', is[i]? = some iv' ∧ tighten1 fp rnd δ v.type iv = .ok iv'
  | [], ivs, is, h, i, v, iv, h1, _ => by simp at h1
  | w :: vs, [], is, h, i, v, iv, _, h2 => by simp at h2
  | w :: vs, jv :: ivs, is, h, i, v, iv, h1, h2 => by
    simp only [tightenAll] at h
    obtain ⟨j, h3, h⟩ := bindO_ok h
    obtain ⟨js, h4, h⟩ := bindO_ok h
    simp only [Outcome.ok.injEq] at h; subst h
    cases i with
    | zero =>
      simp only [List.getElem?_cons_zero, Option.some.injEq] at h1 h2
      subst h1; subst h2
      exact ⟨j, rfl, h3⟩
    | succ i =>
      simp only [List.getElem?_cons_succ] at h1 h2 ⊢
      exact tightenAll_get h4 h1 h2

theorem tighten_spec {fp rnd δ b t} (hw : BoxWf b) (h : tighten fp rnd δ b = .ok t) :
    Shape b.vars t ∧ t.bot = b.bot ∧
      ∀ v ∈ b.vars, tighten1 fp rnd δ v.type (b.getV v) = .ok (t.getV v) := by
  simp only [tighten] at h
  obtain ⟨is, h1, h⟩ := bindO_ok h
  simp only [Outcome.ok.injEq] at h; subst h
  refine ⟨⟨rfl, by rw [tightenAll_length h1]; exact hw.1, hw.2⟩, rfl, fun v hv => ?_⟩
  have hl : b.vars.idxOf v < b.vars.length := List.idxOf_lt_length_iff.mpr hv
  obtain ⟨iv', h2, h3⟩ := tightenAll_get h1 (i := b.vars.idxOf v) (v := v)
    (iv := b.vals[b.vars.idxOf v]'(by rw [hw.1]; exact hl))
    (by rw [List.getElem?_eq_getElem hl, List.getElem_idxOf])
    (List.getElem?_eq_getElem _)
  have e1 : b.getV v = b.vals[b.vars.idxOf v]'(by rw [hw.1]; exact hl) := by
    simp only [Box.getV, Box.index, hv, if_true, Box.get]
    exact List.getD_eq_getElem _ _ _
  have e2 : ({ b with vals := is } : Box).getV v = iv' := by
    simp only [Box.getV, Box.index, hv, if_true, Box.get, List.getD_eq_getElem?_getD, h2,
      Option.getD_some]
  rw [e1, e2]; exact h3

/-- How the answer of a check arises from the box that the core found. -/
theorem checkSat_some {cfg c m c'} (h : checkSat cfg c = .ok (some m, c')) :
    ∃ b r t, checkCore cfg c = .ok (some b, r) ∧
      tighten cfg.env.fp cfg.rnd cfg.env.delta b = .ok t ∧ extractModel c.modelVars t = .ok m := by
  simp only [checkSat] at h
  obtain ⟨⟨o, r⟩, h1, h2⟩ := bindR_ok h
  cases o with
  | none => simp at h2
  | some b =>
    simp only at h2
    obtain ⟨t, h3, h4⟩ := bindR_ok h2
    obtain ⟨m', h5, h6⟩ := bindR_ok h4
    simp only [Run.ok.injEq, Prod.mk.injEq, Option.some.injEq] at h6
    obtain ⟨rfl, -⟩ := h6
    exact ⟨b, r, t, h1, lift_ok h3, lift_ok h5⟩

end Verif.Proof
