import Verif.Spec.BoxHeap
import Verif.Proof.Box

namespace Verif.Proof
open Verif.Model Verif.Spec

structure GoodTbl (t : Tbl) (vars : List Variable) : Prop where
  vars_eq : t.vars = vars
  nodup : vars.Nodup
  idx : ∀ v, t.idx.lookup v = if v ∈ vars then some (vars.idxOf v) else none
  rev : ∀ i, t.rev.lookup i = vars[i]?

structure RelO (tbls : List Tbl) (o : Obj) (b : Box) : Prop where
  tbl : ∃ t, tbls[o.tbl]? = some t ∧ GoodTbl t b.vars
  bot : o.bot = b.bot
  len : b.vals.length = b.vars.length
  vals : (b.vars = [] ∧ o.vals = [Itv.univ]) ∨ (b.vars ≠ [] ∧ o.vals = b.vals)

def RelOpt (tbls : List Tbl) : Option Obj → Option Box → Prop
  | none, none => True
  | some o, some b => RelO tbls o b
  | _, _ => False

structure Rel (s : BoxHeap) (vs : BoxVals) : Prop where
  len : s.objs.length = vs.length
  each : ∀ h, RelOpt s.tbls (s.obj? h) (vs.box? h)

theorem lookup_append {κ β : Type} [DecidableEq κ] (m : List (κ × β)) (k x : κ) (b : β) :
    (m ++ [(k, b)]).lookup x =
      match m.lookup x with
      | some c => some c
      | none => if x = k then some b else none := by
  induction m with
  | nil =>
    by_cases h : x = k
    · subst h; simp [List.lookup]
    · have : (x == k) = false := by simpa using h
      simp [List.lookup, this, h]
  | cons p m ih =>
    obtain ⟨a, c⟩ := p
    by_cases h : x = a
    · subst h; simp [List.lookup]
    · have : (x == a) = false := by simpa using h
      simp only [List.cons_append, List.lookup, this]
      exact ih

theorem lookup_emplace {κ β : Type} [DecidableEq κ] (m : List (κ × β)) (k x : κ) (b : β) :
    (emplace m k b).lookup x =
      match m.lookup x with
      | some c => some c
      | none => if x = k then some b else none := by
  unfold emplace
  cases hk : m.lookup k with
  | some c =>
    simp only
    cases hx : m.lookup x with
    | some d => rfl
    | none =>
      have : x ≠ k := by rintro rfl; rw [hk] at hx; cases hx
      simp [this]
  | none => exact lookup_append m k x b

/-- Growing the list of tables keeps every relation. -/
theorem RelOpt.mono {tbls tbls' : List Tbl}
    {o : Option Obj} {b : Option Box} (h : RelOpt tbls o b)
    (hk : ∀ o', o = some o' → tbls'[o'.tbl]? = tbls[o'.tbl]?) : RelOpt tbls' o b := by
  cases o <;> cases b <;> simp only [RelOpt] at h ⊢
  obtain ⟨⟨t, ht, hg⟩, h2, h3, h4⟩ := h
  exact ⟨⟨t, (hk _ rfl).trans ht, hg⟩, h2, h3, h4⟩

theorem obj?_append (s : BoxHeap) (o : Option Obj) (h : Nat) :
    ((s.objs ++ [o])[h]?).join = if h = s.objs.length then o else s.obj? h := by
  unfold BoxHeap.obj?
  by_cases hh : h = s.objs.length
  · subst hh; simp
  · rw [if_neg hh]
    by_cases hlt : h < s.objs.length
    · rw [List.getElem?_append_left hlt]
    · rw [List.getElem?_eq_none (by simp; omega), List.getElem?_eq_none (by omega)]

theorem box?_append (s : BoxVals) (b : Option Box) (h : Nat) :
    BoxVals.box? (s ++ [b]) h = if h = s.length then b else s.box? h := by
  unfold BoxVals.box?
  by_cases hh : h = s.length
  · subst hh; simp
  · rw [if_neg hh]
    by_cases hlt : h < s.length
    · rw [List.getElem?_append_left hlt]
    · rw [List.getElem?_eq_none (by simp; omega), List.getElem?_eq_none (by omega)]

theorem obj?_set (objs : List (Option Obj)) (o : Option Obj) (h k : Nat) (hl : h < objs.length) :
    ((objs.set h o)[k]?).join = if k = h then o else (objs[k]?).join := by
  by_cases hh : k = h
  · subst hh; simp [hl]
  · simp [hh, List.getElem?_set_ne (Ne.symm hh)]

theorem box?_set (s : BoxVals) (b : Option Box) (h k : Nat) (hl : h < s.length) :
    BoxVals.box? (s.set h b) k = if k = h then b else s.box? k := by
  unfold BoxVals.box?
  by_cases hh : k = h
  · subst hh; simp [hl]
  · simp [hh, List.getElem?_set_ne (Ne.symm hh)]

theorem box?_lt {s : BoxVals} {h : Nat} {b : Box} (hb : s.box? h = some b) : h < s.length := by
  by_contra hn
  unfold BoxVals.box? at hb
  rw [List.getElem?_eq_none (by omega)] at hb
  cases hb

theorem Rel.obj_none {s : BoxHeap} {vs : BoxVals} (r : Rel s vs) {h : Nat}
    (hb : vs.box? h = none) : s.obj? h = none := by
  have := r.each h
  rw [hb] at this
  cases ho : s.obj? h with
  | none => rfl
  | some o => rw [ho] at this; exact this.elim

theorem Rel.obj_some {s : BoxHeap} {vs : BoxVals} (r : Rel s vs) {h : Nat} {b : Box}
    (hb : vs.box? h = some b) : ∃ o, s.obj? h = some o ∧ RelO s.tbls o b := by
  have := r.each h
  rw [hb] at this
  cases ho : s.obj? h with
  | none => rw [ho] at this; exact this.elim
  | some o => rw [ho] at this; exact ⟨o, rfl, this⟩

/-- Replacing the object and the value behind one handle by related ones, tables unchanged. -/
theorem Rel.set {s : BoxHeap} {vs : BoxVals} (r : Rel s vs) {h : Nat} {o : Option Obj}
    {b : Option Box} (hl : h < vs.length) (hr : RelOpt s.tbls o b) :
    Rel { s with objs := s.objs.set h o } (vs.set h b) := by
  refine ⟨by simp [r.len], fun k => ?_⟩
  rw [box?_set _ _ _ _ hl]
  show RelOpt s.tbls (((s.objs.set h o)[k]?).join) _
  rw [obj?_set _ _ _ _ (by rw [r.len]; exact hl)]
  by_cases hk : k = h
  · simp [hk, hr]
  · simp only [if_neg hk]; exact r.each k

theorem Rel.append {s : BoxHeap} {vs : BoxVals} (r : Rel s vs) {o : Option Obj}
    {b : Option Box} (hr : RelOpt s.tbls o b) :
    Rel { s with objs := s.objs ++ [o] } (vs ++ [b]) := by
  refine ⟨by simp [r.len], fun k => ?_⟩
  rw [box?_append]
  show RelOpt s.tbls (((s.objs ++ [o])[k]?).join) _
  rw [obj?_append, r.len]
  by_cases hk : k = vs.length
  · simp [hk, hr]
  · simp only [if_neg hk]; exact r.each k

theorem relO_lookup {s : BoxHeap} {o : Obj} {b : Box} (hr : RelO s.tbls o b) {v : Variable}
    (hv : v ∈ b.vars) : s.lookupV o v = .ok (s, b.vars.idxOf v) := by
  obtain ⟨t, ht, hg⟩ := hr.tbl
  unfold BoxHeap.lookupV
  rw [ht]
  simp only
  rw [hg.idx v, if_pos hv]

theorem relO_set {tbls : List Tbl} {o : Obj} {b : Box} (hr : RelO tbls o b) {i : Nat}
    (hi : i < b.vars.length) (iv : Itv) :
    RelO tbls { o with vals := o.vals.set i iv } (b.set i iv) := by
  refine ⟨hr.tbl, hr.bot, by simp [Box.set, hr.len], Or.inr ?_⟩
  rcases hr.vals with ⟨h1, _⟩ | ⟨h1, h2⟩
  · rw [h1] at hi; simp at hi
  · exact ⟨h1, by simp [Box.set, h2]⟩

theorem goodTbl_add {t : Tbl} {vars : List Variable} (hg : GoodTbl t vars) {v : Variable}
    (hv : v ∉ vars) :
    GoodTbl ⟨t.vars ++ [v], emplace t.idx v t.vars.length, emplace t.rev t.vars.length v⟩
      (vars ++ [v]) := by
  have hve := hg.vars_eq
  refine ⟨by simp [hve], ?_, ?_, ?_⟩
  · rw [List.nodup_append]
    exact ⟨hg.nodup, by simp, by rintro a ha b hb rfl; simp at hb; subst hb; exact hv ha⟩
  · intro w
    rw [lookup_emplace, hg.idx w, hve]
    by_cases hw : w ∈ vars
    · simp [hw, List.idxOf_append_of_mem]
    · by_cases hwv : w = v
      · subst hwv; simp [hw, List.idxOf_append_of_notMem]
      · simp [hw, hwv]
  · intro i
    rw [lookup_emplace, hg.rev i, hve]
    by_cases hi : i < vars.length
    · rw [List.getElem?_append_left hi]; simp [hi]
    · rw [List.getElem?_eq_none (by omega)]
      by_cases he : i = vars.length
      · subst he; simp
      · simp only [if_neg he]
        rw [List.getElem?_eq_none (by simp; omega)]

theorem vals_add {o : Obj} {b : Box} {tbls : List Tbl} (hr : RelO tbls o b) (v : Variable) :
    (let vals := BoxHeap.resize (b.vars.length + 1) o.vals
     if v.type = .continuous then vals else vals.set b.vars.length (Box.initItv v.type)) =
    b.vals ++ [newItv v.type] := by
  rcases hr.vals with ⟨h1, h2⟩ | ⟨h1, h2⟩
  · have hbv : b.vals = [] := by
      have := hr.len; rw [h1] at this; exact List.length_eq_zero_iff.mp this
    rw [h1, h2, hbv]
    cases ht : v.type <;> simp [BoxHeap.resize, Box.initItv, newItv, Itv.univ] <;> norm_num
  · have hlen := hr.len
    have hres : BoxHeap.resize (b.vars.length + 1) o.vals = b.vals ++ [Itv.univ] := by
      unfold BoxHeap.resize
      rw [h2, ← hlen]
      rw [List.take_of_length_le (by omega)]
      have : b.vals.length + 1 - b.vals.length = 1 := by omega
      rw [this]; rfl
    simp only [hres]
    rw [← hlen]
    cases ht : v.type <;> simp [Box.initItv, newItv, Itv.univ] <;> norm_num

theorem unique_other {s : BoxHeap} {h k : Nat} {o o' : Obj} (hu : s.unique o.tbl = true)
    (ho : s.obj? h = some o) (hk : s.obj? k = some o') (hne : k ≠ h) : o'.tbl ≠ o.tbl := by
  intro he
  unfold BoxHeap.unique at hu
  simp only [beq_iff_eq] at hu
  have e1 : s.objs[h]? = some (some o) := by
    unfold BoxHeap.obj? at ho
    cases hx : s.objs[h]? with
    | none => rw [hx] at ho; cases ho
    | some x => rw [hx] at ho; simp at ho; rw [ho]
  have e2 : s.objs[k]? = some (some o') := by
    unfold BoxHeap.obj? at hk
    cases hx : s.objs[k]? with
    | none => rw [hx] at hk; cases hk
    | some x => rw [hx] at hk; simp at hk; rw [hk]
  -- two distinct positions satisfy the predicate, so the count is at least two
  have key : ∀ (l : List (Option Obj)) (i j : Nat), i < j → l[i]? = some (some o) →
      l[j]? = some (some o') → 2 ≤ l.countP (fun x => x.any (fun x => x.tbl == o.tbl)) := by
    intro l
    induction l with
    | nil => intro i j _ h1; simp at h1
    | cons a l ih =>
      intro i j hij h1 h2
      cases j with
      | zero => omega
      | succ j =>
        cases i with
        | zero =>
          simp at h1 h2
          subst h1
          rw [List.countP_cons_of_pos (by simp)]
          have : 0 < l.countP (fun x => x.any (fun x => x.tbl == o.tbl)) := by
            rw [List.countP_pos_iff]
            exact ⟨some o', List.mem_of_getElem? h2, by simp [he]⟩
          omega
        | succ i =>
          simp at h1 h2
          have := ih i j (by omega) h1 h2
          have h3 := List.countP_cons (p := fun x : Option Obj => x.any (fun x => x.tbl == o.tbl))
            (a := a) (l := l)
          omega
  have key' : ∀ (l : List (Option Obj)) (i j : Nat), i < j → l[i]? = some (some o') →
      l[j]? = some (some o) → 2 ≤ l.countP (fun x => x.any (fun x => x.tbl == o.tbl)) := by
    intro l
    induction l with
    | nil => intro i j _ h1; simp at h1
    | cons a l ih =>
      intro i j hij h1 h2
      cases j with
      | zero => omega
      | succ j =>
        cases i with
        | zero =>
          simp at h1 h2
          subst h1
          rw [List.countP_cons_of_pos (by simp [he])]
          have : 0 < l.countP (fun x => x.any (fun x => x.tbl == o.tbl)) := by
            rw [List.countP_pos_iff]
            exact ⟨some o, List.mem_of_getElem? h2, by simp⟩
          omega
        | succ i =>
          simp at h1 h2
          have := ih i j (by omega) h1 h2
          have h3 := List.countP_cons (p := fun x : Option Obj => x.any (fun x => x.tbl == o.tbl))
            (a := a) (l := l)
          omega
  rcases Nat.lt_or_gt_of_ne hne with hlt | hlt
  · have := key' s.objs k h hlt e2 e1; omega
  · have := key s.objs h k hlt e1 e2; omega

theorem rel_add {s : BoxHeap} {vs : BoxVals} (r : Rel s vs) {h : Nat} {b : Box}
    (hb : vs.box? h = some b) {v : Variable} (hv : v ∉ b.vars) :
    ∃ s', s.addV h v = .ok s' ∧ Rel s' (vs.set h (some { b with
      vars := b.vars ++ [v], vals := b.vals ++ [newItv v.type] })) := by
  obtain ⟨o, ho, hr⟩ := r.obj_some hb
  obtain ⟨t, ht, hg⟩ := hr.tbl
  have hlt := box?_lt hb
  have htl : o.tbl < s.tbls.length := lt_of_getElem? ht
  have hvt : v ∉ t.vars := by rw [hg.vars_eq]; exact hv
  unfold BoxHeap.addV
  rw [ho]
  simp only
  rw [ht]
  simp only [if_neg hvt]
  have hvals := vals_add hr v
  simp only at hvals
  rw [← hg.vars_eq] at hvals
  refine ⟨_, rfl, by simp [r.len], fun k => ?_⟩
  rw [box?_set _ _ _ _ hlt]
  by_cases hk : k = h
  · subst hk
    show RelOpt _ (((s.objs.set k _)[k]?).join) _
    rw [obj?_set _ _ _ _ (by rw [r.len]; exact hlt)]
    simp only [if_true]
    show RelO _ _ _
    refine ⟨⟨_, ?_, goodTbl_add hg hv⟩, hr.bot, by simp [hr.len], Or.inr ⟨by simp, hvals⟩⟩
    by_cases hu : s.unique o.tbl = true
    · simp [hu, htl]
    · simp [hu]
  · show RelOpt _ (((s.objs.set h _)[k]?).join) _
    rw [obj?_set _ _ _ _ (by rw [r.len]; exact hlt)]
    simp only [if_neg hk]
    refine RelOpt.mono (r.each k) ?_
    intro o' ho'
    replace ho' : s.obj? k = some o' := ho'
    have ho'l : o'.tbl < s.tbls.length := by
      have := r.each k
      rw [ho'] at this
      cases hbk : vs.box? k with
      | none => rw [hbk] at this; exact this.elim
      | some b' =>
        rw [hbk] at this
        obtain ⟨t', ht', _⟩ := RelO.tbl this
        exact lt_of_getElem? ht'
    by_cases hu : s.unique o.tbl = true
    · have hne := unique_other hu ho ho' hk
      simp only [hu, Bool.not_true, Bool.false_eq_true, if_false]
      rw [List.getElem?_set_ne (Ne.symm hne)]
    · simp only [hu, Bool.not_false, if_true]
      rw [List.getElem?_set_ne (by omega), List.getElem?_append_left ho'l]

theorem rel_step {s : BoxHeap} {vs vs' : BoxVals} (r : Rel s vs) {op : BoxOp}
    (hd : opDeclared vs op) (hs : boxValStep vs op = .ok vs') :
    ∃ s', s.step op = .ok s' ∧ Rel s' vs' := by
  cases op with
  | new =>
    simp only [boxValStep, Outcome.ok.injEq] at hs
    subst hs
    refine ⟨_, rfl, by simp [r.len], fun k => ?_⟩
    rw [box?_append]
    show RelOpt _ (((s.objs ++ [_])[k]?).join) _
    rw [obj?_append, r.len]
    by_cases hk : k = vs.length
    · simp only [if_pos hk]
      refine ⟨⟨⟨[], [], []⟩, by simp, rfl, by simp, by simp [List.lookup], by simp [List.lookup]⟩,
        rfl, rfl, Or.inl ⟨rfl, rfl⟩⟩
    · simp only [if_neg hk]
      refine RelOpt.mono (r.each k) ?_
      intro o' ho'
      have := r.each k
      rw [ho'] at this
      cases hbk : vs.box? k with
      | none => rw [hbk] at this; exact this.elim
      | some b' =>
        rw [hbk] at this
        obtain ⟨t', ht', _⟩ := RelO.tbl this
        rw [List.getElem?_append_left (lt_of_getElem? ht')]
  | copy h =>
    cases hb : vs.box? h with
    | none => simp [boxValStep, hb] at hs
    | some b =>
      simp only [boxValStep, hb, Outcome.ok.injEq] at hs
      subst hs
      obtain ⟨o, ho, hr⟩ := r.obj_some hb
      exact ⟨_, by simp [BoxHeap.step, ho], r.append (o := some o) hr⟩
  | assign h g =>
    cases hb : vs.box? h with
    | none => simp [boxValStep, hb] at hs
    | some b =>
      cases hg : vs.box? g with
      | none => simp [boxValStep, hb, hg] at hs
      | some c =>
        simp only [boxValStep, hb, hg, Outcome.ok.injEq] at hs
        subst hs
        obtain ⟨o, ho, hr⟩ := r.obj_some hb
        obtain ⟨o2, ho2, hr2⟩ := r.obj_some hg
        exact ⟨_, by simp [BoxHeap.step, ho, ho2], r.set (o := some o2) (box?_lt hb) hr2⟩
  | drop h =>
    cases hb : vs.box? h with
    | none => simp [boxValStep, hb] at hs
    | some b =>
      simp only [boxValStep, hb, Outcome.ok.injEq] at hs
      subst hs
      obtain ⟨o, ho, hr⟩ := r.obj_some hb
      exact ⟨_, by simp [BoxHeap.step, ho], r.set (o := none) (box?_lt hb) trivial⟩
  | add h v =>
    cases hb : vs.box? h with
    | none => simp [boxValStep, hb] at hs
    | some b =>
      simp only [boxValStep, hb] at hs
      by_cases hv : v ∈ b.vars
      · simp [hv] at hs
      · simp only [hv, if_false, Outcome.ok.injEq] at hs
        subst hs
        exact rel_add r hb hv
  | setI h i iv =>
    cases hb : vs.box? h with
    | none => simp [boxValStep, hb] at hs
    | some b =>
      simp only [boxValStep, hb] at hs
      by_cases hi : i < b.vars.length
      · simp only [hi, if_true, Outcome.ok.injEq] at hs
        subst hs
        obtain ⟨o, ho, hr⟩ := r.obj_some hb
        obtain ⟨t, ht, hg⟩ := hr.tbl
        refine ⟨_, ?_, r.set (o := some _) (box?_lt hb) (relO_set hr hi iv)⟩
        simp [BoxHeap.step, ho, ht, hg.vars_eq, hi]
      · simp [hi] at hs
  | setV h v iv =>
    cases hb : vs.box? h with
    | none => simp [boxValStep, hb] at hs
    | some b =>
      simp only [boxValStep, hb, Outcome.ok.injEq] at hs
      subst hs
      have hv := hd b hb
      obtain ⟨o, ho, hr⟩ := r.obj_some hb
      refine ⟨_, ?_, r.set (o := some _) (box?_lt hb) (relO_set hr (List.idxOf_lt_length_of_mem hv) iv)⟩
      simp [BoxHeap.step, ho, relO_lookup hr hv]
  | readV h v =>
    cases hb : vs.box? h with
    | none => simp [boxValStep, hb] at hs
    | some b =>
      simp only [boxValStep, hb, Outcome.ok.injEq] at hs
      subst hs
      have hv := hd b hb
      obtain ⟨o, ho, hr⟩ := r.obj_some hb
      exact ⟨s, by simp [BoxHeap.step, ho, relO_lookup hr hv], r⟩
  | setEmpty h =>
    cases hb : vs.box? h with
    | none => simp [boxValStep, hb] at hs
    | some b =>
      simp only [boxValStep, hb, Outcome.ok.injEq] at hs
      subst hs
      obtain ⟨o, ho, hr⟩ := r.obj_some hb
      refine ⟨_, by simp [BoxHeap.step, ho]; rfl, r.set (o := some _) (box?_lt hb) ?_⟩
      exact ⟨hr.tbl, rfl, hr.len, hr.vals⟩

theorem rel_run {s : BoxHeap} {vs vs' : BoxVals} (r : Rel s vs) {ops : List BoxOp}
    (hd : opsDeclared vs ops) (hs : boxValRun vs ops = .ok vs') :
    ∃ s', s.run ops = .ok s' ∧ Rel s' vs' := by
  induction ops generalizing s vs with
  | nil =>
    simp only [boxValRun, Outcome.ok.injEq] at hs
    subst hs
    exact ⟨s, rfl, r⟩
  | cons op ops ih =>
    simp only [boxValRun] at hs
    cases hst : boxValStep vs op with
    | throw => rw [hst] at hs; simp at hs
    | ub => rw [hst] at hs; simp at hs
    | ok v1 =>
      rw [hst] at hs
      simp only [Outcome.bind_ok] at hs
      obtain ⟨s1, h1, r1⟩ := rel_step r hd.1 hst
      obtain ⟨s2, h2, r2⟩ := ih r1 (hd.2 v1 hst) hs
      exact ⟨s2, by simp [BoxHeap.run, h1, h2], r2⟩

theorem rel_shows {s : BoxHeap} {vs : BoxVals} (r : Rel s vs) : ShowsValues s vs := by
  intro h
  cases hb : vs.box? h with
  | none =>
    have ho := r.obj_none hb
    simp [BoxHeap.varsOf, BoxHeap.hasVar, BoxHeap.isBot, ho]
  | some b =>
    obtain ⟨o, ho, hr⟩ := r.obj_some hb
    obtain ⟨t, ht, hg⟩ := hr.tbl
    refine ⟨by simp [BoxHeap.varsOf, ho, ht, hg.vars_eq], ?_, by simp [BoxHeap.isBot, ho, hr.bot], ?_⟩
    · intro v
      by_cases hv : v ∈ b.vars <;> simp [BoxHeap.hasVar, ho, ht, hg.idx v, hv]
    · intro b' hb'
      cases hb'
      refine ⟨?_, ?_, ?_⟩
      · intro i hi
        rcases hr.vals with ⟨h1, _⟩ | ⟨_, h2⟩
        · rw [h1] at hi; simp at hi
        · simp [BoxHeap.getI, ho, h2]
      · intro i _
        simp [BoxHeap.varAt, ho, ht, hg.rev i]
      · intro v hv
        rcases hr.vals with ⟨h1, _⟩ | ⟨_, h2⟩
        · rw [h1] at hv; simp at hv
        · simp [BoxHeap.getV, ho, ht, hg.idx v, hv, h2]

end Verif.Proof
