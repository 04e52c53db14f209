import Verif.Proof.Smt2Tr

/-! # Scripts -/

namespace Verif.Proof.Smt2
open Verif Verif.Model Verif.Model.Smt2 Verif.Spec Verif.Spec.Smt2 Verif.Proof

variable {I : Interp} {ρ : Valuation} {B : Variable → Prop} {use : List Cmd → Nat}

/-- The call only mentions variables below `n`. -/
def Low (n : Nat) : Cmd → Prop
  | .declare v _ => v.id < n
  | .setInterval v _ _ => v.id < n
  | .assert f => FvIn (fun v => v.id < n) f
  | _ => True

theorem Quiet.low {n c} (h : Quiet n c) : Low n c := by
  cases c <;> simp only [Quiet] at h <;> simp only [Low]
  · exact h.2
  · exact h

theorem Low.mono {n m c} (h : Low n c) (hn : n ≤ m) : Low m c := by
  cases c <;> simp only [Low] at h ⊢ <;> try omega
  exact FvIn.mono h fun v (hv : v.id < n) => (by omega : v.id < m)

theorem Low.holds {n c} (h : Low n c) {ρ ρ' : Valuation} (hρ : ∀ v : Variable, v.id < n → ρ' v = ρ v) :
    CmdHolds I ρ' c ↔ CmdHolds I ρ c := by
  cases c <;> simp only [Low] at h <;> simp only [CmdHolds]
  · rw [hρ _ h]
  · rw [hρ _ h]
  · exact holds_congr I _ _ _ fun v hv => hρ v (h v hv)

theorem modelVars_append (a b : List Cmd) : modelVars (a ++ b) = modelVars a ++ modelVars b := by
  induction a with
  | nil => rfl
  | cons c a ih =>
    cases c with
    | declare v m => cases m <;> simp [modelVars, ih]
    | _ => simp [modelVars, ih]

theorem modelVars_low {l : List Cmd} {n} (h : ∀ c ∈ l, Low n c) : ∀ v ∈ modelVars l, v.id < n := by
  induction l with
  | nil => simp [modelVars]
  | cons c l ih =>
    have ih' := ih fun c hc => h c (by simp [hc])
    cases c with
    | declare v m =>
      cases m with
      | true =>
        intro w hw
        rcases List.mem_cons.mp hw with rfl | hw
        · exact h (.declare _ true) (by simp)
        · exact ih' w hw
      | false => exact ih'
    | _ => exact ih'

theorem modelVars_quiet {l : List Cmd} {n} (h : ∀ c ∈ l, Quiet n c) : modelVars l = [] := by
  induction l with
  | nil => rfl
  | cons c l ih =>
    have ih' := ih fun c hc => h c (by simp [hc])
    have hc := h c (by simp)
    cases c with
    | declare v m =>
      cases m with
      | true => simp [Quiet] at hc
      | false => exact ih'
    | _ => exact ih'

/-- What a command does. -/
structure StepSpec (use : List Cmd → Nat) (B : Variable → Prop) (d d1 : Drv) (c : SCmd) (B1 : Variable → Prop)
    (new : List Cmd) : Prop where
  inv : Inv B1 d1
  lt : d.next ≤ d1.next
  log : d1.log = d.log ++ new
  low : ∀ k ∈ new, Low d1.next k
  fwd : ∀ I ρ E F, Match I d ρ E F → ∀ cs xs, holdsScript I E F (c :: cs) xs →
    ∃ (ρ1 : Valuation) (xs' : List ℝ) (E1 : Names) (F1 : Funs),
      (∀ v : Variable, v.id < d.next → ρ1 v = ρ v) ∧ (∀ k ∈ new, CmdHolds I ρ1 k) ∧
      xs = (modelVars new).map ρ1 ++ xs' ∧ Match I d1 ρ1 E1 F1 ∧ holdsScript I E1 F1 cs xs'
  bwd : ∀ I ρ E F, Match I d ρ E F → (∀ k ∈ new, CmdHolds I ρ k) →
    ∃ E1 F1, Match I d1 ρ E1 F1 ∧ ∀ cs xs', holdsScript I E1 F1 cs xs' →
      holdsScript I E F (c :: cs) ((modelVars new).map ρ ++ xs')
  cnt : d1.next = count use d.log d.next new
  ord : ∀ G : Variable → Prop, (∀ v, Glob d v → G v) → Ordered use G d.log d.next new ∧
    ∀ v, Glob d1 v → G v ∨ DeclIn new v
  seen : ∀ v, Glob d1 v → Glob d v ∨ Cmd.declare v true ∈ new
  env : ∀ I ρ E F, Match I d ρ E F → ∃ E1 F1, Match I d1 ρ E1 F1 ∧ ∀ cs xs',
    namesOf I E F (c :: cs) ((modelVars new).map ρ ++ xs') = namesOf I E1 F1 cs xs'

theorem Inv.call {d : Drv} (h : Inv B d) (c : Cmd) : Inv B (d.call use c) :=
  h.congr rfl rfl (by simp [Drv.call]) h.mrel

theorem Match.call {d : Drv} {E F} (h : Match I d ρ E F) (c : Cmd) : Match I (d.call use c) ρ E F :=
  h.maps rfl rfl

theorem Match.low {d : Drv} (hi : Inv B d) {ρ ρ' : Valuation} {E F} (h : Match I d ρ E F)
    (e : ∀ v : Variable, v.id < d.next → ρ' v = ρ v) : Match I d ρ' E F :=
  h.congr fun v hv => e v (hi.glob v hv).1

/-- Setting one variable leaves the others. -/
theorem set_low {n : Nat} {ty : VType} {x : ℝ} {ρ : Valuation} (v : Variable) (h : v.id < n) :
    (fun v => if v = (⟨n, ty⟩ : Variable) then x else ρ v) v = ρ v := by
  have : v ≠ ⟨n, ty⟩ := by rintro rfl; simp at h
  simp [this]

theorem step_assert {d d1 : Drv} {t : STerm} (hi : Inv B d) (h : step use d (.assert t) = .ok d1)
    (ht : Tame t) : ∃ new, StepSpec use B d d1 (.assert t) B new := by
  simp only [step] at h
  obtain ⟨⟨x, d2⟩, h1, h⟩ := bindO_ok h
  obtain ⟨f, hf, h⟩ := bindO_ok h
  simp only [Outcome.ok.injEq] at h
  subst h
  have := formula_ok hf
  subst this
  obtain ⟨new, p⟩ := tr_post t hi h1
  have hi2 := p.inv hi
  have lp := p.lt
  refine ⟨new ++ [.assert f], hi2.call _, le_trans p.lt (by simp [Drv.call]), ?_, ?_, ?_, ?_, ?_, ?_,
    fun v hv => .inl ((Glob.congr (p.smap hi) (p.fmap hi)).mp hv), fun I ρ E F m =>
    ⟨E, F, (m.maps (p.smap hi) (p.fmap hi)).call _, fun cs xs' => by
      simp [modelVars_append, modelVars_quiet p.quiet, modelVars, namesOf]⟩⟩
  · simp [Drv.call, p.log]
  · intro k hk
    rcases List.mem_append.mp hk with hk | hk
    · exact (p.quiet k hk).low.mono (by simp [Drv.call])
    · simp only [List.mem_singleton] at hk
      subst hk
      intro v hv
      have : v.id < d2.next := by
        rcases p.free (.fml f) (by simp) v hv with h | h
        · have := (hi.glob v h).1; omega
        · exact h.2
      simp only [Drv.call]; omega
  · intro I ρ E F m cs xs hs
    simp only [holdsScript] at hs
    obtain ⟨ρ1, e1, k1⟩ := p.ex I ρ
    have m1 := m.low hi e1
    have s := p.sem ht I ρ1 E F m1 k1
    simp only [List.map_cons, List.map_nil, List.cons.injEq, and_true, valT] at s
    refine ⟨ρ1, xs, E, F, e1, fun k hk => ?_, ?_, (m1.maps (p.smap hi) (p.fmap hi)).call _, hs.2⟩
    · rcases List.mem_append.mp hk with hk | hk
      · exact k1 k hk
      · simp only [List.mem_singleton] at hk
        subst hk
        have := hs.1
        rw [← s] at this
        exact this
    · simp [modelVars_append, modelVars_quiet p.quiet, modelVars]
  · intro I ρ E F m k
    refine ⟨E, F, (m.maps (p.smap hi) (p.fmap hi)).call _, fun cs xs' hs => ?_⟩
    have s := p.sem ht I ρ E F m fun c hc => k c (by simp [hc])
    simp only [List.map_cons, List.map_nil, List.cons.injEq, and_true, valT] at s
    simp only [modelVars_append, modelVars_quiet p.quiet, modelVars, List.append_nil, List.map_nil,
      List.nil_append, holdsScript, sortType_eq]
    refine ⟨?_, hs⟩
    rw [← s]
    exact k (.assert f) (by simp)
  · rw [count_append, ← p.cnt, ← p.log]
    rfl
  · intro G hG
    obtain ⟨a1, a2⟩ := p.ord ht G hG
    refine ⟨(ordered_append _ _).mpr ⟨a1, ⟨fun v hv => a2 (.fml f) (by simp) v hv, ?_⟩, trivial⟩,
      fun v hv => .inl (hG v ((Glob.congr (p.smap hi) (p.fmap hi)).mp hv))⟩
    rw [← p.cnt]
    refine old_of f (fun v hv => ?_) ((p.bnd (.fml f) (by simp)).mono fun vs _ k v hv => ?_)
    · rcases p.free (.fml f) (by simp) v hv with h | h
      · have := (hi.glob v h).1; omega
      · exact h.2
    · rcases k v hv with h | h
      · have := hi.bnd v h; omega
      · exact h.2

theorem step_check {d : Drv} (hi : Inv B d) : StepSpec use B d (d.call use .check) .check B [.check] where
  inv := hi.call _
  lt := by simp [Drv.call]
  log := rfl
  low := by simp [Low]
  fwd := fun I ρ E F m cs xs hs => ⟨ρ, xs, E, F, fun _ _ => rfl, by simp [CmdHolds],
    by simp [modelVars], m.call _, by simpa [holdsScript] using hs⟩
  bwd := fun I ρ E F m _ => ⟨E, F, m.call _, fun cs xs' hs => by
    simpa [modelVars, holdsScript] using hs⟩
  cnt := rfl
  ord := fun G hG => ⟨⟨trivial, trivial⟩, fun v hv => .inl (hG v hv)⟩
  seen := fun v hv => .inl hv
  env := fun I ρ E F m => ⟨E, F, m.call _, fun cs xs' => by simp [modelVars, namesOf]⟩

theorem step_declare {d d1 : Drv} {n : String} {s : Srt} {dom : Option (EQ × EQ)} (hi : Inv B d)
    (h : step use d (.declare n s dom) = .ok d1) : ∃ new, StepSpec use B d d1 (.declare n s dom) B new := by
  set v : Variable := ⟨d.next, s.toType⟩ with hv
  obtain ⟨tl, hs, hf, hlt, hlog, hcn, htl⟩ : ∃ tl : List Cmd,
      d1.scope = d.scope.insert n v ∧ d1.funs = d.funs ∧ d.next < d1.next ∧
      d1.log = d.log ++ ([.newVar s.toType, .declare v true] ++ tl) ∧
      d1.next = count use d.log d.next ([.newVar s.toType, .declare v true] ++ tl) ∧
      ((dom = none ∧ tl = []) ∨ ∃ l u, dom = some (l, u) ∧ tl = [.setInterval v l u]) := by
    cases dom with
    | none =>
      simp only [step, Outcome.ok.injEq] at h
      subst h
      exact ⟨[], rfl, rfl, by simp only [Drv.declare, Drv.register, Drv.call]; omega,
        by simp [Drv.declare, Drv.register, Drv.call, hv],
        by simp [Drv.declare, Drv.register, Drv.call, hv, count], .inl ⟨rfl, rfl⟩⟩
    | some p =>
      obtain ⟨l, u⟩ := p
      simp only [step, Outcome.ok.injEq] at h
      subst h
      exact ⟨[.setInterval v l u], rfl, rfl, by simp only [Drv.declare, Drv.register, Drv.call]; omega,
        by simp [Drv.declare, Drv.register, Drv.call, hv],
        by simp [Drv.declare, Drv.register, Drv.call, hv, count], .inr ⟨l, u, rfl, rfl⟩⟩
  have hh : ∀ (I : Interp) (ρ : Valuation),
      (∀ k ∈ ([.newVar s.toType, .declare v true] ++ tl : List Cmd), CmdHolds I ρ k) ↔
      typeOk s.toType (ρ v) ∧ inBounds dom (ρ v) := by
    intro I ρ
    rcases htl with ⟨rfl, rfl⟩ | ⟨l, u, rfl, rfl⟩ <;> simp [CmdHolds, inBounds, hv]
  have hmv : modelVars ([.newVar s.toType, .declare v true] ++ tl) = [v] := by
    rcases htl with ⟨_, rfl⟩ | ⟨l, u, _, rfl⟩ <;> simp [modelVars]
  refine ⟨[.newVar s.toType, .declare v true] ++ tl, hi.fresh hs hf hlt, by omega, hlog, ?_, ?_, ?_,
    hcn, fun G hG => ⟨?_, fun w hw => ?_⟩, fun w hw => ?_, fun I ρ E F m =>
    ⟨_, F, match_fresh hs hf m, fun cs xs' => by rw [hmv]; simp [namesOf, sortType_eq, hv]⟩⟩
  · rcases htl with ⟨_, rfl⟩ | ⟨l, u, _, rfl⟩ <;> simp [Low, hv] <;> omega
  · intro I ρ E F m cs xs hsc
    simp only [holdsScript, sortType_eq] at hsc
    obtain ⟨x, xs', rfl, ty, ib, rest⟩ := hsc
    refine ⟨fun w => if w = v then x else ρ w, xs', _, F, fun w hw => ?_, (hh I _).mpr ?_, ?_, ?_, rest⟩
    · exact set_low w hw
    · simpa using ⟨ty, ib⟩
    · rw [hmv]; simp
    · have m1 : Match I d (fun w => if w = v then x else ρ w) E F := m.low hi fun w hw => set_low w hw
      have := match_fresh hs hf m1
      simpa [hv] using this
  · intro I ρ E F m k
    have k' := (hh I ρ).mp k
    refine ⟨_, F, match_fresh hs hf m, fun cs xs' hsc => ?_⟩
    rw [hmv]
    simp only [List.map_cons, List.map_nil, List.cons_append, List.nil_append, holdsScript, sortType_eq]
    exact ⟨ρ v, xs', rfl, k'.1, k'.2, hsc⟩
  · rcases htl with ⟨_, rfl⟩ | ⟨l, u, _, rfl⟩ <;> simp [Ordered, CallOk, count, hv]
  · rcases glob_fresh hs hf hw with rfl | h
    · exact .inr ⟨true, by simp [hv]⟩
    · exact .inl (hG w h)
  · rcases glob_fresh hs hf hw with rfl | h
    · exact .inr (by simp [hv])
    · exact .inl h

theorem mkDef_spec {v : Variable} {x : Term} {f : Fml} (h : mkDef v x = .ok f) :
    (∀ P : Variable → Prop, P v → (∀ w ∈ x.fv, P w) → FvIn P f) ∧
    (∀ I ρ, holds I ρ f ↔ toVal v.type (ρ v) = valT I ρ x) ∧
    ∀ Q, TQ Q x → HerF (fun _ => True) (fun _ => True) Q f := by
  cases x with
  | fml g =>
    simp only [mkDef] at h
    split_ifs at h with hb
    simp only [Outcome.ok.injEq] at h
    subst h
    refine ⟨fun P h1 h2 => ?_, fun I ρ => by simp [toVal, hb, valT], fun Q h => ?_⟩
    rotate_left
    · have hv : HerF (fun _ => True) (fun _ => True) Q (.bvar v) := by simp [HerF]
      rw [tq_iff] at h
      exact her_andF (her_orF (her_notF hv) h) (her_orF (her_notF h) hv)
    have hv : FvIn P (.bvar v) := FvIn_bvar.mpr h1
    exact FvIn.andF (FvIn.orF (FvIn.notF hv) h2) (FvIn.orF (FvIn.notF h2) hv)
  | expr e =>
    simp only [mkDef] at h
    split_ifs at h with hb
    simp only [Outcome.ok.injEq] at h
    subst h
    exact ⟨fun P h1 h2 => FvIn.rel' (by simpa [Expr.vars] using h1) h2,
      fun I ρ => by simp [toVal, hb, valT, relSem, eval],
      fun Q h => her_mkRel (by simp [HerE]) ((tq_iff _).mp h)⟩

theorem step_define0 {d d1 : Drv} {n : String} {s : Srt} {body : STerm} (hi : Inv B d)
    (h : step use d (.define n [] s body) = .ok d1) (ht : Tame body) :
    ∃ new, StepSpec use B d d1 (.define n [] s body) B new := by
  simp only [step, declareParams] at h
  obtain ⟨⟨x, d2⟩, h1, h⟩ := bindO_ok h
  obtain ⟨d3, h3, h⟩ := bindO_ok h
  simp only [List.isEmpty_nil, if_true] at h
  obtain ⟨f, hf, h⟩ := bindO_ok h
  simp only [Outcome.ok.injEq] at h
  subst h
  have o := opened_push hi
  obtain ⟨new, p⟩ := tr_post body o.inv h1
  have o2 := o.post p
  obtain ⟨c1, c2, c3, c4⟩ := o2.close h3
  obtain ⟨ts, tf, r1, r2⟩ := hi.mrel
  have sm : d3.scope.map = d.scope.map := by rw [(c3 ts r1).1, r1.1]
  have fm : d3.funs.map = d.funs.map := by rw [(c4 tf r2).1, r2.1]
  have lo := o2.lt
  have hi3 : Inv B d3 := hi.congr sm fm (by omega) ⟨ts, tf, c3 ts r1, c4 tf r2⟩
  set v : Variable := ⟨d3.next, s.toType⟩ with hv
  have hfv : mkDef v x = .ok f := hf
  obtain ⟨df, dv, dq⟩ := mkDef_spec hfv
  have xlow : ∀ w ∈ x.fv, w.id < d3.next := by
    intro w hw
    rcases p.free x (by simp) w hw with h | h
    · have := (hi.glob w h).1; omega
    · have := h.2; omega
  set d4 := ((d3.declare use n s).2.call use (.assert f)) with hd4
  have hs4 : d4.scope = d3.scope.insert n v := rfl
  have hf4 : d4.funs = d3.funs := rfl
  have hn4 : d3.next < d4.next := by
    simp only [hd4, Drv.declare, Drv.register, Drv.call]; omega
  have hl4 : d4.log = d.log ++ (new ++ [.newVar s.toType, .declare v true, .assert f]) := by
    simp only [hd4, Drv.declare, Drv.register, Drv.call, c1, hv]; simp
  have hmv : modelVars (new ++ [.newVar s.toType, .declare v true, .assert f]) = [v] := by
    simp [modelVars_append, modelVars_quiet p.quiet, modelVars]
  have pc : d2.next = count use d.log d.next new := p.cnt
  have pl : d2.log = d.log ++ new := p.log
  have c1' : d3.log = d2.log := by rw [c1, pl]; simp
  have pq : ∀ c ∈ new, Quiet d3.next c := fun c hc => by rw [c2]; exact p.quiet c hc
  refine ⟨new ++ [.newVar s.toType, .declare v true, .assert f], hi3.fresh hs4 hf4 hn4, by omega, hl4,
    ?_, ?_, ?_, ?_, ?_, fun w hw => ?_, fun I ρ E F m =>
    ⟨_, F, match_fresh hs4 hf4 (m.maps sm fm), fun cs xs' => by
      rw [hmv]; simp [namesOf, sortType_eq, hv]⟩⟩
  · intro k hk
    rcases List.mem_append.mp hk with hk | hk
    · exact (pq k hk).low.mono (by omega)
    · simp only [List.mem_cons, List.not_mem_nil, or_false] at hk
      rcases hk with rfl | rfl | rfl
      · trivial
      · exact hn4
      · exact df _ hn4 fun w hw => lt_trans (xlow w hw) hn4
  · intro I ρ E F m cs xs hsc
    simp only [holdsScript, sortType_eq] at hsc
    obtain ⟨x0, xs', rfl, ty, tv, rest⟩ := hsc
    obtain ⟨ρ0, e0, k0⟩ := p.ex I ρ
    have m0 := m.low hi e0
    have sem := p.sem ht I ρ0 E F (m0.maps rfl rfl) k0
    simp only [List.map_cons, List.map_nil, List.cons.injEq, and_true] at sem
    set ρ1 : Valuation := fun w => if w = v then x0 else ρ0 w with hρ1
    have low1 : ∀ w : Variable, w.id < d3.next → ρ1 w = ρ0 w := fun w hw => set_low w hw
    have same : valT I ρ1 x = valT I ρ0 x := valT_congr fun w hw => low1 w (xlow w hw)
    have v1 : ρ1 v = x0 := by simp [hρ1]
    refine ⟨ρ1, xs', _, F, fun w hw => ?_, fun k hk => ?_, ?_, ?_, rest⟩
    · rw [low1 w (by omega), e0 w hw]
    · rcases List.mem_append.mp hk with hk | hk
      · exact ((pq k hk).holds low1).mpr (k0 k hk)
      · simp only [List.mem_cons, List.not_mem_nil, or_false] at hk
        rcases hk with rfl | rfl | rfl
        · trivial
        · simpa [CmdHolds, v1] using ty
        · simp only [CmdHolds]
          rw [dv I ρ1, v1, same, sem]
          exact tv
    · rw [hmv]; simp [v1]
    · have m3 : Match I d3 ρ1 E F := (m0.maps sm fm).low hi3 low1
      have := match_fresh hs4 hf4 m3
      rw [← hv, v1] at this
      exact this
  · intro I ρ E F m k
    have sem := p.sem ht I ρ E F (m.maps rfl rfl) fun c hc => k c (by simp [hc])
    simp only [List.map_cons, List.map_nil, List.cons.injEq, and_true] at sem
    refine ⟨_, F, match_fresh hs4 hf4 (m.maps sm fm), fun cs xs' hsc => ?_⟩
    rw [hmv]
    simp only [List.map_cons, List.map_nil, List.cons_append, List.nil_append, holdsScript, sortType_eq]
    refine ⟨ρ v, xs', rfl, ?_, ?_, hsc⟩
    · exact k (.declare v true) (by simp)
    · have : holds I ρ f := k (.assert f) (by simp)
      rw [dv I ρ] at this
      rw [← sem]; exact this
  · rw [count_append, ← pc, ← pl, ← c2, ← c1']
    simp [hd4, Drv.declare, Drv.register, Drv.call, count, hv]
  · intro G hG
    obtain ⟨a1, a2⟩ := p.ord ht G fun v hv => hG v hv
    refine ⟨(ordered_append _ _).mpr ⟨a1, ?_⟩, fun w hw => ?_⟩
    · rw [← pc, ← pl, ← c2]
      refine ⟨trivial, ⟨rfl, by simp [hv]⟩, ⟨df _ (.inr rfl) fun w hw => .inl (a2 x (by simp) w hw), ?_⟩,
        trivial⟩
      refine old_of f (df _ ?_ fun w hw => ?_) (dq _ ((p.bnd x (by simp)).mono fun vs _ k w hw => ?_))
      · simp only [count, hv]; omega
      · have := xlow w hw
        simp only [count]; omega
      · simp only [count]
        rcases k w hw with h | h
        · have := hi.bnd w h
          omega
        · have := h.2; omega
    · rw [declIn_append]
      rcases glob_fresh hs4 hf4 hw with rfl | h
      · exact .inr (.inr ⟨true, by simp [hv]⟩)
      · exact .inl (hG w ((Glob.congr sm fm).mp h))
  · rcases glob_fresh hs4 hf4 hw with rfl | h
    · exact .inr (by simp [hv])
    · exact .inl ((Glob.congr sm fm).mp h)

theorem bindV_map {ρ : Valuation} : ∀ {vs : List Variable} {args : List SVal},
    List.Forall₂ (fun p a => KindOk p.type a) vs args → vs.Nodup →
    vs.map (fun v => toVal v.type (bindV ρ vs args v)) = args
  | [], [], _, _ => rfl
  | v :: vs, a :: as, .cons h hs, nd => by
    obtain ⟨n1, n2⟩ := List.nodup_cons.mp nd
    simp only [List.map_cons, bindV, if_true, List.cons.injEq]
    refine ⟨toVal_toNum h, ?_⟩
    rw [← bindV_map hs n2 (ρ := ρ)]
    refine List.map_congr_left fun w hw => ?_
    have : w ≠ v := by rintro rfl; exact n1 hw
    simp only [this, if_false]
    rw [bindV_map hs n2]

theorem fits_of_kinds : ∀ {ps : List (String × Srt)} {vs : List Variable} {args : List SVal},
    vs.map Variable.type = ps.map (fun p => p.2.toType) →
    List.Forall₂ (fun p a => KindOk p.type a) vs args → fits ps args = true
  | [], [], [], _, _ => rfl
  | [], _ :: _, _, h, _ => by simp at h
  | _ :: _, [], _, h, _ => by simp at h
  | (n, s) :: ps, v :: vs, a :: as, h, .cons k ks => by
    simp only [List.map_cons, List.cons.injEq] at h
    have ih := fits_of_kinds h.2 ks
    rw [h.1] at k
    cases s <;> cases a <;> simp [KindOk, Srt.toType] at k <;> simp [fits, ih]

theorem step_define {d d1 : Drv} {n : String} {q : String × Srt} {ps : List (String × Srt)} {s : Srt}
    {body : STerm} (hi : Inv B d) (h : step use d (.define n (q :: ps) s body) = .ok d1)
    (hl : LetFree body) (ht : Tame body) :
    ∃ B1 new, StepSpec use B d d1 (.define n (q :: ps) s body) B1 new := by
  simp only [step] at h
  cases hd : declareParams use (q :: ps) d.pushScope with
  | mk vs d2 =>
  rw [hd] at h
  obtain ⟨⟨x, d3⟩, h1, h⟩ := bindO_ok h
  obtain ⟨d4, h4, h⟩ := bindO_ok h
  have o := opened_push hi
  obtain ⟨newp, o2, q2, ty, fr, l2, nd, gl, mt, ct, orp, dp⟩ := declareParams_spec hd o
  have hne : vs.isEmpty = false := by
    cases vs with
    | nil => simp at ty
    | cons _ _ => rfl
  simp only [hne, Bool.false_eq_true, if_false, Outcome.ok.injEq] at h
  obtain ⟨new, p⟩ := tr_post body o2.inv h1
  have o3 := o2.post p
  obtain ⟨c1, c2, c3, c4⟩ := o3.close h4
  obtain ⟨ts, tf, r1, r2⟩ := hi.mrel
  have sm : d4.scope.map = d.scope.map := by rw [(c3 ts r1).1, r1.1]
  have fm : d4.funs.map = d.funs.map := by rw [(c4 tf r2).1, r2.1]
  have lo := o2.lt
  have lp := p.lt
  obtain ⟨pu1, pu2⟩ := p.pure hl ht
  have xfv : ∀ w ∈ x.fv, w ∉ vs → Glob d w := by
    intro w hw hn
    rcases gl w (pu2 x (by simp) w hw) with h | h
    · exact absurd h hn
    · exact h
  have d5s : d1.scope = d4.scope := by rw [← h]
  have d5n : d1.next = d4.next := by rw [← h]
  have d5l : d1.log = d4.log := by rw [← h]
  have d5f : d1.funs.map = fun m => if m = n then some ⟨vs, s, x⟩ else d.funs.map m := by
    rw [← h]
    simp only [insert_map, fm]
    rfl
  have g5 : ∀ v, Glob d1 v → Glob d v := by
    rintro v (⟨m, hm⟩ | ⟨m, fd, hm, hb, hp⟩)
    · rw [d5s, sm] at hm; exact .inl ⟨m, hm⟩
    · rw [d5f] at hm
      simp only at hm
      split_ifs at hm
      · simp only [Option.some.injEq] at hm
        subst hm
        exact xfv v hb hp
      · exact .inr ⟨m, fd, hm, hb, hp⟩
  have vsn : ∀ v ∈ vs, d.next ≤ v.id ∧ v.id < d2.next := fun v hv => fr v hv
  have e1 : d2.next = count use d.log d.next newp := ct
  have e2 : d2.log = d.log ++ newp := by simpa using o2.log
  have hmv : modelVars ([] ++ newp ++ new) = [] := modelVars_quiet o3.quiet
  refine ⟨fun v => B v ∨ New d2 d3 v, [] ++ newp ++ new, ⟨?_, ?_, ?_, ?_, ?_, ?_⟩, ?_, ?_, ?_, ?_, ?_,
    ?_, ?_, fun v hv => .inl (g5 v hv), ?_⟩
  · intro v hv
    have := hi.glob v (g5 v hv)
    refine ⟨by omega, ?_⟩
    rintro (h | h)
    · exact this.2 h
    · have := h.1; omega
  · rintro v (hv | hv)
    · have := hi.bnd v hv; omega
    · have := hv.2; omega
  · intro m fd hm
    rw [d5f] at hm
    simp only at hm
    split_ifs at hm
    · simp only [Option.some.injEq] at hm
      subst hm
      exact p.sorted x (by simp)
    · exact hi.sorted m fd hm
  · intro m fd hm u hu
    rw [d5f] at hm
    simp only at hm
    split_ifs at hm
    · simp only [Option.some.injEq] at hm
      subst hm
      have hu' := vsn u hu
      refine ⟨by omega, fun hg => ?_, ?_⟩
      · have := (hi.glob u (g5 u hg)).1; omega
      · rintro (hb | hb)
        · have := hi.bnd u hb; omega
        · have := hb.1; omega
    · obtain ⟨a, b, c⟩ := hi.params m fd hm u hu
      refine ⟨by omega, fun hg => b (g5 u hg), ?_⟩
      rintro (hb | hb)
      · exact c hb
      · have := hb.1; omega
  · intro m fd hm
    rw [d5f] at hm
    simp only at hm
    split_ifs at hm
    · simp only [Option.some.injEq] at hm
      subst hm
      exact p.bnd x (by simp)
    · exact (hi.quant m fd hm).mono fun vs _ k v hv => .inl (k v hv)
  · exact ⟨ts, _, by rw [d5s]; exact c3 ts r1, by rw [← h]; exact mrel_insert (c4 tf r2) _ _⟩
  · omega
  · rw [d5l]; exact c1
  · intro k hk
    rw [d5n, c2]
    exact (o3.quiet k hk).low
  rotate_left 2
  · rw [d5n, c2, p.cnt, List.nil_append, count_append, ← e1, ← e2]
  · intro G hG
    obtain ⟨a1, _⟩ := p.ord ht (fun v => G v ∨ DeclIn newp v) fun v hv => by
      rcases gl v hv with h | h
      · exact .inr (dp v h)
      · exact .inl (hG v h)
    refine ⟨?_, fun v hv => .inl (hG v (g5 v hv))⟩
    rw [List.nil_append]
    refine (ordered_append _ _).mpr ⟨orp G, ?_⟩
    rw [← e1, ← e2]
    exact a1
  all_goals
    have mat : ∀ I ρ E F, Match I d ρ E F → Match I d1 ρ E (F.define I E n (q :: ps) body) := by
      intro I ρ E F m
      refine ⟨by rw [d5s, sm]; exact m.names, fun k fd hk args ha => ?_⟩
      rw [d5f] at hk
      simp only at hk
      unfold Funs.define
      split_ifs at hk with hkn
      · simp only [Option.some.injEq] at hk
        subst hk
        simp only at ha
        rw [if_pos hkn, if_pos (fits_of_kinds ty ha)]
        have mm : Match I d (bindV ρ vs args) E F := m.congr fun v hv => bindV_out fun hm => by
          have := (vsn v hm).1
          have := (hi.glob v hv).1
          omega
        have m2 := mt I _ E F (mm.maps rfl rfl)
        rw [bindV_map ha nd] at m2
        have := p.sem ht I _ _ F m2 fun c hc => by
          obtain ⟨t, rfl⟩ := pu1 c hc
          trivial
        simp only [List.map_cons, List.map_nil, List.cons.injEq, and_true] at this
        exact this.symm
      · rw [if_neg hkn]
        exact m.funs k fd hk args ha
  · intro I ρ E F m
    exact ⟨E, _, mat I ρ E F m, fun cs xs' => by rw [hmv]; simp [namesOf]⟩
  · intro I ρ E F m cs xs hsc
    simp only [holdsScript, sortType_eq] at hsc
    obtain ⟨ρ1, e1, k1⟩ := o3.ex I ρ
    exact ⟨ρ1, xs, E, _, e1, k1, by rw [hmv]; simp, mat I ρ1 E F (m.low hi e1), hsc⟩
  · intro I ρ E F m k
    refine ⟨E, _, mat I ρ E F m, fun cs xs' hsc => ?_⟩
    rw [hmv]
    simpa [holdsScript] using hsc

theorem run_spec : ∀ (cs : List SCmd) {B : Variable → Prop} {d d' : Drv}, Inv B d →
    run use cs d = .ok d' → TameScript cs →
    ∃ new, d'.log = d.log ++ new ∧ (∃ B', Inv B' d') ∧ d'.next = count use d.log d.next new ∧
      (∀ G : Variable → Prop, (∀ v, Glob d v → G v) → Ordered use G d.log d.next new) ∧
      ∀ I ρ E F, Match I d ρ E F → ∀ xs,
      (holdsScript I E F cs xs ↔ ∃ ρ' : Valuation, (∀ v : Variable, v.id < d.next → ρ' v = ρ v) ∧
        (∀ c ∈ new, CmdHolds I ρ' c) ∧ xs = (modelVars new).map ρ')
  | [], B, d, d', hi, h, _ => by
    simp only [run, Outcome.ok.injEq] at h
    subst h
    refine ⟨[], by simp, ⟨B, hi⟩, rfl, fun _ _ => trivial, fun I ρ E F m xs => ?_⟩
    simp only [holdsScript, modelVars, List.map_nil]
    constructor
    · intro h; exact ⟨ρ, fun _ _ => rfl, by simp, h⟩
    · rintro ⟨_, _, _, h⟩; exact h
  | c :: cs, B, d, d', hi, h, ht => by
    simp only [run] at h
    obtain ⟨d1, h1, h⟩ := bindO_ok h
    obtain ⟨B1, new1, sp, ht'⟩ : ∃ B1 new1, StepSpec use B d d1 c B1 new1 ∧ TameScript cs := by
      cases c with
      | declare n s dom =>
        obtain ⟨new, sp⟩ := step_declare hi h1
        exact ⟨B, new, sp, by simpa [TameScript] using ht⟩
      | define n ps s body =>
        cases ps with
        | nil =>
          simp only [TameScript] at ht
          obtain ⟨new, sp⟩ := step_define0 hi h1 ht.1
          exact ⟨B, new, sp, ht.2⟩
        | cons q ps =>
          simp only [TameScript] at ht
          obtain ⟨B1, new, sp⟩ := step_define hi h1 ht.1 ht.2.1
          exact ⟨B1, new, sp, ht.2.2⟩
      | assert t =>
        simp only [TameScript] at ht
        obtain ⟨new, sp⟩ := step_assert hi h1 ht.1
        exact ⟨B, new, sp, ht.2⟩
      | check =>
        simp only [step, Outcome.ok.injEq] at h1
        subst h1
        exact ⟨B, _, step_check hi, by simpa [TameScript] using ht⟩
      | push n => simp [TameScript] at ht
      | pop n => simp [TameScript] at ht
    obtain ⟨new2, hl2, hi2, hc2, ho2, ih⟩ := run_spec cs sp.inv h ht'
    refine ⟨new1 ++ new2, by rw [hl2, sp.log, List.append_assoc], hi2,
      by rw [hc2, count_append, ← sp.cnt, ← sp.log], fun G hG => ?_, fun I ρ E F m xs => ?_⟩
    · obtain ⟨a1, a2⟩ := sp.ord G hG
      refine (ordered_append _ _).mpr ⟨a1, ?_⟩
      rw [← sp.cnt, ← sp.log]
      exact ho2 _ a2
    have l1 := sp.lt
    constructor
    · intro hs
      obtain ⟨ρ1, xs', E1, F1, e1, k1, rfl, m1, hs'⟩ := sp.fwd I ρ E F m cs xs hs
      obtain ⟨ρ2, e2, k2, rfl⟩ := (ih I ρ1 E1 F1 m1 xs').mp hs'
      refine ⟨ρ2, fun v hv => by rw [e2 v (by omega), e1 v hv], fun c hc => ?_, ?_⟩
      · rcases List.mem_append.mp hc with hc | hc
        · exact ((sp.low c hc).holds e2).mpr (k1 c hc)
        · exact k2 c hc
      · rw [modelVars_append, List.map_append]
        congr 1
        exact List.map_congr_left fun v hv => (e2 v (modelVars_low sp.low v hv)).symm
    · rintro ⟨ρ', e, k, rfl⟩
      have m' := m.low hi e
      obtain ⟨E1, F1, m1, hb⟩ := sp.bwd I ρ' E F m' fun c hc => k c (by simp [hc])
      rw [modelVars_append, List.map_append]
      refine hb cs _ ((ih I ρ' E1 F1 m1 _).mpr ⟨ρ', fun _ _ => rfl, fun c hc => k c (by simp [hc]), rfl⟩)

theorem inv_init : Inv (fun _ => False) ({} : Drv) := by
  refine ⟨?_, by simp, ?_, ?_, ?_, ⟨⟨fun _ => none, []⟩, ⟨fun _ => none, []⟩, ⟨rfl, by simp [MSegs]⟩,
    ⟨rfl, by simp [MSegs]⟩⟩⟩
  · rintro v (⟨n, h⟩ | ⟨n, fd, h, _⟩) <;> simp at h
  all_goals intro n fd h; simp at h

end Verif.Proof.Smt2
