import Verif.Proof.DrTr
import Verif.Proof.Script

/-! # The calls of the `dr` front end and the problem they pose -/

namespace Verif.Proof.Dr
open Verif Verif.Model Verif.Model.Dr Verif.Spec Verif.Spec.Dr Verif.Proof

/-- The calls for declarations, the first variable having number `n`. -/
def declCmds : Nat → List DDecl → List Cmd
  | _, [] => []
  | n, d :: ds => .newVar .continuous :: .declare ⟨n, .continuous⟩ true ::
      .setInterval ⟨n, .continuous⟩ d.lo d.hi :: declCmds (n + 1) ds

theorem fold_log : ∀ (ds : List DDecl) (s : DState),
    (ds.foldl DState.declare s).log = s.log ++ declCmds s.next ds
  | [], s => by simp [declCmds]
  | d :: ds, s => by
    rw [List.foldl_cons, fold_log ds]
    simp [DState.declare, declCmds]

theorem insert_map {s : ScopedMap String Variable} {n m : String} {v : Variable} :
    (s.insert n v).map m = if m = n then some v else s.map m := by
  unfold ScopedMap.insert
  split <;> rfl

/-- What a name means after declarations. -/
theorem fold_scope : ∀ (ds : List DDecl) (s : DState) {m v},
    (ds.foldl DState.declare s).scope.map m = some v → s.scope.map m = some v ∨
      ∃ i d, ds[i]? = some d ∧ m = d.name ∧ v = ⟨s.next + i, .continuous⟩
  | [], s, m, v, h => .inl h
  | d :: ds, s, m, v, h => by
    rcases fold_scope ds _ h with h | ⟨i, d', h1, h2, h3⟩
    · simp only [DState.declare, insert_map] at h
      split_ifs at h with hm
      · simp only [Option.some.injEq] at h
        exact .inr ⟨0, d, rfl, hm, by rw [← h]; rfl⟩
      · exact .inl h
    · refine .inr ⟨i + 1, d', by simpa using h1, h2, ?_⟩
      rw [h3]; simp [DState.declare]; omega

theorem fold_other : ∀ (ds : List DDecl) (s : DState) {m}, m ∉ ds.map DDecl.name →
    (ds.foldl DState.declare s).scope.map m = s.scope.map m
  | [], _, _, _ => rfl
  | d :: ds, s, m, h => by
    simp only [List.map_cons, List.mem_cons, not_or] at h
    rw [List.foldl_cons, fold_other ds _ h.2]
    simp [DState.declare, insert_map, h.1]

theorem fold_name : ∀ (ds : List DDecl) (s : DState), (ds.map DDecl.name).Nodup → ∀ i d,
    ds[i]? = some d →
    (ds.foldl DState.declare s).scope.map d.name = some ⟨s.next + i, .continuous⟩
  | [], _, _, i, d, h => by simp at h
  | e :: ds, s, hn, i, d, h => by
    simp only [List.map_cons, List.nodup_cons] at hn
    cases i with
    | zero =>
      simp only [List.getElem?_cons_zero, Option.some.injEq] at h
      subst h
      rw [List.foldl_cons, fold_other ds _ hn.1]
      simp [DState.declare, insert_map]
    | succ i =>
      simp only [List.getElem?_cons_succ] at h
      rw [List.foldl_cons, fold_name ds _ hn.2 i d h]
      simp [DState.declare]; omega

/-- Every declared name means something. -/
theorem fold_known : ∀ (ds : List DDecl) (s : DState) {m}, (m ∈ ds.map DDecl.name ∨
    ∃ v, s.scope.map m = some v) → ∃ v, (ds.foldl DState.declare s).scope.map m = some v
  | [], s, m, h => by simpa using h
  | d :: ds, s, m, h => by
    rw [List.foldl_cons]
    refine fold_known ds _ ?_
    simp only [List.map_cons, List.mem_cons] at h
    by_cases hm : m = d.name
    · exact .inr ⟨_, by simp [DState.declare, insert_map, hm]; rfl⟩
    · rcases h with (h | h) | ⟨v, h⟩
      · exact absurd h hm
      · exact .inl h
      · exact .inr ⟨v, by simp [DState.declare, insert_map, hm, h]⟩

theorem trAll_mem {α β : Type} {t : α → Outcome β} : ∀ {as : List α} {bs : List β},
    trAll t as = .ok bs → (∀ a ∈ as, ∃ b ∈ bs, t a = .ok b) ∧ ∀ b ∈ bs, ∃ a ∈ as, t a = .ok b
  | [], bs, h => by simp only [trAll, Outcome.ok.injEq] at h; subst h; simp
  | a :: as, bs, h => by
    obtain ⟨x, h1, h⟩ := bindO_ok h
    obtain ⟨xs, h2, h⟩ := bindO_ok h
    simp only [Outcome.ok.injEq] at h; subst h
    obtain ⟨i1, i2⟩ := trAll_mem h2
    constructor
    · intro a' ha
      rcases List.mem_cons.mp ha with rfl | ha
      · exact ⟨x, by simp, h1⟩
      · obtain ⟨b, hb, e⟩ := i1 a' ha
        exact ⟨b, by simp [hb], e⟩
    · intro b hb
      rcases List.mem_cons.mp hb with rfl | hb
      · exact ⟨a, by simp, h1⟩
      · obtain ⟨a', ha, e⟩ := i2 b hb
        exact ⟨a', by simp [ha], e⟩

theorem trAll_nil {α β : Type} {t : α → Outcome β} {as : List α} {bs : List β}
    (h : trAll t as = .ok bs) : bs = [] ↔ as = [] := by
  cases as with
  | nil => simp only [trAll, Outcome.ok.injEq] at h; simp [← h]
  | cons a as =>
    obtain ⟨x, h1, h⟩ := bindO_ok h
    obtain ⟨xs, h2, h⟩ := bindO_ok h
    simp only [Outcome.ok.injEq] at h; subst h; simp

/-! ## Running the calls -/

/-- What the calls need besides `Books.Uses`. -/
def Extra (PA : Fml → Prop) (k : Books) : Cmd → Prop
  | .newVar _ => True
  | .declare _ _ => k.top.asserted = []
  | .setInterval v _ _ => v.type = .continuous ∧ k.top.asserted = []
  | .assert f => PA f
  | _ => False

/-- A kind of history that has such calls. -/
def Closed (cfg : CCfg) (R : Books → Ctx → Prop) (PA : Fml → Prop) : Prop :=
  ∀ {k c cmd a c'}, R k c → k.Uses c.sat.abs.next cmd → Extra PA k cmd →
    stepCmd cfg c cmd = .ok (a, c') → R (k.step c.sat.abs.next cmd) c'

theorem declare_next {c : Ctx} {v m} : (declare c v m).sat.abs.next = c.sat.abs.next := by
  unfold declare
  split <;> simp [Ctx.setBox]

theorem setInterval_next {c c' : Ctx} {v l u} (h : setInterval c v l u = .ok c') :
    c'.sat.abs.next = c.sat.abs.next := by
  unfold setInterval at h
  split at h
  · simp only [Outcome.ok.injEq] at h
    rw [← h]; simp [Ctx.setBox]
  · cases h

/-- One declaration, step by step. -/
theorem run_decl {cfg n d ds cs c r} (hn : c.sat.abs.next = n)
    (h : runCmds cfg c (declCmds n (d :: ds) ++ cs) = .ok r) :
    ∃ a1 a2 a3 c1 c2 c3 q, stepCmd cfg c (.newVar .continuous) = .ok (a1, c1) ∧
      c1.sat.abs.next = n + 1 ∧
      stepCmd cfg c1 (.declare ⟨n, .continuous⟩ true) = .ok (a2, c2) ∧ c2.sat.abs.next = n + 1 ∧
      stepCmd cfg c2 (.setInterval ⟨n, .continuous⟩ d.lo d.hi) = .ok (a3, c3) ∧
      c3.sat.abs.next = n + 1 ∧ runCmds cfg c3 (declCmds (n + 1) ds ++ cs) = .ok q ∧ q.2 = r.2 := by
  simp only [declCmds, List.cons_append] at h
  obtain ⟨a1, c1, q1, h1, h2, e1⟩ := runCmds_cons h
  obtain ⟨a2, c2, q2, h3, h4, e2⟩ := runCmds_cons h2
  obtain ⟨a3, c3, q3, h5, h6, e3⟩ := runCmds_cons h4
  have n1 : c1.sat.abs.next = n + 1 := by
    simp only [stepCmd, Run.ok.injEq, Prod.mk.injEq] at h1
    rw [← h1.2]; simp [hn]
  have n2 : c2.sat.abs.next = n + 1 := by
    simp only [stepCmd, Run.ok.injEq, Prod.mk.injEq] at h3
    rw [← h3.2, declare_next, n1]
  have n3 : c3.sat.abs.next = n + 1 := by
    have h5' := h5
    simp only [stepCmd] at h5'
    obtain ⟨c', h7, h8⟩ := bindR_ok h5'
    simp only [Run.ok.injEq, Prod.mk.injEq] at h8
    rw [← h8.2, setInterval_next (lift_ok h7), n2]
  refine ⟨a1, a2, a3, c1, c2, c3, q3, h1, n1, h3, n2, h5, n3, h6, ?_⟩
  rw [e1, e2, e3]

theorem run_decls {cfg : CCfg} {R : Books → Ctx → Prop} {PA : Fml → Prop} (hR : Closed cfg R PA) :
    ∀ (ds : List DDecl) {n k c cs r}, R k c → c.sat.abs.next = n → ¬ k.built →
    k.top.asserted = [] → (∀ v ∈ k.used, v.id < n) → (∀ p ∈ k.top.dom, p.1.id < n) →
    runCmds cfg c (declCmds n ds ++ cs) = .ok r →
    ∃ k' c' q, R k' c' ∧ c'.sat.abs.next = n + ds.length ∧ ¬ k'.built ∧ k'.top.asserted = [] ∧
      runCmds cfg c' cs = .ok q ∧ q.2 = r.2 ∧
      ∀ p, p ∈ k'.top.dom ↔ p ∈ k.top.dom ∨
        ∃ i d, ds[i]? = some d ∧ p = (⟨n + i, .continuous⟩, ⟨d.lo, d.hi⟩)
  | [], n, k, c, cs, r, h, hn, hb, ha, _, _, hr =>
    ⟨k, c, r, h, by simpa using hn, hb, ha, hr, rfl, by simp⟩
  | d :: ds, n, k, c, cs, r, h, hn, hb, ha, hu, hd, hr => by
    obtain ⟨a1, a2, a3, c1, c2, c3, q, s1, n1, s2, n2, s3, n3, hr', he⟩ := run_decl hn hr
    have g1 := @hR _ _ (.newVar .continuous) _ _ h trivial trivial s1
    rw [hn] at g1
    set k1 := k.step n (.newVar .continuous) with hk1
    have t1 : k1.top = k.top := rfl
    have hnd : ∀ iv, ((⟨n, .continuous⟩ : Variable), iv) ∉ k.top.dom := fun iv hm =>
      absurd (hd _ hm) (lt_irrefl _)
    have hnm : (⟨n, .continuous⟩ : Variable) ∉ k1.top.dom.map Prod.fst := by
      rw [t1]; intro hm
      obtain ⟨⟨w, iv⟩, hm', hw⟩ := List.mem_map.mp hm
      simp only at hw; subst hw
      exact hnd iv hm'
    have g2 := @hR _ _ (.declare ⟨n, .continuous⟩ true) _ _ g1 ⟨by simp [hk1, Books.step],
      .inr ⟨fun hv => absurd (hu _ hv) (lt_irrefl _), hb⟩⟩ ha s2
    rw [n1] at g2
    set k2 := k1.step (n + 1) (.declare ⟨n, .continuous⟩ true) with hk2
    have t2 : k2.top = { k.top with dom := (⟨n, .continuous⟩, newItv .continuous) :: k.top.dom } := by
      rw [hk2]
      simp only [Books.step, if_neg hnm]; rfl
    have g3 := @hR _ _ (.setInterval ⟨n, .continuous⟩ d.lo d.hi) _ _ g2
      ⟨⟨newItv .continuous, by rw [t2]; simp⟩, .inl (by rw [t2]; exact ha)⟩
      ⟨rfl, by rw [t2]; exact ha⟩ s3
    rw [n2] at g3
    set k3 := k2.step (n + 1) (.setInterval ⟨n, .continuous⟩ d.lo d.hi) with hk3
    have t3 : k3.top = { k.top with
        dom := (⟨n, .continuous⟩, ⟨d.lo, d.hi⟩) :: k.top.dom } := by
      have : k3.top = { k2.top with dom := k2.top.dom.map fun p =>
        if p.1 = ⟨n, .continuous⟩ then (⟨n, .continuous⟩, ⟨d.lo, d.hi⟩) else p } := rfl
      rw [this, t2]
      simp only [List.map_cons, if_true]
      congr 2
      conv_rhs => rw [← List.map_id k.top.dom]
      refine List.map_congr_left fun p hp => ?_
      rw [if_neg]
      · rfl
      · intro hp'
        have := hd p hp
        rw [hp'] at this
        exact absurd this (lt_irrefl _)
    obtain ⟨k', c', q', e1, e2, e3, e4, e5, e6, e7⟩ := run_decls hR ds (k := k3) g3 n3 hb
      (by rw [t3]; exact ha)
      (fun v hv => by
        rcases List.mem_cons.mp hv with rfl | hv
        · exact Nat.lt_succ_self n
        · exact Nat.lt_succ_of_lt (hu v hv))
      (fun p hp => by
        rw [t3] at hp
        rcases List.mem_cons.mp hp with rfl | hp
        · exact Nat.lt_succ_self n
        · exact Nat.lt_succ_of_lt (hd p hp)) hr'
    refine ⟨k', c', q', e1, by rw [e2]; simp; omega, e3, e4, e5, e6.trans he, fun p => ?_⟩
    rw [e7, t3]
    simp only [List.mem_cons]
    constructor
    · rintro ((rfl | h) | ⟨i, d', h1, rfl⟩)
      · exact .inr ⟨0, d, rfl, rfl⟩
      · exact .inl h
      · exact .inr ⟨i + 1, d', by simpa using h1, by rw [Nat.add_assoc, Nat.add_comm 1 i]⟩
    · rintro (h | ⟨i, d', h1, rfl⟩)
      · exact .inl (.inr h)
      · cases i with
        | zero =>
          simp only [List.getElem?_cons_zero, Option.some.injEq] at h1
          subst h1; exact .inl (.inl rfl)
        | succ i =>
          refine .inr ⟨i, d', by simpa using h1, by rw [Nat.add_assoc, Nat.add_comm 1 i]⟩

theorem run_asserts {cfg : CCfg} {R : Books → Ctx → Prop} {PA : Fml → Prop} (hR : Closed cfg R PA) :
    ∀ (fs : List Fml) {n k c r}, R k c → n ≤ c.sat.abs.next → ¬ k.built →
    (∀ f ∈ fs, WfF k.top.Declared f ∧ Old n f ∧ PA f) →
    runCmds cfg c (fs.map .assert) = .ok r →
    ∃ k', R k' r.2 ∧ k'.top.dom = k.top.dom ∧
      ∀ f, f ∈ k'.top.asserted ↔ f ∈ k.top.asserted ∨ f ∈ fs
  | [], n, k, c, r, h, hn, hb, hf, hr => by
    simp only [List.map_nil, runCmds, Run.ok.injEq] at hr
    subst hr
    exact ⟨k, h, rfl, by simp⟩
  | f :: fs, n, k, c, r, h, hn, hb, hf, hr => by
    simp only [List.map_cons] at hr
    obtain ⟨a, c1, q, h1, h2, e⟩ := runCmds_cons hr
    obtain ⟨w1, w2, w3⟩ := hf f (by simp)
    have g := @hR _ _ (.assert f) _ _ h ⟨w1, Old.mono hn w2, fun hb' => absurd hb' hb⟩ w3 h1
    have hn' := (Smt2.stepCmd_next (fun g hg => by
      simp only [Cmd.assert.injEq] at hg; subst hg; exact Old.mono hn w2) (by simp) h1).1
    obtain ⟨k', e1, e2, e3⟩ := run_asserts hR fs g (le_trans hn hn') hb
      (fun g hg => hf g (by simp [hg])) h2
    refine ⟨k', by rw [e]; exact e1, e2, fun g => ?_⟩
    rw [e3]
    have : ∀ n, (k.step n (.assert f)).top.asserted = f :: k.top.asserted := fun _ => rfl
    rw [this]
    simp only [List.mem_cons]; tauto

theorem reach_decls {cfg : CCfg} : ∀ (ds : List DDecl) {n u c cs r}, Reach cfg u c →
    c.sat.abs.next = n → u.gone = [] → (∃ l, u.scopes = [l]) →
    runCmds cfg c (declCmds n ds ++ cs) = .ok r →
    ∃ u' c' q, Reach cfg u' c' ∧ c'.sat.abs.next = n + ds.length ∧ u'.gone = [] ∧
      runCmds cfg c' cs = .ok q ∧ q.2 = r.2 ∧
      ∀ v, v ∈ u'.scopes.flatten ↔ v ∈ u.scopes.flatten ∨ ∃ i < ds.length, v = ⟨n + i, .continuous⟩
  | [], n, u, c, cs, r, h, hn, hg, hl, hr =>
    ⟨u, c, r, h, by simpa using hn, hg, hr, rfl, by simp⟩
  | d :: ds, n, u, c, cs, r, h, hn, hg, ⟨l, hl⟩, hr => by
    obtain ⟨a1, a2, a3, c1, c2, c3, q, s1, n1, s2, n2, s3, n3, hr', he⟩ := run_decl hn hr
    have g1 := Reach.step h (by trivial : u.Uses _ (.newVar .continuous)) s1
    rw [hn] at g1
    have g2 := Reach.step g1 (by simp [User.step, User.Uses] :
      User.Uses (u.step n (.newVar .continuous)) _ (.declare ⟨n, .continuous⟩ true)) s2
    have g3 := Reach.step g2 (by trivial : User.Uses _ _
      (.setInterval ⟨n, .continuous⟩ d.lo d.hi)) s3
    have hs : ∀ m m', (((u.step n (.newVar .continuous)).step m (.declare ⟨n, .continuous⟩ true)).step m'
        (.setInterval ⟨n, .continuous⟩ d.lo d.hi)) =
        { made := ⟨n, .continuous⟩ :: u.made, scopes := [⟨n, .continuous⟩ :: l], gone := u.gone } := by
      intro m m'
      simp [User.step, hl]
    rw [hs] at g3
    obtain ⟨u', c', q', e1, e2, e3, e4, e5, e6⟩ := reach_decls ds g3 n3 hg ⟨_, rfl⟩ hr'
    refine ⟨u', c', q', e1, by rw [e2]; simp; omega, e3, e4, e5.trans he, fun v => ?_⟩
    rw [e6, hl]
    simp only [List.flatten_cons, List.flatten_nil, List.append_nil, List.mem_cons,
      List.length_cons]
    constructor
    · rintro ((rfl | h) | ⟨i, h1, rfl⟩)
      · exact .inr ⟨0, by omega, rfl⟩
      · exact .inl h
      · exact .inr ⟨i + 1, by omega, by rw [Nat.add_assoc, Nat.add_comm 1 i]⟩
    · rintro (h | ⟨i, h1, rfl⟩)
      · exact .inl (.inr h)
      · cases i with
        | zero => exact .inl (.inl rfl)
        | succ i => exact .inr ⟨i, by omega, by rw [Nat.add_assoc, Nat.add_comm 1 i]⟩

theorem reach_asserts {cfg : CCfg} : ∀ (fs : List Fml) {n u c r}, Reach cfg u c →
    n ≤ c.sat.abs.next → (∀ f ∈ fs, Old n f) → runCmds cfg c (fs.map .assert) = .ok r →
    ∃ u', Reach cfg u' r.2 ∧ u'.gone = u.gone ∧ u'.scopes = u.scopes
  | [], n, u, c, r, h, hn, hf, hr => by
    simp only [List.map_nil, runCmds, Run.ok.injEq] at hr
    subst hr
    exact ⟨u, h, rfl, rfl⟩
  | f :: fs, n, u, c, r, h, hn, hf, hr => by
    simp only [List.map_cons] at hr
    obtain ⟨a, c1, q, h1, h2, e⟩ := runCmds_cons hr
    have w2 := Old.mono hn (hf f (by simp))
    have g := Reach.step (cmd := .assert f) h w2 h1
    have hn' := (Smt2.stepCmd_next (fun g hg => by
      simp only [Cmd.assert.injEq] at hg; subst hg; exact w2) (by simp) h1).1
    obtain ⟨u', e1, e2, e3⟩ := reach_asserts fs g (le_trans hn hn')
      (fun g hg => hf g (by simp [hg])) h2
    exact ⟨u', by rw [e]; exact e1, e2, e3⟩

/-! ## The problem posed -/

theorem closed_poses {cfg} : Closed cfg (Poses cfg) (fun _ => True) := fun h hu _ hs => .step h hu hs

theorem closed_plain {cfg S} : Closed cfg (PosesPlain cfg S) (PlainF cfg.th.dbl cfg.env.delta S) := by
  intro k c cmd a c' h hu he hs
  refine .step h hu ?_ hs
  cases cmd with
  | newVar t => trivial
  | declare v m => exact .inl he
  | setInterval v l u => exact ⟨by rw [he.1]; decide, he.2⟩
  | assert f => exact he
  | _ => exact he.elim

theorem closed_exact {cfg} : Closed cfg (PosesExact cfg)
    (fun f => QFree f ∧ IteFree f ∧ ExactBound cfg.th.dbl f) := by
  intro k c cmd a c' h hu he hs
  refine .step h hu ?_ hs
  cases cmd with
  | newVar t => trivial
  | declare v m => exact .inl he
  | setInterval v l u => exact he.2
  | assert f => exact he
  | _ => exact he.elim

/-- The variables of the scope. -/
theorem scope_var {p : DProb} {n v} (h : (scopeOf p).map n = some v) :
    ∃ i d, p.decls[i]? = some d ∧ n = d.name ∧ v = ⟨i, .continuous⟩ := by
  rcases fold_scope p.decls {} h with h | ⟨i, d, h1, h2, h3⟩
  · cases h
  · exact ⟨i, d, h1, h2, by simpa using h3⟩

theorem trF_shape {p : DProb} {V : Variable → Prop} (hV : ∀ i < p.decls.length, V ⟨i, .continuous⟩)
    {f : DFml} {g} (h : trF (scopeOf p) f = .ok g) :
    WfF V g ∧ Old p.decls.length g ∧ QFree g ∧ IteFree g := by
  have hv : ∀ n v, (scopeOf p).map n = some v →
      v.type ≠ .boolean ∧ V v ∧ v.id < p.decls.length := by
    intro n v hv
    obtain ⟨i, d, h1, -, rfl⟩ := scope_var hv
    have hi : i < p.decls.length := by
      obtain ⟨hi, -⟩ := List.getElem?_eq_some_iff.mp h1
      exact hi
    exact ⟨by simp, hV i hi, hi⟩
  have ha : ForAtoms (fun _ a b => (WfE V a ∧ WfE V b) ∧ (IteFreeE a ∧ IteFreeE b) ∧
      (OldE p.decls.length a ∧ OldE p.decls.length b) ∧ QFreeE a ∧ QFreeE b) (fun _ => False) NoQ g :=
    atoms_trF f h fun o x y a b _ h1 h2 _ => by
      obtain ⟨a1, a2, a3, a4⟩ := trE_shape hv x h1
      obtain ⟨b1, b2, b3, b4⟩ := trE_shape hv y h2
      exact ⟨⟨a1, b1⟩, ⟨a2, b2⟩, ⟨a3, b3⟩, a4, b4⟩
  refine ⟨?_, ?_, ?_, ?_⟩
  · exact flat_ind (X := WfF V) trivial trivial (fun _ _ _ h => h.1) (fun fs h => wfFs_mem.mpr h)
      (fun fs h => wfFs_mem.mpr h) (fun f h => h) g ha
  · exact flat_ind (X := Old p.decls.length) trivial trivial (fun _ _ _ h => h.2.2.1)
      (fun fs h => OldList_iff.mpr h) (fun fs h => OldList_iff.mpr h) (fun f h => h) g ha
  · exact flat_ind (X := QFree) trivial trivial (fun _ _ _ h => h.2.2.2)
      (fun fs h => qfrees_iff.mpr h) (fun fs h => qfrees_iff.mpr h) (fun f h => h) g ha
  · exact flat_ind (X := IteFree) trivial trivial (fun _ _ _ h => h.2.1)
      (fun fs h => IteFreeList_iff.mpr h) (fun fs h => IteFreeList_iff.mpr h) (fun f h => h) g ha

/-- The books after the declarations and constraints. -/
theorem posed_books {cfg : CCfg} {p : DProb} {fs : List Fml} {r} {R : Books → Ctx → Prop}
    {PA : Fml → Prop} (hR : Closed cfg R PA) (h0 : R { made := [] } (Ctx.init 0))
    (hf : trAll (trF (scopeOf p)) p.ctrs = .ok fs) (hPA : ∀ f ∈ fs, PA f)
    (hr : runCmds cfg (Ctx.init 0) ((p.decls.foldl DState.declare {}).log ++ fs.map .assert) = .ok r) :
    ∃ k, R k r.2 ∧ (∀ f, f ∈ k.top.asserted ↔ f ∈ fs) ∧
      ∀ q, q ∈ k.top.dom ↔ ∃ i d, p.decls[i]? = some d ∧ q = (⟨i, .continuous⟩, ⟨d.lo, d.hi⟩) := by
  rw [fold_log] at hr
  simp only [List.nil_append] at hr
  obtain ⟨k, c, q, e1, e2, e3, e4, e5, e6, e7⟩ := run_decls hR p.decls (n := 0) h0 rfl id rfl
    (fun v hv => by cases hv) (fun p hp => by cases hp) hr
  have hdom : ∀ q, q ∈ k.top.dom ↔
      ∃ i d, p.decls[i]? = some d ∧ q = (⟨i, .continuous⟩, ⟨d.lo, d.hi⟩) := by
    intro q
    rw [e7]
    simp only [Nat.zero_add]
    constructor
    · rintro (h | h)
      · cases h
      · exact h
    · exact .inr
  have hV : ∀ i < p.decls.length, k.top.Declared ⟨i, .continuous⟩ := fun i hi =>
    ⟨_, (hdom _).mpr ⟨i, p.decls[i], List.getElem?_eq_getElem hi, rfl⟩⟩
  obtain ⟨k', g1, g2, g3⟩ := run_asserts hR fs e1 (n := p.decls.length) (by rw [e2]; simp) e3
    (fun f hm => by
      obtain ⟨x, -, hx⟩ := (trAll_mem hf).2 f hm
      obtain ⟨s1, s2, -, -⟩ := trF_shape hV hx
      exact ⟨s1, s2, hPA f hm⟩) e5
  refine ⟨k', e6 ▸ g1, fun f => by rw [g3, e4]; simp, fun q => by rw [g2]; exact hdom q⟩

theorem posed_reach {cfg : CCfg} {p : DProb} {fs : List Fml} {r}
    (hf : trAll (trF (scopeOf p)) p.ctrs = .ok fs)
    (hr : runCmds cfg (Ctx.init 0) ((p.decls.foldl DState.declare {}).log ++ fs.map .assert) = .ok r) :
    ∃ u, Reach cfg u r.2 ∧ u.gone = [] ∧
      ∀ v, v ∈ u.scopes.flatten ↔ ∃ i < p.decls.length, v = ⟨i, .continuous⟩ := by
  rw [fold_log] at hr
  simp only [List.nil_append] at hr
  obtain ⟨u, c, q, e1, e2, e3, e4, e5, e6⟩ := reach_decls p.decls (n := 0)
    (Reach.init (cfg := cfg) 0 [] (by simp) (by simp)) rfl rfl ⟨[], rfl⟩ hr
  obtain ⟨u', g1, g2, g3⟩ := reach_asserts fs e1 (n := p.decls.length) (by rw [e2]; simp)
    (fun f hm => by
      obtain ⟨x, -, hx⟩ := (trAll_mem hf).2 f hm
      exact (trF_shape (V := fun _ => True) (fun _ _ => trivial) hx).2.1) e4
  refine ⟨u', e5 ▸ g1, g2.trans e3, fun v => ?_⟩
  rw [g3, e6]
  simp

/-- The parts of `posed`. -/
theorem posed_ok {cfg : CCfg} {p : DProb} {c} (h : posed cfg p = .ok c) : ∃ fs es r,
    trAll (trF (scopeOf p)) p.ctrs = .ok fs ∧ trAll (trE (scopeOf p)) p.costs = .ok es ∧
    runCmds cfg (Ctx.init 0) ((p.decls.foldl DState.declare {}).log ++ fs.map .assert) = .ok r ∧
    (p.costs = [] → c = r.2) ∧ (p.costs ≠ [] → minimize cfg r.2 es = .ok c) := by
  unfold posed at h
  obtain ⟨fs, h1, h⟩ := bindR_ok h
  obtain ⟨es, h2, h⟩ := bindR_ok h
  obtain ⟨r, h3, h⟩ := bindR_ok h
  have h2 := lift_ok h2
  refine ⟨fs, es, r, lift_ok h1, h2, h3, fun hc => ?_, fun hc => ?_⟩
  · rw [(trAll_nil h2).mpr hc] at h
    simpa using h.symm
  · have : es ≠ [] := fun he => hc ((trAll_nil h2).mp he)
    rw [if_neg (by simpa using this)] at h
    exact h

theorem solve_ok {cfg : CCfg} {p : DProb} {a} (h : solve cfg p = .ok a) :
    ∃ c c', posed cfg p = .ok c ∧ checkSat cfg c = .ok (a, c') := by
  unfold solve at h
  obtain ⟨c, h1, h⟩ := bindR_ok h
  obtain ⟨⟨a', c'⟩, h2, h⟩ := bindR_ok h
  simp only [Run.ok.injEq] at h
  subst h
  exact ⟨c, c', h1, h2⟩

/-! ## Points -/

/-- The values of the variables for values of the names. -/
noncomputable def toVars (p : DProb) (σ : Point) : Valuation := fun v =>
  match p.decls[v.id]? with
  | some d => σ d.name
  | none => 0

theorem agree_toVars {p : DProb} {σ} : Agree (scopeOf p) (toVars p σ) σ := by
  intro n v h
  obtain ⟨i, d, h1, rfl, rfl⟩ := scope_var h
  simp [toVars, h1]

/-- The values of the names for values of the variables. -/
noncomputable def toNames (p : DProb) (ρ : Valuation) : Point := fun n =>
  match (scopeOf p).map n with
  | some v => ρ v
  | none => 0

theorem agree_toNames {p : DProb} {ρ} : Agree (scopeOf p) ρ (toNames p ρ) := by
  intro n v h
  simp [toNames, h]

theorem off_gap {d : Dbl} {o : DRel} {x : ℝ} {q : ℚ} (h : Off d o x q) : OffGap d o.op x q q := by
  cases o <;> simp_all [Off, OffGap, DRel.op]

theorem flip_op (o : DRel) : flipRel o.op = (DRel.flip o).op := by cases o <;> rfl

/-- The translations of the constraints are regular at ordinary points. -/
theorem reg_trF {D I d} {p : DProb} {ρ : Valuation} {σ : Point} (hA : Agree (scopeOf p) ρ σ)
    (ho : Ordinary D I d p σ) {f g} (hf : f ∈ p.ctrs) (h : trF (scopeOf p) f = .ok g) :
    RegF D I d ρ g := by
  have hm : ∀ {o x y}, (o, x, y) ∈ atoms f → (o, x, y) ∈ DProb.atoms p := fun h =>
    List.mem_flatMap.mpr ⟨f, hf, h⟩
  have ha : ForAtoms (RegR D I d ρ) (fun _ => False) NoQ g :=
    atoms_trF f h fun o x y a b hxy h1 h2 _ => by
      obtain ⟨d1, d2⟩ := ho.values o x y (hm hxy)
      refine ⟨(trE_def d hA x h1 d1).1, (trE_def d hA y h2 d2).1, fun lo hi ex hn hp => ?_,
        fun lo hi ex hn hp => ?_⟩
      · obtain ⟨rfl, rfl, hl⟩ := trE_num h2 hn
        cases a with
        | var v =>
          obtain ⟨n, rfl, hs⟩ := trE_var x h1
          rw [eval, hA n v hs]
          exact off_gap (ho.left o n y _ (hm hxy) hl)
        | ite c s t =>
          have := (trE_shape (V := fun _ => True) (m := p.decls.length) (fun n v hv => by
            obtain ⟨i, d, h1, -, rfl⟩ := scope_var hv
            exact ⟨by simp, trivial, (List.getElem?_eq_some_iff.mp h1).1⟩) x h1).2.1
          exact this.elim
        | _ => exact hp.elim
      · obtain ⟨rfl, rfl, hl⟩ := trE_num h1 hn
        cases b with
        | var v =>
          obtain ⟨n, rfl, hs⟩ := trE_var y h2
          rw [eval, hA n v hs, flip_op]
          exact off_gap (ho.right o n x _ (hm hxy) hl)
        | ite c s t =>
          have := (trE_shape (V := fun _ => True) (m := p.decls.length) (fun n v hv => by
            obtain ⟨i, d, h1, -, rfl⟩ := scope_var hv
            exact ⟨by simp, trivial, (List.getElem?_eq_some_iff.mp h1).1⟩) y h2).2.1
          exact this.elim
        | _ => exact hp.elim
  exact flat_ind (X := RegF D I d ρ) trivial trivial (fun _ _ _ h => h)
    (fun fs h => regFs_mem.mpr h) (fun fs h => regFs_mem.mpr h) (fun f h => h) g ha

theorem def_trF {D I} {p : DProb} {ρ : Valuation} {σ : Point} (hA : Agree (scopeOf p) ρ σ)
    {f g} (hd : ∀ o a b, (o, a, b) ∈ atoms f → DefX D I σ a ∧ DefX D I σ b)
    (h : trF (scopeOf p) f = .ok g) : DefF D I ρ g := by
  have ha : ForAtoms (fun _ a b => DefE D I ρ a ∧ DefE D I ρ b) (fun _ => False) NoQ g :=
    atoms_trF f h fun o x y a b hxy h1 h2 _ =>
      ⟨(trE_def ⟨id, id, 0, 0⟩ hA x h1 (hd o x y hxy).1).2, (trE_def ⟨id, id, 0, 0⟩ hA y h2 (hd o x y hxy).2).2⟩
  exact flat_ind (X := DefF D I ρ) (by simp [DefF]) (by simp [DefF]) (fun _ _ _ h => by simpa [DefF] using h)
    (fun fs h => by simp only [DefF]; exact defFs_iff'.mpr h)
    (fun fs h => by simp only [DefF]; exact defFs_iff'.mpr h) (fun f h => by simpa [DefF] using h) g ha

/-- The relations of the constraints after translation. -/
def Compared (p : DProb) (a b : Expr) : Prop := ∃ o x y, (o, x, y) ∈ DProb.atoms p ∧
  trE (scopeOf p) x = .ok a ∧ trE (scopeOf p) y = .ok b

theorem plain_trF {d : Dbl} {δ : ℚ} {p : DProb} (hp : Fine d δ p) {f g} (hf : f ∈ p.ctrs)
    (h : trF (scopeOf p) f = .ok g) : PlainF d δ (Compared p) g := by
  have hm : ∀ {o x y}, (o, x, y) ∈ atoms f → (o, x, y) ∈ DProb.atoms p := fun h =>
    List.mem_flatMap.mpr ⟨f, hf, h⟩
  have hv : ∀ n v, (scopeOf p).map n = some v → v.type ≠ .boolean ∧ True ∧ v.id < p.decls.length :=
    fun n v hv => by
      obtain ⟨i, d, h1, -, rfl⟩ := scope_var hv
      exact ⟨by simp, trivial, (List.getElem?_eq_some_iff.mp h1).1⟩
  have ha : ForAtoms (fun _ a b => PlainRel d δ a b ∧ Compared p a b) (fun _ => False) NoQ g :=
    atoms_trF f h fun o x y a b hxy h1 h2 hc => by
      refine ⟨⟨⟨(trE_shape hv x h1).2.1, (trE_shape hv y h2).2.1⟩, hc, ?_, ?_, ?_⟩, o, x, y, hm hxy, h1, h2⟩
      · have := hp.named o x y (hm hxy)
        have ha := trE_vars x h1
        have hb := trE_vars y h2
        simp only [ne_eq, List.append_eq_nil_iff] at *
        tauto
      · intro lo hi ex hn
        obtain ⟨rfl, rfl, hl⟩ := trE_num h1 hn
        exact hp.left o x y _ (hm hxy) hl
      · intro lo hi ex hn
        obtain ⟨rfl, rfl, hl⟩ := trE_num h2 hn
        exact hp.right o x y _ (hm hxy) hl
  exact flat_ind (X := PlainF d δ (Compared p)) trivial trivial (fun _ _ _ h => h)
    (fun fs h => plainFs_iff.mpr h) (fun fs h => plainFs_iff.mpr h) (fun f h => h) g ha

end Verif.Proof.Dr
