import Verif.Proof.Smt2Sim
import Verif.Spec.Scopes

/-! # Scripts with scopes -/

namespace Verif.Proof.Smt2
open Verif Verif.Model Verif.Model.Smt2 Verif.Spec Verif.Spec.Smt2 Verif.Proof

variable {use : List Cmd → Nat}

/-- The names and functions of the declarations. -/
abbrev Decls.N (D : Decls) : String → Prop := fun n => n ∈ D.1
abbrev Decls.F (D : Decls) : String → Prop := fun n => D.2.lookup n ≠ none

theorem uses_calls {D : Decls} {t : STerm} (h : UsesOnly D t) :
    ∀ c ∈ callNames t, Decls.F D c.1 := fun c hc => by
  have := h.2 c hc
  unfold Decls.arity at this
  show D.2.lookup c.1 ≠ none
  rw [this]; simp

/-- What one driver does the other does. -/
structure Follows (D : Decls) (c : SCmd) (d d1 g1 : Drv) : Prop where
  tied : Tied (Decls.N (D.add c)) (Decls.F (D.add c)) d1 g1
  names : ∀ D' : Decls, ¬ D'.Has c → ∀ n ∈ D'.1, d1.scope.map n = d.scope.map n
  funs : ∀ D' : Decls, ¬ D'.Has c → ∀ n, D'.2.lookup n ≠ none → d1.funs.map n = d.funs.map n

theorem step_sim {D : Decls} {d g d1 : Drv} {c : SCmd} (hT : Tied (Decls.N D) (Decls.F D) d g)
    (hu : CmdUsesOnly D c) (ht : TameCmd c) (hp : (∀ n, c ≠ .push n) ∧ ∀ n, c ≠ .pop n)
    (h : step use d c = .ok d1) : ∃ g1, step use g c = .ok g1 ∧ Follows D c d d1 g1 := by
  cases c with
  | push n => exact absurd rfl (hp.1 n)
  | pop n => exact absurd rfl (hp.2 n)
  | check =>
    simp only [step, Outcome.ok.injEq] at h
    subst h
    exact ⟨_, rfl, hT.call _, fun _ _ _ _ => rfl, fun _ _ _ _ => rfl⟩
  | declare n s dom =>
    obtain ⟨h1, h2⟩ := hT.declare (use := use) n s
    have hns : ∀ D' : Decls, n ∉ D'.1 → ∀ m ∈ D'.1, (d.declare use n s).2.scope.map m = d.scope.map m := by
      intro D' hD m hm
      have : m ≠ n := by rintro rfl; exact hD hm
      simp [Drv.declare, Drv.register, Drv.call, insert_map, ScopedMap.upd, this]
    have h3 : Tied (Decls.N (D.add (.declare n s dom))) (Decls.F (D.add (.declare n s dom)))
        (d.declare use n s).2 (g.declare use n s).2 :=
      h2.mono (fun m hm => List.mem_cons.mp hm) fun _ => id
    cases dom with
    | none =>
      simp only [step, Outcome.ok.injEq] at h
      subst h
      exact ⟨_, rfl, h3, hns, fun _ _ _ _ => rfl⟩
    | some lu =>
      simp only [step, Outcome.ok.injEq] at h
      subst h
      refine ⟨(g.declare use n s).2.call use (.setInterval (g.declare use n s).1 lu.1 lu.2), rfl, ?_, hns,
        fun _ _ _ _ => rfl⟩
      rw [h1]
      exact h3.call _
  | assert t =>
    simp only [step] at h
    obtain ⟨⟨x, d2⟩, h1, h⟩ := bindO_ok h
    obtain ⟨f, hf, h⟩ := bindO_ok h
    simp only [Outcome.ok.injEq] at h
    subst h
    obtain ⟨g2, e2, t2⟩ := tr_sim t hT ht hu.1 (uses_calls hu) h1
    obtain ⟨ts, tf, s0⟩ := hT.left
    obtain ⟨m1, m2⟩ := (tr_fits t s0 h1).maps s0
    refine ⟨g2.call use (.assert f), by simp only [step, e2, hf, Outcome.bind_ok], t2.call _, ?_, ?_⟩
    · intro D' _ n _; exact congrFun m1 n
    · intro D' _ n _; exact congrFun m2 n
  | define n ps s body =>
    have htb : Tame body := by
      cases ps with
      | nil => exact ht
      | cons p ps => exact ht.2
    simp only [step] at h
    obtain ⟨⟨x, d2⟩, h1, h⟩ := bindO_ok h
    obtain ⟨d3, h3, h⟩ := bindO_ok h
    obtain ⟨p1, p2⟩ := tied_declareParams (use := use) ps hT.push
    have uf : ∀ c ∈ callNames body, Decls.F D c.1 := fun c hc => by
      have := hu.2 c hc
      unfold Decls.arity at this
      show D.2.lookup c.1 ≠ none
      rw [this]; simp
    obtain ⟨g2, e2, t2⟩ := tr_sim body p2 htb (fun m hm => by
      have := hu.1 m hm
      simpa using this) uf h1
    obtain ⟨ts, tf, s0⟩ := hT.left
    obtain ⟨us, vf, r0⟩ := hT.right
    obtain ⟨c1, s1⟩ := (adds_declareParams (use := use) ps d.pushScope).scope _ _ _ (scopes_push s0)
    obtain ⟨c2, r1⟩ := (adds_declareParams (use := use) ps g.pushScope).scope _ _ _ (scopes_push r0)
    have s2 := (tr_fits body s1 h1).same _ _ s1
    have r2 := (tr_fits body r1 e2).same _ _ r1
    obtain ⟨g3, e3⟩ := popScope_ok r2
    have s3 := scopes_pop s2 h3
    have r3 := scopes_pop r2 e3
    have t3 : Tied (Decls.N D) (Decls.F D) d3 g3 := by
      refine ⟨?_, ?_, fun n k => ?_, fun n k => ?_, ⟨_, _, s3⟩, ⟨_, _, r3⟩⟩
      · rw [(popScope_log e3).1, (popScope_log h3).1, t2.log]
      · rw [(popScope_log e3).2, (popScope_log h3).2, t2.next]
      · rw [r3.1.1, s3.1.1, ← s0.1.1, ← r0.1.1]; exact hT.names n k
      · rw [r3.2.1, s3.2.1, ← s0.2.1, ← r0.2.1]; exact hT.funs n k
    have m1 : d3.scope.map = d.scope.map := by rw [s3.1.1, s0.1.1]
    have m2 : d3.funs.map = d.funs.map := by rw [s3.2.1, s0.2.1]
    have hlen := declareParams_length (use := use) ps d.pushScope
    cases ps with
    | nil =>
      simp only [declareParams, List.isEmpty_nil, if_true] at h
      obtain ⟨f, hf, h⟩ := bindO_ok h
      simp only [Outcome.ok.injEq] at h
      subst h
      obtain ⟨q1, q2⟩ := t3.declare (use := use) n s
      refine ⟨(g3.declare use n s).2.call use (.assert f), ?_, ?_, ?_, ?_⟩
      · simp only [declareParams] at e2
        simp only [step, declareParams, e2, e3, Outcome.bind_ok, List.isEmpty_nil, if_true, q1, hf]
      · exact (q2.mono (fun m hm => List.mem_cons.mp hm) fun _ => id).call _
      · intro D' hD m hm
        have : m ≠ n := by rintro rfl; exact hD hm
        simp [Drv.declare, Drv.register, Drv.call, insert_map, ScopedMap.upd, this, m1]
      · intro D' _ m _; exact congrFun m2 m
    | cons p ps =>
      have hne : (declareParams use (p :: ps) d.pushScope).1.isEmpty = false := by
        cases hv : (declareParams use (p :: ps) d.pushScope).1 with
        | nil => rw [hv] at hlen; simp at hlen
        | cons _ _ => rfl
      simp only [hne, Bool.false_eq_true, if_false, Outcome.ok.injEq] at h
      subst h
      refine ⟨{ g3 with funs := g3.funs.insert n ⟨(declareParams use (p :: ps) d.pushScope).1, s, x⟩ },
        ?_, ⟨t3.log, t3.next, t3.names, fun m hm => ?_, ⟨_, _, s3.1, mrel_insert s3.2 _ _⟩,
          ⟨_, _, r3.1, mrel_insert r3.2 _ _⟩⟩, ?_, ?_⟩
      · simp only [step, e2, e3, Outcome.bind_ok, p1, hne, Bool.false_eq_true, if_false]
      · simp only [insert_map, ScopedMap.upd]
        split_ifs with hmn
        · rfl
        · refine t3.funs m ?_
          have hm' : (D.add (.define n (p :: ps) s body)).2.lookup m ≠ none := hm
          have : (m == n) = false := by simpa using hmn
          simpa [Decls.add, List.lookup, this] using hm'
      · intro D' _ m _; exact congrFun m1 m
      · intro D' hD m hm
        have : m ≠ n := by rintro rfl; exact hD hm
        simp [insert_map, ScopedMap.upd, this, m2]

/-! ## The calls -/

/-- What a call needs, with scopes. -/
def NestedOk (use : List Cmd → Nat) (l : List Cmd) : Cmd → Prop
  | .push => True
  | .pop => (l.foldl enforceCall ([], [])).2 ≠ []
  | c => CallOk (DeclIn (callsInForce l)) l (count use [] 0 l) c

/-- The calls come in a proper order. -/
inductive Nested (use : List Cmd → Nat) : List Cmd → Prop
  | nil : Nested use []
  | snoc {l c} : Nested use l → NestedOk use l c → Nested use (l ++ [c])

theorem nestedOk_of {l c} (h : CallOk (DeclIn (callsInForce l)) l (count use [] 0 l) c) :
    NestedOk use l c := by
  cases c <;> first | exact h | exact absurd h (by simp [CallOk])

theorem enforce_plain {a st c} (h : c ≠ Cmd.push ∧ c ≠ .pop) : enforceCall (a, st) c = (a ++ [c], st) := by
  cases c <;> first | rfl | exact absurd rfl h.1 | exact absurd rfl h.2

theorem nested_append : ∀ (new : List Cmd) {l : List Cmd} {a st n}, Nested use l →
    l.foldl enforceCall ([], []) = (a, st) → n = count use [] 0 l →
    Ordered use (DeclIn a) l n new →
    Nested use (l ++ new) ∧ (l ++ new).foldl enforceCall ([], []) = (a ++ new, st)
  | [], l, a, st, n, h, hf, _, _ => by simpa using ⟨h, hf⟩
  | c :: new, l, a, st, n, h, hf, hn, ho => by
    have hc := ho.1
    have hp : c ≠ .push ∧ c ≠ .pop := by
      constructor <;> rintro rfl <;> exact hc
    have h1 : Nested use (l ++ [c]) := by
      refine .snoc h (nestedOk_of ?_)
      rw [← hn, callsInForce, hf]
      exact hc
    have h2 : (l ++ [c]).foldl enforceCall ([], []) = (a ++ [c], st) := by
      rw [List.foldl_append, hf]
      exact enforce_plain hp
    have h3 : count use l n [c] = count use [] 0 (l ++ [c]) := by
      rw [count_append, ← hn]; simp
    have := nested_append new h1 h2 h3 (ho.2.mono new fun v hv => by
      rw [declIn_append]; exact after1_iff.mp hv)
    simpa using this

/-! ## The meaning -/

/-- The calls `l` say what the commands `s` state; the names of both are those of `g`. -/
structure Says (s : List SCmd) (l : List Cmd) (g : Drv) : Prop where
  fwd : ∀ I cs xs, holdsScript I (fun _ => .bad) (fun _ _ => .bad) (s ++ cs) xs →
    ∃ (ρ : Valuation) (xs' : List ℝ) (E : Names) (F : Funs), (∀ k ∈ l, CmdHolds I ρ k) ∧
      xs = (modelVars l).map ρ ++ xs' ∧ Match I g ρ E F ∧ holdsScript I E F cs xs'
  bwd : ∀ I ρ, (∀ k ∈ l, CmdHolds I ρ k) → ∃ (E : Names) (F : Funs), Match I g ρ E F ∧
    ∀ cs xs', holdsScript I E F cs xs' →
      holdsScript I (fun _ => .bad) (fun _ _ => .bad) (s ++ cs) ((modelVars l).map ρ ++ xs')
  low : ∀ k ∈ l, Low g.next k
  env : ∀ I ρ, ∃ E F, Match I g ρ E F ∧ ∀ cs xs',
    namesOf I (fun _ => .bad) (fun _ _ => .bad) (s ++ cs) ((modelVars l).map ρ ++ xs') =
      namesOf I E F cs xs'

theorem Says.step {s l g g1 c B B1 new} (h : Says s l g) (sp : StepSpec use B g g1 c B1 new) :
    Says (s ++ [c]) (l ++ new) g1 where
  fwd := by
    intro I cs xs hs
    rw [List.append_assoc] at hs
    obtain ⟨ρ, xs', E, F, h1, rfl, m, h2⟩ := h.fwd I _ _ hs
    obtain ⟨ρ1, xs1, E1, F1, e, k1, rfl, m1, h3⟩ := sp.fwd I ρ E F m cs xs' h2
    refine ⟨ρ1, xs1, E1, F1, fun k hk => ?_, ?_, m1, h3⟩
    · rcases List.mem_append.mp hk with hk | hk
      · exact ((h.low k hk).holds e).mpr (h1 k hk)
      · exact k1 k hk
    · rw [modelVars_append, List.map_append, List.append_assoc]
      congr 1
      exact List.map_congr_left fun v hv => (e v (modelVars_low h.low v hv)).symm
  bwd := by
    intro I ρ hk
    obtain ⟨E, F, m, h1⟩ := h.bwd I ρ fun k hm => hk k (by simp [hm])
    obtain ⟨E1, F1, m1, h2⟩ := sp.bwd I ρ E F m fun k hm => hk k (by simp [hm])
    refine ⟨E1, F1, m1, fun cs xs' hs => ?_⟩
    rw [List.append_assoc, modelVars_append, List.map_append, List.append_assoc]
    exact h1 _ _ (h2 cs xs' hs)
  low := by
    intro k hk
    rcases List.mem_append.mp hk with hk | hk
    · exact (h.low k hk).mono sp.lt
    · exact sp.low k hk
  env := by
    intro I ρ
    obtain ⟨E, F, m, h1⟩ := h.env I ρ
    obtain ⟨E1, F1, m1, h2⟩ := sp.env I ρ E F m
    refine ⟨E1, F1, m1, fun cs xs' => ?_⟩
    rw [List.append_assoc, modelVars_append, List.map_append, List.append_assoc, ← h2 cs xs']
    exact h1 _ _

theorem Says.maps {s l g g1} (h : Says s l g) (h1 : g1.scope = g.scope) (h2 : g1.funs = g.funs)
    (hn : g.next ≤ g1.next) : Says s l g1 where
  fwd := by
    intro I cs xs hs
    obtain ⟨ρ, xs', E, F, k1, k2, m, k3⟩ := h.fwd I cs xs hs
    exact ⟨ρ, xs', E, F, k1, k2, m.maps (by rw [h1]) (by rw [h2]), k3⟩
  bwd := by
    intro I ρ hk
    obtain ⟨E, F, m, k⟩ := h.bwd I ρ hk
    exact ⟨E, F, m.maps (by rw [h1]) (by rw [h2]), k⟩
  low := fun k hk => (h.low k hk).mono hn
  env := by
    intro I ρ
    obtain ⟨E, F, m, k⟩ := h.env I ρ
    exact ⟨E, F, m.maps (by rw [h1]) (by rw [h2]), k⟩

theorem says_init : Says [] [] {} where
  fwd := fun I cs xs hs => ⟨fun _ => 0, xs, _, _, by simp, by simp [modelVars],
    by constructor <;> intro n <;> simp, hs⟩
  bwd := fun I ρ _ => ⟨fun _ => .bad, fun _ _ => .bad, by constructor <;> intro n <;> simp,
    fun cs xs' h => by simpa [modelVars] using h⟩
  low := by simp
  env := fun I ρ => ⟨_, _, by constructor <;> intro n <;> simp, fun cs xs' => rfl⟩

theorem Says.stated {s l g} (h : Says s l g) (I : Interp) (xs : List ℝ) :
    stated I s xs ↔ posed I l xs := by
  constructor
  · intro hs
    obtain ⟨ρ, xs', E, F, k1, rfl, m, k3⟩ := h.fwd I [] xs (by simpa [Spec.Smt2.stated] using hs)
    have : xs' = [] := k3
    subst this
    exact ⟨ρ, k1, by simp⟩
  · rintro ⟨ρ, k1, rfl⟩
    obtain ⟨E, F, m, k⟩ := h.bwd I ρ k1
    simpa [Spec.Smt2.stated] using k [] [] rfl

/-! ## Runs -/

/-- What is in force in a scope: the declarations, the commands, the calls, and a driver that knows
only the names in force. -/
structure Frame where
  D : Decls
  s : List SCmd
  l : List Cmd
  g : Drv

structure Frame.Ok (f : Frame) : Prop where
  inv : ∃ B, Inv B f.g
  means : Says f.s f.l f.g
  glob : ∀ v, Glob f.g v → Cmd.declare v true ∈ f.l

/-- The driver `d` sees the names of the frame. -/
structure Frame.Seen (d : Drv) (f : Frame) : Prop where
  names : ∀ n ∈ f.D.1, f.g.scope.map n = d.scope.map n
  funs : ∀ n, f.D.2.lookup n ≠ none → f.g.funs.map n = d.funs.map n
  next : f.g.next ≤ d.next

structure Nest (use : List Cmd → Nat) (d : Drv) (t : Frame) (fs : List Frame) : Prop where
  ok : t.Ok
  tied : Tied (Decls.N t.D) (Decls.F t.D) d t.g
  oks : ∀ f ∈ fs, f.Ok ∧ f.Seen d
  log : d.log.foldl enforceCall ([], []) = (t.l, fs.map Frame.l)
  nested : Nested use d.log
  cnt : d.next = count use [] 0 d.log

theorem nest_step {d d1 : Drv} {t : Frame} {fs c} (h : Nest use d t fs) (hu : CmdUsesOnly t.D c)
    (hn : ∀ f ∈ fs, ¬ f.D.Has c) (ht : TameCmd c) (hp : (∀ n, c ≠ .push n) ∧ ∀ n, c ≠ .pop n)
    (hs : step use d c = .ok d1) :
    ∃ l g, Nest use d1 ⟨t.D.add c, t.s ++ [c], l, g⟩ fs ∧ d.log <+: d1.log := by
  obtain ⟨g1, hg, fo⟩ := step_sim h.tied hu ht hp hs
  obtain ⟨B, hi⟩ := h.ok.inv
  obtain ⟨B1, new, sp⟩ : ∃ B1 new, StepSpec use B t.g g1 c B1 new := by
    cases c with
    | declare n s dom =>
      obtain ⟨new, sp⟩ := step_declare hi hg
      exact ⟨B, new, sp⟩
    | define n ps s body =>
      cases ps with
      | nil =>
        obtain ⟨new, sp⟩ := step_define0 hi hg ht
        exact ⟨B, new, sp⟩
      | cons q ps => exact step_define hi hg ht.1 ht.2
    | assert t =>
      obtain ⟨new, sp⟩ := step_assert hi hg ht
      exact ⟨B, new, sp⟩
    | check =>
      simp only [step, Outcome.ok.injEq] at hg
      subst hg
      exact ⟨B, _, step_check hi⟩
    | push n => exact absurd rfl (hp.1 n)
    | pop n => exact absurd rfl (hp.2 n)
  have hl : d1.log = d.log ++ new := by rw [← fo.tied.log, sp.log, h.tied.log]
  have lt := sp.lt
  obtain ⟨o1, -⟩ := sp.ord (DeclIn t.l) fun v hv => ⟨_, h.ok.glob v hv⟩
  rw [h.tied.log, h.tied.next] at o1
  obtain ⟨n1, n2⟩ := nested_append new h.nested h.log h.cnt o1
  refine ⟨t.l ++ new, g1, ⟨⟨⟨_, sp.inv⟩, h.ok.means.step sp, fun v hv => ?_⟩, fo.tied, fun f hf => ?_, ?_,
    ?_, ?_⟩, ⟨new, hl.symm⟩⟩
  · rcases sp.seen v hv with k | k
    · exact List.mem_append_left _ (h.ok.glob v k)
    · exact List.mem_append_right _ k
  · obtain ⟨k1, k2⟩ := h.oks f hf
    refine ⟨k1, fun n hm => ?_, fun n hm => ?_, ?_⟩
    · rw [fo.names f.D (hn f hf) n hm]; exact k2.names n hm
    · rw [fo.funs f.D (hn f hf) n hm]; exact k2.funs n hm
    · have := k2.next
      rw [← fo.tied.next]
      rw [h.tied.next] at lt
      omega
  · rw [hl]; exact n2
  · rw [hl]; exact n1
  · rw [hl, count_append, ← h.cnt, List.nil_append, ← fo.tied.next, sp.cnt, h.tied.log, h.tied.next]

theorem nest_push {d : Drv} {t : Frame} {fs} (h : Nest use d t fs) :
    Nest use (d.call use .push) { t with g := t.g.call use .push } (t :: fs) where
  ok := ⟨h.ok.inv.imp fun B hi => hi.call _, h.ok.means.maps rfl rfl (by simp [Drv.call]), h.ok.glob⟩
  tied := h.tied.call _
  oks := by
    intro f hf
    rcases List.mem_cons.mp hf with rfl | hf
    · refine ⟨h.ok, h.tied.names, h.tied.funs, ?_⟩
      rw [h.tied.next]; simp [Drv.call]
    · obtain ⟨k1, k2⟩ := h.oks f hf
      exact ⟨k1, k2.names, k2.funs, le_trans k2.next (by simp [Drv.call])⟩
  log := by
    show (d.log ++ [Cmd.push]).foldl enforceCall ([], []) = _
    rw [List.foldl_append, h.log]; rfl
  nested := .snoc h.nested trivial
  cnt := by
    show _ = count use [] 0 (d.log ++ [.push])
    rw [count_append, ← h.cnt]; rfl

theorem nest_pop {d : Drv} {t f : Frame} {fs} (h : Nest use d t (f :: fs)) :
    Nest use (d.call use .pop)
      ⟨f.D, f.s, f.l, ⟨f.g.scope, f.g.funs, (d.call use .pop).next, (d.call use .pop).log⟩⟩ fs := by
  obtain ⟨k1, k2⟩ := h.oks f (by simp)
  have hle : f.g.next ≤ (d.call use .pop).next := le_trans k2.next (by simp [Drv.call])
  obtain ⟨B, hi⟩ := k1.inv
  constructor
  · exact ⟨⟨B, hi.congr rfl rfl hle hi.mrel⟩, k1.means.maps rfl rfl hle, k1.glob⟩
  · exact ⟨rfl, rfl, k2.names, k2.funs, h.tied.left, hi.mrel⟩
  · intro f' hf
    obtain ⟨j1, j2⟩ := h.oks f' (by simp [hf])
    exact ⟨j1, j2.names, j2.funs, le_trans j2.next (by simp [Drv.call])⟩
  · show (d.log ++ [Cmd.pop]).foldl enforceCall ([], []) = _
    rw [List.foldl_append, h.log]; rfl
  · refine .snoc h.nested ?_
    simp [NestedOk, h.log]
  · show _ = count use [] 0 (d.log ++ [.pop])
    rw [count_append, ← h.cnt]; rfl

theorem nest_pushes : ∀ (n : Nat) {d : Drv} {t : Frame} {fs}, Nest use d t fs →
    ∃ t' fs', Nest use ((List.replicate n Cmd.push).foldl (Drv.call use) d) t' fs' ∧ t'.D = t.D ∧
      t'.s = t.s ∧ fs'.map Frame.D = List.replicate n t.D ++ fs.map Frame.D ∧
      fs'.map Frame.s = List.replicate n t.s ++ fs.map Frame.s
  | 0, d, t, fs, h => ⟨t, fs, h, rfl, rfl, by simp, by simp⟩
  | n + 1, d, t, fs, h => by
    obtain ⟨t', fs', k1, k2, k3, k4, k5⟩ := nest_pushes n (nest_push h)
    refine ⟨t', fs', by simpa [List.replicate_succ] using k1, k2, k3, ?_, ?_⟩
    · rw [k4, List.replicate_succ', List.append_assoc]; rfl
    · rw [k5, List.replicate_succ', List.append_assoc]; rfl

theorem nest_pops : ∀ (n : Nat) {d : Drv} {t : Frame} {fs}, Nest use d t fs → n + 1 ≤ fs.length →
    ∃ t' fs', Nest use ((List.replicate (n + 1) Cmd.pop).foldl (Drv.call use) d) t' fs' ∧
      t'.D = ((fs.map Frame.D).drop n).headD t.D ∧ t'.s = ((fs.map Frame.s).drop n).headD t.s ∧
      fs'.map Frame.D = (fs.map Frame.D).drop (n + 1) ∧ fs'.map Frame.s = (fs.map Frame.s).drop (n + 1)
  | _, d, t, [], _, hl => by simp at hl
  | 0, d, t, f :: fs, h, _ => ⟨_, fs, nest_pop h, rfl, rfl, rfl, rfl⟩
  | n + 1, d, t, f :: fs, h, hl => by
    obtain ⟨t', fs', k1, k2, k3, k4, k5⟩ := nest_pops n (nest_pop h) (by simpa using hl)
    obtain ⟨f', fs'', e⟩ : ∃ a b, fs.drop n = a :: b := by
      cases hd : fs.drop n with
      | nil => simp at hl; have := List.drop_eq_nil_iff.mp hd; omega
      | cons a b => exact ⟨a, b, rfl⟩
    refine ⟨t', fs', by rw [List.replicate_succ]; exact k1, ?_, ?_, by simpa using k4, by simpa using k5⟩
    · rw [k2]; simp [← List.map_drop, e]
    · rw [k3]; simp [← List.map_drop, e]

theorem calls_prefix : ∀ (l : List Cmd) (d : Drv), d.log <+: (l.foldl (Drv.call use) d).log
  | [], _ => List.prefix_rfl
  | c :: l, d => (List.prefix_append d.log [c]).trans (calls_prefix l (d.call use c))

theorem nest_run : ∀ (cs : List SCmd) {rest : List SCmd} {d d' : Drv} {t : Frame} {fs},
    Nest use d t fs → Nests t.D (fs.map Frame.D) (cs ++ rest) → (∀ c ∈ cs, TameCmd c) →
    run use cs d = .ok d' →
    ∃ t' fs', Nest use d' t' fs' ∧ cs.foldl enforce (t.s, fs.map Frame.s) = (t'.s, fs'.map Frame.s) ∧
      Nests t'.D (fs'.map Frame.D) rest ∧ d.log <+: d'.log
  | [], rest, d, d', t, fs, h, hn, _, hr => by
    simp only [run, Outcome.ok.injEq] at hr
    subst hr
    exact ⟨t, fs, h, rfl, hn, List.prefix_rfl⟩
  | c :: cs, rest, d, d', t, fs, h, hn, ht, hr => by
    simp only [run] at hr
    obtain ⟨d1, h1, hr⟩ := bindO_ok hr
    have htc := ht c (by simp)
    have htcs : ∀ c ∈ cs, TameCmd c := fun c hc => ht c (by simp [hc])
    have plain : (∀ n, c ≠ .push n) ∧ (∀ n, c ≠ .pop n) → (CmdUsesOnly t.D c ∧
        (∀ D' ∈ fs.map Frame.D, ¬ D'.Has c) ∧ Nests (t.D.add c) (fs.map Frame.D) (cs ++ rest)) →
        enforce (t.s, fs.map Frame.s) c = (t.s ++ [c], fs.map Frame.s) →
        ∃ t' fs', Nest use d' t' fs' ∧
          (c :: cs).foldl enforce (t.s, fs.map Frame.s) = (t'.s, fs'.map Frame.s) ∧
          Nests t'.D (fs'.map Frame.D) rest ∧ d.log <+: d'.log := by
      rintro hp ⟨k1, k2, k3⟩ he
      obtain ⟨l, g, k, kl⟩ := nest_step h k1 (fun f hf => k2 _ (List.mem_map_of_mem hf)) htc hp h1
      obtain ⟨t', fs', j1, j2, j3, j4⟩ := nest_run cs k k3 htcs hr
      exact ⟨t', fs', j1, by rw [List.foldl_cons, he]; exact j2, j3, kl.trans j4⟩
    cases c with
    | declare n s dom => exact plain (by simp) hn rfl
    | define n ps s body => exact plain (by simp) hn rfl
    | assert f => exact plain (by simp) hn rfl
    | check => exact plain (by simp) hn rfl
    | push n =>
      simp only [step] at h1
      split_ifs at h1
      simp only [Outcome.ok.injEq] at h1
      subst h1
      obtain ⟨t1, fs1, k1, k2, k3, k4, k5⟩ := nest_pushes n.toNat h
      obtain ⟨t', fs', j1, j2, j3, j4⟩ := nest_run cs (rest := rest) k1 (by rw [k2, k4]; exact hn) htcs hr
      refine ⟨t', fs', j1, ?_, j3, (calls_prefix _ _).trans j4⟩
      rw [← j2, k3, k5]; rfl
    | pop n =>
      simp only [step] at h1
      split_ifs at h1 with hle
      simp only [Outcome.ok.injEq] at h1
      subst h1
      obtain ⟨m, hm⟩ : ∃ m, n.toNat = m + 1 := ⟨n.toNat - 1, by omega⟩
      have hn1 := hn.1
      have hn2 := hn.2
      rw [hm] at hn1 hn2 hr
      obtain ⟨t1, fs1, k1, k2, k3, k4, k5⟩ := nest_pops m h (by simpa using hn1)
      obtain ⟨t', fs', j1, j2, j3, j4⟩ := nest_run cs (rest := rest) k1 (by rw [k2, k4]; exact hn2) htcs hr
      refine ⟨t', fs', j1, ?_, j3, (calls_prefix _ _).trans j4⟩
      rw [← j2, k3, k5, List.foldl_cons]
      simp only [enforce, hm]
      rfl

theorem nest_init : Nest use {} ⟨([], []), [], [], {}⟩ [] where
  ok := ⟨⟨_, inv_init⟩, says_init, fun v hv => by
    rcases hv with ⟨n, h⟩ | ⟨n, fd, h, _⟩ <;> simp at h⟩
  tied := ⟨rfl, rfl, fun _ _ => rfl, fun _ _ => rfl, declares_init.scopes, declares_init.scopes⟩
  oks := by simp
  log := rfl
  nested := .nil
  cnt := rfl

/-- Scripts without scopes are tidy if they run. -/
theorem tidy_of_tame {s : List SCmd} {d : Drv} (ht : TameScript s) (h : run use s {} = .ok d) :
    TidyScript s ∧ inForce s = s := by
  have hd := run_declared s declares_init h
  have key : ∀ (s : List SCmd) (D : Decls) (a : List SCmd), TameScript s → DeclaredBefore D s →
      ((∀ c ∈ s, TameCmd c) ∧ Nests D [] s) ∧ s.foldl enforce (a, []) = (a ++ s, []) := by
    intro s
    induction s with
    | nil => intro D a _ _; simp [Nests]
    | cons c s ih =>
      intro D a h k
      have step : TameCmd c → TameScript s → (CmdUsesOnly D c ∧ DeclaredBefore (D.add c) s) →
          (Nests (D.add c) [] s → CmdUsesOnly D c → Nests D [] (c :: s)) →
          enforce (a, []) c = (a ++ [c], []) →
          ((∀ c' ∈ c :: s, TameCmd c') ∧ Nests D [] (c :: s)) ∧
            (c :: s).foldl enforce (a, []) = (a ++ c :: s, []) := by
        intro h1 h2 h3 h4 h5
        obtain ⟨⟨i1, i2⟩, i3⟩ := ih (D.add c) (a ++ [c]) h2 h3.2
        refine ⟨⟨?_, h4 i2 h3.1⟩, by rw [List.foldl_cons, h5, i3]; simp⟩
        intro c' hc'
        rcases List.mem_cons.mp hc' with rfl | hc'
        exacts [h1, i1 c' hc']
      cases c with
      | declare n r dom => exact step trivial h k (fun i j => ⟨j, by simp, i⟩) rfl
      | define n ps r body =>
        cases ps with
        | nil => exact step h.1 h.2 k (fun i j => ⟨j, by simp, i⟩) rfl
        | cons p ps => exact step ⟨h.1, h.2.1⟩ h.2.2 k (fun i j => ⟨j, by simp, i⟩) rfl
      | assert f => exact step h.1 h.2 k (fun i j => ⟨j, by simp, i⟩) rfl
      | check => exact step trivial h k (fun i j => ⟨j, by simp, i⟩) rfl
      | push n => exact absurd h (by simp [TameScript])
      | pop n => exact absurd h (by simp [TameScript])
  obtain ⟨h1, h2⟩ := key s _ [] ht hd
  exact ⟨h1, by rw [inForce, h2]; rfl⟩

end Verif.Proof.Smt2
