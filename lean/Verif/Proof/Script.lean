import Verif.Model.Script
import Verif.Proof.Fresh
import Verif.Proof.ModelVars
import Verif.Proof.Session
import Verif.Proof.Smt2Nest
import Verif.Spec.Script

/-! # From the calls of the front end to the problem posed to the context -/

namespace Verif.Proof.Smt2
open Verif Verif.Model Verif.Model.Smt2 Verif.Spec Verif.Spec.Smt2 Verif.Proof

theorem run_append {use} : ∀ {a b : List SCmd} {d r : Drv}, run use (a ++ b) d = .ok r →
    ∃ d1, run use a d = .ok d1 ∧ run use b d1 = .ok r
  | [], b, d, r, h => ⟨d, rfl, h⟩
  | c :: a, b, d, r, h => by
    simp only [List.cons_append, run] at h
    obtain ⟨d0, h1, h2⟩ := bindO_ok h
    obtain ⟨d1, h3, h4⟩ := run_append h2
    exact ⟨d1, by simp only [run, h1, Outcome.bind_ok, h3], h4⟩

/-- The counter never goes back. -/
theorem stepCmd_next {cfg : CCfg} {c c' : Ctx} {cmd a} (ho : ∀ f, cmd = .assert f → Old c.sat.abs.next f)
    (hp : cmd ≠ .push ∧ cmd ≠ .pop)
    (h : stepCmd cfg c cmd = .ok (a, c')) : c.sat.abs.next ≤ c'.sat.abs.next ∧
      ∀ t, cmd = .newVar t → c'.sat.abs.next = c.sat.abs.next + 1 := by
  cases cmd with
  | newVar t =>
    simp only [stepCmd, Run.ok.injEq, Prod.mk.injEq] at h
    rw [← h.2]; simp
  | declare v m =>
    simp only [stepCmd, Run.ok.injEq, Prod.mk.injEq] at h
    rw [← h.2]
    refine ⟨?_, by simp⟩
    unfold declare
    split <;> simp [Ctx.setBox]
  | setInterval v l u =>
    simp only [stepCmd] at h
    obtain ⟨c1, h1, h⟩ := bindR_ok h
    simp only [Run.ok.injEq, Prod.mk.injEq] at h
    rw [← h.2]
    have := lift_ok h1
    unfold setInterval at this
    split at this
    · simp only [Outcome.ok.injEq] at this
      rw [← this]; simp [Ctx.setBox]
    · cases this
  | assert f =>
    simp only [stepCmd] at h
    obtain ⟨c1, h1, h⟩ := bindR_ok h
    simp only [Run.ok.injEq, Prod.mk.injEq] at h
    rw [← h.2]
    refine ⟨?_, by simp⟩
    have hs := lift_ok h1
    unfold assertF at hs
    split at hs
    · simp only [Outcome.ok.injEq] at hs; subst hs; exact le_rfl
    split at hs
    · simp only [Outcome.ok.injEq] at hs; subst hs; exact le_rfl
    split at hs
    · simp only [Outcome.ok.injEq] at hs; subst hs; exact le_rfl
    obtain ⟨r, h1, h2⟩ := bindO_ok hs
    simp only at h2
    split at h2
    · obtain ⟨s, h3, h4⟩ := bindO_ok h2
      simp only [Outcome.ok.injEq] at h4; subst h4
      have r1 := (ite_range (ho f rfl)).1
      have hn2 := addFormula_next h3
      exact le_trans r1 hn2
    · simp only [Outcome.ok.injEq] at h2; subst h2; exact le_rfl
  | check =>
    simp only [stepCmd] at h
    obtain ⟨r, h1, h⟩ := bindR_ok h
    simp only [Run.ok.injEq, Prod.mk.injEq] at h
    rw [← h.2]
    refine ⟨?_, by simp⟩
    unfold checkSat at h1
    obtain ⟨q, h2, h3⟩ := bindR_ok h1
    have := checkCore_next h2
    cases hq : q.1 with
    | none =>
      simp only [hq, Run.ok.injEq] at h3; rw [← h3]; exact this
    | some b =>
      simp only [hq] at h3
      obtain ⟨t, h4, h5⟩ := bindR_ok h3
      obtain ⟨m, h6, h7⟩ := bindR_ok h5
      simp only [Run.ok.injEq] at h7; rw [← h7]; exact this
  | push => exact absurd rfl hp.1
  | pop => exact absurd rfl hp.2

mutual
theorem wfE_of {V : Variable → Prop} : ∀ e, (∀ v ∈ e.vars, V v) → WfE (fun _ => True) e → WfE V e
  | .const _, _, _ => trivial
  | .rconst _, _, h => h
  | .var v, hV, h => ⟨h.1, hV v (by simp [Expr.vars])⟩
  | .add a b, hV, h => ⟨wfE_of a (fun v hv => hV v (by simp [Expr.vars, hv])) h.1,
      wfE_of b (fun v hv => hV v (by simp [Expr.vars, hv])) h.2⟩
  | .mul a b, hV, h => ⟨wfE_of a (fun v hv => hV v (by simp [Expr.vars, hv])) h.1,
      wfE_of b (fun v hv => hV v (by simp [Expr.vars, hv])) h.2⟩
  | .app1 _ a, hV, h => wfE_of (V := V) a (fun v hv => hV v (by simp [Expr.vars, hv])) h
  | .app2 _ a b, hV, h => ⟨wfE_of a (fun v hv => hV v (by simp [Expr.vars, hv])) h.1,
      wfE_of b (fun v hv => hV v (by simp [Expr.vars, hv])) h.2⟩
  | .ite c a b, hV, h => ⟨wfF_of c (fun v hv => hV v (by simp [Expr.vars, hv])) h.1,
      wfE_of a (fun v hv => hV v (by simp [Expr.vars, hv])) h.2.1,
      wfE_of b (fun v hv => hV v (by simp [Expr.vars, hv])) h.2.2⟩
theorem wfF_of {V : Variable → Prop} : ∀ f, (∀ v ∈ f.fv, V v) → WfF (fun _ => True) f → WfF V f
  | .ff, _, _ => trivial
  | .tt, _, _ => trivial
  | .bvar v, hV, h => ⟨h.1, hV v (by simp [Fml.fv])⟩
  | .rel _ a b, hV, h => ⟨wfE_of a (fun v hv => hV v (by simp [Fml.fv, hv])) h.1,
      wfE_of b (fun v hv => hV v (by simp [Fml.fv, hv])) h.2⟩
  | .conj fs, hV, h => wfFs_of (V := V) fs hV h
  | .disj fs, hV, h => wfFs_of (V := V) fs hV h
  | .neg f, hV, h => wfF_of (V := V) f hV h
  | .all vs f, hV, h => ⟨h.1, wfF_of f (fun v hv => by
      by_cases hm : v ∈ vs
      · exact .inr hm
      · exact .inl (hV v (by simp [Fml.fv, hv, hm]))) (wfF_mono (fun _ _ => trivial) f h.2)⟩
theorem wfFs_of {V : Variable → Prop} : ∀ fs, (∀ v ∈ Fml.fvList fs, V v) → WfFs (fun _ => True) fs →
    WfFs V fs
  | [], _, _ => trivial
  | f :: fs, hV, h => ⟨wfF_of f (fun v hv => hV v (by simp [Fml.fvList, hv])) h.1,
      wfFs_of fs (fun v hv => hV v (by simp [Fml.fvList, hv])) h.2⟩
end

/-- The books after the calls `L` with counter `n`, of which `l` are in force. -/
structure Track (L l : List Cmd) (n : Nat) (k : Books) : Prop where
  asserted : ∀ f, f ∈ k.top.asserted ↔ .assert f ∈ l
  declared : ∀ v, k.top.Declared v ↔ DeclIn l v
  known : ∀ v, DeclIn L v → v ∈ k.used
  used : ∀ v ∈ k.used, v.id < n
  fresh : ∀ t, L.getLast? = some (.newVar t) →
    ∃ m, m + 1 = n ∧ (⟨m, t⟩ : Variable) ∈ k.made ∧ ∀ v ∈ k.used, v.id < m
  just : ∀ v m, L.getLast? = some (.declare v m) →
    .declare v m ∈ l ∧ ∀ iv, (v, iv) ∈ k.top.dom → iv = newItv v.type
  itv : ∀ v iv, (v, iv) ∈ k.top.dom →
    iv = newItv v.type ∨ ∃ x y, .setInterval v x y ∈ l ∧ iv = ⟨x, y⟩
  setd : ∀ v x y, .setInterval v x y ∈ l → DeclIn l v
  unset : ∀ v m, L.getLast? = some (.declare v m) → ∀ x y, .setInterval v x y ∉ l
  set : ∀ v x y, .setInterval v x y ∈ l → ∀ iv, (v, iv) ∈ k.top.dom → iv = ⟨x, y⟩
  sub : ∀ c ∈ l, c ∈ L
  quant : k.quant → ∃ f, .assert f ∈ L ∧ ¬ QFree f
  built : k.built → .check ∈ L ∧ ∃ f, .assert f ∈ L ∧ ¬ QFree f

theorem DeclIn.sub {l L : List Cmd} (h : ∀ c ∈ l, c ∈ L) {v} (k : DeclIn l v) : DeclIn L v :=
  k.imp fun _ hm => h _ hm

theorem declIn_snoc {l c v} : DeclIn (l ++ [c]) v ↔ DeclIn l v ∨ ∃ m, c = .declare v m := by
  rw [declIn_append]
  refine or_congr_right ?_
  simp only [DeclIn, List.mem_singleton]
  constructor <;> rintro ⟨m, h⟩ <;> exact ⟨m, h.symm⟩

theorem sub_snoc {l L : List Cmd} (h : ∀ c ∈ l, c ∈ L) (c : Cmd) : ∀ x ∈ l ++ [c], x ∈ L ++ [c] := by
  intro x hx
  rcases List.mem_append.mp hx with hx | hx
  · exact List.mem_append_left _ (h x hx)
  · exact List.mem_append_right _ hx

theorem mem_map_set {dom : List (Variable × Itv)} {v w : Variable} {i iv : Itv}
    (h : (w, iv) ∈ dom.map fun p => if p.1 = v then (v, i) else p) :
    (w = v ∧ iv = i ∧ ∃ j, (v, j) ∈ dom) ∨ (w ≠ v ∧ (w, iv) ∈ dom) := by
  obtain ⟨⟨u, j⟩, hm, he⟩ := List.mem_map.mp h
  simp only at he
  split_ifs at he with hu
  · simp only [Prod.mk.injEq] at he
    subst hu
    exact .inl ⟨he.1.symm, he.2.symm, j, hm⟩
  · simp only [Prod.mk.injEq] at he
    obtain ⟨rfl, rfl⟩ := he
    exact .inr ⟨hu, hm⟩

theorem Track.step {L l n k c n'} (h : Track L l n k) (hc : CallOk (DeclIn l) L n c)
    (hw : ∀ f, c = .assert f → WfF (fun _ => True) f)
    (hi : ∀ v x y, c = .setInterval v x y → ∀ z : ℝ, InItv z ⟨x, y⟩ → InItv z (newItv v.type))
    (hb : ¬ k.built) (hn : n ≤ n') (hv : ∀ t, c = .newVar t → n' = n + 1) :
    k.Uses n c ∧ Track (L ++ [c]) (l ++ [c]) n' (k.step n c) := by
  have hu : ∀ v ∈ k.used, v.id < n' := fun v hv => lt_of_lt_of_le (h.used v hv) hn
  cases c with
  | newVar t =>
    refine ⟨trivial, ?_⟩
    have e : (k.step n (.newVar t)).top = k.top := rfl
    constructor
    · intro f; rw [e, h.asserted]; simp
    · intro v; rw [e, h.declared, declIn_snoc]; simp
    · intro v hd; exact h.known v ((declIn_snoc.mp hd).elim id fun ⟨m, h⟩ => by cases h)
    · exact hu
    · intro s hs
      simp only [List.getLast?_append, List.getLast?_singleton, Option.some_or, Option.some.injEq,
        Cmd.newVar.injEq] at hs
      subst hs
      exact ⟨n, (hv t rfl).symm, by simp [Books.step], h.used⟩
    · intro v m hs; simp at hs
    · intro v iv hm
      rcases h.itv v iv hm with h | ⟨x, y, h1, h2⟩
      exacts [.inl h, .inr ⟨x, y, by simp [h1], h2⟩]
    · intro w x y hm; exact declIn_snoc.mpr (.inl (h.setd w x y (by simpa using hm)))
    · intro w m hs; simp at hs
    · intro w x y hm iv hd; exact h.set w x y (by simpa using hm) iv hd
    · exact sub_snoc h.sub _
    · intro q
      obtain ⟨f, h1, h2⟩ := h.quant q
      exact ⟨f, by simp [h1], h2⟩
    · intro q; exact absurd q hb
  | declare v m =>
    obtain ⟨h1, h2⟩ := hc
    obtain ⟨i, hi1, hi2, hi3⟩ := h.fresh _ h2
    have ei : i = v.id := by omega
    subst ei
    have hvu : v ∉ k.used := fun hv => by have := hi3 v hv; omega
    have hnl : ¬ DeclIn l v := fun hd => hvu (h.known v (DeclIn.sub h.sub hd))
    have hnd : ¬ k.top.Declared v := fun hd => hnl ((h.declared v).mp hd)
    have hnm : v ∉ k.top.dom.map Prod.fst := by
      intro hm
      obtain ⟨⟨w, iv⟩, hm', rfl⟩ := List.mem_map.mp hm
      exact hnd ⟨iv, hm'⟩
    refine ⟨⟨hi2, .inr ⟨hvu, hb⟩⟩, ?_⟩
    have e : (k.step n (.declare v m)).top =
        { k.top with dom := (v, newItv v.type) :: k.top.dom } := by
      simp only [Books.step, if_neg hnm]; rfl
    constructor
    · intro f; rw [e]; simp [h.asserted]
    · intro w
      rw [e, declIn_snoc, ← h.declared]
      simp only [Problem.Declared, List.mem_cons, Prod.mk.injEq, Cmd.declare.injEq]
      constructor
      · rintro ⟨iv, ⟨rfl, _⟩ | h⟩
        exacts [.inr ⟨m, rfl, rfl⟩, .inl ⟨iv, h⟩]
      · rintro (⟨iv, h⟩ | ⟨_, rfl, _⟩)
        exacts [⟨iv, .inr h⟩, ⟨_, .inl ⟨rfl, rfl⟩⟩]
    · intro w hw
      rcases declIn_snoc.mp hw with hw | ⟨_, hw⟩
      · exact List.mem_cons_of_mem _ (h.known w hw)
      · simp only [Cmd.declare.injEq] at hw
        rw [← hw.1]
        exact List.mem_cons_self
    · intro w hw
      rcases List.mem_cons.mp hw with rfl | hw
      · omega
      · exact hu w hw
    · intro s hs; simp at hs
    · intro w m' hs
      simp only [List.getLast?_append, List.getLast?_singleton, Option.some_or, Option.some.injEq,
        Cmd.declare.injEq] at hs
      obtain ⟨rfl, rfl⟩ := hs
      refine ⟨by simp, fun iv hm => ?_⟩
      rw [e] at hm
      rcases List.mem_cons.mp hm with hm | hm
      · simp only [Prod.mk.injEq] at hm; exact hm.2
      · exact absurd ⟨iv, hm⟩ hnd
    · intro w iv hm
      rw [e] at hm
      rcases List.mem_cons.mp hm with hm | hm
      · simp only [Prod.mk.injEq] at hm
        rw [hm.1]; exact .inl hm.2
      · rcases h.itv w iv hm with h | ⟨x, y, h1, h2⟩
        exacts [.inl h, .inr ⟨x, y, by simp [h1], h2⟩]
    · intro w x y hm; exact declIn_snoc.mpr (.inl (h.setd w x y (by simpa using hm)))
    · intro w m' hs x y hm
      simp only [List.getLast?_append, List.getLast?_singleton, Option.some_or, Option.some.injEq,
        Cmd.declare.injEq] at hs
      obtain ⟨rfl, -⟩ := hs
      exact hnl (h.setd _ x y (by simpa using hm))
    · intro w x y hm iv hd
      have hm' : Cmd.setInterval w x y ∈ l := by simpa using hm
      rw [e] at hd
      rcases List.mem_cons.mp hd with hd | hd
      · simp only [Prod.mk.injEq] at hd
        rw [hd.1] at hm'
        exact absurd (h.setd _ x y hm') hnl
      · exact h.set w x y hm' iv hd
    · exact sub_snoc h.sub _
    · intro q
      obtain ⟨f, h1, h2⟩ := h.quant q
      exact ⟨f, by simp [h1], h2⟩
    · intro q; exact absurd q hb
  | setInterval v x y =>
    simp only [CallOk] at hc
    obtain ⟨hl, hj⟩ := h.just v true hc
    have hd : DeclIn l v := ⟨true, hl⟩
    obtain ⟨j, hj'⟩ := (h.declared v).mpr hd
    refine ⟨⟨⟨j, hj'⟩, .inr fun iv hm z hz => ?_⟩, ?_⟩
    · rw [hj iv hm]; exact hi v x y rfl z hz
    have e : (k.step n (.setInterval v x y)).top = { k.top with
        dom := k.top.dom.map fun p => if p.1 = v then (v, ⟨x, y⟩) else p } := rfl
    constructor
    · intro f; rw [e]; simp [h.asserted]
    · intro w
      rw [e, declIn_snoc, ← h.declared]
      simp only [reduceCtorEq, exists_false, or_false]
      constructor
      · rintro ⟨iv, hm⟩
        rcases mem_map_set hm with ⟨rfl, _, j, hj⟩ | ⟨_, hm⟩
        exacts [⟨j, hj⟩, ⟨iv, hm⟩]
      · rintro ⟨iv, hm⟩
        by_cases hw : w = v
        · subst hw
          exact ⟨⟨x, y⟩, List.mem_map.mpr ⟨_, hm, by simp⟩⟩
        · exact ⟨iv, List.mem_map.mpr ⟨_, hm, by simp [hw]⟩⟩
    · intro w hd; exact h.known w ((declIn_snoc.mp hd).elim id fun ⟨m, h⟩ => by cases h)
    · exact hu
    · intro s hs; simp at hs
    · intro w m hs; simp at hs
    · intro w iv hm
      rw [e] at hm
      rcases mem_map_set hm with ⟨rfl, rfl, _⟩ | ⟨_, hm⟩
      · exact .inr ⟨x, y, by simp, rfl⟩
      · rcases h.itv w iv hm with h | ⟨x, y, h1, h2⟩
        exacts [.inl h, .inr ⟨x, y, by simp [h1], h2⟩]
    · intro w x' y' hm
      rcases List.mem_append.mp hm with hm | hm
      · exact declIn_snoc.mpr (.inl (h.setd w x' y' hm))
      · simp only [List.mem_singleton, Cmd.setInterval.injEq] at hm
        rw [hm.1]
        exact declIn_snoc.mpr (.inl hd)
    · intro w m hs; simp at hs
    · intro w x' y' hm iv hd
      rw [e] at hd
      rcases List.mem_append.mp hm with hm' | hm
      · rcases mem_map_set hd with ⟨rfl, _, _⟩ | ⟨_, hd⟩
        · exact absurd hm' (h.unset _ true hc x' y')
        · exact h.set w x' y' hm' iv hd
      · simp only [List.mem_singleton, Cmd.setInterval.injEq] at hm
        obtain ⟨rfl, rfl, rfl⟩ := hm
        rcases mem_map_set hd with ⟨_, h, _⟩ | ⟨h, _⟩
        · exact h
        · exact absurd rfl h
    · exact sub_snoc h.sub _
    · intro q
      obtain ⟨f, h1, h2⟩ := h.quant q
      exact ⟨f, by simp [h1], h2⟩
    · intro q; exact absurd q hb
  | assert f =>
    obtain ⟨h1, h2⟩ := hc
    refine ⟨⟨?_, h2, fun q => absurd q hb⟩, ?_⟩
    · exact wfF_of f (fun v hv => (h.declared v).mpr (h1 v hv)) (hw f rfl)
    have e : (k.step n (.assert f)).top = { k.top with asserted := f :: k.top.asserted } := rfl
    constructor
    · intro g; rw [e]; simp [h.asserted, or_comm, eq_comm]
    · intro w
      rw [declIn_snoc, ← h.declared]
      simp only [reduceCtorEq, exists_false, or_false]
      exact Iff.rfl
    · intro w hd; exact h.known w ((declIn_snoc.mp hd).elim id fun ⟨m, h⟩ => by cases h)
    · exact hu
    · intro s hs; simp at hs
    · intro w m hs; simp at hs
    · intro w iv hm
      rcases h.itv w iv hm with h | ⟨x, y, h1, h2⟩
      exacts [.inl h, .inr ⟨x, y, by simp [h1], h2⟩]
    · intro w x y hm; exact declIn_snoc.mpr (.inl (h.setd w x y (by simpa using hm)))
    · intro w m hs; simp at hs
    · intro w x y hm iv hd; exact h.set w x y (by simpa using hm) iv hd
    · exact sub_snoc h.sub _
    · rintro (q | q)
      · obtain ⟨f, h1, h2⟩ := h.quant q
        exact ⟨f, by simp [h1], h2⟩
      · exact ⟨f, by simp, q⟩
    · intro q; exact absurd q hb
  | check =>
    refine ⟨trivial, ?_⟩
    constructor
    · intro f; exact (h.asserted f).trans (by simp)
    · intro v; rw [declIn_snoc, ← h.declared]; simp; exact Iff.rfl
    · intro v hd; exact h.known v ((declIn_snoc.mp hd).elim id fun ⟨m, h⟩ => by cases h)
    · exact hu
    · intro s hs; simp at hs
    · intro w m hs; simp at hs
    · intro v iv hm
      rcases h.itv v iv hm with h | ⟨x, y, h1, h2⟩
      exacts [.inl h, .inr ⟨x, y, by simp [h1], h2⟩]
    · intro w x y hm; exact declIn_snoc.mpr (.inl (h.setd w x y (by simpa using hm)))
    · intro w m hs; simp at hs
    · intro w x y hm iv hd; exact h.set w x y (by simpa using hm) iv hd
    · exact sub_snoc h.sub _
    · intro q
      obtain ⟨f, h1, h2⟩ := h.quant q
      exact ⟨f, by simp [h1], h2⟩
    · rintro (q | q)
      · exact absurd q hb
      · obtain ⟨f, h1, h2⟩ := h.quant q
        exact ⟨by simp, f, by simp [h1], h2⟩
  | push => exact absurd hc (by simp [CallOk])
  | pop => exact absurd hc (by simp [CallOk])

/-- The problem of a scope and the calls in force in it. -/
structure Level (l : List Cmd) (P : Problem) : Prop where
  asserted : ∀ f, f ∈ P.asserted ↔ .assert f ∈ l
  declared : ∀ v, P.Declared v ↔ DeclIn l v
  itv : ∀ v iv, (v, iv) ∈ P.dom →
    iv = newItv v.type ∨ ∃ x y, .setInterval v x y ∈ l ∧ iv = ⟨x, y⟩
  setd : ∀ v x y, .setInterval v x y ∈ l → DeclIn l v
  set : ∀ v x y, .setInterval v x y ∈ l → ∀ iv, (v, iv) ∈ P.dom → iv = ⟨x, y⟩

theorem Track.level {L l n k} (h : Track L l n k) : Level l k.top :=
  ⟨h.asserted, h.declared, h.itv, h.setd, h.set⟩

/-- Opening or closing a scope. -/
theorem Track.scope {L l l' n n' k k' c} (h : Track L l n k) (hl : Level l' k'.top)
    (hs : ∀ x ∈ l', x ∈ L) (hc : c = .push ∨ c = .pop) (hn : n ≤ n') (h1 : k'.used = k.used)
    (h2 : k'.quant = k.quant) (h3 : k'.built = k.built) : Track (L ++ [c]) l' n' k' := by
  have hd : ∀ v, DeclIn (L ++ [c]) v → DeclIn L v := fun v hv =>
    (declIn_snoc.mp hv).elim id fun ⟨m, e⟩ => by rcases hc with rfl | rfl <;> cases e
  have hlast : (L ++ [c]).getLast? = some c := by simp
  constructor
  · exact hl.asserted
  · exact hl.declared
  · intro v hv; rw [h1]; exact h.known v (hd v hv)
  · intro v hv; rw [h1] at hv; exact lt_of_lt_of_le (h.used v hv) hn
  · intro t ht; rw [hlast] at ht; rcases hc with rfl | rfl <;> simp at ht
  · intro v m ht; rw [hlast] at ht; rcases hc with rfl | rfl <;> simp at ht
  · exact hl.itv
  · exact hl.setd
  · intro v m ht; rw [hlast] at ht; rcases hc with rfl | rfl <;> simp at ht
  · exact hl.set
  · intro x hx; exact List.mem_append_left _ (hs x hx)
  · intro q
    rw [h2] at q
    obtain ⟨f, a, b⟩ := h.quant q
    exact ⟨f, by simp [a], b⟩
  · intro q
    rw [h3] at q
    obtain ⟨a, f, b, c⟩ := h.built q
    exact ⟨by simp [a], f, by simp [b], c⟩

theorem Covered.left {a b : List Cmd} (h : Covered (a ++ b)) : Covered a where
  wf := fun f hf => h.wf f (by simp [hf])
  bounds := fun v l u hv => h.bounds v l u (by simp [hv])
  quant := h.quant.imp (fun h f hf => h f (by simp [hf])) fun h hc => h (by simp [hc])

theorem PlainLog.left {d δ S} {a b : List Cmd} (h : PlainLog d δ S (a ++ b)) : PlainLog d δ S a where
  plain := fun f hf => h.plain f (by simp [hf])
  bounds := fun l v x y r e => h.bounds l v x y (r ++ b) (by simp [e])
  first := fun l v m r e => h.first l v m (r ++ b) (by simp [e])

theorem runCmds_snoc {cfg l c as c2} (h : runCmds cfg (Ctx.init 0) (l ++ [c]) = .ok (as, c2)) :
    ∃ as1 c1 a, runCmds cfg (Ctx.init 0) l = .ok (as1, c1) ∧ stepCmd cfg c1 c = .ok (a, c2) ∧
      as = as1 ++ a := by
  obtain ⟨p, q, h1, h2, h3⟩ := runCmds_append h
  obtain ⟨a, c1, q', h4, h5, h6⟩ := runCmds_cons h2
  simp only [runCmds, Run.ok.injEq] at h5
  subst h5 h6
  simp only [List.append_nil, Prod.mk.injEq] at h3
  obtain ⟨rfl, rfl⟩ := h3
  exact ⟨p.1, p.2, a, h1, h4, rfl⟩

/-- The counter never goes back, with scopes. -/
theorem stepCmd_next' {cfg : CCfg} {c c' : Ctx} {cmd a} (ho : ∀ f, cmd = .assert f → Old c.sat.abs.next f)
    (h : stepCmd cfg c cmd = .ok (a, c')) : c.sat.abs.next ≤ c'.sat.abs.next ∧
      ∀ t, cmd = .newVar t → c'.sat.abs.next = c.sat.abs.next + 1 := by
  by_cases h1 : cmd = .push
  · subst h1
    simp only [stepCmd, Run.ok.injEq, Prod.mk.injEq] at h
    rw [← h.2]; exact ⟨le_rfl, by simp⟩
  by_cases h2 : cmd = .pop
  · subst h2
    simp only [stepCmd] at h
    obtain ⟨c1, h3, h⟩ := bindR_ok h
    simp only [Run.ok.injEq, Prod.mk.injEq] at h
    rw [← h.2]
    refine ⟨?_, by simp⟩
    have := lift_ok h3
    unfold ctxPop at this
    obtain ⟨_, _, this⟩ := bindO_ok this
    obtain ⟨_, _, this⟩ := bindO_ok this
    obtain ⟨s, hs, this⟩ := bindO_ok this
    simp only [Outcome.ok.injEq] at this
    rw [← this]
    unfold satPop at hs
    obtain ⟨_, _, hs⟩ := bindO_ok hs
    obtain ⟨_, _, hs⟩ := bindO_ok hs
    obtain ⟨_, _, hs⟩ := bindO_ok hs
    obtain ⟨_, _, hs⟩ := bindO_ok hs
    simp only [Outcome.ok.injEq] at hs
    rw [← hs]
  · exact stepCmd_next ho ⟨h1, h2⟩ h

/-- The model variables of the open scopes are those of the calls in force. -/
def ScopesOk : List (List Variable) → List Cmd → List (List Cmd) → Prop
  | us, a, [] => us ≠ [] ∧ us.flatten = (modelVars a).reverse
  | us, a, b :: st => (us ≠ [] ∧ us.flatten = (modelVars a).reverse) ∧ ScopesOk us.tail b st

theorem ScopesOk.top {us a st} (h : ScopesOk us a st) : us ≠ [] ∧ us.flatten = (modelVars a).reverse := by
  cases st with
  | nil => exact h
  | cons b st => exact h.1

theorem ScopesOk.set {us us' a a' st} (h : ScopesOk us a st) (h1 : us' ≠ [])
    (h2 : us'.flatten = (modelVars a').reverse) (h3 : us'.tail = us.tail) : ScopesOk us' a' st := by
  cases st with
  | nil => exact ⟨h1, h2⟩
  | cons b st => exact ⟨⟨h1, h2⟩, by rw [h3]; exact h.2⟩

/-- The books after calls with scopes. -/
structure Kept (cfg : CCfg) (L : List Cmd) (c : Ctx) (k : Books) (u : User) : Prop where
  poses : Poses cfg k c
  reach : Reach cfg u c
  cnt : c.sat.abs.next = count (idsTaken cfg) [] 0 L
  track : Track L (callsInForce L) c.sat.abs.next k
  rest : List.Forall₂ Level (L.foldl enforceCall ([], [])).2 k.levels.tail
  restSub : ∀ l ∈ (L.foldl enforceCall ([], [])).2, ∀ x ∈ l, x ∈ L
  open_ : k.levels ≠ []
  scopes : ScopesOk u.scopes (callsInForce L) (L.foldl enforceCall ([], [])).2
  gone : ∀ v ∈ u.gone, v ∈ modelVars L
  made : u.made = k.made

theorem mem_modelVars {l : List Cmd} {v : Variable} : v ∈ modelVars l ↔ .declare v true ∈ l := by
  induction l with
  | nil => simp [modelVars]
  | cons c l ih =>
    cases c with
    | declare w m => cases m <;> simp [modelVars, ih]
    | _ => simp [modelVars, ih]

theorem kept_init (cfg : CCfg) : Kept cfg [] (Ctx.init 0) { made := [] } { made := [] } where
  poses := .init 0 [] (by simp)
  reach := .init 0 [] (by simp) (by simp)
  cnt := rfl
  track := by constructor <;> simp [Books.top, Problem.Declared, DeclIn, callsInForce]
  rest := .nil
  restSub := by simp
  open_ := by simp
  scopes := ⟨by simp, by simp [callsInForce, modelVars]⟩
  gone := by simp
  made := rfl

/-- A call that is not about scopes. -/
theorem Kept.plain {cfg L c c1 c2 k u a as1 as2} (h : Kept cfg L c1 k u) (hp : c ≠ .push ∧ c ≠ .pop)
    (hr1 : runCmds cfg (Ctx.init 0) L = .ok (as1, c1))
    (hr2 : runCmds cfg (Ctx.init 0) (L ++ [c]) = .ok (as2, c2)) (hs : stepCmd cfg c1 c = .ok (a, c2))
    (hc : CallOk (DeclIn (callsInForce L)) L c1.sat.abs.next c)
    (hw : ∀ f, c = .assert f → WfF (fun _ => True) f)
    (hi : ∀ v x y, c = .setInterval v x y → ∀ z : ℝ, InItv z ⟨x, y⟩ → InItv z (newItv v.type))
    (hb : ¬ k.built) : k.Uses c1.sat.abs.next c ∧
      Kept cfg (L ++ [c]) c2 (k.step c1.sat.abs.next c) (u.step c1.sat.abs.next c) := by
  have hold : ∀ f, c = .assert f → Old c1.sat.abs.next f := by
    rintro f rfl; exact hc.2
  obtain ⟨n1, n2⟩ := stepCmd_next hold hp hs
  obtain ⟨t1, t2⟩ := h.track.step (n' := c2.sat.abs.next) hc hw hi hb n1 n2
  have ef : (L ++ [c]).foldl enforceCall ([], []) =
      (callsInForce L ++ [c], (L.foldl enforceCall ([], [])).2) := by
    rw [List.foldl_append]; exact enforce_plain hp
  have ea : callsInForce (L ++ [c]) = callsInForce L ++ [c] := by rw [callsInForce, ef]
  refine ⟨t1, .step h.poses t1 hs, .step h.reach ?_ hs, ?_, ?_, ?_, ?_, ?_, ?_, ?_, ?_⟩
  · cases c <;> simp only [User.Uses]
    · rw [h.made]; exact t1.1
    · exact hc.2
  · rw [count_append, ← h.cnt, List.nil_append]
    cases c with
    | newVar t => exact n2 t rfl
    | _ =>
      simp only [count, idsTaken, nextAfter, List.dropLast_concat, hr1, hr2]
      omega
  · rw [ea]; exact t2
  · rw [ef]
    have : (k.step c1.sat.abs.next c).levels.tail = k.levels.tail := by
      cases c with
      | push => exact absurd rfl hp.1
      | pop => exact absurd rfl hp.2
      | _ => rfl
    rw [this]; exact h.rest
  · rw [ef]; intro l hl x hx; exact List.mem_append_left _ (h.restSub l hl x hx)
  · cases c with
    | push => exact absurd rfl hp.1
    | pop => exact absurd rfl hp.2
    | newVar t => exact h.open_
    | check => exact h.open_
    | _ => simp [Books.step, Books.setTop]
  · rw [ef, ea]
    obtain ⟨s1, s2⟩ := h.scopes.top
    have hmv : (modelVars (callsInForce L ++ [c])).reverse =
        (modelVars [c]).reverse ++ (modelVars (callsInForce L)).reverse := by
      rw [modelVars_append, List.reverse_append]
    cases c with
    | declare v m =>
      cases m with
      | false => exact h.scopes.set s1 (by rw [hmv, ← s2]; rfl) rfl
      | true =>
        obtain ⟨s, rest, e⟩ : ∃ s rest, u.scopes = s :: rest := List.exists_cons_of_ne_nil s1
        have : (u.step c1.sat.abs.next (.declare v true)).scopes = (v :: s) :: rest := by
          simp [User.step, e]
        rw [this]
        refine h.scopes.set (by simp) ?_ (by simp [e])
        rw [hmv, ← s2, e]; simp [modelVars]
    | push => exact absurd rfl hp.1
    | pop => exact absurd rfl hp.2
    | _ => exact h.scopes.set s1 (by rw [hmv, ← s2]; simp [modelVars, User.step]) rfl
  · intro v hv
    have : (u.step c1.sat.abs.next c).gone = u.gone := by
      cases c with
      | declare v m =>
        cases m with
        | false => rfl
        | true => simp only [User.step]; split <;> rfl
      | push => exact absurd rfl hp.1
      | pop => exact absurd rfl hp.2
      | _ => rfl
    rw [this] at hv
    rw [modelVars_append]
    exact List.mem_append_left _ (h.gone v hv)
  · cases c with
    | declare v m =>
      cases m with
      | false => exact h.made
      | true =>
        simp only [User.step, Books.step, Books.setTop]
        split <;> exact h.made
    | newVar t => simp [User.step, Books.step, h.made]
    | push => exact absurd rfl hp.1
    | pop => exact absurd rfl hp.2
    | _ => exact h.made

theorem Kept.push {cfg L c1 c2 k u a as1 as2} (h : Kept cfg L c1 k u)
    (hr1 : runCmds cfg (Ctx.init 0) L = .ok (as1, c1))
    (hr2 : runCmds cfg (Ctx.init 0) (L ++ [.push]) = .ok (as2, c2))
    (hs : stepCmd cfg c1 .push = .ok (a, c2)) :
    Kept cfg (L ++ [.push]) c2 (k.step c1.sat.abs.next .push) (u.step c1.sat.abs.next .push) := by
  obtain ⟨n1, -⟩ := stepCmd_next' (by simp) hs
  have ef : (L ++ [Cmd.push]).foldl enforceCall ([], []) =
      (callsInForce L, callsInForce L :: (L.foldl enforceCall ([], [])).2) := by
    rw [List.foldl_append]; rfl
  have ea : callsInForce (L ++ [.push]) = callsInForce L := by rw [callsInForce, ef]
  obtain ⟨P, Ps, e⟩ : ∃ P Ps, k.levels = P :: Ps := List.exists_cons_of_ne_nil h.open_
  have et : k.top = P := by simp [Books.top, e]
  refine ⟨.step h.poses trivial hs, .step h.reach trivial hs, ?_, ?_, ?_, ?_, ?_, ?_, ?_, h.made⟩
  · rw [count_append, ← h.cnt, List.nil_append]
    simp only [count, idsTaken, nextAfter, List.dropLast_concat, hr1, hr2]
    omega
  · rw [ea]
    exact h.track.scope h.track.level h.track.sub (.inl rfl) n1 rfl rfl rfl
  · rw [ef]
    show List.Forall₂ Level _ k.levels
    rw [e, ← et]
    refine .cons h.track.level ?_
    have := h.rest
    rw [e] at this
    exact this
  · rw [ef]
    intro l hl x hx
    rcases List.mem_cons.mp hl with rfl | hl
    · exact List.mem_append_left _ (h.track.sub x hx)
    · exact List.mem_append_left _ (h.restSub l hl x hx)
  · simp [Books.step]
  · rw [ef, ea]
    exact ⟨⟨by simp [User.step], h.scopes.top.2⟩, h.scopes⟩
  · intro v hv
    rw [modelVars_append]
    exact List.mem_append_left _ (h.gone v hv)

theorem Kept.pop {cfg L c1 c2 k u a as1 as2} (h : Kept cfg L c1 k u)
    (hr1 : runCmds cfg (Ctx.init 0) L = .ok (as1, c1))
    (hr2 : runCmds cfg (Ctx.init 0) (L ++ [.pop]) = .ok (as2, c2))
    (hne : (L.foldl enforceCall ([], [])).2 ≠ []) (hb : ¬ k.built)
    (hs : stepCmd cfg c1 .pop = .ok (a, c2)) :
    Kept cfg (L ++ [.pop]) c2 (k.step c1.sat.abs.next .pop) (u.step c1.sat.abs.next .pop) := by
  obtain ⟨n1, -⟩ := stepCmd_next' (by simp) hs
  obtain ⟨b, st, hst⟩ : ∃ b st, (L.foldl enforceCall ([], [])).2 = b :: st :=
    List.exists_cons_of_ne_nil hne
  have ef : (L ++ [Cmd.pop]).foldl enforceCall ([], []) = (b, st) := by
    rw [List.foldl_append]
    show enforceCall ((L.foldl enforceCall ([], [])).1, (L.foldl enforceCall ([], [])).2) .pop = _
    rw [hst]; rfl
  have ea : callsInForce (L ++ [.pop]) = b := by rw [callsInForce, ef]
  obtain ⟨P, Ps, e⟩ : ∃ P Ps, k.levels = P :: Ps := List.exists_cons_of_ne_nil h.open_
  have hrest := h.rest
  rw [hst, e, List.tail_cons] at hrest
  have hsub := h.restSub
  rw [hst] at hsub
  have hsc := h.scopes
  rw [hst] at hsc
  obtain ⟨⟨s1, s2⟩, s3⟩ := hsc
  obtain ⟨s, rest, es⟩ : ∃ s rest, u.scopes = s :: rest := List.exists_cons_of_ne_nil s1
  have eu : u.step c1.sat.abs.next .pop = { u with scopes := rest, gone := s ++ u.gone } := by
    simp [User.step, es]
  cases hrest with
  | cons h1 h2 =>
    rename_i Q Qs
    refine ⟨.step h.poses hb hs, .step h.reach trivial hs, ?_, ?_, ?_, ?_, ?_, ?_, ?_, ?_⟩
    · rw [count_append, ← h.cnt, List.nil_append]
      simp only [count, idsTaken, nextAfter, List.dropLast_concat, hr1, hr2]
      omega
    · rw [ea]
      refine h.track.scope ?_ (fun x hx => hsub b (by simp) x hx) (.inr rfl) n1 rfl rfl rfl
      have : (k.step c1.sat.abs.next .pop).top = Q := by simp [Books.step, Books.top, e]
      rw [this]; exact h1
    · rw [ef]
      show List.Forall₂ Level st k.levels.tail.tail
      rw [e]; exact h2
    · rw [ef]
      intro l hl x hx
      exact List.mem_append_left _ (hsub l (by simp [hl]) x hx)
    · show k.levels.tail ≠ []
      rw [e]; simp
    · rw [ef, ea, eu]
      rw [es] at s3
      exact s3
    · intro v hv
      rw [eu] at hv
      rw [modelVars_append]
      refine List.mem_append_left _ ?_
      rcases List.mem_append.mp hv with hv | hv
      · rw [mem_modelVars]
        refine h.track.sub _ (mem_modelVars.mp ?_)
        have : v ∈ u.scopes.flatten := by rw [es]; simp [hv]
        rw [s2] at this
        exact List.mem_reverse.mp this
      · exact h.gone v hv
    · rw [eu]; exact h.made

theorem flat_inForce {L : List Cmd} (h : .push ∉ L ∧ .pop ∉ L) : callsInForce L = L := by
  have : ∀ (l a : List Cmd) (st : List (List Cmd)), .push ∉ l → .pop ∉ l →
      l.foldl enforceCall (a, st) = (a ++ l, st) := by
    intro l
    induction l with
    | nil => simp
    | cons c l ih =>
      intro a st h1 h2
      simp only [List.mem_cons, not_or] at h1 h2
      rw [List.foldl_cons]
      cases c with
      | push => exact absurd rfl h1.1
      | pop => exact absurd rfl h2.1
      | _ => simp only [enforceCall]; rw [ih _ _ h1.2 h2.2]; simp
  rw [callsInForce, this L [] [] h.1 h.2]
  rfl

theorem ExactLog.left {d} {a b : List Cmd} (h : ExactLog d (a ++ b)) : ExactLog d a where
  flat := ⟨fun hh => h.flat.1 (by simp [hh]), fun hh => h.flat.2 (by simp [hh])⟩
  plain := fun f hf => h.plain f (by simp [hf])
  bounds := fun l v x y r e => h.bounds l v x y (r ++ b) (by simp [e])
  first := fun l v m r e => h.first l v m (r ++ b) (by simp [e])

theorem script_books (cfg : CCfg) {L : List Cmd} (hN : Nested (idsTaken cfg) L) : ∀ {as c},
    runCmds cfg (Ctx.init 0) L = .ok (as, c) →
    Covered L → ∃ k u, Kept cfg L c k u ∧
      (∀ S, PlainLog cfg.th.dbl cfg.env.delta S L → PosesPlain cfg S k c) ∧
      (ExactLog cfg.th.dbl L → PosesExact cfg k c) := by
  induction hN with
  | nil =>
    intro as c h _
    simp only [runCmds, Run.ok.injEq, Prod.mk.injEq] at h
    rw [← h.2]
    exact ⟨_, _, kept_init cfg, fun S _ => .init 0 [] (by simp), fun _ => .init 0 [] (by simp)⟩
  | @snoc L c _ hok ih =>
    intro as c2 hr hcov
    obtain ⟨as1, c1, a, hr1, hs, -⟩ := runCmds_snoc hr
    obtain ⟨k, u, hk, hp, hx⟩ := ih hr1 (Covered.left hcov)
    have ht := hk.track
    have hb : ¬ k.built := by
      intro q
      obtain ⟨q1, f, q2, q3⟩ := ht.built q
      rcases hcov.quant with h | h
      · exact q3 (h f (by simp [q2]))
      · exact h (by simp [q1])
    have step : k.Uses c1.sat.abs.next c ∧
        Kept cfg (L ++ [c]) c2 (k.step c1.sat.abs.next c) (u.step c1.sat.abs.next c) := by
      have plain : c ≠ .push ∧ c ≠ .pop →
          CallOk (DeclIn (callsInForce L)) L (count (idsTaken cfg) [] 0 L) c → _ := fun h1 h2 =>
        hk.plain h1 hr1 hr hs (by rw [hk.cnt]; exact h2) (fun f e => hcov.wf f (by simp [e]))
          (fun v x y e => hcov.bounds v x y (by simp [e])) hb
      cases c with
      | push => exact ⟨trivial, hk.push hr1 hr hs⟩
      | pop => exact ⟨hb, hk.pop hr1 hr hok hb hs⟩
      | newVar t => exact plain (by simp) hok
      | declare v m => exact plain (by simp) hok
      | setInterval v x y => exact plain (by simp) hok
      | assert f => exact plain (by simp) hok
      | check => exact plain (by simp) hok
    have none : (∀ f, Cmd.assert f ∉ callsInForce L) → k.top.asserted = [] := fun h =>
      List.eq_nil_iff_forall_not_mem.mpr fun f hf => h f ((ht.asserted f).mp hf)
    refine ⟨_, _, step.2, fun S hS => ?_, fun hS => ?_⟩
    on_goal 2 =>
      refine .step (hx (ExactLog.left hS)) step.1 ?_ hs
      have hf := flat_inForce (ExactLog.left hS).flat
      rw [hf] at none ht
      cases c with
      | declare v m =>
        rcases hS.first L v m [] rfl with h | ⟨w, m', h⟩
        · exact .inl (none h)
        · obtain ⟨iv, hiv⟩ := (ht.declared w).mpr ⟨m', h⟩
          exact .inr (List.ne_nil_of_mem hiv)
      | setInterval v x y => exact none (hS.bounds L v x y [] rfl)
      | assert f => exact hS.plain f (by simp)
      | push => exact hS.flat.1 (by simp)
      | pop => exact hS.flat.2 (by simp)
      | _ => trivial
    refine .step (hp S (PlainLog.left hS)) step.1 ?_ hs
    cases c with
    | declare v m =>
      rcases hS.first L v m [] rfl with h | ⟨w, m', h⟩
      · exact .inl (none h)
      · obtain ⟨iv, hiv⟩ := (ht.declared w).mpr ⟨m', h⟩
        exact .inr (List.ne_nil_of_mem hiv)
    | setInterval v x y =>
      obtain ⟨h1, h2⟩ := hS.bounds L v x y [] rfl
      exact ⟨h1, none h2⟩
    | assert f => exact hS.plain f (by simp)
    | _ => trivial

/-- What `solve` does with a script that ends with a check. -/
theorem solve_check {cfg s as r} (h : solve cfg (s ++ [.check]) = .ok (as ++ [r])) :
    ∃ d c c', run (idsTaken cfg) s {} = .ok d ∧ runCmds cfg (Ctx.init 0) d.log = .ok (as, c) ∧
      checkSat cfg c = .ok (r, c') := by
  unfold solve at h
  obtain ⟨d2, h1, h⟩ := bindR_ok h
  obtain ⟨p, h2, hp⟩ := bindR_ok h
  simp only [Run.ok.injEq] at hp
  obtain ⟨d, e1, e2⟩ := run_append (lift_ok h1)
  simp only [run, step, Outcome.bind_ok, Outcome.ok.injEq] at e2
  subst e2
  have e3 : (d.call (idsTaken cfg) .check).log = d.log ++ [.check] := rfl
  rw [e3] at h2
  obtain ⟨as1, c1, a, h3, h4, h5⟩ := runCmds_snoc (as := p.1) (c2 := p.2) h2
  simp only [stepCmd] at h4
  obtain ⟨q, h6, h7⟩ := bindR_ok h4
  simp only [Run.ok.injEq, Prod.mk.injEq] at h7
  rw [hp, ← h7.1] at h5
  obtain ⟨rfl, h8⟩ := List.append_inj' h5 rfl
  simp only [List.cons.injEq, and_true] at h8
  exact ⟨d, c1, q.2, e1, h3, by rw [h6, h8]⟩

end Verif.Proof.Smt2
