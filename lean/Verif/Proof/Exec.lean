import Verif.Model.Exec
import Verif.Proof.Script
import Verif.Proof.Session
import Verif.Proof.Contractor
import Verif.Proof.Main
import Verif.Spec.Smt2Scan

/-! # Executing commands one by one: the log can be cut anywhere -/

namespace Verif.Proof.Exec
open Verif Verif.Model Verif.Model.Smt2 Verif.Model.Smt2Parse Verif.Model.Exec

/-- The same driver with a longer log. -/
def sh (l0 : List Cmd) (d : Drv) : Drv := { d with log := l0 ++ d.log }

/-- The counters agree. -/
def Agree (l0 : List Cmd) (u u' : List Cmd → Nat) : Prop := ∀ l, l ≠ [] → u (l0 ++ l) = u' l

theorem call_sh {l0 u u'} (h : Agree l0 u u') (d : Drv) (c : Cmd) :
    (sh l0 d).call u c = sh l0 (d.call u' c) := by
  simp [sh, Drv.call, ← h (d.log ++ [c]) (by simp)]

theorem register_sh (l0) (d : Drv) (n s) :
    (sh l0 d).register n s = ((d.register n s).1, sh l0 (d.register n s).2) := by
  simp [sh, Drv.register]

theorem declare_sh {l0 u u'} (h : Agree l0 u u') (d : Drv) (n s) :
    (sh l0 d).declare u n s = ((d.declare u' n s).1, sh l0 (d.declare u' n s).2) := by
  simp [Drv.declare, register_sh, call_sh h]

theorem declareLocal_sh {l0 u u'} (h : Agree l0 u u') (d : Drv) (n s) :
    (sh l0 d).declareLocal u n s = ((d.declareLocal u' n s).1, sh l0 (d.declareLocal u' n s).2) := by
  simp [Drv.declareLocal, register_sh, call_sh h]

theorem push_sh (l0) (d : Drv) : (sh l0 d).pushScope = sh l0 d.pushScope := rfl

theorem pop_sh (l0) (d : Drv) :
    (sh l0 d).popScope = (d.popScope >>= fun d => .ok (sh l0 d)) := by
  simp only [Drv.popScope, sh]
  cases d.funs.pop <;> simp
  cases d.scope.pop <;> simp

theorem bindLoop_sh {l0 u u'} (h : Agree l0 u u') : ∀ l (d : Drv),
    bindLoop u l (sh l0 d) = sh l0 (bindLoop u' l d)
  | [], d => rfl
  | (n, .fml f) :: l, d => by
    simp only [bindLoop, declareLocal_sh h, call_sh h, bindLoop_sh h l]
  | (n, .expr e) :: l, d => by
    simp only [bindLoop, declareLocal_sh h, call_sh h, bindLoop_sh h l]

theorem registerAll_sh (l0) : ∀ bs (d : Drv),
    registerAll bs (sh l0 d) = ((registerAll bs d).1, sh l0 (registerAll bs d).2)
  | [], d => rfl
  | b :: bs, d => by
    simp only [registerAll, register_sh, registerAll_sh l0 bs]

theorem declareParams_sh {l0 u u'} (h : Agree l0 u u') : ∀ ps (d : Drv),
    declareParams u ps (sh l0 d) = ((declareParams u' ps d).1, sh l0 (declareParams u' ps d).2)
  | [], d => rfl
  | (n, s) :: ps, d => by
    simp only [declareParams, declareLocal_sh h, declareParams_sh h ps]

/-- Lengthen the log of a result. -/
def shO {α : Type} (l0 : List Cmd) (x : Outcome (α × Drv)) : Outcome (α × Drv) :=
  x >>= fun r => .ok (r.1, sh l0 r.2)

@[simp] theorem shO_ok {α : Type} (l0) (r : α × Drv) : shO l0 (.ok r) = .ok (r.1, sh l0 r.2) := rfl
@[simp] theorem shO_throw {α : Type} (l0) : shO (α := α) l0 .throw = .throw := rfl
@[simp] theorem shO_ub {α : Type} (l0) : shO (α := α) l0 .ub = .ub := rfl

theorem shO_bind {α β : Type} {l0} {x : Outcome (α × Drv)} {f g : α × Drv → Outcome (β × Drv)}
    (h : ∀ a d, f (a, sh l0 d) = shO l0 (g (a, d))) : (shO l0 x >>= f) = shO l0 (x >>= g) := by
  cases x with
  | ok r => exact h r.1 r.2
  | throw => rfl
  | ub => rfl

theorem bind_shO {α β : Type} {l0} {x : Outcome α} {f g : α → Outcome (β × Drv)}
    (h : ∀ a, f a = shO l0 (g a)) : (x >>= f) = shO l0 (x >>= g) := by
  cases x with
  | ok r => exact h r
  | throw => rfl
  | ub => rfl

mutual
theorem tr_sh {l0 u u'} (h : Agree l0 u u') : ∀ t d, tr u t (sh l0 d) = shO l0 (tr u' t d)
  | .tru, d => rfl
  | .fls, d => rfl
  | .num q, d => rfl
  | .dec r, d => rfl
  | .sym n, d => by
    simp only [tr, sh]
    refine bind_shO fun v => ?_
    split <;> rfl
  | .eq a b, d => by
    simp only [tr, tr_sh h a]
    refine shO_bind fun x d => ?_
    simp only [tr_sh h b]
    exact shO_bind fun y d => bind_shO fun t => rfl
  | .rel o a b, d => by
    simp only [tr, tr_sh h a]
    refine shO_bind fun x d => ?_
    simp only [tr_sh h b]
    exact shO_bind fun y d => bind_shO fun t => bind_shO fun t => rfl
  | .and ts, d => by
    simp only [tr, trs_sh h ts]
    exact shO_bind fun y d => bind_shO fun t => rfl
  | .or ts, d => by
    simp only [tr, trs_sh h ts]
    exact shO_bind fun y d => bind_shO fun t => rfl
  | .xor ts, d => by
    simp only [tr, trs_sh h ts]
    exact shO_bind fun y d => bind_shO fun t => rfl
  | .not t, d => by
    simp only [tr, tr_sh h t]
    exact shO_bind fun y d => bind_shO fun t => rfl
  | .imp a b, d => by
    simp only [tr, tr_sh h a]
    refine shO_bind fun x d => ?_
    simp only [tr_sh h b]
    exact shO_bind fun y d => bind_shO fun t => bind_shO fun t => rfl
  | .ite c a b, d => by
    simp only [tr, tr_sh h c]
    refine shO_bind fun x d => ?_
    simp only [tr_sh h a]
    refine shO_bind fun x d => ?_
    simp only [tr_sh h b]
    exact shO_bind fun y d => bind_shO fun t => bind_shO fun t => rfl
  | .all bs body, d => by
    simp only [tr, push_sh, registerAll_sh]
    refine bind_shO fun dom => ?_
    simp only [tr_sh h body]
    refine shO_bind fun x d => ?_
    simp only [pop_sh]
    cases d.popScope with
    | ok d =>
      simp only [Outcome.bind_ok]
      exact bind_shO fun f => rfl
    | throw => rfl
    | ub => rfl
  | .let_ ns ts body, d => by
    simp only [tr, push_sh, trs_sh h ts]
    refine shO_bind fun xs d => ?_
    simp only [bindLoop_sh h, tr_sh h body]
    refine shO_bind fun x d => ?_
    simp only [pop_sh]
    cases d.popScope <;> rfl
  | .add t ts, d => by
    simp only [tr, tr_sh h t]
    refine shO_bind fun x d => ?_
    simp only [trs_sh h ts]
    exact shO_bind fun y d => bind_shO fun t => rfl
  | .neg t, d => by
    simp only [tr, tr_sh h t]
    exact shO_bind fun y d => bind_shO fun t => rfl
  | .sub t ts, d => by
    simp only [tr, tr_sh h t]
    refine shO_bind fun x d => ?_
    simp only [trs_sh h ts]
    exact shO_bind fun y d => bind_shO fun t => rfl
  | .mul t ts, d => by
    simp only [tr, tr_sh h t]
    refine shO_bind fun x d => ?_
    simp only [trs_sh h ts]
    exact shO_bind fun y d => bind_shO fun t => rfl
  | .div t ts, d => by
    simp only [tr, tr_sh h t]
    refine shO_bind fun x d => ?_
    simp only [trs_sh h ts]
    exact shO_bind fun y d => bind_shO fun t => rfl
  | .fn1 f t, d => by
    simp only [tr, tr_sh h t]
    exact shO_bind fun y d => bind_shO fun t => rfl
  | .fn2 f a b, d => by
    simp only [tr, tr_sh h a]
    refine shO_bind fun x d => ?_
    simp only [tr_sh h b]
    exact shO_bind fun y d => bind_shO fun t => bind_shO fun t => rfl
  | .call n ts, d => by
    simp only [tr, trs_sh h ts]
    refine shO_bind fun xs d => ?_
    simp only [sh]
    cases d.funs.map n with
    | none => rfl
    | some fd => exact bind_shO fun r => rfl
theorem trs_sh {l0 u u'} (h : Agree l0 u u') : ∀ ts d, trs u ts (sh l0 d) = shO l0 (trs u' ts d)
  | [], d => rfl
  | t :: ts, d => by
    simp only [trs, tr_sh h t]
    refine shO_bind fun x d => ?_
    simp only [trs_sh h ts]
    exact shO_bind fun y d => rfl
end

theorem foldl_sh {l0 u u'} (h : Agree l0 u u') : ∀ (cs : List Cmd) (d : Drv),
    cs.foldl (Drv.call u) (sh l0 d) = sh l0 (cs.foldl (Drv.call u') d)
  | [], d => rfl
  | c :: cs, d => by simp only [List.foldl_cons, call_sh h, foldl_sh h cs]

theorem step_sh {l0 u u'} (h : Agree l0 u u') (d : Drv) (c : SCmd) :
    step u (sh l0 d) c = (step u' d c >>= fun d => .ok (sh l0 d)) := by
  cases c with
  | declare n s dom =>
    cases dom with
    | none => simp only [step, declare_sh h, Outcome.bind_ok]
    | some p => simp only [step, declare_sh h, call_sh h, Outcome.bind_ok]
  | define n ps ret body =>
    simp only [step, push_sh, declareParams_sh h, tr_sh h]
    cases tr u' body (declareParams u' ps d.pushScope).2 with
    | throw => rfl
    | ub => rfl
    | ok r =>
      simp only [shO_ok, Outcome.bind_ok, pop_sh]
      cases r.2.popScope with
      | throw => rfl
      | ub => rfl
      | ok d =>
        simp only [Outcome.bind_ok]
        split
        · simp only [declare_sh h]
          cases mkDef (d.declare u' n ret).1 r.1 with
          | throw => rfl
          | ub => rfl
          | ok f => simp only [Outcome.bind_ok, call_sh h]
        · rfl
  | assert t =>
    simp only [step, tr_sh h]
    cases tr u' t d with
    | throw => rfl
    | ub => rfl
    | ok r =>
      simp only [shO_ok, Outcome.bind_ok]
      cases r.1.formula with
      | throw => rfl
      | ub => rfl
      | ok f => simp only [Outcome.bind_ok, call_sh h]
  | check => simp only [step, call_sh h, Outcome.bind_ok]
  | push n =>
    simp only [step]
    split
    · rfl
    · simp only [foldl_sh h, Outcome.bind_ok]
  | pop n =>
    simp only [step]
    split
    · rfl
    · simp only [foldl_sh h, Outcome.bind_ok]

/-! ## Only checks answer -/

/-- No check has been called. -/
def Mute (d : Drv) : Prop := Cmd.check ∉ d.log

/-- Results of a computation that starts without checks. -/
def Keeps {α : Type} (x : Outcome (α × Drv)) : Prop := ∀ r, x = .ok r → Mute r.2

theorem keeps_bind {α β : Type} {x : Outcome (α × Drv)} {f : α × Drv → Outcome (β × Drv)}
    (h : Keeps x) (hf : ∀ a d, Mute d → Keeps (f (a, d))) : Keeps (x >>= f) := by
  cases x with
  | ok r => exact hf r.1 r.2 (h r rfl)
  | throw => intro r h; cases h
  | ub => intro r h; cases h

theorem keeps_skip {α β : Type} {x : Outcome α} {f : α → Outcome (β × Drv)}
    (hf : ∀ a, Keeps (f a)) : Keeps (x >>= f) := by
  cases x with
  | ok r => exact hf r
  | throw => intro r h; cases h
  | ub => intro r h; cases h

theorem keeps_ok {α : Type} {a : α} {d : Drv} (h : Mute d) : Keeps (.ok (a, d)) := by
  intro r e; cases e; exact h

theorem mute_call {u d c} (h : Mute d) (hc : c ≠ Cmd.check) : Mute (Drv.call u d c) := by
  simp only [Mute, Drv.call, List.mem_append, List.mem_singleton, not_or] at h ⊢
  exact ⟨h, fun e => hc e.symm⟩

theorem mute_register {d n s} (h : Mute d) : Mute (Drv.register d n s).2 := by
  simp only [Mute, Drv.register, List.mem_append, List.mem_singleton, not_or] at h ⊢
  exact ⟨h, by simp⟩

theorem mute_declare {u d n s} (h : Mute d) : Mute (Drv.declare u d n s).2 :=
  mute_call (mute_register h) (by simp)

theorem mute_local {u d n s} (h : Mute d) : Mute (Drv.declareLocal u d n s).2 :=
  mute_call (mute_register h) (by simp)

theorem mute_pop {d d'} (h : Mute d) (hp : Drv.popScope d = .ok d') : Mute d' := by
  unfold Mute; rw [Verif.Proof.Main.popScope_grows hp]; exact h

theorem mute_bind {u} : ∀ l {d : Drv}, Mute d → Mute (bindLoop u l d)
  | [], d, h => h
  | (n, .fml f) :: l, d, h => mute_bind l (mute_call (mute_local h) (by simp))
  | (n, .expr e) :: l, d, h => mute_bind l (mute_call (mute_local h) (by simp))

theorem mute_registers : ∀ bs {d : Drv}, Mute d → Mute (registerAll bs d).2
  | [], d, h => h
  | b :: bs, d, h => mute_registers bs (mute_register h)

theorem mute_params {u} : ∀ ps {d : Drv}, Mute d → Mute (declareParams u ps d).2
  | [], d, h => h
  | (n, s) :: ps, d, h => mute_params ps (mute_local h)

mutual
theorem tr_mute {u} : ∀ t {d}, Mute d → Keeps (tr u t d)
  | .tru, d, h => keeps_ok h
  | .fls, d, h => keeps_ok h
  | .num q, d, h => keeps_ok h
  | .dec r, d, h => keeps_ok h
  | .sym n, d, h => by
    simp only [tr]
    refine keeps_skip fun v => ?_
    split <;> exact keeps_ok h
  | .eq a b, d, h => by
    simp only [tr]
    exact keeps_bind (tr_mute a h) fun _ _ h => keeps_bind (tr_mute b h) fun _ _ h =>
      keeps_skip fun _ => keeps_ok h
  | .rel o a b, d, h => by
    simp only [tr]
    exact keeps_bind (tr_mute a h) fun _ _ h => keeps_bind (tr_mute b h) fun _ _ h =>
      keeps_skip fun _ => keeps_skip fun _ => keeps_ok h
  | .and ts, d, h => by
    simp only [tr]
    exact keeps_bind (trs_mute ts h) fun _ _ h => keeps_skip fun _ => keeps_ok h
  | .or ts, d, h => by
    simp only [tr]
    exact keeps_bind (trs_mute ts h) fun _ _ h => keeps_skip fun _ => keeps_ok h
  | .xor ts, d, h => by
    simp only [tr]
    exact keeps_bind (trs_mute ts h) fun _ _ h => keeps_skip fun _ => keeps_ok h
  | .not t, d, h => by
    simp only [tr]
    exact keeps_bind (tr_mute t h) fun _ _ h => keeps_skip fun _ => keeps_ok h
  | .imp a b, d, h => by
    simp only [tr]
    exact keeps_bind (tr_mute a h) fun _ _ h => keeps_bind (tr_mute b h) fun _ _ h =>
      keeps_skip fun _ => keeps_skip fun _ => keeps_ok h
  | .ite c a b, d, h => by
    simp only [tr]
    exact keeps_bind (tr_mute c h) fun _ _ h => keeps_bind (tr_mute a h) fun _ _ h =>
      keeps_bind (tr_mute b h) fun _ _ h => keeps_skip fun _ => keeps_skip fun _ => keeps_ok h
  | .all bs body, d, h => by
    simp only [tr]
    refine keeps_skip fun dom => keeps_bind (tr_mute body (mute_registers bs h)) fun x d h => ?_
    cases hp : d.popScope with
    | ok d' =>
      simp only [Outcome.bind_ok]
      exact keeps_skip fun _ => keeps_ok (mute_pop h hp)
    | throw => intro r h; cases h
    | ub => intro r h; cases h
  | .let_ ns ts body, d, h => by
    simp only [tr]
    refine keeps_bind (trs_mute ts (d := d.pushScope) h) fun xs d h =>
      keeps_bind (tr_mute body (mute_bind _ h)) fun x d h => ?_
    cases hp : d.popScope with
    | ok d' => exact keeps_ok (mute_pop h hp)
    | throw => intro r h; cases h
    | ub => intro r h; cases h
  | .add t ts, d, h => by
    simp only [tr]
    exact keeps_bind (tr_mute t h) fun _ _ h => keeps_bind (trs_mute ts h) fun _ _ h =>
      keeps_skip fun _ => keeps_ok h
  | .neg t, d, h => by
    simp only [tr]
    exact keeps_bind (tr_mute t h) fun _ _ h => keeps_skip fun _ => keeps_ok h
  | .sub t ts, d, h => by
    simp only [tr]
    exact keeps_bind (tr_mute t h) fun _ _ h => keeps_bind (trs_mute ts h) fun _ _ h =>
      keeps_skip fun _ => keeps_ok h
  | .mul t ts, d, h => by
    simp only [tr]
    exact keeps_bind (tr_mute t h) fun _ _ h => keeps_bind (trs_mute ts h) fun _ _ h =>
      keeps_skip fun _ => keeps_ok h
  | .div t ts, d, h => by
    simp only [tr]
    exact keeps_bind (tr_mute t h) fun _ _ h => keeps_bind (trs_mute ts h) fun _ _ h =>
      keeps_skip fun _ => keeps_ok h
  | .fn1 f t, d, h => by
    simp only [tr]
    exact keeps_bind (tr_mute t h) fun _ _ h => keeps_skip fun _ => keeps_ok h
  | .fn2 f a b, d, h => by
    simp only [tr]
    exact keeps_bind (tr_mute a h) fun _ _ h => keeps_bind (tr_mute b h) fun _ _ h =>
      keeps_skip fun _ => keeps_skip fun _ => keeps_ok h
  | .call n ts, d, h => by
    simp only [tr]
    refine keeps_bind (trs_mute ts h) fun xs d h => ?_
    cases hf : d.funs.map n with
    | none => intro r h; simp at h
    | some fd => exact keeps_skip fun _ => keeps_ok h
theorem trs_mute {u} : ∀ ts {d}, Mute d → Keeps (trs u ts d)
  | [], d, h => keeps_ok h
  | t :: ts, d, h => by
    simp only [trs]
    exact keeps_bind (tr_mute t h) fun _ _ h => keeps_bind (trs_mute ts h) fun _ _ h => keeps_ok h
end

theorem mute_calls {u} : ∀ (cs : List Cmd) {d : Drv}, Cmd.check ∉ cs → Mute d →
    Mute (cs.foldl (Drv.call u) d)
  | [], d, _, h => h
  | c :: cs, d, hc, h => mute_calls cs (fun k => hc (by simp [k]))
      (mute_call h fun e => hc (by simp [e]))

theorem step_mute {u d c d'} (hc : c ≠ SCmd.check) (h : Mute d) (hs : step u d c = .ok d') :
    Mute d' := by
  cases c with
  | declare n s dom =>
    cases dom with
    | none => cases hs; exact mute_declare h
    | some p => cases hs; exact mute_call (mute_declare h) (by simp)
  | define n ps ret body =>
    simp only [step] at hs
    obtain ⟨r, h1, hs⟩ := bindO_ok hs
    obtain ⟨d2, h2, hs⟩ := bindO_ok hs
    have m2 := mute_pop (tr_mute body (mute_params ps (d := d.pushScope) h) r h1) h2
    split at hs
    · obtain ⟨f, -, hs⟩ := bindO_ok hs
      cases hs
      exact mute_call (mute_declare m2) (by simp)
    · cases hs; exact m2
  | assert t =>
    simp only [step] at hs
    obtain ⟨r, h1, hs⟩ := bindO_ok hs
    obtain ⟨f, -, hs⟩ := bindO_ok hs
    cases hs
    exact mute_call (tr_mute t h r h1) (by simp)
  | check => exact absurd rfl hc
  | push n =>
    simp only [step] at hs
    split at hs
    · cases hs
    · cases hs; exact mute_calls _ (by simp [List.mem_replicate]) h
  | pop n =>
    simp only [step] at hs
    split at hs
    · cases hs
    · cases hs; exact mute_calls _ (by simp [List.mem_replicate]) h

theorem mute_run {cfg} : ∀ {l : List Cmd} {c r}, Cmd.check ∉ l → runCmds cfg c l = .ok r → r.1 = []
  | [], c, r, _, h => by cases h; rfl
  | x :: l, c, r, hx, h => by
    simp only [runCmds] at h
    obtain ⟨a, h1, h⟩ := bindR_ok h
    obtain ⟨q, h2, h⟩ := bindR_ok h
    cases h
    have e2 := mute_run (fun k => hx (by simp [k])) h2
    have e1 : a.1 = [] := by
      cases x with
      | check => simp at hx
      | _ =>
        simp only [stepCmd] at h1
        first
        | (cases h1; rfl)
        | (obtain ⟨y, -, h1⟩ := bindR_ok h1; cases h1; rfl)
    simp [e1, e2]

/-! ## The calls collected and the calls made -/

open Verif.Model.Main Verif.Spec.Smt2Scan

theorem runAt_app {mk sched} : ∀ (l m : List Cmd) (i : Nat) (c : Ctx),
    runAt mk sched i c (l ++ m) = Run.bind (runAt mk sched i c l) fun r =>
      Run.bind (runAt mk sched (i + l.length) r.2 m) fun q => .ok (r.1 ++ q.1, q.2)
  | [], m, i, c => by
    simp only [List.nil_append, runAt, Run.bind, List.length_nil, Nat.add_zero]
    cases runAt mk sched i c m <;> simp [Run.bind]
  | x :: l, m, i, c => by
    simp only [List.cons_append, runAt]
    cases stepCmd (mk (sched i)) c x with
    | ok r =>
      simp only [Run.bind_ok]
      rw [runAt_app l m (i + 1) r.2]
      have e : i + 1 + l.length = i + (x :: l).length := by simp; omega
      rw [e]
      show Run.bind (Run.bind _ _) _ = Run.bind (Run.bind _ _) _
      cases runAt mk sched (i + 1) r.2 l with
      | ok q =>
        simp only [Run.bind]
        cases runAt mk sched (i + (x :: l).length) q.2 m <;> simp
      | throw => rfl
      | ub => rfl
      | oof => rfl
    | throw => rfl
    | ub => rfl
    | oof => rfl

theorem runAt_congr {mk} {s s' : Nat → Opts} : ∀ (l : List Cmd) (i : Nat) (c : Ctx),
    (∀ j, i ≤ j → j < i + l.length → s j = s' j) → runAt mk s i c l = runAt mk s' i c l
  | [], _, _, _ => rfl
  | x :: l, i, c, h => by
    simp only [runAt]
    rw [h i (le_refl _) (by simp)]
    congr 1
    funext r
    rw [runAt_congr l (i + 1) r.2 fun j h1 h2 => h j (by omega) (by simp; omega)]

/-- The driver that makes the calls and the driver that collects them are in the same state. -/
structure Inv (mk : Opts → CCfg) (st : XState) (f : FState) (ls : List Line) : Prop where
  drv : f.drv = sh f.drv.log { st.drv with log := [] }
  opts : ∀ i, f.drv.log.length ≤ i → f.sched i = st.opts
  ran : runAt mk f.sched 0 (Ctx.init 0) f.drv.log = .ok (ls, st.ctx)

theorem inv_app {mk st f ls} (h : Inv mk st f ls) (m : List Cmd) :
    runAt mk f.sched 0 (Ctx.init 0) (f.drv.log ++ m) = Run.bind (runCmds (mk st.opts) st.ctx m) fun q =>
      .ok (ls ++ q.1.map (smt2Line st.opts), q.2) := by
  rw [runAt_app, h.ran]
  simp only [Run.bind]
  rw [runAt_congr (s' := fun _ => st.opts) m _ _ fun j h1 _ => h.opts j (by omega),
    Verif.Proof.Main.runAt_const]
  cases runCmds (mk st.opts) st.ctx m <;> rfl

theorem inv_agree {mk st f ls} (h : Inv mk st f ls) :
    Agree f.drv.log (idsAt mk f.sched) (idsTakenFrom (mk st.opts) st.ctx) := by
  have key : ∀ m, nextAt mk f.sched (f.drv.log ++ m) = nextFrom (mk st.opts) st.ctx m := by
    intro m
    unfold nextAt nextFrom
    rw [inv_app h]
    cases runCmds (mk st.opts) st.ctx m <;> rfl
  intro l hl
  unfold idsAt idsTakenFrom
  rw [List.dropLast_append_of_ne_nil hl, key, key]

theorem inv_step {mk st f ls} (h : Inv mk st f ls) (c : SCmd) :
    step (idsAt mk f.sched) f.drv c =
      (step (idsTakenFrom (mk st.opts) st.ctx) { st.drv with log := [] } c >>= fun d =>
        .ok (sh f.drv.log d)) := by
  conv_lhs => rw [h.drv]
  exact step_sh (inv_agree h) _ c

theorem inv_core {mk st f ls d q} (h : Inv mk st f ls)
    (hq : runCmds (mk st.opts) st.ctx d.log = .ok q) :
    Inv mk { st with drv := d, ctx := q.2 } { f with drv := sh f.drv.log d }
      (ls ++ q.1.map (smt2Line st.opts)) where
  drv := by simp [sh]
  opts := fun i hi => h.opts i (by simp [sh] at hi; omega)
  ran := by
    show runAt mk f.sched 0 (Ctx.init 0) (f.drv.log ++ d.log) = _
    rw [inv_app h, hq]; rfl

theorem inv_set {mk st f ls o} (h : Inv mk st f ls) :
    Inv mk { st with opts := o }
      { f with sched := fun i => if i < f.drv.log.length then f.sched i else o } ls where
  drv := h.drv
  opts := fun i hi => by simp only [Nat.not_lt.mpr hi, if_false]
  ran := by
    rw [← h.ran]
    exact runAt_congr _ _ _ fun j _ hj => by
      have : j < f.drv.log.length := by simpa using hj
      simp only [this, if_true]

theorem exec_runF {fmt mk} : ∀ {pcs fs}, Runs pcs fs → ∀ {st f ls0 ls}, Inv mk st f ls0 →
    exec fmt mk pcs st = (ls, .ok ()) →
    ∃ f' c, runF fmt mk fs f = .ok f' ∧ runAt mk f'.sched 0 (Ctx.init 0) f'.drv.log = .ok (ls0 ++ ls, c) := by
  intro pcs fs h
  induction h with
  | nil =>
    intro st f ls0 ls hi he
    simp only [exec, Prod.mk.injEq] at he
    exact ⟨f, st.ctx, rfl, by rw [hi.ran, ← he.1, List.append_nil]⟩
  | exit _ _ =>
    intro st f ls0 ls hi he
    simp only [exec, Prod.mk.injEq] at he
    exact ⟨f, st.ctx, rfl, by rw [hi.ran, ← he.1, List.append_nil]⟩
  | @core c pcs fs _ ih =>
    intro st f ls0 ls hi he
    simp only [exec, stepP] at he
    cases hd : step (idsTakenFrom (mk st.opts) st.ctx) { st.drv with log := [] } c with
    | ok d =>
      simp only [hd, Run.lift, Run.bind_ok, XState.calls] at he
      cases hq : runCmds (mk st.opts) st.ctx d.log with
      | ok q =>
        simp only [hq, Run.bind_ok, Prod.mk.injEq] at he
        obtain ⟨f', c', k1, k2⟩ := ih (inv_core hi hq) (Prod.ext rfl he.2)
        refine ⟨f', c', ?_, ?_⟩
        · simp only [runF, inv_step hi c, hd, Outcome.bind_ok]
          exact k1
        · rw [k2, ← he.1, List.append_assoc]
      | throw => simp [hq] at he
      | ub => simp [hq] at he
      | oof => simp [hq] at he
    | throw => simp [hd, Run.lift] at he
    | ub => simp [hd, Run.lift] at he
  | @setNum k v pcs fs _ ih =>
    intro st f ls0 ls hi he
    simp only [exec, stepP, XState.set] at he
    have ho : f.sched f.drv.log.length = st.opts := hi.opts _ (le_refl _)
    cases hb : (st.opts.setNum fmt k v).2 with
    | true => simp [hb] at he
    | false =>
      simp only [hb, Bool.false_eq_true, if_false, List.nil_append] at he
      obtain ⟨f', c', k1, k2⟩ := ih (inv_set hi) he
      exact ⟨f', c', by simpa [runF, FState.set, ho, hb] using k1, k2⟩
  | @setStr k v pcs fs _ ih =>
    intro st f ls0 ls hi he
    simp only [exec, stepP, XState.set] at he
    have ho : f.sched f.drv.log.length = st.opts := hi.opts _ (le_refl _)
    cases hb : (st.opts.setStr k v).2 with
    | true => simp [hb] at he
    | false =>
      simp only [hb, Bool.false_eq_true, if_false, List.nil_append] at he
      obtain ⟨f', c', k1, k2⟩ := ih (inv_set hi) he
      exact ⟨f', c', by simpa [runF, FState.set, ho, hb] using k1, k2⟩
  | info _ ih => intro st f ls0 ls hi he; simp only [exec, stepP, List.nil_append] at he; exact ih hi he
  | logic _ ih => intro st f ls0 ls hi he; simp only [exec, stepP, List.nil_append] at he; exact ih hi he
  | getModel _ ih => intro st f ls0 ls hi he; simp only [exec, stepP, List.nil_append] at he; exact ih hi he
  | getValue _ ih => intro st f ls0 ls hi he; simp only [exec, stepP, List.nil_append] at he; exact ih hi he
  | getOption _ ih => intro st f ls0 ls hi he; simp only [exec, stepP, List.nil_append] at he; exact ih hi he

theorem step_ext {u d c d'} (h : step u d c = .ok d') : ∃ m, d'.log = d.log ++ m := by
  have : d = sh d.log { d with log := [] } := by simp [sh]
  rw [this, step_sh (u' := fun l => u (d.log ++ l)) (fun l _ => rfl)] at h
  obtain ⟨d1, -, h⟩ := bindO_ok h
  cases h
  exact ⟨d1.log, rfl⟩

theorem runF_ext {fmt mk} : ∀ {fs : List FCmd} {f f'}, runF fmt mk fs f = .ok f' →
    (∃ m, f'.drv.log = f.drv.log ++ m) ∧ ∀ i, i < f.drv.log.length → f'.sched i = f.sched i
  | [], f, f', h => by cases h; exact ⟨⟨[], by simp⟩, fun _ _ => rfl⟩
  | .exit :: fs, f, f', h => by cases h; exact ⟨⟨[], by simp⟩, fun _ _ => rfl⟩
  | .setNum k v :: fs, f, f', h => by
    simp only [runF, FState.set] at h
    obtain ⟨f1, h1, h⟩ := bindO_ok h
    split at h1
    · cases h1
    · cases h1
      obtain ⟨k1, k2⟩ := runF_ext h
      exact ⟨k1, fun i hi => by rw [k2 i hi]; simp only [hi, if_true]⟩
  | .setStr k v :: fs, f, f', h => by
    simp only [runF, FState.set] at h
    obtain ⟨f1, h1, h⟩ := bindO_ok h
    split at h1
    · cases h1
    · cases h1
      obtain ⟨k1, k2⟩ := runF_ext h
      exact ⟨k1, fun i hi => by rw [k2 i hi]; simp only [hi, if_true]⟩
  | .core c :: fs, f, f', h => by
    simp only [runF] at h
    obtain ⟨d, h1, h⟩ := bindO_ok h
    obtain ⟨m, hm⟩ := step_ext h1
    obtain ⟨⟨m', k1⟩, k2⟩ := runF_ext h
    simp only [hm] at k1 k2
    exact ⟨⟨m ++ m', by rw [k1, List.append_assoc]⟩, fun i hi => k2 i (by simp; omega)⟩

theorem runF_exec {fmt mk} : ∀ {pcs fs}, Runs pcs fs → ∀ {st f ls0 f' r}, Inv mk st f ls0 →
    runF fmt mk fs f = .ok f' → runAt mk f'.sched 0 (Ctx.init 0) f'.drv.log = .ok r →
    ∃ ls, r.1 = ls0 ++ ls ∧ exec fmt mk pcs st = (ls, .ok ()) := by
  intro pcs fs h
  induction h with
  | nil =>
    intro st f ls0 f' r hi hf hr
    cases hf
    rw [hi.ran] at hr
    cases hr
    exact ⟨[], by simp, rfl⟩
  | exit _ _ =>
    intro st f ls0 f' r hi hf hr
    cases hf
    rw [hi.ran] at hr
    cases hr
    exact ⟨[], by simp, rfl⟩
  | @core c pcs fs _ ih =>
    intro st f ls0 f' r hi hf hr
    simp only [runF, inv_step hi c] at hf
    obtain ⟨d1, h1, hf⟩ := bindO_ok hf
    obtain ⟨d, hd, h1⟩ := bindO_ok h1
    cases h1
    obtain ⟨⟨m, k1⟩, k2⟩ := runF_ext hf
    have hq : ∃ q, runCmds (mk st.opts) st.ctx d.log = .ok q := by
      rw [k1, runAt_app] at hr
      have e := runAt_congr (mk := mk) (s := f'.sched) (s' := f.sched) (sh f.drv.log d).log 0 (Ctx.init 0)
        fun j _ hj => k2 j (by simpa using hj)
      rw [e] at hr
      have e2 := inv_app hi d.log
      have e3 : runAt mk f.sched 0 (Ctx.init 0) (sh f.drv.log d).log = _ := e2
      rw [e3] at hr
      cases hq : runCmds (mk st.opts) st.ctx d.log with
      | ok q => exact ⟨q, rfl⟩
      | throw => rw [hq] at hr; cases hr
      | ub => rw [hq] at hr; cases hr
      | oof => rw [hq] at hr; cases hr
    obtain ⟨q, hq⟩ := hq
    obtain ⟨ls, g1, g2⟩ := ih (inv_core hi hq) hf hr
    refine ⟨q.1.map (smt2Line st.opts) ++ ls, by rw [g1, List.append_assoc], ?_⟩
    simp only [exec, stepP, hd, Run.lift, Run.bind_ok, XState.calls, hq, g2]
  | @setNum k v pcs fs _ ih =>
    intro st f ls0 f' r hi hf hr
    have ho : f.sched f.drv.log.length = st.opts := hi.opts _ (le_refl _)
    simp only [runF, FState.set, ho] at hf
    cases hb : (st.opts.setNum fmt k v).2 with
    | true => simp [hb] at hf
    | false =>
      simp only [hb, Bool.false_eq_true, if_false, Outcome.bind_ok] at hf
      obtain ⟨ls, g1, g2⟩ := ih (inv_set hi) hf hr
      exact ⟨ls, g1, by simp [exec, stepP, XState.set, hb, g2]⟩
  | @setStr k v pcs fs _ ih =>
    intro st f ls0 f' r hi hf hr
    have ho : f.sched f.drv.log.length = st.opts := hi.opts _ (le_refl _)
    simp only [runF, FState.set, ho] at hf
    cases hb : (st.opts.setStr k v).2 with
    | true => simp [hb] at hf
    | false =>
      simp only [hb, Bool.false_eq_true, if_false, Outcome.bind_ok] at hf
      obtain ⟨ls, g1, g2⟩ := ih (inv_set hi) hf hr
      exact ⟨ls, g1, by simp [exec, stepP, XState.set, hb, g2]⟩
  | info _ ih =>
    intro st f ls0 f' r hi hf hr; obtain ⟨ls, g1, g2⟩ := ih hi hf hr
    exact ⟨ls, g1, by simp [exec, stepP, g2]⟩
  | logic _ ih =>
    intro st f ls0 f' r hi hf hr; obtain ⟨ls, g1, g2⟩ := ih hi hf hr
    exact ⟨ls, g1, by simp [exec, stepP, g2]⟩
  | getModel _ ih =>
    intro st f ls0 f' r hi hf hr; obtain ⟨ls, g1, g2⟩ := ih hi hf hr
    exact ⟨ls, g1, by simp [exec, stepP, g2]⟩
  | getValue _ ih =>
    intro st f ls0 f' r hi hf hr; obtain ⟨ls, g1, g2⟩ := ih hi hf hr
    exact ⟨ls, g1, by simp [exec, stepP, g2]⟩
  | getOption _ ih =>
    intro st f ls0 f' r hi hf hr; obtain ⟨ls, g1, g2⟩ := ih hi hf hr
    exact ⟨ls, g1, by simp [exec, stepP, g2]⟩

theorem inv_init (mk : Opts → CCfg) (o : Opts) :
    Inv mk { opts := o } { sched := fun _ => o } [] where
  drv := rfl
  opts := fun _ _ => rfl
  ran := rfl

/-- Without objectives the answers are those of `Main.lean`. -/
theorem exec_answers {fmt mk o pcs fs ls} (h : Runs pcs fs) :
    exec fmt mk pcs { opts := o } = (ls, .ok ()) ↔ answers fmt mk o fs = .ok ls := by
  constructor
  · intro he
    obtain ⟨f, c, h1, h2⟩ := exec_runF h (inv_init mk o) he
    simp only [answers, h1, Run.lift, Run.bind_ok, h2, List.nil_append]
  · intro ha
    unfold answers at ha
    obtain ⟨f, h1, ha⟩ := bindR_ok ha
    obtain ⟨r, h2, ha⟩ := bindR_ok ha
    cases ha
    obtain ⟨ls, g1, g2⟩ := runF_exec h (inv_init mk o) (lift_ok h1) h2
    rw [g2, g1, List.nil_append]

/-! ## One line after the other -/

theorem exec_cons {fmt mk c cs st} (hc : c ≠ PCmd.exit) : exec fmt mk (c :: cs) st =
    match stepP fmt mk st c with
    | .ok r => (r.1 ++ (exec fmt mk cs r.2).1, (exec fmt mk cs r.2).2)
    | .throw => ([], .throw)
    | .ub => ([], .ub)
    | .oof => ([], .oof) := by
  cases c <;> first | rfl | exact absurd rfl hc

theorem stepP_lines {fmt mk st c r} (h : stepP fmt mk st c = .ok r) :
    (c = .core .check ∧ ∃ y, r.1 = [y]) ∨ r.1 = [] := by
  cases c with
  | core c =>
    simp only [stepP, XState.calls] at h
    obtain ⟨d, h1, h⟩ := bindR_ok h
    obtain ⟨q, h2, h⟩ := bindR_ok h
    cases h
    by_cases hc : c = .check
    · subst hc
      left
      refine ⟨rfl, ?_⟩
      have h1 := lift_ok h1
      simp only [step, Drv.call, Outcome.ok.injEq] at h1
      subst h1
      simp only [List.nil_append, runCmds, stepCmd] at h2
      obtain ⟨a, h3, h2⟩ := bindR_ok h2
      obtain ⟨b, h4, h3⟩ := bindR_ok h3
      cases h3
      cases h2
      exact ⟨_, rfl⟩
    · right
      have : Mute d := step_mute hc (by simp [Mute]) (lift_ok h1)
      rw [mute_run this h2]
      rfl
  | setNum k v =>
    simp only [stepP, XState.set] at h
    split at h <;> cases h
    exact .inr rfl
  | setStr k v =>
    simp only [stepP, XState.set] at h
    split at h <;> cases h
    exact .inr rfl
  | optimise max t =>
    simp only [stepP] at h
    obtain ⟨x, h1, h⟩ := bindR_ok h
    split at h
    · cases h
    · obtain ⟨y, h2, h⟩ := bindR_ok h
      obtain ⟨c, -, h⟩ := bindR_ok h
      cases h
      right
      simp only [XState.calls] at h2
      obtain ⟨q, h3, h2⟩ := bindR_ok h2
      cases h2
      have : Mute x.2 := tr_mute t (by simp [Mute]) x (lift_ok h1)
      simp only [mute_run this h3, List.map_nil]
  | exit => cases h; exact .inr rfl
  | info => cases h; exact .inr rfl
  | logic n => cases h; exact .inr rfl
  | getModel => cases h; exact .inr rfl
  | getValue ts => cases h; exact .inr rfl
  | getOption k => cases h; exact .inr rfl

/-- Every line printed is printed by a check, and depends on nothing behind that check. -/
theorem exec_line {fmt mk x} : ∀ {pcs st l1 l2 e}, exec fmt mk pcs st = (l1 ++ x :: l2, e) →
    ∃ pre post, pcs = pre ++ .core .check :: post ∧ .exit ∉ pre ∧
      exec fmt mk (pre ++ [.core .check]) st = (l1 ++ [x], .ok ())
  | [], st, l1, l2, e, h => by
    have := congrArg Prod.fst h
    simp [exec] at this
  | c :: cs, st, l1, l2, e, h => by
    by_cases hc : c = .exit
    · subst hc
      have := congrArg Prod.fst h
      simp [exec] at this
    rw [exec_cons hc] at h
    cases hs : stepP fmt mk st c with
    | throw => simp [hs] at h
    | ub => simp [hs] at h
    | oof => simp [hs] at h
    | ok r =>
      simp only [hs] at h
      rcases stepP_lines hs with ⟨rfl, y, hy⟩ | hy
      · cases l1 with
        | nil =>
          have h1 := congrArg Prod.fst h
          simp only [hy, List.cons_append, List.nil_append, List.cons.injEq] at h1
          refine ⟨[], cs, rfl, by simp, ?_⟩
          rw [List.nil_append, exec_cons hc, hs]
          simp [hy, exec, h1.1]
        | cons z l1 =>
          have h1 := congrArg Prod.fst h
          simp only [hy, List.cons_append, List.nil_append, List.cons.injEq] at h1
          have h2 : (exec fmt mk cs r.2).2 = e := by
            have := congrArg Prod.snd h
            exact this
          obtain ⟨pre, post, k1, k2, k3⟩ := exec_line (fmt := fmt) (mk := mk) (pcs := cs) (st := r.2)
            (l1 := l1) (l2 := l2) (e := e) (Prod.ext h1.2 h2)
          refine ⟨.core .check :: pre, post, by rw [k1]; rfl, by simpa using k2, ?_⟩
          rw [List.cons_append, exec_cons hc, hs]
          simp [k3, hy, h1.1]
      · rw [hy, List.nil_append] at h
        obtain ⟨pre, post, k1, k2, k3⟩ := exec_line (fmt := fmt) (mk := mk) (pcs := cs) (st := r.2)
          (l1 := l1) (l2 := l2) (e := e) h
        refine ⟨c :: pre, post, by rw [k1]; rfl, by simp [k2, Ne.symm hc], ?_⟩
        rw [List.cons_append, exec_cons hc, hs]
        simp [k3, hy]

/-- The states between the commands. -/
theorem exec_split {fmt mk q} : ∀ {pcs fs}, Runs pcs fs → .exit ∉ pcs → ∀ {st f ls0 ls},
    Inv mk st f ls0 → exec fmt mk (pcs ++ q) st = (ls, .ok ()) →
    ∃ st1 f1 ls1 ls2, ls = ls1 ++ ls2 ∧ runF fmt mk fs f = .ok f1 ∧ Inv mk st1 f1 (ls0 ++ ls1) ∧
      exec fmt mk q st1 = (ls2, .ok ()) := by
  intro pcs fs h
  induction h with
  | nil => intro _ st f ls0 ls hi he; exact ⟨st, f, [], ls, rfl, rfl, by simpa using hi, he⟩
  | exit _ _ => intro hx; simp at hx
  | @core c pcs fs _ ih =>
    intro hx st f ls0 ls hi he
    simp only [List.cons_append, exec, stepP] at he
    cases hd : step (idsTakenFrom (mk st.opts) st.ctx) { st.drv with log := [] } c with
    | ok d =>
      simp only [hd, Run.lift, Run.bind_ok, XState.calls] at he
      cases hq : runCmds (mk st.opts) st.ctx d.log with
      | ok q =>
        simp only [hq, Run.bind_ok, Prod.mk.injEq] at he
        obtain ⟨st1, f1, ls1, ls2, k1, k2, k3, k4⟩ :=
          ih (by simpa using hx) (inv_core hi hq) (Prod.ext rfl he.2)
        refine ⟨st1, f1, q.1.map (smt2Line st.opts) ++ ls1, ls2, ?_, ?_, ?_, k4⟩
        · rw [← he.1, List.append_assoc]; exact congrArg _ k1
        · simp only [runF, inv_step hi c, hd, Outcome.bind_ok]
          exact k2
        · rw [← List.append_assoc]; exact k3
      | throw => simp [hq] at he
      | ub => simp [hq] at he
      | oof => simp [hq] at he
    | throw => simp [hd, Run.lift] at he
    | ub => simp [hd, Run.lift] at he
  | @setNum k v pcs fs _ ih =>
    intro hx st f ls0 ls hi he
    simp only [List.cons_append, exec, stepP, XState.set] at he
    have ho : f.sched f.drv.log.length = st.opts := hi.opts _ (le_refl _)
    cases hb : (st.opts.setNum fmt k v).2 with
    | true => simp [hb] at he
    | false =>
      simp only [hb, Bool.false_eq_true, if_false, List.nil_append] at he
      obtain ⟨st1, f1, ls1, ls2, k1, k2, k3, k4⟩ := ih (by simpa using hx) (inv_set hi) he
      exact ⟨st1, f1, ls1, ls2, k1, by simpa [runF, FState.set, ho, hb] using k2, k3, k4⟩
  | @setStr k v pcs fs _ ih =>
    intro hx st f ls0 ls hi he
    simp only [List.cons_append, exec, stepP, XState.set] at he
    have ho : f.sched f.drv.log.length = st.opts := hi.opts _ (le_refl _)
    cases hb : (st.opts.setStr k v).2 with
    | true => simp [hb] at he
    | false =>
      simp only [hb, Bool.false_eq_true, if_false, List.nil_append] at he
      obtain ⟨st1, f1, ls1, ls2, k1, k2, k3, k4⟩ := ih (by simpa using hx) (inv_set hi) he
      exact ⟨st1, f1, ls1, ls2, k1, by simpa [runF, FState.set, ho, hb] using k2, k3, k4⟩
  | info _ ih | logic _ ih | getModel _ ih | getValue _ ih | getOption _ ih =>
    intro hx st f ls0 ls hi he
    simp only [List.cons_append, exec, stepP, List.nil_append] at he
    exact ih (by simpa using hx) hi he

/-- Settings, commands, an objective and a check. -/
theorem exec_opt {fmt mk o pcs cs s max t ls x} (h : Runs pcs (cs ++ s.map .core)) (hx : .exit ∉ pcs)
    (hs : ∀ c ∈ cs, Verif.Spec.Main.IsSetting c)
    (he : exec fmt mk (pcs ++ [.optimise max t, .core .check]) { opts := o } = (ls ++ [x], .ok ())) :
    ∃ f1 o1 r, runF fmt mk cs { sched := fun _ => o } = .ok f1 ∧ f1 = { sched := fun _ => o1 } ∧
      solveOpt (mk o1) s max t [.check] = .ok [r] ∧ x = smt2Line o1 r := by
  obtain ⟨st1, f1, ls1, ls2, e1, e2, e3, e4⟩ := exec_split h hx (inv_init mk o) he
  have hne : FCmd.exit ∉ cs := fun k => hs _ k
  obtain ⟨f0, g1, g2⟩ := Verif.Proof.Main.runF_append cs _ hne e2
  obtain ⟨o1, rfl⟩ := Verif.Proof.Main.runF_settings cs hs g1
  obtain ⟨g3, g4⟩ := Verif.Proof.Main.runF_core s g2
  simp only at g3 g4
  have ho : st1.opts = o1 := by
    have := e3.opts _ (le_refl _)
    rw [g4] at this
    exact this.symm
  have hag := inv_agree e3
  rw [g4, Verif.Proof.Main.idsAt_const, ho] at hag
  rw [Verif.Proof.Main.idsAt_const] at g3
  have hran : ∀ m, Run.bind (runCmds (mk o1) (Ctx.init 0) (f1.drv.log ++ m))
      (fun r => Run.ok (r.1.map (smt2Line o1), r.2)) =
      Run.bind (runCmds (mk o1) st1.ctx m) fun q => .ok (([] ++ ls1) ++ q.1.map (smt2Line o1), q.2) := by
    intro m
    have := inv_app e3 m
    rw [g4, Verif.Proof.Main.runAt_const, ho] at this
    exact this
  -- the objective
  rw [exec_cons (by simp)] at e4
  cases h5 : stepP fmt mk st1 (.optimise max t) with
  | throw => simp [h5] at e4
  | ub => simp [h5] at e4
  | oof => simp [h5] at e4
  | ok a =>
    simp only [h5] at e4
    have ha : a.1 = [] := by
      rcases stepP_lines h5 with ⟨k, -⟩ | k
      · cases k
      · exact k
    rw [ha, List.nil_append, exec_cons (by simp)] at e4
    simp only [stepP, ho] at h5
    obtain ⟨y, h6, h5⟩ := bindR_ok h5
    obtain ⟨z, d'⟩ := y
    cases z with
    | fml f => cases h5
    | expr e =>
      simp only [XState.calls, ho] at h5
      obtain ⟨b, h7, h5⟩ := bindR_ok h5
      obtain ⟨q, h8, h7⟩ := bindR_ok h7
      cases h7
      obtain ⟨c, h9, h5⟩ := bindR_ok h5
      cases h5
      have t1 : tr (idsTaken (mk o1)) t f1.drv = .ok (.expr e, sh f1.drv.log d') := by
        have := tr_sh hag t { st1.drv with log := [] }
        rw [← e3.drv, lift_ok h6] at this
        exact this
      have t2 : ∃ as, runCmds (mk o1) (Ctx.init 0) (f1.drv.log ++ d'.log) = .ok (as, q.2) := by
        have := hran d'.log
        rw [h8] at this
        cases hr : runCmds (mk o1) (Ctx.init 0) (f1.drv.log ++ d'.log) with
        | ok w =>
          rw [hr] at this
          simp only [Run.bind, Run.ok.injEq, Prod.mk.injEq] at this
          exact ⟨w.1, by rw [← this.2]⟩
        | throw => rw [hr] at this; cases this
        | ub => rw [hr] at this; cases this
        | oof => rw [hr] at this; cases this
      obtain ⟨as, t2⟩ := t2
      cases h10 : stepP fmt mk ⟨{ d' with next := c.sat.abs.next }, o1, c⟩ (.core .check) with
      | throw => simp [h10] at e4
      | ub => simp [h10] at e4
      | oof => simp [h10] at e4
      | ok a2 =>
        simp only [h10, exec, List.append_nil, Prod.mk.injEq, and_true] at e4
        simp only [stepP, step, Drv.call, Run.lift, Run.bind_ok, XState.calls, List.nil_append,
          runCmds, stepCmd] at h10
        obtain ⟨w, h11, h10⟩ := bindR_ok h10
        cases h10
        obtain ⟨w2, h12, h11⟩ := bindR_ok h11
        cases h11
        obtain ⟨w3, h13, h12⟩ := bindR_ok h12
        cases h12
        refine ⟨_, o1, w3.1, g1, rfl, ?_, ?_⟩
        · simp only [solveOpt, g3, Run.lift, Run.bind_ok, t1, sh, t2, h9, run, step, Drv.call,
            Outcome.bind_ok, List.nil_append, runCmds, stepCmd, h13, List.append_nil]
        · rw [← e4] at e1
          have e5 := (List.append_inj' e1 (by simp)).2
          simpa using e5

/-- What is printed is not taken back. -/
theorem exec_more {fmt mk q} : ∀ {p st ls}, .exit ∉ p → exec fmt mk p st = (ls, .ok ()) →
    ∃ l e, exec fmt mk (p ++ q) st = (ls ++ l, e)
  | [], st, ls, _, h => by
    simp only [exec, Prod.mk.injEq] at h
    exact ⟨(exec fmt mk q st).1, (exec fmt mk q st).2, by rw [← h.1]; rfl⟩
  | c :: p, st, ls, hx, h => by
    have hc : c ≠ .exit := fun k => hx (by simp [k])
    rw [exec_cons hc] at h
    rw [List.cons_append, exec_cons hc]
    cases hs : stepP fmt mk st c with
    | throw => simp [hs] at h
    | ub => simp [hs] at h
    | oof => simp [hs] at h
    | ok r =>
      simp only [hs, Prod.mk.injEq] at h
      obtain ⟨l, e, k⟩ := exec_more (q := q) (p := p) (st := r.2) (fun k => hx (by simp [k]))
        (Prod.ext rfl h.2)
      refine ⟨l, e, ?_⟩
      simp only [k, ← h.1, List.append_assoc]

theorem exec_check {fmt mk} : ∀ {p st}, .exit ∉ p →
    exec fmt mk (p ++ [.core .check]) st ≠ ([], .ok ())
  | [], st, _, h => by
    rw [List.nil_append, exec_cons (by simp)] at h
    cases hs : stepP fmt mk st (.core .check) with
    | throw => simp [hs] at h
    | ub => simp [hs] at h
    | oof => simp [hs] at h
    | ok r =>
      simp only [hs, exec, List.append_nil, Prod.mk.injEq, and_true] at h
      simp only [stepP, step, Drv.call, Run.lift, Run.bind_ok, XState.calls, List.nil_append,
        runCmds, stepCmd] at hs
      obtain ⟨w, h11, hs⟩ := bindR_ok hs
      cases hs
      obtain ⟨w2, h12, h11⟩ := bindR_ok h11
      cases h11
      obtain ⟨w3, h13, h12⟩ := bindR_ok h12
      cases h12
      simp at h
  | c :: p, st, hx, h => by
    have hc : c ≠ .exit := fun k => hx (by simp [k])
    rw [List.cons_append, exec_cons hc] at h
    cases hs : stepP fmt mk st c with
    | throw => simp [hs] at h
    | ub => simp [hs] at h
    | oof => simp [hs] at h
    | ok r =>
      simp only [hs, Prod.mk.injEq, List.append_eq_nil_iff] at h
      exact exec_check (p := p) (fun k => hx (by simp [k])) (Prod.ext h.1.2 h.2)

/-- The lines before the line of the last check. -/
theorem exec_before {fmt mk x} : ∀ {p st ls}, .exit ∉ p →
    exec fmt mk (p ++ [.core .check]) st = (ls ++ [x], .ok ()) → (exec fmt mk p st).1 = ls
  | [], st, ls, _, h => by
    rw [List.nil_append, exec_cons (by simp)] at h
    cases hs : stepP fmt mk st (.core .check) with
    | throw => simp [hs] at h
    | ub => simp [hs] at h
    | oof => simp [hs] at h
    | ok r =>
      rcases stepP_lines hs with ⟨-, y, hy⟩ | hy
      · simp only [hs, hy, exec, List.append_nil, Prod.mk.injEq, and_true] at h
        have : ([] : List Line) ++ [y] = ls ++ [x] := h
        exact (List.append_inj' this rfl).1
      · simp [hs, hy, exec] at h
  | c :: p, st, ls, hx, h => by
    have hc : c ≠ .exit := fun k => hx (by simp [k])
    rw [List.cons_append, exec_cons hc] at h
    rw [exec_cons hc]
    cases hs : stepP fmt mk st c with
    | throw => simp [hs] at h
    | ub => simp [hs] at h
    | oof => simp [hs] at h
    | ok r =>
      simp only [hs, Prod.mk.injEq] at h ⊢
      obtain ⟨h1, h2⟩ := h
      rcases List.eq_nil_or_concat (exec fmt mk (p ++ [.core .check]) r.2).1 with k | ⟨l, z, k⟩
      · have : (exec fmt mk (p ++ [.core .check]) r.2) = ([], .ok ()) := Prod.ext k h2
        exact absurd this (exec_check (fun k => hx (by simp [k])))
      · rw [List.concat_eq_append] at k
        have e := exec_before (p := p) (st := r.2) (ls := l) (x := z) (fun k => hx (by simp [k])) (Prod.ext k h2)
        rw [k, ← List.append_assoc] at h1
        rw [e]
        exact (List.append_inj' h1 rfl).1

end Verif.Proof.Exec
