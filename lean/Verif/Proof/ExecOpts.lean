import Verif.Proof.Exec
import Verif.Spec.Exec
import Verif.Proof.Script
import Verif.Proof.Unsat
import Verif.Proof.DeltaModel

/-!
# Files with options anywhere
-/

namespace Verif.Proof.ExecOpts
open Verif Verif.Model Verif.Model.Smt2 Verif.Model.Main Verif.Model.Exec Verif.Model.Smt2Parse
open Verif.Spec Verif.Spec.Smt2 Verif.Spec.Exec Verif.Proof Verif.Proof.Smt2 Verif.Proof.Exec
open Verif.Spec.Smt2Scan (Runs)

theorem count_congr {use use' : List Cmd → Nat} : ∀ (cs l : List Cmd) (n : Nat),
    (∀ m, m ≠ [] → m <+: l ++ cs → use m = use' m) → count use l n cs = count use' l n cs
  | [], _, _, _ => rfl
  | c :: cs, l, n, h => by
    have ih := fun n => count_congr (use := use) (use' := use') cs (l ++ [c]) n
      (fun m h1 h2 => h m h1 (by simpa using h2))
    have e : use (l ++ [c]) = use' (l ++ [c]) := h _ (by simp) ⟨cs, by simp⟩
    cases c <;> simp only [count, ih, e]

theorem nested_congr {use use' : List Cmd → Nat} {l : List Cmd} (h : Nested use l)
    (hu : ∀ m, m ≠ [] → m <+: l → use m = use' m) : Nested use' l := by
  induction h with
  | nil => exact .nil
  | @snoc l c h1 h2 ih =>
    have hu' : ∀ m, m ≠ [] → m <+: l → use m = use' m :=
      fun m h3 h4 => hu m h3 (h4.trans (List.prefix_append l [c]))
    refine .snoc (ih hu') ?_
    have e := count_congr (use := use) (use' := use') l [] 0 (by simpa using hu')
    cases c <;> simp only [NestedOk] at h2 ⊢ <;> first | exact h2 | (rw [← e]; exact h2)

theorem nest_congr {use use' : List Cmd → Nat} {d t fs} (h : Nest use d t fs)
    (hu : ∀ m, m ≠ [] → m <+: d.log → use m = use' m) : Nest use' d t fs where
  ok := h.ok
  tied := h.tied
  oks := h.oks
  log := h.log
  nested := nested_congr h.nested hu
  cnt := by rw [h.cnt, count_congr d.log [] 0 (by simpa using hu)]

theorem idsAt_congr {mk} {s s' : Nat → Opts} {n : Nat} (h : ∀ i, i < n → s i = s' i) {m : List Cmd}
    (hm : m.length ≤ n) : idsAt mk s m = idsAt mk s' m := by
  have key : ∀ l : List Cmd, l.length ≤ n → nextAt mk s l = nextAt mk s' l := by
    intro l hl
    unfold nextAt
    rw [runAt_congr l 0 (Ctx.init 0) fun j _ hj => h j (by omega)]
  unfold idsAt
  rw [key m hm, key m.dropLast (by simp; omega)]

/-- What `nest_run` says, with options set on the way. -/
theorem nest_runF {fmt mk} : ∀ (cs : List FCmd) {rest : List SCmd} {f f' : FState} {t : Frame} {fs},
    FCmd.exit ∉ cs → Nest (idsAt mk f.sched) f.drv t fs →
    Nests t.D (fs.map Frame.D) (commands cs ++ rest) → (∀ c ∈ commands cs, TameCmd c) →
    runF fmt mk cs f = .ok f' →
    ∃ t' fs', Nest (idsAt mk f'.sched) f'.drv t' fs' ∧
      (commands cs).foldl enforce (t.s, fs.map Frame.s) = (t'.s, fs'.map Frame.s) ∧
      Nests t'.D (fs'.map Frame.D) rest
  | [], rest, f, f', t, fs, _, h, hn, _, hr => by
    cases hr
    exact ⟨t, fs, h, rfl, hn⟩
  | .exit :: cs, rest, f, f', t, fs, hx, h, hn, _, hr => by simp at hx
  | .setNum k v :: cs, rest, f, f', t, fs, hx, h, hn, ht, hr => by
    simp only [runF, FState.set] at hr
    obtain ⟨f1, h1, hr⟩ := bindO_ok hr
    split at h1
    · cases h1
    · simp only [Outcome.ok.injEq] at h1
      refine nest_runF cs (f := f1) (fun k => hx (by simp [k])) ?_ hn ht hr
      rw [← h1]
      refine nest_congr h fun m _ hm => ?_
      exact idsAt_congr (n := f.drv.log.length) (fun i hi => by simp [hi]) hm.length_le
  | .setStr k v :: cs, rest, f, f', t, fs, hx, h, hn, ht, hr => by
    simp only [runF, FState.set] at hr
    obtain ⟨f1, h1, hr⟩ := bindO_ok hr
    split at h1
    · cases h1
    · simp only [Outcome.ok.injEq] at h1
      refine nest_runF cs (f := f1) (fun k => hx (by simp [k])) ?_ hn ht hr
      rw [← h1]
      refine nest_congr h fun m _ hm => ?_
      exact idsAt_congr (n := f.drv.log.length) (fun i hi => by simp [hi]) hm.length_le
  | .core c :: cs, rest, f, f', t, fs, hx, h, hn, ht, hr => by
    simp only [runF] at hr
    obtain ⟨d, h1, hr⟩ := bindO_ok hr
    obtain ⟨t1, fs1, k1, k2, k3, -⟩ := nest_run [c] (rest := commands cs ++ rest) (d' := d) h
      (by simpa [commands] using hn) (fun x hx => ht x (by simp at hx; simp [hx, commands]))
      (by simp [run, h1])
    obtain ⟨t2, fs2, j1, j2, j3⟩ := nest_runF cs (rest := rest) (f := { f with drv := d })
      (fun k => hx (by simp [k])) k1 k3 (fun x hx => ht x (by simp [hx, commands])) hr
    refine ⟨t2, fs2, j1, ?_, j3⟩
    rw [← j2, ← k2]
    rfl

/-- What the calls pose is what the commands state, with options set on the way. -/
theorem file_nest {fmt mk o cs f} (hx : FCmd.exit ∉ cs)
    (hr : runF fmt mk cs { sched := fun _ => o } = .ok f) (ht : TidyScript (commands cs)) :
    Nested (idsAt mk f.sched) f.drv.log ∧
      ∀ I xs, stated I (Smt2.inForce (commands cs)) xs ↔ posed I (callsInForce f.drv.log) xs := by
  obtain ⟨t', fs', k1, k2, -⟩ := nest_runF cs (rest := []) hx nest_init (by simpa using ht.2) ht.1 hr
  refine ⟨k1.nested, fun I xs => ?_⟩
  have e1 : Smt2.inForce (commands cs) = t'.s := by
    rw [Smt2.inForce]
    exact congrArg Prod.fst k2
  have e2 : callsInForce f.drv.log = t'.l := by rw [callsInForce, k1.log]
  rw [e1, e2]
  exact k1.ok.means.stated I xs

theorem kinv_step {D I} {cfg : CCfg} (hd : DblOk cfg.th.dbl) (hp : PicosatOk cfg.ps)
    (he : EnvOk D I cfg.env) {k c cmd a c' H} (hK : KInv D I cfg.th.dbl k H c)
    (hu : k.Uses c.sat.abs.next cmd) (hs : stepCmd cfg c cmd = .ok (a, c')) :
    ∃ H', KInv D I cfg.th.dbl (k.step c.sat.abs.next cmd) H' c' := by
  cases cmd with
  | newVar t =>
    simp only [stepCmd, Run.ok.injEq, Prod.mk.injEq] at hs
    rw [← hs.2]; exact ⟨H, kinv_newVar hK⟩
  | declare v m =>
    simp only [stepCmd, Run.ok.injEq, Prod.mk.injEq] at hs
    rw [← hs.2]; exact kinv_declare hK hu
  | setInterval v lb ub =>
    simp only [stepCmd] at hs
    obtain ⟨c1, h1, h2⟩ := bindR_ok hs
    simp only [Run.ok.injEq, Prod.mk.injEq] at h2
    rw [← h2.2]; exact ⟨H, kinv_setInterval hK hu (lift_ok h1)⟩
  | assert f =>
    simp only [stepCmd] at hs
    obtain ⟨c1, h1, h2⟩ := bindR_ok hs
    simp only [Run.ok.injEq, Prod.mk.injEq] at h2
    rw [← h2.2]; exact kinv_assert hd hK hu (lift_ok h1)
  | check =>
    simp only [stepCmd] at hs
    obtain ⟨c1, h1, h2⟩ := bindR_ok hs
    simp only [Run.ok.injEq, Prod.mk.injEq] at h2
    rw [← h2.2]; exact ⟨H, (kinv_check hd hp he hK h1).1⟩
  | push =>
    simp only [stepCmd, Run.ok.injEq, Prod.mk.injEq] at hs
    rw [← hs.2]; exact ⟨H, kinv_push hK⟩
  | pop =>
    simp only [stepCmd] at hs
    obtain ⟨c1, h1, h2⟩ := bindR_ok hs
    simp only [Run.ok.injEq, Prod.mk.injEq] at h2
    rw [← h2.2]; exact ⟨H, kinv_pop hK hu (lift_ok h1)⟩

/-- The books after calls with options set on the way. -/
structure KeptAt (D : Dom) (I : Interp) (db : Dbl) (use : List Cmd → Nat) (L : List Cmd) (c : Ctx)
    (k : Books) : Prop where
  inv : ∃ H, KInv D I db k H c
  cnt : c.sat.abs.next = count use [] 0 L
  track : Track L (callsInForce L) c.sat.abs.next k
  rest : List.Forall₂ Level (L.foldl enforceCall ([], [])).2 k.levels.tail
  restSub : ∀ l ∈ (L.foldl enforceCall ([], [])).2, ∀ x ∈ l, x ∈ L
  open_ : k.levels ≠ []

section
variable {D : Dom} {I : Interp} {db : Dbl} {use : List Cmd → Nat}

theorem keptAt_init : KeptAt D I db use [] (Ctx.init 0) { made := [] } where
  inv := ⟨_, kinv_init (by simp)⟩
  cnt := rfl
  track := by constructor <;> simp [Books.top, Problem.Declared, DeclIn, callsInForce]
  rest := .nil
  restSub := by simp
  open_ := by simp

/-- A call that is not about scopes. -/
theorem KeptAt.plain {cfg : CCfg} {L c c1 c2 k a} (h : KeptAt D I db use L c1 k)
    (hdb : cfg.th.dbl = db) (hd : DblOk db) (hps : PicosatOk cfg.ps) (he : EnvOk D I cfg.env)
    (hp : c ≠ .push ∧ c ≠ .pop)
    (hn : (∀ t, c ≠ .newVar t) → c1.sat.abs.next ≤ c2.sat.abs.next →
      c1.sat.abs.next + use (L ++ [c]) = c2.sat.abs.next) (hs : stepCmd cfg c1 c = .ok (a, c2))
    (hc : CallOk (DeclIn (callsInForce L)) L c1.sat.abs.next c)
    (hw : ∀ f, c = .assert f → WfF (fun _ => True) f)
    (hi : ∀ v x y, c = .setInterval v x y → ∀ z : ℝ, InItv z ⟨x, y⟩ → InItv z (newItv v.type))
    (hb : ¬ k.built) : k.Uses c1.sat.abs.next c ∧
      KeptAt D I db use (L ++ [c]) c2 (k.step c1.sat.abs.next c) := by
  have hold : ∀ f, c = .assert f → Old c1.sat.abs.next f := by
    rintro f rfl; exact hc.2
  obtain ⟨n1, n2⟩ := stepCmd_next hold hp hs
  obtain ⟨t1, t2⟩ := h.track.step (n' := c2.sat.abs.next) hc hw hi hb n1 n2
  have ef : (L ++ [c]).foldl enforceCall ([], []) =
      (callsInForce L ++ [c], (L.foldl enforceCall ([], [])).2) := by
    rw [List.foldl_append]; exact enforce_plain hp
  have ea : callsInForce (L ++ [c]) = callsInForce L ++ [c] := by rw [callsInForce, ef]
  obtain ⟨H, hK⟩ := h.inv
  subst hdb
  refine ⟨t1, kinv_step hd hps he hK t1 hs, ?_, ?_, ?_, ?_, ?_⟩
  · rw [count_append, ← h.cnt, List.nil_append]
    cases c with
    | newVar t => exact n2 t rfl
    | _ =>
      simp only [count]
      exact (hn (by simp) n1).symm
  · rw [ea]; exact t2
  · rw [ef]
    have : (k.step c1.sat.abs.next c).levels.tail = k.levels.tail := by
      cases c with
      | push => exact absurd rfl hp.1
      | pop => exact absurd rfl hp.2
      | _ => rfl
    rw [this]; exact h.rest
  · rw [ef]; intro l hl x hx; exact List.mem_append_left _ (h.restSub l hl x hx)
  · cases c with
    | push => exact absurd rfl hp.1
    | pop => exact absurd rfl hp.2
    | newVar t => exact h.open_
    | check => exact h.open_
    | _ => simp [Books.step, Books.setTop]

theorem KeptAt.push {cfg : CCfg} {L c1 c2 k a} (h : KeptAt D I db use L c1 k)
    (hdb : cfg.th.dbl = db) (hd : DblOk db) (hps : PicosatOk cfg.ps) (he : EnvOk D I cfg.env)
    (hn : c1.sat.abs.next ≤ c2.sat.abs.next → c1.sat.abs.next + use (L ++ [.push]) = c2.sat.abs.next)
    (hs : stepCmd cfg c1 .push = .ok (a, c2)) :
    KeptAt D I db use (L ++ [.push]) c2 (k.step c1.sat.abs.next .push) := by
  obtain ⟨n1, -⟩ := stepCmd_next' (by simp) hs
  have ef : (L ++ [Cmd.push]).foldl enforceCall ([], []) =
      (callsInForce L, callsInForce L :: (L.foldl enforceCall ([], [])).2) := by
    rw [List.foldl_append]; rfl
  have ea : callsInForce (L ++ [.push]) = callsInForce L := by rw [callsInForce, ef]
  obtain ⟨P, Ps, e⟩ : ∃ P Ps, k.levels = P :: Ps := List.exists_cons_of_ne_nil h.open_
  have et : k.top = P := by simp [Books.top, e]
  obtain ⟨H, hK⟩ := h.inv
  subst hdb
  refine ⟨kinv_step hd hps he hK trivial hs, ?_, ?_, ?_, ?_, ?_⟩
  · rw [count_append, ← h.cnt, List.nil_append]
    exact (hn n1).symm
  · rw [ea]
    exact h.track.scope h.track.level h.track.sub (.inl rfl) n1 rfl rfl rfl
  · rw [ef]
    show List.Forall₂ Level _ k.levels
    rw [e, ← et]
    refine .cons h.track.level ?_
    have := h.rest
    rw [e] at this
    exact this
  · rw [ef]
    intro l hl x hx
    rcases List.mem_cons.mp hl with rfl | hl
    · exact List.mem_append_left _ (h.track.sub x hx)
    · exact List.mem_append_left _ (h.restSub l hl x hx)
  · simp [Books.step]

theorem KeptAt.pop {cfg : CCfg} {L c1 c2 k a} (h : KeptAt D I db use L c1 k)
    (hdb : cfg.th.dbl = db) (hd : DblOk db) (hps : PicosatOk cfg.ps) (he : EnvOk D I cfg.env)
    (hn : c1.sat.abs.next ≤ c2.sat.abs.next → c1.sat.abs.next + use (L ++ [.pop]) = c2.sat.abs.next)
    (hne : (L.foldl enforceCall ([], [])).2 ≠ []) (hb : ¬ k.built)
    (hs : stepCmd cfg c1 .pop = .ok (a, c2)) :
    KeptAt D I db use (L ++ [.pop]) c2 (k.step c1.sat.abs.next .pop) := by
  obtain ⟨n1, -⟩ := stepCmd_next' (by simp) hs
  obtain ⟨b, st, hst⟩ : ∃ b st, (L.foldl enforceCall ([], [])).2 = b :: st :=
    List.exists_cons_of_ne_nil hne
  have ef : (L ++ [Cmd.pop]).foldl enforceCall ([], []) = (b, st) := by
    rw [List.foldl_append]
    show enforceCall ((L.foldl enforceCall ([], [])).1, (L.foldl enforceCall ([], [])).2) .pop = _
    rw [hst]; rfl
  have ea : callsInForce (L ++ [.pop]) = b := by rw [callsInForce, ef]
  obtain ⟨P, Ps, e⟩ : ∃ P Ps, k.levels = P :: Ps := List.exists_cons_of_ne_nil h.open_
  have hrest := h.rest
  rw [hst, e, List.tail_cons] at hrest
  have hsub := h.restSub
  rw [hst] at hsub
  obtain ⟨H, hK⟩ := h.inv
  subst hdb
  cases hrest with
  | cons h1 h2 =>
    rename_i Q Qs
    refine ⟨kinv_step hd hps he hK hb hs, ?_, ?_, ?_, ?_, ?_⟩
    · rw [count_append, ← h.cnt, List.nil_append]
      exact (hn n1).symm
    · rw [ea]
      refine h.track.scope ?_ (fun x hx => hsub b (by simp) x hx) (.inr rfl) n1 rfl rfl rfl
      have : (k.step c1.sat.abs.next .pop).top = Q := by simp [Books.step, Books.top, e]
      rw [this]; exact h1
    · rw [ef]
      show List.Forall₂ Level st k.levels.tail.tail
      rw [e]; exact h2
    · rw [ef]
      intro l hl x hx
      exact List.mem_append_left _ (hsub l (by simp [hl]) x hx)
    · show k.levels.tail ≠ []
      rw [e]; simp

/-- As `kd_check`, for another precision than that of the check. -/
theorem kd_check_other {cfg : CCfg} {δ S k H c o c'} (hd : DblOk cfg.th.dbl) (hp : PicosatOk cfg.ps)
    (he : EnvOk D I cfg.env) (hfp : DiamOk cfg.env.fp) (hδ : 0 ≤ cfg.env.delta)
    (h : KInv D I cfg.th.dbl k H c) (hK : KD cfg.th.dbl cfg.env.delta S k c)
    (hK' : KD cfg.th.dbl δ S k c) (hS : ∀ a b, S a b → PlainRel cfg.th.dbl δ a b)
    (hs : checkSat cfg c = .ok (o, c')) : KD cfg.th.dbl δ S k c' := by
  obtain ⟨P, Ps, hk, ht, hl, -⟩ := h.cons
  obtain ⟨hD, hall⟩ := hK'.cons hk
  have e := ctxExt_checkSat h.wf hs
  simp only [checkSat] at hs
  obtain ⟨⟨o1, s1, cache1, t1⟩, h1, h2⟩ := bindR_ok hs
  have hfld : c'.sat = s1 ∧ c'.boxes = c.boxes ∧ c'.stack = c.stack := by
    cases o1 with
    | none =>
      simp only [Run.ok.injEq, Prod.mk.injEq] at h2
      rw [← h2.2]; exact ⟨rfl, rfl, rfl⟩
    | some b =>
      simp only at h2
      obtain ⟨t, -, h2⟩ := bindR_ok h2
      obtain ⟨m, -, h2⟩ := bindR_ok h2
      simp only [Run.ok.injEq, Prod.mk.injEq] at h2
      exact ⟨by rw [← h2.2], by rw [← h2.2], by rw [← h2.2]⟩
  obtain ⟨g1, g2, g3⟩ := hfld
  have hbox : c'.box = c.box := by unfold Ctx.box; rw [g2]
  obtain ⟨a1, a2, a3, a4, a5, -⟩ := kd_core hd hp he hfp hδ h hK h1
  refine ⟨by
    rw [g1]
    intro p hp
    obtain ⟨op, a, b, q1, q2, q3⟩ := a4 p hp
    exact ⟨op, a, b, q1, q2, hS a b q3.2, q3.2⟩, ?_⟩
  rw [hk]
  refine hall.flat e (by rw [g1]; exact ⟨a3, fun _ h => .inl h⟩) ?_
  rw [g1, hbox, g3]
  refine ⟨a1, fun i hi => ?_, hD.sub, hD.all, hD.bdom, hD.wfs, fun f hf =>
    (hD.sound f hf).grow a3 (fun B hB => hB.back hl.str a2)⟩
  rw [a5] at hi
  exact ⟨lt_of_lt_of_le (hD.ts i hi).1 a3.le, (hD.ts i hi).2⟩

theorem kd_step {cfg : CCfg} {δ S k H c cmd a c'} (hd : DblOk cfg.th.dbl) (hp : PicosatOk cfg.ps)
    (he : EnvOk D I cfg.env) (hfp : DiamOk cfg.env.fp) (hδ' : 0 ≤ δ) (hKI : KInv D I cfg.th.dbl k H c)
    (hK : cmd = .check → 0 ≤ cfg.env.delta ∧ KD cfg.th.dbl cfg.env.delta S k c)
    (hK' : KD cfg.th.dbl δ S k c) (hS : ∀ a b, S a b → PlainRel cfg.th.dbl δ a b)
    (hu : k.Uses c.sat.abs.next cmd) (hpl : k.CondUse cfg.th.dbl δ S c.sat.abs.next cmd)
    (hs : stepCmd cfg c cmd = .ok (a, c')) : KD cfg.th.dbl δ S (k.step c.sat.abs.next cmd) c' := by
  cases cmd with
  | newVar t =>
    simp only [stepCmd, Run.ok.injEq, Prod.mk.injEq] at hs
    rw [← hs.2]; exact kd_newVar hK'
  | declare v m =>
    simp only [stepCmd, Run.ok.injEq, Prod.mk.injEq] at hs
    rw [← hs.2]; exact kd_declare hKI hK' (condUse_flat hpl (by simp))
  | setInterval v lb ub =>
    simp only [stepCmd] at hs
    obtain ⟨c1, h1, h2⟩ := bindR_ok hs
    simp only [Run.ok.injEq, Prod.mk.injEq] at h2
    rw [← h2.2]; exact kd_setInterval hKI hK' (condUse_flat hpl (by simp)) (lift_ok h1)
  | assert f =>
    simp only [stepCmd] at hs
    obtain ⟨c1, h1, h2⟩ := bindR_ok hs
    simp only [Run.ok.injEq, Prod.mk.injEq] at h2
    rw [← h2.2]
    refine kd_assert hd hδ' hKI hK' hu (hpl.imp id ?_) (lift_ok h1)
    rintro ⟨f', e, hq⟩
    cases e; exact hq
  | check =>
    simp only [stepCmd] at hs
    obtain ⟨c1, h1, h2⟩ := bindR_ok hs
    simp only [Run.ok.injEq, Prod.mk.injEq] at h2
    rw [← h2.2]
    have := kd_check_other hd hp he hfp (hK rfl).1 hKI (hK rfl).2 hK' hS h1
    exact ⟨this.tab, this.levels⟩
  | push =>
    simp only [stepCmd, Run.ok.injEq, Prod.mk.injEq] at hs
    rw [← hs.2]; exact kd_push hKI hK'
  | pop =>
    simp only [stepCmd] at hs
    obtain ⟨c1, h1, h2⟩ := bindR_ok hs
    simp only [Run.ok.injEq, Prod.mk.injEq] at h2
    rw [← h2.2]; exact kd_pop hKI hK' (lift_ok h1)

theorem condFile_left {mk sched S J} {a b : List Cmd} (h : CondFile mk sched db S J (a ++ b)) :
    CondFile mk sched db S J a where
  rels := h.rels
  asserts := fun l f r e => h.asserts l f (r ++ b) (by simp [e])
  bounds := fun l v x y r e => h.bounds l v x y (r ++ b) (by simp [e])
  first := fun l v m r e => h.first l v m (r ++ b) (by simp [e])

theorem file_delta {mk : Opts → CCfg} {sched : Nat → Opts} {L : List Cmd} (hd : DblOk db)
    (hmk : ∀ o, EnvOk D I (mk o).env ∧ (mk o).th.dbl = db ∧ PicosatOk (mk o).ps)
    (hN : Nested (idsAt mk sched) L) : ∀ {as c}, runAt mk sched 0 (Ctx.init 0) L = .ok (as, c) →
    Covered L → ∃ k, KeptAt D I db (idsAt mk sched) L c k ∧
      ((∀ i, DiamOk (mk (sched i)).env.fp) → ∀ J : Nat → Prop, (∀ i, L[i]? = some .check → J i) →
        (∀ i, J i → 0 ≤ (mk (sched i)).env.delta) → ∀ S, CondFile mk sched db S J L →
        ∀ i, J i → KD db (mk (sched i)).env.delta S k c) := by
  induction hN with
  | nil =>
    intro as c h _
    simp only [runAt, Run.ok.injEq, Prod.mk.injEq] at h
    rw [← h.2]
    exact ⟨_, keptAt_init, fun _ _ _ _ _ _ _ _ => kd_init⟩
  | @snoc L c _ hok ih =>
    intro as c2 hr hcov
    obtain ⟨⟨as1, c1⟩, ⟨a, c2'⟩, hr1, hs, e⟩ := Verif.Proof.Main.runAt_snoc L 0 hr
    simp only [Prod.mk.injEq] at e
    obtain rfl := e.2
    dsimp only at hs
    obtain ⟨k, hk, hkd⟩ := ih hr1 (Covered.left hcov)
    obtain ⟨he, hdb, hps⟩ := hmk (sched (0 + L.length))
    have ht := hk.track
    have hb : ¬ k.built := by
      intro q
      obtain ⟨q1, f, q2, q3⟩ := hk.track.built q
      rcases hcov.quant with h | h
      · exact q3 (h f (by simp [q2]))
      · exact h (by simp [q1])
    have hn : c1.sat.abs.next ≤ c2.sat.abs.next →
        c1.sat.abs.next + idsAt mk sched (L ++ [c]) = c2.sat.abs.next := by
      intro hle
      simp only [idsAt, nextAt, List.dropLast_concat, hr1, hr]
      omega
    have step : k.Uses c1.sat.abs.next c ∧
        KeptAt D I db (idsAt mk sched) (L ++ [c]) c2 (k.step c1.sat.abs.next c) := by
      have plain : c ≠ .push ∧ c ≠ .pop →
          CallOk (DeclIn (callsInForce L)) L (count (idsAt mk sched) [] 0 L) c → _ := fun h1 h2 =>
        hk.plain hdb hd hps he h1 (fun _ => hn) hs (by rw [hk.cnt]; exact h2)
          (fun f e => hcov.wf f (by simp [e])) (fun v x y e => hcov.bounds v x y (by simp [e])) hb
      cases c with
      | push => exact ⟨trivial, hk.push hdb hd hps he hn hs⟩
      | pop => exact ⟨hb, hk.pop hdb hd hps he hn hok hb hs⟩
      | newVar t => exact plain (by simp) hok
      | declare v m => exact plain (by simp) hok
      | setInterval v x y => exact plain (by simp) hok
      | assert f => exact plain (by simp) hok
      | check => exact plain (by simp) hok
    refine ⟨_, step.2, fun hfp J hJ hJ0 S hS i hi => ?_⟩
    have hkd := hkd hfp J (fun j hj => hJ j (by
      rw [List.getElem?_append_left (List.getElem?_eq_some_iff.mp hj).1]; exact hj)) hJ0 S
      (condFile_left hS)
    have hJL : c = .check → J (0 + L.length) := fun e => hJ _ (by simp [e])
    obtain ⟨H, hK⟩ := hk.inv
    have none : (∀ f, Cmd.assert f ∉ callsInForce L) → k.top.asserted = [] := fun h =>
      List.eq_nil_iff_forall_not_mem.mpr fun f hf => h f ((ht.asserted f).mp hf)
    subst hdb
    refine kd_step hd hps he (hfp _) (hJ0 i hi) hK (fun e => ⟨hJ0 _ (hJL e), hkd _ (hJL e)⟩) (hkd i hi)
      (fun a b h => hS.rels a b h i hi) step.1 ?_ hs
    cases c with
    | declare v m =>
      left
      rcases hS.first L v m [] rfl with h | ⟨w, m', h⟩
      · exact .inl (none h)
      · obtain ⟨iv, hiv⟩ := (ht.declared w).mpr ⟨m', h⟩
        exact .inr (List.ne_nil_of_mem hiv)
    | setInterval v x y =>
      obtain ⟨h1, h2⟩ := hS.bounds L v x y [] rfl
      exact .inl ⟨h1, none h2⟩
    | assert f =>
      rcases hS.asserts L f [] rfl i hi with h | ⟨h1, h2, h3⟩
      · exact .inl h
      · exact .inr ⟨f, rfl, h1, h2, h3 _ _ hr1⟩
    | _ => exact .inl trivial

theorem file_books {mk : Opts → CCfg} {sched : Nat → Opts} {L : List Cmd} (hd : DblOk db)
    (hmk : ∀ o, EnvOk D I (mk o).env ∧ (mk o).th.dbl = db ∧ PicosatOk (mk o).ps)
    (hN : Nested (idsAt mk sched) L) {as c} (h : runAt mk sched 0 (Ctx.init 0) L = .ok (as, c))
    (hc : Covered L) : ∃ k, KeptAt D I db (idsAt mk sched) L c k := by
  obtain ⟨k, hk, -⟩ := file_delta hd hmk hN h hc
  exact ⟨k, hk⟩

end

theorem setFromFile_pos {v : OptionValue ℚ} {q : ℚ} (h : 0 < v.get) (hq : 0 < q) :
    0 < (v.setFromFile q).get := by
  unfold OptionValue.setFromFile
  split <;> assumption

/-- The precisions in force are positive. -/
theorem runF_positive {fmt mk} : ∀ (cs : List FCmd) {f f' : FState}, runF fmt mk cs f = .ok f' →
    (∀ i, 0 < (f.sched i).precision.get) → ∀ i, 0 < (f'.sched i).precision.get
  | [], f, f', h, hp => by cases h; exact hp
  | .exit :: cs, f, f', h, hp => by cases h; exact hp
  | .setNum k v :: cs, f, f', h, hp => by
    simp only [runF] at h
    obtain ⟨s1, h1, h⟩ := bindO_ok h
    refine runF_positive cs h fun i => ?_
    simp only [FState.set] at h1
    split at h1
    · cases h1
    · rename_i hr
      simp only [Outcome.ok.injEq] at h1
      rw [← h1]
      dsimp only
      split
      · exact hp i
      · simp only [Opts.setNum] at hr ⊢
        split at hr
        · rename_i hk
          split at hr
          · simp at hr
          · rename_i hv
            rw [if_pos hk, if_neg hv]
            exact setFromFile_pos (hp _) (not_le.mp hv)
        · rename_i hk
          rw [if_neg hk]
          exact hp _
  | .setStr k v :: cs, f, f', h, hp => by
    simp only [runF] at h
    obtain ⟨s1, h1, h⟩ := bindO_ok h
    refine runF_positive cs h fun i => ?_
    simp only [FState.set] at h1
    split at h1
    · cases h1
    · simp only [Outcome.ok.injEq] at h1
      rw [← h1]
      dsimp only
      split
      · exact hp i
      · simp only [Opts.setStr]
        split
        · exact hp _
        · split <;> exact hp _
  | .core c :: cs, f, f', h, hp => by
    simp only [runF] at h
    obtain ⟨d, h1, h⟩ := bindO_ok h
    exact runF_positive cs h hp

theorem extract_positive {cl : CmdLine} (h : ∀ p, cl.precision = some p → 0 < p) :
    0 < cl.extract.precision.get := by
  unfold CmdLine.extract
  cases hp : cl.precision with
  | none => simp only []; decide +kernel
  | some p => exact h p hp

theorem runs_noExit {pcs fs} (h : Runs pcs fs) (hx : .exit ∉ pcs) : FCmd.exit ∉ fs := by
  induction h with
  | nil => simp
  | exit _ _ => simp at hx
  | core _ ih => simp only [List.mem_cons, not_or] at hx ⊢; exact ⟨by simp, ih hx.2⟩
  | setNum _ ih => simp only [List.mem_cons, not_or] at hx ⊢; exact ⟨by simp, ih hx.2⟩
  | setStr _ ih => simp only [List.mem_cons, not_or] at hx ⊢; exact ⟨by simp, ih hx.2⟩
  | _ => rename_i ih; exact ih fun k => hx (by simp [k])

/-- A check behind commands: the calls before it, the context, and its answer. -/
theorem exec_checked {fmt mk o pcs fs ls x} (h : Runs pcs fs) (hx : .exit ∉ pcs)
    (he : exec fmt mk (pcs ++ [.core .check]) { opts := o } = (ls ++ [x], .ok ())) :
    ∃ f c r c' o1, o1 = f.sched f.drv.log.length ∧ runF fmt mk fs { sched := fun _ => o } = .ok f ∧
      runAt mk f.sched 0 (Ctx.init 0) f.drv.log = .ok (ls, c) ∧
      checkSat (mk o1) c = .ok (r, c') ∧ x = smt2Line o1 r := by
  obtain ⟨st1, f1, ls1, ls2, e1, e2, e3, e4⟩ := exec_split h hx (inv_init mk o) he
  rw [exec_cons (by simp)] at e4
  cases hs : stepP fmt mk st1 (.core .check) with
  | throw => simp [hs] at e4
  | ub => simp [hs] at e4
  | oof => simp [hs] at e4
  | ok r =>
    simp only [hs, exec, List.append_nil, Prod.mk.injEq, and_true] at e4
    simp only [stepP, step, Drv.call, Run.lift, Run.bind_ok, XState.calls, List.nil_append,
      runCmds, stepCmd] at hs
    obtain ⟨w, h11, hs⟩ := bindR_ok hs
    cases hs
    obtain ⟨w2, h12, h11⟩ := bindR_ok h11
    cases h11
    obtain ⟨w3, h13, h12⟩ := bindR_ok h12
    cases h12
    simp only [List.append_nil, List.map_cons, List.map_nil] at e4
    rw [← e4] at e1
    obtain ⟨rfl, e5⟩ := List.append_inj' e1 rfl
    simp only [List.cons.injEq, and_true] at e5
    exact ⟨f1, st1.ctx, w3.1, w3.2, st1.opts, (e3.opts _ le_rfl).symm, e2, by simpa using e3.ran, h13, e5⟩

end Verif.Proof.ExecOpts
