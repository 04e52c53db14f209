import Verif.Proof.Scoped
import Verif.Proof.Smt2Log

/-! # Invariant of the driver and what translating a term does to it -/

namespace Verif.Proof.Smt2
open Verif Verif.Model Verif.Model.Smt2 Verif.Spec Verif.Spec.Smt2 Verif.Proof

variable {I : Interp} {ρ : Valuation}

/-! ## Scopes -/

theorem mrel_push {V : Type} {s : ScopedMap String V} {t} (h : MRel s t) :
    MRel s.push ⟨t.cur, t.cur :: t.saved⟩ := (mapStep_sim s t .push h).1

theorem mrel_insert {V : Type} {s : ScopedMap String V} {t} (h : MRel s t) (n : String) (v : V) :
    MRel (s.insert n v) ⟨mapAdd t.cur (n, v), t.saved⟩ := (mapStep_sim s t (.add (n, v)) h).1

theorem mrel_pop {V : Type} {s s' : ScopedMap String V} {c c' cs}
    (h : MRel s ⟨c, c' :: cs⟩) (hp : s.pop = .ok s') : MRel s' ⟨c', cs⟩ := by
  have := mapStep_sim s ⟨c, c' :: cs⟩ .pop h
  simp only [StepOK, mapStep, hp, Snap.step] at this
  exact this.1

theorem mrel_pop_ok {V : Type} {s : ScopedMap String V} {c c' cs}
    (h : MRel s ⟨c, c' :: cs⟩) : ∃ s', s.pop = .ok s' := by
  have := mapStep_sim s ⟨c, c' :: cs⟩ .pop h
  cases hp : s.pop with
  | ok s' => exact ⟨s', rfl⟩
  | throw => simp [StepOK, mapStep, hp, Snap.step] at this
  | ub => simp [StepOK, mapStep, hp] at this

/-! ## Invariant -/

/-- The variables names and function bodies refer to. -/
def Glob (d : Drv) (v : Variable) : Prop :=
  (∃ n, d.scope.map n = some v) ∨
    ∃ n fd, d.funs.map n = some fd ∧ v ∈ fd.body.fv ∧ v ∉ fd.params

/-- Invariant; `B` holds of the variables bound in function bodies. -/
structure Inv (B : Variable → Prop) (d : Drv) : Prop where
  glob : ∀ v, Glob d v → v.id < d.next ∧ ¬ B v
  bnd : ∀ v, B v → v.id < d.next
  sorted : ∀ n fd, d.funs.map n = some fd → TSorted fd.body
  params : ∀ n fd, d.funs.map n = some fd → ∀ p ∈ fd.params, p.id < d.next ∧ ¬ Glob d p ∧ ¬ B p
  quant : ∀ n fd, d.funs.map n = some fd → TQ (fun vs _ => ∀ v ∈ vs, B v) fd.body
  mrel : ∃ ts tf, MRel d.scope ts ∧ MRel d.funs tf

theorem Glob.congr {d d' : Drv} (h1 : d'.scope.map = d.scope.map) (h2 : d'.funs.map = d.funs.map)
    {v} : Glob d' v ↔ Glob d v := by unfold Glob; rw [h1, h2]

theorem Inv.congr {B} {d d' : Drv} (h : Inv B d) (h1 : d'.scope.map = d.scope.map)
    (h2 : d'.funs.map = d.funs.map) (h3 : d.next ≤ d'.next)
    (h4 : ∃ ts tf, MRel d'.scope ts ∧ MRel d'.funs tf) : Inv B d' := by
  have g : ∀ v, Glob d' v ↔ Glob d v := fun v => Glob.congr h1 h2
  refine ⟨fun v hv => ?_, fun v hv => ?_, ?_, ?_, ?_, h4⟩
  · have := h.glob v ((g v).mp hv)
    exact ⟨by omega, this.2⟩
  · have := h.bnd v hv; omega
  · rw [h2]; exact h.sorted
  · rw [h2]
    intro n fd hfd p hp
    have := h.params n fd hfd p hp
    exact ⟨by omega, by rw [g]; exact this.2.1, this.2.2⟩
  · rw [h2]; exact h.quant

theorem Inv.fresh {B d2 d3} (h : Inv B d2) {n : String} {ty : VType}
    (hs : d3.scope = d2.scope.insert n ⟨d2.next, ty⟩) (hf : d3.funs = d2.funs)
    (hn : d2.next < d3.next) : Inv B d3 := by
  have sm : d3.scope.map = fun m => if m = n then some ⟨d2.next, ty⟩ else d2.scope.map m := by
    rw [hs, insert_map]; rfl
  have gl : ∀ v, Glob d3 v → v = ⟨d2.next, ty⟩ ∨ Glob d2 v := by
    rintro v (⟨m, hm⟩ | h)
    · rw [sm] at hm
      simp only at hm
      split_ifs at hm
      · left; simpa using hm.symm
      · exact .inr (.inl ⟨m, hm⟩)
    · rw [hf] at h; exact .inr (.inr h)
  obtain ⟨ts, tf, h1, h2⟩ := h.mrel
  refine ⟨fun v hv => ?_, fun v hv => ?_, ?_, ?_, ?_, ⟨_, _, by rw [hs]; exact mrel_insert h1 _ _,
    by rw [hf]; exact h2⟩⟩
  · rcases gl v hv with rfl | hv
    · refine ⟨hn, fun hb => ?_⟩
      have := h.bnd _ hb
      simp at this
    · have := h.glob v hv
      exact ⟨by omega, this.2⟩
  · have := h.bnd v hv; omega
  · rw [hf]; exact h.sorted
  · rw [hf]
    intro m fd hfd p hp
    obtain ⟨a, b, c⟩ := h.params m fd hfd p hp
    refine ⟨by omega, fun hg => ?_, c⟩
    rcases gl p hg with rfl | hg
    · simp at a
    · exact b hg
  · rw [hf]; exact h.quant

/-- The argument has the kind of the parameter. -/
def KindOk (t : VType) : SVal → Prop
  | .num _ => t ≠ .boolean
  | .tf _ => t = .boolean
  | .bad => False

/-- The names and functions of the semantics are those of the driver. -/
structure Match (I : Interp) (d : Drv) (ρ : Valuation) (E : Names) (F : Funs) : Prop where
  names : ∀ n v, d.scope.map n = some v → E n = toVal v.type (ρ v)
  funs : ∀ n fd, d.funs.map n = some fd → ∀ args,
    List.Forall₂ (fun p a => KindOk p.type a) fd.params args →
    F n args = valT I (bindV ρ fd.params args) fd.body

theorem bindV_congr {ρ ρ' : Valuation} {R : Variable → SVal → Prop} {ps args}
    (h : List.Forall₂ R ps args) {v : Variable} (hv : v ∉ ps → ρ v = ρ' v) :
    bindV ρ ps args v = bindV ρ' ps args v := by
  induction h with
  | nil => simpa [bindV] using hv
  | cons _ _ ih =>
    rename_i p a ps as _ _
    simp only [bindV]
    by_cases hp : v = p
    · simp [hp]
    · simp only [hp, if_false]
      exact ih fun h => hv (by simp [hp, h])

theorem Match.congr {d : Drv} {ρ ρ' : Valuation} {E F} (h : Match I d ρ E F)
    (hρ : ∀ v, Glob d v → ρ' v = ρ v) : Match I d ρ' E F := by
  refine ⟨fun n v hv => ?_, fun n fd hfd args ha => ?_⟩
  · rw [hρ v (.inl ⟨n, hv⟩)]; exact h.names n v hv
  · rw [h.funs n fd hfd args ha]
    refine valT_congr fun v hv => bindV_congr ha fun hp => ?_
    exact (hρ v (.inr ⟨n, fd, hfd, hv, hp⟩)).symm

theorem Match.maps {d d' : Drv} {E F} (h : Match I d ρ E F) (h1 : d'.scope.map = d.scope.map)
    (h2 : d'.funs.map = d.funs.map) : Match I d' ρ E F :=
  ⟨by rw [h1]; exact h.names, by rw [h2]; exact h.funs⟩

/-! ## The calls a translation makes -/

/-- Variables made between two states. -/
def New (d d' : Drv) (v : Variable) : Prop := d.next ≤ v.id ∧ v.id < d'.next

/-- Calls a translation makes. -/
def Quiet (n : Nat) : Cmd → Prop
  | .newVar _ => True
  | .declare v m => m = false ∧ v.id < n
  | .assert f => FvIn (fun v => v.id < n) f
  | _ => False

theorem Quiet.mono {n m c} (h : Quiet n c) (hn : n ≤ m) : Quiet m c := by
  cases c <;> simp only [Quiet] at h ⊢
  · exact ⟨h.1, by omega⟩
  · exact FvIn.mono h fun v (hv : v.id < n) => (by omega : v.id < m)

theorem Quiet.holds {n c} (h : Quiet n c) {ρ ρ' : Valuation} (hρ : ∀ v : Variable, v.id < n → ρ' v = ρ v) :
    CmdHolds I ρ' c ↔ CmdHolds I ρ c := by
  cases c <;> simp only [Quiet] at h <;> simp only [CmdHolds]
  · rw [hρ _ h.2]
  · exact holds_congr I _ _ _ fun v hv => hρ v (h v hv)

/-- What translating terms gives. -/
structure Post (use : List Cmd → Nat) (B : Variable → Prop) (lf tm : Prop) (d d' : Drv) (rs : List Term)
    (D : Interp → Names → Funs → List SVal) (new : List Cmd) : Prop where
  log : d'.log = d.log ++ new
  lt : d.next ≤ d'.next
  scope : ∀ t, MRel d.scope t → MRel d'.scope t
  funs : ∀ t, MRel d.funs t → MRel d'.funs t
  quiet : ∀ c ∈ new, Quiet d'.next c
  sorted : ∀ r ∈ rs, TSorted r
  free : ∀ r ∈ rs, ∀ v ∈ r.fv, Glob d v ∨ New d d' v
  bnd : ∀ r ∈ rs, TQ (fun vs _ => ∀ v ∈ vs, B v ∨ New d d' v) r
  pure : lf → tm → (∀ c ∈ new, ∃ t, c = .newVar t) ∧ ∀ r ∈ rs, ∀ v ∈ r.fv, Glob d v
  sem : tm → ∀ I ρ E F, Match I d ρ E F → (∀ c ∈ new, CmdHolds I ρ c) → rs.map (valT I ρ) = D I E F
  ex : ∀ (I : Interp) (ρ : Valuation), ∃ ρ' : Valuation, (∀ v : Variable, v.id < d.next → ρ' v = ρ v) ∧
    ∀ c ∈ new, CmdHolds I ρ' c
  cnt : d'.next = count use d.log d.next new
  ord : tm → ∀ G : Variable → Prop, (∀ v, Glob d v → G v) → Ordered use G d.log d.next new ∧
    ∀ r ∈ rs, ∀ v ∈ r.fv, G v ∨ DeclIn new v

section
variable {use : List Cmd → Nat} {B : Variable → Prop} {lf tm lf1 tm1 lf2 tm2 : Prop} {d d1 d2 d3 d' : Drv}
  {rs rs1 rs2 : List Term} {D D1 D2 : Interp → Names → Funs → List SVal} {new new1 new2 : List Cmd}

theorem Post.smap (p : Post use B lf tm d d' rs D new) (h : Inv B d) : d'.scope.map = d.scope.map := by
  obtain ⟨ts, tf, h1, h2⟩ := h.mrel
  rw [(p.scope ts h1).1, h1.1]

theorem Post.fmap (p : Post use B lf tm d d' rs D new) (h : Inv B d) : d'.funs.map = d.funs.map := by
  obtain ⟨ts, tf, h1, h2⟩ := h.mrel
  rw [(p.funs tf h2).1, h2.1]

theorem Post.inv (p : Post use B lf tm d d' rs D new) (h : Inv B d) : Inv B d' := by
  obtain ⟨ts, tf, h1, h2⟩ := h.mrel
  exact h.congr (p.smap h) (p.fmap h) p.lt ⟨ts, tf, p.scope ts h1, p.funs tf h2⟩

theorem Post.nil : Post use B lf tm d d [] (fun _ _ _ => []) [] where
  log := by simp
  lt := le_rfl
  scope := fun _ h => h
  funs := fun _ h => h
  quiet := by simp
  sorted := by simp
  free := by simp
  bnd := by simp
  pure := by simp
  sem := by simp
  ex := fun I ρ => ⟨ρ, fun _ _ => rfl, by simp⟩
  cnt := rfl
  ord := fun _ G _ => ⟨trivial, by simp⟩

theorem Post.append (h : Inv B d) (p : Post use B lf1 tm1 d d1 rs1 D1 new1)
    (q : Post use B lf2 tm2 d1 d2 rs2 D2 new2) (hl : lf → lf1 ∧ lf2) (ht : tm → tm1 ∧ tm2) :
    Post use B lf tm d d2 (rs1 ++ rs2) (fun I E F => D1 I E F ++ D2 I E F) (new1 ++ new2) := by
  have g : ∀ v, Glob d1 v ↔ Glob d v := fun v => Glob.congr (p.smap h) (p.fmap h)
  have l1 := p.lt
  have l2 := q.lt
  constructor
  · rw [q.log, p.log, List.append_assoc]
  · omega
  · exact fun t k => q.scope t (p.scope t k)
  · exact fun t k => q.funs t (p.funs t k)
  · intro c hc
    rcases List.mem_append.mp hc with hc | hc
    · exact (p.quiet c hc).mono l2
    · exact q.quiet c hc
  · intro r hr
    rcases List.mem_append.mp hr with hr | hr
    exacts [p.sorted r hr, q.sorted r hr]
  · intro r hr v hv
    rcases List.mem_append.mp hr with hr | hr
    · exact (p.free r hr v hv).imp id fun k => ⟨k.1, by have := k.2; omega⟩
    · exact (q.free r hr v hv).imp (g v).mp fun k => ⟨by have := k.1; omega, k.2⟩
  · intro r hr
    rcases List.mem_append.mp hr with hr | hr
    · exact (p.bnd r hr).mono fun vs _ k v hv => (k v hv).imp id fun k => ⟨k.1, by have := k.2; omega⟩
    · exact (q.bnd r hr).mono fun vs _ k v hv => (k v hv).imp id fun k => ⟨by have := k.1; omega, k.2⟩
  · intro hlf htm
    obtain ⟨a1, a2⟩ := p.pure (hl hlf).1 (ht htm).1
    obtain ⟨b1, b2⟩ := q.pure (hl hlf).2 (ht htm).2
    refine ⟨fun c hc => ?_, fun r hr v hv => ?_⟩
    · rcases List.mem_append.mp hc with hc | hc
      exacts [a1 c hc, b1 c hc]
    · rcases List.mem_append.mp hr with hr | hr
      exacts [a2 r hr v hv, (g v).mp (b2 r hr v hv)]
  · intro htm I ρ E F m k
    rw [List.map_append, p.sem (ht htm).1 I ρ E F m fun c hc => k c (by simp [hc]),
      q.sem (ht htm).2 I ρ E F (m.maps (p.smap h) (p.fmap h)) fun c hc => k c (by simp [hc])]
  · intro I ρ
    obtain ⟨ρ1, e1, k1⟩ := p.ex I ρ
    obtain ⟨ρ2, e2, k2⟩ := q.ex I ρ1
    refine ⟨ρ2, fun v hv => ?_, fun c hc => ?_⟩
    · rw [e2 v (by omega), e1 v hv]
    · rcases List.mem_append.mp hc with hc | hc
      · exact ((p.quiet c hc).holds e2).mpr (k1 c hc)
      · exact k2 c hc
  · rw [count_append, ← p.cnt, ← p.log]
    exact q.cnt
  · intro htm G hG
    obtain ⟨a1, a2⟩ := p.ord (ht htm).1 G hG
    obtain ⟨b1, b2⟩ := q.ord (ht htm).2 (fun v => G v ∨ DeclIn new1 v) fun v hv =>
      .inl (hG v ((g v).mp hv))
    refine ⟨(ordered_append _ _).mpr ⟨a1, ?_⟩, fun r hr v hv => ?_⟩
    · rw [← p.cnt, ← p.log]; exact b1
    · rw [declIn_append]
      rcases List.mem_append.mp hr with hr | hr
      · exact (a2 r hr v hv).imp id .inl
      · exact or_assoc.mp (b2 r hr v hv)

/-- Putting the results together. -/
theorem Post.make {r : Term} {R : Interp → Names → Funs → SVal} (p : Post use B lf1 tm1 d d' rs D new)
    (hc : Conseq rs r) (hl : lf → lf1) (ht : tm → tm1)
    (hv : ∀ I ρ E F, rs.map (valT I ρ) = D I E F → valT I ρ r = R I E F) :
    Post use B lf tm d d' [r] (fun I E F => [R I E F]) new where
  log := p.log
  lt := p.lt
  scope := p.scope
  funs := p.funs
  quiet := p.quiet
  sorted := by simpa using hc.sorted p.sorted
  free := by simpa using hc.free _ p.free
  bnd := by simpa using hc.bnd p.bnd
  pure := fun a b => ⟨(p.pure (hl a) (ht b)).1, by simpa using hc.free _ (p.pure (hl a) (ht b)).2⟩
  sem := fun a I ρ E F m k => by
    simp only [List.map_cons, List.map_nil, List.cons.injEq, and_true]
    exact hv I ρ E F (p.sem (ht a) I ρ E F m k)
  ex := p.ex
  cnt := p.cnt
  ord := fun a G hG => ⟨(p.ord (ht a) G hG).1, by simpa using hc.free _ (p.ord (ht a) G hG).2⟩

end

/-! ## Opening a scope -/

/-- From `d` to `d2` a scope was opened and names added. -/
structure Opened (B : Variable → Prop) (d d2 : Drv) (new : List Cmd) : Prop where
  log : d2.log = d.log ++ new
  lt : d.next ≤ d2.next
  scope : ∀ t, MRel d.scope t → ∃ c, MRel d2.scope ⟨c, t.cur :: t.saved⟩
  funs : ∀ t, MRel d.funs t → MRel d2.funs ⟨t.cur, t.cur :: t.saved⟩
  fmap : d2.funs.map = d.funs.map
  inv : Inv B d2
  glob : ∀ v, Glob d2 v → Glob d v ∨ New d d2 v
  quiet : ∀ c ∈ new, Quiet d2.next c
  ex : ∀ (I : Interp) (ρ : Valuation), ∃ ρ' : Valuation, (∀ v : Variable, v.id < d.next → ρ' v = ρ v) ∧
    ∀ c ∈ new, CmdHolds I ρ' c

section
variable {use : List Cmd → Nat} {B : Variable → Prop} {lf tm : Prop} {d d1 d2 d3 d4 : Drv}
  {rs : List Term} {D : Interp → Names → Funs → List SVal} {new new' : List Cmd}

theorem opened_push (h : Inv B d) : Opened B d d.pushScope [] where
  log := by simp [Drv.pushScope]
  lt := le_rfl
  scope := fun t k => ⟨_, mrel_push k⟩
  funs := fun t k => mrel_push k
  fmap := rfl
  inv := by
    obtain ⟨ts, tf, h1, h2⟩ := h.mrel
    exact h.congr rfl rfl le_rfl ⟨_, _, mrel_push h1, mrel_push h2⟩
  glob := fun v hv => .inl hv
  quiet := by simp
  ex := fun I ρ => ⟨ρ, fun _ _ => rfl, by simp⟩

theorem Opened.post (o : Opened B d d2 new) (p : Post use B lf tm d2 d3 rs D new') :
    Opened B d d3 (new ++ new') where
  log := by rw [p.log, o.log, List.append_assoc]
  lt := le_trans o.lt p.lt
  scope := fun t k => by obtain ⟨c, hc⟩ := o.scope t k; exact ⟨c, p.scope _ hc⟩
  funs := fun t k => p.funs _ (o.funs t k)
  fmap := by rw [p.fmap o.inv, o.fmap]
  inv := p.inv o.inv
  glob := fun v hv => by
    have := (Glob.congr (p.smap o.inv) (p.fmap o.inv)).mp hv
    have l := p.lt
    exact (o.glob v this).imp id fun k => ⟨k.1, by have := k.2; omega⟩
  quiet := fun c hc => by
    rcases List.mem_append.mp hc with hc | hc
    exacts [(o.quiet c hc).mono p.lt, p.quiet c hc]
  ex := fun I ρ => by
    obtain ⟨ρ1, e1, k1⟩ := o.ex I ρ
    obtain ⟨ρ2, e2, k2⟩ := p.ex I ρ1
    have l := o.lt
    refine ⟨ρ2, fun v hv => ?_, fun c hc => ?_⟩
    · rw [e2 v (by omega), e1 v hv]
    · rcases List.mem_append.mp hc with hc | hc
      · exact ((o.quiet c hc).holds e2).mpr (k1 c hc)
      · exact k2 c hc

/-- A fresh variable under a name, with calls that some value of it makes true. -/
theorem Opened.fresh (o : Opened B d d2 new) {n : String} {ty : VType} {cs : List Cmd}
    (hs : d3.scope = d2.scope.insert n ⟨d2.next, ty⟩) (hf : d3.funs = d2.funs)
    (hn : d2.next < d3.next) (hl : d3.log = d2.log ++ cs) (hq : ∀ c ∈ cs, Quiet (d2.next + 1) c)
    (hex : ∀ I (ρ : Valuation), ∃ x : ℝ, ∀ c ∈ cs,
      CmdHolds I (fun v => if v = ⟨d2.next, ty⟩ then x else ρ v) c) :
    Opened B d d3 (new ++ cs) := by
  have hl0 := o.lt
  have sm : d3.scope.map = fun m => if m = n then some ⟨d2.next, ty⟩ else d2.scope.map m := by
    rw [hs, insert_map]; rfl
  have gl : ∀ v, Glob d3 v → v = ⟨d2.next, ty⟩ ∨ Glob d2 v := by
    rintro v (⟨m, hm⟩ | h)
    · rw [sm] at hm
      simp only at hm
      split_ifs at hm
      · left; simpa using hm.symm
      · exact .inr (.inl ⟨m, hm⟩)
    · rw [hf] at h; exact .inr (.inr h)
  refine ⟨?_, by omega, ?_, ?_, by rw [hf]; exact o.fmap, ?_, ?_, ?_, ?_⟩
  · rw [hl, o.log, List.append_assoc]
  · intro t k
    obtain ⟨c, hc⟩ := o.scope t k
    exact ⟨_, by rw [hs]; exact mrel_insert hc _ _⟩
  · intro t k; rw [hf]; exact o.funs t k
  · exact o.inv.fresh hs hf hn
  · intro v hv
    rcases gl v hv with rfl | hv
    · exact .inr ⟨hl0, hn⟩
    · exact (o.glob v hv).imp id fun k => ⟨k.1, by have := k.2; omega⟩
  · intro c hc
    rcases List.mem_append.mp hc with hc | hc
    · exact (o.quiet c hc).mono (by omega)
    · exact (hq c hc).mono (by omega)
  · intro I ρ
    obtain ⟨ρ1, e1, k1⟩ := o.ex I ρ
    obtain ⟨x, hx⟩ := hex I ρ1
    have low : ∀ v : Variable, v.id < d2.next →
        (fun v => if v = ⟨d2.next, ty⟩ then x else ρ1 v) v = ρ1 v := by
      intro v hv
      have : v ≠ ⟨d2.next, ty⟩ := by rintro rfl; simp at hv
      simp [this]
    refine ⟨fun v => if v = ⟨d2.next, ty⟩ then x else ρ1 v, fun v hv => ?_, fun c hc => ?_⟩
    · rw [low v (by omega), e1 v hv]
    · rcases List.mem_append.mp hc with hc | hc
      · exact ((o.quiet c hc).holds low).mpr (k1 c hc)
      · exact hx c hc

/-- Closing the scope again. -/
theorem Opened.close (o : Opened B d d2 new) (hp : d2.popScope = .ok d3) :
    d3.log = d.log ++ new ∧ d3.next = d2.next ∧ (∀ t, MRel d.scope t → MRel d3.scope t) ∧
    (∀ t, MRel d.funs t → MRel d3.funs t) := by
  unfold Drv.popScope at hp
  obtain ⟨fs, hfs, hp⟩ := bindO_ok hp
  obtain ⟨sc, hsc, hp⟩ := bindO_ok hp
  simp only [Outcome.ok.injEq] at hp
  subst hp
  refine ⟨o.log, rfl, fun t k => ?_, fun t k => ?_⟩
  · obtain ⟨c, hc⟩ := o.scope t k
    exact mrel_pop hc hsc
  · exact mrel_pop (o.funs t k) hfs

theorem match_fresh {E F} {n : String} {ty : VType}
    (hs : d3.scope = d2.scope.insert n ⟨d2.next, ty⟩) (hf : d3.funs = d2.funs)
    (m : Match I d2 ρ E F) : Match I d3 ρ (E.set n (toVal ty (ρ ⟨d2.next, ty⟩))) F := by
  refine ⟨fun k v hv => ?_, by rw [hf]; exact m.funs⟩
  rw [hs, insert_map] at hv
  simp only [ScopedMap.upd] at hv
  unfold Names.set
  split_ifs at hv ⊢ with h
  · simp only [Option.some.injEq] at hv
    subst hv; rfl
  · exact m.names k v hv

end

end Verif.Proof.Smt2
