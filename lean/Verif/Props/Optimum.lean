import Mathlib.Tactic.NormNum
import Mathlib.Tactic.Linarith
import Verif.Proof.OptimumPoses
import Verif.Props.Api

/-!
# C55: an unsat answer after Minimize
-/

namespace Verif.Props
open Verif Verif.Model Verif.Spec Verif.Proof

/-- C55, as far as it holds.  If `Minimize(objectives)` is called after any history of calls without
scopes and the check after it answers unsat, the problem posed by the calls has no optimum, that is,
no solution than which no other solution is better in all the objectives, unless one next to the
literal of a strict bound (in the gap of C20).  Missing: scopes, quantifiers and conditionals in the
assertions and objectives, literals of bounds that are not doubles and strict bounds beyond the
limits of C20 (for these `Minimize` compares with points outside the problem), terms without values
somewhere, and intervals set after assertions. -/
theorem C55_unsat_partial (D : Dom) (I : Interp) (cfg : CCfg) (he : EnvOk D I cfg.env)
    (hd : DblOk cfg.th.dbl) (hp : PicosatOk cfg.ps) (k : Books) (c c1 c2 : Ctx) (objs : List Expr)
    (hk : PosesExact cfg k c)
    (hobj : ∀ f ∈ objs, IteFreeE f ∧ WfE k.top.Declared f ∧ ExactNum f)
    (hdef : Everywhere D I k.top objs) (hm : minimize cfg c objs = .ok c1)
    (h : checkSat cfg c1 = .ok (none, c2)) :
    ¬ ∃ ρ, Optimal I k.top objs ρ ∧ RegularAt D I cfg.th.dbl k.top ρ := by
  rintro ⟨ρ, ho, hr⟩
  obtain ⟨hP, hF, hB⟩ := flat_poses hd hp he hk
  obtain ⟨H, hK⟩ := kinv_poses hd hp he hP
  obtain ⟨P, Ps, hk1, ht, hl, -⟩ := hK.cons
  rw [← ht] at hl
  unfold minimize at hm
  obtain ⟨⟨psi, zs, n'⟩, hpsi, hm⟩ := bindR_ok hm
  have hm := lift_ok hm
  simp only at hm
  obtain ⟨xs, s, hx⟩ := psi_shape hpsi
  have hV : ∀ v, k.top.Declared v → v.id < c.sat.abs.next := fun v hv =>
    (hK.made v (hl.dom v hv).2).1
  set T : Valuation → Prop := fun σ => ∀ p ∈ k.top.dom, typeOk p.1.type (σ p.1) with hTdef
  have hwf : ∀ g ∈ c.stack.vec,
      ForAtoms (fun _ a b => ((WfE k.top.Declared a ∧ WfE k.top.Declared b) ∧ IteFreeE a ∧
        IteFreeE b) ∧ ∀ σ, T σ → DefE D I σ a ∧ DefE D I σ b)
        (fun v => v.type = .boolean ∧ k.top.Declared v) NoQ g := by
    intro g hg
    obtain ⟨f, hf, -, h2⟩ := hF.stk g hg
    obtain ⟨f1, f2, f3⟩ := hF.form f hf
    exact h2 _ _ (ForAtoms.mono (fun _ _ _ h => h) (fun _ h => h.1) (fun _ _ h => h.1) f
      (ForAtoms.and f (wf_flat f f1 f2 f3) (def_flat f f3 fun σ hσ => (hdef σ hσ).1 f hf)))
  have hwf' : ∀ g ∈ c.stack.vec,
      ForAtoms (fun _ a b => (WfE k.top.Declared a ∧ WfE k.top.Declared b) ∧ IteFreeE a ∧
        IteFreeE b) (fun v => v.type = .boolean ∧ k.top.Declared v) NoQ g := fun g hg =>
    ForAtoms.mono (fun _ _ _ h => h.1) (fun _ h => h) (fun _ _ h => h) g (hwf g hg)
  have hfe := flatInv_complete hF hl ho.solves hr
  have hmin : Minimal I c.box c.stack.vec objs ρ := fun σ hσ =>
    ho.best σ (flatInv_sound hF (fun v hv => (hl.dom v hv).1) hσ)
  obtain ⟨τ, t1, t2⟩ := (psi_holds I hl.wf (fun f hf => flat_sorted hV f (hwf' f hf))
    (fun f hf => ⟨sortedE_free f (hobj f hf).1 (hobj f hf).2.1,
      oldE_free hV f (hobj f hf).1 (hobj f hf).2.1⟩) hpsi ρ hfe).mpr hmin
  have hz : ∀ v, k.top.Declared v → v ∉ zs := fun v hv hv' =>
    absurd (psi_fresh hpsi v hv') (not_le.mpr (hV v hv))
  have hag : ∀ v, k.top.Declared v → τ v = ρ v := fun v hv => t1 v (hz v hv)
  have hTτ : T τ := fun p hp => by rw [hag p.1 ⟨p.2, hp⟩]; exact ho.solves.typed p hp
  have hreg : RegF D I cfg.th.dbl τ psi := by
    refine psi_reg hx hV hwf (fun f hf => ⟨⟨(hobj f hf).1, (hobj f hf).2.1⟩,
      fun σ hσ => (hdef σ hσ).2 f hf, (hobj f hf).2.2⟩) (fun σ σ' h1 h2 h3 p hp => ?_) hTτ
      (psi_eqs hpsi hx t2)
    rw [h3]
    split_ifs with hpx
    · exact h2 _ (List.mem_map_of_mem hpx)
    · rw [h1]
      · exact hTτ p hp
      · intro hm'
        obtain ⟨x, hx', he'⟩ := List.mem_map.mp hm'
        have := (yOf_id (next := c.sat.abs.next) hx').1
        rw [he'] at this
        exact absurd this (not_le.mpr (hV _ ⟨p.2, hp⟩))
  obtain ⟨w1, w2⟩ := psi_wf hx hV hwf' (fun f hf => ⟨(hobj f hf).1, (hobj f hf).2.1⟩)
  -- the calls Minimize amounts to
  have hnb : ¬ k.built := fun hb => hB.quant (hK.bq hb)
  obtain ⟨k1, a1, a2, a3, a4, a5, a6, a7⟩ := poses_news (xs.length + objs.length) hP
  have atop : k1.top = k.top := by unfold Books.top; rw [a2]
  have hzn : zs.Nodup := by
    rw [hx.znew]
    refine List.Nodup.map (fun i j hij => ?_) List.nodup_range
    simp only [Variable.mk.injEq] at hij
    omega
  obtain ⟨H1, hK1⟩ := kinv_poses (D := D) (I := I) hd hp he a1
  obtain ⟨k2, b1, b2, b3, b4, b5⟩ := poses_declares zs a1 hK1.wf hzn (fun z hz' => by
    refine ⟨?_, ?_, ?_⟩
    · rw [hx.znew] at hz'
      obtain ⟨i, hi, rfl⟩ := List.mem_map.mp hz'
      rw [Nat.add_assoc]
      exact a7 _ (by have := List.mem_range.mp hi; omega)
    · rw [a3]; intro hu
      exact absurd (psi_fresh hpsi z hz') (not_le.mpr (hK.made z (hB.used z hu)).1)
    · rw [atop]; exact fun hd' => hz z hd' hz') (by rw [a5]; exact hnb)
  rw [atop] at b3 b5
  have hnn : n' = c.sat.abs.next + (xs.length + objs.length) := by rw [hx.nnew, Nat.add_assoc]
  have hdecl : ∀ v, k.top.Declared v ∨ v ∈ zs → k2.top.Declared v := by
    rintro v (⟨iv, hv⟩ | hv)
    · exact ⟨iv, (b5 _).mpr (.inl hv)⟩
    · exact ⟨newItv v.type, (b5 _).mpr (.inr ⟨hv, rfl⟩)⟩
  have hu : k2.Uses n' (.assert psi) := ⟨wfF_mono hdecl psi w1, w2, fun hb => by
    rw [b4, a5] at hb; exact absurd hb hnb⟩
  subst hnn
  have hstep := Poses.step (cfg := cfg) (cmd := .assert psi) (a := []) (c' := c1) b1 hu (by
    have hm' : assertF cfg (Ctx.setBox { c with sat := { c.sat with abs := { c.sat.abs with
        next := c.sat.abs.next + (xs.length + objs.length) } } } (zs.foldl addToBox c.box)) psi =
        .ok c1 := hm
    show (Run.lift (assertF cfg (Ctx.setBox _ (zs.foldl addToBox c.box)) psi)).bind _ = _
    rw [hm']; rfl)
  refine C27_unsat_partial D I cfg he hd hp _ c1 c2 hstep h ⟨τ, ⟨?_, ?_, ?_⟩, ?_⟩
  · intro p hp'
    rcases (b5 p).mp hp' with hp' | ⟨hp', -⟩
    · exact hTτ p hp'
    · rw [hx.znew] at hp'
      obtain ⟨i, -, hi⟩ := List.mem_map.mp hp'
      rw [← hi]; trivial
  · intro p hp'
    rcases (b5 p).mp hp' with hp' | ⟨hp', he'⟩
    · rw [hag p.1 ⟨p.2, hp'⟩]; exact ho.solves.dom p hp'
    · rw [hx.znew] at hp'
      obtain ⟨i, -, hi⟩ := List.mem_map.mp hp'
      rw [he', ← hi]; exact ⟨trivial, trivial⟩
  · intro f hf
    rcases List.mem_cons.mp hf with rfl | hf
    · exact t2
    · rw [b3] at hf
      exact (holds_congr I f _ _ fun v hv => hag v (wfF_fv f (hF.form f hf).1 v hv)).mpr
        (ho.solves.holds f hf)
  · intro f hf
    rcases List.mem_cons.mp hf with rfl | hf
    · exact hreg
    · rw [b3] at hf
      exact regF_congr f (fun v hv => hag v (wfF_fv f (hF.form f hf).1 v hv)) (hr f hf)

/-- Declaring variables in a context with nothing but declarations. -/
theorem exact_declareAll {cfg : CCfg} : ∀ (vs : List Variable) {S : Variable → Prop} {k : Books}
    {c : Ctx}, PosesExact cfg k c → ¬ k.built → k.top.asserted = [] → (∀ v ∈ vs, v ∈ k.made) →
    (∀ v ∈ k.used, S v) → (∀ p, p ∈ k.top.dom ↔ S p.1 ∧ p.2 = newItv p.1.type) →
    ∃ k', PosesExact cfg k' (declareAll vs c) ∧ ¬ k'.built ∧ k'.top.asserted = [] ∧
      k'.made = k.made ∧ (∀ v ∈ k'.used, S v ∨ v ∈ vs) ∧
      ∀ p, p ∈ k'.top.dom ↔ (S p.1 ∨ p.1 ∈ vs) ∧ p.2 = newItv p.1.type
  | [], S, k, c, h, hb, ha, _, hu, hd => ⟨k, h, hb, ha, rfl, fun v hv => .inl (hu v hv), by
      simpa using hd⟩
  | v :: vs, S, k, c, h, hb, ha, hm, hu, hd => by
    have hdec : k.top.Declared v ∨ (v ∉ k.used ∧ ¬ k.built) := by
      by_cases hS : S v
      · exact .inl ⟨newItv v.type, (hd _).mpr ⟨hS, rfl⟩⟩
      · exact .inr ⟨fun h => hS (hu v h), hb⟩
    have h1 := PosesExact.step (cmd := .declare v true) h ⟨hm v (by simp), hdec⟩ (.inl ha)
      (show stepCmd cfg c (.declare v true) = .ok ([], declare c v true) from rfl)
    have htop : (k.step c.sat.abs.next (.declare v true)).top = { k.top with
        dom := if v ∈ (k.top.dom.map Prod.fst) then k.top.dom
          else (v, newItv v.type) :: k.top.dom } := rfl
    have hmem : ∀ p, p ∈ (if v ∈ k.top.dom.map Prod.fst then k.top.dom
        else (v, newItv v.type) :: k.top.dom) ↔ (S p.1 ∨ p.1 = v) ∧ p.2 = newItv p.1.type := by
      intro p
      split_ifs with hv
      · obtain ⟨q, hq, rfl⟩ := List.mem_map.mp hv
        rw [hd]
        refine and_congr_left fun _ => ⟨.inl, ?_⟩
        rintro (h | h)
        · exact h
        · rw [h]; exact ((hd q).mp hq).1
      · rw [List.mem_cons, hd]
        constructor
        · rintro (rfl | h)
          · exact ⟨.inr rfl, rfl⟩
          · exact ⟨.inl h.1, h.2⟩
        · rintro ⟨h | h, h'⟩
          · exact .inr ⟨h, h'⟩
          · subst h; exact .inl (Prod.ext rfl h')
    obtain ⟨k', a1, a2, a3, a4, a5, a6⟩ := exact_declareAll vs (S := fun w => S w ∨ w = v) h1 hb
      (by rw [htop]; exact ha) (fun w hw => hm w (by simp [hw]))
      (fun w hw => by
        rcases List.mem_cons.mp hw with rfl | hw
        · exact .inr rfl
        · exact .inl (hu w hw)) (fun p => by rw [htop]; exact hmem p)
    refine ⟨k', a1, a2, a3, a4, fun w hw => ?_, fun p => ?_⟩
    · rcases a5 w hw with (h | h) | h
      · exact .inl h
      · exact .inr (by simp [h])
      · exact .inr (by simp [h])
    · rw [a6, List.mem_cons, or_assoc]

/-- C55, as far as it holds, for the library function: if `Minimize` returns nothing, the objective
has no minimum under the constraint at a point that keeps off the gaps next to the literals of
strict bounds.  Missing: constraints with quantifiers or conditionals, literals of bounds that are
not doubles, terms without values somewhere, and the other points. -/
theorem C55_api_unsat_partial (D : Dom) (I : Interp) (cfg : CCfg) (he : EnvOk D I cfg.env)
    (hd : DblOk cfg.th.dbl) (hp : PicosatOk cfg.ps) (next : Nat) (e : Expr) (f : Fml)
    (hw : WfF (· ∈ f.fv) f) (ho : Old next f) (hq : QFree f) (hi : IteFree f)
    (hx : ExactBound cfg.th.dbl f) (hwe : WfE (· ∈ e.vars) e) (hie : IteFreeE e)
    (hoe : OldE next e) (hxe : ExactNum e)
    (hdef : ∀ σ : Valuation, (∀ v ∈ f.fv ++ e.vars, typeOk v.type (σ v)) →
      DefF D I σ f ∧ DefE D I σ e)
    (h : apiMinimize cfg next e f = .ok none) :
    ¬ ∃ ρ, MinimumOf I e f ρ ∧ RegF D I cfg.th.dbl ρ f := by
  rintro ⟨ρ, hs, hr⟩
  unfold apiMinimize at h
  obtain ⟨c, hc, h⟩ := bindR_ok h
  obtain ⟨c1, hc1, h⟩ := bindR_ok h
  obtain ⟨⟨m, c2⟩, hm, h⟩ := bindR_ok h
  simp only [Run.ok.injEq] at h
  subst h
  have hev : ∀ v ∈ e.vars, v.id < next := vars_old_e e hoe
  have h0 : PosesExact cfg { made := varSet f.fv ++ varSet e.vars } (Ctx.init next) :=
    .init next _ fun v hv => by
      rcases List.mem_append.mp hv with hv | hv
      · exact fv_old f ho v (mem_varSet.mp hv)
      · exact hev v (mem_varSet.mp hv)
  obtain ⟨k1, a1, a2, a3, a4, a5, a6⟩ := exact_declareAll (varSet f.fv) (S := fun _ => False) h0 id
    rfl (fun v hv => by simp [hv]) (by simp) (by simp [Books.top])
  obtain ⟨k2, b1, b2, b3, b4, b5, b6⟩ := exact_declareAll (varSet e.vars) a1 a2 a3
    (fun v hv => by rw [a4]; simp [hv]) a5 a6
  have hn : (declareAll (varSet e.vars) (declareAll (varSet f.fv) (Ctx.init next))).sat.abs.next =
      next := by rw [declareAll_sat, declareAll_sat]; rfl
  have hmem : ∀ p, p ∈ k2.top.dom ↔ p.1 ∈ f.fv ++ e.vars ∧ p.2 = newItv p.1.type := by
    intro p; rw [b6]; simp [mem_varSet]
  have hdec : ∀ v ∈ f.fv ++ e.vars, k2.top.Declared v := fun v hv =>
    ⟨newItv v.type, (hmem (v, _)).mpr ⟨hv, rfl⟩⟩
  have hstep := PosesExact.step (cmd := .assert f) (a := []) (c' := c) b1 (by
    rw [hn]
    exact ⟨wfF_mono (fun v hv => hdec v (by simp [hv])) f hw, ho, fun hb => absurd hb b2⟩)
    ⟨hq, hi, hx⟩ (by simp only [stepCmd, hc]; rfl)
  have htop : (k2.step (declareAll (varSet e.vars) (declareAll (varSet f.fv)
      (Ctx.init next))).sat.abs.next (.assert f)).top = { k2.top with asserted := [f] } := by
    show ({ k2.top with asserted := f :: k2.top.asserted } : Problem) = _
    rw [b3]
  have hsol : ∀ σ, SolvedBy I { k2.top with asserted := [f] } σ ↔ FeasibleFor I e f σ := by
    intro σ
    constructor
    · rintro ⟨h1, h2, h3⟩
      refine ⟨fun v hv => h1 (v, newItv v.type) ((hmem _).mpr ⟨hv, rfl⟩), fun v hv ht => ?_, h3 f (by simp)⟩
      have := h2 (v, newItv v.type) ((hmem _).mpr ⟨hv, rfl⟩)
      simp only [ht, newItv, InItv, below, above] at this
      push_cast at this
      exact abs_le.mpr this
    · rintro ⟨h1, h2, h3⟩
      refine ⟨fun p hp => h1 p.1 ((hmem p).mp hp).1, fun p hp => ?_, by simpa using h3⟩
      obtain ⟨p1, p2⟩ := (hmem p).mp hp
      rw [p2]; exact newItv_typed (h1 _ p1) (h2 _ p1)
  refine C55_unsat_partial D I cfg he hd hp _ c c1 c2 [e] hstep ?_ ?_ hc1 hm ⟨ρ, ⟨?_, ?_⟩, ?_⟩
  · rw [htop]
    simp only [List.mem_singleton, forall_eq]
    exact ⟨hie, wfE_mono (fun v hv => hdec v (by simp [hv])) e hwe, hxe⟩
  · rw [htop]
    intro σ hσ
    have := hdef σ fun v hv => hσ (v, newItv v.type) ((hmem _).mpr ⟨hv, rfl⟩)
    simpa using this
  · rw [htop]; exact (hsol ρ).mpr hs.feasible
  · rw [htop]
    intro σ hσ
    exact ⟨e, by simp, hs.least σ ((hsol σ).mp hσ)⟩
  · rw [htop]; intro g hg
    rw [List.mem_singleton.mp hg]; exact hr

/-! ### Concrete cases -/

/-- `∀ y, y > 5 ∨ z ≤ y`. -/
def noLeast : Fml := .all [⟨10, .continuous⟩] (.disj [.rel .gt (.var ⟨10, .continuous⟩) (.const 5),
  .rel .leq (.var ⟨11, .continuous⟩) (.var ⟨10, .continuous⟩)])

/-- Contractors that see that a formula is false. -/
def keenIbexOf (g : Fml) : Ibex := { demoIbex with
  forallC := fun _ _ f b => .ok (if f = g then { b with bot := true } else b, []) }
def keenCfgOf (g : Fml) : CCfg := { demoCfg with env := { demoCfg.env with ib := keenIbexOf g } }

/-- Contractors that see that there is no least real number below 5. -/
def keenCfg : CCfg := keenCfgOf noLeast

theorem keen_cases {g n vs f b b' out} (h : (keenIbexOf g).forallC n vs f b = .ok (b', out)) :
    (f = g ∧ b' = { b with bot := true }) ∨ b' = b := by
  simp only [keenIbexOf, Run.ok.injEq, Prod.mk.injEq] at h
  split_ifs at h with hf
  · exact .inl ⟨hf, h.1.symm⟩
  · exact .inr h.1.symm

theorem noLeast_false {I : Interp} {ρ : Valuation} : ¬ holds I ρ noLeast := by
  intro h
  have := h (fun v => if v = ⟨10, .continuous⟩ then min 5 (ρ ⟨11, .continuous⟩) - 1 else ρ v)
    (fun v hv => by
      rw [List.mem_singleton] at hv
      rw [if_neg hv]) (by simp [typeOk])
  have h1 := min_le_left 5 (ρ ⟨11, .continuous⟩)
  have h2 := min_le_right 5 (ρ ⟨11, .continuous⟩)
  simp only [holds, holdsAny, relSem, eval, or_false, if_true,
    if_neg (show (⟨11, .continuous⟩ : Variable) ≠ ⟨10, .continuous⟩ by decide)] at this
  rcases this with h3 | h3
  · push_cast at h3; linarith
  · linarith

theorem keenCfgOf_ok (D : Dom) (I : Interp) {g : Fml} (hg : ∀ ρ, ¬ holds I ρ g) :
    EnvOk D I (keenCfgOf g).env := by
  have h := demoCfg_ok D I
  refine ⟨h.ops, ⟨h.ib.1, h.ib.2, h.ib.3, h.ib.4, h.ib.5, h.ib.6⟩,
    ⟨h.loc.1, h.loc.2, h.loc.3, h.loc.4, h.loc.5⟩, ⟨?_, ?_, ?_⟩, ⟨?_, ?_, ?_⟩, h.br, h.cut, h.noUnsat⟩
  · intro n vs f b b' out h
    rcases keen_cases h with ⟨-, rfl⟩ | rfl <;> exact ⟨rfl, rfl⟩
  · intro n vs f b b' out _ _ h
    rcases keen_cases h with ⟨-, rfl⟩ | rfl
    · intro h; cases h
    · exact fun h => ⟨h, fun _ _ x => x⟩
  · intro n vs f b b' out _ _ h ρ hρ _ _ _ hh
    rcases keen_cases h with ⟨rfl, -⟩ | rfl
    · exact absurd hh (hg _)
    · exact hρ
  · intro n vs f b b' out _ _ h _ _ hb i v _ _ x hx
    rcases keen_cases h with ⟨-, rfl⟩ | rfl
    · cases hb
    · exact hx
  · intro n vs f b b' out _ _ h hn hb
    rcases keen_cases h with ⟨-, rfl⟩ | rfl
    · cases hb
    · exact hn
  · intro n vs f b b' out _ _ h ρ hρ _ _ _ hh
    rcases keen_cases h with ⟨rfl, -⟩ | rfl
    · exact absurd hh (hg _)
    · exact hρ

theorem keenCfg_ok (D : Dom) (I : Interp) : EnvOk D I keenCfg.env :=
  keenCfgOf_ok D I fun _ => noLeast_false

/-- `x ≤ 5`. -/
def belowFive : Fml := .rel .leq (.var varX) (.const 5)

/-- The contexts before the objective. -/
def keen0 : Ctx := declareAll [varX] (declareAll [varX] (Ctx.init 10))
def keen1 : Ctx := keen0.setBox ⟨[varX], [⟨.ninf, .fin 5⟩], false⟩

theorem keen_assert : assertF keenCfg keen0 belowFive = .ok keen1 := by
  have h1 : Filter.filter keenCfg.th.dbl belowFive keen0.box =
      .ok (.withChange, ⟨[varX], [⟨.ninf, .fin 5⟩], false⟩) := by decide +kernel
  have h2 : keen0.box.empty = false := by decide +kernel
  unfold assertF
  rw [if_neg (by decide), h2, if_neg (by decide), if_neg (by decide), h1]
  rfl

/-- What the objective adds: `z = x ∧ ∀ y, ¬ y ≤ 5 ∨ z ≤ y`. -/
def keenQ : Fml := .disj [.neg (.rel .leq (.var ⟨10, .continuous⟩) (.const 5)),
  .rel .leq (.var ⟨11, .continuous⟩) (.var ⟨10, .continuous⟩)]
def keenPsi : Fml := .conj [.rel .eq (.var ⟨11, .continuous⟩) (.var varX),
  .all [⟨10, .continuous⟩] keenQ]

theorem keen_tseitin : tseitin 12 keenPsi =
    .ok ([.rel .eq (.var ⟨11, .continuous⟩) (.var varX), noLeast], 13) ∧
    tseitinKeys 12 keenPsi = [12] := by
  let n : Fml := .disj [.rel .gt (.var ⟨10, .continuous⟩) (.const 5),
    .rel .leq (.var ⟨11, .continuous⟩) (.var ⟨10, .continuous⟩)]
  have h2 : naiveCnf keenQ = .ok n := by
    have : nnf true keenQ = n := by decide +kernel
    rw [naiveCnf, this]
    simp only [naiveVisit, naiveVisitList, n, Outcome.bind_ok]
    decide +kernel
  constructor
  · simp only [tseitin, tsVisit, tsVisitList, keenPsi, h2, Outcome.bind_ok]
    decide +kernel
  · simp only [tseitinKeys, tsVisit, tsVisitList, keenPsi, h2, Outcome.bind_ok]
    decide +kernel

/-- The context with the variable of the objective. -/
def keen2 : Ctx :=
  let c := keen1.setBox (addToBox keen1.box ⟨11, .continuous⟩)
  { c with sat := { c.sat with abs := { c.sat.abs with next := 12 } } }

/-- The SAT solver with the clauses of the objective. -/
def keenSat : Outcome SatState :=
  let a := absVisitList [.rel .eq (.var ⟨11, .continuous⟩) (.var varX), noLeast]
    { keen2.sat.abs with next := 13 }
  addClauses { keen2.sat with abs := a.2, tseitinVars := keen2.sat.tseitinVars.insert 12 } a.1

def keen3 (s : SatState) : Ctx :=
  { (keen2.setBox keen2.box).setBox (keen2.setBox keen2.box).box with
    stack := keen2.stack.pushBack keenPsi, sat := s }

theorem keen_minimize {s} (hs : keenSat = .ok s) : minimize keenCfg keen1 [.var varX] =
    .ok (keen3 s) := by
  have h1 : minimizePsi keen1.sat.abs.next keen1.box keen1.stack.vec [.var varX] =
      .ok (keenPsi, [⟨11, .continuous⟩], 12) := by decide +kernel
  have h2 : Filter.filter keenCfg.th.dbl keenPsi keen2.box = .ok (.notFiltered, keen2.box) := by
    decide +kernel
  have h3 : keen2.box.empty = false ∧ keen2.box.bot = false := by decide +kernel
  have h4 : iteProcess (keen2.setBox keen2.box).sat.abs.next keenPsi = (keenPsi, [], 12) := by
    decide +kernel
  have h5 : addFormula keen2.sat keenPsi = .ok s := by
    rw [addFormula, show keen2.sat.abs.next = 12 from rfl, keen_tseitin.1, keen_tseitin.2, ← hs]
    rfl
  have h6 : assertF keenCfg keen2 keenPsi = .ok (keen3 s) := by
    unfold assertF
    rw [if_neg (by simp [keenPsi]), h3.1, if_neg (by decide), if_neg (by simp [keenPsi]), h2,
      Outcome.bind_ok]
    simp only [h3.2, Bool.false_eq_true, if_false, h4, List.foldl_nil]
    have : addFormula { ((keen2.setBox keen2.box).setBox (keen2.setBox keen2.box).box).sat with
        abs := { ((keen2.setBox keen2.box).setBox (keen2.setBox keen2.box).box).sat.abs with
          next := 12 } } keenPsi = .ok s := h5
    rw [this, Outcome.bind_ok]
    rfl
  rw [minimize, h1, Run.bind_ok]
  exact congrArg Run.lift h6

theorem keen_answer : apiMinimize keenCfg 10 (.var varX) belowFive = .ok none := by
  obtain ⟨s, hs, h⟩ : ∃ s, keenSat = .ok s ∧ answerOf keenCfg (keen3 s) = some false := by
    have : (match keenSat with
      | .ok s => decide (answerOf keenCfg (keen3 s) = some false) | _ => false) = true := by
      decide +kernel
    split at this
    · exact ⟨_, by assumption, of_decide_eq_true this⟩
    · cases this
  obtain ⟨c, hc⟩ := answerOf_unsat h
  have e1 : varSet (Expr.vars (.var varX)) = [varX] ∧ varSet belowFive.fv = [varX] := by
    decide +kernel
  have e2 : assertF keenCfg (declareAll [varX] (declareAll [varX] (Ctx.init 10))) belowFive =
    .ok keen1 := keen_assert
  unfold apiMinimize
  simp only [e1.1, e1.2, e2]
  show (do let c ← minimize keenCfg keen1 [.var varX]; let r ← checkSat keenCfg c; Run.ok r.1) = _
  rw [keen_minimize hs, Run.bind_ok, hc]
  rfl

/-- The hypotheses are met: `Minimize(x, x ≤ 5)` returns nothing although the constraint has
solutions. -/
example (D : Dom) (I : Interp) : EnvOk D I keenCfg.env ∧ DblOk keenCfg.th.dbl ∧
    PicosatOk keenCfg.ps ∧ WfF (· ∈ belowFive.fv) belowFive ∧ Old 10 belowFive ∧
    QFree belowFive ∧ IteFree belowFive ∧ ExactBound keenCfg.th.dbl belowFive ∧
    ExactNum (.var varX) ∧ (∀ σ : Valuation, DefF D I σ belowFive ∧ DefE D I σ (.var varX)) ∧
    apiMinimize keenCfg 10 (.var varX) belowFive = .ok none ∧
    ∃ ρ, FeasibleFor I (.var varX) belowFive ρ ∧ RegF D I keenCfg.th.dbl ρ belowFive := by
  refine ⟨keenCfg_ok D I, quarterDbl_ok, demoSat_ok, ?_, ?_, ?_, ?_, ?_, ?_, ?_,
    keen_answer, fun _ => 0, ?_, ?_⟩
  · simp [belowFive, WfF, WfE, Fml.fv, Expr.vars, varX]
  · simp [belowFive, Old, OldE, varX]
  · simp [belowFive, QFree, QFreeE]
  · simp [belowFive, IteFree, IteFreeE]
  · intro v op lo hi ex h
    simp [belowFive, asBound, asRel, asNum] at h
    obtain ⟨rfl, rfl, rfl, rfl, rfl⟩ := h
    simp
  · intro lo hi ex h; simp [asNum] at h
  · intro σ; simp [belowFive, DefF, DefE]
  · refine ⟨?_, ?_, ?_⟩
    · simp [belowFive, Fml.fv, Expr.vars, varX, typeOk]
    · simp [belowFive, Fml.fv, Expr.vars, varX]
    · simp [belowFive, holds, relSem, eval]
  · refine ⟨trivial, trivial, fun lo hi ex h _ => ?_, fun lo hi ex h => by simp [asNum] at h⟩
    simp only [asNum, Option.some.injEq, Prod.mk.injEq] at h
    obtain ⟨rfl, rfl, rfl⟩ := h
    refine ⟨fun _ hc => ?_, fun hc => by simp at hc⟩
    have := hc.1
    simp only [eval] at this
    norm_num at this

/-- And those of the theorem on contexts, by the calls behind it. -/
example (D : Dom) (I : Interp) : ∃ k c1 c2, PosesExact keenCfg k keen1 ∧
    k.top.asserted = [belowFive] ∧ Everywhere D I k.top [.var varX] ∧
    minimize keenCfg keen1 [.var varX] = .ok c1 ∧ checkSat keenCfg c1 = .ok (none, c2) := by
  obtain ⟨s, hs, h⟩ : ∃ s, keenSat = .ok s ∧ answerOf keenCfg (keen3 s) = some false := by
    have : (match keenSat with
      | .ok s => decide (answerOf keenCfg (keen3 s) = some false) | _ => false) = true := by
      decide +kernel
    split at this
    · exact ⟨_, by assumption, of_decide_eq_true this⟩
    · cases this
  obtain ⟨c, hc⟩ := answerOf_unsat h
  have h0 : PosesExact keenCfg { made := [varX] } (Ctx.init 10) := .init _ _ (by decide)
  obtain ⟨k, a1, a2, a3, a4, a5, a6⟩ := exact_declareAll [varX, varX] (S := fun _ => False) h0 id
    rfl (by simp) (by simp) (by simp [Books.top])
  have h1 := PosesExact.step (cmd := .assert belowFive) (a := []) (c' := keen1) a1 (by
    have hx : k.top.Declared varX := ⟨newItv varX.type, (a6 _).mpr ⟨.inr (by simp), rfl⟩⟩
    refine ⟨⟨⟨by decide, hx⟩, trivial⟩, ⟨?_, trivial⟩, fun hb => absurd hb a2⟩
    show varX.id < _
    decide +kernel) (by
    refine ⟨⟨trivial, trivial⟩, ⟨trivial, trivial⟩, fun v op lo hi ex h => ?_⟩
    simp [belowFive, asBound, asRel, asNum] at h
    obtain ⟨rfl, rfl, rfl, rfl, rfl⟩ := h
    simp) (by
    have : assertF keenCfg (declareAll [varX, varX] (Ctx.init 10)) belowFive = .ok keen1 :=
      keen_assert
    simp only [stepCmd, this]; rfl)
  refine ⟨_, _, c, h1, ?_, ?_, keen_minimize hs, hc⟩
  · show belowFive :: k.top.asserted = _
    rw [a3]
  · intro σ _
    refine ⟨fun f hf => ?_, fun f hf => ?_⟩
    · have hf : f ∈ belowFive :: k.top.asserted := hf
      rw [a3, List.mem_singleton] at hf
      subst hf; simp [belowFive, DefF, DefE]
    · rw [List.mem_singleton] at hf
      subst hf; simp [DefE]

end Verif.Props
