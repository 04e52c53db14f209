import Mathlib.Tactic.NormNum
import Mathlib.Tactic.Linarith
import Verif.Proof.Dr
import Verif.Props.Optimum
import Verif.Props.Script

/-!
# C56: the answers for `dr` problems
-/

namespace Verif.Props
open Verif Verif.Model Verif.Model.Dr Verif.Spec Verif.Spec.Dr Verif.Proof Verif.Proof.Dr

/-- C56: the formula made of a constraint is true exactly where the constraint is, if variables have
the values of their names. -/
theorem C56_meaning (I : Interp) (sc : ScopedMap String Variable) (f : DFml) (g : Fml)
    (h : trF sc f = .ok g) (σ : Point) (ρ : Valuation) (hv : ∀ n v, sc.map n = some v → ρ v = σ n) :
    holds I ρ g ↔ sat I σ f := holds_trF hv f h

/-- C56: there is an answer only if all names are declared. -/
theorem C56_declared (cfg : CCfg) (p : DProb) (a : Option Box) (h : Dr.solve cfg p = .ok a) :
    (∀ o x y, (o, x, y) ∈ DProb.atoms p → ∀ n ∈ names x ++ names y, ∃ d ∈ p.decls, d.name = n) ∧
    ∀ x ∈ p.costs, ∀ n ∈ names x, ∃ d ∈ p.decls, d.name = n := by
  obtain ⟨c, c', hc, -⟩ := solve_ok h
  obtain ⟨fs, es, r, h1, h2, -, -, -⟩ := posed_ok hc
  have hE : ∀ x e, trE (scopeOf p) x = .ok e → ∀ n ∈ names x, ∃ d ∈ p.decls, d.name = n := by
    intro x e he n hn
    obtain ⟨v, hv⟩ := (trE_known x).mp ⟨e, he⟩ n hn
    obtain ⟨i, d, hd, rfl, -⟩ := scope_var hv
    exact ⟨d, List.mem_of_getElem? hd, rfl⟩
  have hF : ∀ (f : DFml) {g}, trF (scopeOf p) f = .ok g → ∀ o x y, (o, x, y) ∈ Dr.atoms f →
      (∃ e, trE (scopeOf p) x = .ok e) ∧ ∃ e, trE (scopeOf p) y = .ok e := by
    intro f
    induction f with
    | rel o a b =>
      intro g h o x y hm
      obtain ⟨e1, h1, h⟩ := bindO_ok h
      obtain ⟨e2, h2, h⟩ := bindO_ok h
      simp only [Dr.atoms, List.mem_singleton, Prod.mk.injEq] at hm
      obtain ⟨rfl, rfl, rfl⟩ := hm
      exact ⟨⟨e1, h1⟩, e2, h2⟩
    | and a b iha ihb =>
      intro g h o x y hm
      obtain ⟨e1, h1, h⟩ := bindO_ok h
      obtain ⟨e2, h2, h⟩ := bindO_ok h
      rcases List.mem_append.mp hm with hm | hm
      exacts [iha h1 o x y hm, ihb h2 o x y hm]
    | or a b iha ihb =>
      intro g h o x y hm
      obtain ⟨e1, h1, h⟩ := bindO_ok h
      obtain ⟨e2, h2, h⟩ := bindO_ok h
      rcases List.mem_append.mp hm with hm | hm
      exacts [iha h1 o x y hm, ihb h2 o x y hm]
    | imp a b iha ihb =>
      intro g h o x y hm
      obtain ⟨e1, h1, h⟩ := bindO_ok h
      obtain ⟨e2, h2, h⟩ := bindO_ok h
      rcases List.mem_append.mp hm with hm | hm
      exacts [iha h1 o x y hm, ihb h2 o x y hm]
    | not a iha =>
      intro g h o x y hm
      obtain ⟨e1, h1, h⟩ := bindO_ok h
      exact iha h1 o x y hm
  refine ⟨fun o x y hm n hn => ?_, fun x hx n hn => ?_⟩
  · obtain ⟨f, hf, hm⟩ := List.mem_flatMap.mp hm
    obtain ⟨g, -, hg⟩ := (trAll_mem h1).1 f hf
    obtain ⟨⟨e1, he1⟩, e2, he2⟩ := hF f hg o x y hm
    rcases List.mem_append.mp hn with hn | hn
    exacts [hE x e1 he1 n hn, hE y e2 he2 n hn]
  · obtain ⟨e, -, he⟩ := (trAll_mem h2).1 x hx
    exact hE x e he n hn

/-- C56, as far as it holds, for `unsat` without costs: no point at which the terms of the
constraints have values and which keeps off the gaps of C20 is within the bounds and satisfies the
constraints.  Missing: the other points. -/
theorem C56_unsat_partial (D : Dom) (I : Interp) (cfg : CCfg) (he : EnvOk D I cfg.env)
    (hd : DblOk cfg.th.dbl) (hp : PicosatOk cfg.ps) (p : DProb) (hc : p.costs = [])
    (h : Dr.solve cfg p = .ok none) :
    ¬ ∃ σ, Solves I p σ ∧ Ordinary D I cfg.th.dbl p σ := by
  rintro ⟨σ, hs, ho⟩
  obtain ⟨c, c', h1, h2⟩ := solve_ok h
  obtain ⟨fs, es, r, e1, -, e3, e4, -⟩ := posed_ok h1
  obtain ⟨k, k1, k2, k3⟩ := posed_books closed_poses (.init 0 [] (by simp)) e1 (fun _ _ => trivial) e3
  rw [e4 hc] at h2
  refine C27_unsat_partial D I cfg he hd hp k _ c' k1 h2 ⟨toVars p σ, ⟨?_, ?_, ?_⟩, ?_⟩
  · intro q hq
    obtain ⟨i, d, h1, rfl⟩ := (k3 q).mp hq
    trivial
  · intro q hq
    obtain ⟨i, d, h1, rfl⟩ := (k3 q).mp hq
    have : toVars p σ ⟨i, .continuous⟩ = σ d.name := by simp [toVars, h1]
    simp only [this]
    exact hs.bounds d (List.mem_of_getElem? h1)
  · intro f hf
    obtain ⟨x, hx, hfx⟩ := (trAll_mem e1).2 f ((k2 f).mp hf)
    exact (holds_trF agree_toVars x hfx).mpr (hs.holds x hx)
  · intro f hf
    obtain ⟨x, hx, hfx⟩ := (trAll_mem e1).2 f ((k2 f).mp hf)
    exact reg_trF agree_toVars ho hx hfx

/-- C56, as far as it holds, for `unsat` with costs: there is no optimum that keeps off the gaps of
C20.  Missing: repeated names, strict bounds beyond the limits of C20, terms without values
somewhere, and the optima in the gaps. -/
theorem C56_unsat_cost_partial (D : Dom) (I : Interp) (cfg : CCfg) (he : EnvOk D I cfg.env)
    (hd : DblOk cfg.th.dbl) (hp : PicosatOk cfg.ps) (p : DProb) (hc : p.costs ≠ [])
    (hn : (p.decls.map DDecl.name).Nodup) (hw : ∀ f ∈ p.ctrs, Within cfg.th.dbl true f)
    (hdef : ∀ σ, (∀ o a b, (o, a, b) ∈ DProb.atoms p → DefX D I σ a ∧ DefX D I σ b) ∧
      ∀ x ∈ p.costs, DefX D I σ x)
    (h : Dr.solve cfg p = .ok none) :
    ¬ ∃ σ, Best I p σ ∧ Ordinary D I cfg.th.dbl p σ := by
  rintro ⟨σ, hs, ho⟩
  obtain ⟨c, c', h1, h2⟩ := solve_ok h
  obtain ⟨fs, es, r, e1, e2, e3, -, e5⟩ := posed_ok h1
  obtain ⟨k, k1, k2, k3⟩ := posed_books closed_exact (.init 0 [] (by simp)) e1 (fun f hf => by
    obtain ⟨x, hx, hfx⟩ := (trAll_mem e1).2 f hf
    obtain ⟨-, -, s3, s4⟩ := trF_shape (V := fun _ => True) (fun _ _ => trivial) hfx
    exact ⟨s3, s4, exact_trF hfx (hw x hx)⟩) e3
  have hV : ∀ n v, (scopeOf p).map n = some v →
      v.type ≠ .boolean ∧ k.top.Declared v ∧ v.id < p.decls.length := by
    intro n v hv
    obtain ⟨i, d, h1, -, rfl⟩ := scope_var hv
    exact ⟨by simp, ⟨_, (k3 _).mpr ⟨i, d, h1, rfl⟩⟩, (List.getElem?_eq_some_iff.mp h1).1⟩
  refine C55_unsat_partial D I cfg he hd hp k r.2 c c' es k1 (fun e hm => ?_) (fun ρ _ => ⟨?_, ?_⟩)
    (e5 hc) h2 ⟨toVars p σ, ⟨⟨?_, ?_, ?_⟩, fun τ hτ => ?_⟩, ?_⟩
  · obtain ⟨x, hx, hex⟩ := (trAll_mem e2).2 e hm
    obtain ⟨s1, s2, -, -⟩ := trE_shape hV x hex
    refine ⟨s2, s1, fun lo hi ex hl => ?_⟩
    obtain ⟨l1, l2, -⟩ := trE_num hex hl
    exact ⟨l1, l2⟩
  · intro f hf
    obtain ⟨x, hx, hfx⟩ := (trAll_mem e1).2 f ((k2 f).mp hf)
    exact def_trF agree_toNames (fun o a b hm => (hdef _).1 o a b (List.mem_flatMap.mpr ⟨x, hx, hm⟩)) hfx
  · intro e hm
    obtain ⟨x, hx, hex⟩ := (trAll_mem e2).2 e hm
    exact (trE_def ⟨id, id, 0, 0⟩ agree_toNames x hex ((hdef _).2 x hx)).2
  · intro q hq
    obtain ⟨i, d, h1, rfl⟩ := (k3 q).mp hq
    trivial
  · intro q hq
    obtain ⟨i, d, h1, rfl⟩ := (k3 q).mp hq
    have : toVars p σ ⟨i, .continuous⟩ = σ d.name := by simp [toVars, h1]
    simp only [this]
    exact hs.solves.bounds d (List.mem_of_getElem? h1)
  · intro f hf
    obtain ⟨x, hx, hfx⟩ := (trAll_mem e1).2 f ((k2 f).mp hf)
    exact (holds_trF agree_toVars x hfx).mpr (hs.solves.holds x hx)
  · have ht : Solves I p (toNames p τ) := by
      refine ⟨fun d hd => ?_, fun x hx => ?_⟩
      · obtain ⟨i, hi⟩ := List.mem_iff_getElem?.mp hd
        have := hτ.dom _ ((k3 _).mpr ⟨i, d, hi, rfl⟩)
        have hv := fold_name p.decls {} hn i d hi
        rw [Nat.zero_add] at hv
        have e : toNames p τ d.name = τ ⟨i, .continuous⟩ := by
          have hv' : (scopeOf p).map d.name = some ⟨i, .continuous⟩ := hv
          simp [toNames, hv']
        rw [e]; exact this
      · obtain ⟨f, hm, hfx⟩ := (trAll_mem e1).1 x hx
        exact (holds_trF agree_toNames x hfx).mp (hτ.holds f ((k2 f).mpr hm))
    obtain ⟨x, hx, hle⟩ := hs.best _ ht
    obtain ⟨e, hm, hex⟩ := (trAll_mem e2).1 x hx
    refine ⟨e, hm, ?_⟩
    rw [eval_trE agree_toVars x hex, eval_trE agree_toNames x hex]
    exact hle
  · intro f hf
    obtain ⟨x, hx, hfx⟩ := (trAll_mem e1).2 f ((k2 f).mp hf)
    exact reg_trF agree_toVars ho hx hfx

/-- C56, as far as it holds, for the model of a problem without costs: it has one variable for each
declaration, in whatever order.  Missing: problems with costs. -/
theorem C56_model_partial (D : Dom) (I : Interp) (cfg : CCfg) (he : EnvOk D I cfg.env)
    (p : DProb) (m : Box) (hc : p.costs = []) (h : Dr.solve cfg p = .ok (some m)) :
    m.vars.Nodup ∧ ∀ v, v ∈ m.vars ↔ ∃ i < p.decls.length, v = ⟨i, .continuous⟩ := by
  obtain ⟨c, c', h1, h2⟩ := solve_ok h
  obtain ⟨fs, es, r, e1, -, e3, e4, -⟩ := posed_ok h1
  rw [e4 hc] at h2
  obtain ⟨u, u1, u2, u3⟩ := posed_reach e1 e3
  have := C31_model_variables_partial D I cfg he u _ c' m u1 (by simp [u2]) h2
  exact ⟨this.1, fun v => by rw [this.2, u3]⟩

/-- C56, as far as it holds, for `delta-sat` without costs: every point of the model is within the
bounds and satisfies the `δ`-weakening of every constraint whose terms have values there, provided
that the search did not end with a box that it could not split.  Missing: problems with costs,
repeated names (see `C56_redeclared`), comparisons without names and with numbers that are coarse
compared with `δ`, and the proviso (see C28). -/
theorem C56_delta_sat_partial (D : Dom) (I : Interp) (cfg : CCfg) (he : EnvOk D I cfg.env)
    (hd : DblOk cfg.th.dbl) (hp : PicosatOk cfg.ps) (hfp : DiamOk cfg.env.fp)
    (hz : DiamZero cfg.env.fp) (hδ : 0 ≤ cfg.env.delta) (p : DProb) (m : Box) (hc : p.costs = [])
    (hn : (p.decls.map DDecl.name).Nodup) (hf : Fine cfg.th.dbl cfg.env.delta p)
    (h : Dr.solve cfg p = .ok (some m))
    (hst : ∀ c b r, posed cfg p = .ok c → checkCore cfg c = .ok (some b, r) →
      ∀ o x y a e, (o, x, y) ∈ DProb.atoms p → trE (scopeOf p) x = .ok a →
        trE (scopeOf p) y = .ok e → ¬ StuckOn cfg.env cfg.th b a e)
    (ρ : Valuation) (hρ : InBox ρ m) :
    ∃ σ : Point, (∀ i d, p.decls[i]? = some d → σ d.name = ρ ⟨i, .continuous⟩) ∧
      (∀ d ∈ p.decls, InItv (σ d.name) ⟨d.lo, d.hi⟩) ∧
      ∀ f ∈ p.ctrs, (∀ o a b, (o, a, b) ∈ Dr.atoms f → DefX D I σ a ∧ DefX D I σ b) →
        weakSat I cfg.env.delta σ true f := by
  obtain ⟨-, hv⟩ := C56_model_partial D I cfg he p m hc h
  obtain ⟨c, c', h1, h2⟩ := solve_ok h
  obtain ⟨fs, es, r, e1, -, e3, e4, -⟩ := posed_ok h1
  have hr := e4 hc
  subst hr
  obtain ⟨k, k1, k2, k3⟩ := posed_books (closed_plain (S := Compared p)) (.init 0 [] (by simp)) e1
    (fun f hf' => by
      obtain ⟨x, hx, hfx⟩ := (trAll_mem e1).2 f hf'
      exact plain_trF hf hx hfx) e3
  obtain ⟨a1, a2⟩ := C28_delta_sat_partial D I cfg he hd hp hfp hz hδ (Compared p) k _ c' m k1 h2
    (fun q hq => by
      obtain ⟨i, d, -, rfl⟩ := (k3 q).mp hq
      exact .inl rfl)
    (fun q hq => by
      obtain ⟨i, d, hi, rfl⟩ := (k3 q).mp hq
      exact (hv _).mpr ⟨i, (List.getElem?_eq_some_iff.mp hi).1, rfl⟩)
    (fun b r hb a e ⟨o, x, y, s1, s2, s3⟩ => hst _ b r h1 hb o x y a e s1 s2 s3) ρ hρ
  have hσ : ∀ i d, p.decls[i]? = some d → toNames p ρ d.name = ρ ⟨i, .continuous⟩ := by
    intro i d hi
    have hv := fold_name p.decls {} hn i d hi
    rw [Nat.zero_add] at hv
    have hv' : (scopeOf p).map d.name = some ⟨i, .continuous⟩ := hv
    simp [toNames, hv']
  refine ⟨toNames p ρ, hσ, fun d hd => ?_, fun f hf' hdef => ?_⟩
  · obtain ⟨i, hi⟩ := List.mem_iff_getElem?.mp hd
    rw [hσ i d hi]
    exact a1 _ ((k3 _).mpr ⟨i, d, hi, rfl⟩)
  · obtain ⟨g, hm, hg⟩ := (trAll_mem e1).1 f hf'
    exact weak_trF (by exact_mod_cast hδ) agree_toNames f true hg
      (a2 g ((k2 g).mpr hm) (def_trF agree_toNames hdef hg))

/-! ### Concrete cases -/

/-- What `solve` printed. -/
def printed (cfg : CCfg) (p : DProb) : Option Bool :=
  match Dr.solve cfg p with
  | .ok none => some false
  | .ok (some _) => some true
  | _ => none

theorem printed_unsat {cfg p} (h : printed cfg p = some false) : Dr.solve cfg p = .ok none := by
  unfold printed at h; split at h <;> simp_all

theorem printed_sat {cfg p} (h : printed cfg p = some true) : ∃ m, Dr.solve cfg p = .ok (some m) := by
  unfold printed at h; split at h <;> simp_all

/-- `var: [0, 1] x; [0, 2] y; ctr: x + x >= 3 or y - x > 3;` -/
def drNone : DProb where
  decls := [⟨"x", .fin 0, .fin 1⟩, ⟨"y", .fin 0, .fin 2⟩]
  ctrs := [.or (.rel .ge (.add (.id "x") (.id "x")) (.num 3))
    (.rel .gt (.sub (.id "y") (.id "x")) (.num 3))]
  costs := []

theorem drNone_unsat : Dr.solve demoCfg drNone = .ok none := printed_unsat (by decide +kernel)

/-- The hypotheses for `unsat` are met, and all points are ordinary. -/
theorem drNone_meets (D : Dom) (I : Interp) : EnvOk D I demoCfg.env ∧ DblOk demoCfg.th.dbl ∧
    PicosatOk demoCfg.ps ∧ drNone.costs = [] ∧ Dr.solve demoCfg drNone = .ok none ∧
    (∀ σ, Ordinary D I demoCfg.th.dbl drNone σ) ∧ ¬ ∃ σ, Solves I drNone σ := by
  have ho : ∀ σ, Ordinary D I demoCfg.th.dbl drNone σ := by
    intro σ
    refine ⟨fun o a b h => ?_, fun o n b q h _ => ?_, fun o n a q h _ => ?_⟩
    · simp [drNone, DProb.atoms, Dr.atoms] at h
      rcases h with ⟨-, rfl, rfl⟩ | ⟨-, rfl, rfl⟩ <;> simp [DefX]
    · simp [drNone, DProb.atoms, Dr.atoms] at h
    · simp [drNone, DProb.atoms, Dr.atoms] at h
  exact ⟨demoCfg_ok D I, quarterDbl_ok, demoSat_ok, rfl, drNone_unsat, ho, fun ⟨σ, h⟩ =>
    C56_unsat_partial D I demoCfg (demoCfg_ok D I) quarterDbl_ok demoSat_ok drNone rfl drNone_unsat
      ⟨σ, h, ho σ⟩⟩

/-- `var: [2, 2.75] x; ctr: x + x >= 5;` -/
def drSome : DProb where
  decls := [⟨"x", .fin 2, .fin (11 / 4)⟩]
  ctrs := [.rel .ge (.add (.id "x") (.id "x")) (.num 5)]
  costs := []

def drFound : Box := ⟨[⟨0, .continuous⟩], [⟨.fin (19 / 8), .fin (11 / 4)⟩], false⟩

/-- The hypotheses for `delta-sat` are met: the model has `x ∈ [19/8, 11/4]`, where `x + x >= 5` holds
only up to `δ`. -/
theorem drSome_meets (D : Dom) (I : Interp) : EnvOk D I demoCfg.env ∧ DblOk demoCfg.th.dbl ∧
    PicosatOk demoCfg.ps ∧ DiamOk demoCfg.env.fp ∧ DiamZero demoCfg.env.fp ∧
    0 ≤ demoCfg.env.delta ∧ drSome.costs = [] ∧ (drSome.decls.map DDecl.name).Nodup ∧
    Fine demoCfg.th.dbl demoCfg.env.delta drSome ∧ Dr.solve demoCfg drSome = .ok (some drFound) ∧
    (∀ c b r, posed demoCfg drSome = .ok c → checkCore demoCfg c = .ok (some b, r) →
      ∀ o x y a e, (o, x, y) ∈ DProb.atoms drSome → trE (scopeOf drSome) x = .ok a →
        trE (scopeOf drSome) y = .ok e → ¬ StuckOn demoCfg.env demoCfg.th b a e) ∧
    InBox (fun _ => 19 / 8) drFound := by
  have hA : ∀ o x y, (o, x, y) ∈ DProb.atoms drSome →
      o = .ge ∧ x = .add (.id "x") (.id "x") ∧ y = .num 5 := by
    intro o x y h
    simpa [drSome, DProb.atoms, Dr.atoms] using h
  refine ⟨demoCfg_ok D I, quarterDbl_ok, demoSat_ok, exactFp_diamOk, exactFp_diamZero,
    by decide +kernel, rfl, by simp [drSome], ⟨?_, ?_, ?_⟩, ?_, ?_, ?_⟩
  · intro o a b h
    obtain ⟨rfl, rfl, rfl⟩ := hA o a b h
    simp [names]
  · intro o a b q h hq
    obtain ⟨rfl, rfl, rfl⟩ := hA o a b h
    simp [lit] at hq
  · intro o a b q h hq
    obtain ⟨rfl, rfl, rfl⟩ := hA o a b h
    simp only [lit, Option.some.injEq] at hq
    subst hq
    decide +kernel
  · have : (match Dr.solve demoCfg drSome with | .ok a => a | _ => none) = some drFound := by
      decide +kernel
    split at this
    · rename_i a hs
      rw [hs, this]
    · cases this
  · intro c b r h1 h2 o x y a e hm hx hy
    have : (match posed demoCfg drSome with
      | .ok c => foundBy demoCfg c | _ => none) = some drFound := by decide +kernel
    rw [h1] at this
    obtain ⟨r', h3⟩ := foundBy_some this
    rw [h3] at h2
    simp only [Run.ok.injEq, Prod.mk.injEq, Option.some.injEq] at h2
    rw [← h2.1]
    obtain ⟨rfl, rfl, rfl⟩ := hA o x y hm
    have e1 : trE (scopeOf drSome) (.add (.id "x") (.id "x")) = .ok scSum := by decide +kernel
    rw [e1] at hx
    simp only [trE, Outcome.ok.injEq] at hx hy
    subst hx; subst hy
    rintro ⟨f, op, iv, cand, h1, -, h2, h3, -⟩
    unfold evalRel at h2
    obtain ⟨o, -, h2⟩ := bindO_ok h2
    obtain ⟨x, h4, h2⟩ := bindO_ok h2
    obtain ⟨j, h5, h2⟩ := bindO_ok h2
    rw [extractExpr_asRel h1] at h4
    simp only [Outcome.ok.injEq] at h4; subst h4
    have key : evalI demoCfg.env.ops drFound (Expr.sub scSum (.const 5)) =
        .ok ⟨.fin (-1 / 4), .fin (1 / 2)⟩ := by decide +kernel
    rw [key] at h5
    simp only [Outcome.ok.injEq] at h5
    subst h5
    injection h2 with h2
    rw [← (Prod.mk.inj h2).2] at h3
    revert h3
    decide +kernel
  · refine ⟨rfl, fun i v h => ?_⟩
    match i, h with
    | 0, h => simp [drFound, Box.get, InItv, below, above]; norm_num
    | n + 1, h => simp [drFound] at h

/-- `var: [-inf, 7] x; ctr: x <= 5; cost: x;` -/
def drCost : DProb := ⟨[⟨"x", .ninf, .fin 7⟩], [.rel .le (.id "x") (.num 5)], [.id "x"]⟩

def drX : Variable := ⟨0, .continuous⟩
def drY : Variable := ⟨1, .continuous⟩
def drZ : Variable := ⟨2, .continuous⟩

/-- `∀ y, y > 5 ∨ z ≤ y`. -/
def drNoLeast : Fml := .all [drY] (.disj [.rel .gt (.var drY) (.const 5),
  .rel .leq (.var drZ) (.var drY)])

/-- Contractors that see that there is no least real number below 5. -/
def drIbex : Ibex := { demoIbex with
  forallC := fun _ _ f b => .ok (if f = drNoLeast then { b with bot := true } else b, []) }
def drCfg : CCfg := { demoCfg with env := { demoCfg.env with ib := drIbex } }

theorem dr_cases {n vs f b b' out} (h : drIbex.forallC n vs f b = .ok (b', out)) :
    (f = drNoLeast ∧ b' = { b with bot := true }) ∨ b' = b := by
  simp only [drIbex, Run.ok.injEq, Prod.mk.injEq] at h
  split_ifs at h with hf
  · exact .inl ⟨hf, h.1.symm⟩
  · exact .inr h.1.symm

theorem drNoLeast_false {I : Interp} {ρ : Valuation} : ¬ holds I ρ drNoLeast := by
  intro h
  have := h (fun v => if v = drY then min 5 (ρ drZ) - 1 else ρ v)
    (fun v hv => by
      rw [List.mem_singleton] at hv
      rw [if_neg hv]) (by simp [typeOk, drY])
  have h1 := min_le_left 5 (ρ drZ)
  have h2 := min_le_right 5 (ρ drZ)
  simp only [holds, holdsAny, relSem, eval, or_false, if_true,
    if_neg (show drZ ≠ drY by decide)] at this
  rcases this with h3 | h3
  · push_cast at h3; linarith
  · linarith

theorem drCfg_ok (D : Dom) (I : Interp) : EnvOk D I drCfg.env := by
  have h := demoCfg_ok D I
  refine ⟨h.ops, ⟨h.ib.1, h.ib.2, h.ib.3, h.ib.4, h.ib.5, h.ib.6⟩,
    ⟨h.loc.1, h.loc.2, h.loc.3, h.loc.4, h.loc.5⟩, ⟨?_, ?_, ?_⟩, ⟨?_, ?_, ?_⟩, h.br, h.cut, h.noUnsat⟩
  · intro n vs f b b' out h
    rcases dr_cases h with ⟨-, rfl⟩ | rfl <;> exact ⟨rfl, rfl⟩
  · intro n vs f b b' out _ _ h
    rcases dr_cases h with ⟨-, rfl⟩ | rfl
    · intro h; cases h
    · exact fun h => ⟨h, fun _ _ x => x⟩
  · intro n vs f b b' out _ _ h ρ hρ _ _ _ hh
    rcases dr_cases h with ⟨rfl, -⟩ | rfl
    · exact absurd hh drNoLeast_false
    · exact hρ
  · intro n vs f b b' out _ _ h _ _ hb i v _ _ x hx
    rcases dr_cases h with ⟨-, rfl⟩ | rfl
    · cases hb
    · exact hx
  · intro n vs f b b' out _ _ h hn hb
    rcases dr_cases h with ⟨-, rfl⟩ | rfl
    · cases hb
    · exact hn
  · intro n vs f b b' out _ _ h ρ hρ _ _ _ hh
    rcases dr_cases h with ⟨rfl, -⟩ | rfl
    · exact absurd hh drNoLeast_false
    · exact hρ

/-- The context before the objective. -/
def drOne : Ctx :=
  match runCmds drCfg (Ctx.init 0) ((drCost.decls.foldl DState.declare {}).log ++
    [.assert (.rel .leq (.var drX) (.const 5))]) with
  | .ok (_, c) => c
  | _ => Ctx.init 0

/-- What the objective adds: `z = x ∧ ∀ y, ¬ y ≤ 5 ∨ z ≤ y`. -/
def drQ : Fml := .disj [.neg (.rel .leq (.var drY) (.const 5)), .rel .leq (.var drZ) (.var drY)]
def drPsi : Fml := .conj [.rel .eq (.var drZ) (.var drX), .all [drY] drQ]

theorem dr_tseitin : tseitin 3 drPsi =
    .ok ([.rel .eq (.var drZ) (.var drX), drNoLeast], 4) ∧ tseitinKeys 3 drPsi = [3] := by
  let n : Fml := .disj [.rel .gt (.var drY) (.const 5), .rel .leq (.var drZ) (.var drY)]
  have h2 : naiveCnf drQ = .ok n := by
    have : nnf true drQ = n := by decide +kernel
    rw [naiveCnf, this]
    simp only [naiveVisit, naiveVisitList, n, Outcome.bind_ok]
    decide +kernel
  constructor
  · simp only [tseitin, tsVisit, tsVisitList, drPsi, h2, Outcome.bind_ok]
    decide +kernel
  · simp only [tseitinKeys, tsVisit, tsVisitList, drPsi, h2, Outcome.bind_ok]
    decide +kernel

/-- The context with the variable of the objective. -/
def drTwo : Ctx :=
  let c := drOne.setBox (addToBox drOne.box drZ)
  { c with sat := { c.sat with abs := { c.sat.abs with next := 3 } } }

/-- The SAT solver with the clauses of the objective. -/
def drSat : Outcome SatState :=
  let a := absVisitList [.rel .eq (.var drZ) (.var drX), drNoLeast]
    { drTwo.sat.abs with next := 4 }
  addClauses { drTwo.sat with abs := a.2, tseitinVars := drTwo.sat.tseitinVars.insert 3 } a.1

def drThree (s : SatState) : Ctx :=
  { (drTwo.setBox drTwo.box).setBox (drTwo.setBox drTwo.box).box with
    stack := drTwo.stack.pushBack drPsi, sat := s }

theorem dr_minimize {s} (hs : drSat = .ok s) : minimize drCfg drOne [.var drX] =
    .ok (drThree s) := by
  have h1 : minimizePsi drOne.sat.abs.next drOne.box drOne.stack.vec [.var drX] =
      .ok (drPsi, [drZ], 3) := by decide +kernel
  have h2 : Filter.filter drCfg.th.dbl drPsi drTwo.box = .ok (.notFiltered, drTwo.box) := by
    decide +kernel
  have h3 : drTwo.box.empty = false ∧ drTwo.box.bot = false := by decide +kernel
  have h4 : iteProcess (drTwo.setBox drTwo.box).sat.abs.next drPsi = (drPsi, [], 3) := by
    decide +kernel
  have h5 : addFormula drTwo.sat drPsi = .ok s := by
    rw [addFormula, show drTwo.sat.abs.next = 3 from rfl, dr_tseitin.1, dr_tseitin.2, ← hs]
    rfl
  have h6 : assertF drCfg drTwo drPsi = .ok (drThree s) := by
    unfold assertF
    rw [if_neg (by simp [drPsi]), h3.1, if_neg (by decide), if_neg (by simp [drPsi]), h2,
      Outcome.bind_ok]
    simp only [h3.2, Bool.false_eq_true, if_false, h4, List.foldl_nil]
    have : addFormula { ((drTwo.setBox drTwo.box).setBox (drTwo.setBox drTwo.box).box).sat with
        abs := { ((drTwo.setBox drTwo.box).setBox (drTwo.setBox drTwo.box).box).sat.abs with
          next := 3 } } drPsi = .ok s := h5
    rw [this, Outcome.bind_ok]
    rfl
  rw [minimize, h1, Run.bind_ok]
  exact congrArg Run.lift h6

theorem drCost_unsat : Dr.solve drCfg drCost = .ok none := by
  obtain ⟨s, hs, h⟩ : ∃ s, drSat = .ok s ∧ answerOf drCfg (drThree s) = some false := by
    have : (match drSat with
      | .ok s => decide (answerOf drCfg (drThree s) = some false) | _ => false) = true := by
      decide +kernel
    split at this
    · exact ⟨_, by assumption, of_decide_eq_true this⟩
    · cases this
  obtain ⟨c, hc⟩ := answerOf_unsat h
  have e1 : trAll (trF (drCost.decls.foldl DState.declare {}).scope) drCost.ctrs =
    .ok [.rel .leq (.var drX) (.const 5)] := by decide +kernel
  have e2 : trAll (trE (drCost.decls.foldl DState.declare {}).scope) drCost.costs =
    .ok [.var drX] := by decide +kernel
  obtain ⟨a, e3⟩ : ∃ a, runCmds drCfg (Ctx.init 0) ((drCost.decls.foldl DState.declare {}).log ++
      [.assert (.rel .leq (.var drX) (.const 5))]) = .ok (a, drOne) := by
    have : (match runCmds drCfg (Ctx.init 0) ((drCost.decls.foldl DState.declare {}).log ++
      [.assert (.rel .leq (.var drX) (.const 5))]) with | .ok _ => true | _ => false) = true := by
      decide +kernel
    unfold drOne
    split at this
    · rename_i q hq
      rw [hq]; exact ⟨q.1, rfl⟩
    · cases this
  unfold Dr.solve posed
  simp only [e1, e2, Run.lift, Run.bind_ok, List.map_cons, List.map_nil, e3, List.isEmpty_cons,
    Bool.false_eq_true, if_false, dr_minimize hs, hc]

/-- The hypotheses for `unsat` with costs are met by a problem that has ordinary solutions. -/
example (D : Dom) (I : Interp) : EnvOk D I drCfg.env ∧ DblOk drCfg.th.dbl ∧ PicosatOk drCfg.ps ∧
    drCost.costs ≠ [] ∧ (drCost.decls.map DDecl.name).Nodup ∧
    (∀ f ∈ drCost.ctrs, Within drCfg.th.dbl true f) ∧
    (∀ σ, (∀ o a b, (o, a, b) ∈ DProb.atoms drCost → DefX D I σ a ∧ DefX D I σ b) ∧
      ∀ x ∈ drCost.costs, DefX D I σ x) ∧
    Dr.solve drCfg drCost = .ok none ∧
    ∃ σ, Solves I drCost σ ∧ Ordinary D I drCfg.th.dbl drCost σ := by
  have hdef : ∀ σ, (∀ o a b, (o, a, b) ∈ DProb.atoms drCost → DefX D I σ a ∧ DefX D I σ b) ∧
      ∀ x ∈ drCost.costs, DefX D I σ x := by
    intro σ
    simp only [drCost, DProb.atoms, Dr.atoms, DefX, List.flatMap_cons, List.flatMap_nil,
      List.append_nil, List.mem_singleton, Prod.mk.injEq]
    refine ⟨?_, ?_⟩
    · rintro o a b ⟨rfl, rfl, rfl⟩; exact ⟨trivial, trivial⟩
    · rintro x rfl; trivial
  refine ⟨drCfg_ok D I, quarterDbl_ok, demoSat_ok, by simp [drCost], by simp [drCost], ?_, hdef,
    drCost_unsat, fun _ => 0, ⟨?_, ?_⟩, ⟨(hdef _).1, ?_, ?_⟩⟩
  · simp [drCost, Within, lit, Beyond]
  · simp [drCost, InItv, below, above]
  · simp [drCost, sat, relP, val]
  · intro o n b q h hq
    simp [drCost, DProb.atoms, Dr.atoms] at h
    obtain ⟨rfl, rfl, rfl⟩ := h
    simp only [lit, Option.some.injEq] at hq
    subst hq
    simp only [Off, not_and, not_lt]
    intro h
    norm_num at h
  · intro o n a q h hq
    simp [drCost, DProb.atoms, Dr.atoms] at h

/-- C56: a name declared twice.  The code answers delta-sat although no value of the name is within
both bounds: the first variable stays in the problem without a name. -/
theorem C56_redeclared : ∃ p m, p.costs = [] ∧ Dr.solve demoCfg p = .ok (some m) ∧
    ∀ I, ¬ ∃ σ, Solves I p σ := by
  let p : DProb := ⟨[⟨"x", .fin 0, .fin 1⟩, ⟨"x", .fin 2, .fin 3⟩], [.rel .ge (.id "x") (.num 2)], []⟩
  obtain ⟨m, hm⟩ : ∃ m, Dr.solve demoCfg p = .ok (some m) := printed_sat (by decide +kernel)
  refine ⟨p, m, rfl, hm, fun I ⟨σ, hs⟩ => ?_⟩
  have h1 := hs.bounds ⟨"x", .fin 0, .fin 1⟩ (by simp [p])
  have h2 := hs.bounds ⟨"x", .fin 2, .fin 3⟩ (by simp [p])
  simp only [InItv, below, above] at h1 h2
  have := h1.2
  have := h2.1
  push_cast at *
  linarith

end Verif.Props
