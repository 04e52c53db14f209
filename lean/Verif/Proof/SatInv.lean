import Verif.Proof.Fresh
import Verif.Proof.Regular
import Verif.Proof.Ite
import Verif.Proof.Tseitin
import Verif.Spec.Sat
import Verif.Spec.Theory

/-!
# What the clauses of the SAT solver say

The clauses hold at every solution of the problem, extended to the variables the solver made.
-/

namespace Verif.Proof
open Verif Verif.Model Verif.Spec

/-- A relation over numerical variables satisfying `V`, without conditionals. -/
def AtomP (V : Variable → Prop) (_ : RelOp) (a b : Expr) : Prop :=
  (WfE V a ∧ WfE V b) ∧ IteFreeE a ∧ IteFreeE b

/-- A formula made of such relations, and of quantified formulas over such relations. -/
def AtomF (V : Variable → Prop) (f : Fml) : Prop :=
  ForAtoms (AtomP V) (fun _ => False) (QB (WfQ V)) f

theorem wfQ_mono {V V' : Variable → Prop} (hV : ∀ v, V v → V' v) {vs f} (h : QB (WfQ V) vs f) :
    QB (WfQ V') vs f :=
  ForAtoms.mono (fun _ _ _ h => ⟨⟨wfE_mono (fun _ => Or.imp_left (hV _)) _ h.1.1,
    wfE_mono (fun _ => Or.imp_left (hV _)) _ h.1.2⟩, h.2⟩) (fun _ h => h) (fun _ _ h => h) f h

theorem AtomF.notF {V f} (h : AtomF V f) : AtomF V (notF f) := ForAtoms.notF h

theorem AtomF.mono {V V' : Variable → Prop} (hV : ∀ v, V v → V' v) {f} (h : AtomF V f) :
    AtomF V' f :=
  ForAtoms.mono (fun _ _ _ h => ⟨⟨wfE_mono hV _ h.1.1, wfE_mono hV _ h.1.2⟩, h.2⟩)
    (fun _ h => h) (fun _ _ h => wfQ_mono hV h) f h

mutual
theorem iteFree_vars {V} : ∀ e, WfE V e → IteFreeE e → ∀ v ∈ e.vars, v.type ≠ .boolean ∧ V v
  | .const _, _, _ => by simp [Expr.vars]
  | .rconst _, _, _ => by simp [Expr.vars]
  | .var v, h, _ => by simpa [Expr.vars, WfE] using h
  | .add a b, h, i => by
    simp only [Expr.vars, List.mem_append]
    rintro v (hv | hv)
    exacts [iteFree_vars a h.1 i.1 v hv, iteFree_vars b h.2 i.2 v hv]
  | .mul a b, h, i => by
    simp only [Expr.vars, List.mem_append]
    rintro v (hv | hv)
    exacts [iteFree_vars a h.1 i.1 v hv, iteFree_vars b h.2 i.2 v hv]
  | .app1 f a, h, i => by simpa only [Expr.vars] using iteFree_vars a h i
  | .app2 f a b, h, i => by
    simp only [Expr.vars, List.mem_append]
    rintro v (hv | hv)
    exacts [iteFree_vars a h.1 i.1 v hv, iteFree_vars b h.2 i.2 v hv]
  | .ite _ _ _, _, i => absurd i id
end

mutual
theorem Body.fv {p : Expr → Expr → Prop} {W : Variable → Prop}
    (hp : ∀ a b, p a b → ∀ v ∈ a.vars ++ b.vars, W v) : ∀ f, Body p f → ∀ v ∈ f.fv, W v
  | .ff, _ => by simp [Fml.fv]
  | .tt, _ => by simp [Fml.fv]
  | .bvar _, h => absurd h id
  | .rel op a b, h => by simpa only [Fml.fv] using hp a b h
  | .conj fs, h => Body.fvs hp fs h
  | .disj fs, h => Body.fvs hp fs h
  | .neg f, h => Body.fv hp f h
  | .all _ _, h => absurd h id
theorem Body.fvs {p : Expr → Expr → Prop} {W : Variable → Prop}
    (hp : ∀ a b, p a b → ∀ v ∈ a.vars ++ b.vars, W v) :
    ∀ fs, ForAtomsL (fun _ a b => p a b) (fun _ => False) NoQ fs → ∀ v ∈ Fml.fvList fs, W v
  | [], _ => by simp [Fml.fvList]
  | f :: fs, h => by
    simp only [Fml.fvList, List.mem_append]
    rintro v (hv | hv)
    exacts [Body.fv hp f h.1 v hv, Body.fvs hp fs h.2 v hv]
end

theorem qb_fv {V vs f} (h : QB (WfQ V) vs f) :
    ∀ v ∈ (Fml.all vs f).fv, v.type ≠ .boolean ∧ V v := by
  intro v hv
  simp only [Fml.fv, List.mem_filter, decide_eq_true_eq] at hv
  obtain ⟨h1, h2⟩ := Body.fv (W := fun v => v.type ≠ .boolean ∧ (V v ∨ v ∈ vs)) (fun a b hab w hw => by
    rcases List.mem_append.mp hw with hw | hw
    exacts [iteFree_vars a hab.1.1 hab.2.1 w hw, iteFree_vars b hab.1.2 hab.2.2 w hw]) f h v hv.1
  exact ⟨h1, h2.resolve_right hv.2⟩

mutual
theorem AtomF.fv {V} : ∀ f, AtomF V f → ∀ v ∈ f.fv, v.type ≠ .boolean ∧ V v
  | .ff, _ => by simp [Fml.fv]
  | .tt, _ => by simp [Fml.fv]
  | .bvar v, h => absurd h id
  | .rel op a b, h => by
    simp only [Fml.fv, List.mem_append]
    rintro v (hv | hv)
    exacts [iteFree_vars a h.1.1 h.2.1 v hv, iteFree_vars b h.1.2 h.2.2 v hv]
  | .conj fs, h => AtomF.fvs fs h
  | .disj fs, h => AtomF.fvs fs h
  | .neg f, h => AtomF.fv f h
  | .all _ _, h => qb_fv h
theorem AtomF.fvs {V} : ∀ fs, ForAtomsL (AtomP V) (fun _ => False) (QB (WfQ V)) fs →
    ∀ v ∈ Fml.fvList fs, v.type ≠ .boolean ∧ V v
  | [], _ => by simp [Fml.fvList]
  | f :: fs, h => by
    simp only [Fml.fvList, List.mem_append]
    rintro v (hv | hv)
    exacts [AtomF.fv f h.1 v hv, AtomF.fvs fs h.2 v hv]
end

theorem AtomF.wf {V f} (h : AtomF V f) : WfF V f := by
  rw [wfF_iff]
  exact ForAtoms.mono (fun _ _ _ h => h.1) (fun _ h => absurd h id)
    (fun _ g h => (matrix_wf g).mpr h) f h

/-- The table holds relations, truth values and quantified formulas. -/
def Simple : Fml → Prop
  | .tt | .ff | .rel .. | .all .. => True
  | _ => False

theorem simple_mkRel {op a b} : Simple (mkRel op a b) := by
  unfold mkRel; repeat' split
  all_goals trivial

/-- The table and the counter of ids. -/
structure TabInv (s : AbsState) : Prop where
  abs : AbsInv s
  simple : ∀ p ∈ s.table, Simple p.2

/-- How the table grows: new names get new ids. -/
structure TabExt (s s' : AbsState) : Prop where
  le : s.next ≤ s'.next
  pre : s.table <+: s'.table
  new : ∀ p ∈ s'.table, p ∈ s.table ∨ s.next ≤ p.1.id

theorem TabExt.refl (s) : TabExt s s := ⟨le_rfl, List.prefix_rfl, fun _ h => .inl h⟩
theorem TabExt.trans {a b c} (h1 : TabExt a b) (h2 : TabExt b c) : TabExt a c :=
  ⟨h1.le.trans h2.le, h1.pre.trans h2.pre, fun p hp => by
    rcases h2.new p hp with h | h
    · exact h1.new p h
    · exact .inr (h1.le.trans h)⟩

theorem absAtomic_ext {f s} : TabExt s (absAtomic f s).2 ∧
    (∀ p ∈ (absAtomic f s).2.table, p ∈ s.table ∨ p.2 = f) := by
  unfold absAtomic
  split
  · exact ⟨.refl s, fun _ h => .inl h⟩
  · refine ⟨⟨Nat.le_succ _, List.prefix_append _ _, fun p hp => ?_⟩, fun p hp => ?_⟩
    · rcases List.mem_append.mp hp with hp | hp
      · exact .inl hp
      · simp only [List.mem_singleton] at hp; subst hp; exact .inr le_rfl
    · rcases List.mem_append.mp hp with hp | hp
      · exact .inl hp
      · simp only [List.mem_singleton] at hp; subst hp; exact .inr rfl

theorem absRel_ext {op a b s} (hs : ∀ p ∈ s.table, Simple p.2) :
    TabExt s (absRel op a b s).2 ∧ ∀ p ∈ (absRel op a b s).2.table, Simple p.2 := by
  have key : ∀ f, Simple f → TabExt s (absAtomic f s).2 ∧
      ∀ p ∈ (absAtomic f s).2.table, Simple p.2 := by
    intro f hf
    refine ⟨absAtomic_ext.1, fun p hp => ?_⟩
    rcases absAtomic_ext.2 p hp with h | h
    · exact hs p h
    · rw [h]; exact hf
  cases op <;> simp only [absRel]
  · exact key _ trivial
  · exact key _ simple_mkRel
  · exact key _ simple_mkRel
  · exact key _ simple_mkRel
  · exact key _ trivial
  · exact key _ trivial

mutual
theorem absVisit_ext (f : Fml) (s : AbsState) (hs : ∀ p ∈ s.table, Simple p.2) :
    TabExt s (absVisit f s).2 ∧ ∀ p ∈ (absVisit f s).2.table, Simple p.2 := by
  unfold absVisit
  split
  · exact ⟨.refl s, hs⟩
  · cases f with
    | ff => exact ⟨.refl s, hs⟩
    | tt => exact ⟨.refl s, hs⟩
    | bvar v => exact ⟨.refl s, hs⟩
    | rel op a b => exact absRel_ext hs
    | all vs f =>
      refine ⟨absAtomic_ext.1, fun p hp => ?_⟩
      rcases absAtomic_ext.2 p hp with h | h
      · exact hs p h
      · rw [h]; trivial
    | conj fs => exact absVisitList_ext fs s hs
    | disj fs => exact absVisitList_ext fs s hs
    | neg f => exact absVisit_ext f s hs
theorem absVisitList_ext (fs : List Fml) (s : AbsState) (hs : ∀ p ∈ s.table, Simple p.2) :
    TabExt s (absVisitList fs s).2 ∧ ∀ p ∈ (absVisitList fs s).2.table, Simple p.2 := by
  cases fs with
  | nil => exact ⟨.refl s, hs⟩
  | cons f fs =>
    have h1 := absVisit_ext f s hs
    have h2 := absVisitList_ext fs (absVisit f s).2 h1.2
    simp only [absVisitList]
    exact ⟨h1.1.trans h2.1, h2.2⟩
end

/-! ### The invariant -/

/-- A Boolean variable that may stand in a clause when the box has the variables `vs`. -/
structure VarOk (vs : List Variable) (s : SatState) (v : Variable) : Prop where
  bool : v.type = .boolean
  lt : v.id < s.abs.next
  kind : (∃ a, (v, a) ∈ s.abs.table) ∨ s.tseitinVars.set v.id = true ∨ v ∈ vs
  atom : ∀ a, (v, a) ∈ s.abs.table → AtomF (· ∈ vs) a

/-- The structure of the clauses and of the names of SAT variables. -/
structure SatStr (vs : List Variable) (s : SatState) : Prop where
  tab : TabInv s.abs
  ss : ∀ i n, s.toSat.map i = some n → ∃ v, s.toSym.map n = some v ∧ v.id = i
  sym : ∀ n v, s.toSym.map n = some v → 0 < n ∧ n ≤ s.maxVar ∧ VarOk vs s v
  lits : ∀ c ∈ s.clauses.vec, ∀ l ∈ c, 0 < l.natAbs ∧ l.natAbs ≤ s.maxVar

/-- The value of a SAT variable at a point. -/
noncomputable def satVal (s : SatState) (ρ : Valuation) (i : Nat) : Bool :=
  open Classical in decide (∃ v, s.toSym.map i = some v ∧ ρ v = 1)

/-- The name means its formula, and the point is regular for it. -/
def SemOk (D : Dom) (I : Interp) (d : Dbl) (T : List (Variable × Fml)) (ρ : Valuation)
    (v : Variable) : Prop :=
  ∀ a, (v, a) ∈ T → (ρ v = 1 ↔ holds I ρ a) ∧ RegF D I d ρ a

/-- The point satisfies the clauses, and the names mean their formulas. -/
structure SatWit (D : Dom) (I : Interp) (d : Dbl) (s : SatState) (ρ : Valuation) : Prop where
  cl : Satisfies (satVal s ρ) s.clauses.vec
  names : ∀ n v, s.toSym.map n = some v → SemOk D I d s.abs.table ρ v

theorem bvar_eq {v w : Variable} (hi : v.id = w.id) (h1 : v.type = .boolean)
    (h2 : w.type = .boolean) : v = w := by
  cases v; cases w; simp_all

/-! ### New SAT variables -/

theorem insert_at {K V} [DecidableEq K] (m : ScopedMap K V) (k : K) (v : V) (x : K) :
    (m.insert k v).map x = if x = k then some v else m.map x := by
  rw [insert_map]; rfl

theorem makeSatVar_str {vs s v} (h : SatStr vs s) (hv : VarOk vs s v) :
    SatStr vs (makeSatVar s v) ∧ (makeSatVar s v).toSat.map v.id ≠ none ∧
    (∀ i, s.toSat.map i ≠ none → (makeSatVar s v).toSat.map i ≠ none) ∧
    (makeSatVar s v).abs = s.abs ∧ (makeSatVar s v).clauses = s.clauses ∧
    (makeSatVar s v).tseitinVars = s.tseitinVars ∧ s.maxVar ≤ (makeSatVar s v).maxVar ∧
    (∀ n, n ≤ s.maxVar → (makeSatVar s v).toSym.map n = s.toSym.map n) ∧
    (∀ n w, (makeSatVar s v).toSym.map n = some w → s.toSym.map n = some w ∨ w = v) := by
  unfold makeSatVar
  split
  · rename_i n hn
    exact ⟨h, by rw [hn]; simp, fun _ h => h, rfl, rfl, rfl, le_rfl, fun _ _ => rfl,
      fun _ _ h => .inl h⟩
  · rename_i hn
    refine ⟨⟨h.tab, ?_, ?_, ?_⟩, ?_, ?_, rfl, rfl, rfl, Nat.le_succ _, ?_, ?_⟩
    · intro i n hi
      simp only [insert_at] at hi ⊢
      split at hi
      · cases hi; rename_i he; exact ⟨v, by simp, he.symm⟩
      · obtain ⟨w, h1, h2⟩ := h.ss i n hi
        have := (h.sym n w h1).2.1
        exact ⟨w, by rw [if_neg (by omega)]; exact h1, h2⟩
    · intro n w hw
      simp only [insert_at] at hw ⊢
      split at hw
      · cases hw; rename_i he; subst he
        exact ⟨Nat.succ_pos _, le_rfl, hv.bool, hv.lt, hv.kind, hv.atom⟩
      · obtain ⟨h1, h2, h3⟩ := h.sym n w hw
        exact ⟨h1, h2.trans (Nat.le_succ _), h3.bool, h3.lt, h3.kind, h3.atom⟩
    · intro c hc l hl
      obtain ⟨h1, h2⟩ := h.lits c hc l hl
      exact ⟨h1, h2.trans (Nat.le_succ _)⟩
    · simp [insert_at]
    · intro i hi
      simp only [insert_at]
      split
      · simp
      · exact hi
    · intro n hn'
      simp only [insert_at]
      rw [if_neg (by omega)]
    · intro n w hw
      simp only [insert_at] at hw
      split at hw
      · cases hw; exact .inr rfl
      · exact .inl hw

/-- Growing names: old SAT variables keep theirs. -/
structure SymExt (s s' : SatState) (N : List Variable) : Prop where
  abs : s'.abs = s.abs
  cl : s'.clauses = s.clauses
  ts : s'.tseitinVars = s.tseitinVars
  le : s.maxVar ≤ s'.maxVar
  old : ∀ n, n ≤ s.maxVar → s'.toSym.map n = s.toSym.map n
  new : ∀ n w, s'.toSym.map n = some w → s.toSym.map n = some w ∨ w ∈ N
  sat : ∀ i, s.toSat.map i ≠ none → s'.toSat.map i ≠ none
  has : ∀ w ∈ N, s'.toSat.map w.id ≠ none

theorem makeSatVars_str {vs} : ∀ {ws : List Variable} {s : SatState}, SatStr vs s →
    (∀ v ∈ ws, VarOk vs s v) →
    SatStr vs (ws.foldl makeSatVar s) ∧ SymExt s (ws.foldl makeSatVar s) ws
  | [], s, h, _ => ⟨h, rfl, rfl, rfl, le_rfl, fun _ _ => rfl, fun _ _ h => .inl h, fun _ h => h,
      by simp⟩
  | v :: ws, s, h, hv => by
    obtain ⟨a1, a2, a3, a4, a5, a6, a7, a8, a9⟩ := makeSatVar_str h (hv v (by simp))
    have hv' : ∀ w ∈ ws, VarOk vs (makeSatVar s v) w := by
      intro w hw
      obtain ⟨b1, b2, b3, b4⟩ := hv w (by simp [hw])
      exact ⟨b1, by rw [a4]; exact b2, by rw [a4, a6]; exact b3, by rw [a4]; exact b4⟩
    obtain ⟨b1, b2⟩ := makeSatVars_str (ws := ws) a1 hv'
    rw [List.foldl_cons]
    refine ⟨b1, b2.abs.trans a4, b2.cl.trans a5, b2.ts.trans a6, a7.trans b2.le, ?_, ?_, ?_, ?_⟩
    · intro n hn; rw [b2.old n (hn.trans a7), a8 n hn]
    · intro n w hw
      rcases b2.new n w hw with h | h
      · rcases a9 n w h with h | h
        · exact .inl h
        · exact .inr (by simp [h])
      · exact .inr (by simp [h])
    · exact fun i hi => b2.sat i (a3 i hi)
    · intro w hw
      rcases List.mem_cons.mp hw with rfl | hw
      · exact b2.sat _ a2
      · exact b2.has w hw

theorem satVal_old {s s' ρ n} (h : s'.toSym.map n = s.toSym.map n) :
    satVal s' ρ n = satVal s ρ n := by unfold satVal; rw [h]

theorem satisfies_old {vs s s' ρ N} (hs : SatStr vs s) (e : SymExt s s' N)
    (h : Satisfies (satVal s ρ) s.clauses.vec) : Satisfies (satVal s' ρ) s.clauses.vec := by
  intro c hc
  obtain ⟨l, hl, ht⟩ := h c hc
  refine ⟨l, hl, ?_⟩
  unfold LitTrue at *
  rwa [satVal_old (e.old _ (hs.lits c hc l hl).2)]

theorem satWit_symExt {D I d vs s s' ρ N} (hs : SatStr vs s) (e : SymExt s s' N)
    (hN : ∀ v ∈ N, SemOk D I d s.abs.table ρ v) (h : SatWit D I d s ρ) : SatWit D I d s' ρ := by
  refine ⟨by rw [e.cl]; exact satisfies_old hs e h.cl, fun n v hn => ?_⟩
  rw [e.abs]
  rcases e.new n v hn with hn | hn
  · exact h.names n v hn
  · exact hN v hn

/-! ### Clauses -/

/-- The literal given to PicoSAT means the formula. -/
theorem satLit_sem {vs s f l} (hs : SatStr vs s) (h : satLit s f = .ok l) :
    (0 < l.natAbs ∧ l.natAbs ≤ s.maxVar) ∧
    ∀ I ρ, LitTrue (satVal s ρ) l ↔ holds I ρ f := by
  have key : ∀ v n, v.type = VType.boolean → s.toSat.at? v.id = .ok n →
      (0 < n ∧ n ≤ s.maxVar) ∧ ∀ ρ, satVal s ρ n = true ↔ ρ v = 1 := by
    intro v n hv hn
    have hn' : s.toSat.map v.id = some n := by
      unfold ScopedMap.at? at hn
      cases hm : s.toSat.map v.id with
      | none => rw [hm] at hn; cases hn
      | some m => rw [hm] at hn; cases hn; rfl
    obtain ⟨w, h1, h2⟩ := hs.ss _ _ hn'
    obtain ⟨g1, g2, g3⟩ := hs.sym n w h1
    have hw : w = v := bvar_eq h2 g3.bool hv
    subst hw
    refine ⟨⟨g1, g2⟩, fun ρ => ?_⟩
    unfold satVal
    simp [h1]
  cases f with
  | bvar v =>
    simp only [satLit] at h
    split at h
    · rename_i hv
      obtain ⟨n, h1, h2⟩ := bindO_ok h
      cases h2
      obtain ⟨k1, k2⟩ := key v n hv h1
      refine ⟨by simpa using k1, fun I ρ => ?_⟩
      unfold LitTrue
      simp only [Int.natAbs_natCast, k2 ρ, holds_bvar]
      constructor
      · rintro (⟨-, h⟩ | ⟨h, -⟩)
        · exact h
        · omega
      · exact fun h => .inl ⟨by omega, h⟩
    · cases h
  | neg f =>
    cases f with
    | bvar v =>
      simp only [satLit] at h
      split at h
      · rename_i hv
        obtain ⟨n, h1, h2⟩ := bindO_ok h
        cases h2
        obtain ⟨k1, k2⟩ := key v n hv h1
        refine ⟨by simpa using k1, fun I ρ => ?_⟩
        unfold LitTrue
        simp only [Int.natAbs_neg, Int.natAbs_natCast, holds_neg, holds_bvar]
        rw [← k2 ρ]
        constructor
        · rintro (⟨h, -⟩ | ⟨-, h⟩)
          · omega
          · simp [h]
        · exact fun h => .inr ⟨by omega, by simpa using h⟩
      · cases h
    | _ => simp [satLit] at h
  | _ => simp [satLit] at h

theorem satLits_sem {vs s} (hs : SatStr vs s) : ∀ {fs ls}, satLits s fs = .ok ls →
    (∀ l ∈ ls, 0 < l.natAbs ∧ l.natAbs ≤ s.maxVar) ∧
    ∀ I ρ, (∃ l ∈ ls, LitTrue (satVal s ρ) l) ↔ ∃ f ∈ fs, holds I ρ f
  | [], ls, h => by simp only [satLits, Outcome.ok.injEq] at h; subst h; simp
  | f :: fs, ls, h => by
    simp only [satLits] at h
    obtain ⟨l, h1, h⟩ := bindO_ok h
    obtain ⟨ls', h2, h⟩ := bindO_ok h
    cases h
    obtain ⟨a1, a2⟩ := satLit_sem hs h1
    obtain ⟨b1, b2⟩ := satLits_sem hs h2
    refine ⟨fun x hx => ?_, fun I ρ => ?_⟩
    · rcases List.mem_cons.mp hx with rfl | hx
      exacts [a1, b1 x hx]
    · simp only [List.mem_cons, exists_eq_or_imp, a2 I ρ, b2 I ρ]

theorem clauseLits_sem {I ρ} (f : Fml) : (∃ g ∈ clauseLits f, holds I ρ g) ↔ holds I ρ f := by
  cases f <;> simp [clauseLits]

theorem addClause_str {vs s f s'} (hs : SatStr vs s) (hv : ∀ v ∈ f.fv, VarOk vs s v)
    (h : addClause s f = .ok s') : SatStr vs s' ∧ s'.abs = s.abs ∧ s'.tseitinVars = s.tseitinVars ∧
    s.maxVar ≤ s'.maxVar ∧
    ∀ D I d ρ, SatWit D I d s ρ → (∀ v ∈ f.fv, SemOk D I d s.abs.table ρ v) → holds I ρ f →
      SatWit D I d s' ρ := by
  simp only [addClause] at h
  obtain ⟨ls, h1, h2⟩ := bindO_ok h
  simp only [Outcome.ok.injEq] at h2; subst h2
  obtain ⟨a1, a2⟩ := makeSatVars_str hs hv
  obtain ⟨b1, b2⟩ := satLits_sem a1 h1
  refine ⟨⟨a1.tab, a1.ss, ?_, ?_⟩, a2.abs, a2.ts, a2.le, ?_⟩
  · intro n v hn
    obtain ⟨c1, c2, c3⟩ := a1.sym n v hn
    exact ⟨c1, c2, c3.bool, c3.lt, c3.kind, c3.atom⟩
  · intro c hc l hl
    rcases List.mem_append.mp hc with hc | hc
    · exact a1.lits c hc l hl
    · simp only [List.mem_singleton] at hc; subst hc; exact b1 l hl
  · intro D I d ρ hw hsem hh
    have w := satWit_symExt hs a2 hsem hw
    refine ⟨?_, w.names⟩
    intro c hc
    rcases List.mem_append.mp hc with hc | hc
    · exact w.cl c hc
    · simp only [List.mem_singleton] at hc; subst hc
      exact (b2 I ρ).mpr ((clauseLits_sem f).mpr hh)

theorem addClauses_str {vs} : ∀ {fs s s'}, SatStr vs s → (∀ f ∈ fs, ∀ v ∈ f.fv, VarOk vs s v) →
    addClauses s fs = .ok s' → SatStr vs s' ∧ s'.abs = s.abs ∧ s'.tseitinVars = s.tseitinVars ∧
    s.maxVar ≤ s'.maxVar ∧
    ∀ D I d ρ, SatWit D I d s ρ → (∀ f ∈ fs, ∀ v ∈ f.fv, SemOk D I d s.abs.table ρ v) →
      (∀ f ∈ fs, holds I ρ f) → SatWit D I d s' ρ
  | [], s, s', hs, _, h => by
    simp only [addClauses, Outcome.ok.injEq] at h; subst h
    exact ⟨hs, rfl, rfl, le_rfl, fun _ _ _ _ h _ _ => h⟩
  | f :: fs, s, s', hs, hv, h => by
    simp only [addClauses] at h
    obtain ⟨t, h1, h2⟩ := bindO_ok h
    obtain ⟨a1, a2, a3, a4, a5⟩ := addClause_str hs (hv f (by simp)) h1
    obtain ⟨b1, b2, b3, b4, b5⟩ := addClauses_str a1 (fun g hg v hv' => by
      obtain ⟨c1, c2, c3, c4⟩ := hv g (by simp [hg]) v hv'
      exact ⟨c1, by rw [a2]; exact c2, by rw [a2, a3]; exact c3, by rw [a2]; exact c4⟩) h2
    refine ⟨b1, b2.trans a2, b3.trans a3, a4.trans b4, fun D I d ρ hw hsem hh => ?_⟩
    refine b5 D I d ρ (a5 D I d ρ hw (hsem f (by simp)) (hh f (by simp))) ?_
      (fun g hg => hh g (by simp [hg]))
    rw [a2]
    exact fun g hg => hsem g (by simp [hg])

/-! ### The table of names grows -/

theorem table_old {a a' : AbsState} (e : TabExt a a') {v b} (h : (v, b) ∈ a'.table)
    (hv : v.id < a.next) : (v, b) ∈ a.table := by
  rcases e.new _ h with h | h
  · exact h
  · simp only at h; omega

theorem VarOk.abs {vs s v a' ts} (h : VarOk vs s v) (e : TabExt s.abs a')
    (ht : ∀ i, s.tseitinVars.set i = true → ts.set i = true) :
    VarOk vs { s with abs := a', tseitinVars := ts } v where
  bool := h.bool
  lt := lt_of_lt_of_le h.lt e.le
  kind := by
    rcases h.kind with ⟨a, ha⟩ | hk | hk
    · exact .inl ⟨a, e.pre.subset ha⟩
    · exact .inr (.inl (ht _ hk))
    · exact .inr (.inr hk)
  atom := fun a ha => h.atom a (table_old e ha h.lt)

theorem satStr_abs {vs s a' ts} (h : SatStr vs s) (e : TabExt s.abs a') (hi : TabInv a')
    (ht : ∀ i, s.tseitinVars.set i = true → ts.set i = true) :
    SatStr vs { s with abs := a', tseitinVars := ts } where
  tab := hi
  ss := h.ss
  sym := fun n v hn => ⟨(h.sym n v hn).1, (h.sym n v hn).2.1, (h.sym n v hn).2.2.abs e ht⟩
  lits := h.lits

theorem satWit_abs {D I d vs s a' ts ρ} (h : SatStr vs s) (e : TabExt s.abs a')
    (hw : SatWit D I d s ρ) : SatWit D I d { s with abs := a', tseitinVars := ts } ρ where
  cl := hw.cl
  names := fun n v hn a ha => hw.names n v hn a (table_old e ha (h.sym n v hn).2.2.lt)

theorem table_fun {s : AbsState} (h : AbsInv s) {v a b} (ha : (v, a) ∈ s.table)
    (hb : (v, b) ∈ s.table) : a = b := by
  have hs := h.sorted
  generalize s.table = T at *
  induction T with
  | nil => cases ha
  | cons p T ih =>
    rw [List.pairwise_cons] at hs
    rcases List.mem_cons.mp ha with ha | ha <;> rcases List.mem_cons.mp hb with hb | hb
    · rw [← hb] at ha; cases ha; rfl
    · have := hs.1 _ hb; rw [← ha] at this; exact absurd this (lt_irrefl _)
    · have := hs.1 _ ha; rw [← hb] at this; exact absurd this (lt_irrefl _)
    · exact ih ha hb hs.2

/-- A point can be made consistent with a longer table; the values of the SAT variables stay. -/
theorem refresh {D I d vs s a'} {ρ0 ρ : Valuation} (h : SatStr vs s) (hv : ∀ v ∈ vs, v.id < s.abs.next)
    (e : TabExt s.abs a')
    (hi : AbsInv a') (hw : SatWit D I d s ρ0)
    (h0 : ∀ v, v.id < s.abs.next → ρ v = ρ0 v) :
    ∃ ρ', Consistent I a'.table ρ' ∧ (∀ v, v ∉ a'.table.map Prod.fst → ρ' v = ρ v) ∧
      ∀ n, satVal s ρ' n = satVal s ρ0 n := by
  obtain ⟨ρ', h1, h2, h3⟩ := consistent_ext I ρ a'.table hi.sorted hi.fv
  refine ⟨ρ', h1, h2, fun n => ?_⟩
  unfold satVal
  congr 1
  refine propext (exists_congr fun v => and_congr_right fun hn => ?_)
  obtain ⟨g1, g2, g3⟩ := h.sym n v hn
  by_cases hk : v ∈ a'.table.map Prod.fst
  · obtain ⟨⟨w, b⟩, hp, rfl⟩ := List.mem_map.mp hk
    have hp' := table_old e hp g3.lt
    have hat := g3.atom b hp'
    rw [h1 _ hp, (hw.names n _ hn b hp').1]
    refine holds_congr I b _ _ (fun x hx => ?_)
    obtain ⟨x1, x2⟩ := AtomF.fv b hat x hx
    rw [h2 x, h0 x (hv x x2)]
    intro hx'
    obtain ⟨q, hq, rfl⟩ := List.mem_map.mp hx'
    exact x1 (hi.boolean q hq)
  · rw [h2 v hk, h0 v g3.lt]

/-! ### Assertions -/

mutual
theorem tsVisit_bool : ∀ (f : Fml) {s r}, tsVisit f s = .ok r →
    (∀ p ∈ s.map, p.1.type = VType.boolean) → ∀ p ∈ r.2.map, p.1.type = VType.boolean
  | .ff, s, r, h, hs => by simp only [tsVisit, Outcome.ok.injEq] at h; subst h; exact hs
  | .tt, s, r, h, hs => by simp only [tsVisit, Outcome.ok.injEq] at h; subst h; exact hs
  | .bvar v, s, r, h, hs => by simp only [tsVisit, Outcome.ok.injEq] at h; subst h; exact hs
  | .rel op a b, s, r, h, hs => by
    simp only [tsVisit, Outcome.ok.injEq] at h; subst h; exact hs
  | .all vs f, s, r, h, hs => by
    simp only [tsVisit] at h
    obtain ⟨g, -, h2⟩ := bindO_ok h
    split at h2
    · split at h2
      · simp only [Outcome.ok.injEq] at h2; subst h2; exact hs
      · simp only [Outcome.ok.injEq] at h2; subst h2
        simp only [TsState.define, List.mem_append, List.mem_singleton]
        rintro p (hp | rfl)
        exacts [hs p hp, rfl]
    · cases h2
  | .conj fs, s, r, h, hs => by
    simp only [tsVisit] at h
    obtain ⟨⟨gs, s1⟩, h1, h2⟩ := bindO_ok h
    simp only [Outcome.ok.injEq] at h2; subst h2
    have := tsVisitList_bool fs h1 hs
    simp only [TsState.define, List.mem_append, List.mem_singleton]
    rintro p (hp | rfl)
    exacts [this p hp, rfl]
  | .disj fs, s, r, h, hs => by
    simp only [tsVisit] at h
    obtain ⟨⟨gs, s1⟩, h1, h2⟩ := bindO_ok h
    simp only [Outcome.ok.injEq] at h2; subst h2
    have := tsVisitList_bool fs h1 hs
    simp only [TsState.define, List.mem_append, List.mem_singleton]
    rintro p (hp | rfl)
    exacts [this p hp, rfl]
  | .neg f, s, r, h, hs => by
    simp only [tsVisit] at h
    split at h
    · simp only [Outcome.ok.injEq] at h; subst h; exact hs
    · obtain ⟨⟨g, s1⟩, h1, h2⟩ := bindO_ok h
      simp only [Outcome.ok.injEq] at h2; subst h2
      have := tsVisit_bool f h1 hs
      simp only [List.mem_append, List.mem_singleton]
      rintro p (hp | rfl)
      exacts [this p hp, rfl]
theorem tsVisitList_bool : ∀ (fs : List Fml) {s r}, tsVisitList fs s = .ok r →
    (∀ p ∈ s.map, p.1.type = VType.boolean) → ∀ p ∈ r.2.map, p.1.type = VType.boolean
  | [], s, r, h, hs => by simp only [tsVisitList, Outcome.ok.injEq] at h; subst h; exact hs
  | f :: fs, s, r, h, hs => by
    simp only [tsVisitList] at h
    obtain ⟨⟨g, s1⟩, h1, h2⟩ := bindO_ok h
    obtain ⟨⟨gs, s2⟩, h3, h4⟩ := bindO_ok h2
    simp only [Outcome.ok.injEq] at h4; subst h4
    have := tsVisitList_bool fs h3 (tsVisit_bool f h1 hs)
    exact this
end

theorem inserts_mem {K} [DecidableEq K] : ∀ (ks : List K) (s : ScopedSet K) (k : K),
    (k ∈ ks ∨ s.set k = true) → (ks.foldl ScopedSet.insert s).set k = true
  | [], s, k, h => by simpa using h
  | x :: ks, s, k, h => by
    rw [List.foldl_cons]
    refine inserts_mem ks _ k ?_
    by_cases hk : k ∈ ks
    · exact .inl hk
    · right
      unfold ScopedSet.insert
      rcases h with h | h
      · rcases List.mem_cons.mp h with rfl | h
        · split
          · assumption
          · simp
        · exact absurd h hk
      · split
        · exact h
        · simp only; split
          · rfl
          · exact h

theorem simple_atomF {V B f} (hs : Simple f) (h : ForAtoms (AtomP V) B (QB (WfQ V)) f) : AtomF V f := by
  cases f <;> first | exact h | exact absurd hs id

theorem ForAtoms.fv_or {V : Variable → Prop} {B : Variable → Prop} {f}
    (h : ForAtoms (AtomP V) B (QB (WfQ V)) f) : ∀ v ∈ f.fv, (v.type ≠ .boolean ∧ V v) ∨ B v := by
  have key : ∀ (k : Nat) (f : Fml), sizeOf f ≤ k → ForAtoms (AtomP V) B (QB (WfQ V)) f →
      ∀ v ∈ f.fv, (v.type ≠ .boolean ∧ V v) ∨ B v := by
    intro k
    induction k with
    | zero => intro f hs; cases f <;> simp at hs
    | succ k ih =>
      intro f hs h v hv
      cases f with
      | ff => simp [Fml.fv] at hv
      | tt => simp [Fml.fv] at hv
      | bvar w => simp only [Fml.fv, List.mem_singleton] at hv; subst hv; exact .inr h
      | rel op a b =>
        simp only [Fml.fv, List.mem_append] at hv
        rcases hv with hv | hv
        exacts [.inl (iteFree_vars a h.1.1 h.2.1 v hv), .inl (iteFree_vars b h.1.2 h.2.2 v hv)]
      | conj fs =>
        obtain ⟨g, hg, hv⟩ := Fml.mem_fvList.mp hv
        have := List.sizeOf_lt_of_mem hg
        simp only [Fml.conj.sizeOf_spec] at hs
        exact ih g (by omega) (forAtomsL_iff.mp h g hg) v hv
      | disj fs =>
        obtain ⟨g, hg, hv⟩ := Fml.mem_fvList.mp hv
        have := List.sizeOf_lt_of_mem hg
        simp only [Fml.disj.sizeOf_spec] at hs
        exact ih g (by omega) (forAtomsL_iff.mp h g hg) v hv
      | neg f =>
        simp only [Fml.neg.sizeOf_spec] at hs
        exact ih f (by omega) h v hv
      | all vs f => exact .inl (qb_fv h v hv)
  exact key _ f le_rfl h

theorem ForAtoms.fv_lt {V : Variable → Prop} {B : Variable → Prop} {n : Nat}
    (hV : ∀ v, V v → v.id < n) (hB : ∀ v, B v → v.id < n) {f} (h : ForAtoms (AtomP V) B (QB (WfQ V)) f) :
    ∀ v ∈ f.fv, v.id < n := by
  intro v hv
  rcases h.fv_or v hv with h | h
  exacts [hV v h.2, hB v h]

theorem body_and {p q : Expr → Expr → Prop} {f} :
    (Body p f ∧ Body q f) ↔ Body (fun a b => p a b ∧ q a b) f :=
  ⟨fun h => ForAtoms.mono (fun _ _ _ h => h) (fun _ h => h.1) (fun _ _ h => h.1) _
      (ForAtoms.and f h.1 h.2),
    fun h => ⟨ForAtoms.mono (fun _ _ _ h => h.1) (fun _ h => h) (fun _ _ h => h) _ h,
      ForAtoms.mono (fun _ _ _ h => h.2) (fun _ h => h) (fun _ _ h => h) _ h⟩⟩

theorem addFormula_str {vs s f s'} {B : Variable → Prop} (hs : SatStr vs s)
    (hv : ∀ v ∈ vs, v.id < s.abs.next)
    (hB : ∀ v, B v → v.type = .boolean ∧ v ∈ vs ∧ v ∉ s.abs.table.map Prod.fst)
    (hf : ForAtoms (AtomP (· ∈ vs)) B (QB (WfQ (· ∈ vs))) f) (h : addFormula s f = .ok s') :
    SatStr vs s' ∧ TabExt s.abs s'.abs ∧ s.maxVar ≤ s'.maxVar ∧
    ∀ D I d ρ, SatWit D I d s ρ → RegF D I d ρ f → holds I ρ f → ∃ ρ', SatWit D I d s' ρ' ∧
      ∀ v, ρ' v ≠ ρ v → v ∈ s.abs.table.map Prod.fst ∨ (s.abs.next ≤ v.id ∧ v.id < s'.abs.next) := by
  simp only [addFormula] at h
  obtain ⟨⟨cs, n2⟩, h1, h2⟩ := bindO_ok h
  simp only at h2
  have hflt : ∀ v ∈ f.fv, v.id < s.abs.next := ForAtoms.fv_lt (fun v h => hv v h)
    (fun v h => hv v (hB v h).2.1) hf
  obtain ⟨q, hq, hn2, hat⟩ := tseitin_atoms (fun _ => tsQ_body wfQ_ok) h1 hf
  simp only at hn2 hat
  have hle : s.abs.next ≤ n2 := tseitin_next h1
  -- the keys of the Tseitin map
  obtain ⟨m, hm, hmap, -⟩ := tsVisit_spec ⟨fun _ _ => 0, fun _ _ _ => 0⟩ f _ q.1 q.2 hq
  simp only [List.nil_append] at hm
  have hts := (hmap (fun v => v ∈ f.fv) (fun v hv => hv) hflt).1
  have hkeys : ∀ v, v ∈ q.2.map.map Prod.fst →
      v.type = .boolean ∧ s.abs.next ≤ v.id ∧ v.id < n2 := by
    intro v hk
    obtain ⟨p, hp, rfl⟩ := List.mem_map.mp hk
    refine ⟨tsVisit_bool f hq (by simp) p hp, ?_⟩
    rw [hn2]
    rw [hm] at hp
    exact hts.ids p hp
  set B' : Variable → Prop := fun v => B v ∨ v ∈ q.2.map.map Prod.fst with hB'
  set a0 : AbsState := { s.abs with next := n2 } with ha0
  set a := absVisitList cs a0 with ha
  have hi0 : AbsInv a0 := ⟨hs.tab.abs.boolean, fun p hp => lt_of_lt_of_le (hs.tab.abs.lt p hp) hle,
    hs.tab.abs.sorted, hs.tab.abs.nodup, hs.tab.abs.fv⟩
  have hclt : ∀ c ∈ cs, ∀ v ∈ c.fv, v.id < a0.next := fun c hc =>
    ForAtoms.fv_lt (fun v h => lt_of_lt_of_le (hv v h) hle) (fun v h => by
      rcases h with h | h
      · exact lt_of_lt_of_le (hv v (hB v h).2.1) hle
      · exact (hkeys v h).2.2) (hat c hc)
  obtain ⟨s1, s2, s3, s4, s5⟩ := absVisitList_spec cs a0 hi0 hclt
  obtain ⟨x1, x2⟩ := absVisitList_ext cs a0 hs.tab.simple
  have e : TabExt s.abs a.2 := ⟨hle.trans x1.le, x1.pre, fun p hp => by
    rcases x1.new p hp with h | h
    · exact .inl h
    · exact .inr (hle.trans h)⟩
  have hout : ∀ v, B' v → ∀ b, (v, b) ∉ a.2.table := by
    intro v hv' b hb
    rcases x1.new _ hb with h | h
    · rcases hv' with hv' | hv'
      · exact (hB v hv').2.2 (List.mem_map_of_mem (f := Prod.fst) h)
      · have := hs.tab.abs.lt _ h
        have := (hkeys v hv').2.1
        simp only at *; omega
    · simp only [ha0] at h
      rcases hv' with hv' | hv'
      · have := hv v (hB v hv').2.1; omega
      · have := (hkeys v hv').2.2; omega
  have hnegP : ∀ (op : RelOp) (a b : Expr), AtomP (· ∈ vs) op a b → AtomP (· ∈ vs) op.neg a b :=
    fun _ _ _ h => h
  obtain ⟨-, hnam⟩ := absVisitList_named hnegP cs a0 hat
  set ts' := (tseitinKeys s.abs.next f).foldl ScopedSet.insert s.tseitinVars with hts'
  have htm : ∀ i, s.tseitinVars.set i = true → ts'.set i = true :=
    fun i hi => inserts_mem _ _ _ (.inr hi)
  have hs1 := satStr_abs hs e ⟨s1, x2⟩ htm
  have hvok : ∀ g ∈ a.1, ∀ v ∈ g.fv, VarOk vs { s with abs := a.2, tseitinVars := ts' } v := by
    intro g hg v hv'
    rcases (hnam g hg).fv v hv' with hb | ⟨b, hb, hb2⟩
    · refine ⟨?_, ?_, ?_, fun b hb' => absurd hb' (hout v hb b)⟩
      · rcases hb with hb | hb
        exacts [(hB v hb).1, (hkeys v hb).1]
      · refine lt_of_lt_of_le (b := n2) ?_ x1.le
        rcases hb with hb | hb
        exacts [lt_of_lt_of_le (hv v (hB v hb).2.1) hle, (hkeys v hb).2.2]
      · rcases hb with hb | hb
        · exact .inr (.inr (hB v hb).2.1)
        · refine .inr (.inl (inserts_mem _ _ _ (.inl ?_)))
          unfold tseitinKeys
          rw [hq]
          obtain ⟨p, hp, rfl⟩ := List.mem_map.mp hb
          exact List.mem_map_of_mem (f := fun p : Variable × Fml => p.1.id) hp
    · refine ⟨s1.boolean _ hb, s1.lt _ hb, .inl ⟨b, hb⟩, fun b' hb' => ?_⟩
      rw [table_fun s1 hb' hb]
      exact simple_atomF (x2 _ hb) hb2
  obtain ⟨y1, y2, y3, y4, y5⟩ := addClauses_str hs1 hvok h2
  refine ⟨y1, by rw [y2]; exact e, y4, fun D I d ρ hw hr hh => ?_⟩
  obtain ⟨ρ3, g1, g2⟩ := (tseitin_equisat I _ f cs n2 hflt h1 ρ).mp hh
  have h0 : ∀ v, v.id < s.abs.next → ρ3 v = ρ v := by
    intro v hv'
    by_contra hne
    have := (g1 v hne).1; omega
  obtain ⟨ρ4, k1, k2, k3⟩ := refresh (ρ := ρ3) hs hv e s1 hw h0
  have hnb : ∀ v, v ∈ vs → v.type ≠ .boolean → ρ4 v = ρ v := by
    intro v hv1 hv2
    rw [k2 v, h0 v (hv v hv1)]
    intro hk
    obtain ⟨p, hp, rfl⟩ := List.mem_map.mp hk
    exact hv2 (s1.boolean p hp)
  have hatm : ∀ b, AtomF (· ∈ vs) b → ∀ x ∈ b.fv, ρ4 x = ρ x := fun b hb x hx =>
    hnb x (AtomF.fv b hb x hx).2 (AtomF.fv b hb x hx).1
  refine ⟨ρ4, y5 D I d ρ4 ?_ ?_ ?_, ?_⟩
  · refine ⟨fun c hc => ?_, fun n v hn b hb => ?_⟩
    · obtain ⟨l, hl, ht⟩ := hw.cl c hc
      refine ⟨l, hl, ?_⟩
      have : satVal { s with abs := a.2, tseitinVars := ts' } ρ4 = satVal s ρ4 := rfl
      unfold LitTrue at *
      rwa [this, k3]
    · have hok := hs.sym n v hn
      have hb' := table_old e hb hok.2.2.lt
      exact ⟨k1 _ hb, regF_congr b (hatm b (hok.2.2.atom b hb')) (hw.names n v hn b hb').2⟩
  · intro g hg v hv' b hb
    refine ⟨k1 _ hb, ?_⟩
    have hPn : ∀ (op : RelOp) (a b : Expr), AtomP (· ∈ vs) op a b ∧ RegR D I d ρ op a b →
        AtomP (· ∈ vs) op.neg a b ∧ RegR D I d ρ op.neg a b := fun _ _ _ h => ⟨h.1, regR_neg h.2⟩
    obtain ⟨q', hq', -, hat'⟩ := tseitin_atoms (fun _ => tsQ_body (wfQ_ok.and regQ_ok)) h1
      (ForAtoms.mono (B' := B) (fun _ _ _ h => h) (fun _ h => h.1)
        (fun vs' g h => body_and.mp ⟨h.1, (matrix_reg g).mp h.2⟩) _
        (ForAtoms.and f hf ((regF_iff f).mp hr)))
    rw [hq] at hq'; cases hq'
    obtain ⟨-, hnam'⟩ := absVisitList_named hPn cs a0 hat'
    rcases (hnam' g hg).fv v hv' with hb1 | ⟨b', hb1, hb2⟩
    · exact absurd hb (hout v hb1 b)
    · rw [table_fun s1 hb hb1]
      have ha1 : AtomF (· ∈ vs) b' := simple_atomF (x2 _ hb1)
        (ForAtoms.mono (fun _ _ _ h => h.1) (fun _ h => h) (fun _ _ h => (body_and.mpr h).1) _ hb2)
      refine regF_congr b' (hatm b' ha1) ((regF_iff b').mpr ?_)
      exact ForAtoms.mono (fun _ _ _ h => h.2) (fun _ _ => trivial)
        (fun _ g h => (matrix_reg g).mpr (body_and.mpr h).2) _ hb2
  · have hcs : ∀ c ∈ cs, holds I ρ4 c := by
      intro c hc
      refine (holds_congr I c _ _ (fun v hv' => ?_)).mpr (g2 c hc)
      refine k2 v (fun hk => ?_)
      obtain ⟨⟨w, b⟩, hp, rfl⟩ := List.mem_map.mp hk
      rcases (hat c hc).fv_or _ hv' with hx | hx
      · exact hx.1 (s1.boolean _ hp)
      · exact hout _ hx _ hp
    exact ((s5 I ρ4 k1).1).mpr hcs
  · intro v hne
    by_cases hk : v ∈ a.2.table.map Prod.fst
    · obtain ⟨p, hp, rfl⟩ := List.mem_map.mp hk
      rcases e.new p hp with h | h
      · exact .inl (List.mem_map_of_mem h)
      · refine .inr ⟨h, ?_⟩
        rw [y2]; exact s1.lt p hp
    · rw [k2 v hk] at hne
      obtain ⟨j1, j2, -⟩ := g1 v hne
      refine .inr ⟨j1, ?_⟩
      rw [y2]; exact lt_of_lt_of_le j2 x1.le

/-! ### Learned clauses -/

theorem learnedLits_str {vs} : ∀ {fs : List Fml} {s : SatState} {r : List Int × SatState},
    SatStr vs s → (∀ v ∈ vs, v.id < s.abs.next) → (∀ f ∈ fs, AtomF (· ∈ vs) f) →
    learnedLits s fs = .ok r →
    r.2 = { s with abs := r.2.abs } ∧ TabExt s.abs r.2.abs ∧ TabInv r.2.abs ∧
    (∀ l ∈ r.1, 0 < l.natAbs ∧ l.natAbs ≤ s.maxVar) ∧
    ∀ D I d ρ, SatWit D I d s ρ →
      ((∃ l ∈ r.1, LitTrue (satVal s ρ) l) ↔ ∃ f ∈ fs, ¬ holds I ρ f)
  | [], s, r, hs, _, _, h => by
    simp only [learnedLits, Outcome.ok.injEq] at h; subst h
    exact ⟨rfl, .refl _, hs.tab, by simp, by simp⟩
  | f :: fs, s, r, hs, hv, hf, h => by
    simp only [learnedLits] at h
    obtain ⟨l, h1, h⟩ := bindO_ok h
    obtain ⟨⟨ls, s2⟩, h2, h⟩ := bindO_ok h
    simp only [Outcome.ok.injEq] at h; subst h
    have haf := hf f (by simp)
    have hflt : ∀ v ∈ f.fv, v.id < s.abs.next := fun v h => hv v (AtomF.fv f haf v h).2
    have hsp : AbsSpec f s.abs (absConvert f s.abs).1 (absConvert f s.abs).2 :=
      absVisit_spec f s.abs hs.tab.abs hflt
    obtain ⟨e1, e2⟩ : TabExt s.abs (absConvert f s.abs).2 ∧ _ := absVisit_ext f s.abs hs.tab.simple
    have hs1 := satStr_abs (ts := s.tseitinVars) hs e1 ⟨hsp.inv, e2⟩ (fun _ h => h)
    obtain ⟨a1, a2, a3, a4, a5⟩ := learnedLits_str (fs := fs) hs1
      (fun v h => lt_of_lt_of_le (hv v h) e1.le) (fun g hg => hf g (by simp [hg])) h2
    obtain ⟨b1, b2⟩ := satLit_sem hs1 h1
    refine ⟨a1, e1.trans a2, a3, ?_, fun D I d ρ hw => ?_⟩
    · intro x hx
      rcases List.mem_cons.mp hx with rfl | hx
      exacts [b1, a4 x hx]
    · have hw1 := satWit_abs (ts := s.tseitinVars) hs e1 hw
      have ih := a5 D I d ρ hw1
      have : satVal { s with abs := (absConvert f s.abs).2, tseitinVars := s.tseitinVars } =
        satVal s := rfl
      rw [this] at ih
      simp only [List.mem_cons, exists_eq_or_imp]
      refine or_congr ?_ ih
      obtain ⟨ρ', k1, k2, k3⟩ := refresh (ρ := ρ) hs hv e1 hsp.inv hw (fun _ _ => rfl)
      have hl : LitTrue (satVal s ρ) l ↔ LitTrue (satVal s ρ') l := by
        unfold LitTrue; rw [k3]
      rw [hl]
      have := b2 I ρ'
      rw [‹satVal _ = satVal s›] at this
      rw [this, holds_notF, hsp.mean I ρ' k1]
      refine not_congr (holds_congr I f _ _ (fun x hx => k2 x (fun hk => ?_)))
      obtain ⟨p, hp, rfl⟩ := List.mem_map.mp hk
      exact (AtomF.fv f haf _ hx).1 (hsp.inv.boolean p hp)

theorem addLearned_str {vs s s' fs} (hs : SatStr vs s) (hv : ∀ v ∈ vs, v.id < s.abs.next)
    (hf : ∀ f ∈ fs, AtomF (· ∈ vs) f) (h : addLearned s fs = .ok s') :
    SatStr vs s' ∧ TabExt s.abs s'.abs ∧ s'.maxVar = s.maxVar ∧
    ∀ D I d ρ, SatWit D I d s ρ → ¬ (∀ f ∈ fs, holds I ρ f) → SatWit D I d s' ρ := by
  simp only [addLearned] at h
  obtain ⟨⟨ls, s2⟩, h1, h⟩ := bindO_ok h
  simp only [Outcome.ok.injEq] at h
  obtain ⟨a1, a2, a3, a4, a5⟩ := learnedLits_str hs hv hf h1
  simp only at a1 a2 a3 a4 a5 h
  have hs2 := satStr_abs (ts := s.tseitinVars) hs a2 a3 (fun _ h => h)
  rw [a1] at h
  subst h
  refine ⟨⟨hs2.tab, hs2.ss, fun n v hn => ?_, ?_⟩, a2, rfl, fun D I d ρ hw hn => ?_⟩
  · obtain ⟨c1, c2, c3⟩ := hs2.sym n v hn
    exact ⟨c1, c2, c3.bool, c3.lt, c3.kind, c3.atom⟩
  · intro c hc l hl
    rcases List.mem_append.mp hc with hc | hc
    · exact hs2.lits c hc l hl
    · simp only [List.mem_singleton] at hc; subst hc; exact a4 l hl
  · have hw2 := satWit_abs (ts := s.tseitinVars) hs a2 hw
    refine ⟨fun c hc => ?_, hw2.names⟩
    rcases List.mem_append.mp hc with hc | hc
    · exact hw2.cl c hc
    · simp only [List.mem_singleton] at hc; subst hc
      push Not at hn
      exact (a5 D I d ρ hw).mpr hn

/-! ### Models -/

theorem readModel_theory {s deref} : ∀ {is : List Nat} {v b},
    (v, b) ∈ (readModel s deref is).theory →
    ∃ i ∈ is, s.toSym.map i = some v ∧ deref i ≠ 0 ∧ b = decide (deref i = 1) ∧
      ∃ a, (v, a) ∈ s.abs.table
  | [], v, b, h => by simp [readModel] at h
  | i :: is, v, b, h => by
    simp only [readModel] at h
    have ih := fun h => readModel_theory (is := is) (v := v) (b := b) (s := s) (deref := deref) h
    split at h
    · obtain ⟨j, hj, g⟩ := ih h; exact ⟨j, by simp [hj], g⟩
    · split at h
      · obtain ⟨j, hj, g⟩ := ih h; exact ⟨j, by simp [hj], g⟩
      · rename_i w hw
        split at h
        · rename_i hany
          rcases List.mem_cons.mp h with h | h
          · cases h
            obtain ⟨⟨w, a⟩, hp, hq⟩ := List.any_eq_true.mp hany
            simp only [decide_eq_true_eq] at hq
            subst hq
            exact ⟨i, by simp, hw, ‹_›, rfl, a, hp⟩
          · obtain ⟨j, hj, g⟩ := ih h; exact ⟨j, by simp [hj], g⟩
        · split at h
          · obtain ⟨j, hj, g⟩ := ih h; exact ⟨j, by simp [hj], g⟩
          · obtain ⟨j, hj, g⟩ := ih h; exact ⟨j, by simp [hj], g⟩

theorem readModel_bool {s deref} : ∀ {is : List Nat} {v b},
    (v, b) ∈ (readModel s deref is).bool →
    ∃ i ∈ is, s.toSym.map i = some v ∧ deref i ≠ 0 ∧ b = decide (deref i = 1) ∧
      (∀ a, (v, a) ∉ s.abs.table) ∧ s.tseitinVars.set v.id = false
  | [], v, b, h => by simp [readModel] at h
  | i :: is, v, b, h => by
    simp only [readModel] at h
    have ih := fun h => readModel_bool (is := is) (v := v) (b := b) (s := s) (deref := deref) h
    split at h
    · obtain ⟨j, hj, g⟩ := ih h; exact ⟨j, by simp [hj], g⟩
    · split at h
      · obtain ⟨j, hj, g⟩ := ih h; exact ⟨j, by simp [hj], g⟩
      · rename_i w hw
        split at h
        · obtain ⟨j, hj, g⟩ := ih h; exact ⟨j, by simp [hj], g⟩
        · rename_i hany
          split at h
          · obtain ⟨j, hj, g⟩ := ih h; exact ⟨j, by simp [hj], g⟩
          · rename_i hts
            rcases List.mem_cons.mp h with h | h
            · cases h
              refine ⟨i, by simp, hw, ‹_›, rfl, fun a ha => hany ?_, by simpa using hts⟩
              exact List.any_eq_true.mpr ⟨_, ha, by simp⟩
            · obtain ⟨j, hj, g⟩ := ih h; exact ⟨j, by simp [hj], g⟩

theorem theoryLit_mem {s v f} (h : theoryLit s v = .ok f) : (v, f) ∈ s.abs.table := by
  unfold theoryLit at h
  split at h
  · rename_i p hp
    cases h
    have h1 := List.mem_of_find?_eq_some hp
    have h2 := List.find?_some hp
    simp only [decide_eq_true_eq] at h2
    subst h2; exact h1
  · cases h

theorem theoryLits_mem {s} : ∀ {ps fs}, theoryLits s ps = .ok fs →
    (∀ f ∈ fs, ∃ v b a, (v, b) ∈ ps ∧ (v, a) ∈ s.abs.table ∧ f = if b then a else notF a) ∧
    ∀ v b, (v, b) ∈ ps → ∃ a, (v, a) ∈ s.abs.table ∧ (if b then a else notF a) ∈ fs
  | [], fs, h => by simp only [theoryLits, Outcome.ok.injEq] at h; subst h; simp
  | p :: ps, fs, h => by
    simp only [theoryLits] at h
    obtain ⟨a, h1, h⟩ := bindO_ok h
    obtain ⟨as, h2, h⟩ := bindO_ok h
    simp only [Outcome.ok.injEq] at h; subst h
    obtain ⟨i1, i2⟩ := theoryLits_mem h2
    constructor
    · intro f hf
      rcases List.mem_cons.mp hf with rfl | hf
      · exact ⟨p.1, p.2, a, by simp, theoryLit_mem h1, rfl⟩
      · obtain ⟨v, b, a, g1, g2⟩ := i1 f hf
        exact ⟨v, b, a, by simp [g1], g2⟩
    · intro v b hp
      rcases List.mem_cons.mp hp with rfl | hp
      · exact ⟨a, theoryLit_mem h1, by simp⟩
      · obtain ⟨a, g1, g2⟩ := i2 v b hp
        exact ⟨a, g1, by simp [g2]⟩

/-- What the SAT solver's answer consists of. -/
theorem satCheck_some {ps vs s m s'} (hs : SatStr vs s) (h : satCheck ps s = .ok (some m, s')) :
    s' = { s with calls := s.calls + 1 } ∧
    (∀ v b, (v, b) ∈ m.bool → v.type = .boolean ∧ v ∈ vs) ∧
    ∀ fs, theoryLits s' m.theory = .ok fs → ∀ f ∈ fs, AtomF (· ∈ vs) f ∧
      ∀ D I d ρ, SatWit D I d s ρ → RegF D I d ρ f := by
  unfold satCheck at h
  simp only at h
  split at h
  · simp only [Outcome.ok.injEq, Prod.mk.injEq, Option.some.injEq] at h
    obtain ⟨h1, h2⟩ := h
    refine ⟨h2.symm, fun v b hb => ?_, fun fs hf f hm => ?_⟩
    · rw [← h1] at hb
      obtain ⟨i, -, g1, -, -, g2, g3⟩ := readModel_bool hb
      have hk := (hs.sym i v g1).2.2
      refine ⟨hk.bool, ?_⟩
      rcases hk.kind with ⟨a, ha⟩ | hk | hk
      · exact absurd ha (g2 a)
      · rw [g3] at hk; cases hk
      · exact hk
    · obtain ⟨v, b, a, g1, g2, rfl⟩ := (theoryLits_mem hf).1 f hm
      rw [← h1] at g1
      obtain ⟨i, -, k1, -⟩ := readModel_theory g1
      have g3 : (v, a) ∈ s.abs.table := by rw [← h2] at g2; exact g2
      have := (hs.sym i v k1).2.2.atom a g3
      cases b
      · exact ⟨this.notF, fun D I d ρ hw => reg_notF (hw.names i v k1 a g3).2⟩
      · exact ⟨this, fun D I d ρ hw => (hw.names i v k1 a g3).2⟩
  · cases h
  · cases h

theorem satCheck_none {ps s s'} (hp : PicosatOk ps) (h : satCheck ps s = .ok (none, s')) :
    s' = { s with calls := s.calls + 1 } ∧ ∀ D I d ρ, ¬ SatWit D I d s ρ := by
  unfold satCheck at h
  simp only at h
  split at h
  · simp at h
  · rename_i hu
    simp only [Outcome.ok.injEq, Prod.mk.injEq] at h
    exact ⟨h.2.symm, fun D I d ρ hw => hp.unsat _ _ _ _ hu _ hw.cl⟩
  · cases h

theorem satStr_calls {vs s n} (h : SatStr vs s) : SatStr vs { s with calls := n } :=
  ⟨h.tab, h.ss, fun n v hn => ⟨(h.sym n v hn).1, (h.sym n v hn).2.1, (h.sym n v hn).2.2.bool,
    (h.sym n v hn).2.2.lt, (h.sym n v hn).2.2.kind, (h.sym n v hn).2.2.atom⟩, h.lits⟩

theorem satWit_calls {D I d s ρ n} (h : SatWit D I d s ρ) :
    SatWit D I d { s with calls := n } ρ := ⟨h.cl, h.names⟩

end Verif.Proof
