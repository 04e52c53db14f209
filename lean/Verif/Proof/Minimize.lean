import Mathlib.Tactic.Linarith
import Verif.Spec.Minimize
import Verif.Proof.Box
import Verif.Proof.Subst

/-! # Lemmas on Minimize -/

namespace Verif.Proof
open Verif Verif.Model Verif.Spec

/-! ### Collecting the related constraints -/

theorem mem_addVars {v : Variable} {xs new : List Variable} :
    v ∈ addVars xs new ↔ v ∈ xs ∨ v ∈ new := by
  unfold addVars
  induction new generalizing xs with
  | nil => simp
  | cons w new ih =>
    rw [List.foldl_cons, ih]
    by_cases h : w ∈ xs
    · simp only [h, if_true, List.mem_cons]
      constructor
      · rintro (h' | h') <;> simp [h']
      · rintro (h' | rfl | h')
        · exact .inl h'
        · exact .inl h
        · exact .inr h'
    · simp only [h, if_false, List.mem_append, List.mem_singleton, List.mem_cons, List.not_mem_nil,
        false_or, or_assoc]

theorem addVars_nodup {xs new : List Variable} (h : xs.Nodup) : (addVars xs new).Nodup := by
  unfold addVars
  induction new generalizing xs with
  | nil => simpa
  | cons w new ih =>
    rw [List.foldl_cons]
    refine ih ?_
    split_ifs with hw
    · exact h
    · rw [List.nodup_append]
      refine ⟨h, by simp, ?_⟩
      intro a ha b hb e
      rw [List.mem_singleton] at hb
      subst hb; subst e
      exact hw ha

/-- What holds of the collected sets. -/
structure RelInv (stack : List Fml) (objs : List Expr) (r : Related) : Prop where
  nodup : r.vars.Nodup
  objs : ∀ f ∈ objs, ∀ v ∈ f.vars, v ∈ r.vars
  sub : ∀ f ∈ r.cons, f ∈ stack ∧ ∀ v ∈ f.fv, v ∈ r.vars

theorem relatedPass_inv {all stack : List Fml} {objs : List Expr} {r : Related}
    (hs : ∀ f ∈ stack, f ∈ all) (h : RelInv all objs r) : RelInv all objs (relatedPass stack r) := by
  induction stack generalizing r with
  | nil => exact h
  | cons f fs ih =>
    rw [relatedPass]
    split_ifs with hc
    · refine ih (fun g hg => hs g (by simp [hg])) ⟨addVars_nodup h.nodup, ?_, ?_⟩
      · intro g hg v hv
        exact mem_addVars.mpr (.inl (h.objs g hg v hv))
      · intro g hg
        rcases List.mem_append.mp hg with hg | hg
        · exact ⟨(h.sub g hg).1, fun v hv => mem_addVars.mpr (.inl ((h.sub g hg).2 v hv))⟩
        · rw [List.mem_singleton] at hg
          subst hg
          exact ⟨hs g (by simp), fun v hv => mem_addVars.mpr (.inr hv)⟩
    · exact ih (fun g hg => hs g (by simp [hg])) h

theorem relatedPass_keep {stack : List Fml} {r : Related} (h : r.keepGoing = true) :
    (relatedPass stack r).keepGoing = true := by
  induction stack generalizing r with
  | nil => exact h
  | cons f fs ih =>
    rw [relatedPass]
    split_ifs
    · exact ih rfl
    · exact ih h

theorem relatedPass_done {stack : List Fml} {r : Related}
    (h : (relatedPass stack r).keepGoing = false) :
    relatedPass stack r = r ∧ ∀ f ∈ stack, f ∈ r.cons ∨ haveIntersection r.vars f.fv = false := by
  induction stack generalizing r with
  | nil => exact ⟨rfl, by simp⟩
  | cons f fs ih =>
    rw [relatedPass] at h ⊢
    split_ifs at h ⊢ with hc
    · rw [relatedPass_keep rfl] at h; cases h
    · obtain ⟨h1, h2⟩ := ih h
      refine ⟨h1, fun g hg => ?_⟩
      rcases List.mem_cons.mp hg with rfl | hg
      · by_cases hm : g ∈ r.cons
        · exact .inl hm
        · refine .inr ?_
          by_contra hi
          exact hc ⟨hm, by simpa using hi⟩
      · exact h2 g hg

theorem relatedLoop_ok {stack : List Fml} {objs : List Expr} {n : Nat} {r r' : Related}
    (hi : RelInv stack objs r) (h : relatedLoop stack n r = .ok r') :
    RelInv stack objs r' ∧ ∀ f ∈ stack, f ∈ r'.cons ∨ haveIntersection r'.vars f.fv = false := by
  induction n generalizing r with
  | zero => simp [relatedLoop] at h
  | succ n ih =>
    have hp := relatedPass_inv (stack := stack) (fun _ h => h)
      (show RelInv stack objs { r with keepGoing := false } from ⟨hi.1, hi.2, hi.3⟩)
    simp only [relatedLoop] at h
    split_ifs at h with hk
    · exact ih hp h
    · simp only [Run.ok.injEq] at h
      subst h
      refine ⟨hp, ?_⟩
      obtain ⟨h1, h2⟩ := relatedPass_done (by simpa using hk)
      rw [h1]
      exact h2

theorem relatedPass_cons {stack : List Fml} {r : Related} :
    ∃ l, (relatedPass stack r).cons = r.cons ++ l ∧ (∀ f ∈ l, f ∈ stack ∧ f ∉ r.cons) ∧ l.Nodup ∧
      ((relatedPass stack r).keepGoing = true → r.keepGoing = true ∨ l ≠ []) := by
  induction stack generalizing r with
  | nil => exact ⟨[], by simp [relatedPass]⟩
  | cons f fs ih =>
    rw [relatedPass]
    split_ifs with hc
    · obtain ⟨l, h1, h2, h3, _⟩ := ih (r := ⟨addVars r.vars f.fv, r.cons ++ [f], true⟩)
      refine ⟨f :: l, by rw [h1]; simp, ?_, ?_, by simp⟩
      · intro g hg
        rcases List.mem_cons.mp hg with rfl | hg
        · exact ⟨by simp, hc.1⟩
        · have := h2 g hg
          simp only [List.mem_append, not_or] at this
          exact ⟨by simp [this.1], this.2.1⟩
      · rw [List.nodup_cons]
        refine ⟨fun hf => ?_, h3⟩
        have := (h2 f hf).2
        simp at this
    · obtain ⟨l, h1, h2, h3, h4⟩ := ih (r := r)
      exact ⟨l, h1, fun g hg => ⟨by simp [(h2 g hg).1], (h2 g hg).2⟩, h3, h4⟩

/-- There are enough passes. -/
theorem relatedLoop_total {stack : List Fml} {n : Nat} {r : Related} (hn : r.cons.Nodup)
    (hs : ∀ f ∈ r.cons, f ∈ stack) (h : stack.length + 1 ≤ n + r.cons.length) :
    ∃ r', relatedLoop stack n r = .ok r' := by
  have hlen : ∀ l : List Fml, l.Nodup → (∀ f ∈ l, f ∈ stack) → l.length ≤ stack.length := by
    intro l h1 h2
    exact (List.subperm_of_subset h1 h2).length_le
  induction n generalizing r with
  | zero =>
    have := hlen _ hn hs
    omega
  | succ n ih =>
    simp only [relatedLoop]
    split_ifs with hk
    · obtain ⟨l, h1, h2, h3, h4⟩ := relatedPass_cons (stack := stack) (r := { r with keepGoing := false })
      have hl : l ≠ [] := by
        rcases h4 hk with h' | h'
        · cases h'
        · exact h'
      have hl' : 0 < l.length := List.length_pos_iff.mpr hl
      refine ih ?_ ?_ ?_
      · rw [h1, List.nodup_append]
        refine ⟨hn, h3, fun a ha b hb e => ?_⟩
        subst e
        exact (h2 a hb).2 ha
      · rw [h1]
        intro f hf
        rcases List.mem_append.mp hf with hf | hf
        · exact hs f hf
        · exact (h2 f hf).1
      · rw [h1, List.length_append]
        simp only
        omega
    · exact ⟨_, rfl⟩

/-! ### The substitution -/

theorem mem_freshFor {next : Nat} {xs : List Variable} {p : Variable × Variable}
    (h : p ∈ freshFor next xs) : p.1 ∈ xs ∧ p.2.type = p.1.type ∧ next ≤ p.2.id ∧
      p.2.id < next + xs.length := by
  induction xs generalizing next with
  | nil => simp [freshFor] at h
  | cons x xs ih =>
    rw [freshFor, List.mem_cons] at h
    rcases h with rfl | h
    · exact ⟨by simp, rfl, by simp, by simp⟩
    · obtain ⟨h1, h2, h3, h4⟩ := ih h
      exact ⟨by simp [h1], h2, by omega, by simp; omega⟩

/-- The variable that stands for `v`. -/
def yOf (next : Nat) (xs : List Variable) (v : Variable) : Variable := ⟨next + xs.idxOf v, v.type⟩

theorem freshFor_yOf {next : Nat} {xs : List Variable} (hx : xs.Nodup) :
    freshFor next xs = xs.map fun v => (v, yOf next xs v) := by
  induction xs generalizing next with
  | nil => rfl
  | cons x xs ih =>
    rw [List.nodup_cons] at hx
    rw [freshFor, ih hx.2, List.map_cons]
    simp only [yOf, List.idxOf_cons_self, Nat.add_zero, List.cons.injEq, true_and]
    refine List.map_congr_left fun v hv => ?_
    have : x ≠ v := fun e => hx.1 (e ▸ hv)
    simp only [List.idxOf_cons_ne _ this]
    congr 2
    omega

theorem yOf_inj {next : Nat} {xs : List Variable} {v w : Variable} (hv : v ∈ xs)
    (h : yOf next xs v = yOf next xs w) : v = w := by
  simp only [yOf, Variable.mk.injEq] at h
  exact (List.idxOf_inj hv).mp (by omega)

theorem lookup_fresh {next : Nat} {xs : List Variable} (hx : xs.Nodup) (v : Variable) :
    lookupV v ((freshFor next xs).map fun p => (p.1, Expr.var p.2)) =
      if v ∈ xs then some (.var (yOf next xs v)) else none := by
  rw [freshFor_yOf hx, List.map_map]
  have : ∀ l : List Variable, lookupV v (l.map ((fun p => (p.1, Expr.var p.2)) ∘
      fun v => (v, yOf next xs v))) = if v ∈ l then some (.var (yOf next xs v)) else none := by
    intro l
    induction l with
    | nil => rfl
    | cons w l ih =>
      simp only [List.map_cons, Function.comp, lookupV]
      by_cases h : w = v
      · subst h; simp
      · rw [if_neg h]
        rw [ih]
        simp [Ne.symm h]
  exact this xs

/-- All substitutes have only variables numbered `n` and above. -/
def FreshS (n : Nat) (s : Subst) : Prop := ∀ v, ∀ w ∈ substVars s v, n ≤ w.id

theorem lookupV_filter_some {α : Type} {v : Variable} {q : Variable × α → Bool} {l : List (Variable × α)}
    {a : α} (hq : ∀ a b, q (v, a) = q (v, b)) (h : lookupV v (l.filter q) = some a) :
    lookupV v l = some a := by
  induction l with
  | nil => simp [lookupV] at h
  | cons p l ih =>
    obtain ⟨w, b⟩ := p
    rw [List.filter_cons] at h
    by_cases hw : w = v
    · subst hw
      by_cases hb : q (w, b) = true
      · rw [if_pos hb] at h
        simpa [lookupV] using h
      · rw [if_neg hb] at h
        exfalso
        have hall : ∀ m : List (Variable × α), lookupV w (m.filter q) = none := by
          intro m
          induction m with
          | nil => rfl
          | cons p m ihm =>
            obtain ⟨u, c⟩ := p
            rw [List.filter_cons]
            split_ifs with hc
            · by_cases hu : u = w
              · subst hu
                exact absurd ((hq b c).trans hc) hb
              · simpa [lookupV, hu] using ihm
            · exact ihm
        rw [hall] at h
        cases h
    · rw [lookupV, if_neg hw]
      refine ih ?_
      split_ifs at h
      · rwa [lookupV, if_neg hw] at h
      · exact h

theorem FreshS.erase {n : Nat} {s : Subst} (h : FreshS n s) (vs : List Variable) :
    FreshS n (s.erase vs) := by
  intro v w hw
  refine h v w ?_
  unfold substVars at hw ⊢
  split_ifs at hw ⊢ with hb
  · cases hl : lookupV v (s.erase vs).fm with
    | none => rw [hl] at hw; cases hw
    | some f =>
      rw [hl] at hw
      rw [lookupV_filter_some (fun _ _ => rfl) hl]
      exact hw
  · cases hl : lookupV v (s.erase vs).ex with
    | none => rw [hl] at hw; cases hw
    | some f =>
      rw [hl] at hw
      rw [lookupV_filter_some (fun _ _ => rfl) hl]
      exact hw

mutual
theorem noCapture_old_e {n : Nat} : (e : Expr) → (s : Subst) → FreshS n s → OldE n e → NoCaptureE s e
  | .const _, _, _, _ => trivial
  | .rconst _, _, _, _ => trivial
  | .var _, _, _, _ => trivial
  | .add a b, s, h, ho => ⟨noCapture_old_e a s h ho.1, noCapture_old_e b s h ho.2⟩
  | .mul a b, s, h, ho => ⟨noCapture_old_e a s h ho.1, noCapture_old_e b s h ho.2⟩
  | .app1 _ a, s, h, ho => noCapture_old_e a s h ho
  | .app2 _ a b, s, h, ho => ⟨noCapture_old_e a s h ho.1, noCapture_old_e b s h ho.2⟩
  | .ite c a b, s, h, ho =>
    ⟨noCapture_old c s h ho.1, noCapture_old_e a s h ho.2.1, noCapture_old_e b s h ho.2.2⟩
theorem noCapture_old {n : Nat} : (f : Fml) → (s : Subst) → FreshS n s → Old n f → NoCaptureF s f
  | .ff, _, _, _ => trivial
  | .tt, _, _, _ => trivial
  | .bvar _, _, _, _ => trivial
  | .rel _ a b, s, h, ho => ⟨noCapture_old_e a s h ho.1, noCapture_old_e b s h ho.2⟩
  | .conj fs, s, h, ho => noCapture_old_list fs s h ho
  | .disj fs, s, h, ho => noCapture_old_list fs s h ho
  | .neg f, s, h, ho => noCapture_old f s h ho
  | .all vs f, s, h, ho => by
    refine ⟨fun v _ _ w hw hm => ?_, noCapture_old f _ (h.erase vs) ho.2⟩
    have := h v w hw
    have := ho.1 w hm
    omega
theorem noCapture_old_list {n : Nat} : (fs : List Fml) → (s : Subst) → FreshS n s → OldList n fs →
    NoCaptureFs s fs
  | [], _, _, _ => trivial
  | f :: fs, s, h, ho => ⟨noCapture_old f s h ho.1, noCapture_old_list fs s h ho.2⟩
end

mutual
theorem vars_old_e {n : Nat} : (e : Expr) → OldE n e → ∀ v ∈ e.vars, v.id < n
  | .const _, _ => by simp [Expr.vars]
  | .rconst _, _ => by simp [Expr.vars]
  | .var w, h => by simpa [Expr.vars, OldE] using h
  | .add a b, h => by
    intro v hv
    rcases List.mem_append.mp hv with hv | hv
    · exact vars_old_e a h.1 v hv
    · exact vars_old_e b h.2 v hv
  | .mul a b, h => by
    intro v hv
    rcases List.mem_append.mp hv with hv | hv
    · exact vars_old_e a h.1 v hv
    · exact vars_old_e b h.2 v hv
  | .app1 _ a, h => vars_old_e a h
  | .app2 _ a b, h => by
    intro v hv
    rcases List.mem_append.mp hv with hv | hv
    · exact vars_old_e a h.1 v hv
    · exact vars_old_e b h.2 v hv
  | .ite c a b, h => by
    intro v hv
    rcases List.mem_append.mp hv with hv | hv
    · exact fv_old c h.1 v hv
    rcases List.mem_append.mp hv with hv | hv
    · exact vars_old_e a h.2.1 v hv
    · exact vars_old_e b h.2.2 v hv
theorem fv_old {n : Nat} : (f : Fml) → Old n f → ∀ v ∈ f.fv, v.id < n
  | .ff, _ => by simp [Fml.fv]
  | .tt, _ => by simp [Fml.fv]
  | .bvar w, h => by simpa [Fml.fv, Old] using h
  | .rel _ a b, h => by
    intro v hv
    rcases List.mem_append.mp hv with hv | hv
    · exact vars_old_e a h.1 v hv
    · exact vars_old_e b h.2 v hv
  | .conj fs, h => fv_old_list fs h
  | .disj fs, h => fv_old_list fs h
  | .neg f, h => fv_old f h
  | .all vs f, h => fun v hv => fv_old f h.2 v (List.mem_filter.mp hv).1
theorem fv_old_list {n : Nat} : (fs : List Fml) → OldList n fs → ∀ v ∈ Fml.fvList fs, v.id < n
  | [], _ => by simp [Fml.fvList]
  | f :: fs, h => by
    intro v hv
    rcases List.mem_append.mp hv with hv | hv
    · exact fv_old f h.1 v hv
    · exact fv_old_list fs h.2 v hv
end

/-! ### The bounds and the objectives -/

theorem negBounds_holds {I : Interp} {ρ : Valuation} {y : Variable} {iv : Itv} {x : ℝ}
    (hne : InItv x iv) : (∃ f ∈ negBounds y iv, holds I ρ f) ↔ ¬ InItv (ρ y) iv := by
  obtain ⟨lb, ub⟩ := iv
  cases lb <;> cases ub <;> simp [InItv, below, above] at hne <;>
    simp [negBounds, InItv, below, above, relSem, eval]
  rw [or_iff_not_imp_left, not_lt]

theorem objectives_holds {I : Interp} {ρ : Valuation} {s : Subst} (objs : List Expr) :
    ∀ (next : Nat) (zb q : Fml),
    (holds I ρ (objectives s objs next zb q).1 ↔
      holds I ρ zb ∧ ∀ i f, objs[i]? = some f → ρ ⟨next + i, .continuous⟩ = eval I ρ f) ∧
    (holds I ρ (objectives s objs next zb q).2.1 ↔
      holds I ρ q ∨ ∃ i f, objs[i]? = some f ∧
        ρ ⟨next + i, .continuous⟩ ≤ eval I ρ (f.substitute s)) ∧
    (objectives s objs next zb q).2.2 = (List.range objs.length).map fun i =>
      (⟨next + i, .continuous⟩ : Variable) := by
  induction objs with
  | nil => intro next zb q; simp [objectives]
  | cons f fs ih =>
    intro next zb q
    obtain ⟨h1, h2, h3⟩ := ih (next + 1) (andF zb (mkRel .eq (.var ⟨next, .continuous⟩) f))
      (orF q (mkRel .leq (.var ⟨next, .continuous⟩) (f.substitute s)))
    refine ⟨?_, ?_, ?_⟩
    · rw [objectives]
      simp only [h1, holds_andF, holds_mkRel, holds_rel, relSem, eval, and_assoc]
      refine and_congr_right fun _ => ⟨?_, fun h => ⟨by simpa using h 0 f rfl, fun i g hg => ?_⟩⟩
      · rintro ⟨h0, hr⟩ i g hg
        cases i with
        | zero =>
          simp only [List.getElem?_cons_zero, Option.some.injEq] at hg
          subst hg
          simpa using h0
        | succ i =>
          rw [show next + (i + 1) = next + 1 + i by omega]
          exact hr i g (by simpa using hg)
      · rw [show next + 1 + i = next + (i + 1) by omega]
        exact h (i + 1) g (by simpa using hg)
    · rw [objectives]
      simp only [h2, holds_orF, holds_mkRel, holds_rel, relSem, eval, or_assoc]
      refine or_congr_right ⟨?_, ?_⟩
      · rintro (h | ⟨i, g, hg, h⟩)
        · exact ⟨0, f, rfl, by simpa using h⟩
        · exact ⟨i + 1, g, by simpa using hg, by rw [show next + (i + 1) = next + 1 + i by omega]; exact h⟩
      · rintro ⟨i, g, hg, h⟩
        cases i with
        | zero =>
          simp only [List.getElem?_cons_zero, Option.some.injEq] at hg
          subst hg
          exact .inl (by simpa using h)
        | succ i =>
          exact .inr ⟨i, g, by simpa using hg, by rw [show next + 1 + i = next + (i + 1) by omega]; exact h⟩
    · rw [objectives]
      simp only [h3, List.length_cons, List.range_succ_eq_map, List.map_cons, List.map_map,
        Nat.add_zero, List.cons.injEq, true_and]
      refine List.map_congr_left fun i _ => ?_
      simp only [Function.comp, Variable.mk.injEq, and_true]
      omega

end Verif.Proof
