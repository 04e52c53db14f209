import Mathlib.Tactic.Linarith
import Mathlib.Tactic.NormNum
import Verif.Spec.Refine
import Verif.Props.Filter
import Verif.Props.Forall
import Verif.Props.Nlopt

/-!
# C59: refining counterexamples
-/

namespace Verif.Props
open Verif Verif.Model Verif.Spec Verif.Proof

theorem queryOps_eq (f : Fml) : queryOps f = conjuncts f := by cases f <;> rfl

theorem holds_conjuncts {I : Interp} {ρ : Valuation} {f : Fml} :
    holds I ρ f ↔ ∀ g ∈ conjuncts f, holds I ρ g := by
  cases f with
  | conj fs =>
    rw [holds]
    simp only [conjuncts]
    induction fs with
    | nil => simp [holdsAll]
    | cons a l ih => simp [holdsAll, ih]
  | _ => simp [conjuncts]

theorem rcOk_conjuncts {f : Fml} (h : RcOkF f) : ∀ g ∈ conjuncts f, RcOkF g := by
  cases f with
  | conj fs =>
    rw [RcOkF] at h
    simp only [conjuncts]
    induction fs with
    | nil => simp
    | cons a l ih =>
      simp only [RcOkFs] at h
      simp only [List.mem_cons, forall_eq_or_imp]
      exact ⟨h.1, ih h.2⟩
  | _ => simpa [conjuncts] using h

theorem filterAll_spec {I d} (hd : DblOk d) : ∀ {fs : List Fml} {b : Box} {gs b'}, BoxWf b →
    (∀ f ∈ fs, ∀ v n, asBound f = some (v, n) → v ∈ b.vars) → (∀ f ∈ fs, RcOkF f) →
    filterAll d fs b = .ok (gs, b') →
    b'.vars = b.vars ∧ BoxWf b' ∧ (∀ g ∈ gs, g ∈ fs ∧ g.isRel = true) ∧
      (∀ ρ, InBox ρ b → (∀ f ∈ fs, holds I ρ f) → (∀ f ∈ fs, NoGap d ρ f) → InBox ρ b')
  | [], b, gs, b', wf, _, _, h => by
    simp only [filterAll, Outcome.ok.injEq, Prod.mk.injEq] at h
    obtain ⟨rfl, rfl⟩ := h
    exact ⟨rfl, wf, by simp, fun _ h _ _ => h⟩
  | f :: fs, b, gs, b', wf, hv, hr, h => by
    simp only [filterAll] at h
    split at h
    · rename_i hrel
      obtain ⟨⟨r, b1⟩, h1, h⟩ := bindO_ok h
      obtain ⟨⟨s, b2⟩, h2, h⟩ := bindO_ok h
      simp only [Outcome.ok.injEq, Prod.mk.injEq] at h
      obtain ⟨rfl, rfl⟩ := h
      have hfv : b1.vars = b.vars ∧ BoxWf b1 ∧
          (∀ ρ, InBox ρ b → holds I ρ f → NoGap d ρ f → InBox ρ b1) := by
        cases ha : asBound f with
        | none =>
          rcases filter_cases h1 with ⟨-, -, rfl⟩ | ⟨v, op, lo, hi, ex, h3, -⟩
          · exact ⟨rfl, wf, fun _ h _ _ => h⟩
          · rw [ha] at h3; cases h3
        | some n =>
          obtain ⟨v, op, lo, hi, ex⟩ := n
          have k := (asBound_holds (I := I) (ρ := fun _ => 0) ha).2.2.1
          have hm : v ∈ b.vars := hv f (by simp) v _ ha
          have := C20_no_loss_partial I d hd f b b1 r wf (fun w hw => by rw [k w hw]; exact hm)
            (hr f (by simp)) h1
          exact ⟨this.1, this.2.1, this.2.2.2.1⟩
      obtain ⟨e1, wf1, k1⟩ := hfv
      obtain ⟨e2, wf2, k2, k3⟩ := filterAll_spec (I := I) hd (fs := fs) wf1
        (fun g hg v n => e1 ▸ hv g (by simp [hg]) v n) (fun g hg => hr g (by simp [hg])) h2
      refine ⟨e2.trans e1, wf2, fun g hg => ?_, fun ρ hb hh hg => ?_⟩
      · split at hg
        · rcases List.mem_cons.mp hg with rfl | hg
          · exact ⟨by simp, hrel⟩
          · exact ⟨by simp [(k2 g hg).1], (k2 g hg).2⟩
        · exact ⟨by simp [(k2 g hg).1], (k2 g hg).2⟩
      · exact k3 ρ (k1 ρ hb (hh f (by simp)) (hg f (by simp))) (fun g hm => hh g (by simp [hm]))
          fun g hm => hg g (by simp [hm])
    · cases h

theorem relCons_spec : ∀ {fs : List Fml} {cs}, relCons fs = .ok cs →
    ∀ I tol ρ, (∀ c ∈ cs, NlFeasible I tol ρ c) ↔ ∀ f ∈ fs, NearHolds I tol ρ f
  | [], cs, h, I, tol, ρ => by
    simp only [relCons, Outcome.ok.injEq] at h
    subst h; simp
  | f :: fs, cs, h, I, tol, ρ => by
    simp only [relCons] at h
    obtain ⟨c, h1, h⟩ := bindO_ok h
    obtain ⟨cs', h2, h⟩ := bindO_ok h
    simp only [Outcome.ok.injEq] at h
    subst h
    have hc : NlFeasible I tol ρ c ↔ NearHolds I tol ρ f := by
      cases f with
      | rel op a b =>
        have hne : op ≠ .neq := by rintro rfl; simp [addRelational] at h1
        obtain ⟨c', e, k⟩ := addRelational_feasible hne a b
        rw [h1] at e; cases e
        rw [k, NearHolds]
      | _ => simp [addRelational] at h1
    simp only [List.mem_cons, forall_eq_or_imp, hc, relCons_spec h2]

theorem quantBox_wf {qs : List Variable} (h : qs.Nodup) : BoxWf (quantBox qs) :=
  ⟨by simp [quantBox], h⟩

theorem quantBox_in {qs : List Variable} (h : ∀ q ∈ qs, q.type = .continuous) (ρ : Valuation) :
    InBox ρ (quantBox qs) := by
  refine ⟨rfl, fun i v hi => ?_⟩
  simp only [quantBox] at hi
  obtain ⟨hl, rfl⟩ := List.getElem?_eq_some_iff.mp hi
  simp [quantBox, Box.get, hl, Box.initItv, h _ (List.getElem_mem hl), Itv.univ, InItv, below, above]

theorem relCons_positive : ∀ {fs : List Fml} {cs}, relCons fs = .ok cs →
    ∀ f ∈ fs, Positive f
  | [], _, _, f, hf => by cases hf
  | g :: fs, cs, h, f, hf => by
    simp only [relCons] at h
    obtain ⟨c, h1, h⟩ := bindO_ok h
    obtain ⟨cs', h2, h⟩ := bindO_ok h
    rcases List.mem_cons.mp hf with rfl | hf
    · cases f with
      | rel op a b =>
        simp only [Positive]
        rintro rfl; simp [addRelational] at h1
      | _ => simp [addRelational] at h1
    · exact relCons_positive h2 f hf

/-- C59, the problem given to the optimiser: whatever the values of the other variables, every
solution of the query (off the gaps next to strict bounds) is feasible, if the bounds in the query are
on quantified variables and these are real.  Missing: bounds on other variables (`C59_alias`), and
queries with a disequation, for which the refiner cannot be made (`C59_equation`). -/
theorem C59_solutions_partial (I : Interp) (d : Dbl) (hd : DblOk d) (query : Fml)
    (qs : List Variable) (p : NlProblem) (hn : qs.Nodup) (hq : ∀ q ∈ qs, q.type = .continuous)
    (hb : BoundsOn qs query) (hr : RcOkF query) (h : refinerNew d query qs = .ok (some p))
    (tol : ℝ) (ht : 0 ≤ tol) (ρ : Valuation) (hh : holds I ρ query)
    (hg : ∀ f ∈ conjuncts query, NoGap d ρ f) : NlOk I tol ρ p := by
  unfold refinerNew at h
  obtain ⟨⟨gs, b'⟩, h1, h⟩ := bindO_ok h
  simp only at h
  split at h
  · simp at h
  · obtain ⟨cs, h2, h⟩ := bindO_ok h
    simp only [Outcome.ok.injEq, Option.some.injEq] at h
    subst h
    rw [queryOps_eq] at h1
    obtain ⟨-, -, k1, k2⟩ := filterAll_spec (I := I) hd (quantBox_wf hn) hb (rcOk_conjuncts hr) h1
    have hc := holds_conjuncts.mp hh
    refine ⟨k2 ρ (quantBox_in hq ρ) hc hg, (relCons_spec h2 I tol ρ).mpr fun f hf => ?_⟩
    exact holds_near I ρ ht f (relCons_positive h2 f hf) (hc f (k1 f hf).1)

theorem filterAll_exact {I d} : ∀ {fs : List Fml} {b : Box} {gs b'}, BoxWf b →
    (∀ f ∈ fs, ∀ v n, asBound f = some (v, n) → v ∈ b.vars) → (∀ f ∈ fs, Closed f) →
    (∀ f ∈ fs, ∀ v op lo hi ex, asBound f = some (v, op, lo, hi, ex) → lo = hi ∧ hi = ex) →
    filterAll d fs b = .ok (gs, b') →
    (∀ g ∈ gs, g ∈ fs) ∧
    ∀ ρ, (InBox ρ b' ∧ ∀ g ∈ gs, holds I ρ g) ↔ InBox ρ b ∧ ∀ f ∈ fs, holds I ρ f
  | [], b, gs, b', wf, _, _, _, h => by
    simp only [filterAll, Outcome.ok.injEq, Prod.mk.injEq] at h
    obtain ⟨rfl, rfl⟩ := h
    exact ⟨by simp, by simp⟩
  | f :: fs, b, gs, b', wf, hv, hc, he, h => by
    simp only [filterAll] at h
    split at h
    · obtain ⟨⟨r, b1⟩, h1, h⟩ := bindO_ok h
      obtain ⟨⟨s, b2⟩, h2, h⟩ := bindO_ok h
      simp only [Outcome.ok.injEq, Prod.mk.injEq] at h
      obtain ⟨rfl, rfl⟩ := h
      have hfv : b1.vars = b.vars ∧ BoxWf b1 ∧
          ((r = .notFiltered ∧ b1 = b) ∨ (r ≠ .notFiltered ∧
            ∀ ρ, InBox ρ b1 ↔ InBox ρ b ∧ holds I ρ f)) := by
        rcases filter_cases h1 with ⟨-, rfl, rfl⟩ | ⟨v, op, lo, hi, ex, h3, h4⟩
        · exact ⟨rfl, wf, .inl ⟨rfl, rfl⟩⟩
        · have hm : v ∈ b.vars := hv f (by simp) v _ h3
          obtain ⟨e1, e2⟩ := he f (by simp) _ _ _ _ _ h3
          subst e1; subst e2
          have hop : op = .geq ∨ op = .leq ∨ op = .eq := by
            have := hc f (by simp)
            cases f with
            | rel o x y =>
              simp only [Spec.Closed] at this
              simp only [asBound, asRel] at h3
              split at h3
              · rename_i e
                simp only [Option.some.injEq, Prod.mk.injEq] at e
                simp only [Option.map_eq_some_iff, Prod.mk.injEq] at h3
                obtain ⟨_, -, -, h3, -⟩ := h3
                rw [← h3, ← e.1]; tauto
              · rename_i e
                simp only [Option.some.injEq, Prod.mk.injEq] at e
                simp only [Option.map_eq_some_iff, Prod.mk.injEq] at h3
                obtain ⟨_, -, -, h3, -⟩ := h3
                rw [← h3, ← e.1]
                rcases this with rfl | rfl | rfl <;> simp [flipRel]
              · cases h3
            | conj _ => simp [asBound, asRel] at h3
            | _ => cases this
          have k := C20_nonstrict_exact I d f b b1 r v op _ wf hm h3 hop h1
          obtain ⟨a1, -, -⟩ := acts_ok wf hm h4
          exact ⟨a1.shape.1, ⟨by rw [a1.shape.2, a1.shape.1]; exact wf.1, by rw [a1.shape.1]; exact wf.2⟩,
            .inr ⟨k.1, k.2.2⟩⟩
      obtain ⟨e1, wf1, k1⟩ := hfv
      obtain ⟨k2, k3⟩ := filterAll_exact (I := I) (fs := fs) wf1
        (fun g hg v n => e1 ▸ hv g (by simp [hg]) v n) (fun g hg => hc g (by simp [hg]))
        (fun g hg => he g (by simp [hg])) h2
      rcases k1 with ⟨rfl, rfl⟩ | ⟨hne, k1⟩
      · simp only [if_true, List.mem_cons, forall_eq_or_imp]
        refine ⟨⟨.inl trivial, fun g hg => .inr (k2 g hg)⟩, fun ρ => ?_⟩
        rw [and_left_comm, k3]
        tauto
      · simp only [hne, if_false]
        refine ⟨fun g hg => by simp [k2 g hg], fun ρ => ?_⟩
        rw [k3, k1]
        simp only [List.mem_cons, forall_eq_or_imp]
        tauto
    · cases h

theorem closed_conjuncts {f : Fml} (h : Closed f) : ∀ g ∈ conjuncts f, Closed g := by
  cases f with
  | conj fs =>
    rw [Spec.Closed] at h
    simp only [conjuncts]
    induction fs with
    | nil => simp
    | cons a l ih =>
      simp only [ClosedAll] at h
      simp only [List.mem_cons, forall_eq_or_imp]
      exact ⟨h.1, ih h.2⟩
  | _ => simpa [conjuncts] using h

/-- C59, the problem given to the optimiser, without strict relations and tolerance and for doubles in
bounds: exactly the solutions of the query are feasible.  Missing: as for
`C59_solutions_partial`. -/
theorem C59_exact_partial (I : Interp) (d : Dbl) (query : Fml) (qs : List Variable) (p : NlProblem)
    (hn : qs.Nodup) (hq : ∀ q ∈ qs, q.type = .continuous) (hb : BoundsOn qs query)
    (hc : Closed query) (he : ExactBounds query) (h : refinerNew d query qs = .ok (some p))
    (ρ : Valuation) : NlOk I 0 ρ p ↔ holds I ρ query := by
  unfold refinerNew at h
  obtain ⟨⟨gs, b'⟩, h1, h⟩ := bindO_ok h
  simp only at h
  split at h
  · simp at h
  · obtain ⟨cs, h2, h⟩ := bindO_ok h
    simp only [Outcome.ok.injEq, Option.some.injEq] at h
    subst h
    rw [queryOps_eq] at h1
    obtain ⟨k1, k2⟩ := filterAll_exact (I := I) (quantBox_wf hn) hb (closed_conjuncts hc) he h1
    have : (∀ f ∈ gs, NearHolds I 0 ρ f) ↔ ∀ f ∈ gs, holds I ρ f :=
      forall₂_congr fun f hf => near_zero I ρ f (closed_conjuncts hc f (k1 f hf))
    rw [NlOk, relCons_spec h2, this, k2, holds_conjuncts]
    exact ⟨fun h => h.2, fun h => ⟨quantBox_in hq ρ, h⟩⟩

theorem objTerm_slack {I ρ qs f e} (h : objTerm qs f = some e) : eval I ρ e = - slack I ρ f := by
  cases f with
  | rel op a b =>
    simp only [objTerm] at h
    split at h
    · cases h
    · cases op <;> simp only [Option.some.injEq, reduceCtorEq] at h <;> subst h <;>
        simp [eval_sub, slack]
  | _ => simp [objTerm] at h

theorem foldl_add_eval {I ρ} : ∀ (es : List Expr) (e : Expr),
    eval I ρ (es.foldl .add e) = eval I ρ e + (es.map (eval I ρ)).sum
  | [], e => by simp
  | a :: es, e => by
    rw [List.foldl_cons, foldl_add_eval es]
    simp [eval]
    ring

/-- C59, the objective: the less it is, the more the inequalities that also mention other variables
are satisfied in total. -/
theorem C59_objective (I : Interp) (d : Dbl) (query : Fml) (qs : List Variable) (p : NlProblem)
    (o : Expr) (h : refinerNew d query qs = .ok (some p)) (ho : p.obj = some o) :
    ∃ fs : List Fml, fs ≠ [] ∧
      (∀ f ∈ fs, f ∈ conjuncts query ∧ ∃ v ∈ f.fv, v ∉ qs) ∧
      ∀ ρ, eval I ρ o = - (fs.map (slack I ρ)).sum := by
  unfold refinerNew at h
  obtain ⟨⟨gs, b'⟩, h1, h⟩ := bindO_ok h
  simp only at h
  split at h
  · simp at h
  · obtain ⟨cs, h2, h⟩ := bindO_ok h
    simp only [Outcome.ok.injEq, Option.some.injEq] at h
    subst h
    rw [queryOps_eq] at h1
    have hsub : ∀ {fs : List Fml} {b gs b'}, filterAll d fs b = .ok (gs, b') → ∀ g ∈ gs, g ∈ fs := by
      intro fs
      induction fs with
      | nil =>
        intro b gs b' h g hg
        simp only [filterAll, Outcome.ok.injEq, Prod.mk.injEq] at h
        rw [← h.1] at hg; exact hg
      | cons f fs ih =>
        intro b gs b' h g hg
        simp only [filterAll] at h
        split at h
        · obtain ⟨r, -, h⟩ := bindO_ok h
          obtain ⟨⟨s, b2⟩, h2, h⟩ := bindO_ok h
          simp only [Outcome.ok.injEq, Prod.mk.injEq] at h
          rw [← h.1] at hg
          split at hg
          · rcases List.mem_cons.mp hg with rfl | hg
            · simp
            · simp [ih h2 g hg]
          · simp [ih h2 g hg]
        · cases h
    refine ⟨gs.filter fun f => (objTerm qs f).isSome, ?_, ?_, fun ρ => ?_⟩
    · intro e
      have : gs.filterMap (objTerm qs) = [] := by
        rw [List.filterMap_eq_nil_iff]
        intro f hf
        have := List.filter_eq_nil_iff.mp e f hf
        simpa using this
      simp [objective, this] at ho
    · intro f hf
      obtain ⟨hf, hs⟩ := List.mem_filter.mp hf
      refine ⟨hsub h1 f hf, ?_⟩
      cases f with
      | rel op a b =>
        simp only [objTerm] at hs
        split at hs
        · cases hs
        · rename_i hne
          simpa using hne
      | _ => simp [objTerm] at hs
    · have hsum : ∀ l : List Fml, ((l.filterMap (objTerm qs)).map (eval I ρ)).sum =
          - ((l.filter fun f => (objTerm qs f).isSome).map (slack I ρ)).sum := by
        intro l
        induction l with
        | nil => simp
        | cons f l ih =>
          cases hf : objTerm qs f with
          | none => simp [hf, ih]
          | some e =>
            simp [hf, ih, objTerm_slack (ρ := ρ) (I := I) hf]
            ring
      have hs := hsum gs
      simp only [objective] at ho
      split at ho
      · cases ho
      · rename_i e es heq
        simp only [Option.some.injEq] at ho
        rw [← ho, foldl_add_eval, ← hs, heq]
        simp

theorem movePoint_spec {us : List Variable} : ∀ {qs : List Variable} {xs : List EQ} {b b' : Box},
    (∀ y ∈ xs, ∃ q, y = .fin q) → BoxWf b → b.vars = us → b.bot = false → qs.Nodup →
    movePoint qs xs b = .ok b' →
    b'.vars = us ∧ BoxWf b' ∧ b'.bot = false ∧ (∀ v ∈ us, v ∉ qs → b'.getV v = b.getV v) ∧
      ∀ q ∈ qs, ∃ x, b'.getV q = Itv.point x
  | [], xs, b, b', _, wf, hv, hb, _, h => by
    simp only [movePoint, Outcome.ok.injEq] at h
    subst h
    exact ⟨hv, wf, hb, fun _ _ _ => rfl, by simp⟩
  | q :: qs, [], b, b', _, _, _, _, _, h => by simp [movePoint] at h
  | q :: qs, x :: xs, b, b', hx, wf, hv, hb, hn, h => by
    simp only [movePoint] at h
    split at h
    · rename_i hq
      obtain ⟨r, rfl⟩ := hx x (by simp)
      have hp : (pointOf (.fin r)).isEmpty = false := by
        simp [pointOf, Itv.point, Itv.isEmpty]
      have e : (if b.index q = 0 then (pointOf (.fin r)).isEmpty else b.bot) = false := by
        rw [hp, hb]; split <;> rfl
      rw [e] at h
      have wf1 : BoxWf { b.setV q (pointOf (.fin r)) with bot := false } := by
        have := set_wf (i := b.index q) (iv := pointOf (.fin r)) wf
        exact this
      obtain ⟨k1, k2, k3, k4, k5⟩ := movePoint_spec (us := us) (qs := qs) (xs := xs)
        (fun y hy => hx y (by simp [hy])) wf1 hv rfl (List.nodup_cons.mp hn).2 h
      have hget : ∀ v ∈ us, v ≠ q →
          ({ b.setV q (pointOf (.fin r)) with bot := false } : Box).getV v = b.getV v := by
        intro v hv' hne
        show ((b.set (b.index q) (pointOf (.fin r))).vals.getD _ Itv.univ) = _
        have hi : b.index q ≠ b.index v := by
          intro e
          have h1 := (index_of_mem (b := b) hq).2
          have h2 := (index_of_mem (b := b) (v := v) (by rw [hv]; exact hv')).2
          rw [e, h2] at h1
          exact hne (Option.some.inj h1)
        exact get_set_ne hi
      refine ⟨k1, k2, k3, fun v hv' hnv => ?_, fun w hw => ?_⟩
      · simp only [List.mem_cons, not_or] at hnv
        rw [k4 v hv' hnv.2, hget v hv' hnv.1]
      · rcases List.mem_cons.mp hw with rfl | hw
        · refine ⟨r, ?_⟩
          rw [k4 w (by rw [← hv]; exact hq) (List.nodup_cons.mp hn).1]
          exact setV_getV wf hq
        · exact k5 w hw
    · cases h

/-- C59, the counterexample: refining keeps the variables of the box and the intervals of those that
are not quantified; it leaves the box as it is or gives every quantified variable a single value. -/
theorem C59_refined (fp : Fp)
    (opt : NlProblem → List (Variable × ℚ) → List ℚ → Option (List EQ)) (ho : FiniteOpt opt)
    (qs : List Variable) (hn : qs.Nodup) (p : Option NlProblem) (b b' : Box) (hw : BoxWf b)
    (hb : b.bot = false) (h : refineBox fp opt qs p b = .ok b') :
    b'.vars = b.vars ∧ BoxWf b' ∧ b'.bot = false ∧
      (∀ v ∈ b.vars, v ∉ qs → b'.getV v = b.getV v) ∧
      (b' = b ∨ ∀ q ∈ qs, ∃ x, b'.getV q = Itv.point x) := by
  unfold refineBox at h
  split at h
  · simp only [Outcome.ok.injEq] at h
    subst h
    exact ⟨rfl, hw, hb, fun _ _ _ => rfl, .inl rfl⟩
  · simp only at h
    split at h
    · simp only [Outcome.ok.injEq] at h
      subst h
      exact ⟨rfl, hw, hb, fun _ _ _ => rfl, .inl rfl⟩
    · rename_i x hx
      obtain ⟨k1, k2, k3, k4, k5⟩ := movePoint_spec (ho _ _ _ _ hx) hw rfl hb hn h
      exact ⟨k1, k2, k3, k4, .inr k5⟩

/-- What C35 and C27 assume of the refiner holds for the one of the code. -/
theorem C59_refiner (cfg : CCfg) (fp : Fp) (ε : ℚ)
    (opt : NlProblem → List (Variable × ℚ) → List ℚ → Option (List EQ)) (ho : FiniteOpt opt)
    (vs qs : List Variable) (g : Fml) :
    RefineOk (vs ++ qs) (ctcRefine cfg fp ε opt (.all qs g)) := by
  intro ce ce' h hv hw hb
  simp only [ctcRefine] at h
  obtain ⟨n, -, h⟩ := bindR_ok h
  obtain ⟨p, -, h⟩ := bindR_ok h
  have hn : qs.Nodup := (List.nodup_append.mp (hv ▸ hw.2)).2.1
  obtain ⟨k1, k2, k3, -⟩ := C59_refined fp opt ho qs hn p ce ce' hw hb (lift_ok h)
  exact ⟨k1.trans hv, k2, k3⟩

/-- C35 with the refiner of the code: pruning with refined counterexamples keeps all solutions of the
quantified constraint. -/
theorem C59_prune_partial {D : Dom} {I : Interp} {ib : Ibex} {fp : Fp} {fuel : Nat} {up : Bool}
    {cfg : CCfg} {ε : ℚ} {opt : NlProblem → List (Variable × ℚ) → List ℚ → Option (List EQ)}
    {st st' : Ctx × Bool} {vs qs : List Variable} {g : Fml} {b b' : Box} {out : List Nat}
    (ok : IbexSound D I ib) (he : EnvOk D I cfg.env) (hq : ∀ q ∈ qs, q.type = .continuous)
    (ho : FiniteOpt opt) (hi : Searched cfg (ctcRefine cfg fp ε opt (.all qs g)) vs qs g st)
    (hw : BoxWf b) (hv : b.vars = vs)
    (h : forallPrune ib fp fuel up (ctcFind cfg (ctcRefine cfg fp ε opt (.all qs g))) st vs
      (.all qs g) b = .ok (b', out, st')) :
    SubBox b' b ∧ ∀ ρ, InBox ρ b → RcOkF g → DefF D I ρ (.all qs g) → holds I ρ (.all qs g) →
      InBox ρ b' :=
  let k := C35_context_partial ok he hq (C59_refiner cfg fp ε opt ho vs qs g) hi hw hv h
  ⟨k.2.2.1, k.2.2.2.2⟩

/-! ### Concrete cases -/

/-- `x > 1 or x·y < 2`. -/
def mixClause : Fml :=
  .disj [.rel .gt (.var varX) (.const 1), .rel .lt (.mul (.var varX) (.var varY)) (.const 2)]

/-- The query for a counterexample to `forall y. x > 1 or x·y < 2`, strengthened by 1/8. -/
def mixQuery : Fml := .conj [.rel .leq (.var varX) (.const (7 / 8)),
  .rel .geq (.add (.mul (.var varX) (.var varY)) (.const (-(1 / 8)))) (.const 2)]

/-- The query of a `ContractorForall` (`dreal/contractor/contractor_forall.h:79-80`). -/
def queryOf (ε : ℚ) (g : Fml) : Option Fml :=
  match deltaStrengthen id ε (notF g) with
  | .ok n => some (nnf true n)
  | _ => none

theorem mixQuery_made : queryOf (1 / 8) mixClause = some mixQuery := by decide +kernel

/-- The bounds given to the optimiser for this query: `y ≤ 7/8`. -/
def mixProblem : NlProblem :=
  { box := ⟨[varY], [⟨.ninf, .fin (7 / 8)⟩], false⟩
    cons := [.le ((Expr.const 2).sub (.add (.mul (.var varX) (.var varY)) (.const (-(1 / 8)))))]
    obj := some ((Expr.const 2).sub (.add (.mul (.var varX) (.var varY)) (.const (-(1 / 8))))) }

theorem mix_made : refinerNew quarterDbl mixQuery [varY] = .ok (some mixProblem) := by
  rfl

/-- A bound on a variable that is not quantified is put on the first quantified variable: for
`forall y. x > 1 or x·y < 2` the optimiser is told `y ≤ 7/8` instead of `x ≤ 7/8`.  Points that do not
violate the formula are feasible, and points that do are not. -/
theorem C59_alias (I : Interp) : queryOf (1 / 8) mixClause = some mixQuery ∧
    refinerNew quarterDbl mixQuery [varY] = .ok (some mixProblem) ∧
    (∃ ρ, NlOk I 0 ρ mixProblem ∧ holds I ρ mixClause ∧ ¬ holds I ρ mixQuery) ∧
    ∃ ρ, holds I ρ mixQuery ∧ ¬ holds I ρ mixClause ∧ ¬ NlOk I 1 ρ mixProblem := by
  refine ⟨mixQuery_made, mix_made, ⟨fun v => if v = varX then 10 else 1 / 2, ⟨⟨rfl, fun i v h => ?_⟩, ?_⟩, ?_, ?_⟩,
    fun v => if v = varX then 1 / 2 else 10, ?_, ?_, ?_⟩
  · match i, h with
    | 0, h =>
      simp only [mixProblem, List.getElem?_cons_zero, Option.some.injEq] at h
      subst h
      refine ⟨trivial, ?_⟩
      simp only [mixProblem, Box.get, List.getD_cons_zero, above]
      rw [if_neg (by decide)]
      norm_num
    | i + 1, h => simp [mixProblem] at h
  · simp only [mixProblem, List.mem_singleton, forall_eq, NlFeasible, eval_sub, eval]
    rw [if_neg (show ¬ varY = varX by decide)]
    norm_num
  · simp only [mixClause, holds, holdsAny, relSem, eval, if_true]
    left; norm_num
  · simp only [mixQuery, holds, holdsAll, relSem, eval, if_true]
    norm_num
  · simp only [mixQuery, holds, holdsAll, relSem, eval, if_true]
    rw [if_neg (show ¬ varY = varX by decide)]
    norm_num
  · simp only [mixClause, holds, holdsAny, relSem, eval, if_true]
    rw [if_neg (show ¬ varY = varX by decide)]
    norm_num
  · rintro ⟨h, -⟩
    have := (h.2 0 varY rfl).2
    simp only [mixProblem, Box.get, List.getD_cons_zero, above] at this
    rw [if_neg (show ¬ varY = varX by decide)] at this
    norm_num at this

/-- For a formula with an equation, such as `forall y. x·y = 2`, the query has a disjunction: the
constructor of the refiner fails its assertion. -/
theorem C59_equation : ∃ n,
    queryOf (1 / 8) (.rel .eq (.mul (.var varX) (.var varY)) (.const 2)) = some n ∧
    refinerNew quarterDbl n [varY] = .ub := by
  have h : (queryOf (1 / 8) (.rel .eq (.mul (.var varX) (.var varY)) (.const 2))).map Fml.isDisj =
      some true := by decide +kernel
  cases hn : queryOf (1 / 8) (.rel .eq (.mul (.var varX) (.var varY)) (.const 2)) with
  | none => rw [hn] at h; cases h
  | some n =>
    rw [hn] at h
    refine ⟨n, rfl, ?_⟩
    cases n with
    | disj fs => rfl
    | _ => cases h

/-- `y ≥ 0 ∧ y ≤ 1 ∧ x·y ≥ 2`. -/
def unitQuery : Fml := .conj [.rel .geq (.var varY) (.const 0), .rel .leq (.var varY) (.const 1),
  .rel .geq (.mul (.var varX) (.var varY)) (.const 2)]

def unitProblem : NlProblem :=
  { box := ⟨[varY], [⟨.fin 0, .fin 1⟩], false⟩
    cons := [.le ((Expr.const 2).sub (.mul (.var varX) (.var varY)))]
    obj := some ((Expr.const 2).sub (.mul (.var varX) (.var varY))) }

/-- The hypotheses of the theorems are met by `y ≥ 0 ∧ y ≤ 1 ∧ x·y ≥ 2`, where `y` is quantified. -/
example (I : Interp) : DblOk quarterDbl ∧ [varY].Nodup ∧ (∀ q ∈ [varY], q.type = .continuous) ∧
    BoundsOn [varY] unitQuery ∧ RcOkF unitQuery ∧ Spec.Closed unitQuery ∧ ExactBounds unitQuery ∧
    refinerNew quarterDbl unitQuery [varY] = .ok (some unitProblem) ∧
    (∃ ρ, holds I ρ unitQuery ∧ ∀ f ∈ conjuncts unitQuery, NoGap quarterDbl ρ f) ∧
    ∃ o, unitProblem.obj = some o := by
  refine ⟨quarterDbl_ok, by decide, by decide, ?_, ?_, ?_, ?_, rfl, ⟨fun v => if v = varX then 3 else 1,
    ?_, ?_⟩, _, rfl⟩
  · simp [BoundsOn, conjuncts, unitQuery, asBound, asRel, asNum, varX, varY]
    aesop
  · simp [unitQuery, RcOkF, RcOkFs, RcOkE]
  · simp [unitQuery, Spec.Closed, ClosedAll]
  · simp [ExactBounds, conjuncts, unitQuery, asBound, asRel, asNum]
    aesop
  · simp only [unitQuery, holds, holdsAll, relSem, eval, if_true]
    rw [if_neg (show ¬ varY = varX by decide)]
    norm_num
  · simp only [conjuncts, unitQuery, List.mem_cons, List.not_mem_nil, or_false, forall_eq_or_imp,
      forall_eq]
    simp [NoGap, asBound, asRel, asNum]
    aesop

/-- An optimiser that moves to 1. -/
def oneOpt (_ : NlProblem) (_ : List (Variable × ℚ)) (_ : List ℚ) : Option (List EQ) := some [.fin 1]

/-- The counterexample `x ∈ [2, 3]`, `y ∈ [1/2, 1]` is refined to `y = 1`. -/
example : FiniteOpt oneOpt ∧
    refineBox exactFp oneOpt [varY] (some unitProblem)
      ⟨[varX, varY], [⟨.fin 2, .fin 3⟩, ⟨.fin (1 / 2), .fin 1⟩], false⟩ =
    .ok ⟨[varX, varY], [⟨.fin 2, .fin 3⟩, ⟨.fin 1, .fin 1⟩], false⟩ := by
  refine ⟨fun p e i x h y hy => ?_, by decide +kernel⟩
  simp only [oneOpt, Option.some.injEq] at h
  subst h
  exact ⟨1, by simpa using hy⟩

end Verif.Props
