import Verif.Spec.Sem
import Mathlib.Tactic.Linarith
import Mathlib.Tactic.Ring
import Mathlib.Tactic.Tauto
import Mathlib.Tactic.Push
import Mathlib.Tactic.ByContra
import Mathlib.Algebra.Order.Archimedean.Real.Basic

/-! Helper lemmas about the semantics and the smart constructors. -/

namespace Verif.Proof
open Verif.Model Verif.Spec

theorem holdsAll_iff {I : Interp} {ρ : Valuation} {fs : List Fml} :
    holdsAll I ρ fs ↔ ∀ f ∈ fs, holds I ρ f := by
  induction fs with
  | nil => simp [holdsAll]
  | cons f fs ih => simp [holdsAll, ih]

theorem holdsAny_iff {I : Interp} {ρ : Valuation} {fs : List Fml} :
    holdsAny I ρ fs ↔ ∃ f ∈ fs, holds I ρ f := by
  induction fs with
  | nil => simp [holdsAny]
  | cons f fs ih => simp [holdsAny, ih]

@[simp] theorem holds_ff {I ρ} : holds I ρ .ff ↔ False := by simp [holds]
@[simp] theorem holds_tt {I ρ} : holds I ρ .tt ↔ True := by simp [holds]
@[simp] theorem holds_bvar {I ρ v} : holds I ρ (.bvar v) ↔ ρ v = 1 := by simp [holds]
@[simp] theorem holds_rel {I ρ op a b} :
    holds I ρ (.rel op a b) ↔ relSem op (eval I ρ a) (eval I ρ b) := by simp [holds]
@[simp] theorem holds_neg {I ρ f} : holds I ρ (.neg f) ↔ ¬ holds I ρ f := by simp [holds]
@[simp] theorem holds_conj {I ρ fs} : holds I ρ (.conj fs) ↔ ∀ f ∈ fs, holds I ρ f := by
  simp [holds, holdsAll_iff]
@[simp] theorem holds_disj {I ρ fs} : holds I ρ (.disj fs) ↔ ∃ f ∈ fs, holds I ρ f := by
  simp [holds, holdsAny_iff]
theorem holds_all {I ρ vs f} : holds I ρ (.all vs f) ↔
    ∀ ρ' : Valuation, (∀ v, v ∉ vs → ρ' v = ρ v) →
      (∀ v ∈ vs, typeOk v.type (ρ' v)) → holds I ρ' f := by simp [holds]

/-! ### Coincidence -/

mutual
theorem eval_congr (I : Interp) (e : Expr) (ρ ρ' : Valuation)
    (h : ∀ v ∈ e.vars, ρ v = ρ' v) : eval I ρ e = eval I ρ' e := by
  cases e with
  | const q => simp [eval]
  | rconst r => simp [eval]
  | var v => simpa [eval, Expr.vars] using h
  | add a b =>
    simp only [Expr.vars, List.mem_append] at h
    simp only [eval]
    rw [eval_congr I a ρ ρ' (fun v hv => h v (Or.inl hv)),
      eval_congr I b ρ ρ' (fun v hv => h v (Or.inr hv))]
  | mul a b =>
    simp only [Expr.vars, List.mem_append] at h
    simp only [eval]
    rw [eval_congr I a ρ ρ' (fun v hv => h v (Or.inl hv)),
      eval_congr I b ρ ρ' (fun v hv => h v (Or.inr hv))]
  | app1 f a =>
    simp only [Expr.vars] at h
    simp only [eval]
    rw [eval_congr I a ρ ρ' h]
  | app2 f a b =>
    simp only [Expr.vars, List.mem_append] at h
    simp only [eval]
    rw [eval_congr I a ρ ρ' (fun v hv => h v (Or.inl hv)),
      eval_congr I b ρ ρ' (fun v hv => h v (Or.inr hv))]
  | ite c a b =>
    simp only [Expr.vars, List.mem_append] at h
    simp only [eval]
    have hc := holds_congr I c ρ ρ' (fun v hv => h v (Or.inl hv))
    rw [eval_congr I a ρ ρ' (fun v hv => h v (Or.inr (Or.inl hv))),
      eval_congr I b ρ ρ' (fun v hv => h v (Or.inr (Or.inr hv)))]
    by_cases hh : holds I ρ c
    · rw [if_pos hh, if_pos (hc.mp hh)]
    · rw [if_neg hh, if_neg (fun h' => hh (hc.mpr h'))]
theorem holds_congr (I : Interp) (f : Fml) (ρ ρ' : Valuation)
    (h : ∀ v ∈ f.fv, ρ v = ρ' v) : holds I ρ f ↔ holds I ρ' f := by
  cases f with
  | ff => simp
  | tt => simp
  | bvar v => simp [Fml.fv] at h; simp [h]
  | rel op a b =>
    simp only [Fml.fv, List.mem_append] at h
    simp only [holds_rel]
    rw [eval_congr I a ρ ρ' (fun v hv => h v (Or.inl hv)),
      eval_congr I b ρ ρ' (fun v hv => h v (Or.inr hv))]
  | conj fs =>
    simp only [holds]
    exact (holdsList_congr I fs ρ ρ' h).1
  | disj fs =>
    simp only [holds]
    exact (holdsList_congr I fs ρ ρ' h).2
  | neg f =>
    simp only [holds_neg]
    rw [holds_congr I f ρ ρ' h]
  | all vs f =>
    simp only [Fml.fv, List.mem_filter, decide_eq_true_eq] at h
    simp only [holds_all]
    constructor
    · intro H σ hσ ht
      rw [holds_congr I f σ (fun v => if v ∈ vs then σ v else ρ v)]
      · refine H _ (fun v hv => by simp [hv]) (fun v hv => by simpa [hv] using ht v hv)
      · intro v hv
        by_cases hvs : v ∈ vs
        · simp [hvs]
        · simp only [hvs, if_false]; rw [hσ v hvs, h v ⟨hv, hvs⟩]
    · intro H σ hσ ht
      rw [holds_congr I f σ (fun v => if v ∈ vs then σ v else ρ' v)]
      · refine H _ (fun v hv => by simp [hv]) (fun v hv => by simpa [hv] using ht v hv)
      · intro v hv
        by_cases hvs : v ∈ vs
        · simp [hvs]
        · simp only [hvs, if_false]; rw [hσ v hvs, h v ⟨hv, hvs⟩]
theorem holdsList_congr (I : Interp) (fs : List Fml) (ρ ρ' : Valuation)
    (h : ∀ v ∈ Fml.fvList fs, ρ v = ρ' v) :
    (holdsAll I ρ fs ↔ holdsAll I ρ' fs) ∧ (holdsAny I ρ fs ↔ holdsAny I ρ' fs) := by
  cases fs with
  | nil => simp [holdsAll, holdsAny]
  | cons f fs =>
    simp only [Fml.fvList, List.mem_append] at h
    simp only [holdsAll, holdsAny]
    rw [holds_congr I f ρ ρ' (fun v hv => h v (Or.inl hv)),
      (holdsList_congr I fs ρ ρ' (fun v hv => h v (Or.inr hv))).1,
      (holdsList_congr I fs ρ ρ' (fun v hv => h v (Or.inr hv))).2]
    exact ⟨Iff.rfl, Iff.rfl⟩
end

/-! ### Smart constructors -/

theorem mem_insertF {f g : Fml} {s : List Fml} : g ∈ insertF f s ↔ g = f ∨ g ∈ s := by
  unfold insertF
  split
  · constructor
    · exact Or.inr
    · rintro (rfl | h) <;> assumption
  · simp [or_comm]

theorem mem_foldl_insertF {g : Fml} {gs s : List Fml} :
    g ∈ gs.foldl (fun s g => insertF g s) s ↔ g ∈ gs ∨ g ∈ s := by
  induction gs generalizing s with
  | nil => simp
  | cons h gs ih => simp only [List.foldl_cons, ih, mem_insertF, List.mem_cons]; tauto

theorem holds_mergeConj {I ρ f s} :
    (∀ g ∈ mergeConj f s, holds I ρ g) ↔ holds I ρ f ∧ ∀ g ∈ s, holds I ρ g := by
  unfold mergeConj
  split
  · simp only [mem_foldl_insertF, holds_conj]
    constructor
    · intro h; exact ⟨fun g hg => h g (Or.inl hg), fun g hg => h g (Or.inr hg)⟩
    · rintro ⟨h1, h2⟩ g (hg | hg); exacts [h1 g hg, h2 g hg]
  · simp only [mem_insertF]
    constructor
    · intro h; exact ⟨h _ (Or.inl rfl), fun g hg => h g (Or.inr hg)⟩
    · rintro ⟨h1, h2⟩ g (rfl | hg); exacts [h1, h2 g hg]

theorem holds_mergeDisj {I ρ f s} :
    (∃ g ∈ mergeDisj f s, holds I ρ g) ↔ holds I ρ f ∨ ∃ g ∈ s, holds I ρ g := by
  unfold mergeDisj
  split
  · simp only [mem_foldl_insertF, holds_disj]
    constructor
    · rintro ⟨g, hg | hg, h⟩
      exacts [Or.inl ⟨g, hg, h⟩, Or.inr ⟨g, hg, h⟩]
    · rintro (⟨g, hg, h⟩ | ⟨g, hg, h⟩)
      exacts [⟨g, Or.inl hg, h⟩, ⟨g, Or.inr hg, h⟩]
  · simp only [mem_insertF]
    constructor
    · rintro ⟨g, rfl | hg, h⟩
      exacts [Or.inl h, Or.inr ⟨g, hg, h⟩]
    · rintro (h | ⟨g, hg, h⟩)
      exacts [⟨_, Or.inl rfl, h⟩, ⟨g, Or.inr hg, h⟩]

@[simp] theorem holds_andF {I ρ f g} : holds I ρ (andF f g) ↔ holds I ρ f ∧ holds I ρ g := by
  unfold andF
  split_ifs with h1 h2 h3 h4 h5
  · subst h1; simp
  · subst h2; simp
  · subst h3; simp
  · subst h4; simp
  · subst h5; simp
  · split
    · rw [holds_conj, holds_mergeConj, holds_conj]; tauto
    · rw [holds_conj, holds_mergeConj, holds_conj]
    · simp only [holds_conj, mem_insertF, List.not_mem_nil, or_false]
      constructor
      · intro h; exact ⟨h _ (Or.inr rfl), h _ (Or.inl rfl)⟩
      · rintro ⟨h, h'⟩ x (rfl | rfl) <;> assumption

@[simp] theorem holds_orF {I ρ f g} : holds I ρ (orF f g) ↔ holds I ρ f ∨ holds I ρ g := by
  unfold orF
  split_ifs with h1 h2 h3 h4 h5
  · subst h1; simp
  · subst h2; simp
  · subst h3; simp
  · subst h4; simp
  · subst h5; simp
  · split
    · rw [holds_disj, holds_mergeDisj, holds_disj, or_comm]
    · rw [holds_disj, holds_mergeDisj, holds_disj]
    · simp only [holds_disj, mem_insertF, List.not_mem_nil, or_false]
      constructor
      · rintro ⟨x, rfl | rfl, h⟩
        exacts [Or.inr h, Or.inl h]
      · rintro (h | h)
        exacts [⟨_, Or.inr rfl, h⟩, ⟨_, Or.inl rfl, h⟩]

@[simp] theorem holds_notF {I ρ f} : holds I ρ (notF f) ↔ ¬ holds I ρ f := by
  unfold notF
  split_ifs with h1 h2
  · subst h1; simp
  · subst h2; simp
  · split <;> simp

theorem conjLoop_holds {I ρ} (fs ops : List Fml) :
    (match conjLoop fs ops with
      | none => False
      | some l => ∀ g ∈ l, holds I ρ g) ↔
    (∀ g ∈ fs, holds I ρ g) ∧ ∀ g ∈ ops, holds I ρ g := by
  induction fs generalizing ops with
  | nil => simp [conjLoop]
  | cons f fs ih =>
    unfold conjLoop
    split_ifs with h1 h2
    · subst h1; simp
    · subst h2; rw [ih]; simp
    · rw [ih, holds_mergeConj]; simp only [List.mem_cons, forall_eq_or_imp]; tauto

@[simp] theorem holds_mkConj {I ρ fs} :
    holds I ρ (mkConj fs) ↔ ∀ f ∈ fs, holds I ρ f := by
  have := conjLoop_holds (I := I) (ρ := ρ) fs []
  unfold mkConj
  split at this
  · rename_i h; rw [h]; simp at this ⊢
    obtain ⟨x, hx, h'⟩ := this
    exact ⟨x, hx, h'⟩
  · rename_i l h; rw [h]
    simp only [List.not_mem_nil, false_imp_iff, implies_true, and_true] at this
    rw [← this]
    match l with
    | [] => simp
    | [a] => simp
    | a :: b :: l => simp

theorem disjLoop_holds {I ρ} (fs ops : List Fml) :
    (match disjLoop fs ops with
      | none => True
      | some l => ∃ g ∈ l, holds I ρ g) ↔
    (∃ g ∈ fs, holds I ρ g) ∨ ∃ g ∈ ops, holds I ρ g := by
  induction fs generalizing ops with
  | nil => simp [disjLoop]
  | cons f fs ih =>
    unfold disjLoop
    split_ifs with h1 h2
    · subst h1; simp
    · subst h2; rw [ih]; simp
    · rw [ih, holds_mergeDisj]; simp only [List.mem_cons, exists_eq_or_imp]; rw [or_left_comm, or_assoc]

@[simp] theorem holds_mkDisj {I ρ fs} :
    holds I ρ (mkDisj fs) ↔ ∃ f ∈ fs, holds I ρ f := by
  have := disjLoop_holds (I := I) (ρ := ρ) fs []
  unfold mkDisj
  split at this
  · rename_i h; rw [h]; simp at this ⊢
    exact this
  · rename_i l h; rw [h]
    simp only [List.not_mem_nil, false_and, exists_false, or_false] at this
    rw [← this]
    match l with
    | [] => simp
    | [a] => simp
    | a :: b :: l => simp

@[simp] theorem holds_implyF {I ρ f g} :
    holds I ρ (implyF f g) ↔ (holds I ρ f → holds I ρ g) := by
  simp only [implyF, holds_orF, holds_notF]; tauto

@[simp] theorem holds_iffF {I ρ f g} :
    holds I ρ (iffF f g) ↔ (holds I ρ f ↔ holds I ρ g) := by
  simp only [iffF, holds_andF, holds_implyF]; tauto

@[simp] theorem holds_eqF {I ρ f g} :
    holds I ρ (eqF f g) ↔ (holds I ρ f ↔ holds I ρ g) := by
  simp only [eqF, holds_andF, holds_orF, holds_notF]; tauto

@[simp] theorem holds_forallF {I ρ vs f} :
    holds I ρ (forallF vs f) ↔ holds I ρ (.all vs f) := by
  unfold forallF
  simp only [holds_all, List.mem_filter, decide_eq_true_eq]
  constructor
  · intro H σ hσ ht
    rw [holds_congr I f σ (fun v => if v ∈ vs ∧ v ∈ f.fv then σ v else ρ v)]
    · exact H _ (fun v hv => by simp [hv]) (fun v hv => by simpa [hv] using ht v hv.1)
    · intro v hv
      by_cases hvs : v ∈ vs
      · simp [hvs, hv]
      · simp [hvs, hσ v hvs]
  · intro H σ hσ ht
    rw [holds_congr I f σ (fun v => if v ∈ f.fv then σ v else
      if v ∈ vs then 0 else ρ v)]
    · refine H _ (fun v hv => ?_) (fun v hv => ?_)
      · by_cases hf : v ∈ f.fv
        · simp only [hf, if_true]; exact hσ v (fun h => hv h.1)
        · simp [hf, hv]
      · by_cases hf : v ∈ f.fv
        · simpa [hf] using ht v ⟨hv, hf⟩
        · simp only [hf, if_false, hv, if_true]
          cases v.type <;> simp [typeOk]
          exact ⟨0, by simp⟩
    · intro v hv; simp [hv]

/-! ### Relations -/

/-- Value of a linear form. -/
noncomputable def linVal (I : Interp) (ρ : Valuation) (l : LinForm) : ℝ :=
  (l.1 : ℝ) + (l.2.map fun p => eval I ρ p.1 * (p.2 : ℝ)).sum

theorem addTerm_val (I : Interp) (ρ : Valuation) (t : Expr) (c : ℚ) (l : List (Expr × ℚ)) :
    ((addTerm t c l).map fun p => eval I ρ p.1 * (p.2 : ℝ)).sum =
      eval I ρ t * c + (l.map fun p => eval I ρ p.1 * (p.2 : ℝ)).sum := by
  induction l with
  | nil =>
    unfold addTerm
    split_ifs with h
    · subst h; simp
    · simp
  | cons p l ih =>
    obtain ⟨u, d⟩ := p
    unfold addTerm
    split_ifs with h1 h2
    · subst h1
      have : (c : ℝ) + d = 0 := by exact_mod_cast h2
      have hd : (d : ℝ) = -c := by linarith
      simp [hd]
    · subst h1
      simp only [List.map_cons, List.sum_cons]
      push_cast; ring
    · simp only [List.map_cons, List.sum_cons, ih]; ring

theorem foldl_addTerm_val (I : Interp) (ρ : Valuation) (m l : List (Expr × ℚ)) :
    ((m.foldl (fun acc p => addTerm p.1 p.2 acc) l).map
      fun p => eval I ρ p.1 * (p.2 : ℝ)).sum =
      (l.map fun p => eval I ρ p.1 * (p.2 : ℝ)).sum +
      (m.map fun p => eval I ρ p.1 * (p.2 : ℝ)).sum := by
  induction m generalizing l with
  | nil => simp
  | cons p m ih =>
    simp only [List.foldl_cons, ih, addTerm_val, List.map_cons, List.sum_cons]; ring

theorem linVal_add (I : Interp) (ρ : Valuation) (l m : LinForm) :
    linVal I ρ (l.add m) = linVal I ρ l + linVal I ρ m := by
  simp only [linVal, LinForm.add, foldl_addTerm_val]; push_cast; ring

theorem linVal_scale (I : Interp) (ρ : Valuation) (c : ℚ) (l : LinForm) :
    linVal I ρ (l.scale c) = c * linVal I ρ l := by
  unfold LinForm.scale
  split_ifs with h
  · subst h; simp [linVal]
  · obtain ⟨a, l⟩ := l
    simp only [linVal, List.map_map]
    have : (l.map ((fun p : Expr × ℚ => eval I ρ p.1 * (p.2 : ℝ)) ∘
          fun p : Expr × ℚ => (p.1, c * p.2))).sum =
        c * (l.map fun p => eval I ρ p.1 * (p.2 : ℝ)).sum := by
      induction l with
      | nil => simp
      | cons p l ih =>
        simp only [List.map_cons, List.sum_cons, Function.comp_apply] at ih ⊢
        rw [ih]; push_cast; ring
    rw [this]; push_cast; ring

theorem lin_val (I : Interp) (ρ : Valuation) (e : Expr) : linVal I ρ e.lin = eval I ρ e := by
  fun_induction Expr.lin e with
  | case1 q => simp [linVal, eval]
  | case2 a b iha ihb => rw [linVal_add, iha, ihb]; simp [eval]
  | case3 c b ihb => rw [linVal_scale, ihb]; simp [eval]
  | case4 => simp [linVal]

theorem constDiff_val {I : Interp} {ρ : Valuation} {a b : Expr} {c : ℚ}
    (h : constDiff a b = some c) : eval I ρ a - eval I ρ b = c := by
  have := lin_val I ρ (a.sub b)
  unfold constDiff at h
  split at h
  · rename_i c' hl
    rw [hl] at this
    simp [linVal, Expr.sub, eval] at this
    cases h
    linarith
  · cases h

theorem testZero_iff (op : RelOp) (c : ℚ) (x y : ℝ) (h : x - y = c) :
    op.testZero c = true ↔ relSem op x y := by
  cases op <;> simp only [RelOp.testZero, relSem, decide_eq_true_eq]
  · rw [← Rat.cast_inj (α := ℝ), ← h]; simp [sub_eq_zero]
  · rw [ne_eq, ← Rat.cast_inj (α := ℝ), ← h]; simp [sub_eq_zero]
  · rw [← Rat.cast_lt (K := ℝ), ← h]; simp
  · rw [← Rat.cast_le (K := ℝ), ← h]; simp
  · rw [← Rat.cast_lt (K := ℝ), ← h]; simp
  · rw [← Rat.cast_le (K := ℝ), ← h]; simp

@[simp] theorem holds_mkRel {I ρ op a b} :
    holds I ρ (mkRel op a b) ↔ relSem op (eval I ρ a) (eval I ρ b) := by
  unfold mkRel
  split
  · rename_i c hc
    have := testZero_iff op c _ _ (constDiff_val (I := I) (ρ := ρ) hc)
    split_ifs with h
    · simp [← this, h]
    · rw [← this]; simp [h]
  · simp

theorem relSem_neg {op x y} : relSem op.neg x y ↔ ¬ relSem op x y := by
  cases op <;> simp [RelOp.neg, relSem]

end Verif.Proof
