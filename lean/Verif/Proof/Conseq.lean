import Verif.Proof.Quant

/-! # Terms built from the results of the subterms -/

namespace Verif.Proof.Smt2
open Verif Verif.Model Verif.Model.Smt2 Verif.Spec Verif.Spec.Smt2 Verif.Proof

variable {I : Interp} {ρ : Valuation}

/-- Hereditary predicates on terms. -/
def THer (Pv Pb : Variable → Prop) (Q : List Variable → Fml → Prop) : Term → Prop
  | .expr e => HerE Pv Pb Q e
  | .fml f => HerF Pv Pb Q f

theorem tsorted_iff (t : Term) :
    TSorted t ↔ THer (fun v => v.type ≠ .boolean) (fun v => v.type = .boolean) (fun _ _ => True) t := by
  cases t with
  | expr e => exact sortedE_iff e
  | fml f => exact sortedF_iff f

theorem tq_iff {Q} (t : Term) : TQ Q t ↔ THer (fun _ => True) (fun _ => True) Q t := by
  cases t <;> rfl

/-- `r` is put together from `rs` without new variables or quantifiers. -/
structure Conseq (rs : List Term) (r : Term) : Prop where
  her : ∀ Pv Pb Q, (∀ x ∈ rs, THer Pv Pb Q x) → THer Pv Pb Q r
  free : ∀ P : Variable → Prop, (∀ x ∈ rs, ∀ v ∈ x.fv, P v) → ∀ v ∈ r.fv, P v

theorem Conseq.sorted {rs r} (h : Conseq rs r) (k : ∀ x ∈ rs, TSorted x) : TSorted r :=
  (tsorted_iff r).mpr (h.her _ _ _ fun x hx => (tsorted_iff x).mp (k x hx))

theorem Conseq.bnd {rs r} (h : Conseq rs r) {Q} (k : ∀ x ∈ rs, TQ Q x) : TQ Q r :=
  (tq_iff r).mpr (h.her _ _ _ fun x hx => (tq_iff x).mp (k x hx))

theorem expression_ok {t : Term} {e} (h : t.expression = .ok e) : t = .expr e := by
  cases t <;> simp [Term.expression] at h
  rw [h]

theorem formula_ok {t : Term} {f} (h : t.formula = .ok f) : t = .fml f := by
  cases t <;> simp [Term.formula] at h
  rw [h]

theorem Conseq.leaf {r : Term} (h1 : ∀ Pv Pb Q, THer Pv Pb Q r) (h2 : r.fv = []) : Conseq [] r :=
  ⟨fun Pv Pb Q _ => h1 Pv Pb Q, fun P _ v hv => by rw [h2] at hv; simp at hv⟩

theorem Conseq.trans {rs : List Term} {x r : Term} {ys : List Term} (h : Conseq rs x)
    (h' : Conseq (x :: ys) r) : Conseq (rs ++ ys) r :=
  ⟨fun Pv Pb Q k => h'.her Pv Pb Q fun y hy => by
      rcases List.mem_cons.mp hy with rfl | hy
      · exact h.her Pv Pb Q fun z hz => k z (by simp [hz])
      · exact k y (by simp [hy]),
   fun P k => h'.free P fun y hy => by
      rcases List.mem_cons.mp hy with rfl | hy
      · exact h.free P fun z hz => k z (by simp [hz])
      · exact k y (by simp [hy])⟩

theorem FvIn.rel' {P : Variable → Prop} {o a b} (ha : ∀ v ∈ a.vars, P v) (hb : ∀ v ∈ b.vars, P v) :
    FvIn P (mkRel o a b) := by
  refine FvIn.mkRel (op := o) fun v hv => ?_
  simp only [Fml.fv, List.mem_append] at hv
  rcases hv with h | h
  exacts [ha v h, hb v h]

theorem conseq_rel {o a b} : Conseq [.expr a, .expr b] (.fml (mkRel o a b)) :=
  ⟨fun Pv Pb Q k => her_mkRel (k (.expr a) (by simp)) (k (.expr b) (by simp)),
    fun P k => FvIn.rel' (k (.expr a) (by simp)) (k (.expr b) (by simp))⟩

theorem conseq_and {f g} : Conseq [.fml f, .fml g] (.fml (andF f g)) :=
  ⟨fun Pv Pb Q k => her_andF (k (.fml f) (by simp)) (k (.fml g) (by simp)),
    fun P k => FvIn.andF (k (.fml f) (by simp)) (k (.fml g) (by simp))⟩

theorem conseq_or {f g} : Conseq [.fml f, .fml g] (.fml (orF f g)) :=
  ⟨fun Pv Pb Q k => her_orF (k (.fml f) (by simp)) (k (.fml g) (by simp)),
    fun P k => FvIn.orF (k (.fml f) (by simp)) (k (.fml g) (by simp))⟩

theorem conseq_not {f} : Conseq [.fml f] (.fml (notF f)) :=
  ⟨fun Pv Pb Q k => her_notF (k (.fml f) (by simp)), fun P k => FvIn.notF (k (.fml f) (by simp))⟩

theorem conseq_imp {f g} : Conseq [.fml f, .fml g] (.fml (orF (notF f) g)) :=
  ⟨fun Pv Pb Q k => her_orF (her_notF (k (.fml f) (by simp))) (k (.fml g) (by simp)),
    fun P k => FvIn.orF (FvIn.notF (k (.fml f) (by simp))) (k (.fml g) (by simp))⟩

theorem conseq_xor {f g} : Conseq [.fml f, .fml g] (.fml (xorF f g)) :=
  ⟨fun Pv Pb Q k => by
    have hf := k (.fml f) (by simp)
    have hg := k (.fml g) (by simp)
    exact her_orF (her_andF hf (her_notF hg)) (her_andF (her_notF hf) hg),
   fun P k => by
    have hf : FvIn P f := k (.fml f) (by simp)
    have hg : FvIn P g := k (.fml g) (by simp)
    exact FvIn.orF (FvIn.andF hf (FvIn.notF hg)) (FvIn.andF (FvIn.notF hf) hg)⟩

theorem conseq_add {a b} : Conseq [.expr a, .expr b] (.expr (.add a b)) :=
  ⟨fun Pv Pb Q k => ⟨k (.expr a) (by simp), k (.expr b) (by simp)⟩, fun P k v hv => by
    simp only [Term.fv, Expr.vars, List.mem_append] at hv
    rcases hv with h | h
    exacts [k (.expr a) (by simp) v h, k (.expr b) (by simp) v h]⟩

theorem conseq_mul {a b} : Conseq [.expr a, .expr b] (.expr (.mul a b)) :=
  ⟨fun Pv Pb Q k => ⟨k (.expr a) (by simp), k (.expr b) (by simp)⟩, fun P k v hv => by
    simp only [Term.fv, Expr.vars, List.mem_append] at hv
    rcases hv with h | h
    exacts [k (.expr a) (by simp) v h, k (.expr b) (by simp) v h]⟩

theorem conseq_fn2 {g a b} : Conseq [.expr a, .expr b] (.expr (.app2 g a b)) :=
  ⟨fun Pv Pb Q k => ⟨k (.expr a) (by simp), k (.expr b) (by simp)⟩, fun P k v hv => by
    simp only [Term.fv, Expr.vars, List.mem_append] at hv
    rcases hv with h | h
    exacts [k (.expr a) (by simp) v h, k (.expr b) (by simp) v h]⟩

theorem conseq_fn1 {g a} : Conseq [.expr a] (.expr (.app1 g a)) :=
  ⟨fun Pv Pb Q k => k (.expr a) (by simp), fun P k v hv => k (.expr a) (by simp) v hv⟩

theorem conseq_neg {a} : Conseq [.expr a] (.expr (.mul (.const (-1)) a)) :=
  ⟨fun Pv Pb Q k => ⟨by simp [HerE], k (.expr a) (by simp)⟩, fun P k v hv =>
    k (.expr a) (by simp) v (by simpa [Term.fv, Expr.vars] using hv)⟩

theorem conseq_sub {a b} : Conseq [.expr a, .expr b] (.expr (Expr.sub a b)) :=
  ⟨fun Pv Pb Q k => ⟨k (.expr a) (by simp), by simp [HerE], k (.expr b) (by simp)⟩,
    fun P k v hv => by
    simp only [Term.fv, Expr.sub, Expr.vars, List.mem_append, List.not_mem_nil, false_or] at hv
    rcases hv with h | h
    exacts [k (.expr a) (by simp) v h, k (.expr b) (by simp) v h]⟩

/-! ## Values -/

theorem mkEq_spec {x y t : Term} (h : mkEq x y = .ok t) :
    Conseq [x, y] t ∧ ∀ I ρ, valT I ρ t = eqV (valT I ρ x) (valT I ρ y) := by
  cases x <;> cases y <;> simp only [mkEq, Outcome.ok.injEq, reduceCtorEq] at h <;> subst h
  · exact ⟨conseq_rel, fun I ρ => by simp [valT, eqV, relSem]⟩
  · rename_i f g
    refine ⟨⟨fun Pv Pb Q k => ?_, fun P k => ?_⟩, fun I ρ => by simp [valT, eqV]⟩
    · have hf := k (.fml f) (by simp)
      have hg := k (.fml g) (by simp)
      exact her_andF (her_orF (her_notF hf) hg) (her_orF (her_notF hg) hf)
    · have hf : FvIn P f := k (.fml f) (by simp)
      have hg : FvIn P g := k (.fml g) (by simp)
      exact FvIn.andF (FvIn.orF (FvIn.notF hf) hg) (FvIn.orF (FvIn.notF hg) hf)

theorem mkIteT_spec {c : Fml} {x y t : Term} (h : mkIteT c x y = .ok t) :
    Conseq [.fml c, x, y] t ∧ ∀ I ρ, valT I ρ t = iteV (.tf (holds I ρ c)) (valT I ρ x) (valT I ρ y) := by
  cases x <;> cases y <;> simp only [mkIteT, Outcome.ok.injEq, reduceCtorEq] at h <;> subst h
  · rename_i a b
    refine ⟨⟨fun Pv Pb Q k => her_mkIte (k (.fml c) (by simp)) (k (.expr a) (by simp))
      (k (.expr b) (by simp)), fun P k v hv => ?_⟩, fun I ρ => ?_⟩
    · have : v ∈ (Expr.ite c a b).vars ∨ v ∈ a.vars ∨ v ∈ b.vars := by
        simp only [Term.fv, mkIte] at hv
        split_ifs at hv <;> simp [hv]
      simp only [Expr.vars, List.mem_append] at this
      rcases this with (h | h | h) | h | h
      · exact k (.fml c) (by simp) v h
      · exact k (.expr a) (by simp) v h
      · exact k (.expr b) (by simp) v h
      · exact k (.expr a) (by simp) v h
      · exact k (.expr b) (by simp) v h
    · simp only [valT, iteV, eval_mkIte, eval]
  · rename_i f g
    refine ⟨⟨fun Pv Pb Q k => ?_, fun P k => ?_⟩, fun I ρ => ?_⟩
    · have hc := k (.fml c) (by simp)
      exact her_andF (her_orF (her_notF hc) (k (.fml f) (by simp))) (her_orF hc (k (.fml g) (by simp)))
    · have hc : FvIn P c := k (.fml c) (by simp)
      exact FvIn.andF (FvIn.orF (FvIn.notF hc) (k (.fml f) (by simp)))
        (FvIn.orF hc (k (.fml g) (by simp)))
    · simp only [valT, iteV, holds_andF, holds_orF, holds_notF, SVal.tf.injEq]
      by_cases hc : holds I ρ c <;> simp [hc]

theorem foldFml_spec {op : Fml → Fml → Fml} {P2 : Prop → Prop → Prop}
    (hc : ∀ f g, Conseq [.fml f, .fml g] (.fml (op f g)))
    (hv : ∀ I ρ f g, holds I ρ (op f g) ↔ P2 (holds I ρ f) (holds I ρ g)) :
    ∀ {xs : List Term} {f r : Fml}, foldFml op f xs = .ok r →
    Conseq (.fml f :: xs) (.fml r) ∧ ∀ I ρ, valT I ρ (.fml r) =
      (xs.map (valT I ρ)).foldl (liftP P2) (valT I ρ (.fml f))
  | [], f, r, h => by
    simp only [foldFml, Outcome.ok.injEq] at h
    subst h
    exact ⟨⟨fun Pv Pb Q k => k _ (by simp), fun P k => k _ (by simp)⟩, fun I ρ => rfl⟩
  | x :: xs, f, r, h => by
    simp only [foldFml] at h
    obtain ⟨g, hg, h⟩ := bindO_ok h
    have := formula_ok hg
    subst this
    obtain ⟨k1, k2⟩ := foldFml_spec hc hv h
    refine ⟨(hc f g).trans k1, fun I ρ => ?_⟩
    rw [k2 I ρ]
    simp only [List.map_cons, List.foldl_cons, valT, liftP, propext (hv I ρ f g)]

theorem foldExpr_spec {op : Expr → Expr → Expr} {R2 : Interp → ℝ → ℝ → ℝ}
    (hc : ∀ f g, Conseq [.expr f, .expr g] (.expr (op f g)))
    (hv : ∀ I ρ f g, eval I ρ (op f g) = R2 I (eval I ρ f) (eval I ρ g)) :
    ∀ {xs : List Term} {x r : Term}, foldExpr op x xs = .ok r →
    Conseq (x :: xs) r ∧ ∀ I ρ, valT I ρ r =
      (xs.map (valT I ρ)).foldl (lift2 (R2 I)) (valT I ρ x)
  | [], f, r, h => by
    simp only [foldExpr, Outcome.ok.injEq] at h
    subst h
    exact ⟨⟨fun Pv Pb Q k => k _ (by simp), fun P k => k _ (by simp)⟩, fun I ρ => rfl⟩
  | y :: xs, x, r, h => by
    simp only [foldExpr] at h
    obtain ⟨a, ha, h⟩ := bindO_ok h
    obtain ⟨b, hb, h⟩ := bindO_ok h
    have := expression_ok ha
    subst this
    have := expression_ok hb
    subst this
    obtain ⟨k1, k2⟩ := foldExpr_spec hc hv h
    refine ⟨(hc a b).trans k1, fun I ρ => ?_⟩
    rw [k2 I ρ]
    simp only [List.map_cons, List.foldl_cons, valT, lift2, hv]

end Verif.Proof.Smt2
