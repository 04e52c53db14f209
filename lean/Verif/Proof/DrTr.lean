import Mathlib.Tactic.Linarith
import Mathlib.Tactic.Ring
import Verif.Proof.Regular
import Verif.Proof.DeltaLoop
import Verif.Proof.ForallFind
import Verif.Spec.Dr

/-! # What the `dr` front end makes of expressions and formulas -/

namespace Verif.Proof.Dr
open Verif Verif.Model Verif.Model.Dr Verif.Spec Verif.Spec.Dr Verif.Proof

variable {sc : ScopedMap String Variable}

/-- The value of every name in the scope is the value of its variable. -/
def Agree (sc : ScopedMap String Variable) (ρ : Valuation) (σ : Point) : Prop :=
  ∀ n v, sc.map n = some v → ρ v = σ n

theorem at?_ok {n v} (h : sc.at? n = .ok v) : sc.map n = some v := by
  unfold ScopedMap.at? at h
  split at h
  · cases h
  · rename_i h'; simp only [Outcome.ok.injEq] at h; rw [h', h]

theorem eval_negE {I ρ e} : eval I ρ (negE e) = - eval I ρ e := by
  cases e <;> simp only [negE, eval] <;> push_cast <;> ring

theorem eval_trE {I ρ σ} (hA : Agree sc ρ σ) : ∀ (x : DExpr) {e}, trE sc x = .ok e →
    eval I ρ e = val I σ x
  | .num q, e, h => by simp only [trE, Outcome.ok.injEq] at h; subst h; simp [eval, val]
  | .id n, e, h => by
    obtain ⟨v, h1, h2⟩ := bindO_ok h
    simp only [Outcome.ok.injEq] at h2; subst h2
    simpa [eval, val] using hA n v (at?_ok h1)
  | .add a b, e, h => by
    obtain ⟨x, h1, h⟩ := bindO_ok h
    obtain ⟨y, h2, h⟩ := bindO_ok h
    simp only [Outcome.ok.injEq] at h; subst h
    simp [eval, val, eval_trE hA a h1, eval_trE hA b h2]
  | .neg a, e, h => by
    obtain ⟨x, h1, h⟩ := bindO_ok h
    simp only [Outcome.ok.injEq] at h; subst h
    simp [eval_negE, val, eval_trE hA a h1]
  | .sub a b, e, h => by
    obtain ⟨x, h1, h⟩ := bindO_ok h
    obtain ⟨y, h2, h⟩ := bindO_ok h
    simp only [Outcome.ok.injEq] at h; subst h
    simp [Expr.sub, eval, val, eval_trE hA a h1, eval_trE hA b h2, sub_eq_add_neg]
  | .mul a b, e, h => by
    obtain ⟨x, h1, h⟩ := bindO_ok h
    obtain ⟨y, h2, h⟩ := bindO_ok h
    simp only [Outcome.ok.injEq] at h; subst h
    simp [eval, val, eval_trE hA a h1, eval_trE hA b h2]
  | .fn1 f a, e, h => by
    obtain ⟨x, h1, h⟩ := bindO_ok h
    simp only [Outcome.ok.injEq] at h; subst h
    simp [eval, val, eval_trE hA a h1]
  | .fn2 f a b, e, h => by
    obtain ⟨x, h1, h⟩ := bindO_ok h
    obtain ⟨y, h2, h⟩ := bindO_ok h
    simp only [Outcome.ok.injEq] at h; subst h
    simp [eval, val, eval_trE hA a h1, eval_trE hA b h2]

theorem relP_op {o : DRel} {x y} : relSem o.op x y ↔ relP o x y := by
  cases o <;> simp [DRel.op, relSem, relP]

theorem holds_trF {I ρ σ} (hA : Agree sc ρ σ) : ∀ (f : DFml) {g}, trF sc f = .ok g →
    (holds I ρ g ↔ sat I σ f)
  | .rel o a b, g, h => by
    obtain ⟨x, h1, h⟩ := bindO_ok h
    obtain ⟨y, h2, h⟩ := bindO_ok h
    simp only [Outcome.ok.injEq] at h; subst h
    rw [holds_mkRel, eval_trE hA a h1, eval_trE hA b h2, relP_op]; rfl
  | .and a b, g, h => by
    obtain ⟨x, h1, h⟩ := bindO_ok h
    obtain ⟨y, h2, h⟩ := bindO_ok h
    simp only [Outcome.ok.injEq] at h; subst h
    rw [holds_andF, holds_trF hA a h1, holds_trF hA b h2]; rfl
  | .or a b, g, h => by
    obtain ⟨x, h1, h⟩ := bindO_ok h
    obtain ⟨y, h2, h⟩ := bindO_ok h
    simp only [Outcome.ok.injEq] at h; subst h
    rw [holds_orF, holds_trF hA a h1, holds_trF hA b h2]; rfl
  | .imp a b, g, h => by
    obtain ⟨x, h1, h⟩ := bindO_ok h
    obtain ⟨y, h2, h⟩ := bindO_ok h
    simp only [Outcome.ok.injEq] at h; subst h
    rw [holds_orF, holds_notF, holds_trF hA a h1, holds_trF hA b h2]
    simp only [sat]; tauto
  | .not a, g, h => by
    obtain ⟨x, h1, h⟩ := bindO_ok h
    simp only [Outcome.ok.injEq] at h; subst h
    rw [holds_notF, holds_trF hA a h1]; rfl

/-! ## The comparisons -/

/-- The comparisons of the translation are translations of comparisons. -/
theorem atoms_trF {P : RelOp → Expr → Expr → Prop} : ∀ (f : DFml) {g}, trF sc f = .ok g →
    (∀ o x y a b, (o, x, y) ∈ atoms f → trE sc x = .ok a → trE sc y = .ok b →
      constDiff a b = none → P o.op a b) → ForAtoms P (fun _ => False) NoQ g
  | .rel o a b, g, h, hP => by
    obtain ⟨x, h1, h⟩ := bindO_ok h
    obtain ⟨y, h2, h⟩ := bindO_ok h
    simp only [Outcome.ok.injEq] at h; subst h
    unfold mkRel
    split
    · split <;> trivial
    · rename_i hc
      exact hP o a b x y (by simp [atoms]) h1 h2 hc
  | .and a b, g, h, hP => by
    obtain ⟨x, h1, h⟩ := bindO_ok h
    obtain ⟨y, h2, h⟩ := bindO_ok h
    simp only [Outcome.ok.injEq] at h; subst h
    exact (atoms_trF a h1 fun o x y a b hm => hP o x y a b (by simp [atoms, hm])).andF
      (atoms_trF b h2 fun o x y a b hm => hP o x y a b (by simp [atoms, hm]))
  | .or a b, g, h, hP => by
    obtain ⟨x, h1, h⟩ := bindO_ok h
    obtain ⟨y, h2, h⟩ := bindO_ok h
    simp only [Outcome.ok.injEq] at h; subst h
    exact (atoms_trF a h1 fun o x y a b hm => hP o x y a b (by simp [atoms, hm])).orF
      (atoms_trF b h2 fun o x y a b hm => hP o x y a b (by simp [atoms, hm]))
  | .imp a b, g, h, hP => by
    obtain ⟨x, h1, h⟩ := bindO_ok h
    obtain ⟨y, h2, h⟩ := bindO_ok h
    simp only [Outcome.ok.injEq] at h; subst h
    exact (atoms_trF a h1 fun o x y a b hm => hP o x y a b (by simp [atoms, hm])).notF.orF
      (atoms_trF b h2 fun o x y a b hm => hP o x y a b (by simp [atoms, hm]))
  | .not a, g, h, hP => by
    obtain ⟨x, h1, h⟩ := bindO_ok h
    simp only [Outcome.ok.injEq] at h; subst h
    exact (atoms_trF a h1 fun o x y a b hm => hP o x y a b (by simp [atoms, hm])).notF

mutual
theorem flat_ind {P : RelOp → Expr → Expr → Prop} {X : Fml → Prop} (hff : X .ff) (htt : X .tt)
    (hrel : ∀ op a b, P op a b → X (.rel op a b))
    (hconj : ∀ fs, (∀ f ∈ fs, X f) → X (.conj fs)) (hdisj : ∀ fs, (∀ f ∈ fs, X f) → X (.disj fs))
    (hneg : ∀ f, X f → X (.neg f)) : ∀ f, ForAtoms P (fun _ => False) NoQ f → X f
  | .ff, _ => hff
  | .tt, _ => htt
  | .bvar _, h => h.elim
  | .rel op a b, h => hrel op a b h
  | .conj fs, h => hconj fs (flat_inds hff htt hrel hconj hdisj hneg fs h)
  | .disj fs, h => hdisj fs (flat_inds hff htt hrel hconj hdisj hneg fs h)
  | .neg f, h => hneg f (flat_ind hff htt hrel hconj hdisj hneg f h)
  | .all _ _, h => h.elim
theorem flat_inds {P : RelOp → Expr → Expr → Prop} {X : Fml → Prop} (hff : X .ff) (htt : X .tt)
    (hrel : ∀ op a b, P op a b → X (.rel op a b))
    (hconj : ∀ fs, (∀ f ∈ fs, X f) → X (.conj fs)) (hdisj : ∀ fs, (∀ f ∈ fs, X f) → X (.disj fs))
    (hneg : ∀ f, X f → X (.neg f)) : ∀ fs, ForAtomsL P (fun _ => False) NoQ fs → ∀ f ∈ fs, X f
  | [], _ => fun _ h => by cases h
  | f :: fs, h => fun g hg => (List.mem_cons.mp hg).elim
    (fun e => e ▸ flat_ind hff htt hrel hconj hdisj hneg f h.1)
    (flat_inds hff htt hrel hconj hdisj hneg fs h.2 g)
end

theorem plainFs_iff {d δ S fs} : PlainFs d δ S fs ↔ ∀ f ∈ fs, PlainF d δ S f := by
  induction fs with
  | nil => simp [PlainFs]
  | cons f fs ih => simp [PlainFs, ih]

theorem qfrees_iff {fs} : QFrees fs ↔ ∀ f ∈ fs, QFree f := by
  induction fs with
  | nil => simp [QFrees]
  | cons f fs ih => simp [QFrees, ih]

theorem defFs_iff' {D I ρ fs} : DefFs D I ρ fs ↔ ∀ f ∈ fs, DefF D I ρ f := by
  induction fs with
  | nil => simp [DefFs]
  | cons f fs ih => simp [DefFs, ih]

/-! ## Expressions -/

/-- Made of variables of the scope, without conditionals and decimal literals. -/
theorem trE_shape {V : Variable → Prop} {m : Nat} (hV : ∀ n v, sc.map n = some v →
    v.type ≠ .boolean ∧ V v ∧ v.id < m) : ∀ (x : DExpr) {e}, trE sc x = .ok e →
    WfE V e ∧ IteFreeE e ∧ OldE m e ∧ QFreeE e
  | .num q, e, h => by
    simp only [trE, Outcome.ok.injEq] at h; subst h; exact ⟨trivial, trivial, trivial, trivial⟩
  | .id n, e, h => by
    obtain ⟨v, h1, h2⟩ := bindO_ok h
    simp only [Outcome.ok.injEq] at h2; subst h2
    obtain ⟨a, b, c⟩ := hV n v (at?_ok h1)
    exact ⟨⟨a, b⟩, trivial, c, trivial⟩
  | .add a b, e, h => by
    obtain ⟨x, h1, h⟩ := bindO_ok h
    obtain ⟨y, h2, h⟩ := bindO_ok h
    simp only [Outcome.ok.injEq] at h; subst h
    obtain ⟨a1, a2, a3, a4⟩ := trE_shape hV a h1
    obtain ⟨b1, b2, b3, b4⟩ := trE_shape hV b h2
    exact ⟨⟨a1, b1⟩, ⟨a2, b2⟩, ⟨a3, b3⟩, a4, b4⟩
  | .neg a, e, h => by
    obtain ⟨x, h1, h⟩ := bindO_ok h
    simp only [Outcome.ok.injEq] at h; subst h
    obtain ⟨a1, a2, a3, a4⟩ := trE_shape hV a h1
    cases x <;> exact ⟨by first | trivial | exact ⟨trivial, a1⟩,
      by first | trivial | exact ⟨trivial, a2⟩, by first | trivial | exact ⟨trivial, a3⟩,
      by first | trivial | exact ⟨trivial, a4⟩⟩
  | .sub a b, e, h => by
    obtain ⟨x, h1, h⟩ := bindO_ok h
    obtain ⟨y, h2, h⟩ := bindO_ok h
    simp only [Outcome.ok.injEq] at h; subst h
    obtain ⟨a1, a2, a3, a4⟩ := trE_shape hV a h1
    obtain ⟨b1, b2, b3, b4⟩ := trE_shape hV b h2
    exact ⟨⟨a1, trivial, b1⟩, ⟨a2, trivial, b2⟩, ⟨a3, trivial, b3⟩, a4, trivial, b4⟩
  | .mul a b, e, h => by
    obtain ⟨x, h1, h⟩ := bindO_ok h
    obtain ⟨y, h2, h⟩ := bindO_ok h
    simp only [Outcome.ok.injEq] at h; subst h
    obtain ⟨a1, a2, a3, a4⟩ := trE_shape hV a h1
    obtain ⟨b1, b2, b3, b4⟩ := trE_shape hV b h2
    exact ⟨⟨a1, b1⟩, ⟨a2, b2⟩, ⟨a3, b3⟩, a4, b4⟩
  | .fn1 f a, e, h => by
    obtain ⟨x, h1, h⟩ := bindO_ok h
    simp only [Outcome.ok.injEq] at h; subst h
    obtain ⟨a1, a2, a3, a4⟩ := trE_shape hV a h1
    exact ⟨a1, a2, a3, a4⟩
  | .fn2 f a b, e, h => by
    obtain ⟨x, h1, h⟩ := bindO_ok h
    obtain ⟨y, h2, h⟩ := bindO_ok h
    simp only [Outcome.ok.injEq] at h; subst h
    obtain ⟨a1, a2, a3, a4⟩ := trE_shape hV a h1
    obtain ⟨b1, b2, b3, b4⟩ := trE_shape hV b h2
    exact ⟨⟨a1, b1⟩, ⟨a2, b2⟩, ⟨a3, b3⟩, a4, b4⟩

theorem trE_const : ∀ (x : DExpr) {q}, trE sc x = .ok (.const q) → lit x = some q
  | .num q, _, h => by simp only [trE, Outcome.ok.injEq, Expr.const.injEq] at h; rw [← h]; rfl
  | .id n, _, h => by
    obtain ⟨v, h1, h⟩ := bindO_ok h
    simp at h
  | .add a b, _, h => by
    obtain ⟨x, h1, h⟩ := bindO_ok h
    obtain ⟨y, h2, h⟩ := bindO_ok h
    simp at h
  | .neg a, q, h => by
    obtain ⟨x, h1, h⟩ := bindO_ok h
    cases x <;> simp only [negE, Outcome.ok.injEq, reduceCtorEq, Expr.const.injEq] at h
    rw [lit, trE_const a h1, ← h]; rfl
  | .sub a b, _, h => by
    obtain ⟨x, h1, h⟩ := bindO_ok h
    obtain ⟨y, h2, h⟩ := bindO_ok h
    simp [Expr.sub] at h
  | .mul a b, _, h => by
    obtain ⟨x, h1, h⟩ := bindO_ok h
    obtain ⟨y, h2, h⟩ := bindO_ok h
    simp at h
  | .fn1 f a, _, h => by
    obtain ⟨x, h1, h⟩ := bindO_ok h
    simp at h
  | .fn2 f a b, _, h => by
    obtain ⟨x, h1, h⟩ := bindO_ok h
    obtain ⟨y, h2, h⟩ := bindO_ok h
    simp at h

theorem trE_rconst : ∀ (x : DExpr) {r}, trE sc x ≠ .ok (.rconst r)
  | .num q, _ => by simp [trE]
  | .id n, _ => fun h => by
    obtain ⟨v, h1, h⟩ := bindO_ok h
    simp at h
  | .add a b, _ => fun h => by
    obtain ⟨x, h1, h⟩ := bindO_ok h
    obtain ⟨y, h2, h⟩ := bindO_ok h
    simp at h
  | .neg a, q => fun h => by
    obtain ⟨x, h1, h⟩ := bindO_ok h
    cases x <;> simp [negE] at h
  | .sub a b, _ => fun h => by
    obtain ⟨x, h1, h⟩ := bindO_ok h
    obtain ⟨y, h2, h⟩ := bindO_ok h
    simp [Expr.sub] at h
  | .mul a b, _ => fun h => by
    obtain ⟨x, h1, h⟩ := bindO_ok h
    obtain ⟨y, h2, h⟩ := bindO_ok h
    simp at h
  | .fn1 f a, _ => fun h => by
    obtain ⟨x, h1, h⟩ := bindO_ok h
    simp at h
  | .fn2 f a b, _ => fun h => by
    obtain ⟨x, h1, h⟩ := bindO_ok h
    obtain ⟨y, h2, h⟩ := bindO_ok h
    simp at h

/-- A literal of the translation. -/
theorem trE_num {x e lo hi ex} (h : trE sc x = .ok e) (hn : asNum e = some (lo, hi, ex)) :
    lo = ex ∧ hi = ex ∧ lit x = some ex := by
  cases e <;> simp only [asNum, Option.some.injEq, Prod.mk.injEq, reduceCtorEq] at hn
  · obtain ⟨rfl, rfl, rfl⟩ := hn
    exact ⟨rfl, rfl, trE_const x h⟩
  · exact absurd h (trE_rconst x)

/-- A variable of the translation. -/
theorem trE_var {v} : ∀ (x : DExpr), trE sc x = .ok (.var v) → ∃ n, x = .id n ∧ sc.map n = some v
  | .num q, h => by simp [trE] at h
  | .id n, h => by
    obtain ⟨w, h1, h⟩ := bindO_ok h
    simp only [Outcome.ok.injEq, Expr.var.injEq] at h
    subst h
    exact ⟨n, rfl, at?_ok h1⟩
  | .add a b, h => by
    obtain ⟨x, h1, h⟩ := bindO_ok h
    obtain ⟨y, h2, h⟩ := bindO_ok h
    simp at h
  | .neg a, h => by
    obtain ⟨x, h1, h⟩ := bindO_ok h
    cases x <;> simp [negE] at h
  | .sub a b, h => by
    obtain ⟨x, h1, h⟩ := bindO_ok h
    obtain ⟨y, h2, h⟩ := bindO_ok h
    simp [Expr.sub] at h
  | .mul a b, h => by
    obtain ⟨x, h1, h⟩ := bindO_ok h
    obtain ⟨y, h2, h⟩ := bindO_ok h
    simp at h
  | .fn1 f a, h => by
    obtain ⟨x, h1, h⟩ := bindO_ok h
    simp at h
  | .fn2 f a b, h => by
    obtain ⟨x, h1, h⟩ := bindO_ok h
    obtain ⟨y, h2, h⟩ := bindO_ok h
    simp at h

theorem trE_def {D I ρ σ} (d : Dbl) (hA : Agree sc ρ σ) : ∀ (x : DExpr) {e}, trE sc x = .ok e →
    DefX D I σ x → RegE D I d ρ e ∧ DefE D I ρ e
  | .num q, e, h, hd => by
    simp only [trE, Outcome.ok.injEq] at h; subst h; exact ⟨trivial, by simp [DefE]⟩
  | .id n, e, h, hd => by
    obtain ⟨v, h1, h2⟩ := bindO_ok h
    simp only [Outcome.ok.injEq] at h2; subst h2; exact ⟨trivial, by simp [DefE]⟩
  | .add a b, e, h, hd => by
    obtain ⟨x, h1, h⟩ := bindO_ok h
    obtain ⟨y, h2, h⟩ := bindO_ok h
    simp only [Outcome.ok.injEq] at h; subst h
    obtain ⟨a1, a2⟩ := trE_def d hA a h1 hd.1
    obtain ⟨b1, b2⟩ := trE_def d hA b h2 hd.2
    exact ⟨⟨a1, b1⟩, by simp only [DefE]; exact ⟨a2, b2⟩⟩
  | .neg a, e, h, hd => by
    obtain ⟨x, h1, h⟩ := bindO_ok h
    simp only [Outcome.ok.injEq] at h; subst h
    obtain ⟨a1, a2⟩ := trE_def d hA a h1 hd
    unfold negE
    split
    · exact ⟨trivial, by simp [DefE]⟩
    · exact ⟨⟨trivial, a1⟩, by simp only [DefE]; exact ⟨trivial, a2⟩⟩
  | .sub a b, e, h, hd => by
    obtain ⟨x, h1, h⟩ := bindO_ok h
    obtain ⟨y, h2, h⟩ := bindO_ok h
    simp only [Outcome.ok.injEq] at h; subst h
    obtain ⟨a1, a2⟩ := trE_def d hA a h1 hd.1
    obtain ⟨b1, b2⟩ := trE_def d hA b h2 hd.2
    exact ⟨⟨a1, trivial, b1⟩, by simp only [Expr.sub, DefE]; exact ⟨a2, trivial, b2⟩⟩
  | .mul a b, e, h, hd => by
    obtain ⟨x, h1, h⟩ := bindO_ok h
    obtain ⟨y, h2, h⟩ := bindO_ok h
    simp only [Outcome.ok.injEq] at h; subst h
    obtain ⟨a1, a2⟩ := trE_def d hA a h1 hd.1
    obtain ⟨b1, b2⟩ := trE_def d hA b h2 hd.2
    exact ⟨⟨a1, b1⟩, by simp only [DefE]; exact ⟨a2, b2⟩⟩
  | .fn1 f a, e, h, hd => by
    obtain ⟨x, h1, h⟩ := bindO_ok h
    simp only [Outcome.ok.injEq] at h; subst h
    obtain ⟨a1, a2⟩ := trE_def d hA a h1 hd.1
    have := eval_trE (I := I) hA a h1
    exact ⟨⟨a1, by rw [this]; exact hd.2⟩, by simp only [DefE]; exact ⟨a2, by rw [this]; exact hd.2⟩⟩
  | .fn2 f a b, e, h, hd => by
    obtain ⟨x, h1, h⟩ := bindO_ok h
    obtain ⟨y, h2, h⟩ := bindO_ok h
    simp only [Outcome.ok.injEq] at h; subst h
    obtain ⟨a1, a2⟩ := trE_def d hA a h1 hd.1
    obtain ⟨b1, b2⟩ := trE_def d hA b h2 hd.2.1
    have e1 := eval_trE (I := I) hA a h1
    have e2 := eval_trE (I := I) hA b h2
    exact ⟨⟨a1, b1, by rw [e1, e2]; exact hd.2.2⟩,
      by simp only [DefE]; exact ⟨a2, b2, by rw [e1, e2]; exact hd.2.2⟩⟩

/-- The variables of the translation are those of the names. -/
theorem trE_vars : ∀ (x : DExpr) {e}, trE sc x = .ok e → names x ≠ [] → e.vars ≠ []
  | .num q, e, h, hn => by simp [names] at hn
  | .id n, e, h, hn => by
    obtain ⟨v, h1, h2⟩ := bindO_ok h
    simp only [Outcome.ok.injEq] at h2; subst h2; simp [Expr.vars]
  | .add a b, e, h, hn => by
    obtain ⟨x, h1, h⟩ := bindO_ok h
    obtain ⟨y, h2, h⟩ := bindO_ok h
    simp only [Outcome.ok.injEq] at h; subst h
    have ha := trE_vars a h1
    have hb := trE_vars b h2
    simp only [names, Expr.vars, ne_eq, List.append_eq_nil_iff] at *
    tauto
  | .neg a, e, h, hn => by
    obtain ⟨x, h1, h⟩ := bindO_ok h
    simp only [Outcome.ok.injEq] at h; subst h
    have ha := trE_vars a h1 hn
    unfold negE
    split
    · simp [Expr.vars] at ha
    · simpa [Expr.vars] using ha
  | .sub a b, e, h, hn => by
    obtain ⟨x, h1, h⟩ := bindO_ok h
    obtain ⟨y, h2, h⟩ := bindO_ok h
    simp only [Outcome.ok.injEq] at h; subst h
    have ha := trE_vars a h1
    have hb := trE_vars b h2
    simp only [names, Expr.sub, Expr.vars, ne_eq, List.append_eq_nil_iff] at *
    tauto
  | .mul a b, e, h, hn => by
    obtain ⟨x, h1, h⟩ := bindO_ok h
    obtain ⟨y, h2, h⟩ := bindO_ok h
    simp only [Outcome.ok.injEq] at h; subst h
    have ha := trE_vars a h1
    have hb := trE_vars b h2
    simp only [names, Expr.vars, ne_eq, List.append_eq_nil_iff] at *
    tauto
  | .fn1 f a, e, h, hn => by
    obtain ⟨x, h1, h⟩ := bindO_ok h
    simp only [Outcome.ok.injEq] at h; subst h
    simpa [Expr.vars] using trE_vars a h1 hn
  | .fn2 f a b, e, h, hn => by
    obtain ⟨x, h1, h⟩ := bindO_ok h
    obtain ⟨y, h2, h⟩ := bindO_ok h
    simp only [Outcome.ok.injEq] at h; subst h
    have ha := trE_vars a h1
    have hb := trE_vars b h2
    simp only [names, Expr.vars, ne_eq, List.append_eq_nil_iff] at *
    tauto

/-- An expression has a translation if all its names are known. -/
theorem trE_known : ∀ (x : DExpr), (∃ e, trE sc x = .ok e) ↔ ∀ n ∈ names x, ∃ v, sc.map n = some v
  | .num q => by simp [trE, names]
  | .id n => by
    simp only [names, List.mem_singleton, forall_eq]
    constructor
    · rintro ⟨e, h⟩
      obtain ⟨v, h1, -⟩ := bindO_ok h
      exact ⟨v, at?_ok h1⟩
    · rintro ⟨v, h⟩
      exact ⟨.var v, by simp [trE, ScopedMap.at?, h]⟩
  | .add a b => by
    simp only [names, List.mem_append, or_imp, forall_and, ← trE_known a, ← trE_known b]
    constructor
    · rintro ⟨e, h⟩
      obtain ⟨x, h1, h⟩ := bindO_ok h
      obtain ⟨y, h2, h⟩ := bindO_ok h
      exact ⟨⟨x, h1⟩, y, h2⟩
    · rintro ⟨⟨x, h1⟩, y, h2⟩; exact ⟨_, by simp only [trE, h1, h2, Outcome.bind_ok]; rfl⟩
  | .neg a => by
    simp only [names, ← trE_known a]
    constructor
    · rintro ⟨e, h⟩
      obtain ⟨x, h1, h⟩ := bindO_ok h
      exact ⟨x, h1⟩
    · rintro ⟨x, h1⟩; exact ⟨_, by simp only [trE, h1, Outcome.bind_ok]; rfl⟩
  | .sub a b => by
    simp only [names, List.mem_append, or_imp, forall_and, ← trE_known a, ← trE_known b]
    constructor
    · rintro ⟨e, h⟩
      obtain ⟨x, h1, h⟩ := bindO_ok h
      obtain ⟨y, h2, h⟩ := bindO_ok h
      exact ⟨⟨x, h1⟩, y, h2⟩
    · rintro ⟨⟨x, h1⟩, y, h2⟩; exact ⟨_, by simp only [trE, h1, h2, Outcome.bind_ok]; rfl⟩
  | .mul a b => by
    simp only [names, List.mem_append, or_imp, forall_and, ← trE_known a, ← trE_known b]
    constructor
    · rintro ⟨e, h⟩
      obtain ⟨x, h1, h⟩ := bindO_ok h
      obtain ⟨y, h2, h⟩ := bindO_ok h
      exact ⟨⟨x, h1⟩, y, h2⟩
    · rintro ⟨⟨x, h1⟩, y, h2⟩; exact ⟨_, by simp only [trE, h1, h2, Outcome.bind_ok]; rfl⟩
  | .fn1 f a => by
    simp only [names, ← trE_known a]
    constructor
    · rintro ⟨e, h⟩
      obtain ⟨x, h1, h⟩ := bindO_ok h
      exact ⟨x, h1⟩
    · rintro ⟨x, h1⟩; exact ⟨_, by simp only [trE, h1, Outcome.bind_ok]; rfl⟩
  | .fn2 f a b => by
    simp only [names, List.mem_append, or_imp, forall_and, ← trE_known a, ← trE_known b]
    constructor
    · rintro ⟨e, h⟩
      obtain ⟨x, h1, h⟩ := bindO_ok h
      obtain ⟨y, h2, h⟩ := bindO_ok h
      exact ⟨⟨x, h1⟩, y, h2⟩
    · rintro ⟨⟨x, h1⟩, y, h2⟩; exact ⟨_, by simp only [trE, h1, h2, Outcome.bind_ok]; rfl⟩

/-! ## Bounds -/

theorem asRel_andF {f g r} (h : asRel (andF f g) = some r) : asRel f = some r ∨ asRel g = some r := by
  unfold andF at h
  split_ifs at h with h1 h2 h3 h4 h5
  · exact .inl h
  · simp [asRel] at h
  · exact .inr h
  · exact .inl h
  · exact .inl h
  · split at h <;> simp [asRel] at h

theorem asRel_orF {f g r} (h : asRel (orF f g) = some r) : asRel f = some r ∨ asRel g = some r := by
  unfold orF at h
  split_ifs at h with h1 h2 h3 h4 h5
  · exact .inl h
  · simp [asRel] at h
  · exact .inr h
  · exact .inl h
  · exact .inl h
  · split at h <;> simp [asRel] at h

theorem relNeg_neg (o : RelOp) : o.neg.neg = o := by cases o <;> rfl

theorem asRel_notF {f op a b} (h : asRel (notF f) = some (op, a, b)) :
    asRel f = some (op.neg, a, b) := by
  unfold notF at h
  split_ifs at h with h1 h2
  · simp [asRel] at h
  · simp [asRel] at h
  · split at h
    · simp [asRel, h]
    · simp only [asRel, Option.map_eq_some_iff, Prod.mk.injEq, Prod.exists] at h
      obtain ⟨o', a', b', h1, h2, h3, h4⟩ := h
      rw [h1, ← h2, relNeg_neg, h3, h4]

theorem asRel_mkRel {o a b r} (h : asRel (mkRel o a b) = some r) : r = (o, a, b) := by
  unfold mkRel at h
  repeat' split at h
  all_goals simp [asRel] at h
  exact h.symm

/-- The literal of a bound is a double and not beyond the limits. -/
def BoundFine (d : Dbl) (op : RelOp) (a b : Expr) : Prop :=
  (∀ v lo hi ex, a = .var v → asNum b = some (lo, hi, ex) → lo = ex ∧ hi = ex ∧
    (op = .gt → ex < d.maxv) ∧ (op = .lt → d.minv < ex)) ∧
  (∀ v lo hi ex, b = .var v → asNum a = some (lo, hi, ex) → lo = ex ∧ hi = ex ∧
    (flipRel op = .gt → ex < d.maxv) ∧ (flipRel op = .lt → d.minv < ex))

theorem bound_trF {d : Dbl} : ∀ (f : DFml) (pos : Bool) {g}, trF sc f = .ok g → Within d pos f →
    ∀ op a b, asRel g = some (op, a, b) → BoundFine d (if pos then op else op.neg) a b
  | .rel o x y, pos, g, h, hw, op, a, b, hr => by
    obtain ⟨e, h1, h⟩ := bindO_ok h
    obtain ⟨e', h2, h⟩ := bindO_ok h
    simp only [Outcome.ok.injEq] at h; subst h
    have := asRel_mkRel hr
    simp only [Prod.mk.injEq] at this
    obtain ⟨rfl, rfl, rfl⟩ := this
    refine ⟨fun v lo hi ex hv hn => ?_, fun v lo hi ex hv hn => ?_⟩
    · subst hv
      obtain ⟨n, rfl, -⟩ := trE_var x h1
      obtain ⟨l1, l2, l3⟩ := trE_num h2 hn
      have hb := hw.1 n ex rfl l3
      refine ⟨l1, l2, ?_, ?_⟩ <;> cases pos <;> cases o <;> simp_all [DRel.op, RelOp.neg, Beyond]
    · subst hv
      obtain ⟨n, rfl, -⟩ := trE_var y h2
      obtain ⟨l1, l2, l3⟩ := trE_num h1 hn
      have hb := hw.2 n ex rfl l3
      refine ⟨l1, l2, ?_, ?_⟩ <;> cases pos <;> cases o <;>
        simp_all [DRel.op, RelOp.neg, Beyond, flipRel, DRel.flip]
  | .and f1 f2, pos, g, h, hw, op, a, b, hr => by
    obtain ⟨x, h1, h⟩ := bindO_ok h
    obtain ⟨y, h2, h⟩ := bindO_ok h
    simp only [Outcome.ok.injEq] at h; subst h
    rcases asRel_andF hr with hr | hr
    · exact bound_trF f1 pos h1 (by cases pos <;> exact hw.1) op a b hr
    · exact bound_trF f2 pos h2 (by cases pos <;> exact hw.2) op a b hr
  | .or f1 f2, pos, g, h, hw, op, a, b, hr => by
    obtain ⟨x, h1, h⟩ := bindO_ok h
    obtain ⟨y, h2, h⟩ := bindO_ok h
    simp only [Outcome.ok.injEq] at h; subst h
    rcases asRel_orF hr with hr | hr
    · exact bound_trF f1 pos h1 (by cases pos <;> exact hw.1) op a b hr
    · exact bound_trF f2 pos h2 (by cases pos <;> exact hw.2) op a b hr
  | .imp f1 f2, pos, g, h, hw, op, a, b, hr => by
    obtain ⟨x, h1, h⟩ := bindO_ok h
    obtain ⟨y, h2, h⟩ := bindO_ok h
    simp only [Outcome.ok.injEq] at h; subst h
    rcases asRel_orF hr with hr | hr
    · have := bound_trF f1 (!pos) h1 (by cases pos <;> exact hw.1) _ a b (asRel_notF hr)
      cases pos <;> simpa [relNeg_neg] using this
    · exact bound_trF f2 pos h2 (by cases pos <;> exact hw.2) op a b hr
  | .not f1, pos, g, h, hw, op, a, b, hr => by
    obtain ⟨x, h1, h⟩ := bindO_ok h
    simp only [Outcome.ok.injEq] at h; subst h
    have := bound_trF f1 (!pos) h1 (by cases pos <;> exact hw) _ a b (asRel_notF hr)
    cases pos <;> simpa [relNeg_neg] using this

theorem exact_trF {d : Dbl} {f : DFml} {g} (h : trF sc f = .ok g) (hw : Within d true f) :
    ExactBound d g := by
  intro v op lo hi ex hb
  unfold asBound at hb
  split at hb
  · rename_i o w e hr
    simp only [Option.map_eq_some_iff, Prod.mk.injEq] at hb
    obtain ⟨n, hn, rfl, rfl, rfl⟩ := hb
    obtain ⟨a1, a2, a3, a4⟩ := (bound_trF f true h hw _ _ _ hr).1 w lo hi ex rfl hn
    exact ⟨a1, a2, fun _ => ⟨by simpa using a3, by simpa using a4⟩⟩
  · rename_i o e w _ hr
    simp only [Option.map_eq_some_iff, Prod.mk.injEq] at hb
    obtain ⟨n, hn, rfl, rfl, rfl⟩ := hb
    obtain ⟨a1, a2, a3, a4⟩ := (bound_trF f true h hw _ _ _ hr).2 w lo hi ex rfl hn
    exact ⟨a1, a2, fun _ => ⟨by simpa using a3, by simpa using a4⟩⟩
  · cases hb

/-! ## Weakening -/

section
variable {I : Interp} {δ : ℝ} {ρ : Valuation}

theorem weak_andF {f g} : ∀ {pos}, weakF I δ ρ pos (andF f g) →
    if pos then weakF I δ ρ true f ∧ weakF I δ ρ true g else weakF I δ ρ false f ∨ weakF I δ ρ false g := by
  intro pos h
  unfold andF at h
  split_ifs at h with h1 h2 h3 h4 h5
  · subst h1; cases pos
    · exact .inl h
    · simp [weakF] at h
  · subst h2; cases pos
    · exact .inr h
    · simp [weakF] at h
  · subst h3; cases pos
    · exact .inr h
    · exact ⟨by simp [weakF], h⟩
  · subst h4; cases pos
    · exact .inl h
    · exact ⟨h, by simp [weakF]⟩
  · subst h5; cases pos
    · exact .inl h
    · exact ⟨h, h⟩
  · have hm : ∀ (a : Fml) (s : List Fml), weakF I δ ρ pos (.conj (mergeConj a s)) →
        if pos then weakF I δ ρ true a ∧ ∀ x ∈ s, weakF I δ ρ true x
        else weakF I δ ρ false a ∨ ∃ x ∈ s, weakF I δ ρ false x := by
      intro a s h
      unfold mergeConj at h
      cases pos
      · simp only [weakF, Bool.false_eq_true, if_false, weakAny_iff] at h ⊢
        split at h
        · obtain ⟨x, hx, h⟩ := h
          rw [mem_foldl_insertF] at hx
          rcases hx with hx | hx
          · exact .inl (by simp only [weakF, Bool.false_eq_true, if_false, weakAny_iff]; exact ⟨x, hx, h⟩)
          · exact .inr ⟨x, hx, h⟩
        · obtain ⟨x, hx, h⟩ := h
          rw [mem_insertF] at hx
          rcases hx with rfl | hx
          · exact .inl h
          · exact .inr ⟨x, hx, h⟩
      · simp only [weakF, if_true, weakAll_iff] at h ⊢
        split at h
        · refine ⟨?_, fun x hx => h x (mem_foldl_insertF.mpr (.inr hx))⟩
          simp only [weakF, if_true, weakAll_iff]
          exact fun x hx => h x (mem_foldl_insertF.mpr (.inl hx))
        · exact ⟨h _ (mem_insertF.mpr (.inl rfl)), fun x hx => h x (mem_insertF.mpr (.inr hx))⟩
    split at h
    · have := hm _ _ h
      cases pos
      · simp only [Bool.false_eq_true, if_false] at this ⊢
        rcases this with h | h
        · exact .inr h
        · exact .inl (by simp only [weakF, Bool.false_eq_true, if_false, weakAny_iff]; exact h)
      · simp only [if_true] at this ⊢
        exact ⟨by simp only [weakF, if_true, weakAll_iff]; exact this.2, this.1⟩
    · have := hm _ _ h
      cases pos
      · simp only [Bool.false_eq_true, if_false] at this ⊢
        rcases this with h | h
        · exact .inl h
        · exact .inr (by simp only [weakF, Bool.false_eq_true, if_false, weakAny_iff]; exact h)
      · simp only [if_true] at this ⊢
        exact ⟨this.1, by simp only [weakF, if_true, weakAll_iff]; exact this.2⟩
    · cases pos
      · simp only [weakF, Bool.false_eq_true, if_false, weakAny_iff, mem_insertF, List.not_mem_nil,
          or_false] at h ⊢
        obtain ⟨x, rfl | rfl, h⟩ := h
        · exact .inr h
        · exact .inl h
      · simp only [weakF, if_true, weakAll_iff, mem_insertF, List.not_mem_nil, or_false] at h ⊢
        exact ⟨h _ (.inr rfl), h _ (.inl rfl)⟩

theorem weak_orF {f g} : ∀ {pos}, weakF I δ ρ pos (orF f g) →
    if pos then weakF I δ ρ true f ∨ weakF I δ ρ true g else weakF I δ ρ false f ∧ weakF I δ ρ false g := by
  intro pos h
  unfold orF at h
  split_ifs at h with h1 h2 h3 h4 h5
  · subst h1; cases pos
    · simp [weakF] at h
    · exact .inl h
  · subst h2; cases pos
    · simp [weakF] at h
    · exact .inr h
  · subst h3; cases pos
    · exact ⟨by simp [weakF], h⟩
    · exact .inr h
  · subst h4; cases pos
    · exact ⟨h, by simp [weakF]⟩
    · exact .inl h
  · subst h5; cases pos
    · exact ⟨h, h⟩
    · exact .inl h
  · have hm : ∀ (a : Fml) (s : List Fml), weakF I δ ρ pos (.disj (mergeDisj a s)) →
        if pos then weakF I δ ρ true a ∨ ∃ x ∈ s, weakF I δ ρ true x
        else weakF I δ ρ false a ∧ ∀ x ∈ s, weakF I δ ρ false x := by
      intro a s h
      unfold mergeDisj at h
      cases pos
      · simp only [weakF, Bool.false_eq_true, if_false, weakAll_iff] at h ⊢
        split at h
        · refine ⟨?_, fun x hx => h x (mem_foldl_insertF.mpr (.inr hx))⟩
          simp only [weakF, Bool.false_eq_true, if_false, weakAll_iff]
          exact fun x hx => h x (mem_foldl_insertF.mpr (.inl hx))
        · exact ⟨h _ (mem_insertF.mpr (.inl rfl)), fun x hx => h x (mem_insertF.mpr (.inr hx))⟩
      · simp only [weakF, if_true, weakAny_iff] at h ⊢
        split at h
        · obtain ⟨x, hx, h⟩ := h
          rw [mem_foldl_insertF] at hx
          rcases hx with hx | hx
          · exact .inl (by simp only [weakF, if_true, weakAny_iff]; exact ⟨x, hx, h⟩)
          · exact .inr ⟨x, hx, h⟩
        · obtain ⟨x, hx, h⟩ := h
          rw [mem_insertF] at hx
          rcases hx with rfl | hx
          · exact .inl h
          · exact .inr ⟨x, hx, h⟩
    split at h
    · have := hm _ _ h
      cases pos
      · simp only [Bool.false_eq_true, if_false] at this ⊢
        exact ⟨by simp only [weakF, Bool.false_eq_true, if_false, weakAll_iff]; exact this.2, this.1⟩
      · simp only [if_true] at this ⊢
        rcases this with h | h
        · exact .inr h
        · exact .inl (by simp only [weakF, if_true, weakAny_iff]; exact h)
    · have := hm _ _ h
      cases pos
      · simp only [Bool.false_eq_true, if_false] at this ⊢
        exact ⟨this.1, by simp only [weakF, Bool.false_eq_true, if_false, weakAll_iff]; exact this.2⟩
      · simp only [if_true] at this ⊢
        rcases this with h | h
        · exact .inl h
        · exact .inr (by simp only [weakF, if_true, weakAny_iff]; exact h)
    · cases pos
      · simp only [weakF, Bool.false_eq_true, if_false, weakAll_iff, mem_insertF, List.not_mem_nil,
          or_false] at h ⊢
        exact ⟨h _ (.inr rfl), h _ (.inl rfl)⟩
      · simp only [weakF, if_true, weakAny_iff, mem_insertF, List.not_mem_nil, or_false] at h ⊢
        obtain ⟨x, rfl | rfl, h⟩ := h
        · exact .inr h
        · exact .inl h

theorem weak_notF {f pos} (h : weakF I δ ρ pos (notF f)) : weakF I δ ρ (!pos) f := by
  unfold notF at h
  split_ifs at h with h1 h2
  · subst h1; cases pos <;> simp_all [weakF]
  · subst h2; cases pos <;> simp_all [weakF]
  · split at h
    · cases pos <;> simpa [weakF] using h
    · cases pos <;> simpa [weakF] using h

theorem relSem_weak (hδ : 0 ≤ δ) {op x y} (h : relSem op x y) : weakRel δ op x y := by
  cases op <;> simp only [relSem, weakRel] at *
  · rw [h]; simpa using hδ
  all_goals linarith

theorem weak_mkRel (hδ : 0 ≤ δ) {op a b pos} (h : weakF I δ ρ pos (mkRel op a b)) :
    weakRel δ (if pos then op else op.neg) (eval I ρ a) (eval I ρ b) := by
  have hh := holds_mkRel (I := I) (ρ := ρ) (op := op) (a := a) (b := b)
  unfold mkRel at h hh
  split at h
  · rename_i c hc
    rw [hc] at hh
    simp only at hh
    split_ifs at h hh with ht
    · simp only [weakF] at h; subst h
      exact relSem_weak hδ (hh.mp (by simp [holds]))
    · simp only [weakF] at h; subst h
      exact relSem_weak hδ (relSem_neg.mpr fun h => by simpa [holds] using hh.mpr h)
  · simpa [weakF] using h

theorem weakRelP_of {o : DRel} {pos x y} (h : weakRel δ (if pos then o.op else o.op.neg) x y) :
    weakRelP δ pos o x y := by
  cases pos <;> cases o <;> simp_all [DRel.op, RelOp.neg, weakRel, weakRelP] <;> linarith

theorem weak_trF {σ} (hδ : 0 ≤ δ) (hA : Agree sc ρ σ) : ∀ (f : DFml) (pos : Bool) {g},
    trF sc f = .ok g → weakF I δ ρ pos g → weakSat I δ σ pos f
  | .rel o a b, pos, g, h, hw => by
    obtain ⟨x, h1, h⟩ := bindO_ok h
    obtain ⟨y, h2, h⟩ := bindO_ok h
    simp only [Outcome.ok.injEq] at h; subst h
    have := weakRelP_of (weak_mkRel hδ hw)
    rw [eval_trE hA a h1, eval_trE hA b h2] at this
    cases pos <;> exact this
  | .and a b, pos, g, h, hw => by
    obtain ⟨x, h1, h⟩ := bindO_ok h
    obtain ⟨y, h2, h⟩ := bindO_ok h
    simp only [Outcome.ok.injEq] at h; subst h
    have := weak_andF hw
    cases pos
    · exact this.imp (weak_trF hδ hA a false h1) (weak_trF hδ hA b false h2)
    · exact this.imp (weak_trF hδ hA a true h1) (weak_trF hδ hA b true h2)
  | .or a b, pos, g, h, hw => by
    obtain ⟨x, h1, h⟩ := bindO_ok h
    obtain ⟨y, h2, h⟩ := bindO_ok h
    simp only [Outcome.ok.injEq] at h; subst h
    have := weak_orF hw
    cases pos
    · exact this.imp (weak_trF hδ hA a false h1) (weak_trF hδ hA b false h2)
    · exact this.imp (weak_trF hδ hA a true h1) (weak_trF hδ hA b true h2)
  | .imp a b, pos, g, h, hw => by
    obtain ⟨x, h1, h⟩ := bindO_ok h
    obtain ⟨y, h2, h⟩ := bindO_ok h
    simp only [Outcome.ok.injEq] at h; subst h
    have := weak_orF hw
    cases pos
    · exact this.imp (fun h => weak_trF hδ hA a true h1 (weak_notF h)) (weak_trF hδ hA b false h2)
    · exact this.imp (fun h => weak_trF hδ hA a false h1 (weak_notF h)) (weak_trF hδ hA b true h2)
  | .not a, pos, g, h, hw => by
    obtain ⟨x, h1, h⟩ := bindO_ok h
    simp only [Outcome.ok.injEq] at h; subst h
    have := weak_trF hδ hA a (!pos) h1 (weak_notF hw)
    cases pos <;> exact this

end

end Verif.Proof.Dr
