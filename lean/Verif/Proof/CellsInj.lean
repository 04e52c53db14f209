import Verif.Proof.Cells
import Verif.Spec.Cells

/-!
# Codes determine cells whose real constants are apart; `EqualTo` is equality
-/

namespace Verif.Proof
open Verif.Model Verif.Spec

theorem Fn1.kind_inj {f g : Fn1} (h : f.kind = g.kind) : f = g := by
  cases f <;> cases g <;> first | rfl | simp [Fn1.kind] at h

theorem Fn2.kind_inj {f g : Fn2} (h : f.kind = g.kind) : f = g := by
  cases f <;> cases g <;> first | rfl | simp [Fn2.kind] at h

theorem RelOp.kind_inj {f g : RelOp} (h : f.kind = g.kind) : f = g := by
  cases f <;> cases g <;> first | rfl | simp [RelOp.kind] at h

theorem codeN_inj {x y : List Nat} {s t : List ℚ} (h : codeN x ++ s = codeN y ++ t) :
    x = y ∧ s = t := by
  induction x generalizing y with
  | nil =>
    cases y with
    | nil => simpa [codeN] using h
    | cons j js => simp [codeN] at h
  | cons i is ih =>
    cases y with
    | nil => simp [codeN] at h
    | cons j js =>
      simp only [codeN, List.cons_append, List.cons.injEq, true_and, Nat.cast_inj] at h
      obtain ⟨rfl, e⟩ := h
      obtain ⟨rfl, h1⟩ := ih e
      exact ⟨rfl, h1⟩

theorem kind_of_code {a b : Cell} {s t : List ℚ} (h : codeC a ++ s = codeC b ++ t) :
    a.kind = b.kind := by
  obtain ⟨r, hr⟩ := codeC_head a
  obtain ⟨r', hr'⟩ := codeC_head b
  rw [hr, hr', List.cons_append, List.cons_append, List.cons.injEq] at h
  exact_mod_cast h.1

theorem kind_of_codeF {a b : FCell} {s t : List ℚ} (h : codeF a ++ s = codeF b ++ t) :
    a.kind = b.kind := by
  obtain ⟨r, hr⟩ := codeF_head a
  obtain ⟨r', hr'⟩ := codeF_head b
  rw [hr, hr', List.cons_append, List.cons_append, List.cons.injEq] at h
  exact_mod_cast h.1

mutual
theorem codeC_inj {S : RC → Prop} (hS : Apart S) : ∀ (a b : Cell) (s t : List ℚ), RcC S a →
    RcC S b → codeC a ++ s = codeC b ++ t → a = b ∧ s = t
  | .const p, b, s, t, ha, hb, h => by
    have hk := kind_of_code h
    cases b with
    | const q => simpa [codeC] using h
    | un f _ => cases f <;> simp [Cell.kind, Fn1.kind] at hk
    | bin f _ _ => cases f <;> simp [Cell.kind, Fn2.kind] at hk
    | _ => simp [Cell.kind] at hk
  | .rconst l u f, b, s, t, ha, hb, h => by
    have hk := kind_of_code h
    cases b with
    | rconst l' u' f' =>
      simp only [codeC, List.cons_append, List.cons.injEq, true_and, List.nil_append] at h
      have := hS _ _ ha hb h.1
      simp only [Prod.mk.injEq] at this
      obtain ⟨rfl, rfl, rfl⟩ := this
      exact ⟨rfl, h.2⟩
    | un f _ => cases f <;> simp [Cell.kind, Fn1.kind] at hk
    | bin f _ _ => cases f <;> simp [Cell.kind, Fn2.kind] at hk
    | _ => simp [Cell.kind] at hk
  | .var i, b, s, t, ha, hb, h => by
    have hk := kind_of_code h
    cases b with
    | var q => simpa [codeC] using h
    | un f _ => cases f <;> simp [Cell.kind, Fn1.kind] at hk
    | bin f _ _ => cases f <;> simp [Cell.kind, Fn2.kind] at hk
    | _ => simp [Cell.kind] at hk
  | .add c ts, b, s, t, ha, hb, h => by
    have hk := kind_of_code h
    cases b with
    | add d us =>
      simp only [codeC, List.cons_append, List.cons.injEq, true_and] at h
      obtain ⟨rfl, h1⟩ := h
      obtain ⟨rfl, h2⟩ := codeT_inj hS ts us s t ha hb h1
      exact ⟨rfl, h2⟩
    | un f _ => cases f <;> simp [Cell.kind, Fn1.kind] at hk
    | bin f _ _ => cases f <;> simp [Cell.kind, Fn2.kind] at hk
    | _ => simp [Cell.kind] at hk
  | .mul c ts, b, s, t, ha, hb, h => by
    have hk := kind_of_code h
    cases b with
    | mul d us =>
      simp only [codeC, List.cons_append, List.cons.injEq, true_and] at h
      obtain ⟨rfl, h1⟩ := h
      obtain ⟨rfl, h2⟩ := codeG_inj hS ts us s t ha hb h1
      exact ⟨rfl, h2⟩
    | un f _ => cases f <;> simp [Cell.kind, Fn1.kind] at hk
    | bin f _ _ => cases f <;> simp [Cell.kind, Fn2.kind] at hk
    | _ => simp [Cell.kind] at hk
  | .un f x, b, s, t, ha, hb, h => by
    have hk := kind_of_code h
    cases b with
    | un g y =>
      obtain rfl := Fn1.kind_inj hk
      simp only [codeC, List.cons_append, List.cons.injEq, true_and] at h
      obtain ⟨rfl, h1⟩ := codeC_inj hS x y s t ha hb h
      exact ⟨rfl, h1⟩
    | bin g _ _ => cases f <;> cases g <;> simp [Cell.kind, Fn1.kind, Fn2.kind] at hk
    | _ => cases f <;> simp [Cell.kind, Fn1.kind] at hk
  | .bin f x y, b, s, t, ha, hb, h => by
    have hk := kind_of_code h
    cases b with
    | bin g x' y' =>
      obtain rfl := Fn2.kind_inj hk
      simp only [codeC, List.cons_append, List.cons.injEq, true_and, List.append_assoc] at h
      obtain ⟨rfl, h1⟩ := codeC_inj hS x x' _ _ ha.1 hb.1 h
      obtain ⟨rfl, h2⟩ := codeC_inj hS y y' _ _ ha.2 hb.2 h1
      exact ⟨rfl, h2⟩
    | un g _ => cases f <;> cases g <;> simp [Cell.kind, Fn1.kind, Fn2.kind] at hk
    | _ => cases f <;> simp [Cell.kind, Fn2.kind] at hk
  | .ite c x y, b, s, t, ha, hb, h => by
    have hk := kind_of_code h
    cases b with
    | ite c' x' y' =>
      simp only [codeC, List.cons_append, List.cons.injEq, true_and, List.append_assoc] at h
      obtain ⟨rfl, h1⟩ := codeF_inj hS c c' _ _ ha.1 hb.1 h
      obtain ⟨rfl, h2⟩ := codeC_inj hS x x' _ _ ha.2.1 hb.2.1 h1
      obtain ⟨rfl, h3⟩ := codeC_inj hS y y' _ _ ha.2.2 hb.2.2 h2
      exact ⟨rfl, h3⟩
    | un f _ => cases f <;> simp [Cell.kind, Fn1.kind] at hk
    | bin f _ _ => cases f <;> simp [Cell.kind, Fn2.kind] at hk
    | _ => simp [Cell.kind] at hk
  | .nan, b, s, t, ha, hb, h => by
    have hk := kind_of_code h
    cases b with
    | nan => simpa [codeC] using h
    | un f _ => cases f <;> simp [Cell.kind, Fn1.kind] at hk
    | bin f _ _ => cases f <;> simp [Cell.kind, Fn2.kind] at hk
    | _ => simp [Cell.kind] at hk
  | .uf n vs, b, s, t, ha, hb, h => by
    have hk := kind_of_code h
    cases b with
    | uf m ws =>
      simp only [codeC, List.cons_append, List.cons.injEq, true_and, List.append_assoc] at h
      obtain ⟨rfl, h1⟩ := codeN_inj h
      obtain ⟨rfl, h2⟩ := codeN_inj h1
      exact ⟨rfl, h2⟩
    | un f _ => cases f <;> simp [Cell.kind, Fn1.kind] at hk
    | bin f _ _ => cases f <;> simp [Cell.kind, Fn2.kind] at hk
    | _ => simp [Cell.kind] at hk
theorem codeT_inj {S : RC → Prop} (hS : Apart S) : ∀ (a b : CTerms) (s t : List ℚ), RcT S a →
    RcT S b → codeT a ++ s = codeT b ++ t → a = b ∧ s = t
  | .nil, b, s, t, ha, hb, h => by cases b <;> simp [codeT] at h ⊢; exact h
  | .cons e q ts, .nil, s, t, ha, hb, h => by simp [codeT] at h
  | .cons e q ts, .cons e' q' us, s, t, ha, hb, h => by
    simp only [codeT, List.cons_append, List.cons.injEq, true_and, List.append_assoc] at h
    obtain ⟨rfl, h1⟩ := codeC_inj hS e e' _ _ ha.1 hb.1 h
    simp only [List.cons.injEq] at h1
    obtain ⟨rfl, h2⟩ := h1
    obtain ⟨rfl, h3⟩ := codeT_inj hS ts us s t ha.2 hb.2 h2
    exact ⟨rfl, h3⟩
theorem codeG_inj {S : RC → Prop} (hS : Apart S) : ∀ (a b : CFactors) (s t : List ℚ), RcG S a →
    RcG S b → codeG a ++ s = codeG b ++ t → a = b ∧ s = t
  | .nil, b, s, t, ha, hb, h => by cases b <;> simp [codeG] at h ⊢; exact h
  | .cons e q ts, .nil, s, t, ha, hb, h => by simp [codeG] at h
  | .cons e q ts, .cons e' q' us, s, t, ha, hb, h => by
    simp only [codeG, List.cons_append, List.cons.injEq, true_and, List.append_assoc] at h
    obtain ⟨rfl, h1⟩ := codeC_inj hS e e' _ _ ha.1 hb.1 h
    obtain ⟨rfl, h2⟩ := codeC_inj hS q q' _ _ ha.2.1 hb.2.1 h1
    obtain ⟨rfl, h3⟩ := codeG_inj hS ts us s t ha.2.2 hb.2.2 h2
    exact ⟨rfl, h3⟩
theorem codeF_inj {S : RC → Prop} (hS : Apart S) : ∀ (a b : FCell) (s t : List ℚ), RcF S a →
    RcF S b → codeF a ++ s = codeF b ++ t → a = b ∧ s = t
  | .ff, b, s, t, ha, hb, h => by
    have hk := kind_of_codeF h
    cases b with
    | ff => simpa [codeF] using h
    | rel op _ _ => cases op <;> simp [FCell.kind, RelOp.kind] at hk
    | _ => simp [FCell.kind] at hk
  | .tt, b, s, t, ha, hb, h => by
    have hk := kind_of_codeF h
    cases b with
    | tt => simpa [codeF] using h
    | rel op _ _ => cases op <;> simp [FCell.kind, RelOp.kind] at hk
    | _ => simp [FCell.kind] at hk
  | .var i, b, s, t, ha, hb, h => by
    have hk := kind_of_codeF h
    cases b with
    | var j => simpa [codeF] using h
    | rel op _ _ => cases op <;> simp [FCell.kind, RelOp.kind] at hk
    | _ => simp [FCell.kind] at hk
  | .rel f x y, b, s, t, ha, hb, h => by
    have hk := kind_of_codeF h
    cases b with
    | rel g x' y' =>
      obtain rfl := RelOp.kind_inj hk
      simp only [codeF, List.cons_append, List.cons.injEq, true_and, List.append_assoc] at h
      obtain ⟨rfl, h1⟩ := codeC_inj hS x x' _ _ ha.1 hb.1 h
      obtain ⟨rfl, h2⟩ := codeC_inj hS y y' _ _ ha.2 hb.2 h1
      exact ⟨rfl, h2⟩
    | _ => cases f <;> simp [FCell.kind, RelOp.kind] at hk
  | .conj fs, b, s, t, ha, hb, h => by
    have hk := kind_of_codeF h
    cases b with
    | conj gs =>
      simp only [codeF, List.cons_append, List.cons.injEq, true_and] at h
      obtain ⟨rfl, h1⟩ := codeL_inj hS fs gs _ _ ha hb h
      exact ⟨rfl, h1⟩
    | rel op _ _ => cases op <;> simp [FCell.kind, RelOp.kind] at hk
    | _ => simp [FCell.kind] at hk
  | .disj fs, b, s, t, ha, hb, h => by
    have hk := kind_of_codeF h
    cases b with
    | disj gs =>
      simp only [codeF, List.cons_append, List.cons.injEq, true_and] at h
      obtain ⟨rfl, h1⟩ := codeL_inj hS fs gs _ _ ha hb h
      exact ⟨rfl, h1⟩
    | rel op _ _ => cases op <;> simp [FCell.kind, RelOp.kind] at hk
    | _ => simp [FCell.kind] at hk
  | .neg f, b, s, t, ha, hb, h => by
    have hk := kind_of_codeF h
    cases b with
    | neg g =>
      simp only [codeF, List.cons_append, List.cons.injEq, true_and] at h
      obtain ⟨rfl, h1⟩ := codeF_inj hS f g _ _ ha hb h
      exact ⟨rfl, h1⟩
    | rel op _ _ => cases op <;> simp [FCell.kind, RelOp.kind] at hk
    | _ => simp [FCell.kind] at hk
  | .all vs f, b, s, t, ha, hb, h => by
    have hk := kind_of_codeF h
    cases b with
    | all ws g =>
      simp only [codeF, List.cons_append, List.cons.injEq, true_and, List.append_assoc] at h
      obtain ⟨rfl, h1⟩ := codeN_inj h
      obtain ⟨rfl, h2⟩ := codeF_inj hS f g _ _ ha hb h1
      exact ⟨rfl, h2⟩
    | rel op _ _ => cases op <;> simp [FCell.kind, RelOp.kind] at hk
    | _ => simp [FCell.kind] at hk
theorem codeL_inj {S : RC → Prop} (hS : Apart S) : ∀ (a b : FCells) (s t : List ℚ), RcL S a →
    RcL S b → codeL a ++ s = codeL b ++ t → a = b ∧ s = t
  | .nil, b, s, t, ha, hb, h => by cases b <;> simp [codeL] at h ⊢; exact h
  | .cons e ts, .nil, s, t, ha, hb, h => by simp [codeL] at h
  | .cons e ts, .cons e' us, s, t, ha, hb, h => by
    simp only [codeL, List.cons_append, List.cons.injEq, true_and, List.append_assoc] at h
    obtain ⟨rfl, h1⟩ := codeF_inj hS e e' _ _ ha.1 hb.1 h
    obtain ⟨rfl, h2⟩ := codeL_inj hS ts us s t ha.2 hb.2 h1
    exact ⟨rfl, h2⟩
end

theorem code_inj {S : RC → Prop} (hS : Apart S) {a b : Cell} (ha : RcC S a) (hb : RcC S b)
    (h : codeC a = codeC b) : a = b :=
  (codeC_inj hS a b [] [] ha hb (by rw [h])).1

theorem codeF_inj' {S : RC → Prop} (hS : Apart S) {a b : FCell} (ha : RcF S a) (hb : RcF S b)
    (h : codeF a = codeF b) : a = b :=
  (codeF_inj hS a b [] [] ha hb (by rw [h])).1

/-! ## `EqualTo` -/

mutual
theorem equalTo_iff : ∀ a b : Cell, a.equalTo b = true ↔ a = b
  | .const p, b => by cases b <;> simp [Cell.equalTo]
  | .rconst l u f, b => by cases b <;> simp [Cell.equalTo]
  | .var i, b => by cases b <;> simp [Cell.equalTo]
  | .add c ts, b => by cases b <;> simp [Cell.equalTo, equalTo_iffT ts]
  | .mul c fs, b => by cases b <;> simp [Cell.equalTo, equalTo_iffG fs]
  | .un f e, b => by cases b <;> simp [Cell.equalTo, equalTo_iff e]
  | .bin f x y, b => by cases b <;> simp [Cell.equalTo, equalTo_iff x, equalTo_iff y]
  | .ite c x y, b => by
    cases b <;> simp [Cell.equalTo, equalTo_iffF c, equalTo_iff x, equalTo_iff y]
  | .nan, b => by cases b <;> simp [Cell.equalTo]
  | .uf n vs, b => by cases b <;> simp [Cell.equalTo]
theorem equalTo_iffT : ∀ a b : CTerms, a.equalTo b = true ↔ a = b
  | .nil, b => by cases b <;> simp [CTerms.equalTo]
  | .cons e q ts, b => by
    cases b <;> simp [CTerms.equalTo, equalTo_iff e, equalTo_iffT ts, and_assoc]
theorem equalTo_iffG : ∀ a b : CFactors, a.equalTo b = true ↔ a = b
  | .nil, b => by cases b <;> simp [CFactors.equalTo]
  | .cons e q ts, b => by
    cases b <;> simp [CFactors.equalTo, equalTo_iff e, equalTo_iff q, equalTo_iffG ts, and_assoc]
theorem equalTo_iffF : ∀ a b : FCell, a.equalTo b = true ↔ a = b
  | .ff, b => by cases b <;> simp [FCell.equalTo]
  | .tt, b => by cases b <;> simp [FCell.equalTo]
  | .var i, b => by cases b <;> simp [FCell.equalTo]
  | .rel o x y, b => by cases b <;> simp [FCell.equalTo, equalTo_iff x, equalTo_iff y]
  | .conj fs, b => by cases b <;> simp [FCell.equalTo, equalTo_iffL fs]
  | .disj fs, b => by cases b <;> simp [FCell.equalTo, equalTo_iffL fs]
  | .neg f, b => by cases b <;> simp [FCell.equalTo, equalTo_iffF f]
  | .all vs f, b => by cases b <;> simp [FCell.equalTo, equalTo_iffF f]
theorem equalTo_iffL : ∀ a b : FCells, a.equalTo b = true ↔ a = b
  | .nil, b => by cases b <;> simp [FCells.equalTo]
  | .cons f fs, b => by cases b <;> simp [FCells.equalTo, equalTo_iffF f, equalTo_iffL fs]
end

end Verif.Proof
