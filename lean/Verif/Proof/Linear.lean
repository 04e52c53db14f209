import Verif.Proof.ExprNorm

/-!
# Linear expressions are built without running out of depth
-/

namespace Verif.Proof
open Verif.Model Verif.Spec

mutual
/-- Variables, and sums of such with coefficients. -/
def AtomC : Cell → Prop
  | .var _ => True
  | .add c ts => AtomT ts ∧ (c = 0 → 2 ≤ (keysT ts).length)
  | _ => False
/-- See `AtomC`. -/
def AtomT : CTerms → Prop
  | .nil => True
  | .cons e _ ts => AtomC e ∧ AtomT ts
end

/-- What linear expressions are stored as. -/
def Lin (e : Cell) : Prop :=
  (∃ q, e = .const q) ∨ AtomC e ∨ ∃ q a, e = .mul q (.cons a (.const 1) .nil) ∧ AtomC a ∧ q ≠ 1

theorem atom_cases {e : Cell} (h : AtomC e) :
    (∃ i, e = .var i) ∨ ∃ c ts, e = .add c ts ∧ AtomT ts ∧ (c = 0 → 2 ≤ (keysT ts).length) := by
  cases e with
  | var i => exact Or.inl ⟨i, rfl⟩
  | add c ts => exact Or.inr ⟨c, ts, rfl, by simpa [AtomC] using h⟩
  | _ => simp [AtomC] at h

theorem atom_not_const {e : Cell} (h : AtomC e) : e.isConst = false := by
  rcases atom_cases h with ⟨i, rfl⟩ | ⟨c, ts, rfl, -⟩ <;> rfl

theorem atom_add (A : Arith) {q : ℚ} {e : Cell} (he : AtomC e) :
    ∀ {ts : CTerms}, AtomT ts → AtomT (CTerms.addTerm A q e ts)
  | .nil, _ => by simp [CTerms.addTerm, AtomT, he]
  | .cons k p ts, h => by
    simp only [AtomT] at h
    unfold CTerms.addTerm
    split_ifs
    · simp [AtomT, he, h.1, h.2]
    · simp only [AtomT]
      exact ⟨h.1, atom_add A he h.2⟩
    · exact h.2
    · simp [AtomT, h.1, h.2]

theorem atom_map (A : Arith) : ∀ {us ts : CTerms}, AtomT us → AtomT ts →
    ∃ r, CTerms.addMap A ts us = .ok r ∧ AtomT r
  | .nil, ts, _, h => ⟨ts, rfl, h⟩
  | .cons e q us, ts, hu, h => by
    simp only [AtomT] at hu
    unfold CTerms.addMap
    rw [atom_not_const hu.1]
    exact atom_map A hu.2 (atom_add A hu.1 h)

theorem atom_negate : ∀ {ts : CTerms}, AtomT ts → AtomT ts.negate
  | .nil, _ => trivial
  | .cons e q ts, h => by
    simp only [AtomT, CTerms.negate] at h ⊢
    exact ⟨h.1, atom_negate h.2⟩

/-- `q·a` for an atom. -/
theorem getMul_lin (A : Arith) (n : Nat) (q : ℚ) {a : Cell} (ha : AtomC a) :
    ∃ r, getMul A (n + 2) (q, .cons a (.const 1) .nil) = .ok r ∧ Lin r := by
  unfold getMul
  dsimp only
  split_ifs with h0 h1
  · exact ⟨_, rfl, .inl ⟨0, rfl⟩⟩
  · refine ⟨a, ?_, .inr (.inl ha)⟩
    rcases atom_cases ha with ⟨i, rfl⟩ | ⟨c, ts, rfl, -⟩ <;> simp [powE]
  · exact ⟨_, rfl, .inr (.inr ⟨q, a, rfl, ha, h1⟩)⟩

theorem getMul_one (A : Arith) (n : Nat) {a : Cell} (ha : AtomC a) :
    getMul A (n + 2) (1, .cons a (.const 1) .nil) = .ok a := by
  unfold getMul
  dsimp only
  rw [if_neg one_ne_zero, if_pos rfl]
  rcases atom_cases ha with ⟨i, rfl⟩ | ⟨c, ts, rfl, -⟩ <;> simp [powE]

/-- The factory with a constant and an atom. -/
theorem mulFac_lin (A : Arith) (n : Nat) (q : ℚ) {a : Cell} (ha : AtomC a) :
    ∃ f, mulExpr A (n + 3) (1, .nil) (.const q) = .ok f ∧
      ∃ g, mulExpr A (n + 3) f a = .ok g ∧ ∃ r, getMul A (n + 3) g = .ok r ∧ Lin r := by
  have e1 : mulExpr A (n + 3) (1, .nil) (.const q) =
      .ok (if q = 0 then 0 else A.rnd (1 * q), .nil) := by
    unfold mulExpr
    dsimp only
    rw [if_neg one_ne_zero]
    split_ifs <;> rfl
  refine ⟨_, e1, ?_⟩
  generalize (if q = 0 then 0 else A.rnd (1 * q)) = p
  by_cases hp : p = 0
  · subst hp
    exact ⟨(0, .nil), by simp [mulExpr], _, by simp [getMul], .inl ⟨0, rfl⟩⟩
  · have ht : mulTerm A (n + 2) .nil a (.const 1) = .ok (.cons a (.const 1) .nil) := by
      rcases atom_cases ha with ⟨i, rfl⟩ | ⟨c, ts, rfl, -⟩ <;>
        simp [mulTerm, Cell.isConst, mulIns]
    have e2 : mulExpr A (n + 3) (p, .nil) a = .ok (p, .cons a (.const 1) .nil) := by
      rcases atom_cases ha with ⟨i, rfl⟩ | ⟨c, ts, rfl, -⟩ <;>
        (unfold mulExpr; dsimp only; rw [if_neg hp, ht]; rfl)
    exact ⟨_, e2, getMul_lin A (n + 1) p ha⟩

theorem mulFac_lin' (A : Arith) (n : Nat) (q : ℚ) {a : Cell} (ha : AtomC a) :
    ∃ f, mulExpr A (n + 3) (1, .nil) a = .ok f ∧
      ∃ g, mulExpr A (n + 3) f (.const q) = .ok g ∧ ∃ r, getMul A (n + 3) g = .ok r ∧ Lin r := by
  have ht : mulTerm A (n + 2) .nil a (.const 1) = .ok (.cons a (.const 1) .nil) := by
    rcases atom_cases ha with ⟨i, rfl⟩ | ⟨c, ts, rfl, -⟩ <;>
      simp [mulTerm, Cell.isConst, mulIns]
  have e2 : mulExpr A (n + 3) (1, .nil) a = .ok (1, .cons a (.const 1) .nil) := by
    rcases atom_cases ha with ⟨i, rfl⟩ | ⟨c, ts, rfl, -⟩ <;>
      (unfold mulExpr; dsimp only; rw [if_neg one_ne_zero, ht]; rfl)
  refine ⟨_, e2, ?_⟩
  by_cases hq : q = 0
  · subst hq
    exact ⟨(0, .nil), by simp [mulExpr], _, by simp [getMul], .inl ⟨0, rfl⟩⟩
  · exact ⟨_, by simp only [mulExpr]; rw [if_neg one_ne_zero, if_neg hq],
      getMul_lin A (n + 1) _ ha⟩

/-- Opposites. -/
theorem negate_lin (A : Arith) (n : Nat) {c : ℚ} {ts : CTerms} (h : AtomC (.add c ts)) :
    ∃ r, getAdd A (n + 1) (-c, ts.negate) = .ok r ∧ Lin r := by
  simp only [AtomC] at h
  have ha : AtomC (.add (-c) ts.negate) := by
    simp only [AtomC, keys_negate]
    exact ⟨atom_negate h.1, fun h0 => h.2 (by simpa using h0)⟩
  unfold getAdd
  split
  · exact ⟨_, rfl, .inl ⟨_, rfl⟩⟩
  · rename_i e q he
    split_ifs with h0
    · have := h.2 (by simpa using h0)
      rw [← keys_negate, he] at this
      simp [keysT] at this
    · exact ⟨_, rfl, .inr (.inl ha)⟩
  · exact ⟨_, rfl, .inr (.inl ha)⟩

/-- Scaling, constant first. -/
theorem scale_lin (A : Arith) (n : Nat) (q : ℚ) {e : Cell} (he : Lin e) :
    ∃ r, mulE A (n + 7) (.const q) e = .ok r ∧ Lin r := by
  unfold mulE
  dsimp only
  split_ifs with h1 h2
  · exact ⟨_, rfl, he⟩
  · exact ⟨_, rfl, .inl ⟨q, rfl⟩⟩
  rcases he with ⟨p, rfl⟩ | ha | ⟨p, a, rfl, ha, hp1⟩
  · exact ⟨.const (A.rnd (q * p)), by simp [mulRest], .inl ⟨_, rfl⟩⟩
  · have hf : ∃ r, mulFlat A (n + 5) (.const q) e = .ok r ∧ Lin r := by
      obtain ⟨f, e1, g, e2, r, e3, hr⟩ := mulFac_lin A (n + 1) q ha
      refine ⟨r, ?_, hr⟩
      rcases atom_cases ha with ⟨i, rfl⟩ | ⟨c, ts, rfl, -⟩ <;>
        (unfold mulFlat; dsimp only; simp only [Cell.equalTo, Bool.false_eq_true, if_false];
         rw [e1, Run.bind_ok, e2, Run.bind_ok, e3])
    rcases atom_cases ha with ⟨i, rfl⟩ | ⟨c, ts, rfl, -⟩
    · simp only
      unfold mulRest
      dsimp only
      split_ifs
      · exact hf
      · exact ⟨_, rfl, .inl ⟨0, rfl⟩⟩
      · exact hf
    · simp only
      unfold mulRest
      dsimp only
      split_ifs
      · exact negate_lin A (n + 4) ha
      · exact ⟨_, rfl, .inl ⟨0, rfl⟩⟩
      · exact hf
  · simp only
    unfold mulRest
    dsimp only
    split_ifs with h3 h4
    · exact getMul_lin A (n + 3) _ ha
    · exact ⟨_, rfl, .inl ⟨0, rfl⟩⟩
    · unfold mulFlat
      dsimp only
      by_cases hp : p = 0
      · subst hp
        exact ⟨.const 0, by simp [mulExpr, getMul], .inl ⟨0, rfl⟩⟩
      · have : mulExpr A (n + 4) (p, .cons a (.const 1) .nil) (.const q) =
            .ok (A.rnd (p * q), .cons a (.const 1) .nil) := by
          simp only [mulExpr]
          rw [if_neg hp, if_neg h4]
        rw [this, Run.bind_ok]
        exact getMul_lin A (n + 2) _ ha

/-- Scaling, constant second. -/
theorem scale_lin' (A : Arith) (n : Nat) (q : ℚ) {e : Cell} (he : Lin e) :
    ∃ r, mulE A (n + 7) e (.const q) = .ok r ∧ Lin r := by
  unfold mulE
  split_ifs with h1 h2
  · exact ⟨_, rfl, .inl ⟨q, rfl⟩⟩
  · exact ⟨_, rfl, he⟩
  rcases he with ⟨p, rfl⟩ | ha | ⟨p, a, rfl, ha, hp1⟩
  · exact ⟨.const (A.rnd (p * q)), by simp [mulRest], .inl ⟨_, rfl⟩⟩
  · have hf : ∃ r, mulFlat A (n + 5) e (.const q) = .ok r ∧ Lin r := by
      obtain ⟨f, e1, g, e2, r, e3, hr⟩ := mulFac_lin' A (n + 1) q ha
      refine ⟨r, ?_, hr⟩
      rcases atom_cases ha with ⟨i, rfl⟩ | ⟨c, ts, rfl, -⟩ <;>
        (unfold mulFlat; dsimp only; simp only [Cell.equalTo, Bool.false_eq_true, if_false];
         rw [e1, Run.bind_ok, e2, Run.bind_ok, e3])
    rcases atom_cases ha with ⟨i, rfl⟩ | ⟨c, ts, rfl, -⟩
    · simp only
      unfold mulRest
      dsimp only
      split_ifs
      · exact hf
      · exact ⟨_, rfl, .inl ⟨0, rfl⟩⟩
      · exact hf
    · simp only
      unfold mulRest
      dsimp only
      split_ifs
      · exact negate_lin A (n + 4) ha
      · exact ⟨_, rfl, .inl ⟨0, rfl⟩⟩
      · exact hf
  · simp only
    unfold mulRest
    dsimp only
    split_ifs with h3 h4
    · exact getMul_lin A (n + 3) _ ha
    · exact ⟨_, rfl, .inl ⟨0, rfl⟩⟩
    · unfold mulFlat
      dsimp only
      by_cases hp : p = 0
      · subst hp
        exact ⟨.const 0, by simp [mulExpr, getMul], .inl ⟨0, rfl⟩⟩
      · have : mulExpr A (n + 4) (p, .cons a (.const 1) .nil) (.const q) =
            .ok (A.rnd (p * q), .cons a (.const 1) .nil) := by
          simp only [mulExpr]
          rw [if_neg hp, if_neg h4]
        rw [this, Run.bind_ok]
        exact getMul_lin A (n + 2) _ ha

/-- The end of an addition. -/
theorem getAdd_lin (A : Arith) (n : Nat) (c : ℚ) {ts : CTerms} (h : AtomT ts) :
    ∃ r, getAdd A (n + 8) (c, ts) = .ok r ∧ Lin r := by
  unfold getAdd
  split
  · exact ⟨_, rfl, .inl ⟨_, rfl⟩⟩
  · simp only [AtomT] at h
    split_ifs with h0
    · exact scale_lin A n _ (.inr (.inl h.1))
    · exact ⟨_, rfl, .inr (.inl (by simp [AtomC, AtomT, h.1, h0]))⟩
  · rename_i t n1 n2
    refine ⟨_, rfl, .inr (.inl ?_)⟩
    simp only [AtomC]
    refine ⟨h, fun _ => ?_⟩
    cases ts with
    | nil => exact absurd rfl n1
    | cons e q ts =>
      cases ts with
      | nil => exact absurd rfl (n2 e q)
      | cons e' q' ts => simp [keysT]

theorem addExpr_lin (A : Arith) (n : Nat) (c : ℚ) {ts : CTerms} {e : Cell} (h : AtomT ts)
    (he : Lin e) : ∃ c' ts', addExpr A (n + 3) (c, ts) e = .ok (c', ts') ∧ AtomT ts' := by
  rcases he with ⟨p, rfl⟩ | ha | ⟨p, a, rfl, ha, hp1⟩
  · exact ⟨A.rnd (c + p), ts, by simp only [addExpr], h⟩
  · rcases atom_cases ha with ⟨i, rfl⟩ | ⟨d, us, rfl, hu, -⟩
    · exact ⟨c, _, by simp only [addExpr], atom_add A (q := 1) ha h⟩
    · obtain ⟨r, e1, hr⟩ := atom_map A hu h
      exact ⟨_, _, by simp only [addExpr]; rw [e1]; rfl, hr⟩
  · refine ⟨c, _, ?_, atom_add A (q := p) ha h⟩
    · simp only [addExpr]
      rw [if_neg hp1, getMul_one A n ha, Run.bind_ok, atom_not_const ha]
      rfl

theorem add_lin (A : Arith) (n : Nat) {a b : Cell} (ha : Lin a) (hb : Lin b) :
    ∃ r, addE A (n + 9) a b = .ok r ∧ Lin r := by
  have two : ∀ c ts e, AtomT ts → Lin e →
      ∃ r, (do let f ← addExpr A (n + 8) (c, ts) e; getAdd A (n + 8) f) = .ok r ∧ Lin r := by
    intro c ts e h he
    obtain ⟨c', ts', e1, h1⟩ := addExpr_lin A (n + 5) c h he
    rw [e1, Run.bind_ok]
    exact getAdd_lin A n c' h1
  have three : ∃ r, (do
      let f ← addExpr A (n + 8) (0, .nil) a
      let g ← addExpr A (n + 8) f b
      getAdd A (n + 8) g) = .ok r ∧ Lin r := by
    obtain ⟨c', ts', e1, h1⟩ := addExpr_lin A (n + 5) 0 (ts := .nil) trivial ha
    rw [e1, Run.bind_ok]
    exact two c' ts' b h1 hb
  unfold addE
  split_ifs
  · exact ⟨_, rfl, hb⟩
  · exact ⟨_, rfl, ha⟩
  split
  · exact ⟨_, rfl, .inl ⟨_, rfl⟩⟩
  · refine two _ _ _ ?_ hb
    rcases ha with ⟨_, e⟩ | h | ⟨_, _, e, _⟩
    · simp at e
    · simp only [AtomC] at h; exact h.1
    · simp at e
  · refine two _ _ _ ?_ ha
    rcases hb with ⟨_, e⟩ | h | ⟨_, _, e, _⟩
    · simp at e
    · simp only [AtomC] at h; exact h.1
    · simp at e
  · exact three

theorem neg_lin (A : Arith) (n : Nat) {a : Cell} (ha : Lin a) :
    ∃ r, negE A (n + 9) a = .ok r ∧ Lin r := by
  rcases ha with ⟨p, rfl⟩ | h | ⟨p, e, rfl, h, -⟩
  · exact ⟨_, rfl, .inl ⟨_, rfl⟩⟩
  · rcases atom_cases h with ⟨i, rfl⟩ | ⟨d, us, rfl, -⟩
    · exact scale_lin A (n + 2) (-1) (.inr (.inl h))
    · exact negate_lin A (n + 8) h
  · exact getMul_lin A (n + 7) _ h

theorem sub_lin (A : Arith) (n : Nat) {a b : Cell} (ha : Lin a) (hb : Lin b) :
    ∃ r, minusE A (n + 9) a b = .ok r ∧ Lin r := by
  obtain ⟨m, e1, h1⟩ := neg_lin A n hb
  obtain ⟨r, e2, h2⟩ := add_lin A n ha h1
  refine ⟨r, ?_, h2⟩
  unfold minusE
  rw [e1, Run.bind_ok, e2]

end Verif.Proof
