import Verif.Spec.Contractor
import Verif.Spec.EvalDemo
import Verif.Proof.Eval

/-!
# A concrete instance of the external operators

Narrows the upper bound of a variable for a constraint `v ≤ q`, empties the box when interval
evaluation refutes the constraint, and does nothing otherwise; used for the concrete cases
beside the theorems.
-/

namespace Verif.Spec
open Verif Verif.Model Verif.Proof

/-- The constraint `v - q ≤ 0`. -/
def asUpper (c : Ctr) : Option (Variable × ℚ) :=
  match c.op, c.e with
  | .leq, .add (.var v) (.mul (.const m) (.const q)) => if m = -1 then some (v, q) else none
  | _, _ => none

/-- Refutation by interval evaluation. -/
def demoRefute (c : Ctr) (b : Box) : Bool × Box :=
  match evalI demoOps b c.e with
  | .ok iv =>
    if relVerdict c.op iv = .unsat then (false, b.setEmpty)
    else (decide (relVerdict c.op iv = .valid), b)
  | _ => (false, b)

def demoBwd (c : Ctr) (b : Box) : Bool × Box :=
  match asUpper c with
  | some (v, q) =>
    if v ∈ b.vars then
      let iv := b.getV v
      if iv.ub ≤ .fin q then (true, b)
      else if (Itv.mk iv.lb (.fin q)).isEmpty then (false, b.setEmpty)
      else (false, b.setV v ⟨iv.lb, .fin q⟩)
    else (false, b)
  | none => demoRefute c b

def demoIbex : Ibex where
  bwd := demoBwd
  poly := fun cs b => cs.foldl (fun b c => (demoBwd c b).2) b
  term := fun a b => decide (a = b)
  forallC := fun _ _ _ b => .ok (b, [])

theorem asUpper_eq {c : Ctr} {v q} (h : asUpper c = some (v, q)) :
    c = ⟨.leq, .add (.var v) (.mul (.const (-1)) (.const q))⟩ := by
  obtain ⟨op, e⟩ := c
  unfold asUpper at h
  simp only at h
  split at h
  · split at h
    · rename_i hm; subst hm; simp only [Option.some.injEq, Prod.mk.injEq] at h
      obtain ⟨rfl, rfl⟩ := h; rfl
    · cases h
  · cases h

theorem demoBwd_shape (c b) : (demoBwd c b).2.vars = b.vars ∧
    (demoBwd c b).2.vals.length = b.vals.length := by
  unfold demoBwd demoRefute
  split
  · split
    · dsimp only
      split
      · simp
      · split <;> simp [Box.setEmpty, Box.setV, Box.set]
    · simp
  · split
    · split <;> simp [Box.setEmpty]
    · simp

theorem get_set (b : Box) (i j : Nat) (iv : Itv) :
    (b.set i iv).get j = if i = j ∧ i < b.vals.length then iv else b.get j := by
  simp only [Box.set, Box.get, List.getD_eq_getElem?_getD, List.getElem?_set]
  by_cases h : i = j
  · subst h
    by_cases hi : i < b.vals.length <;> simp [hi]
  · simp [h]

theorem demoBwd_sub (c b) : SubBox (demoBwd c b).2 b := by
  unfold demoBwd demoRefute
  split
  · split
    · dsimp only
      split
      · exact subBox_refl' b
      · split
        · intro h; simp [Box.setEmpty] at h
        · rename_i v q _ _ hq _
          intro h
          refine ⟨h, fun i x hx => ?_⟩
          rw [Box.setV, get_set] at hx
          split at hx
          · rename_i hi
            obtain ⟨rfl, _⟩ := hi
            refine ⟨hx.1, ?_⟩
            have h2 := hx.2
            rw [not_le] at hq
            simp only [Box.getV] at hq
            revert hq h2
            cases (b.get (b.index v)).ub <;> simp [above]
            rename_i q'
            intro h1 h2
            have : (q : ℝ) < q' := by exact_mod_cast h1
            linarith
          · exact hx
    · exact subBox_refl' b
  · split
    · split
      · intro h; simp [Box.setEmpty] at h
      · exact subBox_refl' b
    · exact subBox_refl' b
where
  subBox_refl' (b : Box) : SubBox b b := fun h => ⟨h, fun _ _ x => x⟩

theorem demoBwd_sound (D I) (c : Ctr) (b : Box) (hv : ∀ v ∈ c.e.vars, v ∈ b.vars) (hrc : RcOkE c.e)
    (ρ) (hρ : InBox ρ b) (hd : DefE D I ρ c.e) (hs : relSem c.op (eval I ρ c.e) 0) :
    InBox ρ (demoBwd c b).2 := by
  unfold demoBwd demoRefute
  split
  · rename_i v q hc
    have hc' := asUpper_eq hc
    subst hc'
    simp only [relSem, eval] at hs
    push_cast at hs
    split
    · rename_i hvm
      have hvin := getV_in hρ hvm
      dsimp only
      split
      · exact hρ
      · split
        · rename_i he
          simp only [Itv.isEmpty, Bool.or_eq_true, decide_eq_true_eq] at he
          have h1 := hvin.1
          exfalso
          revert h1 he
          cases (b.getV v).lb <;> simp [below]
          rename_i q'
          intro h1
          have : (q : ℝ) < q' := by exact_mod_cast h1
          linarith
        · refine ⟨hρ.1, fun i w hw => ?_⟩
          rw [Box.setV, get_set]
          split
          · rename_i hi
            obtain ⟨rfl, _⟩ := hi
            have : w = v := by
              simp only [Box.setV, Box.set, Box.index, if_pos hvm] at hw
              rw [List.getElem?_idxOf hvm] at hw
              simpa using hw.symm
            subst this
            refine ⟨hvin.1, ?_⟩
            simp only [above]; linarith
          · exact hρ.2 i w hw
    · exact hρ
  · split
    · rename_i iv hiv
      have := evalI_encl (demoOps_ok D I) hρ c.e iv hd hrc hv hiv
      split
      · rename_i hu
        exact absurd hs (verdict_unsat this hu)
      · exact hρ
    · exact hρ

theorem demoPoly_all (D I) : ∀ (cs : List Ctr) (b : Box),
    ((demoIbex.poly cs b).vars = b.vars ∧ (demoIbex.poly cs b).vals.length = b.vals.length) ∧
    SubBox (demoIbex.poly cs b) b ∧
    ((∀ c ∈ cs, ∀ v ∈ c.e.vars, v ∈ b.vars) → (∀ c ∈ cs, RcOkE c.e) → ∀ ρ, InBox ρ b →
      (∀ c ∈ cs, DefE D I ρ c.e) → (∀ c ∈ cs, relSem c.op (eval I ρ c.e) 0) →
      InBox ρ (demoIbex.poly cs b))
  | [], b => ⟨⟨rfl, rfl⟩, fun h => ⟨h, fun _ _ x => x⟩, fun _ _ _ h _ _ => h⟩
  | c :: cs, b => by
    obtain ⟨h1, h2, h3⟩ := demoPoly_all D I cs (demoBwd c b).2
    have g1 := demoBwd_shape c b
    have g2 := demoBwd_sub c b
    refine ⟨⟨h1.1.trans g1.1, h1.2.trans g1.2⟩, ?_, ?_⟩
    · intro h
      obtain ⟨a1, a2⟩ := h2 h
      obtain ⟨b1, b2⟩ := g2 a1
      exact ⟨b1, fun i x hx => b2 i x (a2 i x hx)⟩
    · intro hv hr ρ hρ hd hs
      refine h3 (fun c' hc' v hv' => ?_) (fun c' hc' => hr c' (by simp [hc'])) ρ ?_
        (fun c' hc' => hd c' (by simp [hc'])) (fun c' hc' => hs c' (by simp [hc']))
      · rw [g1.1]; exact hv c' (by simp [hc']) v hv'
      · exact demoBwd_sound D I c b (hv c (by simp)) (hr c (by simp)) ρ hρ (hd c (by simp))
          (hs c (by simp))

theorem demoIbex_sound (D : Dom) (I : Interp) : IbexSound D I demoIbex where
  bwd_shape := demoBwd_shape
  bwd_sub := fun c b _ => demoBwd_sub c b
  bwd_sound := fun c b _ hv hr ρ hρ hd hs => demoBwd_sound D I c b hv hr ρ hρ hd hs
  poly_shape := fun cs b => (demoPoly_all D I cs b).1
  poly_sub := fun cs b _ => (demoPoly_all D I cs b).2.1
  poly_sound := fun cs b _ hv hr ρ hρ hd hs => (demoPoly_all D I cs b).2.2 hv hr ρ hρ hd hs

theorem demoIbex_forall (D : Dom) (I : Interp) : ForallSound D I demoIbex where
  shape := by
    intro n vs f b b' out h
    simp only [demoIbex, Run.ok.injEq, Prod.mk.injEq] at h; obtain ⟨rfl, _⟩ := h; exact ⟨rfl, rfl⟩
  sub := by
    intro n vs f b b' out _ _ h
    simp only [demoIbex, Run.ok.injEq, Prod.mk.injEq] at h; obtain ⟨rfl, _⟩ := h
    exact fun h => ⟨h, fun _ _ x => x⟩
  sound := by
    intro n vs f b b' out _ _ h ρ hρ _ _ _ _
    simp only [demoIbex, Run.ok.injEq, Prod.mk.injEq] at h; obtain ⟨rfl, _⟩ := h
    exact hρ

end Verif.Spec
