import Verif.Proof.Theory
import Verif.Spec.ContractorDemo

/-!
# The concrete instance of the external operators is local
-/

namespace Verif.Spec
open Verif Verif.Model Verif.Proof

theorem demoBwd_inner (c b) (h : (demoBwd c b).1 = true) : (demoBwd c b).2 = b := by
  revert h
  unfold demoBwd demoRefute
  split
  · split
    · dsimp only
      split
      · simp
      · split <;> simp
    · simp
  · split
    · split <;> simp
    · simp

theorem demoBwd_local (c : Ctr) (b : Box) (h : (demoBwd c b).2.bot = false) (i : Nat)
    (v : Variable) (hv : b.vars[i]? = some v) (hc : v ∉ c.e.vars) :
    (demoBwd c b).2.get i = b.get i := by
  revert h
  unfold demoBwd demoRefute
  split
  · rename_i w q hu
    have := asUpper_eq hu
    subst this
    simp only [Expr.vars, List.mem_append, List.mem_singleton, List.not_mem_nil, or_false] at hc
    split
    · rename_i hw
      dsimp only
      split
      · simp
      · split
        · simp [Box.setEmpty]
        · intro _
          rw [Box.setV, get_set, if_neg]
          rintro ⟨h1, -⟩
          have := (index_of_mem hw).2
          rw [h1, hv] at this
          exact hc (Option.some.inj this)
    · simp
  · split
    · split
      · simp [Box.setEmpty]
      · simp
    · simp

theorem demoBwd_nonempty (c b) (hn : NoneEmpty b) : NoneEmpty (demoBwd c b).2 := by
  unfold demoBwd demoRefute
  split
  · split
    · dsimp only
      split
      · exact hn
      · split
        · exact hn
        · rename_i he
          intro i w hw
          rw [Box.setV, get_set]
          split
          · exact exists_in_of_not_isEmpty (by simpa using he)
          · exact hn i w hw
    · exact hn
  · split
    · split
      · exact hn
      · exact hn
    · exact hn

theorem demoBwd_wf {c b} (wf : BoxWf b) : BoxWf (demoBwd c b).2 :=
  ⟨by rw [(demoBwd_shape c b).2, (demoBwd_shape c b).1]; exact wf.1,
    by rw [(demoBwd_shape c b).1]; exact wf.2⟩

theorem demoPoly_bot : ∀ (cs : List Ctr) (b : Box),
    (cs.foldl (fun b c => (demoBwd c b).2) b).bot = false → b.bot = false
  | [], _, h => h
  | c :: cs, b, h => (demoBwd_sub c b (demoPoly_bot cs _ h)).1

theorem demoPoly_nonempty : ∀ (cs : List Ctr) (b : Box), NoneEmpty b →
    NoneEmpty (cs.foldl (fun b c => (demoBwd c b).2) b)
  | [], _, h => h
  | c :: cs, b, h => demoPoly_nonempty cs _ (demoBwd_nonempty c b h)

theorem demoPoly_local (D I) (V : Variable → Prop) (ρ) : ∀ (cs : List Ctr) (b : Box), BoxWf b →
    (∀ c ∈ cs, ∀ v ∈ c.e.vars, v ∈ b.vars) → (∀ c ∈ cs, RcOkE c.e) →
    (∀ c ∈ cs, (∀ v ∈ c.e.vars, ¬ V v) ∨
      ((∀ v ∈ c.e.vars, V v) ∧ DefE D I ρ c.e ∧ relSem c.op (eval I ρ c.e) 0)) →
    NoneEmpty b → InOn V ρ b → (cs.foldl (fun b c => (demoBwd c b).2) b).bot = false →
    InOn V ρ (cs.foldl (fun b c => (demoBwd c b).2) b)
  | [], b, _, _, _, _, _, h, _ => h
  | c :: cs, b, wf, hv, hrc, hc, hn, hin, hb => by
    have hb' := demoPoly_bot cs _ hb
    refine demoPoly_local D I V ρ cs _ (demoBwd_wf wf)
      (fun c' hc' => by rw [(demoBwd_shape c b).1]; exact hv c' (by simp [hc']))
      (fun c' hc' => hrc c' (by simp [hc'])) (fun c' hc' => hc c' (by simp [hc']))
      (demoBwd_nonempty c b hn) ?_ hb
    intro i w hw hV
    rw [(demoBwd_shape c b).1] at hw
    rcases hc c (by simp) with h | ⟨h1, h2, h3⟩
    · rw [demoBwd_local c b hb' i w hw fun hm => h w hm hV]
      exact hin i w hw hV
    · obtain ⟨ρ', g1, g2⟩ := Live.patch (vs := b.vars) (V := V) (ρ := ρ) (b := b)
        ⟨⟨rfl, wf⟩, (demoBwd_sub c b hb').1, hn, hin⟩
      have he : ∀ u ∈ c.e.vars, ρ u = ρ' u := fun u hu => (g2 u (h1 u hu)).symm
      have := demoBwd_sound D I c b (hv c (by simp)) (hrc c (by simp)) ρ' g1
        ((defE_congr D I c.e ρ ρ' he).mp h2) (by rw [← eval_congr I c.e ρ ρ' he]; exact h3)
      rw [← g2 w hV]
      exact this.2 i w (by rw [(demoBwd_shape c b).1]; exact hw)

theorem demoIbex_local (D I) : IbexLocal D I demoIbex where
  bwd_inner := fun c b _ h => demoBwd_inner c b h
  bwd_local := fun c b wf h i v hv hc => demoBwd_local c b h i v hv hc
  bwd_nonempty := fun c b _ hn _ => demoBwd_nonempty c b hn
  poly_nonempty := fun cs b _ hn _ => demoPoly_nonempty cs b hn
  poly_local := fun cs b V ρ wf h1 h2 h3 h4 h5 h6 => demoPoly_local D I V ρ cs b wf h1 h2 h3 h4 h5 h6

theorem demoIbex_forallLocal (D I) : ForallLocal D I demoIbex where
  local' := by
    intro n vs f b b' out _ _ h _ _ _ i v _ _ x hx
    simp only [demoIbex, Run.ok.injEq, Prod.mk.injEq] at h
    rw [← h.1]; exact hx
  nonempty := by
    intro n vs f b b' out _ _ h hn _
    simp only [demoIbex, Run.ok.injEq, Prod.mk.injEq] at h
    rw [← h.1]; exact hn
  sound := by
    intro n vs f b b' out _ _ h ρ hρ _ _ _ _
    simp only [demoIbex, Run.ok.injEq, Prod.mk.injEq] at h
    rw [← h.1]; exact hρ

end Verif.Spec
