import Verif.Proof.Terminate
import Verif.Proof.Icp
import Verif.Proof.Filter
import Verif.Proof.Explain

/-!
# The search ends: lemmas
-/

namespace Verif.Proof
open Verif Verif.Model Verif.Spec

variable {G : Finset EQ}

theorem bisectable_pos {fp : Fp} {i : Itv} (h : fp.bisectable i = true) :
    i.lb < .fin (fp.mid i) ∧ .fin (fp.mid i) < i.ub := by
  simp only [Fp.bisectable, Bool.and_eq_true, decide_eq_true_eq] at h
  exact ⟨h.1.2, h.2⟩

/-- A component was changed. -/
theorem set_ne {b : Box} {i : Nat} {iv : Itv} (hi : i < b.vals.length) (h : iv ≠ b.get i) :
    (b.set i iv).vals ≠ b.vals := by
  intro e
  apply h
  have : (b.set i iv).get i = b.get i := by simp only [Box.get, e]
  rw [get_put, if_pos ⟨rfl, hi⟩] at this
  exact this

/-- A half of a box. -/
theorem half_ok {b : Box} {i : Nat} {iv : Itv} (hb : b.bot = false) (hg : Bounded G b)
    (hi : i < b.vals.length) (hv : iv.lb ∈ G ∧ iv.ub ∈ G)
    (hin : (b.get i).lb ≤ iv.lb ∧ iv.ub ≤ (b.get i).ub)
    (hne : iv ≠ b.get i) :
    (b.set i iv).bot = false ∧ Bounded G (b.set i iv) ∧ Inside (b.set i iv) b ∧
      (b.set i iv).vals ≠ b.vals :=
  ⟨hb, set_bounded hv hg, set_inside hin, set_ne hi hne⟩

theorem bisect_grid {fp : Fp} (hc : ∀ a ∈ G, a.ceil ∈ G) (hfl : ∀ a ∈ G, a.floor ∈ G)
    (hfp : FpGrid G fp) {b b1 b2 : Box} {i : Nat} (hb : b.bot = false)
    (hl : b.vals.length = b.vars.length) (hg : Bounded G b) (hz : IntsSized b)
    (h : b.bisect fp i = .ok (b1, b2)) :
    (b1.bot = false ∧ Bounded G b1 ∧ Inside b1 b ∧ b1.vals ≠ b.vals) ∧
      b2.bot = false ∧ Bounded G b2 ∧ Inside b2 b ∧ b2.vals ≠ b.vals := by
  unfold Box.bisect at h
  cases hv : b.vars[i]? with
  | none => rw [hv] at h; cases h
  | some v =>
    have hi : i < b.vals.length := by
      rw [hl]
      exact (List.getElem?_eq_some_iff.mp hv).1
    have hmem : b.get i ∈ b.vals := by
      simp only [Box.get, List.getD_eq_getElem?_getD, List.getElem?_eq_getElem hi, Option.getD_some]
      exact List.getElem_mem hi
    obtain ⟨gl, gu⟩ := hg hb _ hmem
    rw [hv] at h
    dsimp only at h
    split at h
    · rename_i hbis
      obtain ⟨m1, m2⟩ := bisectable_pos hbis
      have int : (v.type = .integer ∨ v.type = .binary) → Box.bisectInt fp b i (b.get i) = .ok (b1, b2) →
          (b1.bot = false ∧ Bounded G b1 ∧ Inside b1 b ∧ b1.vals ≠ b.vals) ∧
            b2.bot = false ∧ Bounded G b2 ∧ Inside b2 b ∧ b2.vals ≠ b.vals := by
        intro ht h
        obtain ⟨s1, s2⟩ := hz hb i ⟨v, hv, ht⟩
        obtain ⟨c1, c2⟩ := hfp.mid _ gl gu hbis s1 s2
        unfold Box.bisectInt at h
        dsimp only at h
        split at h
        · rename_i hh
          obtain ⟨h1, h2, h3, h4⟩ := hh
          cases h
          have hfm : (EQ.fin (⌊fp.mid (b.get i)⌋ : ℤ)) ≤ EQ.fin (fp.mid (b.get i)) := by
            rw [EQ.fin_le_fin]
            exact Int.floor_le _
          have hfm2 : EQ.fin (fp.mid (b.get i)) < (EQ.fin ((⌊fp.mid (b.get i)⌋ : ℤ) + 1)) := by
            rw [EQ.fin_lt_fin]
            exact Int.lt_floor_add_one _
          refine ⟨half_ok hb hg hi ⟨hc _ gl, c1⟩ ⟨h1, hfm.trans m2.le⟩ ?_,
            half_ok hb hg hi ⟨c2, hfl _ gu⟩ ⟨(m1.trans hfm2).le, h4⟩ ?_⟩
          · intro e
            have := congrArg Itv.ub e
            dsimp only at this
            rw [this] at hfm
            exact absurd hfm (not_le.mpr m2)
          · intro e
            have := congrArg Itv.lb e
            dsimp only at this
            rw [this] at hfm2
            exact absurd (m1.trans hfm2) (lt_irrefl _)
        · cases h
      cases ht : v.type with
      | continuous =>
        rw [ht] at h
        dsimp only [Box.bisectCont] at h
        obtain ⟨c1, c2, c3⟩ := hfp.cut _ gl gu hbis
        cases h
        refine ⟨half_ok hb hg hi ⟨gl, c1⟩ ⟨le_refl _, c3.le⟩ ?_,
          half_ok hb hg hi ⟨c1, gu⟩ ⟨c2.le, le_refl _⟩ ?_⟩
        · intro e
          have := congrArg Itv.ub e
          dsimp only at this
          rw [this] at c3
          exact lt_irrefl _ c3
        · intro e
          have := congrArg Itv.lb e
          dsimp only at this
          rw [this] at c2
          exact lt_irrefl _ c2
      | integer => rw [ht] at h; exact int (Or.inl ht) h
      | binary => rw [ht] at h; exact int (Or.inr ht) h
      | boolean => rw [ht] at h; cases h
    · cases h

theorem branch_grid {fp : Fp} (hc : ∀ a ∈ G, a.ceil ∈ G) (hfl : ∀ a ∈ G, a.floor ∈ G)
    (hfp : FpGrid G fp) : BranchGrid G (Box.branchLargestFirst fp) := by
  intro b cand i b1 b2 hb hl hg hz h
  exact bisect_grid hc hfl hfp hb hl hg hz (branch_some h)

/-! ## Evaluation -/

theorem evalBox_ends {env : Env} {b : Box} :
    ∀ fs cand (s : CStatus), (∀ n, ∀ f ∈ fs, f.isAll = true → env.evalAll n f b ≠ .oof) →
      s.box = b → evalBox env fs cand s ≠ .oof
  | [], cand, s, _, _ => by intro h; cases h
  | f :: fs, cand, s, he, hs => by
    have he' : ∀ n, ∀ f ∈ fs, f.isAll = true → env.evalAll n f b ≠ .oof :=
      fun n f hf => he n f (List.mem_cons_of_mem _ hf)
    unfold evalBox
    refine run_bind_oof ?_ fun r _ => ?_
    · unfold evalLit
      split
      · rename_i ha; rw [hs]; exact he _ _ (List.mem_cons_self ..) ha
      · exact lift_oof _
    · dsimp only
      have hs1 : (if f.isAll = true then { s with tick := s.tick + 1 } else s).box = b := by
        split <;> exact hs
      split
      · intro h; cases h
      · exact evalBox_ends fs _ _ he' hs1
      · exact evalBox_ends fs _ _ he' hs1

/-! ## The search -/

/-- What is kept for the boxes of the stack. -/
structure Kept (G : Finset EQ) (vs : List Variable) (k : Nat) (b : Box) : Prop where
  grid : Bounded G b
  sized : Sized (IntAt vs) b
  shape : b.bot = false → b.vars = vs ∧ b.vals.length = vs.length ∧ vs.Nodup
  small : room G b < k

theorem Kept.inside {vs k a b} (h : Kept G vs k b) (ha : Bounded G a) (k' : Inside a b) :
    Kept G vs k a :=
  ⟨ha, sized_inside h.sized k', fun h0 => by
      obtain ⟨h1, h2, h3, _⟩ := k' h0
      obtain ⟨e1, e2, e3⟩ := h.shape h1
      exact ⟨h2.trans e1, h3.trans e2, e3⟩,
    lt_of_le_of_lt (room_le G k') h.small⟩

theorem Kept.fit {V vs k b} (h : Kept G vs k b) (hV : ∀ ws, V = some ws → ws = vs ∧ b.bot = false) :
    Fit G V (IntAt vs) b :=
  ⟨h.grid, h.sized, fun ws e => by
    obtain ⟨rfl, h0⟩ := hV ws e
    obtain ⟨e1, e2, e3⟩ := h.shape h0
    exact ⟨h0, e1, by rw [BoxWf, e1, e2]; exact ⟨rfl, e3⟩⟩⟩

theorem Kept.apt {vs k b} (h : Kept G vs k b) (h0 : b.bot = false) : Apt G vs b :=
  (h.fit (V := some vs) fun _ e => by cases e; exact ⟨rfl, h0⟩).apt fun _ h => h

mutual
theorem over_none {R : Nat → Prop} : ∀ c : Ctc, (∀ ws, OverVars ws c) → Over none R c
  | .id, _ => trivial
  | .integer _, _ => trivial
  | .seq cs, h => overAll_none cs h
  | .join cs, h => overAll_none cs h
  | .fixpoint cs, h => overAll_none cs h
  | .worklist cs, h => overAll_none cs h
  | .fwdbwd .., _ => trivial
  | .polytope .., _ => trivial
  | .forallC ws _, h => by
    have h1 : ws = [] := h []
    have h2 : ws = [⟨0, .continuous⟩] := h _
    rw [h1] at h2
    cases h2
theorem overAll_none {R : Nat → Prop} : ∀ cs : List Ctc, (∀ ws, OverVarsAll ws cs) → OverAll none R cs
  | [], _ => trivial
  | c :: cs, h => ⟨over_none c fun ws => (h ws).1, overAll_none cs fun ws => (h ws).2⟩
end

/-- The boxes that are looked at for one box. -/
def cost (G : Finset EQ) (b : Box) : Nat := 2 ^ (room G b + 1) - 1

theorem cost_pos (b : Box) : 1 ≤ cost G b := by
  have : 2 ^ 1 ≤ 2 ^ (room G b + 1) := Nat.pow_le_pow_right (by omega) (by omega)
  unfold cost
  omega

theorem cost_half {a b c : Box} (ha : room G a < room G c) (hb : room G b < room G c) :
    cost G a + cost G b + 1 ≤ cost G c := by
  have h1 : 2 ^ (room G a + 1) ≤ 2 ^ room G c := Nat.pow_le_pow_right (by omega) (by omega)
  have h2 : 2 ^ (room G b + 1) ≤ 2 ^ room G c := Nat.pow_le_pow_right (by omega) (by omega)
  have h3 := cost_pos (G := G) a
  have h4 := cost_pos (G := G) b
  unfold cost at *
  rw [pow_succ 2 (room G c)]
  omega

theorem cost_le {a b : Box} (h : room G a ≤ room G b) : cost G a ≤ cost G b := by
  unfold cost
  have : 2 ^ (room G a + 1) ≤ 2 ^ (room G b + 1) := Nat.pow_le_pow_right (by omega) (by omega)
  omega

theorem icpLoop_ends {env : Env} {vs : List Variable} {k : Nat} {c : Ctc} {fs : List Fml}
    (hG : GridOps G env.ib) (hbr : BranchGrid G env.brancher)
    (he : EvalEnds G env vs fs) {V : Option (List Variable)}
    (hV : ∀ ws, V = some ws → ws = vs) (hov : Over V (IntAt vs) c)
    (hc : WlOk (IntAt vs) c)
    (hk : k * (fan c + 1) ≤ env.fuel) :
    ∀ n left stack s, (∀ p ∈ stack, Kept G vs k p.1 ∧ (V ≠ none → p.1.bot = false)) →
      (stack.map fun p : Box × Option Nat => cost G p.1).sum ≤ n →
      icpLoop env c fs n left stack s ≠ .oof
  | n, _, [], s, _, _ => by unfold icpLoop; intro h; cases h
  | 0, _, p :: stack, s, _, hn => by
    have := cost_pos (G := G) p.1
    simp only [List.map_cons, List.sum_cons] at hn
    omega
  | n + 1, left, (b, d) :: stack, s, hs, hn => by
    obtain ⟨hbk, hb0⟩ : Kept G vs k b ∧ (V ≠ none → b.bot = false) := hs (b, d) (List.mem_cons_self ..)
    have hst : ∀ p ∈ stack, Kept G vs k p.1 ∧ (V ≠ none → p.1.bot = false) := fun p hp => hs p (List.mem_cons_of_mem _ hp)
    have h1 := cost_pos (G := G) b
    simp only [List.map_cons, List.sum_cons] at hn
    have hbf : Fit G V (IntAt vs) b :=
      hbk.fit fun ws e => ⟨hV ws e, hb0 (by rw [e]; simp)⟩
    unfold icpLoop
    refine run_bind_oof ?_ fun s1 e1 => ?_
    · exact prune_ends hG c hov hc hk _ hbf hbk.small
    · obtain ⟨g1, i1⟩ := prune_shrinks hG env.fuel c hov _ _
        hbf e1
      dsimp only at i1
      have hk1 := hbk.inside g1 i1
      split
      · exact icpLoop_ends hG hbr he hV hov hc hk n _ _ _ hst (by omega)
      · rename_i hne
        have hne : s1.box.bot = false := by simpa [Box.empty] using hne
        refine run_bind_oof (evalBox_ends fs [] s1 (fun n f hf ha => he n f hf ha _ (hk1.apt hne)) rfl) fun r er => ?_
        obtain ⟨r1, o⟩ := r
        dsimp only
        split
        · exact icpLoop_ends hG hbr he hV hov hc hk n _ _ _ hst (by omega)
        · rename_i cand ho
          have eb : r1.box = s1.box := (evalBox_box er).2 (by simp)
          split
          · intro h; cases h
          · refine run_bind_oof (lift_oof _) fun br hbr' => ?_
            split
            · intro h; cases h
            · rename_i i b1 b2
              have hbr'' := lift_ok hbr'
              rw [eb] at hbr''
              obtain ⟨e1, e2, -⟩ := hk1.shape hne
              obtain ⟨⟨a1, a2, a3, a4⟩, c1, c2, c3, c4⟩ := hbr s1.box _ _ _ _ hne (by rw [e2, e1]) g1
                (fun _ j hj => hk1.sized hne j (by rw [← e1]; exact hj)) hbr''
              have l1 := room_lt a3 g1 a1 a4
              have l2 := room_lt c3 g1 c1 c4
              have l3 := cost_half l1 l2
              have l4 := cost_le (G := G) (room_le G i1)
              refine icpLoop_ends hG hbr he hV hov hc hk n _ _ _ ?_ ?_
              · intro p hp
                split at hp <;> simp only [List.mem_cons] at hp <;> rcases hp with rfl | rfl | hp
                · exact ⟨hk1.inside c2 c3, fun _ => c1⟩
                · exact ⟨hk1.inside a2 a3, fun _ => a1⟩
                · exact hst p hp
                · exact ⟨hk1.inside a2 a3, fun _ => a1⟩
                · exact ⟨hk1.inside c2 c3, fun _ => c1⟩
                · exact hst p hp
              · split <;> simp only [List.map_cons, List.sum_cons] <;> omega

theorem kept_start {b : Box} (hb : Bounded G b) (hz : IntsSized b)
    (hl : b.bot = false → BoxWf b) :
    Kept G b.vars (2 * G.card * b.vars.length + 1) b := by
  refine ⟨hb, hz, fun h => ⟨rfl, hl h⟩, ?_⟩
  by_cases h : b.bot = true
  · simp [room, h]
  · have := room_card G b
    rw [(hl (by simpa using h)).1] at this
    omega

theorem over_start {c : Ctc} {b : Box} (ho : OverVars b.vars c)
    (h0 : b.bot = true → ∀ ws, OverVars ws c) : ∃ V, (∀ ws, V = some ws → ws = b.vars) ∧
      Over V (IntAt b.vars) c ∧ (V ≠ none → b.bot = false) := by
  cases h : b.bot with
  | true => exact ⟨none, by simp, over_none c (h0 h), by simp⟩
  | false => exact ⟨some b.vars, fun ws e => by cases e; rfl, over_of (fun _ h => h) c ho, fun _ => rfl⟩

theorem icpSeq_ends {env : Env} {c : Ctc} {fs : List Fml} {left : Bool} {s : CStatus} {n : Nat}
    (hG : GridOps G env.ib) (hbr : BranchGrid G env.brancher)
    (he : EvalEnds G env s.box.vars fs) (hb : Bounded G s.box)
    (hz : IntsSized s.box) (hw : s.box.bot = false → BoxWf s.box) (ho : OverVars s.box.vars c)
    (h0 : s.box.bot = true → ∀ ws, OverVars ws c)
    (hc : WlOk (IntAt s.box.vars) c) (hk : pruneBound G s.box.vars.length (fan c) ≤ env.fuel)
    (hn : searchBound G s.box.vars.length ≤ n) : icpSeq env left c fs n s ≠ .oof := by
  have hs := kept_start hb hz hw
  obtain ⟨V, hV, hov, hV0⟩ := over_start ho h0
  refine icpLoop_ends hG hbr he hV hov hc hk n left _ s ?_ ?_
  · intro p hp
    rw [List.mem_singleton] at hp
    subst hp
    exact ⟨hs, hV0⟩
  · simp only [List.map_cons, List.map_nil, List.sum_cons, List.sum_nil, add_zero]
    have h1 := hs.small
    have : 2 ^ (room G s.box + 1) ≤ 2 ^ (2 * G.card * s.box.vars.length + 1) :=
      Nat.pow_le_pow_right (by omega) (by omega)
    unfold cost
    unfold searchBound at hn
    omega

/-! ## The theory solver -/

theorem setV_grid {b : Box} {v : Variable} {iv : Itv} (hb : Bounded G b)
    (h : iv.lb ∈ G ∧ iv.ub ∈ G) (k : (b.getV v).lb ≤ iv.lb ∧ iv.ub ≤ (b.getV v).ub) :
    Bounded G (b.setV v iv) ∧ Inside (b.setV v iv) b :=
  ⟨set_bounded h hb, set_inside k⟩

theorem empty_grid {b c : Box} : Bounded G c.setEmpty ∧ Inside c.setEmpty b :=
  ⟨fun h => by simp [Box.setEmpty] at h, fun h => by simp [Box.setEmpty] at h⟩

section
variable (hn : EQ.ninf ∈ G) (hp : EQ.pinf ∈ G)
include hn hp

theorem updLower_grid {b : Box} {v : Variable} {q : ℚ} (hb : Bounded G b) (hq : EQ.fin q ∈ G) :
    Bounded G (Filter.updLower b v q).2 ∧ Inside (Filter.updLower b v q).2 b := by
  unfold Filter.updLower
  dsimp only
  cases h0 : b.bot with
  | true => exact empty_grid
  | false =>
    have hg := get_grid hn hp hb h0 (b.index v)
    simp only [Bool.false_eq_true, if_false]
    split_ifs with h1 h2
    · exact ⟨hb, inside_refl _⟩
    · exact setV_grid hb ⟨hq, hg.2⟩ ⟨(not_le.mp h1).le, le_refl _⟩
    · exact empty_grid

theorem updUpper_grid {b : Box} {v : Variable} {q : ℚ} (hb : Bounded G b) (hq : EQ.fin q ∈ G) :
    Bounded G (Filter.updUpper b v q).2 ∧ Inside (Filter.updUpper b v q).2 b := by
  unfold Filter.updUpper
  dsimp only
  cases h0 : b.bot with
  | true => exact empty_grid
  | false =>
    have hg := get_grid hn hp hb h0 (b.index v)
    simp only [Bool.false_eq_true, if_false]
    split_ifs with h1 h2
    · exact ⟨hb, inside_refl _⟩
    · exact setV_grid hb ⟨hg.1, hq⟩ ⟨le_refl _, (not_le.mp h1).le⟩
    · exact empty_grid

theorem filter_grid {d : Dbl} {f : Fml} {b b' : Box} {r : FilterRes} (hf : LitGrid G d f)
    (hb : Bounded G b) (h : Filter.filter d f b = .ok (r, b')) : Bounded G b' ∧ Inside b' b := by
  rcases filter_cases h with ⟨_, _, rfl⟩ | ⟨v, op, lo, hi, ex, ha, act⟩
  · exact ⟨hb, inside_refl _⟩
  · obtain ⟨g1, g2, g3, g4⟩ := hf _ _ _ _ _ ha
    cases op with
    | eq =>
      rcases act with ⟨_, act⟩ | act
      · have e : b' = (Filter.updEq b v lo).2 := by rw [act]
        rw [e]
        unfold Filter.updEq
        dsimp only
        cases h0 : b.bot with
        | true => exact empty_grid
        | false =>
          simp only [Bool.false_eq_true, if_false]
          split_ifs with h1 h2
          · exact ⟨hb, inside_refl _⟩
          · simp only [Itv.hasQ, Bool.and_eq_true, decide_eq_true_eq] at h2
            exact setV_grid hb ⟨g1, g1⟩ h2
          · exact empty_grid
      · have e : b' = (Filter.updEqItv b v lo hi).2 := by rw [act]
        rw [e]
        unfold Filter.updEqItv
        dsimp only
        cases h0 : b.bot with
        | true => exact empty_grid
        | false =>
          have hg := get_grid hn hp hb h0 (b.index v)
          simp only [Bool.false_eq_true, if_false]
          split_ifs with h1 h2
          · exact ⟨hb, inside_refl _⟩
          · exact empty_grid
          · refine setV_grid hb ?_ ?_
            · constructor
              · show max _ _ ∈ G
                rcases max_choice (b.getV v).lb (.fin lo) with h | h <;> rw [h]
                · exact hg.1
                · exact g1
              · show min _ _ ∈ G
                rcases min_choice (b.getV v).ub (.fin hi) with h | h <;> rw [h]
                · exact hg.2
                · exact g2
            · exact ⟨le_max_left _ _, min_le_left _ _⟩
    | neq => obtain ⟨_, rfl⟩ := act; exact ⟨hb, inside_refl _⟩
    | geq =>
      have e : b' = (Filter.updLower b v lo).2 := by rw [show Filter.updLower b v lo = _ from act]
      rw [e]; exact updLower_grid hn hp hb g1
    | leq =>
      have e : b' = (Filter.updUpper b v hi).2 := by rw [show Filter.updUpper b v hi = _ from act]
      rw [e]; exact updUpper_grid hn hp hb g2
    | gt =>
      have act : Filter.updStrictLower d b v lo = .ok (r, b') := act
      unfold Filter.updStrictLower at act
      split at act
      · have e : b' = (Filter.updLower b v (d.nextafter lo d.maxv)).2 := by
          rw [show Filter.updLower b v _ = _ from Outcome.ok.inj act]
        rw [e]; exact updLower_grid hn hp hb g3
      · cases act; exact updLower_grid hn hp hb g1
      · cases act; exact updLower_grid hn hp hb g1
      · cases act
    | lt =>
      have act : Filter.updStrictUpper d b v hi = .ok (r, b') := act
      unfold Filter.updStrictUpper at act
      split at act
      · have e : b' = (Filter.updUpper b v (d.nextafter hi d.minv)).2 := by
          rw [show Filter.updUpper b v _ = _ from Outcome.ok.inj act]
        rw [e]; exact updUpper_grid hn hp hb g4
      · cases act; exact updUpper_grid hn hp hb g2
      · cases act; exact updUpper_grid hn hp hb g2
      · cases act
end

open Filter in
theorem filter_keeps {d : Dbl} {f : Fml} {b b' : Box} {r : FilterRes}
    (h : Filter.filter d f b = .ok (r, b')) : b'.vars = b.vars ∧
      (¬ IntStrict f → b.bot = false → r ≠ .withChange → b'.bot = false) := by
  have lo : ∀ v q, (updLower b v q).2.vars = b.vars ∧
      (b.bot = false → (updLower b v q).1 ≠ .withChange → (updLower b v q).2.bot = false) := by
    intro v q; unfold updLower; simp only
    split_ifs <;> simp_all [Box.setV, Box.set, Box.setEmpty]
  have up : ∀ v q, (updUpper b v q).2.vars = b.vars ∧
      (b.bot = false → (updUpper b v q).1 ≠ .withChange → (updUpper b v q).2.bot = false) := by
    intro v q; unfold updUpper; simp only
    split_ifs <;> simp_all [Box.setV, Box.set, Box.setEmpty]
  rcases filter_cases h with ⟨-, -, rfl⟩ | ⟨v, op, l, u, ex, hab, ha⟩
  · exact ⟨rfl, fun _ h _ => h⟩
  · cases op with
    | eq =>
      rcases ha with ⟨-, ha⟩ | ha
      · unfold updEq at ha; simp only at ha
        split_ifs at ha <;> cases ha <;> simp_all [Box.setV, Box.set, Box.setEmpty]
      · unfold updEqItv at ha; simp only at ha
        split_ifs at ha <;> cases ha <;> simp_all [Box.setV, Box.set, Box.setEmpty]
    | neq => rw [ha.2]; exact ⟨rfl, fun _ h _ => h⟩
    | geq =>
      have ha : updLower b v l = (r, b') := ha
      have := lo v l
      rw [ha] at this
      exact ⟨this.1, fun _ => this.2⟩
    | leq =>
      have ha : updUpper b v u = (r, b') := ha
      have := up v u
      rw [ha] at this
      exact ⟨this.1, fun _ => this.2⟩
    | gt =>
      have ha : updStrictLower d b v l = .ok (r, b') := ha
      unfold updStrictLower at ha
      split at ha
      · have := lo v (d.nextafter l d.maxv)
        rw [Outcome.ok.inj ha] at this
        exact ⟨this.1, fun _ => this.2⟩
      · rename_i ht
        cases ha
        exact ⟨(lo v l).1, fun hi => absurd ⟨v, _, l, u, ex, hab, .inl rfl, .inl ht⟩ hi⟩
      · rename_i ht
        cases ha
        exact ⟨(lo v l).1, fun hi => absurd ⟨v, _, l, u, ex, hab, .inl rfl, .inr ht⟩ hi⟩
      · cases ha
    | lt =>
      have ha : updStrictUpper d b v u = .ok (r, b') := ha
      unfold updStrictUpper at ha
      split at ha
      · have := up v (d.nextafter u d.minv)
        rw [Outcome.ok.inj ha] at this
        exact ⟨this.1, fun _ => this.2⟩
      · rename_i ht
        cases ha
        exact ⟨(up v u).1, fun hi => absurd ⟨v, _, l, u, ex, hab, .inr rfl, .inl ht⟩ hi⟩
      · rename_i ht
        cases ha
        exact ⟨(up v u).1, fun hi => absurd ⟨v, _, l, u, ex, hab, .inr rfl, .inr ht⟩ hi⟩
      · cases ha

/-- A contractor that is not a sequence, with no work list in it. -/
def CtcPlain (R : Nat → Prop) (c : Ctc) : Prop := Quiet R c ∧ fan c = 0 ∧ ∀ ds, c ≠ .seq ds

theorem litCtc_plain {R f b c} (h : litCtc f b = .ok c) : CtcPlain R c := by
  unfold litCtc at h
  split at h
  · cases h
    refine ⟨?_, rfl, fun ds => by simp [mkFixpoint, flatten]⟩
    simp [mkFixpoint, flatten, Quiet, QuietAll]
  · unfold mkFwdbwd at h
    obtain ⟨c', _, h⟩ := bindO_ok h
    cases c' with
    | none => cases h; exact ⟨trivial, rfl, by simp⟩
    | some c' => cases h; exact ⟨trivial, rfl, by simp⟩

theorem litCtc_over {f b c ws} (h : litCtc f b = .ok c) (hv : f.isAll = true → b.vars = ws) :
    OverVars ws c := by
  unfold litCtc at h
  split at h
  · rename_i ha
    cases h
    simp [mkFixpoint, flatten, OverVars, OverVarsAll, hv ha]
  · unfold mkFwdbwd at h
    obtain ⟨c', _, h⟩ := bindO_ok h
    cases c' with
    | none => cases h; trivial
    | some c' => cases h; trivial

theorem mkInteger_over (b : Box) (ws) : OverVars ws (mkInteger b) := by
  unfold mkInteger
  dsimp only
  split <;> trivial

theorem mkPolytope_over {fs b c ws} (h : mkPolytope fs b = .ok c) : OverVars ws c := by
  unfold mkPolytope at h
  obtain ⟨cs, _, h⟩ := bindO_ok h
  split at h <;> (cases h; trivial)

theorem overVarsAll_append {ws} : ∀ {cs ds : List Ctc}, OverVarsAll ws cs → OverVarsAll ws ds →
    OverVarsAll ws (cs ++ ds)
  | [], _, _, h => h
  | _ :: _, _, h, k => ⟨h.1, overVarsAll_append h.2 k⟩

theorem flatten_over {ws} : ∀ cs : List Ctc, (∀ c ∈ cs, OverVars ws c) → OverVarsAll ws (flatten cs)
  | [], _ => trivial
  | c :: cs, h => by
    have i := flatten_over cs fun d hd => h d (List.mem_cons_of_mem _ hd)
    have j := h c (List.mem_cons_self ..)
    cases c with
    | id => simp only [flatten]; exact i
    | seq ds => simp only [flatten]; exact overVarsAll_append j i
    | _ => simp only [flatten]; exact ⟨j, i⟩

theorem mkInteger_plain (b : Box) : CtcPlain (IntAt b.vars) (mkInteger b) := by
  unfold mkInteger
  dsimp only
  split
  · exact ⟨trivial, rfl, by simp⟩
  · refine ⟨?_, rfl, by simp⟩
    intro i hi
    rw [List.mem_filter] at hi
    have h2 := hi.2
    cases hv : b.vars[i]? with
    | none => rw [hv] at h2; simp at h2
    | some v =>
      rw [hv] at h2
      simp only [Bool.or_eq_true, decide_eq_true_eq] at h2
      exact ⟨v, hv, h2⟩

theorem mkPolytope_plain {R fs b c} (h : mkPolytope fs b = .ok c) : CtcPlain R c := by
  unfold mkPolytope at h
  obtain ⟨cs, _, h⟩ := bindO_ok h
  split at h <;> (cases h; exact ⟨trivial, rfl, by simp⟩)

theorem flatten_plain {R : Nat → Prop} : ∀ cs : List Ctc, (∀ c ∈ cs, CtcPlain R c) →
    QuietAll R (flatten cs) ∧ fanAll (flatten cs) = 0 ∧ (flatten cs).length ≤ cs.length
  | [], _ => ⟨trivial, rfl, by simp [flatten]⟩
  | c :: cs, h => by
    obtain ⟨i1, i2, i3⟩ := flatten_plain cs fun d hd => h d (List.mem_cons_of_mem _ hd)
    obtain ⟨q1, q2, q3⟩ := h c (List.mem_cons_self ..)
    cases c with
    | id => simp only [flatten, List.length_cons]; exact ⟨i1, i2, by omega⟩
    | seq ds => exact absurd rfl (q3 ds)
    | _ =>
      simp only [flatten, List.length_cons, QuietAll, fanAll, q2, i2]
      exact ⟨⟨q1, i1⟩, by simp, by omega⟩

theorem cachedCtc_plain {R f b cache c cache' vs} (hc : CacheMade vs cache) (hv : b.vars = vs)
    (h : cachedCtc f b cache = .ok (c, cache')) : CtcPlain R c ∧ CacheMade vs cache' ∧
      OverVars vs c ∧ (f.isAll = false → ∀ ws, OverVars ws c) := by
  unfold cachedCtc at h
  cases e : cache.find? fun p => decide (p.1 = f) with
  | some p =>
    rw [e] at h
    cases h
    obtain ⟨b', hb', hv'⟩ := hc p (List.mem_of_find?_eq_some e)
    have hpf : p.1 = f := by simpa using List.find?_some e
    exact ⟨litCtc_plain hb', hc, litCtc_over hb' hv', fun hf ws => litCtc_over hb' fun h => by
      rw [hpf, hf] at h; cases h⟩
  | none =>
    rw [e] at h
    obtain ⟨c', h1, h2⟩ := bindO_ok h
    cases h2
    refine ⟨litCtc_plain h1, fun p hp => ?_, litCtc_over h1 fun _ => hv, fun hf ws =>
      litCtc_over h1 fun h => by rw [hf] at h; cases h⟩
    rw [List.mem_cons] at hp
    rcases hp with rfl | hp
    · exact ⟨b, h1, fun _ => hv⟩
    · exact hc p hp

/-- What is known of the contractors of literals. -/
structure CtcsOk (R : Nat → Prop) (vs : List Variable) (fs : List Fml) (b b' : Box) (cs : List Ctc) :
    Prop where
  plain : ∀ c ∈ cs, CtcPlain R c
  few : cs.length ≤ fs.length
  over : ∀ c ∈ cs, OverVars vs c
  none : (∀ f ∈ fs, f.isAll = false) → ∀ c ∈ cs, ∀ ws, OverVars ws c
  live : (∀ f ∈ fs, ¬ IntStrict f) → b.bot = false → b'.bot = false

theorem CtcsOk.skip {R vs f fs b b1 b2 cs} (h : CtcsOk R vs fs b1 b2 cs)
    (hl : ¬ IntStrict f → b.bot = false → b1.bot = false) : CtcsOk R vs (f :: fs) b b2 cs :=
  ⟨h.plain, by simp only [List.length_cons]; exact h.few.trans (by omega), h.over,
    fun ha => h.none fun g hg => ha g (List.mem_cons_of_mem _ hg),
    fun ha h0 => h.live (fun g hg => ha g (List.mem_cons_of_mem _ hg))
      (hl (ha f (List.mem_cons_self ..)) h0)⟩

theorem buildLoop_plain {R : Nat → Prop} {d : Dbl} {vs : List Variable} (hn : EQ.ninf ∈ G)
    (hp : EQ.pinf ∈ G) :
    ∀ {fs cache} {s : CStatus} {o cache'} {s' : CStatus}, (∀ f ∈ fs, LitGrid G d f) →
      CacheMade vs cache → s.box.vars = vs →
      Bounded G s.box → buildLoop d fs cache s = .ok (o, cache', s') →
      CacheMade vs cache' ∧ s'.box.vars = vs ∧ Bounded G s'.box ∧ Inside s'.box s.box ∧
        ∀ cs, o = some cs → CtcsOk R vs fs s.box s'.box cs
  | [], cache, s, o, cache', s', _, hc, hv, hb, h => by
    cases h
    exact ⟨hc, hv, hb, inside_refl _, fun cs e => by
      cases e
      exact ⟨by simp, by simp, by simp, by simp, fun _ h => h⟩⟩
  | f :: fs, cache, s, o, cache', s', hf, hc, hv, hb, h => by
    unfold buildLoop at h
    obtain ⟨⟨r, b'⟩, h1, h⟩ := bindO_ok h
    obtain ⟨g1, g2⟩ := filter_grid hn hp (hf f (List.mem_cons_self ..)) hb h1
    obtain ⟨v1, v2⟩ := filter_keeps h1
    rw [hv] at v1
    have hf' : ∀ g ∈ fs, LitGrid G d g := fun g hg => hf g (List.mem_cons_of_mem _ hg)
    cases r with
    | notFiltered =>
      dsimp only at h
      obtain ⟨⟨c, ca⟩, h2, h⟩ := bindO_ok h
      obtain ⟨⟨o', ca', s2⟩, h3, h⟩ := bindO_ok h
      cases h
      have hbox : ∀ t : CStatus, t = (if s.box ≠ b' then { s with box := b' }.addUsed f else s) →
          t.box = b' := by
        intro t ht
        rw [ht]
        split
        · rfl
        · rename_i hh; exact (not_not.mp hh)
      obtain ⟨p1, p2, p3, p4⟩ := cachedCtc_plain (R := R) hc (by rw [hbox _ rfl]; exact v1) h2
      obtain ⟨k1, kv, k2, k3, k4⟩ := buildLoop_plain (R := R) hn hp hf' p2
        (by rw [hbox _ rfl]; exact v1) (by rw [hbox _ rfl]; exact g1) h3
      rw [hbox _ rfl] at k3 k4
      refine ⟨k1, kv, k2, inside_trans k3 g2, fun cs e => ?_⟩
      cases o' with
      | none => cases e
      | some cs' =>
        cases e
        have l := (k4 cs' rfl).skip (f := f) (b := s.box) fun hi h0 => v2 hi h0 (by simp)
        refine ⟨fun x hx => ?_, by simpa using (k4 cs' rfl).few, fun x hx => ?_, fun ha x hx => ?_,
          l.live⟩ <;> rw [List.mem_cons] at hx <;> rcases hx with rfl | hx
        · exact p1
        · exact l.plain x hx
        · exact p3
        · exact l.over x hx
        · exact p4 (ha f (List.mem_cons_self ..))
        · exact l.none ha x hx
    | withChange =>
      dsimp only at h
      split at h
      · cases h
        exact ⟨hc, v1, g1, g2, fun cs e => by cases e⟩
      · rename_i hne
        obtain ⟨k1, kv, k2, k3, k4⟩ := buildLoop_plain (R := R) hn hp hf' hc
          (s := { s with box := b' }.addUsed f) v1 g1 h
        exact ⟨k1, kv, k2, inside_trans k3 g2, fun cs e =>
          (k4 cs e).skip fun _ _ => by simpa [Box.empty] using hne⟩
    | withoutChange =>
      dsimp only at h
      obtain ⟨k1, kv, k2, k3, k4⟩ := buildLoop_plain (R := R) hn hp hf' hc
        (s := { s with box := b' }) v1 g1 h
      exact ⟨k1, kv, k2, inside_trans k3 g2, fun cs e =>
        (k4 cs e).skip fun hi h0 => v2 hi h0 (by simp)⟩

/-- What is known of the contractor of some literals. -/
structure CtcOk (vs : List Variable) (fs : List Fml) (b b' : Box) (c : Ctc) : Prop where
  wl : WlOk (IntAt b'.vars) c
  fan : fan c ≤ fs.length + 2
  over : OverVars vs c
  none : (∀ f ∈ fs, f.isAll = false) → ∀ ws, OverVars ws c
  live : (∀ f ∈ fs, ¬ IntStrict f) → b.bot = false → b'.bot = false

theorem buildContractor_plain {cfg : TCfg} (hn : EQ.ninf ∈ G) (hp : EQ.pinf ∈ G) {fs cache}
    {s : CStatus} {o cache'} {s' : CStatus} {vs : List Variable}
    (hf : ∀ f ∈ fs, LitGrid G cfg.dbl f) (hc : CacheMade vs cache) (hv : s.box.vars = vs)
    (hb : Bounded G s.box) (h : buildContractor cfg fs cache s = .ok (o, cache', s')) :
    CacheMade vs cache' ∧ s'.box.vars = vs ∧ Bounded G s'.box ∧ Inside s'.box s.box ∧
      ∀ c, o = some c → CtcOk vs fs s.box s'.box c := by
  unfold buildContractor at h
  split at h
  · cases h
    refine ⟨hc, hv, hb, inside_refl _, fun c e => ?_⟩
    cases e
    obtain ⟨h1, h2, _⟩ := mkInteger_plain s.box
    exact ⟨quiet_wlOk _ h1, by omega, mkInteger_over _ _, fun _ => mkInteger_over _, fun _ h => h⟩
  · obtain ⟨⟨o', ca, s2⟩, h1, h⟩ := bindO_ok h
    obtain ⟨k1, kv, k2, k3, k4⟩ := buildLoop_plain (R := IntAt s2.box.vars) hn hp hf hc hv hb h1
    cases o' with
    | none => cases h; exact ⟨k1, kv, k2, k3, fun c e => by cases e⟩
    | some cs =>
      have hpoly : ∃ poly, (∀ c ∈ poly, CtcPlain (IntAt s2.box.vars) c ∧ ∀ ws, OverVars ws c) ∧
          poly.length ≤ 1 ∧
          Outcome.ok (some (if cfg.useWorklist then mkWorklist (cs ++ [mkInteger s2.box] ++ poly)
            else mkFixpoint (cs ++ [mkInteger s2.box] ++ poly)), ca, s2) = .ok (o, cache', s') := by
        by_cases hu : cfg.usePoly = true
        · simp only [hu, if_true] at h
          obtain ⟨p, h3, h4⟩ := bindO_ok h
          exact ⟨[p], fun c hc => by
            rw [List.mem_singleton] at hc; rw [hc]
            exact ⟨mkPolytope_plain h3, fun ws => mkPolytope_over h3⟩, by simp, h4⟩
        · simp only [hu] at h
          exact ⟨[], by simp, by simp, h⟩
      obtain ⟨poly, hpoly, hpl, h⟩ := hpoly
      cases h
      refine ⟨k1, kv, k2, k3, fun c e => ?_⟩
      have l := k4 cs rfl
      obtain ⟨q1, q2, q3⟩ := flatten_plain (R := IntAt s'.box.vars) (cs ++ [mkInteger s'.box] ++ poly)
        (fun c hc => by
          simp only [List.mem_append, List.mem_singleton] at hc
          rcases hc with (hc | hc) | hc
          · exact l.plain c hc
          · rw [hc]; exact mkInteger_plain _
          · exact (hpoly c hc).1)
      have hov : ∀ ws, (∀ c ∈ cs, OverVars ws c) →
          OverVarsAll ws (flatten (cs ++ [mkInteger s'.box] ++ poly)) := by
        intro ws hws
        refine flatten_over _ fun c hc => ?_
        simp only [List.mem_append, List.mem_singleton] at hc
        rcases hc with (hc | hc) | hc
        · exact hws c hc
        · rw [hc]; exact mkInteger_over _ _
        · exact (hpoly c hc).2 ws
      have hlen : (cs ++ [mkInteger s'.box] ++ poly).length ≤ fs.length + 2 := by
        simp only [List.length_append, List.length_singleton]
        have := l.few
        omega
      have hov1 := hov _ l.over
      have hov2 := fun ha ws => hov ws fun c hc => l.none ha c hc ws
      cases e
      split
      · unfold mkWorklist
        split
        · exact ⟨trivial, by simp [Spec.fan], trivial, fun _ _ => trivial, l.live⟩
        · refine ⟨q1, ?_, hov1, hov2, l.live⟩
          simp only [Spec.fan]
          omega
      · unfold mkFixpoint
        split
        · exact ⟨trivial, by simp [Spec.fan], trivial, fun _ _ => trivial, l.live⟩
        · refine ⟨quietAll_wlOk _ q1, ?_, hov1, hov2, l.live⟩
          simp only [Spec.fan]
          omega

end Verif.Proof
