import Verif.Spec.TerminateDemo
import Verif.Proof.TerminateIcp

/-!
# Concrete cases for the end of the search: lemmas
-/

namespace Verif.Proof
open Verif Verif.Model Verif.Spec

/-! ## Few bounds -/

theorem gridG_mem {a : EQ} : a ∈ gridG ↔ a = .ninf ∨ a = .pinf ∨ ∃ k ∈ gridInts, a = .fin (k : ℤ) := by
  simp only [gridG, Finset.mem_insert, List.mem_toFinset, List.mem_map]
  refine or_congr_right (or_congr_right ?_)
  exact ⟨fun ⟨k, h, e⟩ => ⟨k, h, e.symm⟩, fun ⟨k, h, e⟩ => ⟨k, h, e.symm⟩⟩

theorem gridInts_mem {k : ℤ} : k ∈ gridInts ↔ -4 ≤ k ∧ k ≤ 4 := by
  simp only [gridInts, List.mem_cons, List.not_mem_nil, or_false]
  omega

theorem gridPick_mem (i : Itv) : gridPick i ∈ gridInts := by
  unfold gridPick
  cases h : gridInts.find? fun k : ℤ => decide (i.lb < .fin (k : ℚ)) && decide (.fin (k : ℚ) < i.ub) with
  | none => decide
  | some k => exact List.mem_of_find?_eq_some h

theorem gridFp_cut (i : Itv) (h : gridFp.bisectable i = true) :
    i.lb < .fin (gridFp.cut i) ∧ .fin (gridFp.cut i) < i.ub := by
  simp only [Fp.bisectable, Bool.and_eq_true, decide_eq_true_eq] at h
  exact ⟨h.1.2, h.2⟩

theorem gridFp_grid : FpGrid gridG gridFp where
  cut := fun i _ _ h => ⟨gridG_mem.mpr (.inr (.inr ⟨_, gridPick_mem i, rfl⟩)), gridFp_cut i h⟩
  mid := by
    intro i _ hu h _ hi
    have h1 := (gridFp_cut i h).2
    have h2 := gridInts_mem.mp (gridPick_mem i)
    have e : gridFp.mid i = (gridPick i : ℚ) := rfl
    have e' : gridFp.cut i = (gridPick i : ℚ) := rfl
    rw [e, Int.floor_intCast]
    refine ⟨gridG_mem.mpr (.inr (.inr ⟨_, gridPick_mem i, rfl⟩)),
      gridG_mem.mpr (.inr (.inr ⟨gridPick i + 1, ?_, by push_cast; rfl⟩))⟩
    rcases gridG_mem.mp hu with h3 | h3 | ⟨k, h3, h4⟩
    · rw [h3] at h1; exact absurd h1 (by simp)
    · rw [h3] at hi; exact absurd hi (by simp)
    · rw [h4, e', EQ.fin_lt_fin] at h1
      have h5 := gridInts_mem.mp h3
      have : gridPick i < k := by exact_mod_cast h1
      rw [gridInts_mem]
      omega

theorem gridIbex_ops : GridOps gridG gridIbex where
  ninf := by simp [gridG]
  pinf := by simp [gridG]
  ceil := by
    intro a ha
    rcases gridG_mem.mp ha with h | h | ⟨k, h, rfl⟩
    · subst h; exact ha
    · subst h; exact ha
    · simp only [EQ.ceil, Int.ceil_intCast]; exact ha
  floor := by
    intro a ha
    rcases gridG_mem.mp ha with h | h | ⟨k, h, rfl⟩
    · subst h; exact ha
    · subst h; exact ha
    · simp only [EQ.floor, Int.floor_intCast]; exact ha
  bwd := by
    intro c b hb
    have hn : Bounded gridG b.setEmpty ∧ Inside b.setEmpty b :=
      ⟨fun h => by simp [Box.setEmpty] at h, fun h => by simp [Box.setEmpty] at h⟩
    have hs : Bounded gridG b ∧ Inside b b := ⟨hb, fun h => ⟨h, rfl, rfl, fun _ => ⟨le_rfl, le_rfl⟩⟩⟩
    show Bounded gridG (demoRefute c b).2 ∧ Inside (demoRefute c b).2 b
    unfold demoRefute
    split
    · split
      · exact hn
      · exact hs
    · exact hs
  poly := fun _ b hb => ⟨hb, fun h => ⟨h, rfl, rfl, fun _ => ⟨le_rfl, le_rfl⟩⟩⟩
  term := by simp [gridIbex]
  forallEnds := by simp [gridIbex]
  forallGrid := by
    intro n vs f b b' out hb h
    simp only [gridIbex, Run.ok.injEq, Prod.mk.injEq] at h
    obtain ⟨rfl, rfl⟩ := h
    exact ⟨hb.grid, fun h => ⟨h, rfl, rfl, fun _ => ⟨le_rfl, le_rfl⟩⟩, fun _ _ => rfl⟩

theorem grid_brancher : BranchGrid gridG (Box.branchLargestFirst gridFp) :=
  branch_grid gridIbex_ops.ceil gridIbex_ops.floor gridFp_grid

/-! ## A work list that is never empty -/

theorem hang_filter (d : Dbl) : Filter.filter d hangLit hangBox = .ok (.notFiltered, hangBox) := rfl

theorem hang_conv : ibexConv hangBox.vars true hangLit = .ok none := rfl

theorem hang_build (cfg : TCfg) (hw : cfg.useWorklist = true) (hp : cfg.usePoly = false) (tick : Nat) :
    buildContractor cfg [hangLit] [] { box := hangBox, tick := tick } =
      .ok (some (.worklist [.integer [0, 1]]), [(hangLit, .id)], { box := hangBox, tick := tick }) := by
  have h1 : cachedCtc hangLit hangBox [] = .ok (.id, [(hangLit, .id)]) := by
    have : mkFwdbwd hangLit hangBox = .ok .id := by
      unfold mkFwdbwd
      rw [hang_conv]; rfl
    simp only [cachedCtc, List.find?_nil, litCtc, this]
    rfl
  have h2 : buildLoop cfg.dbl [hangLit] [] { box := hangBox, tick := tick } =
      .ok (some [.id], [(hangLit, .id)], { box := hangBox, tick := tick }) := by
    simp only [buildLoop, hang_filter]
    simp only [bind, Outcome.bind]
    simp only [ne_eq, not_true, if_false, h1]
    rfl
  have h3 : mkInteger hangBox = .integer [0, 1] := rfl
  simp only [buildContractor, h2, List.isEmpty_cons, Bool.false_eq_true, if_false, bind, Outcome.bind,
    if_true, h3, hw, hp]
  rfl

theorem int_round {i is} {s : CStatus} {b b' : Box} (hb : s.box = b)
    (h1 : (b.bot || (b.get i).isEmpty) = false)
    (h2 : (!(b.get i).lb.isInt || !(b.get i).ub.isInt) = true)
    (h3 : (b.get i).lb.ceil ≤ (b.get i).ub.floor)
    (h4 : b.set i ⟨(b.get i).lb.ceil, (b.get i).ub.floor⟩ = b') :
    integerLoop (i :: is) s = integerLoop is { s with box := b', output := i :: s.output } := by
  subst hb h4
  rw [integerLoop]
  simp only [h1, h2, if_pos h3]
  rfl

theorem int_keep {i is} {s : CStatus} {b : Box} (hb : s.box = b)
    (h1 : (b.bot || (b.get i).isEmpty) = false)
    (h2 : (!(b.get i).lb.isInt || !(b.get i).ub.isInt) = false) :
    integerLoop (i :: is) s = integerLoop is s := by
  subst hb
  rw [integerLoop]
  simp only [h1, h2]
  rfl

theorem hang_step (s : CStatus) (h : s.box = hangBox ∨ s.box = hangRes) :
    ∃ s', integerLoop [0, 1] s = .ok s' ∧ s'.box = hangRes ∧ 0 ∈ s'.output := by
  rcases h with h | h
  · rw [int_round (b' := hangBox) h (by decide +kernel) (by decide +kernel) (by decide +kernel)
        (by decide +kernel),
      int_round (b := hangBox) (b' := hangRes) rfl (by decide +kernel) (by decide +kernel)
        (by decide +kernel) (by decide +kernel)]
    exact ⟨_, rfl, rfl, by simp⟩
  · rw [int_round (b' := hangRes) h (by decide +kernel) (by decide +kernel) (by decide +kernel)
        (by decide +kernel),
      int_keep (b := hangRes) rfl (by decide +kernel) (by decide +kernel)]
    exact ⟨_, rfl, rfl, by simp⟩

theorem wlFind_first (w : Nat → Bool) (h : w 0 = true) : wlFind 1 w 0 = some 0 := by
  simp [wlFind, List.range_succ, h]

theorem hang_loop (ib : Ibex) (k : Nat) : ∀ n s wl, s.box = hangRes →
    wlLoop (prunes ib k [.integer [0, 1]]) [[0, 1]] n 0 s wl = .oof
  | 0, _, _, _ => rfl
  | n + 1, s, wl, h => by
    obtain ⟨s', h1, h2, h3⟩ := hang_step { s with output := [] } (.inr h)
    unfold wlLoop
    simp only [prunes, prune, List.getD_cons_zero, h1, bind, Run.bind]
    rw [if_neg (by rw [h2]; decide +kernel)]
    have e1 : ∀ w : Nat → Bool, wlFind 1 w (0 + 1) = none := by intro w; rfl
    simp only [List.length_cons, List.length_nil, zero_add, e1]
    rw [wlFind_first _ (by
      simp only [wlUpdate, Bool.or_eq_true, List.any_eq_true]; exact Or.inr ⟨0, h3, rfl⟩)]
    have := hang_loop ib k n s'
      (wlUpdate [[0, 1]] s'.output fun k => if k = 0 then false else wl k) h2
    simpa only [prunes, prune] using this

theorem hang_prune (ib : Ibex) (hib : ib.term hangBox.vals hangRes.vals = false) (k : Nat)
    {s : CStatus} (h : s.box = hangBox) (hb : s.branch = none) :
    prune ib k (.worklist [.integer [0, 1]]) s = .oof := by
  obtain ⟨s', h1, h2, h3⟩ := hang_step { s with output := [] } (.inl h)
  rw [prune]
  unfold wlRun
  have e0 : ([Ctc.integer [0, 1]].map Ctc.input) = [[0, 1]] := rfl
  rw [hb, e0]
  have e3 : wlFill (prunes ib k [.integer [0, 1]]) [[0, 1]] [0] s (fun _ => false) =
      .ok (s', wlUpdate [[0, 1]] s'.output (fun _ => false)) := by
    simp only [wlFill, prunes, prune, List.getD_cons_zero, h1, bind, Run.bind]
    rw [if_neg (by rw [h2]; decide +kernel)]
  have e4 : (List.range (prunes ib k [.integer [0, 1]]).length) = [0] := by simp [prunes]
  dsimp only
  rw [e4, e3]
  simp only [bind, Run.bind]
  rw [if_neg (by rw [h2]; decide +kernel)]
  have e5 : (prunes ib k [.integer [0, 1]]).length = 1 := by simp [prunes]
  rw [e5, wlFind_first _ (by
    simp only [wlUpdate, Bool.or_eq_true, List.any_eq_true]; exact Or.inr ⟨0, h3, rfl⟩)]
  dsimp only
  rw [h, h2, hib, if_neg (by simp)]
  exact hang_loop ib k k s' _ h2

theorem hang_theory (env : Env) (cfg : TCfg) (hib : env.ib.term hangBox.vals hangRes.vals = false)
    (hw : cfg.useWorklist = true) (hp : cfg.usePoly = false) (hj : cfg.jobs ≤ 1) (tick : Nat) :
    theoryCheck env cfg [] tick hangBox [hangLit] = .oof := by
  unfold theoryCheck
  rw [hang_build cfg hw hp]
  have e : buildEvaluators [hangLit] = .ok () := rfl
  simp only [Run.lift, bind, Run.bind, e]
  unfold icp icpSeq
  rw [if_neg (by omega)]
  cases cfg.fuel with
  | zero => rfl
  | succ m =>
    simp only [icpLoop, bind, Run.bind]
    rw [hang_prune env.ib hib _ rfl rfl]

end Verif.Proof
