import Verif.Model.IcpThrow
import Verif.Proof.IcpPar

/-! # Helper lemmas on exceptions in the parallel search -/

namespace Verif.Proof
open Verif Verif.Model Verif.Spec

/-- A step of a worker leaves the others. -/
theorem parStep_other {env c fs p i p'} (h : Par.step env c fs p i = .ok p') :
    p'.workers.length = p.workers.length ∧ ∀ j, j ≠ i → p'.workers[j]? = p.workers[j]? := by
  rcases step_cases h with rfl | ⟨w, w', st, n, f, hw, hs, rfl⟩
  · exact ⟨rfl, fun _ _ => rfl⟩
  · exact ⟨by simp, fun j hj => by simp [Ne.symm hj]⟩

/-- The cases of a step. -/
theorem go_cases {env c fs} {x x' : ParX} {i} (h : x.go env c fs i = .ok x') :
    x' = x ∨ (i ∉ x.dead ∧ x' = x.throws i ∧ ∃ w, x.par.workers[i]? = some w ∧
        (w.pc = .chk ∨ x.par.step env c fs i = .throw)) ∨
      (i ∉ x.dead ∧ ∃ p, x.par.step env c fs i = .ok p ∧ x' = { x with par := p } ∧
        ∃ w, x.par.workers[i]? = some w ∧ (x.gone = true → w.pc.shared = false)) := by
  unfold ParX.go at h
  cases hw : x.par.workers[i]? with
  | none => rw [hw] at h; simp only [Run.ok.injEq] at h; exact .inl h.symm
  | some w =>
    rw [hw] at h
    dsimp only at h
    by_cases hd : i ∈ x.dead
    · simp only [hd, if_true, Run.ok.injEq] at h; exact .inl h.symm
    · simp only [hd, if_false] at h
      by_cases hg : (x.gone && w.pc.shared) = true
      · simp only [hg, if_true] at h; cases h
      · rw [if_neg hg] at h
        by_cases hi : (x.interrupted && decide (0 < x.par.boxes) && w.pc.atTest) = true
        · rw [if_pos hi] at h
          simp only [Run.ok.injEq] at h
          refine .inr (.inl ⟨hd, h.symm, w, rfl, .inl ?_⟩)
          simp only [Bool.and_eq_true] at hi
          have := hi.2
          cases hp : w.pc <;> simp [hp, Pc.atTest] at this ⊢
        · rw [if_neg hi] at h
          cases hs : x.par.step env c fs i with
          | ok p =>
            rw [hs] at h
            simp only [Run.ok.injEq] at h
            refine .inr (.inr ⟨hd, p, rfl, h.symm, w, rfl, fun hgo => ?_⟩)
            cases hsh : w.pc.shared with
            | false => rfl
            | true => simp [hgo, hsh] at hg
          | throw =>
            rw [hs] at h
            simp only [Run.ok.injEq] at h
            exact .inr (.inl ⟨hd, h.symm, w, rfl, .inr rfl⟩)
          | ub => rw [hs] at h; cases h
          | oof => rw [hs] at h; cases h

theorem wait_par (x : ParX) : x.wait.par = x.par ∧ x.wait.dead = x.dead := by
  unfold ParX.wait
  dsimp only
  split
  · exact ⟨rfl, rfl⟩
  · split
    · exact ⟨rfl, rfl⟩
    · split <;> exact ⟨rfl, rfl⟩

/-- An invariant of states holds in every schedule. -/
theorem runX_inv {env c fs} {P : ParX → Prop}
    (hgo : ∀ x i x', x.go env c fs i = .ok x' → P x → P x') (hwait : ∀ x, P x → P x.wait)
    (hsig : ∀ x, P x → P { x with interrupted := true }) :
    ∀ {es x x'}, ParX.run env c fs es x = .ok x' → P x → P x'
  | [], x, x', h, hp => by simp only [ParX.run, Run.ok.injEq] at h; exact h ▸ hp
  | .go i :: es, x, x', h, hp => by
    simp only [ParX.run] at h
    obtain ⟨y, h1, h2⟩ := bindR_ok h
    exact runX_inv hgo hwait hsig h2 (hgo x i y h1 hp)
  | .wait :: es, x, x', h, hp => by
    simp only [ParX.run] at h
    exact runX_inv hgo hwait hsig h (hwait x hp)
  | .signal :: es, x, x', h, hp => by
    simp only [ParX.run] at h
    exact runX_inv hgo hwait hsig h (hsig x hp)

theorem go_count {env c fs} {x x' : ParX} {i} (h : x.go env c fs i = .ok x')
    (hi : CountInv x.par) : CountInv x'.par := by
  rcases go_cases h with rfl | ⟨-, rfl, -⟩ | ⟨-, p, hs, rfl, -⟩
  · exact hi
  · exact hi
  · exact count_step hs hi

/-- The counting invariant, and a worker that has thrown stays as it was. -/
def Frozen (k : Nat) (w : Worker) (x : ParX) : Prop :=
  CountInv x.par ∧ k ∈ x.dead ∧ x.par.workers[k]? = some w

theorem go_frozen {env c fs k w} {x x' : ParX} {i} (h : x.go env c fs i = .ok x')
    (hf : Frozen k w x) : Frozen k w x' := by
  refine ⟨go_count h hf.1, ?_⟩
  rcases go_cases h with rfl | ⟨-, rfl, -⟩ | ⟨hd, p, hs, rfl, -⟩
  · exact hf.2
  · exact ⟨by simp [ParX.throws, hf.2.1], hf.2.2⟩
  · refine ⟨hf.2.1, ?_⟩
    have hne : k ≠ i := fun he => hd (he ▸ hf.2.1)
    rw [← hf.2.2]
    exact (parStep_other hs).2 k hne

theorem run_frozen {env c fs k w es} {x x' : ParX} (h : ParX.run env c fs es x = .ok x')
    (hf : Frozen k w x) : Frozen k w x' := by
  refine runX_inv (P := Frozen k w) (fun _ _ _ hg => go_frozen hg) (fun y hy => ?_)
    (fun y hy => hy) h hf
  obtain ⟨h1, h2⟩ := wait_par y
  exact ⟨h1 ▸ hy.1, h2 ▸ hy.2.1, h1 ▸ hy.2.2⟩

theorem run_count {env c fs es} {x x' : ParX} (h : ParX.run env c fs es x = .ok x')
    (hi : CountInv x.par) : CountInv x'.par :=
  runX_inv (P := fun y => CountInv y.par) (fun _ _ _ hg => go_count hg)
    (fun y hy => (wait_par y).1 ▸ hy) (fun y hy => hy) h hi

/-- A worker throws while it has a box. -/
theorem throw_share {env c fs} {p : Par} {i} {w} (hw : p.workers[i]? = some w)
    (h : p.step env c fs i = .throw) : share w = 1 := by
  unfold Par.step at h
  rw [hw] at h
  dsimp only at h
  unfold share
  cases hp : w.pc with
  | prune => rfl
  | eval => rfl
  | branch cand => rfl
  | pop =>
    exfalso
    simp only [Par.workerStep, hp] at h
    cases hs : p.stack <;> simp only [hs] at h <;> cases h
  | top => exfalso; simp only [Par.workerStep, hp] at h; cases h
  | chk => exfalso; simp only [Par.workerStep, hp] at h; cases h
  | dec => exfalso; simp only [Par.workerStep, hp] at h; cases h
  | inc b1 b2 => rfl
  | push b1 b2 => exfalso; simp only [Par.workerStep, hp] at h; cases h
  | find => rfl
  | done => exfalso; simp only [Par.workerStep, hp] at h; cases h

theorem go_of_throw {env c fs} {x y : ParX} {i} (hd : i ∉ x.dead)
    (ht : x.par.step env c fs i = .throw) (h : x.go env c fs i = .ok y) :
    y = x.throws i ∧ ∃ w, x.par.workers[i]? = some w := by
  have hw : ∃ w, x.par.workers[i]? = some w := by
    cases hw : x.par.workers[i]? with
    | none => simp [Par.step, hw] at ht
    | some w => exact ⟨w, rfl⟩
  refine ⟨?_, hw⟩
  obtain ⟨w, hw⟩ := hw
  unfold ParX.go at h
  rw [hw] at h
  dsimp only at h
  rw [if_neg hd] at h
  split at h
  · cases h
  · split at h
    · simp only [Run.ok.injEq] at h; exact h.symm
    · rw [ht] at h; simp only [Run.ok.injEq] at h; exact h.symm

/-- A solution stays found. -/
theorem parStep_found {env c fs p i p'} (h : Par.step env c fs p i = .ok p')
    (hf : p'.found = none) : p.found = none := by
  rcases step_cases h with rfl | ⟨w, w', st, n, f, hw, hs, rfl⟩
  · exact hf
  · have hf : f = none := hf
    subst hf
    revert hs
    unfold Par.workerStep
    intro hs
    cases hp : w.pc <;> rw [hp] at hs <;> dsimp only at hs
    case top => simp only [Run.ok.injEq, Prod.mk.injEq] at hs; exact hs.2.2.2
    case chk => simp only [Run.ok.injEq, Prod.mk.injEq] at hs; exact hs.2.2.2
    case pop =>
      split at hs <;> simp only [Run.ok.injEq, Prod.mk.injEq] at hs <;> exact hs.2.2.2
    case prune =>
      obtain ⟨a, -, h2⟩ := bindR_ok hs
      simp only [Run.ok.injEq, Prod.mk.injEq] at h2; exact h2.2.2.2
    case eval =>
      obtain ⟨a, -, h2⟩ := bindR_ok hs
      split at h2 <;> simp only [Run.ok.injEq, Prod.mk.injEq] at h2 <;> exact h2.2.2.2
    case dec => simp only [Run.ok.injEq, Prod.mk.injEq] at hs; exact hs.2.2.2
    case branch =>
      obtain ⟨a, -, h2⟩ := bindR_ok hs
      split at h2 <;> simp only [Run.ok.injEq, Prod.mk.injEq] at h2 <;> exact h2.2.2.2
    case inc => simp only [Run.ok.injEq, Prod.mk.injEq] at hs; exact hs.2.2.2
    case push => simp only [Run.ok.injEq, Prod.mk.injEq] at hs; exact hs.2.2.2
    case find => simp only [Run.ok.injEq, Prod.mk.injEq] at hs; simp at hs
    case done => simp only [Run.ok.injEq, Prod.mk.injEq] at hs; exact hs.2.2.2

theorem go_length {env c fs} {x x' : ParX} {i} (h : x.go env c fs i = .ok x') :
    x'.par.workers.length = x.par.workers.length := by
  rcases go_cases h with rfl | ⟨-, rfl, -⟩ | ⟨-, p, hs, rfl, -⟩
  · rfl
  · rfl
  · exact (parStep_other hs).1

theorem run_length {env c fs es} {x x' : ParX} (h : ParX.run env c fs es x = .ok x') :
    x'.par.workers.length = x.par.workers.length :=
  runX_inv (P := fun y => y.par.workers.length = x.par.workers.length)
    (fun _ _ _ hg hy => (go_length hg).trans hy) (fun y hy => by rw [(wait_par y).1]; exact hy)
    (fun y hy => hy) h rfl

/-- With a box lost no worker returns. -/
theorem frozen_none {k w} {x : ParX} (hf : Frozen k w x) (hs : share w = 1)
    (hn : x.par.found = none) : 0 < x.par.boxes ∧ ∀ v ∈ x.par.workers, v.pc ≠ .done := by
  have hb : 0 < x.par.boxes := by
    have h1 := hf.1.count hn
    have h2 := cnt_le_sum (List.mem_of_getElem? hf.2.2)
    omega
  refine ⟨hb, fun v hv hd => ?_⟩
  have := hf.1.quiet hn v hv hd
  omega

/-- What the barrier needs. -/
theorem wait_gone {x : ParX} (h : x.wait.gone = true) (hx : x.gone = false) :
    (∀ w, x.par.workers[x.par.workers.length - 1]? = some w → w.returned = true) ∧
      ∃ i ∈ x.dead, i < x.par.workers.length - 1 := by
  unfold ParX.wait at h
  dsimp only at h
  split at h
  · rw [hx] at h; cases h
  · rename_i hc
    rw [hx] at hc
    simp only [Bool.false_or, Bool.not_eq_true', Bool.not_eq_false] at hc
    refine ⟨fun w hw => by simpa [ParX.back, hw] using hc, ?_⟩
    split at h
    · rw [hx] at h; cases h
    · rename_i i hfi
      split at h
      · rename_i hd
        exact ⟨i, hd, by simpa using List.mem_of_find?_eq_some hfi⟩
      · rw [hx] at h; cases h

/-- The state after a worker has lost a box. -/
def Hung (n k : Nat) (w : Worker) (x : ParX) : Prop :=
  Frozen k w x ∧ x.par.workers.length = n ∧
    (x.par.found = none → n - 1 ∉ x.dead → x.gone = false)

theorem run_hung {env c fs n k w es} {x x' : ParX} (hn : 0 < n) (hsh : share w = 1)
    (h : ParX.run env c fs es x = .ok x') (hf : Hung n k w x) : Hung n k w x' := by
  refine runX_inv (P := Hung n k w) (fun y i y' hg hy => ?_) (fun y hy => ?_)
    (fun y hy => hy) h hf
  · refine ⟨go_frozen hg hy.1, (go_length hg).trans hy.2.1, ?_⟩
    rcases go_cases hg with rfl | ⟨-, rfl, -⟩ | ⟨hd, p, hs, rfl, -⟩
    · exact hy.2.2
    · intro h1 h2
      simp only [ParX.throws, List.mem_cons, not_or] at h2
      have := hy.2.2 h1 h2.2
      have hl := hy.2.1
      simp only [ParX.throws, this, Bool.false_or, beq_eq_false_iff_ne, ne_eq]
      omega
    · intro h1 h2
      exact hy.2.2 (parStep_found hs h1) h2
  · obtain ⟨h1, h2⟩ := wait_par y
    refine ⟨⟨h1 ▸ hy.1.1, h2 ▸ hy.1.2.1, h1 ▸ hy.1.2.2⟩, h1 ▸ hy.2.1, ?_⟩
    rw [h1, h2]
    intro hfo hd
    have hg := hy.2.2 hfo hd
    cases hw : y.wait.gone with
    | false => rfl
    | true =>
      exfalso
      have hlen := hy.2.1
      have hlt : y.par.workers.length - 1 < y.par.workers.length := by omega
      have hm := (wait_gone hw hg).1 _ (List.getElem?_eq_getElem hlt)
      refine (frozen_none hy.1 hsh hfo).2 _ (List.getElem_mem hlt) ?_
      unfold Worker.returned at hm
      split at hm
      · assumption
      · cases hm

/-- Every worker has returned or thrown. -/
def Settled (x : ParX) : Prop :=
  ∀ i w, x.par.workers[i]? = some w → i ∈ x.dead ∨ w.pc = .done

theorem settled_go {env c fs} {x : ParX} (hs : Settled x) (i : Nat) :
    x.go env c fs i = .ok x := by
  unfold ParX.go
  cases hw : x.par.workers[i]? with
  | none => rfl
  | some w =>
    dsimp only
    split
    · rfl
    · rename_i hd
      rcases hs i w hw with h | h
      · exact absurd h hd
      · have hstep : x.par.step env c fs i = .ok x.par := by
          unfold Par.step
          rw [hw]
          simp only [Par.workerStep, h]
          show Run.ok _ = _
          congr
          obtain ⟨hlt, rfl⟩ := List.getElem?_eq_some_iff.1 hw
          exact List.set_getElem_self hlt
        simp [h, Pc.shared, Pc.atTest, hstep]

theorem settled_run {env c fs} : ∀ {es : List ThrowEv} {x : ParX}, Settled x → x.gone = true →
    ∃ x', ParX.run env c fs es x = .ok x' ∧ x'.par = x.par ∧ x'.gone = true
  | [], x, _, hg => ⟨x, rfl, rfl, hg⟩
  | .go i :: es, x, hs, hg => by
    obtain ⟨x', h1, h2⟩ := settled_run (env := env) (c := c) (fs := fs) (es := es) hs hg
    refine ⟨x', ?_, h2⟩
    simp only [ParX.run, settled_go hs i]
    exact h1
  | .wait :: es, x, hs, hg => by
    have : x.wait = x := by simp [ParX.wait, hg]
    obtain ⟨x', h1, h2⟩ := settled_run (env := env) (c := c) (fs := fs) (es := es) hs hg
    exact ⟨x', by simp only [ParX.run, this]; exact h1, h2⟩
  | .signal :: es, x, hs, hg => by
    obtain ⟨x', h1, h2⟩ := settled_run (env := env) (c := c) (fs := fs) (es := es)
      (x := { x with interrupted := true }) hs hg
    exact ⟨x', by simp only [ParX.run]; exact h1, h2⟩

/-- Two workers: an exception that has left `CheckSat` without the main thread having thrown. -/
def TwoOk (x : ParX) : Prop :=
  x.par.workers.length = 2 ∧ (1 ∉ x.dead → x.gone = true → Settled x)

theorem run_two {env c fs es} {x x' : ParX} (h : ParX.run env c fs es x = .ok x')
    (hx : TwoOk x) : TwoOk x' := by
  refine runX_inv (P := TwoOk) (fun y i y' hg hy => ?_) (fun y hy => ?_) (fun y hy => hy) h hx
  · refine ⟨(go_length hg).trans hy.1, fun hd hgo => ?_⟩
    by_cases hq : 1 ∉ y.dead ∧ y.gone = true
    · have hs := hy.2 hq.1 hq.2
      rw [settled_go hs i, Run.ok.injEq] at hg
      exact hg ▸ hs
    · exfalso
      rcases go_cases hg with rfl | ⟨-, rfl, -⟩ | ⟨-, p, hs, rfl, -⟩
      · exact hq ⟨hd, hgo⟩
      · simp only [ParX.throws, List.mem_cons, not_or] at hd
        refine hq ⟨hd.2, ?_⟩
        simp only [ParX.throws, hy.1, Bool.or_eq_true, beq_iff_eq] at hgo
        rcases hgo with h | h
        · exact h
        · omega
      · exact hq ⟨hd, hgo⟩
  · obtain ⟨h1, h2⟩ := wait_par y
    refine ⟨h1 ▸ hy.1, fun hd hgo => ?_⟩
    rw [h2] at hd
    have key : Settled y := by
      cases hg : y.gone with
      | true => exact hy.2 hd hg
      | false =>
        obtain ⟨hm, i, hi, hlt⟩ := wait_gone hgo hg
        rw [hy.1] at hm hlt
        have hi0 : i = 0 := by omega
        subst hi0
        intro j w hw
        match j with
        | 0 => exact .inl hi
        | 1 =>
          have := hm w hw
          unfold Worker.returned at this
          split at this
          · right; assumption
          · cases this
        | j + 2 =>
          have := (List.getElem?_eq_some_iff.1 hw).1
          have := hy.1
          omega
    intro j w hw
    rw [h1] at hw
    rw [h2]
    exact key j w hw

end Verif.Proof
