import Verif.Proof.TerminateIcp
import Verif.Proof.IcpPar

/-!
# The parallel search ends: lemmas
-/

namespace Verif.Proof
open Verif Verif.Model Verif.Spec

variable {G : Finset EQ}

/-- The work left for what a worker holds. -/
def toil (G : Finset EQ) (w : Worker) : Nat :=
  match w.pc with
  | .top => if w.needPop then 0 else 10 * cost G w.st.box - 1
  | .chk => if w.needPop then 0 else 10 * cost G w.st.box - 2
  | .pop | .done => 0
  | .prune => 10 * cost G w.st.box - 3
  | .eval => 10 * cost G w.st.box - 4
  | .branch _ => 10 * cost G w.st.box - 5
  | .inc b1 b2 => 10 * (cost G b1 + cost G b2) + 3
  | .push b1 b2 => 10 * (cost G b1 + cost G b2) + 2
  | .dec | .find => 1

/-- The work left for the boxes of the stack. -/
def heap (G : Finset EQ) (st : List Box) : Nat := (st.map fun b => 10 * cost G b).sum

/-- All the work left. -/
def work (G : Finset EQ) (p : Par) : Nat := heap G p.stack + (p.workers.map (toil G)).sum

/-- The invariant: the boxes are kept, and those that are not to be dropped are not empty. -/
structure ParKept (G : Finset EQ) (vs : List Variable) (k : Nat) (p : Par) : Prop where
  stack : ∀ b ∈ p.stack, Kept G vs k b ∧ b.bot = false
  held : ∀ w ∈ p.workers, ∀ b ∈ pending w, Kept G vs k b
  live : ∀ w ∈ p.workers, w.pc ≠ .dec → ∀ b ∈ pending w, b.bot = false

theorem kept_empty {vs k b} (hk : 0 < k) (h : b.bot = true) : Kept G vs k b :=
  ⟨fun h' => by simp [h] at h', fun h' => by simp [h] at h', fun h' => by simp [h] at h',
    by simp [room, h, hk]⟩

section
variable {env : Env} {vs : List Variable} {k : Nat} {c : Ctc} {fs : List Fml}
variable (hG : GridOps G env.ib) (hbr : BranchGrid G (Box.branchLargestFirst env.fp))
variable (he : EvalEnds G env vs fs) (hc : WlOk (IntAt vs) c)
variable {V : Option (List Variable)} (hV : ∀ ws, V = some ws → ws = vs) (hov : Over V (IntAt vs) c)
variable (hk : k * (fan c + 1) ≤ env.fuel)

include hG he hc hk hV hov in
theorem workerStep_ends {p : Par} {w : Worker} {i : Nat} (hh : ∀ b ∈ pending w, Kept G vs k b)
    (hl : w.pc ≠ .dec → ∀ b ∈ pending w, b.bot = false) :
    p.workerStep env c fs i w ≠ .oof := by
  obtain ⟨s, pc, np, lf⟩ := w
  unfold Par.workerStep
  cases pc with
  | prune =>
    have hb : Kept G vs k s.box := hh _ (by simp [pending])
    have h0 : s.box.bot = false := hl (by simp) _ (by simp [pending])
    exact run_bind_oof (prune_ends hG c hov hc hk _ (hb.fit fun ws e => ⟨hV ws e, h0⟩) hb.small)
      fun _ _ => by simp
  | eval =>
    have hb : Kept G vs k s.box := hh _ (by simp [pending])
    have h0 : s.box.bot = false := hl (by simp) _ (by simp [pending])
    refine run_bind_oof (evalBox_ends fs [] s (fun n f hf ha => he n f hf ha _ (hb.apt h0)) rfl) fun r _ => ?_
    split <;> simp
  | branch cand =>
    refine run_bind_oof (lift_oof _) fun r _ => ?_
    split <;> simp
  | pop => dsimp only; split <;> simp
  | _ => simp

include hG hbr hV hov in
theorem workerStep_kept {p : Par} {w w' : Worker} {i : Nat} {st n f} (hk0 : 0 < k)
    (h : p.workerStep env c fs i w = .ok (w', st, n, f)) (hs : ∀ b ∈ p.stack, Kept G vs k b ∧ b.bot = false)
    (hw : WInv w) (hh : ∀ b ∈ pending w, Kept G vs k b)
    (hl : w.pc ≠ .dec → ∀ b ∈ pending w, b.bot = false) :
    ((∀ b ∈ st, Kept G vs k b ∧ b.bot = false) ∧ (∀ b ∈ pending w', Kept G vs k b) ∧
      (w'.pc ≠ .dec → ∀ b ∈ pending w', b.bot = false)) ∧
    ((0 < toil G w ∧ heap G st + toil G w' < heap G p.stack + toil G w) ∨
      (toil G w = 0 ∧ w.pc = .pop ∧ p.stack ≠ [] ∧
        heap G st + toil G w' < heap G p.stack + toil G w ∧ f = p.found ∧ n = p.boxes) ∨
      (toil G w = 0 ∧ toil G w' = 0 ∧ st = p.stack ∧ f = p.found ∧ n = p.boxes)) := by
  obtain ⟨s, pc, np, lf⟩ := w
  unfold Par.workerStep at h
  cases pc with
  | top =>
    simp only [Run.ok.injEq, Prod.mk.injEq] at h
    obtain ⟨rfl, rfl, rfl, rfl⟩ := h
    have h1 := cost_pos (G := G) s.box
    refine ⟨⟨hs, ?_, ?_⟩, ?_⟩
    · split
      · exact hh
      · simp [pending]
    · intro _
      split
      · exact hl (by simp)
      · simp [pending]
    · cases np with
      | true => refine .inr (.inr ?_); split <;> simp [toil]
      | false => refine .inl ?_; split <;> simp [toil] <;> omega
  | chk =>
    simp only [Run.ok.injEq, Prod.mk.injEq] at h
    obtain ⟨rfl, rfl, rfl, rfl⟩ := h
    have h1 := cost_pos (G := G) s.box
    cases np with
    | true =>
      refine ⟨⟨hs, ?_, ?_⟩, ?_⟩
      · split <;> simp [pending]
      · split <;> simp [pending]
      · refine .inr (.inr ?_); split <;> simp [toil]
    | false =>
      have hb : Kept G vs k s.box := hh _ (by simp [pending])
      have hb0 : s.box.bot = false := hl (by simp) _ (by simp [pending])
      refine ⟨⟨hs, ?_, ?_⟩, ?_⟩
      · split <;> simp [pending, hb]
      · split <;> simp [pending, hb0]
      · refine .inl ?_; split <;> simp [toil] <;> omega
  | pop =>
    dsimp only at h
    split at h
    · rename_i he
      cases h
      rw [he]
      have hnp : np = true := hw
      subst hnp
      exact ⟨⟨by simp, by simp [pending], by simp [pending]⟩, .inr (.inr (by simp [toil]))⟩
    · rename_i b rest he
      cases h
      have h1 := cost_pos (G := G) b
      rw [he] at hs
      refine ⟨⟨fun x hx => hs x (List.mem_cons_of_mem _ hx), ?_, ?_⟩, .inr (.inl ?_)⟩
      · simpa [pending] using (hs b (List.mem_cons_self ..)).1
      · simpa [pending] using (hs b (List.mem_cons_self ..)).2
      · rw [he]
        refine ⟨rfl, rfl, by simp, ?_, rfl, rfl⟩
        simp only [heap, toil, List.map_cons, List.sum_cons]
        omega
  | prune =>
    obtain ⟨s1, e1, e2⟩ := bindR_ok h
    have hb : Kept G vs k s.box := hh _ (by simp [pending])
    have hb0 : s.box.bot = false := hl (by simp) _ (by simp [pending])
    obtain ⟨g1, i1⟩ := prune_shrinks hG env.fuel c hov _ _ (hb.fit fun ws e => ⟨hV ws e, hb0⟩) e1
    have hk1 := hb.inside g1 i1
    have l1 := cost_le (G := G) (room_le G i1)
    have h1 := cost_pos (G := G) s1.box
    simp only [Run.ok.injEq, Prod.mk.injEq] at e2
    obtain ⟨rfl, rfl, rfl, rfl⟩ := e2
    refine ⟨⟨hs, ?_, ?_⟩, .inl ?_⟩
    · split <;> simpa [pending] using hk1
    · split
      · simp
      · rename_i hne
        intro _
        simpa [Box.empty, pending] using hne
    · split <;> simp only [toil] <;> omega
  | eval =>
    obtain ⟨⟨s1, o⟩, e1, e2⟩ := bindR_ok h
    have hb : Kept G vs k s.box := hh _ (by simp [pending])
    have hlv : s.box.bot = false := hl (by simp) _ (by simp [pending])
    have h1 := cost_pos (G := G) s.box
    cases o with
    | none =>
      simp only [Run.ok.injEq, Prod.mk.injEq] at e2
      obtain ⟨rfl, rfl, rfl, rfl⟩ := e2
      refine ⟨⟨hs, ?_, by simp⟩, .inl ?_⟩
      · have : s1.box.bot = true := by
          have := (evalBox_box e1).1 rfl
          simpa [Box.empty] using this
        simpa [pending] using kept_empty hk0 this
      · simp only [toil]; omega
    | some cand =>
      have eb : s1.box = s.box := (evalBox_box e1).2 (by simp)
      simp only [Run.ok.injEq, Prod.mk.injEq] at e2
      obtain ⟨rfl, rfl, rfl, rfl⟩ := e2
      refine ⟨⟨hs, ?_, ?_⟩, .inl ?_⟩
      · split <;> simpa [pending, eb] using hb
      · intro _; split <;> simpa [pending, eb] using hlv
      · split <;> simp only [toil, eb] <;> omega
  | dec =>
    simp only [Run.ok.injEq, Prod.mk.injEq] at h
    obtain ⟨rfl, rfl, rfl, rfl⟩ := h
    have hnp : np = true := hw
    subst hnp
    exact ⟨⟨hs, by simp [pending], by simp [pending]⟩, .inl (by simp [toil])⟩
  | branch cand =>
    obtain ⟨br, e1, e2⟩ := bindR_ok h
    have hb : Kept G vs k s.box := hh _ (by simp [pending])
    have hlv : s.box.bot = false := hl (by simp) _ (by simp [pending])
    have h1 := cost_pos (G := G) s.box
    cases br with
    | none =>
      simp only [Run.ok.injEq, Prod.mk.injEq] at e2
      obtain ⟨rfl, rfl, rfl, rfl⟩ := e2
      refine ⟨⟨hs, by simpa [pending] using hb, fun _ => by simpa [pending] using hlv⟩, .inl ?_⟩
      simp only [toil]; omega
    | some br =>
      obtain ⟨j, b1, b2⟩ := br
      simp only [Run.ok.injEq, Prod.mk.injEq] at e2
      obtain ⟨rfl, rfl, rfl, rfl⟩ := e2
      obtain ⟨v1, v2, -⟩ := hb.shape hlv
      obtain ⟨⟨a1, a2, a3, a4⟩, c1, c2, c3, c4⟩ := hbr s.box _ _ _ _ hlv (by rw [v2, v1]) hb.grid
        (fun _ j hj => hb.sized hlv j (by rw [← v1]; exact hj)) (lift_ok e1)
      have l1 := cost_half (room_lt a3 hb.grid a1 a4) (room_lt c3 hb.grid c1 c4)
      have k1 := hb.inside a2 a3
      have k2 := hb.inside c2 c3
      refine ⟨⟨hs, ?_, ?_⟩, .inl ?_⟩
      · split <;> simp [pending, k1, k2]
      · split <;> simp [pending, a1, c1]
      · split <;> simp only [toil] <;> omega
  | inc b1 b2 =>
    simp only [Run.ok.injEq, Prod.mk.injEq] at h
    obtain ⟨rfl, rfl, rfl, rfl⟩ := h
    refine ⟨⟨hs, by simpa [pending] using hh, fun _ => by simpa [pending] using hl (by simp)⟩, .inl ?_⟩
    simp only [toil]; omega
  | push b1 b2 =>
    simp only [Run.ok.injEq, Prod.mk.injEq] at h
    obtain ⟨rfl, rfl, rfl, rfl⟩ := h
    have h1 : Kept G vs k b1 := hh _ (by simp [pending])
    have h2 : Kept G vs k b2 := hh _ (by simp [pending])
    have h3 : b1.bot = false := hl (by simp) _ (by simp [pending])
    have h4 : b2.bot = false := hl (by simp) _ (by simp [pending])
    have l2 := cost_pos (G := G) b2
    refine ⟨⟨?_, by simpa [pending] using h2, fun _ => by simpa [pending] using h4⟩, .inl ?_⟩
    · intro b hb
      rcases List.mem_cons.1 hb with rfl | hb
      · exact ⟨h1, h3⟩
      · exact hs b hb
    · simp only [toil, heap, List.map_cons, List.sum_cons]
      simp
      omega
  | find =>
    simp only [Run.ok.injEq, Prod.mk.injEq] at h
    obtain ⟨rfl, rfl, rfl, rfl⟩ := h
    exact ⟨⟨hs, by simp [pending], by simp [pending]⟩, .inl (by simp [toil])⟩
  | done =>
    simp only [Run.ok.injEq, Prod.mk.injEq] at h
    obtain ⟨rfl, rfl, rfl, rfl⟩ := h
    exact ⟨⟨hs, hh, hl⟩, .inr (.inr (by simp [toil]))⟩

end

/-! ### The measure -/

/-- Steps to the end when a solution was found. -/
def lateRank : Pc → Nat
  | .chk => 10 | .pop => 9 | .prune => 8 | .eval => 7 | .branch _ => 6 | .inc .. => 5
  | .push .. => 4 | .dec => 3 | .top => 1 | .find => 1 | .done => 0

/-- Steps to the end when there are no boxes. -/
def voidRank : Pc → Nat
  | .top => 2 | .chk => 1 | .done => 0 | _ => 3

/-- Steps of the first worker to taking a box. -/
def lagPc : Pc → Nat
  | .pop => 0 | .chk => 1 | _ => 2

def lag (p : Par) : Nat :=
  match p.stack, p.workers with
  | _ :: _, w :: _ => lagPc w.pc
  | _, _ => 2

/-- Decreases as long as there are workers. -/
def todo (G : Finset EQ) (p : Par) : Nat :=
  if p.found.isSome then (p.workers.map fun w => lateRank w.pc).sum
  else if p.boxes ≤ 0 then (p.workers.map fun w => voidRank w.pc).sum
  else 3 * work G p + lag p + 10 * p.workers.length + 1

theorem natsum_set {f : Worker → Nat} : ∀ {l : List Worker} {i : Nat} {w w' : Worker},
    l[i]? = some w → ((l.set i w').map f).sum + f w = (l.map f).sum + f w'
  | [], i, w, w', h => by simp at h
  | a :: l, 0, w, w', h => by
    simp only [List.getElem?_cons_zero, Option.some.injEq] at h; subst h
    simp; omega
  | a :: l, i + 1, w, w', h => by
    simp only [List.getElem?_cons_succ] at h
    have := natsum_set (f := f) (w' := w') h
    simp only [List.set_cons_succ, List.map_cons, List.sum_cons]; omega

theorem lateRank_le (pc : Pc) : lateRank pc ≤ 10 := by cases pc <;> simp [lateRank]

theorem voidRank_le (pc : Pc) : voidRank pc ≤ 10 := by cases pc <;> simp [voidRank]

theorem ranks_le {r : Pc → Nat} (hr : ∀ pc, r pc ≤ 10) : ∀ l : List Worker,
    (l.map fun w => r w.pc).sum ≤ 10 * l.length
  | [] => by simp
  | w :: l => by
    have := ranks_le hr l
    have := hr w.pc
    simp only [List.map_cons, List.sum_cons, List.length_cons]; omega

theorem lag_le (p : Par) : lag p ≤ 2 := by
  unfold lag
  split
  · rename_i w _ _ _; cases w.pc <;> simp [lagPc]
  · omega

theorem toil_share {w : Worker} : toil G w = 0 ↔ share w = 0 := by
  obtain ⟨s, pc, np, lf⟩ := w
  have := cost_pos (G := G) s.box
  cases pc <;> cases np <;> simp [toil, share] <;> omega

theorem step_late {env c fs i} {p : Par} {w w' : Worker} {st n f}
    (h : p.workerStep env c fs i w = .ok (w', st, n, f)) (hf : p.found.isSome = true) :
    f.isSome = true ∧ (w.pc = .done ∧ w' = w ∨ lateRank w'.pc < lateRank w.pc) := by
  obtain ⟨s, pc, np, lf⟩ := w
  have hf' : p.found.isNone = false := by cases h : p.found <;> simp_all
  unfold Par.workerStep at h
  cases pc with
  | top =>
    simp only [Run.ok.injEq, Prod.mk.injEq] at h
    obtain ⟨rfl, rfl, rfl, rfl⟩ := h
    exact ⟨hf, .inr (by simp [hf', lateRank])⟩
  | chk =>
    simp only [Run.ok.injEq, Prod.mk.injEq] at h
    obtain ⟨rfl, rfl, rfl, rfl⟩ := h
    refine ⟨hf, .inr ?_⟩
    split
    · cases np <;> simp [lateRank]
    · simp [lateRank]
  | pop =>
    dsimp only at h
    split at h <;> cases h <;> exact ⟨hf, .inr (by simp [lateRank])⟩
  | prune =>
    obtain ⟨s1, _, e2⟩ := bindR_ok h
    simp only [Run.ok.injEq, Prod.mk.injEq] at e2
    obtain ⟨rfl, rfl, rfl, rfl⟩ := e2
    refine ⟨hf, .inr ?_⟩
    dsimp only
    split <;> simp [lateRank]
  | eval =>
    obtain ⟨⟨s1, o⟩, _, e2⟩ := bindR_ok h
    cases o with
    | none =>
      simp only [Run.ok.injEq, Prod.mk.injEq] at e2
      obtain ⟨rfl, rfl, rfl, rfl⟩ := e2
      exact ⟨hf, .inr (by simp [lateRank])⟩
    | some cand =>
      simp only [Run.ok.injEq, Prod.mk.injEq] at e2
      obtain ⟨rfl, rfl, rfl, rfl⟩ := e2
      refine ⟨hf, .inr ?_⟩
      dsimp only
      split <;> simp [lateRank]
  | branch cand =>
    obtain ⟨br, _, e2⟩ := bindR_ok h
    cases br with
    | none =>
      simp only [Run.ok.injEq, Prod.mk.injEq] at e2
      obtain ⟨rfl, rfl, rfl, rfl⟩ := e2
      exact ⟨hf, .inr (by simp [lateRank])⟩
    | some br =>
      simp only [Run.ok.injEq, Prod.mk.injEq] at e2
      obtain ⟨rfl, rfl, rfl, rfl⟩ := e2
      refine ⟨hf, .inr ?_⟩
      dsimp only
      split <;> simp [lateRank]
  | done =>
    simp only [Run.ok.injEq, Prod.mk.injEq] at h
    obtain ⟨rfl, rfl, rfl, rfl⟩ := h
    exact ⟨hf, .inl ⟨rfl, rfl⟩⟩
  | _ =>
    simp only [Run.ok.injEq, Prod.mk.injEq] at h
    obtain ⟨rfl, rfl, rfl, rfl⟩ := h
    exact ⟨by simp [hf], .inr (by simp [lateRank])⟩

theorem step_void {env c fs i} {p : Par} {w w' : Worker} {st n f}
    (h : p.workerStep env c fs i w = .ok (w', st, n, f)) (hf : p.found = none)
    (hb : p.boxes ≤ 0) (hs : p.stack = []) (hw : share w = 0) :
    f = none ∧ n = p.boxes ∧ (w.pc = .done ∧ w' = w ∨ voidRank w'.pc < voidRank w.pc) := by
  obtain ⟨s, pc, np, lf⟩ := w
  unfold Par.workerStep at h
  cases pc with
  | top =>
    simp only [Run.ok.injEq, Prod.mk.injEq] at h
    obtain ⟨rfl, rfl, rfl, rfl⟩ := h
    exact ⟨hf, rfl, .inr (by simp [hf, voidRank])⟩
  | chk =>
    simp only [Run.ok.injEq, Prod.mk.injEq] at h
    obtain ⟨rfl, rfl, rfl, rfl⟩ := h
    exact ⟨hf, rfl, .inr (by rw [if_neg (by omega)]; simp [voidRank])⟩
  | pop =>
    dsimp only at h
    rw [hs] at h
    cases h
    exact ⟨hf, rfl, .inr (by simp [voidRank])⟩
  | done =>
    simp only [Run.ok.injEq, Prod.mk.injEq] at h
    obtain ⟨rfl, rfl, rfl, rfl⟩ := h
    exact ⟨hf, rfl, .inl ⟨rfl, rfl⟩⟩
  | _ => simp [share] at hw

theorem step_idle {env c fs i} {p : Par} {w w' : Worker} {st n f}
    (h : p.workerStep env c fs i w = .ok (w', st, n, f)) (hf : p.found = none)
    (hb : 0 < p.boxes) (hs : p.stack ≠ []) (hst : st = p.stack) (hw : share w = 0)
    (hd : w.pc ≠ .done) : lagPc w'.pc < lagPc w.pc := by
  obtain ⟨s, pc, np, lf⟩ := w
  unfold Par.workerStep at h
  cases pc with
  | top =>
    simp only [Run.ok.injEq, Prod.mk.injEq] at h
    obtain ⟨rfl, rfl, rfl, rfl⟩ := h
    simp [hf, lagPc]
  | chk =>
    simp only [Run.ok.injEq, Prod.mk.injEq] at h
    obtain ⟨rfl, rfl, rfl, rfl⟩ := h
    have : np = true := by cases np <;> simp [share] at hw ⊢
    simp [hb, lagPc, this]
  | pop =>
    dsimp only at h
    split at h
    · rename_i he; exact absurd he hs
    · rename_i b rest he
      cases h
      rw [he] at hst
      simp at hst
  | done => exact absurd rfl hd
  | _ => simp [share] at hw

/-- A step of this worker is progress. -/
def Eff (G : Finset EQ) (p : Par) (i : Nat) (w : Worker) : Prop :=
  w.pc ≠ .done ∧ (p.found.isSome = true ∨ p.boxes ≤ 0 ∨ 0 < toil G w ∨ (i = 0 ∧ p.stack ≠ []))

theorem void_rest {p : Par} (ci : CountInv p) (hf : p.found = none) (hb : p.boxes ≤ 0) :
    p.stack = [] ∧ ∀ w ∈ p.workers, share w = 0 := by
  have h1 := ci.count hf
  have h2 := sum_nonneg p.workers
  have h3 : p.stack.length = 0 := by omega
  refine ⟨List.length_eq_zero_iff.mp h3, fun w hw => ?_⟩
  have := cnt_le_sum hw
  have := cnt_nonneg w
  omega

section
variable {env : Env} {vs : List Variable} {k : Nat} {c : Ctc} {fs : List Fml}
variable (hG : GridOps G env.ib) (hbr : BranchGrid G (Box.branchLargestFirst env.fp))
variable {V : Option (List Variable)} (hV : ∀ ws, V = some ws → ws = vs) (hov : Over V (IntAt vs) c)

include hG hbr hV hov in
theorem step_kept {p p' : Par} {i : Nat} (hk0 : 0 < k) (h : Par.step env c fs p i = .ok p')
    (ci : CountInv p) (pk : ParKept G vs k p) : ParKept G vs k p' := by
  rcases step_cases h with rfl | ⟨w, w', st, n, f, hw, hs, rfl⟩
  · exact pk
  · have hm := List.mem_of_getElem? hw
    obtain ⟨⟨a1, a2, a3⟩, -⟩ := workerStep_kept hG hbr hV hov hk0 hs pk.stack (ci.wi w hm) (pk.held w hm)
      (pk.live w hm)
    have hmem : ∀ x ∈ p.workers.set i w', x ∈ p.workers ∨ x = w' := fun x hx =>
      List.mem_or_eq_of_mem_set hx
    refine ⟨a1, fun x hx => ?_, fun x hx => ?_⟩
    · rcases hmem x hx with hx | rfl
      · exact pk.held x hx
      · exact a2
    · rcases hmem x hx with hx | rfl
      · exact pk.live x hx
      · exact a3

include hG hbr hV hov in
theorem step_todo {p p' : Par} {j : Nat} (hk0 : 0 < k) (h : Par.step env c fs p j = .ok p')
    (ci : CountInv p) (pk : ParKept G vs k p) :
    todo G p' < todo G p ∨
      (todo G p' ≤ todo G p ∧ (∀ i w, Eff G p i w → Eff G p' i w) ∧
        ∀ w, p.workers[j]? = some w → ¬ Eff G p j w) := by
  have hunchanged : p.workers[j]? = none ∨ p.workers[j]? ≠ none := by
    cases p.workers[j]? <;> simp
  rcases hunchanged with hno | hyes
  · have : p' = p := by
      unfold Par.step at h
      rw [hno] at h
      cases h; rfl
    subst this
    exact .inr ⟨le_rfl, fun _ _ h => h, fun w hw => by rw [hno] at hw; cases hw⟩
  obtain ⟨w, hw⟩ : ∃ w, p.workers[j]? = some w := by
    cases h : p.workers[j]? with
    | none => exact absurd h hyes
    | some w => exact ⟨w, rfl⟩
  obtain ⟨w', st, n, f, hs, rfl⟩ : ∃ w' st n f, p.workerStep env c fs j w = .ok (w', st, n, f) ∧
      p' = ⟨st, n, f, p.workers.set j w'⟩ := by
    unfold Par.step at h
    rw [hw] at h
    obtain ⟨⟨w', st, n, f⟩, h1, h2⟩ := bindR_ok h
    cases h2
    exact ⟨w', st, n, f, h1, rfl⟩
  have hm := List.mem_of_getElem? hw
  have hwi := ci.wi w hm
  obtain ⟨-, hdrop⟩ := workerStep_kept hG hbr hV hov hk0 hs pk.stack hwi (pk.held w hm) (pk.live w hm)
  have hself : p.workers.set j w = p.workers := by
    obtain ⟨hlt, he⟩ := List.getElem?_eq_some_iff.mp hw
    rw [← he, List.set_getElem_self]
  by_cases hf : p.found.isSome = true
  · obtain ⟨k1, k2⟩ := step_late hs hf
    have e1 := natsum_set (f := fun w => lateRank w.pc) (w' := w') hw
    have t1 : todo G p = (p.workers.map fun w => lateRank w.pc).sum := by simp [todo, hf]
    have t2 : todo G ⟨st, n, f, p.workers.set j w'⟩ =
        ((p.workers.set j w').map fun w => lateRank w.pc).sum := by simp [todo, k1]
    rw [t1, t2]
    rcases k2 with ⟨k2, rfl⟩ | k2
    · refine .inr ⟨by rw [hself], fun i x hx => ⟨hx.1, .inl k1⟩, fun x hx he => ?_⟩
      rw [hw] at hx; cases hx
      exact he.1 k2
    · left; omega
  have hf0 : p.found = none := by cases h : p.found <;> simp_all
  by_cases hb : p.boxes ≤ 0
  · obtain ⟨r1, r2⟩ := void_rest ci hf0 hb
    obtain ⟨k1, k3, k2⟩ := step_void hs hf0 hb r1 (r2 w hm)
    have e1 := natsum_set (f := fun w => voidRank w.pc) (w' := w') hw
    have t1 : todo G p = (p.workers.map fun w => voidRank w.pc).sum := by simp [todo, hf0, hb]
    have t2 : todo G ⟨st, n, f, p.workers.set j w'⟩ =
        ((p.workers.set j w').map fun w => voidRank w.pc).sum := by simp [todo, k1, k3, hb]
    rw [t1, t2]
    rcases k2 with ⟨k2, rfl⟩ | k2
    · refine .inr ⟨by rw [hself], fun i x hx => ⟨hx.1, .inr (.inl (by rw [k3]; exact hb))⟩,
        fun x hx he => ?_⟩
      rw [hw] at hx; cases hx
      exact he.1 k2
    · left; omega
  have t1 : todo G p = 3 * work G p + lag p + 10 * p.workers.length + 1 := by simp [todo, hf0, hb]
  by_cases hf' : f.isSome = true
  · left
    rw [t1]
    have := ranks_le lateRank_le (p.workers.set j w')
    rw [List.length_set] at this
    simp only [todo, hf', if_true]
    omega
  by_cases hb' : n ≤ 0
  · left
    rw [t1]
    have := ranks_le voidRank_le (p.workers.set j w')
    rw [List.length_set] at this
    have t2 : todo G ⟨st, n, f, p.workers.set j w'⟩ =
        ((p.workers.set j w').map fun w => voidRank w.pc).sum := by
      unfold todo
      rw [if_neg hf', if_pos hb']
    rw [t2]
    omega
  have t2 : todo G ⟨st, n, f, p.workers.set j w'⟩ = 3 * work G ⟨st, n, f, p.workers.set j w'⟩ +
      lag ⟨st, n, f, p.workers.set j w'⟩ + 10 * p.workers.length + 1 := by
    simp [todo, hf', hb']
  have e1 := natsum_set (f := toil G) (w' := w') hw
  have l1 := lag_le ⟨st, n, f, p.workers.set j w'⟩
  have hw1 : work G ⟨st, n, f, p.workers.set j w'⟩ + toil G w =
      heap G st + ((p.workers.map (toil G)).sum + toil G w') := by
    simp only [work]; omega
  have hw2 : work G p = heap G p.stack + (p.workers.map (toil G)).sum := rfl
  rw [t1, t2]
  rcases hdrop with ⟨-, d⟩ | ⟨-, -, -, d, -⟩ | ⟨d1, d2, rfl, rfl, rfl⟩
  · left; omega
  · left; omega
  have hww : work G ⟨p.stack, p.boxes, p.found, p.workers.set j w'⟩ = work G p := by omega
  rw [hww]
  by_cases hj : j = 0 ∧ p.stack ≠ [] ∧ w.pc ≠ .done
  · obtain ⟨rfl, hst, hd⟩ := hj
    left
    have := step_idle hs hf0 (by omega) hst rfl (toil_share.mp d1) hd
    cases hst' : p.stack with
    | nil => exact absurd hst' hst
    | cons b rest =>
      cases hws : p.workers with
      | nil => rw [hws] at hw; simp at hw
      | cons x xs =>
        rw [hws] at hw
        simp only [List.getElem?_cons_zero, Option.some.injEq] at hw
        subst hw
        simp only [lag, hst', hws, List.set_cons_zero]
        omega
  · right
    refine ⟨?_, fun i x hx => hx, fun x hx he => ?_⟩
    · have : lag ⟨p.stack, p.boxes, p.found, p.workers.set j w'⟩ ≤ lag p := by
        by_cases hd : w.pc = .done
        · exfalso
          have := ci.quiet hf0 w hm hd
          omega
        cases hst' : p.stack with
        | nil => simp [lag, hst']
        | cons b rest =>
          have hj0 : j ≠ 0 := fun e => hj ⟨e, by simp [hst'], hd⟩
          obtain ⟨j', rfl⟩ := Nat.exists_eq_succ_of_ne_zero hj0
          cases hws : p.workers with
          | nil => simp [lag, hst', hws]
          | cons x xs => simp [lag, hst', hws]
      omega
    · rw [hw] at hx; cases hx
      obtain ⟨q1, q2⟩ := he
      rcases q2 with q2 | q2 | q2 | q2
      · exact hf q2
      · exact hb q2
      · omega
      · exact hj ⟨q2.1, q2.2, q1⟩

theorem eff_exists {p : Par} (ci : CountInv p) (hd : p.allDone = false) :
    ∃ i w, p.workers[i]? = some w ∧ Eff G p i w := by
  obtain ⟨w, hw, hwd⟩ : ∃ w ∈ p.workers, w.pc ≠ .done := by
    by_contra hno
    push Not at hno
    have : p.allDone = true := by
      unfold Par.allDone
      rw [List.all_eq_true]
      intro w hw
      rw [hno w hw]
    rw [this] at hd
    cases hd
  obtain ⟨i, hi⟩ := List.getElem?_of_mem hw
  by_cases hf : p.found.isSome = true
  · exact ⟨i, w, hi, hwd, .inl hf⟩
  have hf0 : p.found = none := by cases h : p.found <;> simp_all
  by_cases hb : p.boxes ≤ 0
  · exact ⟨i, w, hi, hwd, .inr (.inl hb)⟩
  have hnd : ∀ x ∈ p.workers, x.pc ≠ .done := fun x hx h => by
    have := ci.quiet hf0 x hx h
    omega
  by_cases hex : ∃ x ∈ p.workers, 0 < toil G x
  · obtain ⟨x, hx, ht⟩ := hex
    obtain ⟨i', hi'⟩ := List.getElem?_of_mem hx
    exact ⟨i', x, hi', hnd x hx, .inr (.inr (.inl ht))⟩
  · have hz : (p.workers.map share).sum = 0 := by
      apply List.sum_eq_zero
      intro y hy
      obtain ⟨x, hx, rfl⟩ := List.mem_map.mp hy
      refine (toil_share (G := G)).mp ?_
      by_contra h0
      exact hex ⟨x, hx, by omega⟩
    have hc := ci.count hf0
    have hst : p.stack ≠ [] := by
      intro h
      rw [h] at hc
      simp at hc
      omega
    cases hws : p.workers with
    | nil => rw [hws] at hw; simp at hw
    | cons x xs => exact ⟨0, x, rfl, hnd x (by simp [hws]), .inr (.inr (.inr ⟨rfl, hst⟩))⟩

include hG hbr hV hov in
theorem steps_todo (hk0 : 0 < k) : ∀ {blk : List Nat} {p p' : Par},
    Par.steps env c fs blk p = .ok p' → CountInv p → ParKept G vs k p →
    todo G p' ≤ todo G p ∧ CountInv p' ∧ ParKept G vs k p' ∧
      ∀ i w, i ∈ blk → p.workers[i]? = some w → Eff G p i w → todo G p' < todo G p
  | [], p, p', h, ci, pk => by
    simp only [Par.steps, Run.ok.injEq] at h
    subst h
    exact ⟨le_rfl, ci, pk, fun i w hi => by simp at hi⟩
  | j :: js, p, p', h, ci, pk => by
    simp only [Par.steps] at h
    obtain ⟨q, h1, h2⟩ := bindR_ok h
    have ci1 := count_step h1 ci
    have pk1 := step_kept hG hbr hV hov hk0 h1 ci pk
    obtain ⟨r1, r2, r3, r4⟩ := steps_todo hk0 h2 ci1 pk1
    have hst := step_todo hG hbr hV hov hk0 h1 ci pk
    refine ⟨?_, r2, r3, fun i w hi hw he => ?_⟩
    · rcases hst with h | h
      · omega
      · have := h.1; omega
    · rcases hst with h | ⟨g1, g2, g3⟩
      · omega
      · by_cases hij : i = j
        · subst hij; exact absurd he (g3 w hw)
        · have hi' : i ∈ js := by
            rcases List.mem_cons.mp hi with h | h
            · exact absurd h hij
            · exact h
          have hw' : q.workers[i]? = some w := by
            rcases step_cases h1 with rfl | ⟨x, x', st, n, f, _, _, rfl⟩
            · exact hw
            · show (p.workers.set j x')[i]? = some w
              rw [List.getElem?_set_ne (fun e => hij e.symm)]
              exact hw
          have := r4 i w hi' hw' (g2 i w he)
          omega

variable (he : EvalEnds G env vs fs) (hc : WlOk (IntAt vs) c)
variable (hk : k * (fan c + 1) ≤ env.fuel)

include hG hbr hV hov he hc hk in
theorem steps_end (hk0 : 0 < k) : ∀ (blk : List Nat) (p : Par), CountInv p → ParKept G vs k p →
    Par.steps env c fs blk p ≠ .oof
  | [], p, _, _ => by simp [Par.steps]
  | j :: js, p, ci, pk => by
    unfold Par.steps
    refine run_bind_oof ?_ fun q hq =>
      steps_end hk0 js q (count_step hq ci) (step_kept hG hbr hV hov hk0 hq ci pk)
    unfold Par.step
    split
    · simp
    · rename_i w hw
      have hm := List.mem_of_getElem? hw
      exact run_bind_oof (workerStep_ends hG he hc hV hov hk (pk.held w hm) (pk.live w hm)) fun _ _ => by simp

theorem steps_append : ∀ (a b : List Nat) (p p' : Par),
    Par.steps env c fs (a ++ b) p = .ok p' →
    ∃ q, Par.steps env c fs a p = .ok q ∧ Par.steps env c fs b q = .ok p'
  | [], b, p, p', h => ⟨p, rfl, h⟩
  | j :: js, b, p, p', h => by
    simp only [List.cons_append, Par.steps] at h
    obtain ⟨r, h1, h2⟩ := bindR_ok h
    obtain ⟨q, h3, h4⟩ := steps_append js b r p' h2
    refine ⟨q, ?_, h4⟩
    simp only [Par.steps]
    rw [h1]
    exact h3

theorem step_length {p p' : Par} {i : Nat} (h : Par.step env c fs p i = .ok p') :
    p'.workers.length = p.workers.length := by
  rcases step_cases h with rfl | ⟨w, w', st, n, f, _, _, rfl⟩
  · rfl
  · simp

theorem step_done {p p' : Par} {i : Nat} (h : Par.step env c fs p i = .ok p')
    (hd : p.allDone = true) : p'.allDone = true := by
  rcases step_cases h with rfl | ⟨w, w', st, n, f, hw, hs, rfl⟩
  · exact hd
  · have hm := List.mem_of_getElem? hw
    unfold Par.allDone at hd ⊢
    rw [List.all_eq_true] at hd ⊢
    have hwd : w.pc = .done := by
      have := hd w hm
      cases hpc : w.pc <;> simp [hpc] at this ⊢
    have hww : w' = w := by
      unfold Par.workerStep at hs
      rw [hwd] at hs
      cases hs; rfl
    intro x hx
    rcases List.mem_or_eq_of_mem_set hx with hx | rfl
    · exact hd x hx
    · rw [hww]; exact hd w hm

include hG hbr hV hov in
theorem blocks_done (hk0 : 0 < k) : ∀ (blocks : List (List Nat)) (p p' : Par),
    (∀ b ∈ blocks, ∀ i < p.workers.length, i ∈ b) → CountInv p → ParKept G vs k p →
    todo G p < blocks.length → Par.steps env c fs blocks.flatten p = .ok p' → p'.allDone = true
  | [], p, p', _, _, _, hlt, _ => by simp at hlt
  | b :: bs, p, p', hb, ci, pk, hlt, h => by
    rw [List.flatten_cons] at h
    obtain ⟨q, h1, h2⟩ := steps_append _ _ _ _ h
    cases hd : p.allDone with
    | true =>
      have hq := steps_inv (P := fun p => p.allDone = true) (fun _ _ _ => step_done) h1 hd
      exact steps_inv (P := fun p => p.allDone = true) (fun _ _ _ => step_done) h2 hq
    | false =>
      obtain ⟨i, w, hi, hE⟩ := eff_exists (G := G) ci hd
      obtain ⟨-, r2, r3, r4⟩ := steps_todo hG hbr hV hov hk0 h1 ci pk
      have hlt' := r4 i w (hb b (List.mem_cons_self ..) i (List.getElem?_eq_some_iff.mp hi).1) hi hE
      have hlen : q.workers.length = p.workers.length :=
        steps_inv (P := fun r => r.workers.length = p.workers.length)
          (fun _ _ _ h e => (step_length h).trans e) h1 rfl
      refine blocks_done hk0 bs q p' ?_ r2 r3 ?_ h2
      · intro b' hb' i' hi'
        exact hb b' (List.mem_cons_of_mem _ hb') i' (by rw [← hlen]; exact hi')
      · simp only [List.length_cons] at hlt; omega

end

theorem icpPar_ends {env : Env} {c : Ctc} {fs : List Fml} {left : Bool} {s : CStatus} {jobs : Nat}
    {sched : List Nat} (hG : GridOps G env.ib) (hbr : BranchGrid G (Box.branchLargestFirst env.fp))
    (he : EvalEnds G env s.box.vars fs) (hb : Bounded G s.box)
    (hz : IntsSized s.box) (hl : s.box.bot = false → BoxWf s.box) (ho : OverVars s.box.vars c)
    (ho0 : s.box.bot = true → ∀ ws, OverVars ws c)
    (hc : WlOk (IntAt s.box.vars) c) (hk : pruneBound G s.box.vars.length (fan c) ≤ env.fuel)
    (hn : Turns jobs (parBound G s.box.vars.length jobs) sched) :
    icpPar env jobs left c fs sched s ≠ .oof := by
  have hs := kept_start hb hz hl
  obtain ⟨V, hV, hov, hV0⟩ := over_start ho ho0
  have hfit : Fit G V (IntAt s.box.vars) s.box :=
    hs.fit fun ws e => ⟨hV ws e, hV0 (by rw [e]; simp)⟩
  unfold icpPar
  refine run_bind_oof (prune_ends hG c hov hc hk _ hfit hs.small) fun s0 h0 => ?_
  obtain ⟨g1, i1⟩ := prune_shrinks hG env.fuel c hov _ _ hfit h0
  have hk1 := hs.inside g1 i1
  split
  · simp
  · rename_i hne0
    have hne0 : s0.box.bot = false := by simpa [Box.empty] using hne0
    have hci := count_start jobs left s0
    have hpk : ParKept G s.box.vars (2 * G.card * s.box.vars.length + 1)
        (Par.start jobs left s0) := by
      refine ⟨?_, ?_, ?_⟩
      · intro b hb
        simp only [Par.start, List.mem_singleton] at hb
        subst hb; exact ⟨hk1, hne0⟩
      · intro w hw
        simp only [Par.start, List.mem_replicate] at hw
        rw [hw.2]; simp [pending]
      · intro w hw
        simp only [Par.start, List.mem_replicate] at hw
        rw [hw.2]; simp [pending]
    refine run_bind_oof (steps_end hG hbr hV hov he hc hk (by omega) _ _ hci hpk) fun p hp => ?_
    obtain ⟨blocks, hlen, hall, rfl⟩ := hn
    have hd : p.allDone = true := by
      refine blocks_done hG hbr hV hov (by omega) blocks _ p ?_ hci hpk ?_ hp
      · intro b hb i hi
        simp only [Par.start, List.length_replicate] at hi
        exact hall b hb i hi
      · refine lt_of_lt_of_le ?_ hlen
        have l1 := lag_le (Par.start jobs left s0)
        have hwk : work G (Par.start jobs left s0) = 10 * cost G s0.box := by
          simp [work, heap, Par.start, toil]
        have : 2 ^ (room G s0.box + 1) ≤ 2 ^ (2 * G.card * s.box.vars.length + 1) :=
          Nat.pow_le_pow_right (by omega) (by have := hk1.small; omega)
        have h2 : todo G (Par.start jobs left s0) = 3 * work G (Par.start jobs left s0) +
            lag (Par.start jobs left s0) + 10 * jobs + 1 := by simp [todo, Par.start]
        rw [h2, hwk]
        have h3 := cost_pos (G := G) s0.box
        unfold parBound searchBound
        unfold cost at h3 ⊢
        omega
    rw [if_pos hd]
    refine run_bind_oof (lift_oof _) fun s1 _ => ?_
    split
    · split <;> simp
    · simp

/-- From an infinite schedule in which every worker has its turn again and again. -/
theorem turns_fair {jobs : Nat} {sched : Nat → Nat}
    (hs : ∀ i < jobs, ∀ n, ∃ m, n ≤ m ∧ sched m = i) (k : Nat) :
    ∃ n, ∀ m, n ≤ m → Turns jobs k ((List.range m).map sched) := by
  have part : ∀ n, ∃ m, n ≤ m ∧ ∀ i < jobs, ∃ j, n ≤ j ∧ j < m ∧ sched j = i := by
    intro n
    have : ∀ l ≤ jobs, ∃ m, n ≤ m ∧ ∀ i < l, ∃ j, n ≤ j ∧ j < m ∧ sched j = i := by
      intro l
      induction l with
      | zero => exact fun _ => ⟨n, le_rfl, fun i hi => by omega⟩
      | succ l ih =>
        intro hl
        obtain ⟨m, h1, h2⟩ := ih (by omega)
        obtain ⟨j, h3, h4⟩ := hs l (by omega) n
        refine ⟨max m (j + 1), by omega, fun i hi => ?_⟩
        by_cases e : i = l
        · subst e; exact ⟨j, h3, by omega, h4⟩
        · obtain ⟨j', q1, q2, q3⟩ := h2 i (by omega)
          exact ⟨j', q1, by omega, q3⟩
    exact this jobs le_rfl
  have mem : ∀ {n m i}, (∃ j, n ≤ j ∧ j < m ∧ sched j = i) →
      i ∈ (List.range' n (m - n)).map sched := by
    rintro n m i ⟨j, q1, q2, q3⟩
    rw [List.mem_map]
    exact ⟨j, by rw [List.mem_range'_1]; omega, q3⟩
  have cut : ∀ {n m}, n ≤ m → (List.range m).map sched =
      (List.range n).map sched ++ (List.range' n (m - n)).map sched := by
    intro n m h
    rw [← List.map_append, List.range_eq_range', List.range_eq_range']
    congr 1
    have := List.range'_append (s := 0) (m := n) (n := m - n) (step := 1)
    simp only [Nat.one_mul, Nat.zero_add] at this
    rw [this]
    congr 1
    omega
  have more : ∀ {k n}, Turns jobs k ((List.range n).map sched) →
      ∃ m1, ∀ m, m1 ≤ m → Turns jobs (k + 1) ((List.range m).map sched) := by
    rintro k n ⟨parts, p1, p2, p3⟩
    obtain ⟨m1, h1, h2⟩ := part n
    refine ⟨m1, fun m hm => ?_⟩
    refine ⟨parts ++ [(List.range' n (m - n)).map sched], by simp; omega, ?_, ?_⟩
    · intro b hb i hi
      rcases List.mem_append.mp hb with hb | hb
      · exact p2 b hb i hi
      · rw [List.mem_singleton] at hb
        subst hb
        obtain ⟨j, q1, q2, q3⟩ := h2 i hi
        exact mem ⟨j, q1, by omega, q3⟩
    · rw [List.flatten_append, ← p3, cut (le_trans h1 hm)]
      simp
  have some : ∀ k, ∃ n, Turns jobs k ((List.range n).map sched) := by
    intro k
    induction k with
    | zero => exact ⟨0, [], by simp, by simp, by simp⟩
    | succ k ih =>
      obtain ⟨n, hn⟩ := ih
      obtain ⟨m, hm⟩ := more hn
      exact ⟨m, hm m le_rfl⟩
  obtain ⟨n, hn⟩ := some k
  obtain ⟨m1, hm⟩ := more hn
  refine ⟨m1, fun m h => ?_⟩
  obtain ⟨parts, p1, p2, p3⟩ := hm m h
  exact ⟨parts, by omega, p2, p3⟩

theorem theoryCheck_ends {env : Env} {cfg : TCfg} {cache : Cache} {tick : Nat} {b : Box}
    {fs : List Fml} (hG : GridOps G env.ib) (hbr : BranchGrid G env.brancher)
    (he : EvalEnds G env b.vars fs) (hb : Bounded G b) (hz : IntsSized b)
    (hl : BoxWf b) (hf : ∀ f ∈ fs, LitGrid G cfg.dbl f) (hc : CacheMade b.vars cache)
    (hq : (∃ f ∈ fs, f.isAll = true) → b.bot = false ∧ ∀ f ∈ fs, ¬ IntStrict f)
    (hj : ParTurns G env cfg b.vars.length) (hk : pruneBound G b.vars.length (fs.length + 2) ≤ env.fuel)
    (hn : searchBound G b.vars.length ≤ cfg.fuel) :
    theoryCheck env cfg cache tick b fs ≠ .oof := by
  unfold theoryCheck
  refine run_bind_oof (lift_oof _) fun r hr => ?_
  obtain ⟨o, ca, s⟩ := r
  obtain ⟨k1, kv, k2, k3, k4⟩ := buildContractor_plain hG.ninf hG.pinf hf hc rfl hb (lift_ok hr)
  dsimp only at k3 kv ⊢
  have expl : ∀ (t : CStatus), (explanation (t.used.length + 1) t.witness t.used) ≠ .oof := by
    intro t h
    obtain ⟨e, he⟩ := explanation_total t.witness t.used
    rw [he] at h
    cases h
  cases o with
  | none =>
    dsimp only
    split
    · exact run_bind_oof (expl s) fun a _ h => by cases h
    · intro h; cases h
  | some c =>
    dsimp only
    refine run_bind_oof (lift_oof _) fun _ _ => run_bind_oof ?_ fun q _ => ?_
    · have w := k4 c rfl
      have w0 : s.box.bot = true → ∀ ws, OverVars ws c := by
        intro h0
        refine w.none fun f hf => ?_
        by_contra ha
        obtain ⟨q1, q2⟩ := hq ⟨f, hf, by simpa using ha⟩
        rw [w.live q2 q1] at h0
        cases h0
      have wz : IntsSized s.box := by
        intro h0 i hi
        obtain ⟨b0, v0, n0, i0⟩ := k3 h0
        rw [v0] at hi
        exact ⟨(hz b0 i hi).1.trans (i0 i).1, (i0 i).2.trans (hz b0 i hi).2⟩
      have wl : s.box.bot = false → BoxWf s.box := by
        intro h0
        obtain ⟨b0, v0, n0, i0⟩ := k3 h0
        rw [BoxWf, n0, v0]
        exact hl
      have wk : pruneBound G s.box.vars.length (fan c) ≤ env.fuel := by
        rw [kv]
        refine le_trans ?_ hk
        have := w.fan
        unfold pruneBound
        exact Nat.mul_le_mul_left _ (by omega)
      have wo : OverVars s.box.vars c := by rw [kv]; exact w.over
      have we : EvalEnds G env s.box.vars fs := by rw [kv]; exact he
      unfold icp
      split
      · rename_i hgt
        obtain ⟨hbp, hturn⟩ := hj hgt
        exact icpPar_ends hG hbp we k2 wz wl wo w0 w.wl wk (by rw [kv]; exact hturn)
      · exact icpSeq_ends hG hbr we k2 wz wl wo w0 w.wl wk (by rw [kv]; exact hn)
    · split
      · exact run_bind_oof (expl q.2) fun a _ h => by cases h
      · intro h; cases h

end Verif.Proof
