import Mathlib.Data.List.Nodup
import Mathlib.Data.List.Basic
import Mathlib.Data.Finset.Card
import Mathlib.Data.Finset.Range
import Verif.Model.ThreadPool

/-! # C45: workers never share per-thread data -/

namespace Verif.Props
open Verif Verif.Model

/-- The threads that take part in a search with pool `p` of `n` workers: the workers, and the
thread that runs the search. -/
def Takes (p n : Nat) (main t : Thread) : Prop := t = main ∨ ∃ i, i < n ∧ t = .worker p i

/-- The property: in every pool alive, the threads that take part in its searches have different
numbers, smaller than the number of jobs, which is one more than the workers. -/
def Separate (main : Thread) (s : Threads) : Prop :=
  ∀ p n, (p, n) ∈ s.alive → ∀ t u a b, Takes p n main t → Takes p n main u →
    s.tid t = some a → s.tid u = some b → a < n + 1 ∧ (t ≠ u → a ≠ b)

/-- One thread of the program creates all pools and is the only one to ask for its number, and there
is one pool at a time. -/
def OnePool : Bool → List PoolEvent → Prop
  | _, [] => True
  | live, .create t _ :: es => live = false ∧ t = .program 0 ∧ OnePool true es
  | live, .use t :: es => (∀ i, t = .program i → i = 0) ∧ OnePool live es
  | _, .destroy _ :: es => OnePool false es

/-- What holds with one pool at a time. -/
structure PoolInv (live : Bool) (s : Threads) : Prop where
  new : ∀ p i, s.made ≤ p → s.tid (.worker p i) = none
  down : live = false → s.alive = [] ∧
    ((s.tid (.program 0) = none ∧ s.next = 0) ∨ (s.tid (.program 0) = some 0 ∧ s.next = 1))
  up : live = true → ∃ p n L, s.alive = [(p, n)] ∧ s.tid (.program 0) = some 0 ∧ p < s.made ∧
    List.Nodup L ∧ (∀ i ∈ L, i < n) ∧ s.next = L.length + 1 ∧
    ∀ i, s.tid (.worker p i) = if i ∈ L then some (L.idxOf i + 1) else none

theorem poolInv_step {live : Bool} {s s' : Threads} {e : PoolEvent} {es : List PoolEvent}
    (h : PoolInv live s) (hs : s.step e = some s') (ho : OnePool live (e :: es)) :
    ∃ live', PoolInv live' s' ∧ OnePool live' es := by
  cases e with
  | create t n =>
    simp only [OnePool] at ho
    obtain ⟨rfl, rfl, ho⟩ := ho
    refine ⟨true, ?_, ho⟩
    obtain ⟨ha, hd⟩ := h.down rfl
    simp only [Threads.step, Threads.exists, if_true, Option.some.injEq] at hs
    subst hs
    rcases hd with ⟨h0, h1⟩ | ⟨h0, h1⟩
    · simp only [Threads.getId, h0]
      refine ⟨fun p i hp => ?_, by simp, fun _ => ⟨s.made, n, [], by simp [ha], by simp [h1], by simp,
        by simp, by simp, by simp [h1], fun i => ?_⟩⟩
      · simpa using h.new p i (by simp only at hp; omega)
      · simpa using h.new s.made i le_rfl
    · simp only [Threads.getId, h0]
      refine ⟨fun p i hp => ?_, by simp, fun _ => ⟨s.made, n, [], by simp [ha], h0, by simp,
        by simp, by simp, by simp [h1], fun i => ?_⟩⟩
      · exact h.new p i (by simp only at hp; omega)
      · simpa using h.new s.made i le_rfl
  | use t =>
    simp only [OnePool] at ho
    refine ⟨live, ?_, ho.2⟩
    simp only [Threads.step] at hs
    split_ifs at hs with he
    simp only [Option.some.injEq] at hs
    subst hs
    unfold Threads.getId
    split
    · exact h
    rename_i hn
    cases t with
    | program i =>
      obtain rfl := ho.1 i rfl
      cases live with
      | true =>
        obtain ⟨p, n, L, _, h0, _⟩ := h.up rfl
        rw [h0] at hn; cases hn
      | false =>
        obtain ⟨ha, hd⟩ := h.down rfl
        refine ⟨fun p i hp => ?_, fun _ => ⟨ha, .inr ?_⟩, by simp⟩
        · simpa using h.new p i hp
        · rcases hd with ⟨_, h1⟩ | ⟨h0, _⟩
          · simp [h1]
          · rw [h0] at hn; cases hn
    | worker q i =>
      cases live with
      | false =>
        obtain ⟨ha, _⟩ := h.down rfl
        simp [Threads.exists, ha] at he
      | true =>
        obtain ⟨p, n, L, ha, h0, hp, hL, hl, hx, ht⟩ := h.up rfl
        simp only [Threads.exists, ha, List.any_cons, List.any_nil, Bool.or_false, Bool.and_eq_true,
          decide_eq_true_eq] at he
        obtain ⟨rfl, hi⟩ := he
        have hiL : i ∉ L := by
          intro hm
          rw [ht, if_pos hm] at hn
          cases hn
        refine ⟨fun q j hq => ?_, by simp, fun _ => ⟨p, n, L ++ [i], ha, by simpa using h0, hp, ?_, ?_,
          by simp [hx], fun j => ?_⟩⟩
        · have : (⟨q, j⟩ : Nat × Nat) ≠ ⟨p, i⟩ := by
            intro e
            simp only [Prod.mk.injEq] at e
            simp only at hq
            omega
          have h' : Thread.worker q j ≠ .worker p i := by
            intro e; cases e; exact this rfl
          simp only [h', if_false]
          exact h.new q j hq
        · rw [List.nodup_append]
          refine ⟨hL, by simp, ?_⟩
          intro a ha b hb e
          rw [List.mem_singleton] at hb
          subst hb; subst e
          exact hiL ha
        · intro j hj
          rcases List.mem_append.mp hj with hj | hj
          · exact hl j hj
          · simp at hj; omega
        · by_cases hji : j = i
          · subst hji
            simp [List.idxOf_append, hiL, hx]
          · have h' : Thread.worker p j ≠ .worker p i := by intro e; cases e; exact hji rfl
            simp only [h', if_false, ht, List.mem_append, List.mem_singleton, hji, or_false]
            by_cases hjL : j ∈ L
            · simp [hjL, List.idxOf_append]
            · simp [hjL]
  | destroy q =>
    simp only [OnePool] at ho
    refine ⟨false, ?_, ho⟩
    simp only [Threads.step] at hs
    split_ifs at hs with he
    simp only [Option.some.injEq] at hs
    subst hs
    cases live with
    | false =>
      obtain ⟨ha, _⟩ := h.down rfl
      simp [ha] at he
    | true =>
      obtain ⟨p, n, L, ha, h0, hp, _⟩ := h.up rfl
      simp only [ha, List.any_cons, List.any_nil, Bool.or_false, decide_eq_true_eq] at he
      subst he
      exact ⟨h.new, fun _ => ⟨by simp [ha], .inr ⟨h0, rfl⟩⟩, by simp⟩

theorem poolInv_run : ∀ {es : List PoolEvent} {live : Bool} {s s' : Threads}, PoolInv live s →
    Threads.run es s = some s' → OnePool live es → ∃ live', PoolInv live' s'
  | [], live, s, s', h, hr, _ => by
    simp only [Threads.run, Option.some.injEq] at hr
    exact ⟨live, hr ▸ h⟩
  | e :: es, live, s, s', h, hr, ho => by
    simp only [Threads.run] at hr
    split at hr
    · rename_i s1 hs
      obtain ⟨live', h', ho'⟩ := poolInv_step h hs ho
      exact poolInv_run h' hr ho'
    · cases hr

/-- C45 when there is one pool at a time, created by one thread which is the only one outside pools
to ask for its number.  Missing: several pools at a time, as with two contexts, when the code is
wrong (`C45_out_of_range`, `C45_shared`). -/
theorem C45_one_pool_partial (es : List PoolEvent) (s : Threads)
    (h : Threads.run es {} = some s) (ho : OnePool false es) : Separate (.program 0) s := by
  obtain ⟨live, hi⟩ := poolInv_run (live := false) (s := {}) ⟨by simp, by simp, by simp⟩ h ho
  intro p n hp t u a b ht hu ha hb
  cases live with
  | false =>
    rw [(hi.down rfl).1] at hp
    simp at hp
  | true =>
    obtain ⟨p', n', L, hal, h0, _, hL, hl, hx, hw⟩ := hi.up rfl
    rw [hal, List.mem_singleton, Prod.mk.injEq] at hp
    obtain ⟨rfl, rfl⟩ := hp
    have hlen : L.length ≤ n := by
      have := List.toFinset_card_of_nodup hL
      rw [← this, ← Finset.card_range n]
      refine Finset.card_le_card fun i hi' => ?_
      simpa using hl i (by simpa using hi')
    have key : ∀ t a, Takes p n (.program 0) t → s.tid t = some a →
        (t = .program 0 ∧ a = 0) ∨ ∃ i, i ∈ L ∧ t = .worker p i ∧ a = L.idxOf i + 1 := by
      rintro t a (rfl | ⟨i, _, rfl⟩) hta
      · rw [h0, Option.some.injEq] at hta
        exact .inl ⟨rfl, hta.symm⟩
      · rw [hw] at hta
        split_ifs at hta with hi'
        simp only [Option.some.injEq] at hta
        exact .inr ⟨i, hi', rfl, hta.symm⟩
    constructor
    · rcases key t a ht ha with ⟨_, rfl⟩ | ⟨i, hi', _, rfl⟩
      · omega
      · have := List.idxOf_lt_length_of_mem hi'
        omega
    · intro hne hab
      rcases key t a ht ha with ⟨rfl, rfl⟩ | ⟨i, hi', rfl, rfl⟩ <;>
      rcases key u b hu hb with ⟨rfl, rfl⟩ | ⟨j, hj, rfl, rfl⟩
      · exact hne rfl
      · omega
      · omega
      · have : L.idxOf i = L.idxOf j := by omega
        exact hne (by rw [(List.idxOf_inj hi').mp this])

/-- Three jobs, then, after the pool is gone, four. -/
example : ∃ s, Threads.run [.create (.program 0) 2, .use (.worker 0 1), .use (.program 0),
      .use (.worker 0 0), .destroy 0, .create (.program 0) 3, .use (.worker 1 2),
      .use (.worker 1 0)] {} = some s ∧
    OnePool false [.create (.program 0) 2, .use (.worker 0 1), .use (.program 0),
      .use (.worker 0 0), .destroy 0, .create (.program 0) 3, .use (.worker 1 2),
      .use (.worker 1 0)] ∧
    s.alive = [(1, 3)] ∧ s.tid (.worker 1 2) = some 1 ∧ s.tid (.worker 1 0) = some 2 :=
  ⟨_, rfl, by simp [OnePool], rfl, rfl, rfl⟩

/-- With two pools of one worker each, a worker of the second has the number 2, though there are two
jobs. -/
theorem C45_out_of_range : ∃ (es : List PoolEvent) (s : Threads), Threads.run es {} = some s ∧
    (1, 1) ∈ s.alive ∧ s.tid (.worker 1 0) = some 2 ∧ ¬ Separate (.program 0) s := by
  refine ⟨[.create (.program 0) 1, .create (.program 0) 1, .use (.worker 0 0), .use (.worker 1 0)],
    _, rfl, by decide, rfl, fun h => ?_⟩
  have := (h 1 1 (by decide) (.worker 1 0) (.worker 1 0) 2 2 (.inr ⟨0, by omega, rfl⟩)
    (.inr ⟨0, by omega, rfl⟩) rfl rfl).1
  omega

/-- When a pool is destroyed while another is in use, two workers of that get the same number. -/
theorem C45_shared : ∃ (es : List PoolEvent) (s : Threads), Threads.run es {} = some s ∧
    (1, 2) ∈ s.alive ∧ s.tid (.worker 1 0) = some 1 ∧ s.tid (.worker 1 1) = some 1 ∧
    ¬ Separate (.program 0) s := by
  refine ⟨[.create (.program 0) 1, .create (.program 0) 2, .use (.worker 1 0), .destroy 0,
    .use (.worker 1 1)], _, rfl, by decide, rfl, rfl, fun h => ?_⟩
  exact (h 1 2 (by decide) (.worker 1 0) (.worker 1 1) 1 1 (.inr ⟨0, by omega, rfl⟩)
    (.inr ⟨1, by omega, rfl⟩) rfl rfl).2 (by decide) rfl

end Verif.Props
