import Verif.Spec.Terminate
import Verif.Proof.Contractor

/-!
# The search ends
-/

namespace Verif.Proof
open Verif Verif.Model Verif.Spec

/-! ## Sub-boxes -/

theorem inside_refl (b : Box) : Inside b b := fun h => ⟨h, rfl, rfl, fun _ => ⟨le_refl _, le_refl _⟩⟩

theorem inside_trans {a b c : Box} (h : Inside a b) (k : Inside b c) : Inside a c := by
  intro ha
  obtain ⟨h1, hv, h2, h3⟩ := h ha
  obtain ⟨k1, kv, k2, k3⟩ := k h1
  exact ⟨k1, hv.trans kv, h2.trans k2, fun i => ⟨(k3 i).1.trans (h3 i).1, (h3 i).2.trans (k3 i).2⟩⟩

theorem vals_ext {a b : Box} (hl : a.vals.length = b.vals.length) (h : ∀ i, a.get i = b.get i) :
    a.vals = b.vals := by
  apply List.ext_getElem hl
  intro i h1 h2
  have := h i
  simpa [Box.get, List.getD, h1, h2] using this

theorem inside_antisymm {a b c : Box} (h : Inside a b) (k : Inside b c) (ha : a.bot = false)
    (e : a.vals = c.vals) : b.vals = c.vals := by
  obtain ⟨h1, _, h2, h3⟩ := h ha
  obtain ⟨k1, _, k2, k3⟩ := k h1
  refine vals_ext k2 fun i => ?_
  have e' : a.get i = c.get i := by simp [Box.get, e]
  have h4 := h3 i
  rw [e'] at h4
  have l1 : (b.get i).lb = (c.get i).lb := le_antisymm h4.1 (k3 i).1
  have l2 : (b.get i).ub = (c.get i).ub := le_antisymm (k3 i).2 h4.2
  cases hb : b.get i
  cases hc : c.get i
  simp_all

/-! ## Room -/

/-- How often the bounds can still move. -/
def roomI (G : Finset EQ) (iv : Itv) : Nat :=
  (G.filter fun x => iv.lb ≤ x).card + (G.filter fun x => x ≤ iv.ub).card

/-- How often the bounds can still move. -/
def room (G : Finset EQ) (b : Box) : Nat := if b.bot then 0 else (b.vals.map (roomI G)).sum

theorem roomI_le (G : Finset EQ) {i j : Itv} (h : j.lb ≤ i.lb ∧ i.ub ≤ j.ub) :
    roomI G i ≤ roomI G j := by
  refine Nat.add_le_add (Finset.card_le_card ?_) (Finset.card_le_card ?_)
  · intro x hx
    rw [Finset.mem_filter] at hx ⊢
    exact ⟨hx.1, h.1.trans hx.2⟩
  · intro x hx
    rw [Finset.mem_filter] at hx ⊢
    exact ⟨hx.1, hx.2.trans h.2⟩

theorem roomI_lt {G : Finset EQ} {i j : Itv} (h : j.lb ≤ i.lb ∧ i.ub ≤ j.ub)
    (hG : j.lb ∈ G ∧ j.ub ∈ G) (hn : i ≠ j) : roomI G i < roomI G j := by
  by_cases h1 : i.lb = j.lb
  · have h2 : i.ub ≠ j.ub := fun h2 => hn (by cases i; cases j; simp_all)
    refine Nat.add_lt_add_of_le_of_lt (Finset.card_le_card ?_) (Finset.card_lt_card ?_)
    · intro x hx
      rw [Finset.mem_filter] at hx ⊢
      exact ⟨hx.1, h.1.trans hx.2⟩
    · rw [Finset.ssubset_iff_of_subset]
      · exact ⟨j.ub, by simp [hG.2], by
          rw [Finset.mem_filter]
          rintro ⟨_, h3⟩
          exact h2 (le_antisymm h.2 h3)⟩
      · intro x hx
        rw [Finset.mem_filter] at hx ⊢
        exact ⟨hx.1, hx.2.trans h.2⟩
  · refine Nat.add_lt_add_of_lt_of_le (Finset.card_lt_card ?_) (Finset.card_le_card ?_)
    · rw [Finset.ssubset_iff_of_subset]
      · exact ⟨j.lb, by simp [hG.1], by
          rw [Finset.mem_filter]
          rintro ⟨_, h3⟩
          exact h1 (le_antisymm h3 h.1)⟩
      · intro x hx
        rw [Finset.mem_filter] at hx ⊢
        exact ⟨hx.1, h.1.trans hx.2⟩
    · intro x hx
      rw [Finset.mem_filter] at hx ⊢
      exact ⟨hx.1, hx.2.trans h.2⟩

theorem roomI_card (G : Finset EQ) (iv : Itv) : roomI G iv ≤ 2 * G.card := by
  have h1 := Finset.card_filter_le G fun x => iv.lb ≤ x
  have h2 := Finset.card_filter_le G fun x => x ≤ iv.ub
  simp only [roomI]
  omega

theorem room_card (G : Finset EQ) (b : Box) : room G b ≤ 2 * G.card * b.vals.length := by
  unfold room
  split
  · omega
  · generalize b.vals = l
    induction l with
    | nil => simp
    | cons a l ih =>
      simp only [List.map_cons, List.sum_cons, List.length_cons]
      have := roomI_card G a
      nlinarith

theorem sum_le (G : Finset EQ) : ∀ (l m : List Itv), l.length = m.length →
    (∀ i, (m.getD i Itv.univ).lb ≤ (l.getD i Itv.univ).lb ∧
      (l.getD i Itv.univ).ub ≤ (m.getD i Itv.univ).ub) →
    (l.map (roomI G)).sum ≤ (m.map (roomI G)).sum ∧
      ((∀ iv ∈ m, iv.lb ∈ G ∧ iv.ub ∈ G) → l ≠ m →
        (l.map (roomI G)).sum < (m.map (roomI G)).sum)
  | [], [], _, _ => by simp
  | a :: l, b :: m, hl, h => by
    obtain ⟨h1, h2⟩ := sum_le G l m (by simpa using hl) fun i => by simpa using h (i + 1)
    have h0 : b.lb ≤ a.lb ∧ a.ub ≤ b.ub := by simpa using h 0
    have h3 := roomI_le G h0
    simp only [List.map_cons, List.sum_cons]
    refine ⟨by omega, fun hG hn => ?_⟩
    by_cases e : a = b
    · have := h2 (fun iv hiv => hG iv (by simp [hiv])) (fun k => hn (by rw [e, k]))
      omega
    · have := roomI_lt h0 (hG b (by simp)) e
      omega

theorem room_le (G : Finset EQ) {a b : Box} (h : Inside a b) : room G a ≤ room G b := by
  unfold room
  cases ha : a.bot with
  | true => simp
  | false =>
    obtain ⟨h1, _, h2, h3⟩ := h ha
    simpa [h1] using (sum_le G a.vals b.vals h2 h3).1

theorem room_lt {G : Finset EQ} {a b : Box} (h : Inside a b) (hb : Bounded G b) (ha : a.bot = false)
    (hn : a.vals ≠ b.vals) : room G a < room G b := by
  obtain ⟨h1, _, h2, h3⟩ := h ha
  unfold room
  simpa [ha, h1] using (sum_le G a.vals b.vals h2 h3).2 (hb h1) hn

/-! ## Pruning -/

/-- The components in `R` are in the range of `int`. -/
def Sized (R : Nat → Prop) (b : Box) : Prop := b.bot = false → ∀ i, R i → IntSized b i

theorem sized_inside {R : Nat → Prop} {a b : Box} (h : Sized R b) (k : Inside a b) : Sized R a := by
  intro ha i hi
  obtain ⟨h1, _, _, h3⟩ := k ha
  exact ⟨(h h1 i hi).1.trans (h3 i).1, (h3 i).2.trans (h h1 i hi).2⟩

/-- What pruners are applied to; with forall contractors, which are then over the variables `V`,
boxes over these that are not empty. -/
structure Fit (G : Finset EQ) (V : Option (List Variable)) (R : Nat → Prop) (b : Box) : Prop where
  grid : Bounded G b
  sized : Sized R b
  over : ∀ vs, V = some vs → b.bot = false ∧ b.vars = vs ∧ BoxWf b

theorem Fit.next {G V R} {a b : Box} (h : Fit G V R b) (ha : Bounded G a) (k : Inside a b)
    (h0 : ¬ a.empty = true) : Fit G V R a := by
  have h0 : a.bot = false := by simpa [Box.empty] using h0
  obtain ⟨-, h2, h3, -⟩ := k h0
  refine ⟨ha, sized_inside h.sized k, fun vs e => ?_⟩
  obtain ⟨-, g2, g3⟩ := h.over vs e
  exact ⟨h0, h2.trans g2, by rw [BoxWf, h3, h2]; exact g3⟩

/-- What a pruner returns is a sub-box. -/
def Shrinks (G : Finset EQ) (V : Option (List Variable)) (R : Nat → Prop) (p : Pruner) : Prop :=
  ∀ s s', Fit G V R s.box → p s = .ok s' → Bounded G s'.box ∧ Inside s'.box s.box

/-- A pruner ends. -/
def Ends (G : Finset EQ) (V : Option (List Variable)) (R : Nat → Prop) (k : Nat) (p : Pruner) : Prop :=
  ∀ s, Fit G V R s.box → room G s.box < k → p s ≠ .oof

/-- A pruner reports no change if there is none. -/
def Silent (G : Finset EQ) (V : Option (List Variable)) (R : Nat → Prop) (p : Pruner) : Prop :=
  ∀ s s', Fit G V R s.box → p s = .ok s' → s'.box.bot = false →
    s'.box.vals = s.box.vals → ∀ i ∈ s'.output, i ∈ s.output

theorem run_bind_oof {α β : Type} {x : Run α} {f : α → Run β} (hx : x ≠ .oof)
    (hf : ∀ a, x = .ok a → f a ≠ .oof) : (x >>= f) ≠ .oof := by
  cases x with
  | ok a => exact hf a rfl
  | throw => intro h; cases h
  | ub => intro h; cases h
  | oof => exact absurd rfl hx

theorem lift_oof {α : Type} (x : Outcome α) : Run.lift x ≠ .oof := by
  cases x <;> intro h <;> cases h

variable {G : Finset EQ} {V : Option (List Variable)} {R : Nat → Prop} {k : Nat}

/-! ### Sequences -/

theorem seqRun_shrinks : ∀ {ps : List Pruner}, (∀ p ∈ ps, Shrinks G V R p) → Shrinks G V R (seqRun ps)
  | [], _ => fun s s' hb h => by cases h; exact ⟨hb.grid, inside_refl _⟩
  | p :: ps, hp => by
    intro s s' hb h
    simp only [seqRun] at h
    obtain ⟨a, ha, h⟩ := bindR_ok h
    obtain ⟨b1, i1⟩ := hp p (by simp) s a hb ha
    split at h
    · cases h; exact ⟨b1, i1⟩
    · obtain ⟨b2, i2⟩ := seqRun_shrinks (ps := ps) (fun q hq => hp q (by simp [hq])) a s' (hb.next b1 i1 (by assumption)) h
      exact ⟨b2, inside_trans i2 i1⟩

theorem seqRun_ends : ∀ {ps : List Pruner}, (∀ p ∈ ps, Shrinks G V R p) → (∀ p ∈ ps, Ends G V R k p) →
    Ends G V R k (seqRun ps)
  | [], _, _ => fun s hb _ h => by cases h
  | p :: ps, hs, he => by
    intro s hb hr
    simp only [seqRun]
    refine run_bind_oof (he p (by simp) s hb hr) fun a ha => ?_
    obtain ⟨b1, i1⟩ := hs p (by simp) s a hb ha
    split
    · intro h; cases h
    · exact seqRun_ends (fun q hq => hs q (by simp [hq])) (fun q hq => he q (by simp [hq])) a (hb.next b1 i1 (by assumption)) (lt_of_le_of_lt (room_le G i1) hr)

theorem seqRun_silent : ∀ {ps : List Pruner}, (∀ p ∈ ps, Shrinks G V R p) → (∀ p ∈ ps, Silent G V R p) →
    Silent G V R (seqRun ps)
  | [], _, _ => fun s s' _ h _ _ i hi => by cases h; exact hi
  | p :: ps, hs, he => by
    intro s s' hb h h0 e i hi
    simp only [seqRun] at h
    obtain ⟨a, ha, h⟩ := bindR_ok h
    obtain ⟨b1, i1⟩ := hs p (by simp) s a hb ha
    split at h
    · cases h
      exact he p (by simp) s s' hb ha h0 e i hi
    · obtain ⟨b2, i2⟩ := seqRun_shrinks (ps := ps) (fun q hq => hs q (by simp [hq])) a s' (hb.next b1 i1 (by assumption)) h
      have e1 := inside_antisymm i2 i1 h0 e
      have h1 := (i2 h0).1
      refine he p (by simp) s a hb ha h1 e1 i ?_
      exact seqRun_silent (fun q hq => hs q (by simp [hq])) (fun q hq => he q (by simp [hq])) a s' (hb.next b1 i1 (by assumption)) h h0 (e.trans e1.symm) i hi

/-! ### Joins -/

theorem hull_bounds {i j m : Itv} (hi : m.lb ≤ i.lb ∧ i.ub ≤ m.ub) (hj : m.lb ≤ j.lb ∧ j.ub ≤ m.ub) :
    m.lb ≤ (i.hull j).lb ∧ (i.hull j).ub ≤ m.ub := by
  unfold Itv.hull
  split
  · exact hj
  · split
    · exact hi
    · exact ⟨le_min hi.1 hj.1, max_le hi.2 hj.2⟩

theorem hull_grid {i j : Itv} (hi : i.lb ∈ G ∧ i.ub ∈ G) (hj : j.lb ∈ G ∧ j.ub ∈ G) :
    (i.hull j).lb ∈ G ∧ (i.hull j).ub ∈ G := by
  unfold Itv.hull
  split
  · exact hj
  · split
    · exact hi
    · refine ⟨?_, ?_⟩
      · dsimp only
        rcases min_choice i.lb j.lb with h | h <;> rw [h]
        · exact hi.1
        · exact hj.1
      · dsimp only
        rcases max_choice i.ub j.ub with h | h <;> rw [h]
        · exact hi.2
        · exact hj.2

theorem union_shrinks {a b r t : Box} (ha : Bounded G a ∧ Inside a t) (hb : Bounded G b ∧ Inside b t)
    (h : a.union b = .ok r) : Bounded G r ∧ Inside r t := by
  unfold Box.union at h
  split_ifs at h with h1 h2 h3
  · cases h; exact hb
  · cases h; exact ha
  · cases h
    have a0 : a.bot = false := by simpa using h2
    have b0 : b.bot = false := by simpa using h3
    obtain ⟨a1, av, a2, a3⟩ := ha.2 a0
    obtain ⟨b1, bv, b2, b3⟩ := hb.2 b0
    refine ⟨fun _ iv hiv => ?_, fun _ => ⟨a1, av, ?_, fun i => ?_⟩⟩
    · obtain ⟨n, hn, rfl⟩ := List.getElem_of_mem hiv
      simp only [List.length_zipWith] at hn
      simp only [List.getElem_zipWith]
      exact hull_grid (ha.1 a0 _ (List.getElem_mem _)) (hb.1 b0 _ (List.getElem_mem _))
    · simp [a2, b2]
    · by_cases hi : i < t.vals.length
      · have e1 : (a.get i) = a.vals[i]'(by omega) := by simp [Box.get, List.getD, a2, hi]
        have e2 : (b.get i) = b.vals[i]'(by omega) := by simp [Box.get, List.getD, b2, hi]
        have e3 : Box.get { a with vals := List.zipWith Itv.hull a.vals b.vals } i =
            (a.get i).hull (b.get i) := by
          rw [e1, e2]
          simp [Box.get, List.getD, a2, b2, hi]
        rw [e3]
        exact hull_bounds (a3 i) (b3 i)
      · have e3 : Box.get { a with vals := List.zipWith Itv.hull a.vals b.vals } i = t.get i := by
          simp [Box.get, List.getD, a2, b2, hi]
        rw [e3]
        exact ⟨le_refl _, le_refl _⟩

theorem joinLoop_shrinks {s : CStatus} (hb : Fit G V R s.box) : ∀ {ps : List Pruner} {acc s' : CStatus},
    (∀ p ∈ ps, Shrinks G V R p) → Bounded G acc.box ∧ Inside acc.box s.box →
    joinLoop s ps acc = .ok s' → Bounded G s'.box ∧ Inside s'.box s.box
  | [], acc, s', _, ha, h => by cases h; exact ha
  | p :: ps, acc, s', hp, ha, h => by
    simp only [joinLoop] at h
    obtain ⟨si, e1, h⟩ := bindR_ok h
    obtain ⟨acc', e2, h⟩ := bindR_ok h
    have e2 := lift_ok e2
    unfold CStatus.join at e2
    obtain ⟨b, e3, e2⟩ := bindO_ok e2
    cases e2
    exact joinLoop_shrinks hb (fun q hq => hp q (by simp [hq]))
      (union_shrinks ha (hp p (by simp) s si hb e1) e3) h

theorem joinRun_shrinks {ps : List Pruner} (hp : ∀ p ∈ ps, Shrinks G V R p) : Shrinks G V R (joinRun ps) := by
  intro s s' hb h
  refine joinLoop_shrinks hb hp ⟨?_, ?_⟩ h
  · intro h; cases h
  · intro h; cases h

theorem joinLoop_ends {s : CStatus} (hb : Fit G V R s.box)
    (hr : room G s.box < k) : ∀ {ps : List Pruner} {acc : CStatus}, (∀ p ∈ ps, Ends G V R k p) →
    joinLoop s ps acc ≠ .oof
  | [], acc, _ => by intro h; cases h
  | p :: ps, acc, hp => by
    simp only [joinLoop]
    refine run_bind_oof (hp p (by simp) s hb hr) fun a _ => run_bind_oof (lift_oof _) fun c _ => ?_
    exact joinLoop_ends hb hr fun q hq => hp q (by simp [hq])

theorem joinRun_ends {ps : List Pruner} (hp : ∀ p ∈ ps, Ends G V R k p) : Ends G V R k (joinRun ps) :=
  fun _ hb hr => joinLoop_ends hb hr hp

/-! ### Fixpoints -/

section
variable {term : List Itv → List Itv → Bool} (ht : ∀ v, term v v = true)

theorem fixLoop_shrinks {ps : List Pruner} (hp : ∀ p ∈ ps, Shrinks G V R p) : ∀ n,
    Shrinks G V R (fixLoop term ps n)
  | 0 => fun s s' _ h => by cases h
  | n + 1 => by
    intro s s' hb h
    simp only [fixLoop] at h
    obtain ⟨a, ha, h⟩ := bindR_ok h
    obtain ⟨b1, i1⟩ := seqRun_shrinks hp s a hb ha
    split at h
    · cases h; exact ⟨b1, i1⟩
    · split at h
      · cases h; exact ⟨b1, i1⟩
      · obtain ⟨b2, i2⟩ := fixLoop_shrinks hp n a s' (hb.next b1 i1 (by assumption)) h
        exact ⟨b2, inside_trans i2 i1⟩

include ht in
theorem fixLoop_ends {ps : List Pruner} (hp : ∀ p ∈ ps, Shrinks G V R p) (he : ∀ p ∈ ps, Ends G V R k p) :
    ∀ n s, Fit G V R s.box → room G s.box < k → room G s.box < n →
      fixLoop term ps n s ≠ .oof
  | 0, _, _, _, h => by omega
  | n + 1, s, hb, hr, hn => by
    simp only [fixLoop]
    refine run_bind_oof (seqRun_ends hp he s hb hr) fun a ha => ?_
    obtain ⟨b1, i1⟩ := seqRun_shrinks hp s a hb ha
    split
    · intro h; cases h
    · rename_i h0
      split
      · intro h; cases h
      · rename_i h1
        have a0 : a.box.bot = false := by simpa [Box.empty] using h0
        have hne : a.box.vals ≠ s.box.vals := by
          intro e
          rw [e] at h1
          exact h1 (ht _)
        have := room_lt i1 hb.grid a0 hne
        exact fixLoop_ends hp he n a (hb.next b1 i1 (by assumption)) (by omega) (by omega)

theorem fixLoop_silent {ps : List Pruner} (hp : ∀ p ∈ ps, Shrinks G V R p)
    (he : ∀ p ∈ ps, Silent G V R p) : ∀ n, Silent G V R (fixLoop term ps n)
  | 0 => fun s s' _ h => by cases h
  | n + 1 => by
    intro s s' hb h h0 e i hi
    simp only [fixLoop] at h
    obtain ⟨a, ha, h⟩ := bindR_ok h
    obtain ⟨b1, i1⟩ := seqRun_shrinks hp s a hb ha
    split at h
    · cases h
      exact seqRun_silent hp he s s' hb ha h0 e i hi
    · split at h
      · cases h
        exact seqRun_silent hp he s s' hb ha h0 e i hi
      · obtain ⟨b2, i2⟩ := fixLoop_shrinks hp n a s' (hb.next b1 i1 (by assumption)) h
        have e1 := inside_antisymm i2 i1 h0 e
        refine seqRun_silent hp he s a hb ha (i2 h0).1 e1 i ?_
        exact fixLoop_silent hp he n a s' (hb.next b1 i1 (by assumption)) h h0 (e.trans e1.symm) i hi
end

/-! ### Work lists -/

theorem getD_pruner {P : Pruner → Prop} {ps : List Pruner} (h : ∀ p ∈ ps, P p)
    (h0 : P fun _ => .ub) (j : Nat) : P (ps.getD j fun _ => .ub) := by
  rw [List.getD_eq_getElem?_getD]
  cases e : ps[j]? with
  | none => exact h0
  | some p => exact h p (List.mem_of_getElem? e)

theorem ub_shrinks : Shrinks G V R fun _ => .ub := fun _ _ _ h => by cases h
theorem ub_ends : Ends G V R k fun _ => .ub := fun _ _ _ h => by cases h
theorem ub_silent : Silent G V R fun _ => .ub := fun _ _ _ h => by cases h

/-- The number of contractors on the work list. -/
def wlCount (m : Nat) (wl : Nat → Bool) : Nat := ((Finset.range m).filter fun j => wl j = true).card

theorem wlCount_le (m : Nat) (wl : Nat → Bool) : wlCount m wl ≤ m := by
  have := Finset.card_filter_le (Finset.range m) fun j => wl j = true
  simpa [wlCount] using this

theorem wlCount_remove {m j : Nat} {wl : Nat → Bool} (hj : j < m) (h : wl j = true) :
    wlCount m (fun i => if i = j then false else wl i) < wlCount m wl := by
  apply Finset.card_lt_card
  rw [Finset.ssubset_iff_of_subset]
  · exact ⟨j, by simp [hj, h], by simp⟩
  · intro x hx
    simp only [Finset.mem_filter, Finset.mem_range] at hx ⊢
    refine ⟨hx.1, ?_⟩
    by_cases e : x = j
    · simp [e] at hx
    · simpa [e] using hx.2

theorem wlUpdate_nil (inputs : List (List Nat)) (wl : Nat → Bool) : wlUpdate inputs [] wl = wl := by
  funext j
  simp [wlUpdate]

theorem wlFind_some {m i j : Nat} {wl : Nat → Bool} (h : wlFind m wl i = some j) :
    j < m ∧ wl j = true := by
  unfold wlFind at h
  have h1 := List.find?_some h
  have h2 := List.mem_of_find?_eq_some h
  simp only [Bool.and_eq_true, decide_eq_true_eq] at h1
  exact ⟨by simpa using h2, h1.2⟩

section
variable {ps : List Pruner} {inputs : List (List Nat)}

theorem wlLoop_shrinks (hp : ∀ p ∈ ps, Shrinks G V R p) : ∀ n j s wl s', Fit G V R s.box →
    wlLoop ps inputs n j s wl = .ok s' → Bounded G s'.box ∧ Inside s'.box s.box
  | 0, _, _, _, _, _, h => by cases h
  | n + 1, j, s, wl, s', hb, h => by
    simp only [wlLoop] at h
    obtain ⟨a, ha, h⟩ := bindR_ok h
    obtain ⟨b1, i1⟩ := getD_pruner hp ub_shrinks j { s with output := [] } a hb ha
    split at h
    · cases h; exact ⟨b1, i1⟩
    · split at h
      · obtain ⟨b2, i2⟩ := wlLoop_shrinks hp n _ a _ s' (hb.next b1 i1 (by assumption)) h
        exact ⟨b2, inside_trans i2 i1⟩
      · split at h
        · obtain ⟨b2, i2⟩ := wlLoop_shrinks hp n _ a _ s' (hb.next b1 i1 (by assumption)) h
          exact ⟨b2, inside_trans i2 i1⟩
        · cases h; exact ⟨b1, i1⟩

theorem wlFill_shrinks (hp : ∀ p ∈ ps, Shrinks G V R p) : ∀ js s wl r, Fit G V R s.box →
    wlFill ps inputs js s wl = .ok r → Bounded G r.1.box ∧ Inside r.1.box s.box
  | [], _, _, _, hb, h => by cases h; exact ⟨hb.grid, inside_refl _⟩
  | j :: js, s, wl, r, hb, h => by
    simp only [wlFill] at h
    obtain ⟨a, ha, h⟩ := bindR_ok h
    obtain ⟨b1, i1⟩ := getD_pruner hp ub_shrinks j { s with output := [] } a hb ha
    split at h
    · cases h; exact ⟨b1, i1⟩
    · obtain ⟨b2, i2⟩ := wlFill_shrinks hp js a _ r (hb.next b1 i1 (by assumption)) h
      exact ⟨b2, inside_trans i2 i1⟩

theorem wlRun_shrinks {term : List Itv → List Itv → Bool} (hp : ∀ p ∈ ps, Shrinks G V R p) (n : Nat) :
    Shrinks G V R (wlRun term ps inputs n) := by
  intro s s' hb h
  simp only [wlRun] at h
  obtain ⟨r, hr, h⟩ := bindR_ok h
  obtain ⟨b1, i1⟩ := wlFill_shrinks hp _ s _ r hb hr
  split at h
  · cases h; exact ⟨b1, i1⟩
  · split at h
    · cases h; exact ⟨b1, i1⟩
    · split at h
      · cases h; exact ⟨b1, i1⟩
      · obtain ⟨b2, i2⟩ := wlLoop_shrinks hp n _ r.1 _ s' (hb.next b1 i1 (by assumption)) h
        exact ⟨b2, inside_trans i2 i1⟩

theorem wlFill_ends (hp : ∀ p ∈ ps, Shrinks G V R p) (he : ∀ p ∈ ps, Ends G V R k p) : ∀ js s wl,
    Fit G V R s.box → room G s.box < k → wlFill ps inputs js s wl ≠ .oof
  | [], _, _, _, _ => by intro h; cases h
  | j :: js, s, wl, hb, hr => by
    simp only [wlFill]
    refine run_bind_oof (getD_pruner he ub_ends j { s with output := [] } hb hr) fun a ha => ?_
    obtain ⟨b1, i1⟩ := getD_pruner hp ub_shrinks j { s with output := [] } a hb ha
    split
    · intro h; cases h
    · exact wlFill_ends hp he js a _ (hb.next b1 i1 (by assumption)) (lt_of_le_of_lt (room_le G i1) hr)

theorem wlLoop_ends (hp : ∀ p ∈ ps, Shrinks G V R p) (he : ∀ p ∈ ps, Ends G V R k p)
    (hs : ∀ p ∈ ps, Silent G V R p) : ∀ n j s wl, Fit G V R s.box →
    room G s.box < k → j < ps.length → wl j = true →
    room G s.box * (ps.length + 1) + wlCount ps.length wl ≤ n → wlLoop ps inputs n j s wl ≠ .oof
  | 0, j, s, wl, _, _, hj, hw, hn => by
    have := wlCount_remove hj hw
    omega
  | n + 1, j, s, wl, hb, hr, hj, hw, hn => by
    simp only [wlLoop]
    refine run_bind_oof (getD_pruner he ub_ends j { s with output := [] } hb hr) fun a ha => ?_
    obtain ⟨b1, i1⟩ := getD_pruner hp ub_shrinks j { s with output := [] } a hb ha
    split
    · intro h; cases h
    · rename_i h0
      have a0 : a.box.bot = false := by simpa [Box.empty] using h0
      have hle := room_le G i1
      have key : room G a.box * (ps.length + 1) + wlCount ps.length
          (wlUpdate inputs a.output fun i => if i = j then false else wl i) ≤ n := by
        by_cases e : a.box.vals = s.box.vals
        · have ho : a.output = [] := by
            have := getD_pruner hs ub_silent j { s with output := [] } a hb ha a0 e
            cases h : a.output with
            | nil => rfl
            | cons x xs => exact absurd (this x (by simp [h])) (by simp)
          rw [ho, wlUpdate_nil]
          have h1 := wlCount_remove hj hw
          have h2 := Nat.mul_le_mul_right (ps.length + 1) hle
          dsimp only at h2
          omega
        · have h1 := room_lt i1 hb.grid a0 e
          have h2 := wlCount_le ps.length
            (wlUpdate inputs a.output fun i => if i = j then false else wl i)
          have h3 := Nat.mul_le_mul_right (ps.length + 1) (Nat.succ_le_of_lt h1)
          rw [Nat.succ_mul] at h3
          dsimp only at h3
          omega
      split
      · rename_i k' hk
        obtain ⟨k1, k2⟩ := wlFind_some hk
        exact wlLoop_ends hp he hs n k' a _ (hb.next b1 i1 h0) (lt_of_le_of_lt hle hr) k1 k2 key
      · split
        · rename_i k' hk
          obtain ⟨k1, k2⟩ := wlFind_some hk
          exact wlLoop_ends hp he hs n k' a _ (hb.next b1 i1 h0) (lt_of_le_of_lt hle hr) k1 k2 key
        · intro h; cases h

theorem wlRun_ends {term : List Itv → List Itv → Bool} (hp : ∀ p ∈ ps, Shrinks G V R p)
    (he : ∀ p ∈ ps, Ends G V R k p) (hs : ∀ p ∈ ps, Silent G V R p) {n : Nat}
    (hn : k * (ps.length + 1) ≤ n) : Ends G V R k (wlRun term ps inputs n) := by
  intro s hb hr
  simp only [wlRun]
  refine run_bind_oof (wlFill_ends hp he _ s _ hb hr) fun r h1 => ?_
  obtain ⟨b1, i1⟩ := wlFill_shrinks hp _ s _ r hb h1
  have hle := room_le G i1
  split
  · intro h; cases h
  · split
    · intro h; cases h
    · rename_i k' hk
      split
      · intro h; cases h
      · obtain ⟨k1, k2⟩ := wlFind_some hk
        refine wlLoop_ends hp he hs n k' r.1 _ (hb.next b1 i1 (by assumption)) (lt_of_le_of_lt hle hr) k1 k2 ?_
        have h2 := wlCount_le ps.length r.2
        have h3 := Nat.mul_le_mul_right (ps.length + 1) (Nat.succ_le_of_lt (lt_of_le_of_lt hle hr))
        rw [Nat.succ_mul] at h3
        omega

theorem wlLoop_silent (hp : ∀ p ∈ ps, Shrinks G V R p) (hs : ∀ p ∈ ps, Silent G V R p) : ∀ n j s wl s',
    Fit G V R s.box → wlLoop ps inputs n j s wl = .ok s' → s'.box.bot = false →
    s'.box.vals = s.box.vals → s'.output = []
  | 0, _, _, _, _, _, h, _, _ => by cases h
  | n + 1, j, s, wl, s', hb, h, h0, e => by
    simp only [wlLoop] at h
    obtain ⟨a, ha, h⟩ := bindR_ok h
    obtain ⟨b1, i1⟩ := getD_pruner hp ub_shrinks j { s with output := [] } a hb ha
    have last : a.box.bot = false → a.box.vals = s.box.vals → a.output = [] := fun a0 e' => by
      have := getD_pruner hs ub_silent j { s with output := [] } a hb ha a0 e'
      cases h : a.output with
      | nil => rfl
      | cons x xs => exact absurd (this x (by simp [h])) (by simp)
    split at h
    · cases h; exact last h0 e
    · split at h
      · obtain ⟨b2, i2⟩ := wlLoop_shrinks hp n _ a _ s' (hb.next b1 i1 (by assumption)) h
        have e1 := inside_antisymm i2 i1 h0 e
        exact wlLoop_silent hp hs n _ a _ s' (hb.next b1 i1 (by assumption)) h h0 (e.trans e1.symm)
      · split at h
        · obtain ⟨b2, i2⟩ := wlLoop_shrinks hp n _ a _ s' (hb.next b1 i1 (by assumption)) h
          have e1 := inside_antisymm i2 i1 h0 e
          exact wlLoop_silent hp hs n _ a _ s' (hb.next b1 i1 (by assumption)) h h0 (e.trans e1.symm)
        · cases h; exact last h0 e

theorem wlFill_silent (hp : ∀ p ∈ ps, Shrinks G V R p) (hs : ∀ p ∈ ps, Silent G V R p) : ∀ js s wl r,
    Fit G V R s.box → wlFill ps inputs js s wl = .ok r → r.1.box.bot = false →
    r.1.box.vals = s.box.vals → ∀ i ∈ r.1.output, i ∈ s.output
  | [], _, _, _, _, h, _, _ => by cases h; exact fun i hi => hi
  | j :: js, s, wl, r, hb, h, h0, e => by
    simp only [wlFill] at h
    obtain ⟨a, ha, h⟩ := bindR_ok h
    obtain ⟨b1, i1⟩ := getD_pruner hp ub_shrinks j { s with output := [] } a hb ha
    have first : a.box.bot = false → a.box.vals = s.box.vals → ∀ i ∈ a.output, i ∈ s.output :=
      fun a0 e' i hi => by
        have := getD_pruner hs ub_silent j { s with output := [] } a hb ha a0 e' i hi
        cases this
    split at h
    · cases h; exact first h0 e
    · obtain ⟨b2, i2⟩ := wlFill_shrinks hp js a _ r (hb.next b1 i1 (by assumption)) h
      have e1 := inside_antisymm i2 i1 h0 e
      intro i hi
      exact first (i2 h0).1 e1 i
        (wlFill_silent hp hs js a _ r (hb.next b1 i1 (by assumption)) h h0 (e.trans e1.symm) i hi)

theorem wlRun_silent {term : List Itv → List Itv → Bool} (hp : ∀ p ∈ ps, Shrinks G V R p)
    (hs : ∀ p ∈ ps, Silent G V R p) (n : Nat) : Silent G V R (wlRun term ps inputs n) := by
  intro s s' hb h h0 e i hi
  simp only [wlRun] at h
  obtain ⟨r, hr, h⟩ := bindR_ok h
  obtain ⟨b1, i1⟩ := wlFill_shrinks hp _ s _ r hb hr
  split at h
  · cases h
    exact wlFill_silent hp hs _ s _ r hb hr h0 e i hi
  · split at h
    · cases h
      exact wlFill_silent hp hs _ s _ r hb hr h0 e i hi
    · split at h
      · cases h
        exact wlFill_silent hp hs _ s _ r hb hr h0 e i hi
      · obtain ⟨b2, i2⟩ := wlLoop_shrinks hp n _ r.1 _ s' (hb.next b1 i1 (by assumption)) h
        have e1 := inside_antisymm i2 i1 h0 e
        rw [wlLoop_silent hp hs n _ r.1 _ s' (hb.next b1 i1 (by assumption)) h h0 (e.trans e1.symm)] at hi
        cases hi
end

/-! ### Integers -/

theorem ceil_ge (a : EQ) : a ≤ a.ceil := by
  cases a with
  | fin q => simpa [EQ.ceil] using Int.le_ceil q
  | ninf => simp [EQ.ceil]
  | pinf => simp [EQ.ceil]

theorem get_put (b : Box) (i j : Nat) (iv : Itv) :
    (b.set i iv).get j = if i = j ∧ i < b.vals.length then iv else b.get j := by
  simp only [Box.set, Box.get, List.getD_eq_getElem?_getD, List.getElem?_set]
  by_cases h : i = j
  · subst h
    by_cases hi : i < b.vals.length <;> simp [hi]
  · simp [h]

theorem set_inside {b : Box} {i : Nat} {iv : Itv} (h : (b.get i).lb ≤ iv.lb ∧ iv.ub ≤ (b.get i).ub) :
    Inside (b.set i iv) b := by
  intro hb
  refine ⟨hb, rfl, by simp [Box.set], fun j => ?_⟩
  rw [get_put]
  split
  · rename_i e
    rw [← e.1]
    exact h
  · exact ⟨le_refl _, le_refl _⟩

theorem set_bounded {b : Box} {i : Nat} {iv : Itv} (h : iv.lb ∈ G ∧ iv.ub ∈ G) (hb : Bounded G b) :
    Bounded G (b.set i iv) := by
  intro h0 jv hj
  rcases List.mem_or_eq_of_mem_set hj with hj | hj
  · exact hb h0 jv hj
  · rw [hj]; exact h

theorem get_grid (hn : EQ.ninf ∈ G) (hp : EQ.pinf ∈ G) {b : Box} (hb : Bounded G b)
    (h0 : b.bot = false) (i : Nat) : (b.get i).lb ∈ G ∧ (b.get i).ub ∈ G := by
  unfold Box.get
  rw [List.getD_eq_getElem?_getD]
  cases e : b.vals[i]? with
  | none => exact ⟨hn, hp⟩
  | some iv => exact hb h0 iv (List.mem_of_getElem? e)

mutual
theorem quiet_wlOk {R : Nat → Prop} : ∀ c : Ctc, Quiet R c → WlOk R c
  | .id, _ => trivial
  | .integer _, _ => trivial
  | .seq cs, h => quietAll_wlOk cs h
  | .join _, h => by cases h
  | .fixpoint cs, h => quietAll_wlOk cs h
  | .worklist _, h => h
  | .fwdbwd .., _ => trivial
  | .polytope .., _ => trivial
  | .forallC .., _ => trivial
theorem quietAll_wlOk {R : Nat → Prop} : ∀ cs : List Ctc, QuietAll R cs → WlOkAll R cs
  | [], _ => trivial
  | c :: cs, h => ⟨quiet_wlOk c h.1, quietAll_wlOk cs h.2⟩
end

mutual
/-- The forall contractors in a contractor were made for the variables `V`, and the integers among
these are in `R`. -/
def Over (V : Option (List Variable)) (R : Nat → Prop) : Ctc → Prop
  | .seq cs => OverAll V R cs
  | .join cs => OverAll V R cs
  | .fixpoint cs => OverAll V R cs
  | .worklist cs => OverAll V R cs
  | .forallC ws _ => V = some ws ∧ ∀ i, IntAt ws i → R i
  | _ => True
def OverAll (V : Option (List Variable)) (R : Nat → Prop) : List Ctc → Prop
  | [] => True
  | c :: cs => Over V R c ∧ OverAll V R cs
end

mutual
theorem over_of {vs : List Variable} {R : Nat → Prop} (hR : ∀ i, IntAt vs i → R i) :
    ∀ c : Ctc, OverVars vs c → Over (some vs) R c
  | .id, _ => trivial
  | .integer _, _ => trivial
  | .seq cs, h => overAll_of hR cs h
  | .join cs, h => overAll_of hR cs h
  | .fixpoint cs, h => overAll_of hR cs h
  | .worklist cs, h => overAll_of hR cs h
  | .fwdbwd .., _ => trivial
  | .polytope .., _ => trivial
  | .forallC .., h => by cases h; exact ⟨rfl, hR⟩
theorem overAll_of {vs : List Variable} {R : Nat → Prop} (hR : ∀ i, IntAt vs i → R i) :
    ∀ cs : List Ctc, OverVarsAll vs cs → OverAll (some vs) R cs
  | [], _ => trivial
  | c :: cs, h => ⟨over_of hR c h.1, overAll_of hR cs h.2⟩
end

section
variable {ib : Ibex} (hG : GridOps G ib)
include hG

theorem integer_shr : ∀ idxs (s s' : CStatus), Bounded G s.box → integerLoop idxs s = .ok s' →
    Bounded G s'.box ∧ Inside s'.box s.box
  | [], s, s', hb, h => by cases h; exact ⟨hb, inside_refl _⟩
  | i :: is, s, s', hb, h => by
    unfold integerLoop at h
    dsimp only at h
    split at h
    · exact integer_shr is s s' hb h
    · rename_i h0
      have s0 : s.box.bot = false := by
        by_contra hc
        exact h0 (by simp [hc])
      split at h
      · split at h
        · have g := get_grid hG.ninf hG.pinf hb s0 i
          have i1 : Inside (s.box.set i ⟨(s.box.get i).lb.ceil, (s.box.get i).ub.floor⟩) s.box :=
            set_inside ⟨ceil_ge _, floor_le _⟩
          obtain ⟨b2, i2⟩ := integer_shr is _ s'
            (set_bounded ⟨hG.ceil _ g.1, hG.floor _ g.2⟩ hb) h
          exact ⟨b2, inside_trans i2 i1⟩
        · split at h
          · cases h
            refine ⟨?_, ?_⟩
            · intro h; cases h
            · intro h; cases h
          · cases h
      · exact integer_shr is s s' hb h

theorem integer_shrinks (idxs) : Shrinks G V R (integerLoop idxs) :=
  fun s s' hb h => integer_shr hG idxs s s' hb.grid h

omit hG in
theorem integer_ends : ∀ idxs, Ends G V R k (integerLoop idxs)
  | [] => fun s _ _ h => by cases h
  | i :: is => by
    intro s hb hr
    have aux : ∀ (is : List Nat) (s : CStatus), integerLoop is s ≠ .oof := by
      intro is
      induction is with
      | nil => intro s h; cases h
      | cons i is ih =>
        intro s
        unfold integerLoop
        dsimp only
        split
        · exact ih _
        · split
          · split
            · exact ih _
            · split <;> (intro h; cases h)
          · exact ih _
    exact aux (i :: is) s

theorem integer_sil : ∀ idxs, (∀ i ∈ idxs, R i) → ∀ s s' : CStatus, Bounded G s.box → Sized R s.box →
    integerLoop idxs s = .ok s' → s'.box.bot = false → s'.box.vals = s.box.vals →
    ∀ i ∈ s'.output, i ∈ s.output
  | [], _, s, s', _, _, h, _, _, i, hi => by cases h; exact hi
  | i :: is, hR, s, s', hb, hz, h, h0, e, j, hj => by
    unfold integerLoop at h
    dsimp only at h
    split at h
    · exact integer_sil is (fun j hj => hR j (by simp [hj])) s s' hb hz h h0 e j hj
    · rename_i hne
      have s0 : s.box.bot = false := by
        by_contra hc
        exact hne (by simp [hc])
      have ne : (s.box.get i).isEmpty = false := by
        by_contra hc
        exact hne (by simp [hc])
      split at h
      · rename_i hint
        split at h
        · exfalso
          have g := get_grid hG.ninf hG.pinf hb s0 i
          have i1 : Inside (s.box.set i ⟨(s.box.get i).lb.ceil, (s.box.get i).ub.floor⟩) s.box :=
            set_inside ⟨ceil_ge _, floor_le _⟩
          obtain ⟨b2, i2⟩ := integer_shr hG is _ s'
            (set_bounded ⟨hG.ceil _ g.1, hG.floor _ g.2⟩ hb) h
          have e1 := inside_antisymm i2 i1 h0 e
          have hz' := hz s0 i (hR i (by simp))
          have hi : i < s.box.vals.length := by
            by_contra hc
            have : s.box.get i = Itv.univ := by simp [Box.get, List.getD, hc]
            rw [IntSized, this] at hz'
            simp [Itv.univ] at hz'
          have e2 : (⟨(s.box.get i).lb.ceil, (s.box.get i).ub.floor⟩ : Itv) = s.box.get i := by
            have h1 : (s.box.set i ⟨(s.box.get i).lb.ceil, (s.box.get i).ub.floor⟩).get i =
                s.box.get i := by simp only [Box.get] at e1 ⊢; rw [e1]
            rw [get_put, if_pos ⟨rfl, hi⟩] at h1
            exact h1
          rw [IntSized] at hz'
          generalize hiv : s.box.get i = iv at *
          obtain ⟨l, u⟩ := iv
          simp only [Itv.mk.injEq] at e2
          cases l with
          | ninf => simp at hz'
          | pinf => simp [Itv.isEmpty] at ne
          | fin p =>
            cases u with
            | ninf => simp [Itv.isEmpty] at ne
            | pinf => simp at hz'
            | fin q =>
              simp only [EQ.ceil, EQ.floor, EQ.fin.injEq] at e2
              simp only [Itv.isEmpty, EQ.fin_lt_fin, reduceCtorEq, decide_false, Bool.or_false,
                decide_eq_false_iff_not, not_lt] at ne
              simp only [EQ.fin_le_fin] at hz'
              have f1 : ((⌊p⌋ : ℤ) : ℚ) = p := by
                rw [← e2.1, Int.floor_intCast]
              have c1 : EQ.isInt (.fin p) = true := by
                simp only [EQ.isInt, Bool.and_eq_true, decide_eq_true_eq]
                exact ⟨⟨hz'.1, ne.trans hz'.2⟩, f1⟩
              have c2 : EQ.isInt (.fin q) = true := by
                simp only [EQ.isInt, Bool.and_eq_true, decide_eq_true_eq]
                exact ⟨⟨hz'.1.trans ne, hz'.2⟩, e2.2⟩
              simp [c1, c2] at hint
        · split at h
          · cases h; cases h0
          · cases h
      · exact integer_sil is (fun j hj => hR j (by simp [hj])) s s' hb hz h h0 e j hj

theorem integer_silent (idxs) (hR : ∀ i ∈ idxs, R i) : Silent G V R (integerLoop idxs) :=
  fun s s' hb => integer_sil hG idxs hR s s' hb.grid hb.sized

/-! ### IBEX -/

omit hG in
theorem pad_get (n : Nat) (vals : List Itv) (i : Nat) (h : i < n) :
    (padTo n vals).getD i Itv.univ = vals.getD i Itv.univ := by
  simp only [padTo, List.getD_eq_getElem?_getD, List.getElem?_take, h, if_true, List.getElem?_append]
  by_cases hi : i < vals.length
  · simp [hi]
  · simp only [hi, if_false]
    rw [List.getElem?_replicate]
    split
    · simp [List.getElem?_eq_none (not_lt.mp hi)]
    · simp [List.getElem?_eq_none (not_lt.mp hi)]

theorem posBwd_shrinks (ws : List Variable) (c : Ctr) {b : Box} (hb : Bounded G b) :
    Bounded G (posBwd ib ws c b).2 ∧ Inside (posBwd ib ws c b).2 b := by
  have hp : Bounded G ⟨ws, padTo ws.length b.vals, b.bot⟩ := by
    intro h0 iv hiv
    have := List.mem_of_mem_take hiv
    rw [List.mem_append, List.mem_replicate] at this
    rcases this with h | h
    · exact hb h0 iv h
    · rw [h.2]; exact ⟨hG.ninf, hG.pinf⟩
  obtain ⟨r1, r2⟩ := hG.bwd c _ hp
  unfold posBwd
  dsimp only
  generalize (ib.bwd c ⟨ws, padTo ws.length b.vals, b.bot⟩).2 = r at *
  by_cases h0 : r.bot = true
  · constructor
    · intro h; simp [h0] at h
    · intro h; simp [h0] at h
  have h0 : r.bot = false := by simpa using h0
  obtain ⟨b0, _, hl, hi⟩ := r2 h0
  have hpl : (padTo ws.length b.vals).length = ws.length := by
    simp [padTo]; omega
  rw [hpl] at hl
  constructor
  · intro _ iv hiv
    have := List.mem_of_mem_take hiv
    rw [List.mem_append] at this
    rcases this with h | h
    · exact r1 h0 iv h
    · exact hb b0 iv (List.mem_of_mem_drop h)
  · intro _
    refine ⟨b0, rfl, ?_, fun i => ?_⟩
    · simp [hl]; omega
    · have e : Box.get { b with vals := (r.vals ++ b.vals.drop ws.length).take b.vals.length
                                bot := r.bot } i =
          if i < ws.length ∧ i < b.vals.length then r.get i else b.get i := by
        simp only [Box.get, List.getD_eq_getElem?_getD, List.getElem?_take, List.getElem?_append, hl]
        by_cases h1 : i < b.vals.length
        · by_cases h2 : i < ws.length
          · simp [h1, h2]
          · simp only [h1, h2, if_true, if_false, and_true]
            rw [List.getElem?_drop]
            congr 2
            omega
        · simp [h1]
      rw [e]
      split
      · rename_i h
        have := hi i
        simp only [Box.get] at this ⊢
        rw [pad_get _ _ _ h.1] at this
        exact this
      · exact ⟨le_refl _, le_refl _⟩

theorem fwdbwd_shrinks (vs : List Variable) (f : Fml) (c : Ctr) : Shrinks G V R (fwdbwdRun ib vs f c) := by
  intro s s' hb h
  have := posBwd_shrinks hG vs c hb.grid
  unfold fwdbwdRun at h
  dsimp only at h
  split at h
  · cases h; exact this
  · split at h
    · cases h; exact this
    · split at h <;> (cases h; exact this)

omit hG in
theorem fwdbwd_ends (vs : List Variable) (f : Fml) (c : Ctr) : Ends G V R k (fwdbwdRun ib vs f c) := by
  intro s _ _
  unfold fwdbwdRun
  dsimp only
  split
  · intro h; cases h
  · split
    · intro h; cases h
    · split <;> (intro h; cases h)

omit hG in
theorem fwdbwd_silent (vs : List Variable) (f : Fml) (c : Ctr) :
    Silent G V R (fwdbwdRun ib vs f c) := by
  intro s s' _ h h0 e i hi
  unfold fwdbwdRun at h
  dsimp only at h
  split at h
  · cases h; exact hi
  · split at h
    · rename_i h1
      cases h
      exact absurd ((show (posBwd ib vs c s.box).2.bot = false from h0).symm.trans h1) (by simp)
    · split at h
      · cases h; exact hi
      · rename_i h2
        cases h
        have e' : (posBwd ib vs c s.box).2.vals = s.box.vals := e
        exact absurd (by
          rw [List.filter_eq_nil_iff]
          intro j _
          simp [Box.get, e']) h2

theorem polytope_shrinks (vs : List Variable) (fs : List Fml) (cs : List Ctr) :
    Shrinks G V R (polytopeRun ib vs fs cs) := by
  intro s s' hb h
  unfold polytopeRun at h
  split at h
  · cases h
  · dsimp only at h
    obtain ⟨r1, r2⟩ := hG.poly cs ⟨vs, s.box.vals, s.box.bot⟩ (fun h0 => hb.grid h0)
    generalize ib.poly cs ⟨vs, s.box.vals, s.box.bot⟩ = r at *
    have key : Bounded G { s.box with vals := r.vals, bot := r.bot } ∧
        Inside { s.box with vals := r.vals, bot := r.bot } s.box := by
      refine ⟨fun h0 => r1 h0, fun h0 => ?_⟩
      obtain ⟨k1, _, k2, k3⟩ := r2 h0
      exact ⟨k1, rfl, k2, k3⟩
    split at h
    · cases h; rw [addUseds_box]; exact key
    · split at h
      · cases h; exact key
      · cases h; rw [addUseds_box]; exact key

omit hG in
theorem polytope_ends (vs : List Variable) (fs : List Fml) (cs : List Ctr) :
    Ends G V R k (polytopeRun ib vs fs cs) := by
  intro s _ _
  unfold polytopeRun
  split
  · intro h; cases h
  · dsimp only
    split
    · intro h; cases h
    · split <;> (intro h; cases h)

omit hG in
theorem polytope_silent (vs : List Variable) (fs : List Fml) (cs : List Ctr) :
    Silent G V R (polytopeRun ib vs fs cs) := by
  intro s s' _ h h0 e i hi
  unfold polytopeRun at h
  split at h
  · cases h
  · dsimp only at h
    split at h
    · rename_i h1
      cases h
      rw [addUseds_box] at h0
      exact absurd (h0.symm.trans h1) (by simp)
    · split at h
      · cases h; exact hi
      · rename_i h2
        cases h
        rw [addUseds_box] at e
        have e' : (ib.poly cs ⟨vs, s.box.vals, s.box.bot⟩).vals = s.box.vals := e
        exact absurd (by
          rw [List.filter_eq_nil_iff]
          intro j _
          simp [Box.get, e']) h2

omit hG in
theorem Fit.apt {vs : List Variable} {b : Box} (h : Fit G (some vs) R b)
    (hR : ∀ i, IntAt vs i → R i) : Apt G vs b := by
  obtain ⟨h1, h2, h3⟩ := h.over vs rfl
  exact ⟨h1, h2, h3, h.grid, fun h0 i hi => h.sized h0 i (hR i (by rw [← h2]; exact hi))⟩

section
variable {vs : List Variable} (hR : ∀ i, IntAt vs i → R i)
include hR

theorem forall_shrinks (f : Fml) : Shrinks G (some vs) R (forallRun ib vs f) := by
  intro s s' hb h
  unfold forallRun at h
  obtain ⟨r, hr, h⟩ := bindR_ok h
  cases h
  obtain ⟨h1, h2, _⟩ := hG.forallGrid _ vs f s.box r.1 r.2 (hb.apt hR) hr
  exact ⟨h1, h2⟩

theorem forall_ends (f : Fml) : Ends G (some vs) R k (forallRun ib vs f) := by
  intro s hb _
  unfold forallRun
  exact run_bind_oof (hG.forallEnds _ vs f s.box (hb.apt hR)) fun a _ h => by cases h

theorem forall_silent (f : Fml) : Silent G (some vs) R (forallRun ib vs f) := by
  intro s s' hb h h0 e i hi
  unfold forallRun at h
  obtain ⟨r, hr, h⟩ := bindR_ok h
  cases h
  obtain ⟨_, _, h3⟩ := hG.forallGrid _ vs f s.box r.1 r.2 (hb.apt hR) hr
  have := h3 h0 e
  simp only [CStatus.addUsed, this, List.nil_append] at hi
  exact hi

end

/-! ### All contractors -/

mutual
theorem prune_shrinks (n : Nat) : ∀ c : Ctc, Over V R c → Shrinks G V R (prune ib n c)
  | .id, _ => by
    unfold prune
    intro s s' hb h
    cases h
    exact ⟨hb.grid, inside_refl _⟩
  | .integer idxs, _ => by unfold prune; exact integer_shrinks hG idxs
  | .seq cs, o => by unfold prune; exact seqRun_shrinks (prunes_shrinks n cs o)
  | .join cs, o => by unfold prune; exact joinRun_shrinks (prunes_shrinks n cs o)
  | .fixpoint cs, o => by unfold prune; exact fixLoop_shrinks (prunes_shrinks n cs o) n
  | .worklist cs, o => by unfold prune; exact wlRun_shrinks (prunes_shrinks n cs o) n
  | .fwdbwd vs f c, _ => by unfold prune; exact fwdbwd_shrinks hG vs f c
  | .polytope vs fs cs, _ => by unfold prune; exact polytope_shrinks hG vs fs cs
  | .forallC vs f, o => by
    obtain ⟨rfl, hR⟩ := o
    unfold prune; exact forall_shrinks hG hR f
theorem prunes_shrinks (n : Nat) : ∀ cs : List Ctc, OverAll V R cs →
    ∀ p ∈ prunes ib n cs, Shrinks G V R p
  | [], _, p, hp => by simp [prunes] at hp
  | c :: cs, o, p, hp => by
    simp only [prunes, List.mem_cons] at hp
    rcases hp with rfl | hp
    · exact prune_shrinks n c o.1
    · exact prunes_shrinks n cs o.2 p hp
end

mutual
theorem prune_silent (n : Nat) : ∀ c : Ctc, Over V R c → Quiet R c → Silent G V R (prune ib n c)
  | .id, _, _ => by
    unfold prune
    intro s s' _ h _ _ i hi
    cases h
    exact hi
  | .integer idxs, _, h => by unfold prune; exact integer_silent hG idxs h
  | .seq cs, o, h => by
    unfold prune; exact seqRun_silent (prunes_shrinks hG n cs o) (prunes_silent n cs o h)
  | .join cs, _, h => by cases h
  | .fixpoint cs, o, h => by
    unfold prune; exact fixLoop_silent (prunes_shrinks hG n cs o) (prunes_silent n cs o h) n
  | .worklist cs, o, h => by
    unfold prune; exact wlRun_silent (prunes_shrinks hG n cs o) (prunes_silent n cs o h) n
  | .fwdbwd vs f c, _, _ => by unfold prune; exact fwdbwd_silent vs f c
  | .polytope vs fs cs, _, _ => by unfold prune; exact polytope_silent vs fs cs
  | .forallC vs f, o, _ => by
    obtain ⟨rfl, hR⟩ := o
    unfold prune; exact forall_silent hG hR f
theorem prunes_silent (n : Nat) : ∀ cs : List Ctc, OverAll V R cs → QuietAll R cs →
    ∀ p ∈ prunes ib n cs, Silent G V R p
  | [], _, _, p, hp => by simp [prunes] at hp
  | c :: cs, o, h, p, hp => by
    simp only [prunes, List.mem_cons] at hp
    rcases hp with rfl | hp
    · exact prune_silent n c o.1 h.1
    · exact prunes_silent n cs o.2 h.2 p hp
end

omit hG in
theorem prunes_length (n : Nat) : ∀ cs : List Ctc, (prunes ib n cs).length = cs.length
  | [] => rfl
  | c :: cs => by simp [prunes, prunes_length n cs]

mutual
theorem prune_ends {n : Nat} : ∀ c : Ctc, Over V R c → WlOk R c → k * (fan c + 1) ≤ n →
    Ends G V R k (prune ib n c)
  | .id, _, _, _ => by unfold prune; intro s _ _ h; cases h
  | .integer idxs, _, _, _ => by unfold prune; exact integer_ends idxs
  | .seq cs, o, h, hn => by
    unfold prune; exact seqRun_ends (prunes_shrinks hG n cs o) (prunes_ends cs o h hn)
  | .join cs, o, h, hn => by unfold prune; exact joinRun_ends (prunes_ends cs o h hn)
  | .fixpoint cs, o, h, hn => by
    unfold prune
    intro s hb hr
    refine fixLoop_ends hG.term (prunes_shrinks hG n cs o) (prunes_ends cs o h hn) n s hb hr ?_
    have : k * 1 ≤ k * (fan (.fixpoint cs) + 1) := Nat.mul_le_mul_left k (by omega)
    omega
  | .worklist cs, o, h, hn => by
    unfold prune
    simp only [fan] at hn
    refine wlRun_ends (prunes_shrinks hG n cs o)
      (prunes_ends cs o (quietAll_wlOk cs h) (le_trans (Nat.mul_le_mul_left k (by omega)) hn))
      (prunes_silent hG n cs o h) ?_
    rw [prunes_length]
    exact le_trans (Nat.mul_le_mul_left k (by omega)) hn
  | .fwdbwd vs f c, _, _, _ => by unfold prune; exact fwdbwd_ends vs f c
  | .polytope vs fs cs, _, _, _ => by unfold prune; exact polytope_ends vs fs cs
  | .forallC vs f, o, _, _ => by
    obtain ⟨rfl, hR⟩ := o
    unfold prune; exact forall_ends hG hR f
theorem prunes_ends {n : Nat} : ∀ cs : List Ctc, OverAll V R cs → WlOkAll R cs →
    k * (fanAll cs + 1) ≤ n → ∀ p ∈ prunes ib n cs, Ends G V R k p
  | [], _, _, _, p, hp => by simp [prunes] at hp
  | c :: cs, o, h, hn, p, hp => by
    simp only [prunes, List.mem_cons] at hp
    simp only [fanAll] at hn
    rcases hp with rfl | hp
    · exact prune_ends c o.1 h.1 (le_trans (Nat.mul_le_mul_left k (by omega)) hn)
    · exact prunes_ends cs o.2 h.2 (le_trans (Nat.mul_le_mul_left k (by omega)) hn) p hp
end
end

end Verif.Proof
