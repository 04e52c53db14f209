import Verif.Model.Cells
import Mathlib.Data.List.Lex
import Mathlib.Data.Rat.Cast.Order
import Mathlib.Tactic.Linarith

/-!
# The order on cells is the lexicographic order of their codes
-/

namespace Verif.Proof
open Verif.Model

/-! ## Codes -/

/-- A list of numbers as tokens: every item is preceded by `1`, the end is `0`. -/
def codeN : List Nat → List ℚ
  | [] => [0]
  | i :: is => 1 :: (i : ℚ) :: codeN is

mutual
def codeC : Cell → List ℚ
  | .const q => [0, q]
  | .rconst l u f => [1, rcValue l u f]
  | .var i => [2, (i : ℚ)]
  | .add c ts => 3 :: c :: codeT ts
  | .mul c fs => 4 :: c :: codeG fs
  | .un f e => (f.kind : ℚ) :: codeC e
  | .bin f a b => (f.kind : ℚ) :: (codeC a ++ codeC b)
  | .ite c a b => 23 :: (codeF c ++ (codeC a ++ codeC b))
  | .nan => [24]
  | .uf n vs => 25 :: (codeN n ++ codeN vs)
def codeT : CTerms → List ℚ
  | .nil => [0]
  | .cons e q ts => 1 :: (codeC e ++ (q :: codeT ts))
def codeG : CFactors → List ℚ
  | .nil => [0]
  | .cons b e fs => 1 :: (codeC b ++ (codeC e ++ codeG fs))
def codeF : FCell → List ℚ
  | .ff => [0]
  | .tt => [1]
  | .var i => [2, (i : ℚ)]
  | .rel op a b => (op.kind : ℚ) :: (codeC a ++ codeC b)
  | .conj fs => 9 :: codeL fs
  | .disj fs => 10 :: codeL fs
  | .neg f => 11 :: codeF f
  | .all vs f => 12 :: (codeN vs ++ codeF f)
def codeL : FCells → List ℚ
  | .nil => [0]
  | .cons f fs => 1 :: (codeF f ++ codeL fs)
end

theorem codeC_head (a : Cell) : ∃ r, codeC a = (a.kind : ℚ) :: r := by
  cases a <;> simp [codeC, Cell.kind]

theorem codeF_head (f : FCell) : ∃ r, codeF f = (f.kind : ℚ) :: r := by
  cases f <;> simp [codeF, FCell.kind]

/-! ## Three-way comparisons -/

/-- `l` and `l'` decide the order of `x` and `y`, whatever follows them. -/
def Tri (l l' : Bool) (x y : List ℚ) : Prop :=
  (l = true ∧ l' = false ∧ ∀ s t, x ++ s < y ++ t) ∨
    (l = false ∧ l' = true ∧ ∀ s t, y ++ s < x ++ t) ∨ (l = false ∧ l' = false ∧ x = y)

theorem Tri.symm {l l' x y} (h : Tri l l' x y) : Tri l' l y x := by
  rcases h with ⟨a, b, c⟩ | ⟨a, b, c⟩ | ⟨a, b, c⟩
  · exact Or.inr (Or.inl ⟨b, a, c⟩)
  · exact Or.inl ⟨b, a, c⟩
  · exact Or.inr (Or.inr ⟨b, a, c.symm⟩)

theorem Tri.same (x : List ℚ) : Tri false false x x := Or.inr (Or.inr ⟨rfl, rfl, rfl⟩)

theorem Tri.lt {p q : ℚ} (h : p < q) (x y : List ℚ) : Tri true false (p :: x) (q :: y) :=
  Or.inl ⟨rfl, rfl, fun _ _ => by
    rw [List.cons_append, List.cons_append, List.cons_lt_cons_iff]; exact Or.inl h⟩

theorem Tri.gt {p q : ℚ} (h : q < p) (x y : List ℚ) : Tri false true (p :: x) (q :: y) :=
  (Tri.lt h y x).symm

theorem Tri.tok (p q : ℚ) : Tri (decide (p < q)) (decide (q < p)) [p] [q] := by
  rcases lt_trichotomy p q with h | h | h
  · simpa [h, h.not_gt] using Tri.lt h [] []
  · subst h; simpa using Tri.same [p]
  · simpa [h, h.not_gt] using Tri.gt h [] []

theorem append_lt {u v : List ℚ} (x : List ℚ) (h : u < v) : x ++ u < x ++ v := by
  induction x with
  | nil => exact h
  | cons a x ih =>
    rw [List.cons_append, List.cons_append, List.cons_lt_cons_iff]; exact Or.inr ⟨rfl, ih⟩

theorem Tri.seq {l l' m m' x y u v} (h : Tri l l' x y) (k : Tri m m' u v) :
    Tri (if l then true else if l' then false else m) (if l' then true else if l then false else m')
      (x ++ u) (y ++ v) := by
  rcases h with ⟨rfl, rfl, c⟩ | ⟨rfl, rfl, c⟩ | ⟨rfl, rfl, rfl⟩
  · exact Or.inl ⟨rfl, rfl, fun s t => by simpa using c (u ++ s) (v ++ t)⟩
  · exact Or.inr (Or.inl ⟨rfl, rfl, fun s t => by simpa using c (v ++ s) (u ++ t)⟩)
  · rcases k with ⟨rfl, rfl, d⟩ | ⟨rfl, rfl, d⟩ | ⟨rfl, rfl, rfl⟩
    · exact Or.inl ⟨rfl, rfl, fun s t => by simpa using append_lt x (d s t)⟩
    · exact Or.inr (Or.inl ⟨rfl, rfl, fun s t => by simpa using append_lt x (d s t)⟩)
    · exact Tri.same _

theorem Tri.pre {l l' x y} (p : ℚ) (h : Tri l l' x y) : Tri l l' (p :: x) (p :: y) := by
  simpa using (Tri.same [p]).seq h

theorem Tri.iff {l l' x y} (h : Tri l l' x y) : l = true ↔ x < y := by
  rcases h with ⟨rfl, rfl, c⟩ | ⟨rfl, rfl, c⟩ | ⟨rfl, rfl, rfl⟩
  · simpa using c [] []
  · have := c [] []
    simp only [List.append_nil] at this
    simpa using this.le
  · simp

theorem tri_nats (x y : List Nat) : Tri (lessNats x y) (lessNats y x) (codeN x) (codeN y) := by
  induction x generalizing y with
  | nil =>
    cases y with
    | nil => exact Tri.same _
    | cons j js => exact Tri.lt (by norm_num) _ _
  | cons i is ih =>
    cases y with
    | nil => exact Tri.gt (by norm_num) _ _
    | cons j js =>
      have := ((Tri.tok (i : ℚ) j).seq (ih js)).pre 1
      simpa [lessNats, codeN] using this

/-! ## Comparisons of cells -/

theorem pos_size :
    (∀ a : Cell, 0 < a.size) ∧ (∀ t : CTerms, 0 < t.size) ∧ (∀ g : CFactors, 0 < g.size) ∧
      (∀ f : FCell, 0 < f.size) ∧ ∀ l : FCells, 0 < l.size := by
  refine ⟨?_, ?_, ?_, ?_, ?_⟩ <;> intro x <;> cases x <;>
    simp [Cell.size, CTerms.size, CFactors.size, FCell.size, FCells.size]

/-- The statement proved by induction on the fuel. -/
def TriAll (n : Nat) : Prop :=
  (∀ a b : Cell, a.size + b.size ≤ n → Tri (lessC n a b) (lessC n b a) (codeC a) (codeC b)) ∧
  (∀ a b : CTerms, a.size + b.size ≤ n → Tri (lessTs n a b) (lessTs n b a) (codeT a) (codeT b)) ∧
  (∀ a b : CFactors, a.size + b.size ≤ n →
    Tri (lessFs n a b) (lessFs n b a) (codeG a) (codeG b)) ∧
  (∀ a b : FCell, a.size + b.size ≤ n → Tri (lessF n a b) (lessF n b a) (codeF a) (codeF b)) ∧
  (∀ a b : FCells, a.size + b.size ≤ n → Tri (lessL n a b) (lessL n b a) (codeL a) (codeL b))

theorem lessC_lt {n : Nat} {a b : Cell} (h : a.kind < b.kind) :
    lessC (n + 1) a b = true ∧ lessC (n + 1) b a = false := by
  constructor
  · unfold lessC; rw [if_pos h]
  · unfold lessC; rw [if_neg h.not_gt, if_pos h]

theorem lessF_lt {n : Nat} {a b : FCell} (h : a.kind < b.kind) :
    lessF (n + 1) a b = true ∧ lessF (n + 1) b a = false := by
  constructor
  · unfold lessF; rw [if_pos h]
  · unfold lessF; rw [if_neg h.not_gt, if_pos h]

theorem triC_step {n : Nat} (ih : TriAll n) (a b : Cell) (hs : a.size + b.size ≤ n + 1) :
    Tri (lessC (n + 1) a b) (lessC (n + 1) b a) (codeC a) (codeC b) := by
  obtain ⟨hC, hT, hG, hF, hL⟩ := ih
  rcases lt_trichotomy a.kind b.kind with h | h | h
  · obtain ⟨r, hr⟩ := codeC_head a
    obtain ⟨r', hr'⟩ := codeC_head b
    rw [hr, hr', (lessC_lt h).1, (lessC_lt h).2]
    exact Tri.lt (by exact_mod_cast h) _ _
  · have e : ∀ x y : Cell, x.kind = y.kind → ∀ r : Bool,
        (if x.kind < y.kind then true else if y.kind < x.kind then false else r) = r := by
      intro x y hk r; rw [hk]; simp
    unfold lessC
    rw [e _ _ h, e _ _ h.symm]
    cases a with
    | const p =>
      cases b with
      | const q => exact (Tri.tok p q).pre 0
      | un f _ => cases f <;> simp [Cell.kind, Fn1.kind] at h
      | bin f _ _ => cases f <;> simp [Cell.kind, Fn2.kind] at h
      | _ => simp [Cell.kind] at h
    | rconst l u f =>
      cases b with
      | rconst l' u' f' => exact (Tri.tok _ _).pre 1
      | un f _ => cases f <;> simp [Cell.kind, Fn1.kind] at h
      | bin f _ _ => cases f <;> simp [Cell.kind, Fn2.kind] at h
      | _ => simp [Cell.kind] at h
    | var i =>
      cases b with
      | var j => simpa [codeC, codeF] using (Tri.tok (i : ℚ) j).pre 2
      | un f _ => cases f <;> simp [Cell.kind, Fn1.kind] at h
      | bin f _ _ => cases f <;> simp [Cell.kind, Fn2.kind] at h
      | _ => simp [Cell.kind] at h
    | add c ts =>
      cases b with
      | add d us =>
        simp only [Cell.size] at hs
        simpa [codeC] using ((Tri.tok c d).seq (hT ts us (by omega))).pre 3
      | un f _ => cases f <;> simp [Cell.kind, Fn1.kind] at h
      | bin f _ _ => cases f <;> simp [Cell.kind, Fn2.kind] at h
      | _ => simp [Cell.kind] at h
    | mul c ts =>
      cases b with
      | mul d us =>
        simp only [Cell.size] at hs
        simpa [codeC] using ((Tri.tok c d).seq (hG ts us (by omega))).pre 4
      | un f _ => cases f <;> simp [Cell.kind, Fn1.kind] at h
      | bin f _ _ => cases f <;> simp [Cell.kind, Fn2.kind] at h
      | _ => simp [Cell.kind] at h
    | un f x =>
      cases b with
      | un g y =>
        simp only [Cell.size] at hs
        have hk : f.kind = g.kind := h
        simpa [codeC, hk] using (hC x y (by omega)).pre (g.kind : ℚ)
      | bin g _ _ => cases f <;> cases g <;> simp [Cell.kind, Fn1.kind, Fn2.kind] at h
      | _ => cases f <;> simp [Cell.kind, Fn1.kind] at h
    | bin f x y =>
      cases b with
      | bin g x' y' =>
        simp only [Cell.size] at hs
        have hk : f.kind = g.kind := h
        have := ((hC x x' (by omega)).seq (hC y y' (by omega))).pre (g.kind : ℚ)
        simpa [codeC, hk] using this
      | un g _ => cases f <;> cases g <;> simp [Cell.kind, Fn1.kind, Fn2.kind] at h
      | _ => cases f <;> simp [Cell.kind, Fn2.kind] at h
    | ite c x y =>
      cases b with
      | ite c' x' y' =>
        simp only [Cell.size] at hs
        have := ((hF c c' (by omega)).seq
          ((hC x x' (by omega)).seq (hC y y' (by omega)))).pre 23
        simpa [codeC] using this
      | un f _ => cases f <;> simp [Cell.kind, Fn1.kind] at h
      | bin f _ _ => cases f <;> simp [Cell.kind, Fn2.kind] at h
      | _ => simp [Cell.kind] at h
    | nan =>
      cases b with
      | nan => exact Tri.same _
      | un f _ => cases f <;> simp [Cell.kind, Fn1.kind] at h
      | bin f _ _ => cases f <;> simp [Cell.kind, Fn2.kind] at h
      | _ => simp [Cell.kind] at h
    | uf s vs =>
      cases b with
      | uf s' vs' => simpa [codeC] using ((tri_nats s s').seq (tri_nats vs vs')).pre 25
      | un f _ => cases f <;> simp [Cell.kind, Fn1.kind] at h
      | bin f _ _ => cases f <;> simp [Cell.kind, Fn2.kind] at h
      | _ => simp [Cell.kind] at h
  · obtain ⟨r, hr⟩ := codeC_head a
    obtain ⟨r', hr'⟩ := codeC_head b
    rw [hr, hr', (lessC_lt h).1, (lessC_lt h).2]
    exact Tri.gt (by exact_mod_cast h) _ _

theorem triF_step {n : Nat} (ih : TriAll n) (a b : FCell) (hs : a.size + b.size ≤ n + 1) :
    Tri (lessF (n + 1) a b) (lessF (n + 1) b a) (codeF a) (codeF b) := by
  obtain ⟨hC, hT, hG, hF, hL⟩ := ih
  rcases lt_trichotomy a.kind b.kind with h | h | h
  · obtain ⟨r, hr⟩ := codeF_head a
    obtain ⟨r', hr'⟩ := codeF_head b
    rw [hr, hr', (lessF_lt h).1, (lessF_lt h).2]
    exact Tri.lt (by exact_mod_cast h) _ _
  · have e : ∀ x y : FCell, x.kind = y.kind → ∀ r : Bool,
        (if x.kind < y.kind then true else if y.kind < x.kind then false else r) = r := by
      intro x y hk r; rw [hk]; simp
    unfold lessF
    rw [e _ _ h, e _ _ h.symm]
    cases a with
    | ff =>
      cases b with
      | ff => exact Tri.same _
      | rel op _ _ => cases op <;> simp [FCell.kind, RelOp.kind] at h
      | _ => simp [FCell.kind] at h
    | tt =>
      cases b with
      | tt => exact Tri.same _
      | rel op _ _ => cases op <;> simp [FCell.kind, RelOp.kind] at h
      | _ => simp [FCell.kind] at h
    | var i =>
      cases b with
      | var j => simpa [codeC, codeF] using (Tri.tok (i : ℚ) j).pre 2
      | rel op _ _ => cases op <;> simp [FCell.kind, RelOp.kind] at h
      | _ => simp [FCell.kind] at h
    | rel f x y =>
      cases b with
      | rel g x' y' =>
        simp only [FCell.size] at hs
        have hk : f.kind = g.kind := h
        have := ((hC x x' (by omega)).seq (hC y y' (by omega))).pre (g.kind : ℚ)
        simpa [codeF, hk] using this
      | _ => cases f <;> simp [FCell.kind, RelOp.kind] at h
    | conj fs =>
      cases b with
      | conj gs =>
        simp only [FCell.size] at hs
        exact (hL fs gs (by omega)).pre 9
      | rel op _ _ => cases op <;> simp [FCell.kind, RelOp.kind] at h
      | _ => simp [FCell.kind] at h
    | disj fs =>
      cases b with
      | disj gs =>
        simp only [FCell.size] at hs
        exact (hL fs gs (by omega)).pre 10
      | rel op _ _ => cases op <;> simp [FCell.kind, RelOp.kind] at h
      | _ => simp [FCell.kind] at h
    | neg f =>
      cases b with
      | neg g =>
        simp only [FCell.size] at hs
        exact (hF f g (by omega)).pre 11
      | rel op _ _ => cases op <;> simp [FCell.kind, RelOp.kind] at h
      | _ => simp [FCell.kind] at h
    | all vs f =>
      cases b with
      | all ws g =>
        simp only [FCell.size] at hs
        exact ((tri_nats vs ws).seq (hF f g (by omega))).pre 12
      | rel op _ _ => cases op <;> simp [FCell.kind, RelOp.kind] at h
      | _ => simp [FCell.kind] at h
  · obtain ⟨r, hr⟩ := codeF_head a
    obtain ⟨r', hr'⟩ := codeF_head b
    rw [hr, hr', (lessF_lt h).1, (lessF_lt h).2]
    exact Tri.gt (by exact_mod_cast h) _ _

theorem tri_all (n : Nat) : TriAll n := by
  induction n with
  | zero =>
    obtain ⟨p1, p2, p3, p4, p5⟩ := pos_size
    refine ⟨?_, ?_, ?_, ?_, ?_⟩ <;> intro a b h
    · have := p1 a; omega
    · have := p2 a; omega
    · have := p3 a; omega
    · have := p4 a; omega
    · have := p5 a; omega
  | succ n ih =>
    refine ⟨triC_step ih, ?_, ?_, triF_step ih, ?_⟩
    · intro a b hs
      cases a with
      | nil =>
        cases b with
        | nil => exact Tri.same _
        | cons e q ts => exact Tri.lt (by norm_num) _ _
      | cons e q ts =>
        cases b with
        | nil => exact Tri.gt (by norm_num) _ _
        | cons e' q' us =>
          simp only [CTerms.size] at hs
          have := ((((ih.1 e e' (by omega)).seq (Tri.tok q q'))).seq
            (ih.2.1 ts us (by omega))).pre 1
          simpa [lessTs, codeT] using this
    · intro a b hs
      cases a with
      | nil =>
        cases b with
        | nil => exact Tri.same _
        | cons e q ts => exact Tri.lt (by norm_num) _ _
      | cons e q ts =>
        cases b with
        | nil => exact Tri.gt (by norm_num) _ _
        | cons e' q' us =>
          simp only [CFactors.size] at hs
          have := ((((ih.1 e e' (by omega)).seq (ih.1 q q' (by omega)))).seq
            (ih.2.2.1 ts us (by omega))).pre 1
          simpa [lessFs, codeG] using this
    · intro a b hs
      cases a with
      | nil =>
        cases b with
        | nil => exact Tri.same _
        | cons e ts => exact Tri.lt (by norm_num) _ _
      | cons e ts =>
        cases b with
        | nil => exact Tri.gt (by norm_num) _ _
        | cons e' us =>
          simp only [FCells.size] at hs
          have := ((ih.2.2.2.1 e e' (by omega)).seq (ih.2.2.2.2 ts us (by omega))).pre 1
          simpa [lessL, codeL] using this

/-- `Less` is the order of the codes. -/
theorem less_iff (a b : Cell) : a.less b = true ↔ codeC a < codeC b :=
  ((tri_all (a.size + b.size)).1 a b le_rfl).iff

theorem lessF_iff (f g : FCell) : f.less g = true ↔ codeF f < codeF g :=
  ((tri_all (f.size + g.size)).2.2.2.1 f g le_rfl).iff

end Verif.Proof
