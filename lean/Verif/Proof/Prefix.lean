import Verif.Spec.Prefix
import Mathlib.Tactic.Linarith
import Mathlib.Tactic.Ring

/-! # Reading back what was printed -/

namespace Verif.Proof.Prefix
open Verif Verif.Model Verif.Model.Smt2 Verif.Model.Prefix Verif.Spec Verif.Spec.Smt2
  Verif.Spec.Prefix

variable {N : Numerals} {name : Nat → String}

/-- The words are read as the term. -/
def Reads (N : Numerals) (ws : List Word) (t : STerm) : Prop :=
  1 ≤ ws.length ∧ ∀ n rest, ws.length ≤ n → parseT N n (ws ++ rest) = .ok (t, rest)

/-- The words are read as terms. -/
def ReadsL (N : Numerals) (ws : List Word) (ts : List STerm) : Prop :=
  ∀ n rest, ws.length + 1 ≤ n → parseL N n (ws ++ .rp :: rest) = .ok (ts, rest)

theorem readsL_nil : ReadsL N [] [] := by
  intro n rest h
  obtain ⟨n, rfl⟩ : ∃ m, n = m + 1 := ⟨n - 1, by simp at h; omega⟩
  simp [parseL]

/-- No term begins with a closing parenthesis. -/
theorem reads_front {ws : List Word} {t} (h : Reads N ws t) : ∃ w us, ws = w :: us ∧ w ≠ .rp := by
  obtain ⟨h1, h⟩ := h
  cases ws with
  | nil => simp at h1
  | cons w us =>
    refine ⟨w, us, rfl, ?_⟩
    rintro rfl
    have := h (us.length + 1) [] (by simp)
    simp [parseT] at this

theorem readsL_cons {ws us : List Word} {t ts} (h : Reads N ws t) (hs : ReadsL N us ts) :
    ReadsL N (ws ++ us) (t :: ts) := by
  intro n rest hn
  obtain ⟨n, rfl⟩ : ∃ m, n = m + 1 := ⟨n - 1, by omega⟩
  obtain ⟨w, vs, rfl, hw⟩ := reads_front h
  simp only [List.length_append, List.length_cons] at hn
  have h1 := h.2 n (us ++ .rp :: rest) (by simp only [List.length_cons]; omega)
  have h2 := hs n rest (by omega)
  rw [List.append_assoc]
  cases w with
  | rp => exact absurd rfl hw
  | lp => simp only [List.cons_append] at h1 ⊢; simp only [parseL, h1, h2]
  | num q => simp only [List.cons_append] at h1 ⊢; simp only [parseL, h1, h2]
  | txt s => simp only [List.cons_append] at h1 ⊢; simp only [parseL, h1, h2]

theorem readsL_one {ws : List Word} {t} (h : Reads N ws t) : ReadsL N ws [t] := by
  have := readsL_cons h readsL_nil
  simpa using this

theorem reads_app {s : String} {ws : List Word} {ts t} (h : ReadsL N ws ts)
    (ha : applyTok (scan s) ts = .ok t) : Reads N ([.lp, .txt s] ++ ws ++ [.rp]) t := by
  refine ⟨by simp, fun n rest hn => ?_⟩
  simp only [List.length_append, List.length_cons, List.length_nil] at hn
  obtain ⟨n, rfl⟩ : ∃ m, n = m + 1 := ⟨n - 1, by omega⟩
  have := h n rest (by omega)
  simp only [List.cons_append, List.nil_append, List.append_assoc] at this ⊢
  simp only [parseT, this, ha]

theorem reads_num {r : ℚ} {t} (h : lit N r = .ok t) : Reads N [.num r] t := by
  refine ⟨by simp, fun n rest hn => ?_⟩
  obtain ⟨n, rfl⟩ : ∃ m, n = m + 1 := ⟨n - 1, by simp at hn; omega⟩
  simp [parseT, h]

theorem reads_name {n : String} (h : IsName n) : Reads N [.txt n] (.sym n) := by
  refine ⟨by simp, fun k rest hn => ?_⟩
  obtain ⟨k, rfl⟩ : ∃ m, k = m + 1 := ⟨k - 1, by simp at hn; omega⟩
  have h : scan n = .sym n := h
  simp [parseT, h]

theorem lit_exact {q : ℚ} (h : Exact N q) : lit N (N.pr |q|) = .ok (.num |q|) := by
  obtain ⟨h1, h2, h3⟩ := h
  rw [h1, lit]
  split_ifs with h h'
  · rfl
  · exact absurd (h2 h) h'
  · rfl
  · exact absurd (h3 h) (by assumption)

theorem scan_ops : scan "+" = .plus ∧ scan "-" = .minus ∧ scan "*" = .times ∧ scan "ite" = .ite ∧
    scan "=" = .eq ∧ scan ">" = .rel .gt ∧ scan ">=" = .rel .ge ∧ scan "<" = .rel .lt ∧
    scan "<=" = .rel .le ∧ scan "and" = .and ∧ scan "or" = .or ∧ scan "not" = .not ∧
    scan "true" = .tru ∧ scan "false" = .fls ∧ scan "^" = .f2 .pow := by
  refine ⟨?_, ?_, ?_, ?_, ?_, ?_, ?_, ?_, ?_, ?_, ?_, ?_, ?_, ?_, ?_⟩ <;> rfl

theorem scan_fn1 (f : Fn1) : scan (fn1Name f) = .f1 f := by cases f <;> rfl

/-- A constant is read as a term with its value. -/
theorem reads_const {q : ℚ} (h : Exact N q) : ∃ t, Reads N (printConst N q) t ∧
    ∀ I E F, den I E F t = .num q := by
  have hl := reads_num (lit_exact h)
  unfold printConst
  split
  · rename_i h0
    rw [abs_of_nonneg h0] at hl
    exact ⟨_, hl, fun _ _ _ => rfl⟩
  · rename_i h0
    rw [abs_of_neg (not_le.mp h0)] at hl
    refine ⟨.neg (.num (-q)), reads_app (s := "-") (readsL_one hl) (by rw [scan_ops.2.1]; rfl), ?_⟩
    intro I E F
    simp [den, lift1]

/-- The names have the values of the variables. -/
structure Means (name : Nat → String) (V B : Nat → Prop) (x : Nat → ℝ) (p : Nat → Prop) (E : Names) :
    Prop where
  num : ∀ i, V i → E (name i) = .num (x i)
  tf : ∀ i, B i → E (name i) = .tf (p i)

variable {V B : Nat → Prop}

/-- Read as a term with the value `v`. -/
def Good (N : Numerals) (name : Nat → String) (V B : Nat → Prop) (ws : List Word)
    (v : Interp → (Nat → ℝ) → (Nat → Prop) → SVal) : Prop :=
  ∃ t, Reads N ws t ∧ ∀ I E F x p, (∀ a, I.f2 .pow a 1 = a) → Means name V B x p E →
    den I E F t = v I x p

/-- Values for each meaning of the symbols and of the variables. -/
abbrev Vals := Interp → (Nat → ℝ) → (Nat → Prop) → SVal

/-- Read as terms with the values `vs`. -/
def GoodL (N : Numerals) (name : Nat → String) (V B : Nat → Prop) (ws : List Word)
    (vs : List Vals) : Prop :=
  ∃ ts, ts.length = vs.length ∧ ReadsL N ws ts ∧ ∀ I E F x p, (∀ a, I.f2 .pow a 1 = a) →
    Means name V B x p E → dens I E F ts = vs.map fun v => v I x p

theorem goodL_nil : GoodL N name V B [] [] :=
  ⟨[], rfl, readsL_nil, fun _ _ _ _ _ _ _ => rfl⟩

theorem goodL_cons {ws us v vs} (h : Good N name V B ws v) (hs : GoodL N name V B us vs) :
    GoodL N name V B (ws ++ us) (v :: vs) := by
  obtain ⟨t, h1, h2⟩ := h
  obtain ⟨ts, hl, h3, h4⟩ := hs
  exact ⟨t :: ts, by simp [hl], readsL_cons h1 h3, fun I E F x p hI hm => by
    rw [dens, h2 I E F x p hI hm, h4 I E F x p hI hm]; rfl⟩

theorem goodL_one {ws v} (h : Good N name V B ws v) : GoodL N name V B ws [v] := by
  simpa using goodL_cons h goodL_nil

theorem good_const {q : ℚ} (h : Exact N q) :
    Good N name V B (printConst N q) fun _ _ _ => .num q := by
  obtain ⟨t, h1, h2⟩ := reads_const h
  exact ⟨t, h1, fun I E F _ _ _ _ => h2 I E F⟩

theorem good_congr {ws v v'} (h : Good N name V B ws v)
    (e : ∀ I x p, (∀ a, I.f2 .pow a 1 = a) → v I x p = v' I x p) : Good N name V B ws v' := by
  obtain ⟨t, h1, h2⟩ := h
  exact ⟨t, h1, fun I E F x p hI hm => (h2 I E F x p hI hm).trans (e I x p hI)⟩

/-- Applications of an operator to arguments. -/
theorem good_app {s : String} {ws vs} {v : Vals} (h : GoodL N name V B ws vs)
    (ha : ∀ ts : List STerm, ts.length = vs.length → ∃ t, applyTok (scan s) ts = .ok t ∧
      ∀ I E F x p, (∀ a, I.f2 .pow a 1 = a) → dens I E F ts = (vs.map fun v => v I x p) →
        den I E F t = v I x p) :
    Good N name V B ([.lp, .txt s] ++ ws ++ [.rp]) v := by
  obtain ⟨ts, hl, h1, h2⟩ := h
  obtain ⟨t, h3, h4⟩ := ha ts hl
  exact ⟨t, reads_app h1 h3, fun I E F x p hI hm => h4 I E F x p hI (h2 I E F x p hI hm)⟩

theorem good_app1 {s : String} {ws a} {v : Vals} (h : Good N name V B ws a) (g : STerm → STerm)
    (hs : ∀ t, applyTok (scan s) [t] = .ok (g t))
    (hv : ∀ I E F x p t, den I E F t = a I x p → den I E F (g t) = v I x p) :
    Good N name V B ([.lp, .txt s] ++ ws ++ [.rp]) v := by
  refine good_app (goodL_one h) fun ts hl => ?_
  match ts, hl with
  | [t], _ =>
    refine ⟨g t, hs t, fun I E F x p _ hd => hv I E F x p t ?_⟩
    simpa [dens] using hd

theorem good_app2 {s : String} {ws us a b} {v : Vals} (h : Good N name V B ws a)
    (h' : Good N name V B us b) (g : STerm → STerm → STerm)
    (hs : ∀ t u, applyTok (scan s) [t, u] = .ok (g t u))
    (hv : ∀ I E F x p t u, den I E F t = a I x p → den I E F u = b I x p →
      den I E F (g t u) = v I x p) :
    Good N name V B ([.lp, .txt s] ++ ws ++ us ++ [.rp]) v := by
  rw [List.append_assoc _ ws us]
  refine good_app (goodL_cons h (goodL_one h')) fun ts hl => ?_
  match ts, hl with
  | [t, u], _ =>
    refine ⟨g t u, hs t u, fun I E F x p _ hd => ?_⟩
    simp only [dens, List.map_cons, List.map_nil, List.cons.injEq, and_true] at hd
    exact hv I E F x p t u hd.1 hd.2

theorem good_app3 {s : String} {vs ws us c a b} {v : Vals} (h0 : Good N name V B vs c)
    (h : Good N name V B ws a) (h' : Good N name V B us b) (g : STerm → STerm → STerm → STerm)
    (hs : ∀ r t u, applyTok (scan s) [r, t, u] = .ok (g r t u))
    (hv : ∀ I E F x p r t u, den I E F r = c I x p → den I E F t = a I x p →
      den I E F u = b I x p → den I E F (g r t u) = v I x p) :
    Good N name V B ([.lp, .txt s] ++ vs ++ ws ++ us ++ [.rp]) v := by
  rw [List.append_assoc _ ws us, List.append_assoc _ vs]
  refine good_app (goodL_cons h0 (goodL_cons h (goodL_one h'))) fun ts hl => ?_
  match ts, hl with
  | [r, t, u], _ =>
    refine ⟨g r t u, hs r t u, fun I E F x p _ hd => ?_⟩
    simp only [dens, List.map_cons, List.map_nil, List.cons.injEq, and_true] at hd
    exact hv I E F x p r t u hd.1 hd.2.1 hd.2.2

/-- The numbers in a list of values are added. -/
theorem foldl_add (l : List ℝ) (a : ℝ) :
    (l.map SVal.num).foldl (lift2 (· + ·)) (.num a) = .num (a + l.sum) := by
  induction l generalizing a with
  | nil => simp
  | cons b l ih => simp only [List.map_cons, List.foldl_cons, lift2, ih, List.sum_cons]; congr 1; ring

theorem foldl_mul (l : List ℝ) (a : ℝ) :
    (l.map SVal.num).foldl (lift2 (· * ·)) (.num a) = .num (a * l.prod) := by
  induction l generalizing a with
  | nil => simp
  | cons b l ih => simp only [List.map_cons, List.foldl_cons, lift2, ih, List.prod_cons]; congr 1; ring

theorem foldl_and {α : Type _} (g : α → Prop) (l : List α) (a : Prop) :
    (l.map fun y => SVal.tf (g y)).foldl (liftP (· ∧ ·)) (.tf a) = .tf (a ∧ ∀ y ∈ l, g y) := by
  induction l generalizing a with
  | nil => simp
  | cons b l ih => simp [liftP, ih, and_assoc]

theorem foldl_or {α : Type _} (g : α → Prop) (l : List α) (a : Prop) :
    (l.map fun y => SVal.tf (g y)).foldl (liftP (· ∨ ·)) (.tf a) = .tf (a ∨ ∃ y ∈ l, g y) := by
  induction l generalizing a with
  | nil => simp
  | cons b l ih => simp [liftP, ih, or_assoc]

/-- Numbers for each meaning. -/
abbrev Nums := Interp → (Nat → ℝ) → (Nat → Prop) → ℝ
abbrev Tfs := Interp → (Nat → ℝ) → (Nat → Prop) → Prop

def toVals (a : Nums) : Vals := fun I x p => .num (a I x p)
def toVals' (a : Tfs) : Vals := fun I x p => .tf (a I x p)

theorem good_sum {ws} {as : List Nums} (h : GoodL N name V B ws (as.map toVals)) (h0 : as ≠ []) :
    Good N name V B ([.lp, .txt "+"] ++ ws ++ [.rp])
      fun I x p => .num (as.map fun a => a I x p).sum := by
  refine good_app h fun ts hl => ?_
  obtain ⟨a, as, rfl⟩ := List.exists_cons_of_ne_nil h0
  obtain ⟨t, ts, rfl⟩ : ∃ a l, ts = a :: l := by
    match ts, hl with
    | a :: l, _ => exact ⟨a, l, rfl⟩
  refine ⟨.add t ts, by rw [scan_ops.1]; rfl, fun I E F x p _ hd => ?_⟩
  simp only [dens, List.map_cons, List.cons.injEq] at hd
  have : dens I E F ts = (as.map fun a => a I x p).map SVal.num := by
    rw [hd.2]; simp [toVals]
  rw [den, this, hd.1, toVals, foldl_add]; simp

theorem good_prod {ws} {as : List Nums} (h : GoodL N name V B ws (as.map toVals))
    (h0 : 2 ≤ as.length) :
    Good N name V B ([.lp, .txt "*"] ++ ws ++ [.rp])
      fun I x p => .num (as.map fun a => a I x p).prod := by
  refine good_app h fun ts hl => ?_
  obtain ⟨a, b, as, rfl⟩ : ∃ a b l, as = a :: b :: l := by
    match as, h0 with
    | a :: b :: l, _ => exact ⟨a, b, l, rfl⟩
  obtain ⟨t, u, ts, rfl⟩ : ∃ a b l, ts = a :: b :: l := by
    match ts, hl with
    | a :: b :: l, _ => exact ⟨a, b, l, rfl⟩
  refine ⟨.mul t (u :: ts), by rw [scan_ops.2.2.1]; rfl, fun I E F x p _ hd => ?_⟩
  rw [dens, List.map_cons, List.map_cons, List.cons.injEq] at hd
  have : dens I E F (u :: ts) = ((b :: as).map fun a => a I x p).map SVal.num := by
    rw [hd.2]; simp [toVals]
  rw [den, this, hd.1, toVals, foldl_mul]; simp

theorem good_and {ws} {as : List Tfs} (h : GoodL N name V B ws (as.map toVals')) (h0 : as ≠ []) :
    Good N name V B ([.lp, .txt "and"] ++ ws ++ [.rp])
      fun I x p => .tf (∀ a ∈ as, a I x p) := by
  refine good_app h fun ts hl => ?_
  obtain ⟨a, as, rfl⟩ := List.exists_cons_of_ne_nil h0
  obtain ⟨t, ts, rfl⟩ : ∃ a l, ts = a :: l := by
    match ts, hl with
    | a :: l, _ => exact ⟨a, l, rfl⟩
  refine ⟨.and (t :: ts), by rw [scan_ops.2.2.2.2.2.2.2.2.2.1]; rfl, fun I E F x p _ hd => ?_⟩
  have : dens I E F (t :: ts) = (a :: as).map fun a => SVal.tf (a I x p) := by
    rw [hd]; simp [toVals']
  rw [den, this, foldl_and]; simp

theorem good_or {ws} {as : List Tfs} (h : GoodL N name V B ws (as.map toVals')) (h0 : as ≠ []) :
    Good N name V B ([.lp, .txt "or"] ++ ws ++ [.rp])
      fun I x p => .tf (∃ a ∈ as, a I x p) := by
  refine good_app h fun ts hl => ?_
  obtain ⟨a, as, rfl⟩ := List.exists_cons_of_ne_nil h0
  obtain ⟨t, ts, rfl⟩ : ∃ a l, ts = a :: l := by
    match ts, hl with
    | a :: l, _ => exact ⟨a, l, rfl⟩
  refine ⟨.or (t :: ts), by rw [scan_ops.2.2.2.2.2.2.2.2.2.2.1]; rfl, fun I E F x p _ hd => ?_⟩
  have : dens I E F (t :: ts) = (a :: as).map fun a => SVal.tf (a I x p) := by
    rw [hd]; simp [toVals']
  rw [den, this, foldl_or]; simp

theorem good_times {ws us} {a b : Nums} (h : Good N name V B ws (toVals a))
    (h' : Good N name V B us (toVals b)) :
    Good N name V B ([.lp, .txt "*"] ++ ws ++ us ++ [.rp])
      (toVals fun I x p => a I x p * b I x p) :=
  good_app2 h h' (fun t u => .mul t [u]) (fun t u => by rw [scan_ops.2.2.1]; rfl)
    fun I E F x p t u ht hu => by simp [den, dens, ht, hu, toVals, lift2]

/-- The terms of a sum, as numbers. -/
noncomputable def numsT : CTerms → List Nums
  | .nil => []
  | .cons e q ts => (fun I x p => q * cval I x p e) :: numsT ts
/-- The factors of a product. -/
noncomputable def numsG : CFactors → List Nums
  | .nil => []
  | .cons b e fs => (fun I x p => I.f2 .pow (cval I x p b) (cval I x p e)) :: numsG fs
def tfsL : FCells → List Tfs
  | .nil => []
  | .cons f fs => (fun I x p => ctrue I x p f) :: tfsL fs

theorem numsT_sum (I x p) : ∀ ts, ((numsT ts).map fun a => a I x p).sum = cvalT I x p ts
  | .nil => by simp [numsT, cvalT]
  | .cons e q ts => by simp [numsT, cvalT, numsT_sum I x p ts]
theorem numsG_prod (I x p) : ∀ fs, ((numsG fs).map fun a => a I x p).prod = cvalG I x p fs
  | .nil => by simp [numsG, cvalG]
  | .cons b e fs => by simp [numsG, cvalG, numsG_prod I x p fs]
theorem tfsL_all (I x p) : ∀ fs, (∀ a ∈ tfsL fs, a I x p) ↔ ctrueAll I x p fs
  | .nil => by simp [tfsL, ctrueAll]
  | .cons f fs => by simp [tfsL, ctrueAll, tfsL_all I x p fs]
theorem tfsL_any (I x p) : ∀ fs, (∃ a ∈ tfsL fs, a I x p) ↔ ctrueAny I x p fs
  | .nil => by simp [tfsL, ctrueAny]
  | .cons f fs => by simp [tfsL, ctrueAny, tfsL_any I x p fs]

theorem good_fn2 {f : Fn2} {ws us} {a b : Nums} (h : Good N name V B ws (toVals a))
    (h' : Good N name V B us (toVals b)) :
    Good N name V B ([.lp, .txt (fn2Name f)] ++ ws ++ us ++ [.rp])
      (toVals fun I x p => I.f2 f (a I x p) (b I x p)) := by
  cases f with
  | div =>
    exact good_app2 (s := "/") h h' (fun t u => .div t [u]) (fun t u => rfl)
      fun I E F x p t u ht hu => by simp [den, dens, ht, hu, toVals, lift2]
  | pow =>
    exact good_app2 (s := "^") h h' (fun t u => .fn2 .pow t u) (fun t u => rfl)
      fun I E F x p t u ht hu => by simp [den, ht, hu, toVals, lift2]
  | atan2 =>
    exact good_app2 (s := "atan2") h h' (fun t u => .fn2 .atan2 t u) (fun t u => rfl)
      fun I E F x p t u ht hu => by simp [den, ht, hu, toVals, lift2]
  | min =>
    exact good_app2 (s := "min") h h' (fun t u => .fn2 .min t u) (fun t u => rfl)
      fun I E F x p t u ht hu => by simp [den, ht, hu, toVals, lift2]
  | max =>
    exact good_app2 (s := "max") h h' (fun t u => .fn2 .max t u) (fun t u => rfl)
      fun I E F x p t u ht hu => by simp [den, ht, hu, toVals, lift2]

theorem good_rel {s : String} {ws us} {a b : Nums} {o : SRel} {op : RelOp}
    (h : Good N name V B ws (toVals a)) (h' : Good N name V B us (toVals b))
    (hs : scan s = .rel o) (ho : ∀ x y, relOf o x y ↔ relSem op x y) :
    Good N name V B ([.lp, .txt s] ++ ws ++ us ++ [.rp])
      (toVals' fun I x p => relSem op (a I x p) (b I x p)) :=
  good_app2 h h' (fun t u => .rel o t u) (fun t u => by rw [hs]; rfl)
    fun I E F x p t u ht hu => by simp [den, ht, hu, toVals, toVals', liftR, ho]

theorem good_eq {ws us} {a b : Nums} (h : Good N name V B ws (toVals a))
    (h' : Good N name V B us (toVals b)) :
    Good N name V B ([.lp, .txt "="] ++ ws ++ us ++ [.rp])
      (toVals' fun I x p => a I x p = b I x p) :=
  good_app2 h h' (fun t u => .eq t u) (fun t u => by rw [scan_ops.2.2.2.2.1]; rfl)
    fun I E F x p t u ht hu => by simp [den, ht, hu, toVals, toVals', eqV]

theorem good_not {ws} {a : Tfs} (h : Good N name V B ws (toVals' a)) :
    Good N name V B ([.lp, .txt "not"] ++ ws ++ [.rp]) (toVals' fun I x p => ¬ a I x p) :=
  good_app1 h .not (fun t => by rw [scan_ops.2.2.2.2.2.2.2.2.2.2.2.1]; rfl)
    fun I E F x p t ht => by simp [den, ht, toVals', notV]

theorem bindO_ok' {α β} {x : Outcome α} {f : α → Outcome β} {b} (h : (x >>= f) = .ok b) :
    ∃ a, x = .ok a ∧ f a = .ok b := by
  cases x with
  | ok a => exact ⟨a, rfl, h⟩
  | throw => cases h
  | ub => cases h

mutual
theorem printE_good (hV : ∀ i, V i → IsName (name i)) (hB : ∀ i, B i → IsName (name i)) :
    ∀ (c : Cell), OkC (Exact N) V B c → ∃ ws, printE N name c = .ok ws ∧
      Good N name V B ws (toVals fun I x p => cval I x p c)
  | .const q, h => ⟨_, rfl, good_congr (good_const h) fun I x p _ => by simp [toVals, cval]⟩
  | .var i, h => ⟨_, rfl, .sym (name i), reads_name (hV i h), fun I E F x p _ hm => by
      simp [den, toVals, cval, hm.num i h]⟩
  | .add c ts, h => by
    obtain ⟨h1, h2, h3⟩ := h
    obtain ⟨ws, hw, hg⟩ := printT_good hV hB ts h3
    refine ⟨_, by rw [printE, hw]; rfl, ?_⟩
    have hne : numsT ts ≠ [] := by cases ts <;> simp [numsT] at h2 ⊢
    split
    · have := good_sum (as := (fun _ _ _ => (c : ℝ)) :: numsT ts) (goodL_cons (good_const h1) hg)
        (by simp)
      rw [List.append_assoc [Word.lp, Word.txt "+"]]
      refine good_congr this fun I x p _ => ?_
      simp [toVals, cval, numsT_sum]
    · rename_i hc
      push Not at hc
      have := good_sum hg hne
      simp only [List.append_nil]
      refine good_congr this fun I x p _ => ?_
      simp [toVals, cval, numsT_sum, hc]
  | .mul c fs, h => by
    obtain ⟨h1, h2, h3, h4⟩ := h
    obtain ⟨ws, hw, hg⟩ := printG_good hV hB fs h4
    refine ⟨_, by rw [printE, hw]; rfl, ?_⟩
    split
    · have := good_prod (as := (fun _ _ _ => (c : ℝ)) :: numsG fs) (goodL_cons (good_const h1) hg)
        (by cases fs <;> simp [numsG] at h2 ⊢)
      rw [List.append_assoc [Word.lp, Word.txt "*"]]
      refine good_congr this fun I x p _ => ?_
      simp [toVals, cval, numsG_prod]
    · rename_i hc
      push Not at hc
      have hl : 2 ≤ (numsG fs).length := by
        match fs, h2, h3 hc with
        | .cons b e .nil, _, h => exact absurd rfl (h b e)
        | .cons b e (.cons b' e' fs), _, _ => simp [numsG]
      have := good_prod hg hl
      simp only [List.append_nil]
      refine good_congr this fun I x p _ => ?_
      simp [toVals, cval, numsG_prod, hc]
  | .un f e, h => by
    obtain ⟨ws, hw, hg⟩ := printE_good hV hB e h
    refine ⟨_, by rw [printE, hw]; rfl, ?_⟩
    exact good_app1 hg (.fn1 f) (fun t => by rw [scan_fn1]; rfl)
      fun I E F x p t ht => by simp [den, ht, toVals, lift1, cval]
  | .bin f a b, h => by
    obtain ⟨ws, hw, hg⟩ := printE_good hV hB a h.1
    obtain ⟨us, hu, hg'⟩ := printE_good hV hB b h.2
    refine ⟨_, by rw [printE, hw, hu]; rfl, ?_⟩
    simpa only [cval] using good_fn2 hg hg'
  | .ite c a b, h => by
    obtain ⟨vs, hv, hg0⟩ := printF_good hV hB c h.1
    obtain ⟨ws, hw, hg⟩ := printE_good hV hB a h.2.1
    obtain ⟨us, hu, hg'⟩ := printE_good hV hB b h.2.2
    refine ⟨_, by rw [printE, hv, hw, hu]; rfl, ?_⟩
    exact good_app3 hg0 hg hg' .ite (fun r t u => by rw [scan_ops.2.2.2.1]; rfl)
      fun I E F x p r t u hr ht hu => by simp [den, hr, ht, hu, toVals, toVals', iteV, cval]
  | .rconst .., h => absurd h id
  | .nan, h => absurd h id
  | .uf .., h => absurd h id
theorem printT_good (hV : ∀ i, V i → IsName (name i)) (hB : ∀ i, B i → IsName (name i)) :
    ∀ (ts : CTerms), OkT (Exact N) V B ts → ∃ ws, printT N name ts = .ok ws ∧
      GoodL N name V B ws ((numsT ts).map toVals)
  | .nil, _ => ⟨_, rfl, goodL_nil⟩
  | .cons e q ts, h => by
    obtain ⟨ws, hw, hg⟩ := printE_good hV hB e h.1
    obtain ⟨us, hu, hg'⟩ := printT_good hV hB ts h.2.2
    refine ⟨_, by rw [printT, hw, hu]; rfl, goodL_cons ?_ hg'⟩
    split
    · rename_i hq
      subst hq
      exact good_congr hg fun I x p _ => by simp [toVals]
    · exact good_times (a := fun _ _ _ => (q : ℝ)) (good_const h.2.1) hg
theorem printG_good (hV : ∀ i, V i → IsName (name i)) (hB : ∀ i, B i → IsName (name i)) :
    ∀ (fs : CFactors), OkG (Exact N) V B fs → ∃ ws, printG N name fs = .ok ws ∧
      GoodL N name V B ws ((numsG fs).map toVals)
  | .nil, _ => ⟨_, rfl, goodL_nil⟩
  | .cons b e fs, h => by
    obtain ⟨ws, hw, hg⟩ := printE_good hV hB b h.1
    obtain ⟨vs, hv, hg1⟩ := printE_good hV hB e h.2.1
    obtain ⟨us, hu, hg'⟩ := printG_good hV hB fs h.2.2
    by_cases h1 : isOne e = true
    · refine ⟨_, by simp only [printG, hw, hu, h1, if_true, Outcome.bind_ok]; rfl, goodL_cons ?_ hg'⟩
      obtain ⟨q, rfl⟩ : ∃ q, e = .const q := by cases e <;> simp [isOne] at h1 ⊢
      have : q = 1 := by simpa [isOne] using h1
      subst this
      exact good_congr hg fun I x p hI => by simp [toVals, cval, hI]
    · refine ⟨_, by simp only [printG, hw, hu, hv, if_neg h1, Outcome.bind_ok]; rfl, ?_⟩
      exact goodL_cons (good_fn2 (f := .pow) hg hg1) hg'
theorem printF_good (hV : ∀ i, V i → IsName (name i)) (hB : ∀ i, B i → IsName (name i)) :
    ∀ (f : FCell), OkF (Exact N) V B f → ∃ ws, printF N name f = .ok ws ∧
      Good N name V B ws (toVals' fun I x p => ctrue I x p f)
  | .ff, _ => by
    refine ⟨_, rfl, .fls, ⟨by simp, fun n rest hn => ?_⟩, fun I E F x p _ _ => by
      simp [den, toVals', ctrue]⟩
    obtain ⟨n, rfl⟩ : ∃ m, n = m + 1 := ⟨n - 1, by simp at hn; omega⟩
    simp [parseT, scan_ops]
  | .tt, _ => by
    refine ⟨_, rfl, .tru, ⟨by simp, fun n rest hn => ?_⟩, fun I E F x p _ _ => by
      simp [den, toVals', ctrue]⟩
    obtain ⟨n, rfl⟩ : ∃ m, n = m + 1 := ⟨n - 1, by simp at hn; omega⟩
    simp [parseT, scan_ops]
  | .var i, h => ⟨_, rfl, .sym (name i), reads_name (hB i h), fun I E F x p _ hm => by
      simp [den, toVals', ctrue, hm.tf i h]⟩
  | .rel op a b, h => by
    obtain ⟨ws, hw, hg⟩ := printE_good hV hB a h.1
    obtain ⟨us, hu, hg'⟩ := printE_good hV hB b h.2
    cases op with
    | eq =>
      refine ⟨_, by rw [printF, hw, hu]; rfl, ?_⟩
      simpa only [ctrue, relSem] using good_eq hg hg'
    | neq =>
      refine ⟨_, by rw [printF, hw, hu]; rfl, ?_⟩
      have := good_not (good_eq hg hg')
      simp only [List.append_assoc, List.cons_append, List.nil_append] at this ⊢
      simpa only [ctrue, relSem] using this
    | gt =>
      refine ⟨_, by rw [printF, hw, hu]; rfl, ?_⟩
      simpa only [ctrue] using good_rel hg hg' scan_ops.2.2.2.2.2.1 fun x y => Iff.rfl
    | geq =>
      refine ⟨_, by rw [printF, hw, hu]; rfl, ?_⟩
      simpa only [ctrue] using good_rel hg hg' scan_ops.2.2.2.2.2.2.1 fun x y => Iff.rfl
    | lt =>
      refine ⟨_, by rw [printF, hw, hu]; rfl, ?_⟩
      simpa only [ctrue] using good_rel hg hg' scan_ops.2.2.2.2.2.2.2.1 fun x y => Iff.rfl
    | leq =>
      refine ⟨_, by rw [printF, hw, hu]; rfl, ?_⟩
      simpa only [ctrue] using good_rel hg hg' scan_ops.2.2.2.2.2.2.2.2.1 fun x y => Iff.rfl
  | .conj fs, h => by
    obtain ⟨ws, hw, hg⟩ := printL_good hV hB fs h.2
    refine ⟨_, by rw [printF, hw]; rfl, ?_⟩
    refine good_congr (good_and hg (by have := h.1; cases fs <;> simp [tfsL] at this ⊢)) fun I x p _ => ?_
    simp only [toVals', ctrue, tfsL_all]
  | .disj fs, h => by
    obtain ⟨ws, hw, hg⟩ := printL_good hV hB fs h.2
    refine ⟨_, by rw [printF, hw]; rfl, ?_⟩
    refine good_congr (good_or hg (by have := h.1; cases fs <;> simp [tfsL] at this ⊢)) fun I x p _ => ?_
    simp only [toVals', ctrue, tfsL_any]
  | .neg f, h => by
    obtain ⟨ws, hw, hg⟩ := printF_good hV hB f h
    refine ⟨_, by rw [printF, hw]; rfl, ?_⟩
    simpa only [ctrue] using good_not hg
  | .all .., h => absurd h id
theorem printL_good (hV : ∀ i, V i → IsName (name i)) (hB : ∀ i, B i → IsName (name i)) :
    ∀ (fs : FCells), OkL (Exact N) V B fs → ∃ ws, printL N name fs = .ok ws ∧
      GoodL N name V B ws ((tfsL fs).map toVals')
  | .nil, _ => ⟨_, rfl, goodL_nil⟩
  | .cons f fs, h => by
    obtain ⟨ws, hw, hg⟩ := printF_good hV hB f h.1
    obtain ⟨us, hu, hg'⟩ := printL_good hV hB fs h.2
    exact ⟨_, by rw [printL, hw, hu]; rfl, goodL_cons hg hg'⟩
end

end Verif.Proof.Prefix
