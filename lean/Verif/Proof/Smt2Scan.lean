import Verif.Spec.Smt2Scan
import Verif.Proof.DrScan

/-! # The SMT-LIB scanner -/

namespace Verif.Proof.Smt2Scan
open Verif Verif.Model Verif.Model.Smt2 Verif.Model.Smt2Parse Verif.Model.Smt2Scan Verif.Spec.Smt2Scan
open Verif.Model.DrScan (Rx digit letter dot natRx decRx pointRx blankRx lineRx)
open Verif.Spec.DrScan (Matches Numeral Exponent)
open Verif.Proof.DrScan (m_eps m_cls m_seq m_alt m_star_cls m_plus_cls m_chr m_opt m_lit matches_iff
  blank_iff numeral_iff digit_iff letter_iff longer_split take_all drop_head eol eol_iff blankC blankC_iff
  char_ne)

/-! ## The longest match -/

theorem firstRule_none {w} : ∀ {rs}, firstRule w rs = none ↔ ∀ p ∈ rs, ¬ Matches p.1 w
  | [] => by simp [firstRule]
  | (r, a) :: rs => by
    rw [firstRule]
    split
    · rename_i h
      rw [matches_iff] at h
      simp [h]
    · rename_i h
      rw [matches_iff] at h
      simp [h, firstRule_none]

theorem firstRule_some {w a} : ∀ {rs}, firstRule w rs = some a ↔
    ∃ pre r post, rs = pre ++ (r, a) :: post ∧ Matches r w ∧ ∀ p ∈ pre, ¬ Matches p.1 w
  | [] => by simp [firstRule]
  | (r, b) :: rs => by
    rw [firstRule]
    split
    · rename_i h
      rw [matches_iff] at h
      constructor
      · intro he
        cases he
        exact ⟨[], r, rs, rfl, h, by simp⟩
      · rintro ⟨pre, r', post, he, h1, h2⟩
        cases pre with
        | nil => cases he; rfl
        | cons p pre =>
          cases he
          exact absurd h (h2 (r, b) (by simp))
    · rename_i h
      rw [matches_iff] at h
      rw [firstRule_some]
      constructor
      · rintro ⟨pre, r', post, rfl, h1, h2⟩
        refine ⟨(r, b) :: pre, r', post, rfl, h1, ?_⟩
        intro p hp
        rcases List.mem_cons.1 hp with rfl | hp
        · exact h
        · exact h2 p hp
      · rintro ⟨pre, r', post, he, h1, h2⟩
        cases pre with
        | nil => cases he; exact absurd h1 h
        | cons p pre =>
          cases he
          exact ⟨pre, r', post, rfl, h1, fun p hp => h2 p (by simp [hp])⟩

theorem munch_some {s k a} : ∀ {n}, n ≤ s.length → munch s n = some (k, a) →
    0 < k ∧ k ≤ n ∧ firstRule (s.take k) rules = some a ∧
      ∀ j, k < j → j ≤ n → firstRule (s.take j) rules = none
  | 0, _, h => by cases h
  | n + 1, hn, h => by
    rw [munch] at h
    split at h
    · rename_i b hb
      cases h
      exact ⟨by omega, le_refl _, hb, fun j h1 h2 => by omega⟩
    · rename_i hb
      obtain ⟨h1, h2, h3, h4⟩ := munch_some (by omega) h
      refine ⟨h1, by omega, h3, fun j hj hj' => ?_⟩
      rcases Nat.lt_or_ge n j with h | h
      · rw [show j = n + 1 by omega]; exact hb
      · exact h4 j hj h

theorem munch_of {s k a} (hk : 0 < k) (h : firstRule (s.take k) rules = some a) :
    ∀ {n}, k ≤ n → (∀ j, k < j → j ≤ n → firstRule (s.take j) rules = none) →
      munch s n = some (k, a)
  | 0, hn, _ => by omega
  | n + 1, hn, hj => by
    rw [munch]
    rcases Nat.lt_or_ge n k with h' | h'
    · obtain rfl : k = n + 1 := by omega
      rw [h]
    · rw [hj (n + 1) (by omega) le_rfl]
      exact munch_of hk h h' fun j h1 h2 => hj j h1 (by omega)

theorem munch_iff {s w a} :
    (∃ k, munch s s.length = some (k, a) ∧ w = s.take k) ↔ Longest s w a := by
  constructor
  · rintro ⟨k, h, rfl⟩
    obtain ⟨h1, h2, h3, h4⟩ := munch_some le_rfl h
    refine ⟨?_, List.take_prefix _ _, firstRule_some.1 h3, ?_⟩
    · intro h
      rcases List.take_eq_nil_iff.1 h with h | h
      · omega
      · subst h; simp at h2; omega
    · intro w' hw hl
      rw [List.length_take, min_eq_left h2] at hl
      have := h4 w'.length hl hw.length_le
      rw [← List.prefix_iff_eq_take.1 hw] at this
      exact firstRule_none.1 this
  · rintro ⟨h1, h2, h3, h4⟩
    have he := List.prefix_iff_eq_take.1 h2
    refine ⟨w.length, munch_of (List.length_pos_iff.2 h1) ?_ h2.length_le ?_, he⟩
    · rw [← he]; exact firstRule_some.2 h3
    · intro j hj hj'
      exact firstRule_none.2 (h4 _ (List.take_prefix _ _) (by rw [List.length_take]; omega))

theorem longest_of {w s a} (hn : w ≠ []) (h : firstRule w rules = some a)
    (hl : ∀ c s' x, s = c :: s' → x <+: s' → ∀ p ∈ rules, ¬ Matches p.1 (w ++ c :: x)) :
    Longest (w ++ s) w a where
  nonempty := hn
  prefix_ := List.prefix_append _ _
  rule := firstRule_some.1 h
  longest := by
    intro w' h1 h2
    obtain ⟨c, s', x, hs, rfl, hx⟩ := longer_split h1 h2
    exact hl c s' x hs hx

/-! ## Tokens -/

theorem strEnd_len : ∀ {w s x r}, strEnd w s = some (x, r) → r.length < s.length := by
  intro w s
  fun_induction strEnd w s with
  | case1 => intro x r h; cases h
  | case2 w s ih => intro x r h; have := ih h; simp; omega
  | case3 w s => intro x r h; cases h; simp
  | case4 w c s h1 h2 ih => intro x r h; have := ih h; simp; omega

theorem quotedEnd_len : ∀ {w s x r}, quotedEnd w s = some (x, r) → r.length < s.length := by
  intro w s
  fun_induction quotedEnd w s with
  | case1 => intro x r h; cases h
  | case2 w s => intro x r h; cases h; simp
  | case3 w s ih => intro x r h; have := ih h; simp; omega
  | case4 w c s h1 h2 ih => intro x r h; have := ih h; simp; omega

variable {hv : List Char → Option ℚ}

theorem run_len {w rest a ts r} (h : Act.run hv w rest a = some (ts, r)) : r.length ≤ rest.length := by
  cases a
  · cases h; exact le_rfl
  · cases h; exact le_rfl
  · unfold Act.run at h
    simp only at h
    split at h <;> cases h
    · exact le_rfl
    · simp
  · cases h; exact le_rfl
  · unfold Act.run at h
    simp only at h
    split at h <;> cases h
    · exact le_rfl
    · simp
  · cases h; exact le_rfl
  · cases h; exact le_rfl
  · obtain ⟨p, hp, h⟩ := Option.map_eq_some_iff.1 h
    cases h
    exact (strEnd_len hp).le
  · obtain ⟨p, hp, h⟩ := Option.map_eq_some_iff.1 h
    cases h
    exact (quotedEnd_len hp).le
  · unfold Act.run at h
    simp only at h
    split at h
    · cases h; exact le_rfl
    · cases h; exact le_rfl
    · cases h; exact le_rfl
    · cases h; exact le_rfl
    · cases h; exact le_rfl
    · split at h
      · cases h
      · cases h; exact le_rfl
    · cases h

theorem scanN_fuel : ∀ {n s}, s.length ≤ n → scanN hv n s = scan hv s := by
  have key : ∀ n m s, s.length ≤ n → s.length ≤ m → scanN hv n s = scanN hv m s := by
    intro n
    induction n with
    | zero =>
      intro m s h _
      obtain rfl : s = [] := List.length_eq_zero_iff.1 (by omega)
      simp [scanN]
    | succ n ih =>
      intro m s h h'
      match s, m with
      | [], m => simp [scanN]
      | c :: s, 0 => simp at h'
      | c :: s, m + 1 =>
        rw [scanN, scanN]
        split
        · rfl
        · rename_i k a hm
          obtain ⟨h1, h2, _⟩ := munch_some le_rfl hm
          split
          · rfl
          · rename_i ts r hr
            have hl := run_len hr
            rw [List.length_drop] at hl
            simp only [List.length_cons] at h h' hl
            rw [ih m] <;> omega
  intro n s h
  exact key _ _ _ h le_rfl

theorem scan_next {w rest a} (h : Longest (w ++ rest) w a) :
    scan hv (w ++ rest) =
      match a.run hv w rest with
      | none => []
      | some (ts, r) => ts ++ scan hv r := by
  obtain ⟨k, hm, hk⟩ := munch_iff.2 h
  have hlen : w.length = k := by
    obtain ⟨h1, h2, _⟩ := munch_some le_rfl hm
    rw [hk, List.length_take]; omega
  subst hlen
  obtain ⟨c, cs, hc⟩ := List.exists_cons_of_ne_nil
    (show w ++ rest ≠ [] from by simp [h.nonempty])
  have hl : (w ++ rest).length = cs.length + 1 := by rw [hc]; rfl
  have hr : rest.length ≤ cs.length := by
    have := List.length_pos_iff.2 h.nonempty
    rw [List.length_append] at hl
    omega
  unfold scan
  rw [hl, hc, scanN]
  rw [← hc, hm]
  simp only [List.take_left, List.drop_left]
  cases hrun : a.run hv w rest with
  | none => rfl
  | some p =>
    have := run_len (ts := p.1) (r := p.2) hrun
    simp only
    rw [scanN_fuel (by omega)]
    rfl

theorem scan_munches (c : Char) (s : List Char) : ∃ k a, munch (c :: s) (c :: s).length = some (k, a) := by
  have h1 : firstRule [c] rules ≠ none := by
    rw [Ne, firstRule_none]
    intro h
    by_cases hc : c = '\n'
    · exact h (lineRx, .skip) (by simp [rules]) (by subst hc; exact m_chr.2 rfl)
    · exact h (.cls dot, .char) (by simp [rules]) (.cls (by simpa [dot] using hc))
  have h2 : ∀ n, munch (c :: s) (n + 1) ≠ none := by
    intro n
    induction n with
    | zero =>
      rw [munch]
      simp only [Nat.zero_add, List.take_succ_cons, List.take_zero]
      split
      · simp
      · rename_i h; exact absurd h h1
    | succ n ih =>
      rw [munch]
      split
      · simp
      · exact ih
  obtain ⟨⟨k, a⟩, h⟩ := Option.ne_none_iff_exists'.1 (h2 s.length)
  exact ⟨k, a, h⟩

theorem scans_iff {s ts} : scan hv s = ts ↔ Scans hv s ts := by
  constructor
  · rintro rfl
    generalize hn : s.length = n
    induction n using Nat.strong_induction_on generalizing s with
    | _ n ih =>
      cases s with
      | nil => exact .nil
      | cons c s =>
        obtain ⟨k, a, hm⟩ := scan_munches c s
        obtain ⟨h1, h2, _⟩ := munch_some le_rfl hm
        have hL' : Longest ((c :: s).take k ++ (c :: s).drop k) ((c :: s).take k) a := by
          rw [List.take_append_drop]
          exact munch_iff.1 ⟨k, hm, rfl⟩
        have hr : ((c :: s).drop k).length < n := by
          rw [List.length_drop, ← hn]; omega
        rw [← List.take_append_drop k (c :: s)]
        generalize (c :: s).take k = w at *
        generalize (c :: s).drop k = rest at *
        rw [scan_next hL']
        split
        · rename_i ht
          exact .stop hL' ht
        · rename_i us r ht
          have := run_len ht
          exact .next hL' ht (ih r.length (by omega) rfl)
  · intro h
    induction h with
    | nil => rfl
    | next hL ht _ ih => rw [scan_next hL, ht]; simp only [ih]
    | stop hL ht => rw [scan_next hL, ht]

/-! ## What the rules match -/

theorem rules_cases {P : Rx → Prop} (h1 : P commentRx) (h2 : ∀ p ∈ strings, P (.lit p.1.toList))
    (h3 : P blankRx) (h4 : P lineRx) (h5 : P (signed natRx)) (h6 : P (signed decRx))
    (h7 : P (signed pointRx)) (h8 : P (signed hexRx)) (h9 : P symRx) (h10 : P (.seq (.chr ':') symRx))
    (h11 : P (.chr '"')) (h12 : P (.chr '|')) (h13 : P (.cls dot)) : ∀ p ∈ rules, P p.1 := by
  intro p hp
  unfold rules at hp
  rw [List.mem_append, List.mem_cons, List.mem_map] at hp
  rcases hp with (rfl | ⟨q, hq, rfl⟩) | hp
  · exact h1
  · exact h2 q hq
  · simp only [List.mem_cons, List.not_mem_nil, or_false] at hp
    rcases hp with rfl | rfl | rfl | rfl | rfl | rfl | rfl | rfl | rfl | rfl | rfl
    · exact h3
    · exact h4
    · exact h5
    · exact h6
    · exact h7
    · exact h8
    · exact h9
    · exact h10
    · exact h11
    · exact h12
    · exact h13

theorem comment_iff {w} : Matches commentRx w ↔ ∃ u v, w = ';' :: (u ++ v) ∧ '\n' ∉ u ∧ v ≠ [] ∧
    ∀ c ∈ v, c = '\n' ∨ c = '\r' := by
  unfold commentRx
  rw [m_seq]
  constructor
  · rintro ⟨x, y, rfl, h1, h2⟩
    obtain ⟨u, v, rfl, h3, h4⟩ := m_seq.1 h2
    rw [m_chr.1 h1]
    rw [m_star_cls] at h3
    rw [m_plus_cls] at h4
    exact ⟨u, v, rfl, fun h => by simpa [dot] using h3 _ h, h4.1, fun c hc => by simpa using h4.2 c hc⟩
  · rintro ⟨u, v, rfl, h1, h2, h3⟩
    refine ⟨[';'], u ++ v, rfl, m_chr.2 rfl, .seq (m_star_cls.2 fun c hc => ?_)
      (m_plus_cls.2 ⟨h2, fun c hc => by simpa using h3 c hc⟩)⟩
    have : c ≠ '\n' := by rintro rfl; exact h1 hc
    simpa [dot] using this

/-- All classes of the pattern are within `p`. -/
def Over (p : Char → Bool) : Rx → Prop
  | .void => True
  | .eps => True
  | .cls q => ∀ c, q c = true → p c = true
  | .seq r s => Over p r ∧ Over p s
  | .alt r s => Over p r ∧ Over p s
  | .star r => Over p r

theorem over_matches {p r w} (h : Matches r w) (ho : Over p r) : ∀ c ∈ w, p c = true := by
  induction h with
  | eps => simp
  | cls hc => intro c h; rw [List.mem_singleton.1 h]; exact ho _ hc
  | seq _ _ i1 i2 =>
    intro c hc
    rcases List.mem_append.1 hc with h | h
    · exact i1 ho.1 c h
    · exact i2 ho.2 c h
  | left _ i => exact i ho.1
  | right _ i => exact i ho.2
  | none => simp
  | more _ _ i1 i2 =>
    intro c hc
    rcases List.mem_append.1 hc with h | h
    · exact i1 ho c h
    · exact i2 ho c h

theorem sym_digit {c} (h : digit c = true) : symChar c = true := by simp [symChar, h]
theorem sym_begin {c} (h : symBegin c = true) : symChar c = true := by simp [symChar, h]

theorem sym_hex {c} (h : hexDigit c = true) : symChar c = true := by
  unfold hexDigit at h
  simp only [Bool.or_eq_true, Bool.and_eq_true, decide_eq_true_eq] at h
  rcases h with (h | h) | h
  · exact sym_digit h
  · refine sym_begin ?_
    have : letter c = true := by
      simp only [letter, Bool.or_eq_true, Bool.and_eq_true, decide_eq_true_eq]
      refine .inl ⟨h.1, ?_⟩
      have h2 := h.2
      simp only [Char.le_def, UInt32.le_iff_toNat_le] at h2 ⊢
      exact h2.trans (by decide)
    simp [symBegin, this]
  · refine sym_begin ?_
    have : letter c = true := by
      simp only [letter, Bool.or_eq_true, Bool.and_eq_true, decide_eq_true_eq]
      refine .inr ⟨h.1, ?_⟩
      have h2 := h.2
      simp only [Char.le_def, UInt32.le_iff_toNat_le] at h2 ⊢
      exact h2.trans (by decide)
    simp [symBegin, this]

theorem sym_nine {c : Char} (h : '1' ≤ c ∧ c ≤ '9') : symChar c = true :=
  sym_digit (Verif.Proof.DrScan.digit_nat h)

theorem sym_or {a b : Char} (ha : symChar a = true) (hb : symChar b = true) :
    ∀ c, (c == a || c == b) = true → symChar c = true := by
  intro c hc
  rcases (by simpa using hc : c = a ∨ c = b) with rfl | rfl <;> assumption

theorem sym_is {a : Char} (ha : symChar a = true) : ∀ c, (c == a) = true → symChar c = true := by
  intro c hc
  rw [beq_iff_eq] at hc
  rw [hc]; exact ha

theorem over_signed {r} (h : Over symChar r) : Over symChar (signed r) :=
  ⟨⟨sym_or (by decide) (by decide), trivial⟩, h⟩

theorem over_digit : Over symChar (.cls digit) := fun _ => sym_digit
theorem over_digits : Over symChar (.plus (.cls digit)) := ⟨over_digit, over_digit⟩

theorem over_nat : Over symChar natRx :=
  ⟨sym_is (by decide), fun _ h => sym_nine (by simpa using h), over_digit⟩

theorem over_dec : Over symChar decRx :=
  ⟨⟨over_digits, over_digit, ⟨sym_is (by decide), trivial⟩, over_digits⟩,
    ⟨sym_or (by decide) (by decide), ⟨sym_or (by decide) (by decide), trivial⟩, over_digits⟩, trivial⟩

theorem over_point : Over symChar pointRx := ⟨over_digits, over_digits, sym_is (by decide)⟩

theorem over_hexs : Over symChar (.plus (.cls hexDigit)) := ⟨fun _ => sym_hex, fun _ => sym_hex⟩

theorem over_hex : Over symChar hexRx :=
  ⟨sym_is (by decide), sym_or (by decide) (by decide),
    ⟨⟨over_hexs, sym_is (by decide), trivial⟩, fun _ => sym_hex, sym_is (by decide), over_hexs⟩,
    ⟨sym_or (by decide) (by decide), ⟨sym_or (by decide) (by decide), trivial⟩, over_digits⟩, trivial⟩

theorem over_sym : Over symChar symRx := ⟨fun _ => sym_begin, fun _ h => h⟩

theorem strings_chars : ∀ p ∈ strings, p.1.toList ≠ [] ∧ ∀ c ∈ p.1.toList, symChar c = true := by
  decide +kernel

/-- What any rule matches. -/
theorem rule_shape {w : List Char} : ∀ p ∈ rules, Matches p.1 w → Matches commentRx w ∨
    (∀ c ∈ w, blankC c = true) ∨ (∃ c, w = [c]) ∨
    (∃ c x, w = c :: x ∧ (symChar c = true ∨ c = ':') ∧ ∀ d ∈ x, symChar d = true) := by
  have all : ∀ r, Over symChar r → Matches r w → w ≠ [] →
      (∃ c x, w = c :: x ∧ (symChar c = true ∨ c = ':') ∧ ∀ d ∈ x, symChar d = true) := by
    intro r ho hm hn
    have := over_matches hm ho
    obtain ⟨c, x, rfl⟩ := List.exists_cons_of_ne_nil hn
    exact ⟨c, x, rfl, .inl (this c (by simp)), fun d hd => this d (by simp [hd])⟩
  have sg : ∀ r, Over symChar r → (∀ u, Matches r u → u ≠ []) → Matches (signed r) w →
      (∃ c x, w = c :: x ∧ (symChar c = true ∨ c = ':') ∧ ∀ d ∈ x, symChar d = true) := by
    intro r ho hr hm
    refine all _ (over_signed ho) hm ?_
    obtain ⟨u, v, rfl, -, h2⟩ := m_seq.1 hm
    have := hr v h2
    simp [this]
  have num : ∀ u, Numeral u → u ≠ [] := by
    intro u hu
    obtain ⟨c, cs, rfl, -⟩ := Verif.Proof.DrScan.numeral_head hu
    simp
  refine rules_cases (P := fun r => Matches r w → Matches commentRx w ∨
    (∀ c ∈ w, blankC c = true) ∨ (∃ c, w = [c]) ∨
    (∃ c x, w = c :: x ∧ (symChar c = true ∨ c = ':') ∧ ∀ d ∈ x, symChar d = true))
    ?_ ?_ ?_ ?_ ?_ ?_ ?_ ?_ ?_ ?_ ?_ ?_ ?_
  · exact .inl
  · intro p hp h
    rw [m_lit] at h
    subst h
    obtain ⟨h1, h2⟩ := strings_chars p hp
    obtain ⟨c, x, he⟩ := List.exists_cons_of_ne_nil h1
    rw [he] at h2 ⊢
    exact .inr (.inr (.inr ⟨c, x, rfl, .inl (h2 c (by simp)), fun d hd => h2 d (by simp [hd])⟩))
  · intro h
    exact .inr (.inl fun c hc => blankC_iff.2 ((blank_iff.1 h).2 c hc))
  · intro h
    exact .inr (.inr (.inl ⟨_, m_chr.1 h⟩))
  · exact fun h => .inr (.inr (.inr (sg _ over_nat (fun u hu => num u (numeral_iff.1 (.inl hu))) h)))
  · exact fun h => .inr (.inr (.inr (sg _ over_dec
      (fun u hu => num u (numeral_iff.1 (.inr (.inl hu)))) h)))
  · exact fun h => .inr (.inr (.inr (sg _ over_point
      (fun u hu => num u (numeral_iff.1 (.inr (.inr hu)))) h)))
  · refine fun h => .inr (.inr (.inr (sg _ over_hex (fun u hu => ?_) h)))
    obtain ⟨x, y, rfl, h1, -⟩ := m_seq.1 hu
    rw [m_chr.1 h1]; simp
  · intro h
    refine .inr (.inr (.inr (all _ over_sym h ?_)))
    obtain ⟨u, v, rfl, h1, -⟩ := m_seq.1 h
    obtain ⟨c, -, rfl⟩ := m_cls.1 h1
    simp
  · intro h
    obtain ⟨u, v, rfl, h1, h2⟩ := m_seq.1 h
    rw [m_chr.1 h1]
    exact .inr (.inr (.inr ⟨':', v, rfl, .inr rfl, over_matches h2 over_sym⟩))
  · intro h
    exact .inr (.inr (.inl ⟨_, m_chr.1 h⟩))
  · intro h
    exact .inr (.inr (.inl ⟨_, m_chr.1 h⟩))
  · intro h
    obtain ⟨c, -, hc⟩ := m_cls.1 h
    exact .inr (.inr (.inl ⟨c, hc⟩))

/-- What begins a token. -/
def Solid (c : Char) : Prop := c ≠ ';' ∧ blankC c = false ∧ c ≠ '\n'

theorem no_longer {d c : Char} {ds x : List Char} (hs : Solid d)
    (h : symChar d = true ∨ d = ':' → symChar c = false) :
    ∀ p ∈ rules, ¬ Matches p.1 (d :: (ds ++ c :: x)) := by
  intro p hp hm
  rcases rule_shape p hp hm with hc | hb | ⟨e, he⟩ | ⟨e, y, he, hd, hy⟩
  · obtain ⟨u, v, he, -⟩ := comment_iff.1 hc
    exact hs.1 (List.cons.inj he).1
  · have := hb d (by simp)
    rw [hs.2.1] at this
    cases this
  · simp at he
  · obtain ⟨rfl, rfl⟩ := List.cons.inj he
    have := hy c (by simp)
    rw [h hd] at this
    cases this

/-! ## The first rule -/

theorem signed_iff {r : Rx} {P : List Char → Prop} (hr : ∀ u, Matches r u ↔ P u) {w} :
    Matches (signed r) w ↔ Signed P w := by
  unfold signed Signed
  rw [m_seq]
  constructor
  · rintro ⟨u, v, rfl, h1, h2⟩
    refine ⟨u, v, rfl, ?_, (hr v).1 h2⟩
    rcases m_opt.1 h1 with h | h
    · obtain ⟨d, hd, rfl⟩ := m_cls.1 h
      simpa using hd
    · exact .inl h
  · rintro ⟨u, v, rfl, h1, h2⟩
    refine ⟨u, v, rfl, m_opt.2 ?_, (hr v).2 h2⟩
    rcases h1 with rfl | rfl | rfl
    · exact .inr rfl
    · exact .inl (.cls rfl)
    · exact .inl (.cls rfl)

theorem nat_iff {w} : Matches natRx w ↔ Nat' w := by
  unfold natRx Nat'
  rw [m_alt, m_chr, m_seq]
  refine or_congr Iff.rfl ?_
  constructor
  · rintro ⟨u, v, rfl, h1, h2⟩
    obtain ⟨c, hc, rfl⟩ := m_cls.1 h1
    have hc : '1' ≤ c ∧ c ≤ '9' := by simpa using hc
    refine ⟨c, v, rfl, Verif.Proof.DrScan.digit_nat hc, ?_, m_star_cls.1 h2⟩
    rintro rfl
    exact absurd hc (by decide)
  · rintro ⟨c, cs, rfl, hd, hn, h2⟩
    refine ⟨[c], cs, rfl, .cls ?_, m_star_cls.2 h2⟩
    have h0 : c.toNat ≠ 48 := fun h => hn (Char.toNat_inj.1 h)
    rw [digit_iff] at hd
    simp only [Bool.and_eq_true, decide_eq_true_eq, Char.le_def, UInt32.le_iff_toNat_le]
    constructor
    · show 49 ≤ c.toNat; omega
    · show c.toNat ≤ 57; omega

theorem hexp_iff {w} : Matches (.opt (.seq (.cls fun c => c == 'p' || c == 'P')
    (.seq (.opt (.cls fun c => c == '-' || c == '+')) (.plus (.cls digit))))) w ↔
    w = [] ∨ ∃ c sg ds, w = c :: (sg ++ ds) ∧ (c = 'p' ∨ c = 'P') ∧
      (sg = [] ∨ sg = ['-'] ∨ sg = ['+']) ∧ ds ≠ [] ∧ ∀ d ∈ ds, digit d = true := by
  rw [m_opt, or_comm]
  refine or_congr Iff.rfl ?_
  rw [m_seq]
  constructor
  · rintro ⟨u, v, rfl, h1, h2⟩
    obtain ⟨c, hc, rfl⟩ := m_cls.1 h1
    obtain ⟨sg, ds, rfl, h3, h4⟩ := m_seq.1 h2
    rw [m_plus_cls] at h4
    refine ⟨c, sg, ds, rfl, by simpa using hc, ?_, h4⟩
    rcases m_opt.1 h3 with h | h
    · obtain ⟨d, hd, rfl⟩ := m_cls.1 h
      simpa using hd
    · exact .inl h
  · rintro ⟨c, sg, ds, rfl, hc, hs, hd⟩
    refine ⟨[c], sg ++ ds, rfl, .cls (by simpa using hc), .seq (m_opt.2 ?_) (m_plus_cls.2 hd)⟩
    rcases hs with rfl | rfl | rfl
    · exact .inr rfl
    · exact .inl (.cls rfl)
    · exact .inl (.cls rfl)

theorem hex_iff {w} : Matches hexRx w ↔ Hex w := by
  unfold hexRx Hex
  constructor
  · intro h
    obtain ⟨z, v, rfl, h1, h⟩ := m_seq.1 h
    obtain ⟨x, v, rfl, h2, h⟩ := m_seq.1 h
    obtain ⟨m, ex, rfl, h3, h4⟩ := m_seq.1 h
    obtain ⟨x, hx, rfl⟩ := m_cls.1 h2
    rw [m_chr.1 h1]
    have hx : x = 'x' ∨ x = 'X' := by simpa using hx
    rw [hexp_iff] at h4
    rcases m_alt.1 h3 with h | h
    · obtain ⟨ip, pt, rfl, h5, h6⟩ := m_seq.1 h
      rw [m_plus_cls] at h5
      rcases m_opt.1 h6 with h | rfl
      · rw [m_chr.1 h]
        exact ⟨x, ip, [], ex, hx, h5.2, by simp, h4, .inr (.inl ⟨by simp, h5.1⟩)⟩
      · exact ⟨x, ip, [], ex, hx, h5.2, by simp, h4, .inl ⟨by simp, h5.1⟩⟩
    · obtain ⟨ip, r, rfl, h5, h6⟩ := m_seq.1 h
      obtain ⟨pt, fp, rfl, h7, h8⟩ := m_seq.1 h6
      rw [m_star_cls] at h5
      rw [m_plus_cls] at h8
      rw [m_chr.1 h7]
      exact ⟨x, ip, fp, ex, hx, h5, h8.2, h4, .inr (.inr ⟨by simp, h8.1⟩)⟩
  · rintro ⟨x, ip, fp, ex, hx, h1, h2, h3, h⟩
    have hx : Matches (.cls fun c => c == 'x' || c == 'X') [x] := .cls (by simpa using hx)
    have h0 : Matches (.chr '0') ['0'] := m_chr.2 rfl
    rcases h with ⟨rfl, h4⟩ | ⟨rfl, h4⟩ | ⟨rfl, h4⟩
    · rw [show '0' :: x :: (ip ++ ex) = ['0'] ++ ([x] ++ ((ip ++ []) ++ ex)) by simp]
      exact .seq h0 (.seq hx (.seq (.left (.seq (m_plus_cls.2 ⟨h4, h1⟩) (m_opt.2 (.inr rfl))))
        (hexp_iff.2 h3)))
    · rw [show '0' :: x :: (ip ++ '.' :: ex) = ['0'] ++ ([x] ++ ((ip ++ ['.']) ++ ex)) by simp]
      exact .seq h0 (.seq hx (.seq (.left (.seq (m_plus_cls.2 ⟨h4, h1⟩)
        (m_opt.2 (.inl (m_chr.2 rfl))))) (hexp_iff.2 h3)))
    · rw [show '0' :: x :: (ip ++ '.' :: (fp ++ ex)) =
        ['0'] ++ ([x] ++ ((ip ++ (['.'] ++ fp)) ++ ex)) by simp]
      exact .seq h0 (.seq hx (.seq (.right (.seq (m_star_cls.2 h1)
        (.seq (m_chr.2 rfl) (m_plus_cls.2 ⟨h4, h2⟩)))) (hexp_iff.2 h3)))

theorem sym_iff {w} : Matches symRx w ↔ Simple w := by
  unfold symRx
  rw [m_seq]
  constructor
  · rintro ⟨u, v, rfl, h1, h2⟩
    obtain ⟨c, hc, rfl⟩ := m_cls.1 h1
    exact ⟨c, v, rfl, hc, m_star_cls.1 h2⟩
  · rintro ⟨c, cs, rfl, h1, h2⟩
    exact ⟨[c], cs, rfl, .cls h1, m_star_cls.2 h2⟩

theorem signed_num_iff {w} : (Matches (signed natRx) w ∨ Matches (signed decRx) w ∨
    Matches (signed pointRx) w) ↔ Signed Numeral w := by
  rw [signed_iff (fun _ => Iff.rfl), signed_iff (fun _ => Iff.rfl), signed_iff (fun _ => Iff.rfl)]
  constructor
  · rintro (⟨sg, u, h1, h2, h3⟩ | ⟨sg, u, h1, h2, h3⟩ | ⟨sg, u, h1, h2, h3⟩)
    · exact ⟨sg, u, h1, h2, numeral_iff.1 (.inl h3)⟩
    · exact ⟨sg, u, h1, h2, numeral_iff.1 (.inr (.inl h3))⟩
    · exact ⟨sg, u, h1, h2, numeral_iff.1 (.inr (.inr h3))⟩
  · rintro ⟨sg, u, h1, h2, h3⟩
    rcases numeral_iff.2 h3 with h | h | h
    · exact .inl ⟨sg, u, h1, h2, h⟩
    · exact .inr (.inl ⟨sg, u, h1, h2, h⟩)
    · exact .inr (.inr ⟨sg, u, h1, h2, h⟩)

theorem strings_first : ∀ p ∈ strings, firstRule p.1.toList rules = some (.tok p.2) := by
  decide +kernel

theorem strings_num : ∀ p ∈ strings, (signed natRx).matches? p.1.toList = false ∧
    (signed decRx).matches? p.1.toList = false ∧ (signed pointRx).matches? p.1.toList = false ∧
    (signed hexRx).matches? p.1.toList = false := by decide +kernel

theorem symChar_solid {c} (h : symChar c = true) : Solid c := by
  simp only [symChar, symBegin, special, Bool.or_eq_true, decide_eq_true_eq] at h
  rcases h with (h | h) | h
  · rw [letter_iff] at h
    refine ⟨char_ne ?_, ?_, char_ne ?_⟩
    · show c.toNat ≠ 59; omega
    · refine Bool.eq_false_iff.2 fun hb => ?_
      rcases blankC_iff.1 hb with rfl | rfl | rfl <;> exact absurd h (by decide)
    · show c.toNat ≠ 10; omega
  · have : ∀ c ∈ "+-/*=%?!.$_~&^<>@".toList, c ≠ ';' ∧ blankC c = false ∧ c ≠ '\n' := by
      decide +kernel
    exact this c h
  · rw [digit_iff] at h
    refine ⟨char_ne ?_, ?_, char_ne ?_⟩
    · show c.toNat ≠ 59; omega
    · refine Bool.eq_false_iff.2 fun hb => ?_
      rcases blankC_iff.1 hb with rfl | rfl | rfl <;> exact absurd h (by decide)
    · show c.toNat ≠ 10; omega

theorem firstRule_append {w as} (h : ∀ p ∈ as, ¬ Matches p.1 w) (bs : List (Rx × Act)) :
    firstRule w (as ++ bs) = firstRule w bs := by
  induction as with
  | nil => rfl
  | cons p as ih =>
    obtain ⟨r, a⟩ := p
    rw [List.cons_append, firstRule, if_neg, ih fun p hp => h p (by simp [hp])]
    rw [matches_iff]
    exact h (r, a) (by simp)

theorem not_early {w d ds} (hw : w = d :: ds) (hs : Solid d) (hf : ∀ p ∈ strings, p.1.toList ≠ w) :
    firstRule w rules = firstRule w [(signed natRx, .int), (signed decRx, .dbl),
      (signed pointRx, .dbl), (signed hexRx, .hex), (symRx, .sym), (.seq (.chr ':') symRx, .key),
      (.chr '"', .str), (.chr '|', .quoted), (.cls dot, .char)] := by
  unfold rules
  rw [firstRule_append]
  · rw [firstRule, if_neg, firstRule, if_neg]
    · rw [matches_iff]
      intro h
      rw [hw] at h
      exact hs.2.2 (List.cons.inj (m_chr.1 h)).1
    · rw [matches_iff]
      intro h
      have := blankC_iff.2 ((blank_iff.1 h).2 d (by rw [hw]; simp))
      rw [hs.2.1] at this
      cases this
  · intro p hp
    rcases List.mem_cons.1 hp with rfl | hp
    · intro h
      obtain ⟨u, v, he, _⟩ := comment_iff.1 h
      rw [hw] at he
      exact hs.1 (List.cons.inj he).1
    · obtain ⟨q, hq, rfl⟩ := List.mem_map.1 hp
      exact fun h => hf q hq (m_lit.1 h).symm

theorem nmatch {r w} (h : ¬ Matches r w) : ¬ r.matches? w = true := by rwa [matches_iff]

/-- A match by symbol characters that is no fixed string. -/
theorem over_early {r w} (ho : Over symChar r) (hm : Matches r w) (hn : w ≠ [])
    (hf : ∀ p ∈ strings, r.matches? p.1.toList = false) :
    firstRule w rules = firstRule w [(signed natRx, .int), (signed decRx, .dbl),
      (signed pointRx, .dbl), (signed hexRx, .hex), (symRx, .sym), (.seq (.chr ':') symRx, .key),
      (.chr '"', .str), (.chr '|', .quoted), (.cls dot, .char)] := by
  obtain ⟨d, ds, hw⟩ := List.exists_cons_of_ne_nil hn
  refine not_early hw (symChar_solid (over_matches hm ho d (by rw [hw]; simp))) ?_
  intro p hp he
  have := hf p hp
  rw [he, (matches_iff _ _).2 hm] at this
  cases this

theorem signed_ne {P : List Char → Prop} (hP : ∀ u, P u → u ≠ []) {w} (h : Signed P w) : w ≠ [] := by
  obtain ⟨sg, u, rfl, -, h⟩ := h
  have := hP u h
  simp [this]

theorem nat_ne {u} (h : Nat' u) : u ≠ [] := by
  rcases h with rfl | ⟨c, cs, rfl, -⟩ <;> simp

theorem numeral_ne {u} (h : Numeral u) : u ≠ [] := by
  obtain ⟨c, cs, rfl, -⟩ := Verif.Proof.DrScan.numeral_head h
  simp

theorem hex_ne {u} (h : Hex u) : u ≠ [] := by
  obtain ⟨x, ip, fp, ex, -, -, -, -, ⟨rfl, -⟩ | ⟨rfl, -⟩ | ⟨rfl, -⟩⟩ := h <;> simp

theorem nat_first {w} (h : Signed Nat' w) : firstRule w rules = some .int := by
  have hm := (signed_iff (fun _ => nat_iff)).2 h
  rw [over_early (over_signed over_nat) hm (signed_ne (fun _ => nat_ne) h)
    fun p hp => (strings_num p hp).1]
  simp only [firstRule]
  rw [if_pos ((matches_iff _ _).2 hm)]

theorem dbl_first {w} (h : Signed Numeral w) (hn : ¬ Signed Nat' w) :
    firstRule w rules = some .dbl := by
  have h0 : ¬ Matches (signed natRx) w := fun h => hn ((signed_iff (fun _ => nat_iff)).1 h)
  have hne := signed_ne (fun _ => numeral_ne) h
  rcases signed_num_iff.2 h with h | h | h
  · exact absurd h h0
  · rw [over_early (over_signed over_dec) h hne fun p hp => (strings_num p hp).2.1]
    simp only [firstRule, if_neg (nmatch h0)]
    rw [if_pos ((matches_iff _ _).2 h)]
  · rw [over_early (over_signed over_point) h hne fun p hp => (strings_num p hp).2.2.1]
    simp only [firstRule, if_neg (nmatch h0)]
    rw [if_pos ((matches_iff _ _).2 h)]
    simp

theorem hex_no_num {w} (h : Signed Hex w) : ¬ Signed Numeral w := by
  rintro ⟨sg', u', he, hs', hn⟩
  have hx : 'x' ∈ w ∨ 'X' ∈ w := by
    obtain ⟨sg, u, rfl, -, x, ip, fp, ex, hx, -, -, -, ⟨rfl, -⟩ | ⟨rfl, -⟩ | ⟨rfl, -⟩⟩ := h <;>
      rcases hx with rfl | rfl <;> simp
  have hc : ∀ c ∈ w, c ≠ 'x' ∧ c ≠ 'X' := by
    subst he
    intro c hc
    rcases List.mem_append.1 hc with hc | hc
    · rcases hs' with rfl | rfl | rfl
      · cases hc
      · rw [List.mem_singleton.1 hc]; decide
      · rw [List.mem_singleton.1 hc]; decide
    · rcases Verif.Proof.DrScan.numeral_chars hn c hc with h | rfl | rfl | rfl | rfl | rfl
      · rw [digit_iff] at h
        exact ⟨char_ne (by show c.toNat ≠ 120; omega), char_ne (by show c.toNat ≠ 88; omega)⟩
      all_goals decide
  rcases hx with hx | hx
  · exact (hc _ hx).1 rfl
  · exact (hc _ hx).2 rfl

theorem no_num {w} (h : ¬ Signed Numeral w) : ¬ Matches (signed natRx) w ∧
    ¬ Matches (signed decRx) w ∧ ¬ Matches (signed pointRx) w :=
  ⟨fun h' => h (signed_num_iff.1 (.inl h')), fun h' => h (signed_num_iff.1 (.inr (.inl h'))),
    fun h' => h (signed_num_iff.1 (.inr (.inr h')))⟩

theorem hex_first {w} (h : Signed Hex w) : firstRule w rules = some .hex := by
  have hm := (signed_iff (fun _ => hex_iff)).2 h
  obtain ⟨h1, h2, h3⟩ := no_num (hex_no_num h)
  rw [over_early (over_signed over_hex) hm (signed_ne (fun _ => hex_ne) h)
    fun p hp => (strings_num p hp).2.2.2]
  simp only [firstRule, if_neg (nmatch h1), if_neg (nmatch h2), if_neg (nmatch h3)]
  rw [if_pos ((matches_iff _ _).2 hm)]

theorem simple_first {w} (h : Simple w) (hf : ∀ p ∈ strings, p.1.toList ≠ w)
    (hn : ¬ Signed Numeral w) (hx : ¬ Signed Hex w) : firstRule w rules = some .sym := by
  obtain ⟨h1, h2, h3⟩ := no_num hn
  have h4 : ¬ Matches (signed hexRx) w := fun h => hx ((signed_iff (fun _ => hex_iff)).1 h)
  obtain ⟨d, ds, hw, hd, -⟩ := id h
  rw [not_early hw (symChar_solid (sym_begin hd)) hf]
  simp only [firstRule, if_neg (nmatch h1), if_neg (nmatch h2), if_neg (nmatch h3),
    if_neg (nmatch h4)]
  rw [if_pos ((matches_iff _ _).2 (sym_iff.2 h))]

theorem not_over {r d ds} (ho : Over symChar r) (hd : symChar d = false) :
    ¬ Matches r (d :: ds) := by
  intro h
  have := over_matches h ho d (by simp)
  rw [hd] at this
  cases this

theorem not_string {d ds} (hd : symChar d = false) : ∀ p ∈ strings, p.1.toList ≠ d :: ds := by
  intro p hp he
  have := (strings_chars p hp).2 d (by rw [he]; simp)
  rw [hd] at this
  cases this

/-- What does not begin with a character of symbols. -/
theorem other_early {d ds} (hs : Solid d) (hd : symChar d = false) :
    firstRule (d :: ds) rules = firstRule (d :: ds) [(.seq (.chr ':') symRx, .key),
      (.chr '"', .str), (.chr '|', .quoted), (.cls dot, .char)] := by
  rw [not_early rfl hs (not_string hd)]
  rw [firstRule, if_neg (nmatch (not_over (over_signed over_nat) hd)),
    firstRule, if_neg (nmatch (not_over (over_signed over_dec) hd)),
    firstRule, if_neg (nmatch (not_over (over_signed over_point) hd)),
    firstRule, if_neg (nmatch (not_over (over_signed over_hex) hd)),
    firstRule, if_neg (nmatch (not_over over_sym hd))]

theorem key_first {w} (h : Simple w) : firstRule (':' :: w) rules = some .key := by
  have hm : Matches (.seq (.chr ':') symRx) (':' :: w) :=
    .seq (u := [':']) (m_chr.2 rfl) (sym_iff.2 h)
  rw [other_early (by unfold Solid; decide) (by decide), firstRule, if_pos ((matches_iff _ _).2 hm)]

theorem lone_first {d} (hs : Solid d) (hd : symChar d = false) (h1 : d ≠ '"') (h2 : d ≠ '|') :
    firstRule [d] rules = some .char := by
  rw [other_early hs hd, firstRule, if_neg, firstRule, if_neg, firstRule, if_neg, firstRule, if_pos]
  · rw [matches_iff]
    exact .cls (by simpa [dot] using hs.2.2)
  · rw [matches_iff]
    exact fun h => h2 (List.cons.inj (m_chr.1 h)).1
  · rw [matches_iff]
    exact fun h => h1 (List.cons.inj (m_chr.1 h)).1
  · rw [matches_iff]
    intro h
    obtain ⟨u, v, he, h1, h2⟩ := m_seq.1 h
    rw [m_chr.1 h1] at he
    obtain ⟨c, cs, rfl, -⟩ := sym_iff.1 h2
    simp at he

theorem strings_words : ∀ p ∈ strings, p.1 ∈ words p.2 := by decide +kernel

theorem words_strings {t : Tok} {s : String} (h : s ∈ words t) :
    ∃ p ∈ strings, p.1 = s ∧ p.2 = t := by
  refine ⟨(s, t), ?_, rfl, rfl⟩
  cases t with
  | fn1 f =>
    cases f <;> simp only [words, List.mem_cons, List.not_mem_nil, or_false] at h <;>
      (rcases h with rfl | rfl) <;> decide +kernel
  | fn2 f =>
    cases f <;> simp only [words, List.mem_cons, List.not_mem_nil, or_false] at h <;>
      (rcases h with rfl | rfl) <;> decide +kernel
  | rel f =>
    cases f <;> simp only [words, List.mem_cons, List.not_mem_nil, or_false] at h <;>
      subst h <;> decide +kernel
  | unused u =>
    rw [words] at h
    split at h
    · rename_i hu
      rw [List.mem_singleton] at h
      subst h
      have : ∀ u ∈ unusedWords, (u, Tok.unused u) ∈ strings := by decide +kernel
      exact this s hu
    · cases h
  | _ =>
    simp only [words, List.mem_cons, List.not_mem_nil, or_false] at h <;>
      (rcases h with rfl | rfl) <;> decide +kernel

theorem free_word {w : List Char} (h : ∀ p ∈ strings, p.1.toList ≠ w) (t : Tok) :
    ∀ s ∈ words t, s.toList ≠ w := by
  intro s hs
  obtain ⟨p, hp, rfl, _⟩ := words_strings hs
  exact h p hp

/-! ## Texts with tokens -/

theorem strEnd_body {s} (h : Body s) : ∀ {w rest}, (∀ c ∈ rest.head?, c ≠ '"') →
    strEnd w (s ++ '"' :: rest) = some (w ++ s ++ ['"'], rest) := by
  induction h with
  | nil =>
    intro w rest hr
    cases rest with
    | nil => simp [strEnd]
    | cons c rest =>
      have := hr c rfl
      rw [List.nil_append, List.append_nil, strEnd]
      rintro s he
      exact this (List.cons.inj he).1
  | @char c s hc _ ih =>
    intro w rest hr
    rw [List.cons_append, strEnd, ih hr]
    · simp
    · intro s' he; exact absurd he hc
    · exact hc
  | @quote s _ ih =>
    intro w rest hr
    rw [List.cons_append, List.cons_append, strEnd, ih hr]
    simp

theorem quotedEnd_body : ∀ {s w rest}, (∀ c ∈ s, c ≠ '|' ∧ c ≠ '\\') →
    quotedEnd w (s ++ '|' :: rest) = some (w ++ s ++ ['|'], rest)
  | [], w, rest, _ => by simp [quotedEnd]
  | c :: s, w, rest, h => by
    have hc := h c (by simp)
    rw [List.cons_append, quotedEnd, quotedEnd_body fun d hd => h d (by simp [hd])]
    · simp
    · exact hc.1
    · exact hc.2

theorem longest_solid {d ds s a} (hs : Solid d) (h : firstRule (d :: ds) rules = some a)
    (ha : ∀ c ∈ s.head?, symChar d = true ∨ d = ':' → symChar c = false) :
    Longest ((d :: ds) ++ s) (d :: ds) a := by
  refine longest_of (by simp) h ?_
  rintro c s' x rfl _
  exact no_longer hs (ha c rfl)

theorem simple_apart {d ds s} (ha : Apart (d :: ds) s) :
    ∀ c ∈ s.head?, symChar d = true ∨ d = ':' → symChar c = false := by
  intro c hc
  cases s with
  | nil => cases hc
  | cons e s =>
    cases hc
    exact ha.1 d rfl

theorem scan_simple {t w s a} (hw : ∃ d ds, w = d :: ds ∧ Solid d) (h1 : firstRule w rules = some a)
    (h2 : a.run hv w s = some ([t], s)) (ha : Apart w s) : scan hv (w ++ s) = t :: scan hv s := by
  obtain ⟨d, ds, rfl, hs⟩ := hw
  rw [scan_next (longest_solid hs h1 (simple_apart ha)), h2]
  rfl

theorem over_solid {r w} (ho : Over symChar r) (hm : Matches r w) (hn : w ≠ []) :
    ∃ d ds, w = d :: ds ∧ Solid d := by
  obtain ⟨d, ds, hw⟩ := List.exists_cons_of_ne_nil hn
  exact ⟨d, ds, hw, symChar_solid (over_matches hm ho d (by rw [hw]; simp))⟩

theorem scan_tok {t w s} (h : Writes hv t w) (ha : Apart w s) : scan hv (w ++ s) = t :: scan hv s := by
  have lone : ∀ (d : Char) (t : Tok), w = [d] → Solid d → symChar d = false → d ≠ '"' → d ≠ '|' →
      Act.run hv [d] s .char = some ([t], s) → scan hv (w ++ s) = t :: scan hv s := by
    intro d t hw h1 h2 h3 h4 h5
    subst hw
    exact scan_simple ⟨d, [], rfl, h1⟩ (lone_first h1 h2 h3 h4) h5 ha
  cases h with
  | fixed hww =>
    obtain ⟨p, hp, rfl, rfl⟩ := words_strings hww
    refine scan_simple ?_ (strings_first p hp) rfl ha
    obtain ⟨h1, h2⟩ := strings_chars p hp
    obtain ⟨d, ds, he⟩ := List.exists_cons_of_ne_nil h1
    exact ⟨d, ds, he, symChar_solid (h2 d (by rw [he]; simp))⟩
  | int h hz =>
    refine scan_simple (over_solid (over_signed over_nat) ((signed_iff (fun _ => nat_iff)).2 h)
      (signed_ne (fun _ => nat_ne) h)) (nat_first h) ?_ ha
    simp [Act.run, hz]
  | dbl h hn =>
    have hne := signed_ne (fun _ => numeral_ne) h
    refine scan_simple ?_ (dbl_first h hn) rfl ha
    rcases signed_num_iff.2 h with h | h | h
    · exact over_solid (over_signed over_nat) h hne
    · exact over_solid (over_signed over_dec) h hne
    · exact over_solid (over_signed over_point) h hne
  | hex h hq =>
    refine scan_simple (over_solid (over_signed over_hex) ((signed_iff (fun _ => hex_iff)).2 h)
      (signed_ne (fun _ => hex_ne) h)) (hex_first h) ?_ ha
    simp [Act.run, hq]
  | sym h hf hn hx =>
    obtain ⟨d, ds, rfl, hd, _⟩ := id h
    exact scan_simple ⟨d, ds, rfl, symChar_solid (sym_begin hd)⟩ (simple_first h
      (fun p hp => hf _ _ (strings_words p hp)) hn hx) rfl ha
  | @key w h => exact scan_simple ⟨':', w, rfl, by unfold Solid; decide⟩ (key_first h) rfl ha
  | @str b hb =>
    have hL := longest_solid (d := '"') (ds := []) (s := b ++ '"' :: s) (a := .str)
      (by unfold Solid; decide) (by decide +kernel) (fun c _ h => absurd h (by decide))
    have := scan_next (hv := hv) hL
    rw [show ['"'] ++ (b ++ '"' :: s) = '"' :: (b ++ ['"']) ++ s by simp] at this
    rw [this, Act.run, strEnd_body hb]
    · simp
    · intro c hc
      cases s with
      | nil => cases hc
      | cons e s => cases hc; exact ha.2 rfl
  | @quoted b hb =>
    have hL := longest_solid (d := '|') (ds := []) (s := b ++ '|' :: s) (a := .quoted)
      (by unfold Solid; decide) (by decide +kernel) (fun c _ h => absurd h (by decide))
    have := scan_next (hv := hv) hL
    rw [show ['|'] ++ (b ++ '|' :: s) = '|' :: (b ++ ['|']) ++ s by simp] at this
    rw [this, Act.run, quotedEnd_body hb]
    simp
  | lp => exact lone _ _ rfl (by unfold Solid; decide) (by decide) (by decide) (by decide) rfl
  | rp => exact lone _ _ rfl (by unfold Solid; decide) (by decide) (by decide) (by decide) rfl
  | lb => exact lone _ _ rfl (by unfold Solid; decide) (by decide) (by decide) (by decide) rfl
  | rb => exact lone _ _ rfl (by unfold Solid; decide) (by decide) (by decide) (by decide) rfl
  | comma => exact lone _ _ rfl (by unfold Solid; decide) (by decide) (by decide) (by decide) rfl

/-! ## Blanks and comments -/

theorem scan_line (s : List Char) : scan hv ('\n' :: s) = scan hv s := by
  have hL : Longest (['\n'] ++ s) ['\n'] .skip := by
    refine longest_of (by simp) (by decide +kernel) ?_
    intro c s' x _ _ p hp hm
    rcases rule_shape p hp hm with hc | hb | ⟨e, he⟩ | ⟨e, y, he, hd, hy⟩
    · obtain ⟨u, v, he, -⟩ := comment_iff.1 hc
      exact absurd (List.cons.inj he).1 (by decide)
    · exact absurd (hb '\n' (by simp)) (by decide)
    · simp at he
    · obtain ⟨rfl, -⟩ := List.cons.inj he
      exact absurd hd (by decide)
  have := scan_next (hv := hv) hL
  rw [List.singleton_append] at this
  rw [this]
  simp [Act.run]

theorem scan_blanks {b r : List Char} (hn : b ≠ []) (hb : ∀ c ∈ b, blankC c = true)
    (hr : ∀ c ∈ r.head?, blankC c = false) : scan hv (b ++ r) = scan hv r := by
  obtain ⟨d, ds, rfl⟩ := List.exists_cons_of_ne_nil hn
  have hd := blankC_iff.1 (hb d (by simp))
  have hfirst : firstRule (d :: ds) rules = some .skip := by
    unfold rules
    rw [firstRule_append, firstRule, if_pos]
    · rw [matches_iff, blank_iff]
      exact ⟨by simp, fun c hc => blankC_iff.1 (hb c hc)⟩
    · intro p hp
      rcases List.mem_cons.1 hp with rfl | hp
      · intro hm
        obtain ⟨u, v, he, _⟩ := comment_iff.1 hm
        have := (List.cons.inj he).1
        rcases hd with h | h | h <;> rw [h] at this <;> exact absurd this (by decide)
      · obtain ⟨q, hq, rfl⟩ := List.mem_map.1 hp
        intro hm
        refine not_string (ds := ds) ?_ q hq (m_lit.1 hm).symm
        rcases hd with rfl | rfl | rfl <;> decide
  have hL : Longest ((d :: ds) ++ r) (d :: ds) .skip := by
    refine longest_of hn hfirst ?_
    rintro c s' x rfl _ p hp hm
    rcases rule_shape p hp hm with hc | hb' | ⟨e, he⟩ | ⟨e, y, he, hd', hy⟩
    · obtain ⟨u, v, he, -⟩ := comment_iff.1 hc
      have := (List.cons.inj he).1
      rcases hd with h | h | h <;> rw [h] at this <;> exact absurd this (by decide)
    · have := hb' c (by simp)
      rw [hr c rfl] at this
      cases this
    · simp at he
    · obtain ⟨rfl, -⟩ := List.cons.inj he
      rcases hd with rfl | rfl | rfl <;> exact absurd hd' (by decide)
  rw [scan_next hL]
  simp [Act.run]

theorem scan_blank {c : Char} (h : c = ' ' ∨ c = '\t' ∨ c = '\r' ∨ c = '\n') (s : List Char) :
    scan hv (c :: s) = scan hv s := by
  by_cases hc : blankC c = true
  · have hs := List.takeWhile_append_dropWhile (p := blankC) (l := s)
    have h1 : scan hv (c :: s) = scan hv (s.dropWhile blankC) := by
      have := scan_blanks (hv := hv) (b := c :: s.takeWhile blankC) (r := s.dropWhile blankC)
        (by simp) (fun d hd => by
          rcases List.mem_cons.1 hd with rfl | hd
          · exact hc
          · exact take_all s d hd) (drop_head s)
      rwa [List.cons_append, hs] at this
    rw [h1]
    by_cases hb : s.takeWhile blankC = []
    · rw [hb, List.nil_append] at hs
      rw [hs]
    · have := scan_blanks (hv := hv) (b := s.takeWhile blankC) (r := s.dropWhile blankC) hb
        (take_all s) (drop_head s)
      rw [hs] at this
      exact this.symm
  · rw [blankC_iff] at hc
    obtain rfl : c = '\n' := by
      rcases h with h | h | h | h
      · exact absurd (.inl h) hc
      · exact absurd (.inr (.inl h)) hc
      · exact absurd (.inr (.inr h)) hc
      · exact h
    exact scan_line s

theorem scan_eols : ∀ {e r : List Char}, (∀ c ∈ e, eol c = true) → scan hv (e ++ r) = scan hv r
  | [], _, _ => rfl
  | c :: e, r, h => by
    rw [List.cons_append, scan_blank, scan_eols fun d hd => h d (by simp [hd])]
    rcases eol_iff.1 (h c (by simp)) with h | h <;> simp [h]

theorem semi_no_rule {w : List Char} (h : ¬ Matches commentRx (';' :: w)) (hn : w ≠ []) :
    ∀ p ∈ rules, ¬ Matches p.1 (';' :: w) := by
  intro p hp hm
  rcases rule_shape p hp hm with hc | hb | ⟨e, he⟩ | ⟨e, y, he, hd, -⟩
  · exact h hc
  · exact absurd (hb ';' (by simp)) (by decide)
  · exact hn (List.cons.inj he).2
  · obtain ⟨rfl, -⟩ := List.cons.inj he
    exact absurd hd (by decide)

theorem scan_comment {line : List Char} (h : '\n' ∉ line) (s : List Char) :
    scan hv (';' :: (line ++ '\n' :: s)) = scan hv s := by
  have hs := List.takeWhile_append_dropWhile (p := eol) (l := s)
  have he := take_all (p := eol) s
  have hr := drop_head (p := eol) s
  generalize s.takeWhile eol = e at *
  generalize s.dropWhile eol = r at *
  subst hs
  have hm : Matches commentRx (';' :: (line ++ '\n' :: e)) :=
    comment_iff.2 ⟨line, '\n' :: e, rfl, h, by simp, fun c hc => by
      rcases List.mem_cons.1 hc with rfl | hc
      · exact .inl rfl
      · exact eol_iff.1 (he c hc)⟩
  have hL : Longest ((';' :: (line ++ '\n' :: e)) ++ r) (';' :: (line ++ '\n' :: e)) .skip := by
    refine longest_of (by simp) ?_ ?_
    · unfold rules
      rw [List.cons_append, firstRule, if_pos ((matches_iff _ _).2 hm)]
    · rintro c s' x rfl _
      refine semi_no_rule ?_ (by simp)
      intro hm'
      obtain ⟨u, v, heq, hu, _, hv⟩ := comment_iff.1 hm'
      have heq : line ++ '\n' :: (e ++ c :: x) = u ++ v := by
        have := (List.cons.inj heq).2
        simpa using this
      have hc : eol c = false := hr c rfl
      have hcv : c ∈ v → False := fun hcv => by
        rw [eol_iff.2 (hv c hcv)] at hc; cases hc
      rcases List.append_eq_append_iff.1 heq with ⟨a, ha, hb⟩ | ⟨a, ha, hb⟩
      · cases a with
        | nil => exact hcv (by rw [List.nil_append] at hb; rw [← hb]; simp)
        | cons b a =>
          obtain ⟨rfl, _⟩ := List.cons.inj hb
          exact hu (by rw [ha]; simp)
      · exact hcv (by rw [hb]; simp)
  have := scan_next (hv := hv) hL
  rw [show (';' :: (line ++ '\n' :: e)) ++ r = ';' :: (line ++ '\n' :: (e ++ r)) by simp] at this
  rw [this, scan_eols he]
  simp [Act.run]

/-- What tells any token apart from what follows. -/
def Sep (c : Char) : Prop := symChar c = false ∧ c ≠ '"'

theorem laid_scan {s ts} (h : Laid hv s ts) : ∀ {rest}, (∀ c ∈ rest.head?, Sep c) →
    scan hv (s ++ rest) = ts ++ scan hv rest := by
  induction h with
  | nil => intro rest _; simp
  | blank hc _ ih => intro rest hr; rw [List.cons_append, scan_blank hc, ih hr]
  | @comment line s ts hl _ ih =>
    intro rest hr
    rw [show ';' :: (line ++ '\n' :: s) ++ rest = ';' :: (line ++ '\n' :: (s ++ rest)) by simp,
      scan_comment hl, ih hr]
  | @tok t w s ts hw ha _ ih =>
    intro rest hr
    have ha' : Apart w (s ++ rest) := by
      cases s with
      | nil =>
        cases rest with
        | nil => trivial
        | cons c rest => exact ⟨fun _ _ _ => (hr c rfl).1, fun _ => (hr c rfl).2⟩
      | cons c s => exact ha
    rw [List.append_assoc, scan_tok hw ha', ih hr]
    rfl

/-- A comment that no line ends. -/
theorem scan_open_comment {line : List Char} (h : ∀ c ∈ line, eol c = false) :
    scan hv (';' :: line) = Tok.other ';' :: scan hv line := by
  have hL : Longest ([';'] ++ line) [';'] .char := by
    refine longest_of (by simp) (by decide +kernel) ?_
    rintro c s' x rfl hx
    refine semi_no_rule ?_ (by simp)
    intro hm
    obtain ⟨u, v, he, _, hn, hv⟩ := comment_iff.1 hm
    obtain ⟨d, ds, rfl⟩ := List.exists_cons_of_ne_nil hn
    have hd : d ∈ c :: x := by
      have : c :: x = u ++ d :: ds := (List.cons.inj he).2
      rw [this]; simp
    have : d ∈ c :: s' := by
      rcases List.mem_cons.1 hd with h | h
      · simp [h]
      · exact List.mem_cons_of_mem _ (hx.subset h)
    exact absurd (h d this) (by rw [eol_iff.2 (hv d (by simp))]; decide)
  have := scan_next (hv := hv) hL
  rw [List.singleton_append] at this
  rw [this]
  simp [Act.run]

/-- The end of the input for the parser. -/
def Final (c : Char) : Prop := c.toNat = 0 ∨ 128 ≤ c.toNat

theorem final_other {c : Char} (h : Final c) : symChar c = false := by
  unfold Final at h
  refine Bool.eq_false_iff.2 fun hs => ?_
  simp only [symChar, symBegin, special, Bool.or_eq_true, decide_eq_true_eq] at hs
  rcases hs with (hs | hs) | hs
  · rw [letter_iff] at hs; omega
  · have : ∀ c ∈ "+-/*=%?!.$_~&^<>@".toList, c.toNat ≠ 0 ∧ c.toNat < 128 := by decide +kernel
    have := this c hs
    omega
  · rw [digit_iff] at hs; omega

theorem scan_final {c : Char} (h : Final c) (s : List Char) : scan hv (c :: s) = [] := by
  have h' := h
  unfold Final at h'
  have hs : Solid c := by
    refine ⟨char_ne ?_, Bool.eq_false_iff.2 fun hb => ?_, char_ne ?_⟩
    · show c.toNat ≠ 59; omega
    · rcases blankC_iff.1 hb with rfl | rfl | rfl <;> simp at h'
    · show c.toNat ≠ 10; omega
  have hL := longest_solid (ds := []) (s := s) hs (lone_first hs (final_other h)
    (char_ne (by show c.toNat ≠ 34; omega)) (char_ne (by show c.toNat ≠ 124; omega))) (by
      rintro d - (h1 | rfl)
      · rw [final_other h] at h1; cases h1
      · simp at h')
  have := scan_next (hv := hv) hL
  rw [List.singleton_append] at this
  rw [this]
  have : Act.run hv [c] s .char = none := by
    simp only [Act.run]
    split <;> simp_all
    omega
  rw [this]

end Verif.Proof.Smt2Scan
