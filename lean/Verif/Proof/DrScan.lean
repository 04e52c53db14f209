import Verif.Spec.DrScan
import Mathlib.Data.List.Chain

/-! # The `dr` scanner -/

namespace Verif.Proof.DrScan
open Verif Verif.Model Verif.Model.Dr Verif.Model.DrParse Verif.Model.DrScan Verif.Spec.DrScan

/-! ## Patterns -/

theorem not_void {w} : ¬ Matches .void w := by intro h; cases h

theorem m_eps {w} : Matches .eps w ↔ w = [] := by
  constructor
  · intro h; cases h; rfl
  · rintro rfl; exact .eps

theorem m_cls {p w} : Matches (.cls p) w ↔ ∃ c, p c = true ∧ w = [c] := by
  constructor
  · intro h; cases h; exact ⟨_, by assumption, rfl⟩
  · rintro ⟨c, h, rfl⟩; exact .cls h

theorem m_seq {r s w} : Matches (.seq r s) w ↔ ∃ u v, w = u ++ v ∧ Matches r u ∧ Matches s v := by
  constructor
  · intro h; cases h; exact ⟨_, _, rfl, by assumption, by assumption⟩
  · rintro ⟨u, v, rfl, h, h'⟩; exact .seq h h'

theorem m_alt {r s w} : Matches (.alt r s) w ↔ Matches r w ∨ Matches s w := by
  constructor
  · intro h
    cases h
    · left; assumption
    · right; assumption
  · rintro (h | h)
    · exact .left h
    · exact .right h

theorem m_star {r w} : Matches (.star r) w ↔ w = [] ∨
    ∃ u v, w = u ++ v ∧ u ≠ [] ∧ Matches r u ∧ Matches (.star r) v := by
  constructor
  · intro h
    generalize hr : Rx.star r = q at h
    induction h with
    | none => exact .inl rfl
    | @more r' u v h1 h2 _ ih =>
      cases hr
      by_cases hu : u = []
      · subst hu
        exact ih rfl
      · exact .inr ⟨u, v, rfl, hu, h1, h2⟩
    | _ => cases hr
  · rintro (rfl | ⟨u, v, rfl, _, h1, h2⟩)
    · exact .none
    · exact .more h1 h2

theorem m_star_cls {p} : ∀ {w}, Matches (.star (.cls p)) w ↔ ∀ c ∈ w, p c = true
  | [] => by simp [Matches.none]
  | a :: w => by
    rw [m_star]
    constructor
    · rintro (h | ⟨u, v, h, _, h1, h2⟩)
      · cases h
      · obtain ⟨c, hc, rfl⟩ := m_cls.1 h1
        obtain ⟨rfl, rfl⟩ : a = c ∧ w = v := by simpa using h
        intro d hd
        rcases List.mem_cons.1 hd with rfl | hd
        · exact hc
        · exact m_star_cls.1 h2 d hd
    · intro h
      exact .inr ⟨[a], w, rfl, by simp, .cls (h a (by simp)),
        m_star_cls.2 fun c hc => h c (by simp [hc])⟩

theorem m_plus_cls {p w} : Matches (.plus (.cls p)) w ↔ w ≠ [] ∧ ∀ c ∈ w, p c = true := by
  rw [Rx.plus, m_seq]
  constructor
  · rintro ⟨u, v, rfl, h1, h2⟩
    obtain ⟨c, hc, rfl⟩ := m_cls.1 h1
    refine ⟨by simp, fun d hd => ?_⟩
    rcases List.mem_append.1 hd with h | h
    · rw [List.mem_singleton.1 h]; exact hc
    · exact m_star_cls.1 h2 d h
  · rintro ⟨h, hall⟩
    obtain ⟨c, w, rfl⟩ := List.exists_cons_of_ne_nil h
    exact ⟨[c], w, rfl, .cls (hall c (by simp)), m_star_cls.2 fun d hd => hall d (by simp [hd])⟩

theorem m_chr {a w} : Matches (.chr a) w ↔ w = [a] := by
  rw [Rx.chr, m_cls]
  constructor
  · rintro ⟨c, h, rfl⟩; simpa using h
  · rintro rfl; exact ⟨a, by simp, rfl⟩

theorem m_opt {r w} : Matches (.opt r) w ↔ Matches r w ∨ w = [] := by
  rw [Rx.opt, m_alt, m_eps]

theorem m_lit : ∀ {l w}, Matches (.lit l) w ↔ w = l
  | [], w => m_eps
  | c :: l, w => by
    rw [Rx.lit, m_seq]
    constructor
    · rintro ⟨u, v, rfl, h1, h2⟩
      rw [m_chr.1 h1, m_lit.1 h2]; rfl
    · rintro rfl
      exact ⟨[c], l, rfl, m_chr.2 rfl, m_lit.2 rfl⟩

theorem null_iff (r : Rx) : r.null = true ↔ Matches r [] := by
  induction r with
  | void => simp [Rx.null, not_void]
  | eps => simp [Rx.null, m_eps]
  | cls p => simp [Rx.null, m_cls]
  | seq r s ih1 ih2 =>
    simp only [Rx.null, Bool.and_eq_true, ih1, ih2, m_seq]
    constructor
    · rintro ⟨h1, h2⟩; exact ⟨[], [], rfl, h1, h2⟩
    · rintro ⟨u, v, h, h1, h2⟩
      obtain ⟨rfl, rfl⟩ := List.append_eq_nil_iff.1 h.symm
      exact ⟨h1, h2⟩
  | alt r s ih1 ih2 => simp only [Rx.null, Bool.or_eq_true, ih1, ih2, m_alt]
  | star r => simp [Rx.null, Matches.none]

theorem deriv_iff (c : Char) (r : Rx) : ∀ w, Matches (r.deriv c) w ↔ Matches r (c :: w) := by
  induction r with
  | void => intro w; simp [Rx.deriv, not_void]
  | eps => intro w; simp [Rx.deriv, not_void, m_eps]
  | cls p =>
    intro w
    simp only [Rx.deriv]
    split
    · rename_i h
      rw [m_eps, m_cls]
      constructor
      · rintro rfl; exact ⟨c, h, rfl⟩
      · rintro ⟨d, _, h⟩; simpa using (List.cons.inj h).2
    · rename_i h
      rw [m_cls]
      refine ⟨fun h => absurd h not_void, ?_⟩
      rintro ⟨d, hd, he⟩
      rw [(List.cons.inj he).1] at h
      exact absurd hd h
  | alt r s ih1 ih2 => intro w; simp only [Rx.deriv, m_alt, ih1, ih2]
  | seq r s ih1 ih2 =>
    intro w
    have key : Matches (.seq r s) (c :: w) ↔ Matches (.seq (r.deriv c) s) w ∨
        (Matches r [] ∧ Matches s (c :: w)) := by
      rw [m_seq, m_seq]
      constructor
      · rintro ⟨u, v, h, h1, h2⟩
        cases u with
        | nil => right; rw [List.nil_append] at h; exact ⟨h1, h ▸ h2⟩
        | cons d u =>
          obtain ⟨rfl, rfl⟩ : c = d ∧ w = u ++ v := by simpa using h
          exact .inl ⟨u, v, rfl, (ih1 u).2 h1, h2⟩
      · rintro (⟨u, v, rfl, h1, h2⟩ | ⟨h1, h2⟩)
        · exact ⟨c :: u, v, rfl, (ih1 u).1 h1, h2⟩
        · exact ⟨[], c :: w, rfl, h1, h2⟩
    rw [key, Rx.deriv]
    split
    · rename_i h
      rw [m_alt, ih2]
      simp [(null_iff r).1 h]
    · rename_i h
      rw [null_iff] at h
      simp [h]
  | star r ih =>
    intro w
    rw [Rx.deriv, m_seq, m_star]
    constructor
    · rintro ⟨u, v, rfl, h1, h2⟩
      exact .inr ⟨c :: u, v, rfl, by simp, (ih u).1 h1, h2⟩
    · rintro (h | ⟨u, v, h, hu, h1, h2⟩)
      · cases h
      · cases u with
        | nil => exact absurd rfl hu
        | cons d u =>
          obtain ⟨rfl, rfl⟩ : c = d ∧ w = u ++ v := by simpa using h
          exact ⟨u, v, rfl, (ih u).2 h1, h2⟩

theorem matches_iff : ∀ (r : Rx) (w : List Char), r.matches? w = true ↔ Matches r w
  | r, [] => null_iff r
  | r, c :: w => by rw [Rx.matches?, matches_iff, deriv_iff]

/-! ## The longest match -/

theorem firstRule_none {w} : ∀ {rs}, firstRule w rs = none ↔ ∀ p ∈ rs, ¬ Matches p.1 w
  | [] => by simp [firstRule]
  | (r, a) :: rs => by
    rw [firstRule]
    split
    · rename_i h
      rw [matches_iff] at h
      simp [h]
    · rename_i h
      rw [matches_iff] at h
      simp [h, firstRule_none]

theorem firstRule_some {w a} : ∀ {rs}, firstRule w rs = some a ↔
    ∃ pre r post, rs = pre ++ (r, a) :: post ∧ Matches r w ∧ ∀ p ∈ pre, ¬ Matches p.1 w
  | [] => by simp [firstRule]
  | (r, b) :: rs => by
    rw [firstRule]
    split
    · rename_i h
      rw [matches_iff] at h
      constructor
      · intro he
        cases he
        exact ⟨[], r, rs, rfl, h, by simp⟩
      · rintro ⟨pre, r', post, he, h1, h2⟩
        cases pre with
        | nil => cases he; rfl
        | cons p pre =>
          cases he
          exact absurd h (h2 (r, b) (by simp))
    · rename_i h
      rw [matches_iff] at h
      rw [firstRule_some]
      constructor
      · rintro ⟨pre, r', post, rfl, h1, h2⟩
        refine ⟨(r, b) :: pre, r', post, rfl, h1, ?_⟩
        intro p hp
        rcases List.mem_cons.1 hp with rfl | hp
        · exact h
        · exact h2 p hp
      · rintro ⟨pre, r', post, he, h1, h2⟩
        cases pre with
        | nil => cases he; exact absurd h1 h
        | cons p pre =>
          cases he
          exact ⟨pre, r', post, rfl, h1, fun p hp => h2 p (by simp [hp])⟩

theorem munch_some {s k a} : ∀ {n}, n ≤ s.length → munch s n = some (k, a) →
    0 < k ∧ k ≤ n ∧ firstRule (s.take k) rules = some a ∧
      ∀ j, k < j → j ≤ n → firstRule (s.take j) rules = none
  | 0, _, h => by cases h
  | n + 1, hn, h => by
    rw [munch] at h
    split at h
    · rename_i b hb
      cases h
      exact ⟨by omega, le_refl _, hb, fun j h1 h2 => by omega⟩
    · rename_i hb
      obtain ⟨h1, h2, h3, h4⟩ := munch_some (by omega) h
      refine ⟨h1, by omega, h3, fun j hj hj' => ?_⟩
      rcases Nat.lt_or_ge n j with h | h
      · rw [show j = n + 1 by omega]; exact hb
      · exact h4 j hj h

theorem munch_of {s k a} (hk : 0 < k) (h : firstRule (s.take k) rules = some a) :
    ∀ {n}, k ≤ n → (∀ j, k < j → j ≤ n → firstRule (s.take j) rules = none) →
      munch s n = some (k, a)
  | 0, hn, _ => by omega
  | n + 1, hn, hj => by
    rw [munch]
    rcases Nat.lt_or_ge n k with h' | h'
    · obtain rfl : k = n + 1 := by omega
      rw [h]
    · rw [hj (n + 1) (by omega) le_rfl]
      exact munch_of hk h h' fun j h1 h2 => hj j h1 (by omega)

theorem munch_iff {s w a} :
    (∃ k, munch s s.length = some (k, a) ∧ w = s.take k) ↔ Longest s w a := by
  constructor
  · rintro ⟨k, h, rfl⟩
    obtain ⟨h1, h2, h3, h4⟩ := munch_some le_rfl h
    refine ⟨?_, List.take_prefix _ _, firstRule_some.1 h3, ?_⟩
    · intro h
      rcases List.take_eq_nil_iff.1 h with h | h
      · omega
      · subst h; simp at h2; omega
    · intro w' hw hl
      rw [List.length_take, min_eq_left h2] at hl
      have := h4 w'.length hl hw.length_le
      rw [← List.prefix_iff_eq_take.1 hw] at this
      exact firstRule_none.1 this
  · rintro ⟨h1, h2, h3, h4⟩
    have he := List.prefix_iff_eq_take.1 h2
    refine ⟨w.length, munch_of (List.length_pos_iff.2 h1) ?_ h2.length_le ?_, he⟩
    · rw [← he]; exact firstRule_some.2 h3
    · intro j hj hj'
      exact firstRule_none.2 (h4 _ (List.take_prefix _ _) (by rw [List.length_take]; omega))

theorem longest_unique {s w a w' a'} (h : Longest s w a) (h' : Longest s w' a') :
    w = w' ∧ a = a' := by
  obtain ⟨k, h1, rfl⟩ := munch_iff.2 h
  obtain ⟨k', h2, rfl⟩ := munch_iff.2 h'
  rw [h1] at h2
  cases h2
  exact ⟨rfl, rfl⟩

variable {num : List Char → Option ℚ}

theorem scanN_fuel : ∀ {n s}, s.length ≤ n → scanN num n s = scan num s := by
  have key : ∀ n m s, s.length ≤ n → s.length ≤ m → scanN num n s = scanN num m s := by
    intro n
    induction n with
    | zero =>
      intro m s h _
      obtain rfl : s = [] := List.length_eq_zero_iff.1 (by omega)
      simp [scanN]
    | succ n ih =>
      intro m s h h'
      match s, m with
      | [], m => simp [scanN]
      | c :: s, 0 => simp at h'
      | c :: s, m + 1 =>
        rw [scanN, scanN]
        split
        · rfl
        · rename_i k a hm
          obtain ⟨h1, h2, _⟩ := munch_some le_rfl hm
          split
          · rfl
          · rfl
          · rw [ih m]
            · rw [List.length_drop]; simp at h ⊢; omega
            · rw [List.length_drop]; simp at h' ⊢; omega
  intro n s h
  exact key _ _ _ h le_rfl

theorem scan_next {w rest a} (h : Longest (w ++ rest) w a) :
    scan num (w ++ rest) =
      match a.tokens num w with
      | none => none
      | some none => some []
      | some (some ts) => (scan num rest).map (ts ++ ·) := by
  obtain ⟨k, hm, hk⟩ := munch_iff.2 h
  have hlen : w.length = k := by
    obtain ⟨h1, h2, _⟩ := munch_some le_rfl hm
    rw [hk, List.length_take]; omega
  subst hlen
  obtain ⟨c, cs, hc⟩ := List.exists_cons_of_ne_nil
    (show w ++ rest ≠ [] from by simp [h.nonempty])
  have hl : (w ++ rest).length = cs.length + 1 := by rw [hc]; rfl
  have hr : rest.length ≤ cs.length := by
    have := List.length_pos_iff.2 h.nonempty
    rw [List.length_append] at hl
    omega
  unfold scan
  rw [hl, hc, scanN]
  rw [← hc, hm]
  simp only [List.take_left, List.drop_left]
  rw [scanN_fuel hr]
  rfl

theorem scans_iff {s ts} : scan num s = some ts ↔ Scans num s ts := by
  constructor
  · generalize hn : s.length = n
    induction n using Nat.strong_induction_on generalizing s ts with
    | _ n ih =>
      intro h
      cases s with
      | nil =>
        cases (show some [] = some ts from h)
        exact .nil
      | cons c s =>
        rcases hm : munch (c :: s) (c :: s).length with _ | ⟨k, a⟩
        · rw [scan, List.length_cons, scanN, hm] at h
          cases h
        · obtain ⟨h1, h2, _⟩ := munch_some le_rfl hm
          have hL' : Longest ((c :: s).take k ++ (c :: s).drop k) ((c :: s).take k) a := by
            rw [List.take_append_drop]
            exact munch_iff.1 ⟨k, hm, rfl⟩
          rw [← List.take_append_drop k (c :: s)] at h ⊢
          have hr : ((c :: s).drop k).length < n := by
            rw [List.length_drop, ← hn]; omega
          generalize (c :: s).take k = w at *
          generalize (c :: s).drop k = rest at *
          rw [scan_next hL'] at h
          split at h
          · cases h
          · rename_i ht
            cases h
            exact .stop hL' ht
          · rename_i us ht
            cases hsr : scan num rest with
            | none => rw [hsr] at h; cases h
            | some vs =>
              rw [hsr] at h
              cases h
              refine .next hL' ht (ih rest.length hr rfl hsr)
  · intro h
    induction h with
    | nil => rfl
    | next hL ht _ ih => rw [scan_next hL, ht]; simp only [ih]; rfl
    | stop hL ht => rw [scan_next hL, ht]

/-! ## What the rules match -/

theorem rules_cases {P : Rx → Prop} (h1 : P commentRx) (h2 : ∀ p ∈ fixed, P (.lit p.1.toList))
    (h3 : P blankRx) (h4 : P lineRx) (h5 : P natRx) (h6 : P decRx) (h7 : P pointRx) (h8 : P nameRx)
    (h9 : P (.cls dot)) : ∀ p ∈ rules, P p.1 := by
  intro p hp
  unfold rules at hp
  rw [List.mem_append, List.mem_cons, List.mem_map] at hp
  rcases hp with (rfl | ⟨q, hq, rfl⟩) | hp
  · exact h1
  · exact h2 q hq
  · simp only [List.mem_cons, List.not_mem_nil, or_false] at hp
    rcases hp with rfl | rfl | rfl | rfl | rfl | rfl | rfl
    · exact h3
    · exact h4
    · exact h5
    · exact h6
    · exact h7
    · exact h8
    · exact h9

theorem comment_iff {w} : Matches commentRx w ↔ ∃ u v, w = '#' :: (u ++ v) ∧ '\n' ∉ u ∧ v ≠ [] ∧
    ∀ c ∈ v, c = '\n' ∨ c = '\r' := by
  unfold commentRx
  rw [m_seq]
  constructor
  · rintro ⟨x, y, rfl, h1, h2⟩
    obtain ⟨u, v, rfl, h3, h4⟩ := m_seq.1 h2
    rw [m_chr.1 h1]
    rw [m_star_cls] at h3
    rw [m_plus_cls] at h4
    exact ⟨u, v, rfl, fun h => by simpa [dot] using h3 _ h, h4.1, fun c hc => by simpa using h4.2 c hc⟩
  · rintro ⟨u, v, rfl, h1, h2, h3⟩
    refine ⟨['#'], u ++ v, rfl, m_chr.2 rfl, .seq (m_star_cls.2 fun c hc => ?_)
      (m_plus_cls.2 ⟨h2, fun c hc => by simpa using h3 c hc⟩)⟩
    have : c ≠ '\n' := by rintro rfl; exact h1 hc
    simpa [dot] using this

theorem blank_iff {w} : Matches blankRx w ↔ w ≠ [] ∧ ∀ c ∈ w, c = ' ' ∨ c = '\t' ∨ c = '\r' := by
  unfold blankRx
  rw [m_plus_cls]
  simp [or_assoc]

theorem name_iff {w} : Matches nameRx w ↔ Word w := by
  unfold nameRx
  rw [m_seq]
  constructor
  · rintro ⟨u, v, rfl, h1, h2⟩
    obtain ⟨c, hc, rfl⟩ := m_cls.1 h1
    exact ⟨c, v, rfl, hc, m_star_cls.1 h2⟩
  · rintro ⟨c, cs, rfl, h1, h2⟩
    exact ⟨[c], cs, rfl, .cls h1, m_star_cls.2 h2⟩

theorem exp_iff {w} : Matches (.opt (.seq (.cls fun c => c == 'e' || c == 'E')
    (.seq (.opt (.cls fun c => c == '-' || c == '+')) (.plus (.cls digit))))) w ↔
    w = [] ∨ Exponent w := by
  rw [m_opt, or_comm]
  refine or_congr Iff.rfl ?_
  rw [m_seq]
  constructor
  · rintro ⟨u, v, rfl, h1, h2⟩
    obtain ⟨c, hc, rfl⟩ := m_cls.1 h1
    obtain ⟨sg, ds, rfl, h3, h4⟩ := m_seq.1 h2
    rw [m_plus_cls] at h4
    refine ⟨c, sg, ds, rfl, by simpa using hc, ?_, h4⟩
    rcases m_opt.1 h3 with h | h
    · obtain ⟨d, hd, rfl⟩ := m_cls.1 h
      simpa using hd
    · exact .inl h
  · rintro ⟨c, sg, ds, rfl, hc, hs, hd⟩
    refine ⟨[c], sg ++ ds, rfl, .cls (by simpa using hc), .seq (m_opt.2 ?_) (m_plus_cls.2 hd)⟩
    rcases hs with rfl | rfl | rfl
    · exact .inr rfl
    · exact .inl (.cls rfl)
    · exact .inl (.cls rfl)

theorem digit_iff {c : Char} : digit c = true ↔ 48 ≤ c.toNat ∧ c.toNat ≤ 57 := by
  simp only [digit, Bool.and_eq_true, decide_eq_true_eq, Char.le_def, UInt32.le_iff_toNat_le]
  rfl

theorem digit_nat {c : Char} (h : '1' ≤ c ∧ c ≤ '9') : digit c = true := by
  simp only [Char.le_def, UInt32.le_iff_toNat_le] at h
  have h1 : 49 ≤ c.toNat := h.1
  have h2 : c.toNat ≤ 57 := h.2
  rw [digit_iff]
  omega

theorem numeral_iff {w} : (Matches natRx w ∨ Matches decRx w ∨ Matches pointRx w) ↔ Numeral w := by
  constructor
  · rintro (h | h | h)
    · unfold natRx at h
      rcases m_alt.1 h with h | h
      · rw [m_chr.1 h]
        exact ⟨['0'], [], [], by decide, by simp, .inl rfl, .inl ⟨rfl, by simp⟩⟩
      · obtain ⟨u, v, rfl, h1, h2⟩ := m_seq.1 h
        obtain ⟨c, hc, rfl⟩ := m_cls.1 h1
        rw [m_star_cls] at h2
        refine ⟨c :: v, [], [], ?_, by simp, .inl rfl, .inl ⟨by simp, by simp⟩⟩
        intro d hd
        rcases List.mem_cons.1 hd with rfl | hd
        · exact digit_nat (by simpa using hc)
        · exact h2 d hd
    · unfold decRx at h
      obtain ⟨m, ex, rfl, h1, h2⟩ := m_seq.1 h
      rw [exp_iff] at h2
      rcases m_alt.1 h1 with h | h
      · rw [m_plus_cls] at h
        exact ⟨m, [], ex, h.2, by simp, h2, .inl ⟨rfl, h.1⟩⟩
      · obtain ⟨ip, r, rfl, h3, h4⟩ := m_seq.1 h
        obtain ⟨pt, fp, rfl, h5, h6⟩ := m_seq.1 h4
        rw [m_star_cls] at h3
        rw [m_plus_cls] at h6
        rcases m_opt.1 h5 with h | rfl
        · rw [m_chr.1 h]
          exact ⟨ip, fp, ex, h3, h6.2, h2, .inr (.inl ⟨by simp, h6.1⟩)⟩
        · refine ⟨ip ++ fp, [], ex, ?_, by simp, h2, .inl ⟨by simp, by simp [h6.1]⟩⟩
          intro d hd
          rcases List.mem_append.1 hd with hd | hd
          · exact h3 d hd
          · exact h6.2 d hd
    · unfold pointRx at h
      rcases m_alt.1 h with h | h
      · rw [m_plus_cls] at h
        exact ⟨w, [], [], h.2, by simp, .inl rfl, .inl ⟨by simp, h.1⟩⟩
      · obtain ⟨ip, v, rfl, h1, h2⟩ := m_seq.1 h
        rw [m_plus_cls] at h1
        rw [m_chr.1 h2]
        exact ⟨ip, [], [], h1.2, by simp, .inl rfl, .inr (.inr ⟨rfl, h1.1⟩)⟩
  · rintro ⟨ip, fp, ex, h1, h2, h3, ⟨rfl, h4⟩ | ⟨rfl, h4⟩ | ⟨rfl, h4⟩⟩
    · exact .inr (.inl (.seq (.left (m_plus_cls.2 ⟨h4, h1⟩)) (exp_iff.2 h3)))
    · refine .inr (.inl ?_)
      rw [show ip ++ '.' :: (fp ++ ex) = (ip ++ (['.'] ++ fp)) ++ ex by simp]
      exact .seq (.right (.seq (m_star_cls.2 h1) (.seq (m_opt.2 (.inl (m_chr.2 rfl)))
        (m_plus_cls.2 ⟨h4, h2⟩)))) (exp_iff.2 h3)
    · exact .inr (.inr (.right (.seq (m_plus_cls.2 ⟨h4, h1⟩) (m_chr.2 rfl))))

/-- A string is matched by no rule. -/
theorem no_rule {w : List Char} (h1 : ¬ Matches commentRx w) (h2 : ∀ p ∈ fixed, p.1.toList ≠ w)
    (h3 : ¬ Matches blankRx w) (h4 : w ≠ ['\n']) (h5 : ¬ Numeral w) (h6 : ¬ Word w)
    (h7 : w.length ≠ 1) : ∀ p ∈ rules, ¬ Matches p.1 w := by
  refine rules_cases (P := fun r => ¬ Matches r w) h1 (fun p hp h => h2 p hp (m_lit.1 h).symm) h3 (fun h => h4 (m_chr.1 h)) ?_ ?_ ?_
    (fun h => h6 (name_iff.1 h)) ?_
  · exact fun h => h5 (numeral_iff.1 (.inl h))
  · exact fun h => h5 (numeral_iff.1 (.inr (.inl h)))
  · exact fun h => h5 (numeral_iff.1 (.inr (.inr h)))
  · intro h
    obtain ⟨c, _, rfl⟩ := m_cls.1 h
    exact h7 rfl

/-! ## Characters -/

theorem letter_iff {c : Char} :
    letter c = true ↔ (97 ≤ c.toNat ∧ c.toNat ≤ 122) ∨ (65 ≤ c.toNat ∧ c.toNat ≤ 90) := by
  simp only [letter, Bool.or_eq_true, Bool.and_eq_true, decide_eq_true_eq, Char.le_def,
    UInt32.le_iff_toNat_le]
  rfl

theorem char_ne {c d : Char} (h : c.toNat ≠ d.toNat) : c ≠ d := fun e => h (by rw [e])

theorem letter_digit {c : Char} (h : letter c = true) : digit c = false ∧ c ≠ '.' := by
  rw [letter_iff] at h
  refine ⟨Bool.eq_false_iff.2 fun hd => ?_, char_ne ?_⟩
  · rw [digit_iff] at hd; omega
  · show c.toNat ≠ 46; omega

/-- Not a character that begins a comment or a blank. -/
def Solid (c : Char) : Prop := c ≠ '#' ∧ c ≠ ' ' ∧ c ≠ '\t' ∧ c ≠ '\r' ∧ c ≠ '\n'

theorem solid_word {c : Char} (h : letter c = true) : Solid c := by
  rw [letter_iff] at h
  refine ⟨char_ne ?_, char_ne ?_, char_ne ?_, char_ne ?_, char_ne ?_⟩
  · show c.toNat ≠ 35; omega
  · show c.toNat ≠ 32; omega
  · show c.toNat ≠ 9; omega
  · show c.toNat ≠ 13; omega
  · show c.toNat ≠ 10; omega

theorem solid_digit {c : Char} (h : digit c = true ∨ c = '.') : Solid c := by
  have hn : (48 ≤ c.toNat ∧ c.toNat ≤ 57) ∨ c.toNat = 46 := by
    rcases h with h | rfl
    · exact .inl (digit_iff.1 h)
    · exact .inr rfl
  refine ⟨char_ne ?_, char_ne ?_, char_ne ?_, char_ne ?_, char_ne ?_⟩
  · show c.toNat ≠ 35; omega
  · show c.toNat ≠ 32; omega
  · show c.toNat ≠ 9; omega
  · show c.toNat ≠ 13; omega
  · show c.toNat ≠ 10; omega

theorem numeral_head {w} (h : Numeral w) : ∃ c cs, w = c :: cs ∧ (digit c = true ∨ c = '.') := by
  obtain ⟨ip, fp, ex, h1, h2, h3, h⟩ := h
  cases ip with
  | cons c ip =>
    rcases h with ⟨rfl, _⟩ | ⟨rfl, _⟩ | ⟨rfl, _⟩ <;>
      exact ⟨c, _, rfl, .inl (h1 c (by simp))⟩
  | nil =>
    rcases h with ⟨rfl, h⟩ | ⟨rfl, _⟩ | ⟨rfl, h⟩
    · exact absurd rfl h
    · exact ⟨'.', _, rfl, .inr rfl⟩
    · exact absurd rfl h

theorem exponent_chars {w} (h : w = [] ∨ Exponent w) :
    ∀ c ∈ w, digit c = true ∨ c = '.' ∨ c = 'e' ∨ c = 'E' ∨ c = '-' ∨ c = '+' := by
  rcases h with rfl | ⟨c, sg, ds, rfl, hc, hs, _, hd⟩
  · simp
  · intro d h
    rcases List.mem_cons.1 h with rfl | h
    · rcases hc with rfl | rfl <;> simp
    · rcases List.mem_append.1 h with h | h
      · rcases hs with rfl | rfl | rfl
        · simp at h
        · simp at h; simp [h]
        · simp at h; simp [h]
      · exact .inl (hd d h)

theorem numeral_chars {w} (h : Numeral w) :
    ∀ c ∈ w, digit c = true ∨ c = '.' ∨ c = 'e' ∨ c = 'E' ∨ c = '-' ∨ c = '+' := by
  obtain ⟨ip, fp, ex, h1, h2, h3, ⟨rfl, _⟩ | ⟨rfl, _⟩ | ⟨rfl, _⟩⟩ := h
  · intro c hc
    rcases List.mem_append.1 hc with hc | hc
    · exact .inl (h1 c hc)
    · exact exponent_chars h3 c hc
  · intro c hc
    rcases List.mem_append.1 hc with hc | hc
    · exact .inl (h1 c hc)
    · rcases List.mem_cons.1 hc with rfl | hc
      · simp
      · rcases List.mem_append.1 hc with hc | hc
        · exact .inl (h2 c hc)
        · exact exponent_chars h3 c hc
  · intro c hc
    rcases List.mem_append.1 hc with hc | hc
    · exact .inl (h1 c hc)
    · simp at hc; simp [hc]

/-- A sign is in front of an exponent only. -/
def SignOk (a b : Char) : Prop := b = '-' ∨ b = '+' → a = 'e' ∨ a = 'E'

theorem chain_plain : ∀ {w : List Char}, (∀ c ∈ w, c ≠ '-' ∧ c ≠ '+') → w.IsChain SignOk
  | [], _ => .nil
  | [_], _ => .singleton _
  | _ :: b :: w, h => by
    refine .cons_cons (fun hb => ?_) (chain_plain fun c hc => h c (List.mem_cons_of_mem _ hc))
    have := h b (by simp)
    rcases hb with rfl | rfl
    · exact absurd rfl this.1
    · exact absurd rfl this.2

theorem digit_plain {c : Char} (h : digit c = true) : c ≠ '-' ∧ c ≠ '+' := by
  rw [digit_iff] at h
  refine ⟨char_ne ?_, char_ne ?_⟩
  · show c.toNat ≠ 45; omega
  · show c.toNat ≠ 43; omega

theorem chain_exp {m ex : List Char} (hm : ∀ c ∈ m, c ≠ '-' ∧ c ≠ '+') (h : ex = [] ∨ Exponent ex) :
    (m ++ ex).IsChain SignOk := by
  have hx : ex.IsChain SignOk ∧ ∀ b ∈ ex.head?, b ≠ '-' ∧ b ≠ '+' := by
    rcases h with rfl | ⟨c, sg, ds, rfl, hc, hs, _, hd⟩
    · exact ⟨.nil, by simp⟩
    · have hds := chain_plain fun c hc => digit_plain (hd c hc)
      refine ⟨?_, ?_⟩
      · rcases hs with rfl | rfl | rfl
        · refine chain_plain fun d hd' => ?_
          rcases List.mem_cons.1 hd' with rfl | h
          · rcases hc with rfl | rfl <;> decide
          · exact digit_plain (hd d h)
        · refine .cons_cons (fun _ => hc) ?_
          cases ds with
          | nil => exact .singleton _
          | cons d ds =>
            refine .cons_cons (fun h => ?_) hds
            have := digit_plain (hd d (by simp))
            exact absurd h (by simp [this])
        · refine .cons_cons (fun _ => hc) ?_
          cases ds with
          | nil => exact .singleton _
          | cons d ds =>
            refine .cons_cons (fun h => ?_) hds
            have := digit_plain (hd d (by simp))
            exact absurd h (by simp [this])
      · intro b hb
        simp at hb
        subst hb
        rcases hc with rfl | rfl <;> decide
  refine List.isChain_append.2 ⟨chain_plain hm, hx.1, fun a _ b hb h => ?_⟩
  have := hx.2 b hb
  rcases h with rfl | rfl
  · exact absurd rfl this.1
  · exact absurd rfl this.2

theorem numeral_chain {w} (h : Numeral w) : w.IsChain SignOk := by
  obtain ⟨ip, fp, ex, h1, h2, h3, ⟨rfl, _⟩ | ⟨rfl, _⟩ | ⟨rfl, _⟩⟩ := h
  · exact chain_exp (fun c hc => digit_plain (h1 c hc)) h3
  · rw [show ip ++ '.' :: (fp ++ ex) = (ip ++ '.' :: fp) ++ ex by simp]
    refine chain_exp (fun c hc => ?_) h3
    rcases List.mem_append.1 hc with hc | hc
    · exact digit_plain (h1 c hc)
    · rcases List.mem_cons.1 hc with rfl | hc
      · decide
      · exact digit_plain (h2 c hc)
  · refine chain_plain fun c hc => ?_
    rcases List.mem_append.1 hc with hc | hc
    · exact digit_plain (h1 c hc)
    · rw [List.mem_singleton.1 hc]; decide

theorem last_digits {a ds : List Char} (hd : ds ≠ []) (h : ∀ c ∈ ds, digit c = true) :
    ∀ c ∈ (a ++ ds).getLast?, digit c = true := by
  intro c hc
  rw [List.getLast?_append_of_ne_nil _ hd] at hc
  exact h c (List.mem_of_getLast? hc)

theorem exponent_last {ex : List Char} (h : Exponent ex) (m : List Char) :
    ∀ c ∈ (m ++ ex).getLast?, digit c = true := by
  obtain ⟨c, sg, ds, rfl, _, _, hn, hd⟩ := h
  rw [show m ++ c :: (sg ++ ds) = (m ++ c :: sg) ++ ds by simp]
  exact last_digits hn hd

theorem numeral_last {w} (h : Numeral w) : ∀ c ∈ w.getLast?, digit c = true ∨ c = '.' := by
  obtain ⟨ip, fp, ex, h1, h2, h3, h⟩ := h
  intro c hc
  rcases h with ⟨rfl, hn⟩ | ⟨rfl, hn⟩ | ⟨rfl, _⟩
  · rcases h3 with rfl | h3
    · rw [List.append_nil] at hc
      exact .inl (h1 c (List.mem_of_getLast? hc))
    · exact .inl (exponent_last h3 _ c hc)
  · rcases h3 with rfl | h3
    · rw [List.append_nil, show ip ++ '.' :: fp = (ip ++ ['.']) ++ fp by simp] at hc
      exact .inl (last_digits hn h2 c hc)
    · rw [show ip ++ '.' :: (fp ++ ex) = (ip ++ '.' :: fp) ++ ex by simp] at hc
      exact .inl (exponent_last h3 _ c hc)
  · simp at hc
    exact .inr hc.symm

/-- A number is not continued by a sign. -/
theorem numeral_sign {w c x} (h : Numeral w) (h' : Numeral (w ++ c :: x)) :
    digit c = true ∨ c = '.' ∨ c = 'e' ∨ c = 'E' := by
  rcases numeral_chars h' c (by simp) with hc | hc | hc | hc | hc
  · exact .inl hc
  · exact .inr (.inl hc)
  · exact .inr (.inr (.inl hc))
  · exact .inr (.inr (.inr hc))
  · exfalso
    obtain ⟨d, cs, hd, _⟩ := numeral_head h
    have hne : w ≠ [] := by rw [hd]; simp
    have hl := List.getLast?_eq_some_getLast hne
    have h1 := (List.isChain_append.1 (numeral_chain h')).2.2 _ hl c rfl hc
    rcases numeral_last h _ hl with h2 | h2 <;> rcases h1 with h1 | h1 <;> rw [h1] at h2 <;>
      exact absurd h2 (by decide)

/-! ## Fixed strings -/

theorem fixed_head : ∀ p ∈ fixed, p.1.toList ≠ [] ∧ ∀ c ∈ p.1.toList.head?, c ≠ '#' ∧ c ≠ ' ' ∧
    c ≠ '\t' ∧ c ≠ '\r' ∧ c ≠ '\n' ∧ digit c = false ∧ c ≠ '.' ∧ c ≠ '(' ∧ c ≠ ')' := by
  decide +kernel

theorem fixed_word : ∀ p ∈ fixed, ∀ c ∈ p.1.toList.head?, letter c = true →
    ∀ d ∈ p.1.toList, wordChar d = true := by decide +kernel

theorem fixed_longer : ∀ p ∈ fixed, ∀ p' ∈ fixed, p.1.toList <+: p'.1.toList →
    ∀ c ∈ (p'.1.toList.drop p.1.toList.length).head?,
      ((∀ a ∈ p.1.toList.head?, letter a = true) ∧ wordChar c = true) ∨
      ((p.1.toList = ['<'] ∨ p.1.toList = ['='] ∨ p.1.toList = ['>']) ∧ (c = '=' ∨ c = '>')) := by
  decide +kernel

theorem fixed_first : ∀ p ∈ fixed, firstRule p.1.toList rules = some (.tok p.2) := by decide +kernel

theorem fixed_words : ∀ p ∈ fixed, p.1 ∈ words p.2 := by decide +kernel

theorem words_fixed {t : Tok} {s : String} (h : s ∈ words t) : ∃ p ∈ fixed, p.1 = s ∧ p.2 = t := by
  refine ⟨(s, t), ?_, rfl, rfl⟩
  cases t with
  | fn1 f =>
    cases f <;> simp only [words, List.mem_cons, List.not_mem_nil, or_false] at h <;>
      (rcases h with rfl | rfl) <;> decide +kernel
  | fn2 f =>
    cases f <;> simp only [words, List.mem_cons, List.not_mem_nil, or_false] at h <;>
      (rcases h with rfl | rfl) <;> decide +kernel
  | _ =>
    simp only [words, List.mem_cons, List.not_mem_nil, or_false] at h <;>
      (rcases h with rfl | rfl) <;> decide +kernel

theorem free_word {w : List Char} (h : ∀ p ∈ fixed, p.1.toList ≠ w) (t : Tok) :
    ∀ s ∈ words t, s.toList ≠ w := by
  intro s hs
  obtain ⟨p, hp, rfl, _⟩ := words_fixed hs
  exact h p hp

/-! ## Texts with tokens -/

theorem writes_head {t w} (h : Writes num t w) : ∃ d ds, w = d :: ds ∧ Solid d := by
  cases h with
  | fixed hww =>
    obtain ⟨p, hp, rfl, rfl⟩ := words_fixed hww
    obtain ⟨hn, hc⟩ := fixed_head p hp
    obtain ⟨d, ds, he⟩ := List.exists_cons_of_ne_nil hn
    have := hc d (by rw [he]; rfl)
    exact ⟨d, ds, he, this.1, this.2.1, this.2.2.1, this.2.2.2.1, this.2.2.2.2.1⟩
  | num hw _ =>
    obtain ⟨c, cs, rfl, hc⟩ := numeral_head hw
    exact ⟨c, cs, rfl, solid_digit hc⟩
  | id hw _ =>
    obtain ⟨c, cs, rfl, hc, _⟩ := hw
    exact ⟨c, cs, rfl, solid_word hc⟩
  | lp => exact ⟨_, _, rfl, by decide, by decide, by decide, by decide, by decide⟩
  | rp => exact ⟨_, _, rfl, by decide, by decide, by decide, by decide, by decide⟩

/-- A word that is a fixed string. -/
theorem fixed_is_word {p} (hp : p ∈ fixed) (h : ∀ a ∈ p.1.toList.head?, letter a = true) :
    Word p.1.toList := by
  obtain ⟨d, ds, he⟩ := List.exists_cons_of_ne_nil (fixed_head p hp).1
  have hd : d ∈ p.1.toList.head? := by rw [he]; rfl
  refine ⟨d, ds, he, h d hd, fun c hc => fixed_word p hp d hd (h d hd) c ?_⟩
  rw [he]
  exact List.mem_cons_of_mem _ hc

theorem writes_numeral {t w d ds} (h : Writes num t w) (hw : w = d :: ds)
    (hd : digit d = true ∨ d = '.') : Numeral w := by
  cases h with
  | fixed hww =>
    obtain ⟨p, hp, rfl, rfl⟩ := words_fixed hww
    have := (fixed_head p hp).2 d (by rw [hw]; rfl)
    rcases hd with hd | hd
    · rw [hd] at this; exact absurd this.2.2.2.2.2.1 (by decide)
    · exact absurd hd this.2.2.2.2.2.2.1
  | num h _ => exact h
  | id h _ =>
    obtain ⟨c, cs, rfl, hc, _⟩ := h
    cases hw
    have := letter_digit hc
    rcases hd with hd | hd
    · rw [hd] at this; exact absurd this.1 (by decide)
    · exact absurd hd this.2
  | lp => cases hw; exact absurd hd (by decide)
  | rp => cases hw; exact absurd hd (by decide)

theorem no_longer {t w c s x} (h : Writes num t w) (ha : Apart w (c :: s)) :
    ∀ p ∈ rules, ¬ Matches p.1 (w ++ c :: x) := by
  obtain ⟨d, ds, hw, hs⟩ := writes_head h
  obtain ⟨a1, a2, a3⟩ := ha
  refine no_rule ?_ ?_ ?_ ?_ ?_ ?_ ?_
  · intro hm
    obtain ⟨u, v, he, _⟩ := comment_iff.1 hm
    rw [hw] at he
    exact hs.1 (List.cons.inj he).1
  · intro p' hp' he
    have hpre : w <+: p'.1.toList := ⟨c :: x, he.symm⟩
    have hdrop : p'.1.toList.drop w.length = c :: x := by rw [he]; simp
    have hhead : d ∈ p'.1.toList.head? := by rw [he, hw]; rfl
    cases h with
    | fixed hww =>
      obtain ⟨p, hp, rfl, rfl⟩ := words_fixed hww
      rcases fixed_longer p hp p' hp' hpre c (by rw [hdrop]; rfl) with ⟨h1, h2⟩ | ⟨h1, h2⟩
      · rw [a1 (fixed_is_word hp h1)] at h2
        exact absurd h2 (by decide)
      · exact h2.elim (a3 h1).1 (a3 h1).2
    | num hn _ =>
      obtain ⟨c', cs, rfl, hc⟩ := numeral_head hn
      cases hw
      have := (fixed_head p' hp').2 d hhead
      rcases hc with hc | hc
      · rw [hc] at this; exact absurd this.2.2.2.2.2.1 (by decide)
      · exact absurd hc this.2.2.2.2.2.2.1
    | id hn _ =>
      have hl : letter d = true := by
        obtain ⟨c', cs, rfl, hc, _⟩ := hn
        cases hw
        exact hc
      have := fixed_word p' hp' d hhead hl c (by rw [he]; simp)
      rw [a1 hn] at this
      exact absurd this (by decide)
    | lp =>
      cases hw
      exact absurd rfl ((fixed_head p' hp').2 _ hhead).2.2.2.2.2.2.2.1
    | rp =>
      cases hw
      exact absurd rfl ((fixed_head p' hp').2 _ hhead).2.2.2.2.2.2.2.2
  · intro hm
    rcases (blank_iff.1 hm).2 d (by rw [hw]; simp) with h | h | h
    · exact hs.2.1 h
    · exact hs.2.2.1 h
    · exact hs.2.2.2.1 h
  · rw [hw]; simp
  · intro hm
    obtain ⟨c', cs, he, hc⟩ := numeral_head hm
    have hcd : c' = d := by rw [hw] at he; exact ((List.cons.inj he).1).symm
    have hn := writes_numeral h hw (hcd ▸ hc)
    have := a2 hn
    rcases numeral_sign hn hm with h | h | h | h
    · rw [this.1] at h; cases h
    · exact this.2.1 h
    · exact this.2.2.1 h
    · exact this.2.2.2 h
  · rintro ⟨c', cs, he, hc, hall⟩
    rw [hw, List.cons_append] at he
    obtain ⟨rfl, rfl⟩ := List.cons.inj he
    have := a1 ⟨d, ds, hw, hc, fun e he => hall e (by simp [he])⟩
    rw [hall c (by simp)] at this
    cases this
  · rw [hw]; simp

theorem firstRule_append {w as} (h : ∀ p ∈ as, ¬ Matches p.1 w) (bs : List (Rx × Act)) :
    firstRule w (as ++ bs) = firstRule w bs := by
  induction as with
  | nil => rfl
  | cons p as ih =>
    obtain ⟨r, a⟩ := p
    rw [List.cons_append, firstRule, if_neg, ih fun p hp => h p (by simp [hp])]
    rw [matches_iff]
    exact h (r, a) (by simp)

theorem not_early {w d ds} (hw : w = d :: ds) (hs : Solid d) (hf : ∀ p ∈ fixed, p.1.toList ≠ w) :
    firstRule w rules = firstRule w [(natRx, .num), (decRx, .num), (pointRx, .num), (nameRx, .name),
      (.cls dot, .char)] := by
  unfold rules
  rw [firstRule_append]
  · rw [firstRule, if_neg, firstRule, if_neg]
    · rw [matches_iff]
      intro h
      rw [hw] at h
      exact hs.2.2.2.2 (List.cons.inj (m_chr.1 h)).1
    · rw [matches_iff]
      intro h
      rcases (blank_iff.1 h).2 d (by rw [hw]; simp) with h | h | h
      · exact hs.2.1 h
      · exact hs.2.2.1 h
      · exact hs.2.2.2.1 h
  · intro p hp
    rcases List.mem_cons.1 hp with rfl | hp
    · intro h
      obtain ⟨u, v, he, _⟩ := comment_iff.1 h
      rw [hw] at he
      exact hs.1 (List.cons.inj he).1
    · obtain ⟨q, hq, rfl⟩ := List.mem_map.1 hp
      exact fun h => hf q hq (m_lit.1 h).symm

theorem numeral_first {w} (h : Numeral w) : firstRule w rules = some .num := by
  obtain ⟨d, ds, hw, hd⟩ := numeral_head h
  rw [not_early hw (solid_digit hd)]
  · simp only [firstRule]
    split
    · rfl
    · rename_i h1
      split
      · rfl
      · rename_i h2
        rw [if_pos]
        rw [matches_iff] at h1 h2 ⊢
        rcases numeral_iff.2 h with h | h | h
        · exact absurd h h1
        · exact absurd h h2
        · exact h
  · intro p hp he
    have := (fixed_head p hp).2 d (by rw [he, hw]; rfl)
    rcases hd with hd | hd
    · rw [hd] at this; exact absurd this.2.2.2.2.2.1 (by decide)
    · exact absurd hd this.2.2.2.2.2.2.1

theorem word_first {w} (h : Word w) (hf : ∀ p ∈ fixed, p.1.toList ≠ w) :
    firstRule w rules = some .name := by
  have hn : ¬ Numeral w := by
    intro hn
    obtain ⟨c, cs, rfl, hc⟩ := numeral_head hn
    obtain ⟨d, ds, he, hd, _⟩ := h
    cases he
    have := letter_digit hd
    rcases hc with hc | hc
    · rw [hc] at this; exact absurd this.1 (by decide)
    · exact absurd hc this.2
  obtain ⟨d, ds, hw, hd, _⟩ := id h
  rw [not_early hw (solid_word hd) hf]
  have h1 : ¬ natRx.matches? w = true := by
    rw [matches_iff]; exact fun h => hn (numeral_iff.1 (.inl h))
  have h2 : ¬ decRx.matches? w = true := by
    rw [matches_iff]; exact fun h => hn (numeral_iff.1 (.inr (.inl h)))
  have h3 : ¬ pointRx.matches? w = true := by
    rw [matches_iff]; exact fun h => hn (numeral_iff.1 (.inr (.inr h)))
  have h4 : nameRx.matches? w = true := by rw [matches_iff]; exact name_iff.2 h
  simp only [firstRule, if_neg h1, if_neg h2, if_neg h3, if_pos h4]

theorem longer_split {w s w' : List Char} (h : w' <+: w ++ s) (hl : w.length < w'.length) :
    ∃ c s' x, s = c :: s' ∧ w' = w ++ c :: x ∧ x <+: s' := by
  have hp : w <+: w' := List.prefix_of_prefix_length_le (List.prefix_append _ _) h hl.le
  obtain ⟨y, rfl⟩ := hp
  have hy : y <+: s := (List.prefix_append_right_inj w).1 h
  cases y with
  | nil => simp at hl
  | cons c x =>
    obtain ⟨z, rfl⟩ := hy
    exact ⟨c, x ++ z, x, rfl, rfl, List.prefix_append _ _⟩

theorem longest_of {w s a} (hn : w ≠ []) (h : firstRule w rules = some a)
    (hl : ∀ c s' x, s = c :: s' → x <+: s' → ∀ p ∈ rules, ¬ Matches p.1 (w ++ c :: x)) :
    Longest (w ++ s) w a where
  nonempty := hn
  prefix_ := List.prefix_append _ _
  rule := firstRule_some.1 h
  longest := by
    intro w' h1 h2
    obtain ⟨c, s', x, hs, rfl, hx⟩ := longer_split h1 h2
    exact hl c s' x hs hx

theorem scan_tok {t w s} (h : Writes num t w) (ha : Apart w s) :
    scan num (w ++ s) = (scan num s).map (t :: ·) := by
  obtain ⟨d, ds, hw, _⟩ := writes_head h
  have key : ∃ a, firstRule w rules = some a ∧ a.tokens num w = some (some [t]) := by
    cases h with
    | fixed hww =>
      obtain ⟨p, hp, rfl, rfl⟩ := words_fixed hww
      exact ⟨_, fixed_first _ hp, rfl⟩
    | num hn hq => exact ⟨_, numeral_first hn, by rw [Act.tokens, hq]; rfl⟩
    | id hn hf => exact ⟨_, word_first hn fun p hp => hf _ _ (fixed_words p hp), rfl⟩
    | lp => exact ⟨.char, by decide +kernel, rfl⟩
    | rp => exact ⟨.char, by decide +kernel, rfl⟩
  obtain ⟨a, h1, h2⟩ := key
  have hL : Longest (w ++ s) w a := by
    refine longest_of (by rw [hw]; simp) h1 ?_
    rintro c s' x rfl _
    exact no_longer h ha
  rw [scan_next hL, h2]
  rfl

/-! ## Blanks and comments -/

/-- A character that begins neither a token nor a comment. -/
def Loose (c : Char) : Prop := c ≠ '#' ∧ letter c = false ∧ digit c = false ∧ c ≠ '.' ∧
  ∀ p ∈ fixed, c ∉ p.1.toList.head?

theorem loose_blank {c : Char} (h : c = ' ' ∨ c = '\t' ∨ c = '\r' ∨ c = '\n') : Loose c := by
  refine ⟨?_, ?_, ?_, ?_, fun p hp hc => ?_⟩
  · rcases h with rfl | rfl | rfl | rfl <;> decide
  · rcases h with rfl | rfl | rfl | rfl <;> decide
  · rcases h with rfl | rfl | rfl | rfl <;> decide
  · rcases h with rfl | rfl | rfl | rfl <;> decide
  · have := (fixed_head p hp).2 c hc
    rcases h with rfl | rfl | rfl | rfl <;> simp at this

theorem loose_no_rule {c : Char} {w : List Char} (h : Loose c) (hb : ¬ Matches blankRx (c :: w))
    (hn : w ≠ []) : ∀ p ∈ rules, ¬ Matches p.1 (c :: w) := by
  obtain ⟨h1, h2, h3, h4, h5⟩ := h
  refine no_rule ?_ ?_ hb (by simp [hn]) ?_ ?_ (by simp [hn])
  · intro hm
    obtain ⟨u, v, he, _⟩ := comment_iff.1 hm
    exact h1 (List.cons.inj he).1
  · intro p hp he
    exact h5 p hp (by rw [he]; rfl)
  · intro hm
    obtain ⟨d, ds, he, hd⟩ := numeral_head hm
    cases he
    rcases hd with hd | hd
    · rw [h3] at hd; cases hd
    · exact h4 hd
  · rintro ⟨d, ds, he, hd, _⟩
    cases he
    rw [h2] at hd; cases hd

theorem scan_line (s : List Char) : scan num ('\n' :: s) = scan num s := by
  have hL : Longest (['\n'] ++ s) ['\n'] .skip := by
    refine longest_of (by simp) (by decide +kernel) ?_
    intro c s' x _ _
    refine loose_no_rule (loose_blank (by simp)) ?_ (by simp)
    intro hm
    exact absurd ((blank_iff.1 hm).2 '\n' (by simp)) (by decide)
  have := scan_next (num := num) hL
  rw [List.singleton_append] at this
  rw [this]
  simp [Act.tokens]

/-- Blanks within a line. -/
def blankC (c : Char) : Bool := c == ' ' || c == '\t' || c == '\r'

theorem blankC_iff {c} : blankC c = true ↔ c = ' ' ∨ c = '\t' ∨ c = '\r' := by
  simp [blankC, or_assoc]

theorem scan_blanks {b r : List Char} (hn : b ≠ []) (hb : ∀ c ∈ b, blankC c = true)
    (hr : ∀ c ∈ r.head?, blankC c = false) : scan num (b ++ r) = scan num r := by
  obtain ⟨d, ds, rfl⟩ := List.exists_cons_of_ne_nil hn
  have hd := blankC_iff.1 (hb d (by simp))
  have hl : Loose d := loose_blank (by rcases hd with h | h | h <;> simp [h])
  have hfirst : firstRule (d :: ds) rules = some .skip := by
    unfold rules
    rw [firstRule_append, firstRule, if_pos]
    · rw [matches_iff, blank_iff]
      exact ⟨by simp, fun c hc => blankC_iff.1 (hb c hc)⟩
    · intro p hp
      rcases List.mem_cons.1 hp with rfl | hp
      · intro hm
        obtain ⟨u, v, he, _⟩ := comment_iff.1 hm
        exact hl.1 (List.cons.inj he).1
      · obtain ⟨q, hq, rfl⟩ := List.mem_map.1 hp
        intro hm
        exact hl.2.2.2.2 q hq (by rw [← m_lit.1 hm]; rfl)
  have hL : Longest ((d :: ds) ++ r) (d :: ds) .skip := by
    refine longest_of hn hfirst ?_
    rintro c s' x rfl _
    refine loose_no_rule hl ?_ (by simp)
    intro hm
    have h1 := hr c rfl
    rw [blankC_iff.2 ((blank_iff.1 hm).2 c (by simp))] at h1
    cases h1
  rw [scan_next hL]
  simp [Act.tokens]

theorem drop_head {p : Char → Bool} (s : List Char) : ∀ c ∈ (s.dropWhile p).head?, p c = false := by
  intro c hc
  induction s with
  | nil => simp at hc
  | cons a s ih =>
    rw [List.dropWhile_cons] at hc
    split at hc
    · exact ih hc
    · rename_i h
      simp at hc
      subst hc
      simpa using h

theorem take_all {p : Char → Bool} (s : List Char) : ∀ c ∈ s.takeWhile p, p c = true := by
  intro c hc
  induction s with
  | nil => simp at hc
  | cons a s ih =>
    rw [List.takeWhile_cons] at hc
    split at hc
    · rename_i h
      rcases List.mem_cons.1 hc with rfl | hc
      · exact h
      · exact ih hc
    · simp at hc

theorem scan_blank {c : Char} (h : c = ' ' ∨ c = '\t' ∨ c = '\r' ∨ c = '\n') (s : List Char) :
    scan num (c :: s) = scan num s := by
  by_cases hc : blankC c = true
  · have hs := List.takeWhile_append_dropWhile (p := blankC) (l := s)
    have h1 : scan num (c :: s) = scan num (s.dropWhile blankC) := by
      have := scan_blanks (num := num) (b := c :: s.takeWhile blankC) (r := s.dropWhile blankC)
        (by simp) (fun d hd => by
          rcases List.mem_cons.1 hd with rfl | hd
          · exact hc
          · exact take_all s d hd) (drop_head s)
      rwa [List.cons_append, hs] at this
    rw [h1]
    by_cases hb : s.takeWhile blankC = []
    · rw [hb, List.nil_append] at hs
      rw [hs]
    · have := scan_blanks (num := num) (b := s.takeWhile blankC) (r := s.dropWhile blankC) hb
        (take_all s) (drop_head s)
      rw [hs] at this
      exact this.symm
  · rw [blankC_iff] at hc
    obtain rfl : c = '\n' := by
      rcases h with h | h | h | h
      · exact absurd (.inl h) hc
      · exact absurd (.inr (.inl h)) hc
      · exact absurd (.inr (.inr h)) hc
      · exact h
    exact scan_line s

/-- Ends of lines. -/
def eol (c : Char) : Bool := c == '\n' || c == '\r'

theorem eol_iff {c} : eol c = true ↔ c = '\n' ∨ c = '\r' := by simp [eol]

theorem scan_eols : ∀ {e r : List Char}, (∀ c ∈ e, eol c = true) → scan num (e ++ r) = scan num r
  | [], _, _ => rfl
  | c :: e, r, h => by
    rw [List.cons_append, scan_blank, scan_eols fun d hd => h d (by simp [hd])]
    rcases eol_iff.1 (h c (by simp)) with h | h <;> simp [h]

theorem hash_no_rule {w : List Char} (h : ¬ Matches commentRx ('#' :: w)) (hn : w ≠ []) :
    ∀ p ∈ rules, ¬ Matches p.1 ('#' :: w) := by
  refine no_rule h ?_ ?_ (by simp [hn]) ?_ ?_ (by simp [hn])
  · intro p hp he
    exact absurd rfl ((fixed_head p hp).2 '#' (by rw [he]; rfl)).1
  · intro hm
    exact absurd ((blank_iff.1 hm).2 '#' (by simp)) (by decide)
  · intro hm
    obtain ⟨d, ds, he, hd⟩ := numeral_head hm
    cases he
    exact absurd hd (by decide)
  · rintro ⟨d, ds, he, hd, _⟩
    cases he
    exact absurd hd (by decide)

theorem scan_comment {line : List Char} (h : '\n' ∉ line) (s : List Char) :
    scan num ('#' :: (line ++ '\n' :: s)) = scan num s := by
  have hs := List.takeWhile_append_dropWhile (p := eol) (l := s)
  have he := take_all (p := eol) s
  have hr := drop_head (p := eol) s
  generalize s.takeWhile eol = e at *
  generalize s.dropWhile eol = r at *
  subst hs
  have hm : Matches commentRx ('#' :: (line ++ '\n' :: e)) :=
    comment_iff.2 ⟨line, '\n' :: e, rfl, h, by simp, fun c hc => by
      rcases List.mem_cons.1 hc with rfl | hc
      · exact .inl rfl
      · exact eol_iff.1 (he c hc)⟩
  have hL : Longest (('#' :: (line ++ '\n' :: e)) ++ r) ('#' :: (line ++ '\n' :: e)) .skip := by
    refine longest_of (by simp) ?_ ?_
    · unfold rules
      rw [List.cons_append, firstRule, if_pos ((matches_iff _ _).2 hm)]
    · rintro c s' x rfl _
      refine hash_no_rule ?_ (by simp)
      intro hm'
      obtain ⟨u, v, heq, hu, _, hv⟩ := comment_iff.1 hm'
      have heq : line ++ '\n' :: (e ++ c :: x) = u ++ v := by
        have := (List.cons.inj heq).2
        simpa using this
      have hc : eol c = false := hr c rfl
      have hcv : c ∈ v → False := fun hcv => by
        rw [eol_iff.2 (hv c hcv)] at hc; cases hc
      rcases List.append_eq_append_iff.1 heq with ⟨a, ha, hb⟩ | ⟨a, ha, hb⟩
      · cases a with
        | nil => exact hcv (by rw [List.nil_append] at hb; rw [← hb]; simp)
        | cons b a =>
          obtain ⟨rfl, _⟩ := List.cons.inj hb
          exact hu (by rw [ha]; simp)
      · exact hcv (by rw [hb]; simp)
  have := scan_next (num := num) hL
  rw [show ('#' :: (line ++ '\n' :: e)) ++ r = '#' :: (line ++ '\n' :: (e ++ r)) by simp] at this
  rw [this, scan_eols he]
  simp [Act.tokens]

/-- What tells any token apart from what follows. -/
def Sep (c : Char) : Prop := wordChar c = false ∧ c ≠ '=' ∧ c ≠ '>'

theorem sep_apart {c : Char} (h : Sep c) (w s : List Char) : Apart w (c :: s) := by
  obtain ⟨h1, h2, h3⟩ := h
  simp only [wordChar, Bool.or_eq_false_iff, beq_eq_false_iff_ne] at h1
  obtain ⟨⟨⟨hl, hd⟩, _⟩, hp⟩ := h1
  refine ⟨fun _ => ?_, fun _ => ⟨hd, hp, ?_, ?_⟩, fun _ => ⟨h2, h3⟩⟩
  · simp only [wordChar, Bool.or_eq_false_iff, beq_eq_false_iff_ne]
    exact ⟨⟨⟨hl, hd⟩, by assumption⟩, hp⟩
  · rintro rfl; exact absurd hl (by decide)
  · rintro rfl; exact absurd hl (by decide)

theorem laid_scan {s ts} (h : Laid num s ts) : ∀ {rest}, (∀ c ∈ rest.head?, Sep c) →
    scan num (s ++ rest) = (scan num rest).map (ts ++ ·) := by
  induction h with
  | nil => intro rest _; simp
  | blank hc _ ih => intro rest hr; rw [List.cons_append, scan_blank hc, ih hr]
  | @comment line s ts hl _ ih =>
    intro rest hr
    rw [show '#' :: (line ++ '\n' :: s) ++ rest = '#' :: (line ++ '\n' :: (s ++ rest)) by simp,
      scan_comment hl, ih hr]
  | @tok t w s ts hw ha _ ih =>
    intro rest hr
    have ha' : Apart w (s ++ rest) := by
      cases s with
      | nil =>
        cases rest with
        | nil => trivial
        | cons c rest => exact sep_apart (hr c rfl) _ _
      | cons c s => exact ha
    rw [List.append_assoc, scan_tok hw ha', ih hr, Option.map_map]
    rfl

/-- A comment that no line ends. -/
theorem scan_open_comment {line : List Char} (h : ∀ c ∈ line, eol c = false) :
    scan num ('#' :: line) = (scan num line).map (Tok.other '#' :: ·) := by
  have hL : Longest (['#'] ++ line) ['#'] .char := by
    refine longest_of (by simp) (by decide +kernel) ?_
    rintro c s' x rfl hx
    refine hash_no_rule ?_ (by simp)
    intro hm
    obtain ⟨u, v, he, _, hn, hv⟩ := comment_iff.1 hm
    obtain ⟨d, ds, rfl⟩ := List.exists_cons_of_ne_nil hn
    have hd : d ∈ c :: x := by
      have : c :: x = u ++ d :: ds := (List.cons.inj he).2
      rw [this]; simp
    have : d ∈ c :: s' := by
      rcases List.mem_cons.1 hd with h | h
      · simp [h]
      · exact List.mem_cons_of_mem _ (hx.subset h)
    exact absurd (h d this) (by rw [eol_iff.2 (hv d (by simp))]; decide)
  have := scan_next (num := num) hL
  rw [List.singleton_append] at this
  rw [this]
  simp [Act.tokens]

theorem fixed_ascii : ∀ p ∈ fixed, ∀ c ∈ p.1.toList.head?, c.toNat ≠ 0 ∧ c.toNat < 128 := by
  decide +kernel

/-- The end of the input for the parser. -/
def Final (c : Char) : Prop := c.toNat = 0 ∨ 128 ≤ c.toNat

theorem loose_final {c : Char} (h : Final c) : Loose c := by
  unfold Final at h
  refine ⟨char_ne ?_, Bool.eq_false_iff.2 fun hl => ?_, Bool.eq_false_iff.2 fun hd => ?_, char_ne ?_,
    fun p hp hc => ?_⟩
  · show c.toNat ≠ 35; omega
  · rw [letter_iff] at hl; omega
  · rw [digit_iff] at hd; omega
  · show c.toNat ≠ 46; omega
  · have := fixed_ascii p hp c hc; omega

theorem scan_final {c : Char} (h : Final c) (s : List Char) : scan num (c :: s) = some [] := by
  have hl := loose_final h
  have hb : ∀ w, ¬ Matches blankRx (c :: w) := by
    intro w hm
    unfold Final at h
    rcases (blank_iff.1 hm).2 c (by simp) with rfl | rfl | rfl <;> simp at h
  have hne : c ≠ '\n' := by
    unfold Final at h
    rintro rfl; simp at h
  have hfirst : firstRule [c] rules = some .char := by
    unfold rules
    have h1 : ¬ Numeral [c] := by
      intro hm
      obtain ⟨d, ds, he, hd⟩ := numeral_head hm
      cases he
      rcases hd with hd | hd
      · rw [hl.2.2.1] at hd; cases hd
      · exact hl.2.2.2.1 hd
    have h2 : ¬ Word [c] := by
      rintro ⟨d, ds, he, hd, _⟩
      cases he
      rw [hl.2.1] at hd; cases hd
    rw [show (commentRx, Act.skip) :: fixed.map (fun p => (Rx.lit p.1.toList, Act.tok p.2)) ++
        [(blankRx, .skip), (lineRx, .skip), (natRx, .num), (decRx, .num), (pointRx, .num),
          (nameRx, .name), (.cls dot, .char)] =
      ((commentRx, Act.skip) :: fixed.map (fun p => (Rx.lit p.1.toList, Act.tok p.2)) ++
        [(blankRx, .skip), (lineRx, .skip), (natRx, .num), (decRx, .num), (pointRx, .num),
          (nameRx, .name)]) ++ [(.cls dot, .char)] by simp, firstRule_append, firstRule, if_pos]
    · rw [matches_iff]; exact .cls (by simpa [dot] using hne)
    · intro p hp
      rw [List.mem_append] at hp
      rcases hp with hp | hp
      · rcases List.mem_cons.1 hp with rfl | hp
        · intro hm
          obtain ⟨u, v, he, _⟩ := comment_iff.1 hm
          exact hl.1 (List.cons.inj he).1
        · obtain ⟨q, hq, rfl⟩ := List.mem_map.1 hp
          intro hm
          exact hl.2.2.2.2 q hq (by rw [← m_lit.1 hm]; rfl)
      · simp only [List.mem_cons, List.not_mem_nil, or_false] at hp
        rcases hp with rfl | rfl | rfl | rfl | rfl | rfl
        · exact hb []
        · intro hm; exact hne (List.cons.inj (m_chr.1 hm)).1
        · exact fun hm => h1 (numeral_iff.1 (.inl hm))
        · exact fun hm => h1 (numeral_iff.1 (.inr (.inl hm)))
        · exact fun hm => h1 (numeral_iff.1 (.inr (.inr hm)))
        · exact fun hm => h2 (name_iff.1 hm)
  have hL : Longest ([c] ++ s) [c] .char := by
    refine longest_of (by simp) hfirst ?_
    rintro d s' x rfl _
    exact loose_no_rule hl (hb _) (by simp)
  have := scan_next (num := num) hL
  rw [List.singleton_append] at this
  rw [this]
  have h1 : c ≠ '(' := by rintro rfl; simp [Final] at h
  have h2 : c ≠ ')' := by rintro rfl; simp [Final] at h
  have : Act.tokens num [c] .char = some none := by
    unfold Act.tokens
    split <;> simp_all [Final]
  rw [this]

end Verif.Proof.DrScan
