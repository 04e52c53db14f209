import Verif.Proof.DrScan
import Verif.Proof.DrParse
import Verif.Proof.Literal

/-! # Writing problems -/

namespace Verif.Proof.DrScan
open Verif Verif.Model Verif.Model.Dr Verif.Model.DrParse Verif.Model.DrScan Verif.Spec Verif.Spec.DrScan
  Verif.Spec.DrGrammar

variable {num : List Char → Option ℚ}

/-- Tokens that can be written are written with spaces. -/
theorem laid_exists : ∀ {ts : List Tok}, (∀ t ∈ ts, CanWrite num t) → ∃ s, Laid num s ts
  | [], _ => ⟨[], .nil⟩
  | t :: ts, h => by
    obtain ⟨w, hw⟩ := h t (by simp)
    obtain ⟨s, hs⟩ := laid_exists (ts := ts) fun u hu => h u (List.mem_cons_of_mem _ hu)
    exact ⟨w ++ ' ' :: s, .tok hw (sep_apart (by unfold Sep; decide) _ _) (.blank (.inl rfl) hs)⟩

theorem can_fixed {t : Tok} (h : ∃ p ∈ fixed, p.2 = t) : CanWrite num t := by
  obtain ⟨p, hp, rfl⟩ := h
  exact ⟨_, .fixed (fixed_words _ hp)⟩

theorem reads_atom {ts e} (h : Reads .atom ts e) : Reads .sum ts e := .prod (.sgn (.pow (.atom h)))

theorem readsF_unit {ts f} (h : ReadsF .unit ts f) : ReadsF .imp ts f := .or (.and (.unit h))

theorem fn1_fixed (f : Fn1) : ∃ p ∈ fixed, p.2 = .fn1 f := by cases f <;> decide +kernel

theorem fn2_fixed (f : Fn2) (h : f ≠ .div) : ∃ p ∈ fixed, p.2 = .fn2 f := by
  cases f
  · exact absurd rfl h
  all_goals decide +kernel

theorem can_app {as bs : List Tok} (h1 : ∀ t ∈ as, CanWrite num t) (h2 : ∀ t ∈ bs, CanWrite num t) :
    ∀ t ∈ as ++ bs, CanWrite num t := by
  intro t ht
  rcases List.mem_append.1 ht with h | h
  · exact h1 t h
  · exact h2 t h

theorem can_one {t : Tok} (h : CanWrite num t) : ∀ u ∈ [t], CanWrite num u := by
  intro u hu
  rw [List.mem_singleton.1 hu]; exact h

theorem can_lp : CanWrite num .lp := ⟨_, .lp⟩

theorem can_rp : CanWrite num .rp := ⟨_, .rp⟩

theorem can_paren {as : List Tok} (h : ∀ t ∈ as, CanWrite num t) :
    ∀ t ∈ [.lp] ++ as ++ [.rp], CanWrite num t :=
  can_app (can_app (can_one can_lp) h) (can_one can_rp)

theorem can_bin {o : Tok} (ho : ∃ p ∈ fixed, p.2 = o) {as bs : List Tok}
    (h1 : ∀ t ∈ as, CanWrite num t) (h2 : ∀ t ∈ bs, CanWrite num t) :
    ∀ t ∈ as ++ [o] ++ bs, CanWrite num t :=
  can_app (can_app h1 (can_one (can_fixed ho))) h2

theorem write_expr (e : DExpr) : WriteE num e →
    ∃ ts, Reads .atom ts e ∧ ∀ t ∈ ts, CanWrite num t := by
  induction e with
  | num q => exact fun h => ⟨_, .num q, can_one h⟩
  | id n => exact fun h => ⟨_, .id n, can_one h⟩
  | neg a ih =>
    intro h
    obtain ⟨ts, h1, h2⟩ := ih h
    exact ⟨_, .paren (.prod (.sgn (.neg (.pow (.atom h1))))),
      can_paren (can_app (can_one (can_fixed (by decide +kernel))) h2)⟩
  | add a b ih1 ih2 =>
    rintro ⟨ha, hb⟩
    obtain ⟨ts, h1, h2⟩ := ih1 ha
    obtain ⟨us, h3, h4⟩ := ih2 hb
    exact ⟨_, .paren (.add (reads_atom h1) (.sgn (.pow (.atom h3)))),
      can_paren (can_bin (by decide +kernel) h2 h4)⟩
  | sub a b ih1 ih2 =>
    rintro ⟨ha, hb⟩
    obtain ⟨ts, h1, h2⟩ := ih1 ha
    obtain ⟨us, h3, h4⟩ := ih2 hb
    exact ⟨_, .paren (.sub (reads_atom h1) (.sgn (.pow (.atom h3)))),
      can_paren (can_bin (by decide +kernel) h2 h4)⟩
  | mul a b ih1 ih2 =>
    rintro ⟨ha, hb⟩
    obtain ⟨ts, h1, h2⟩ := ih1 ha
    obtain ⟨us, h3, h4⟩ := ih2 hb
    exact ⟨_, .paren (.prod (.mul (.sgn (.pow (.atom h1))) (.pow (.atom h3)))),
      can_paren (can_bin (by decide +kernel) h2 h4)⟩
  | fn1 f a ih =>
    intro h
    obtain ⟨ts, h1, h2⟩ := ih h
    refine ⟨_, .fn1 f (reads_atom h1), can_app (can_app ?_ h2) (can_one can_rp)⟩
    exact can_app (as := [.fn1 f]) (bs := [.lp]) (can_one (can_fixed (fn1_fixed f))) (can_one can_lp)
  | fn2 f a b ih1 ih2 =>
    rintro ⟨ha, hb⟩
    obtain ⟨ts, h1, h2⟩ := ih1 ha
    obtain ⟨us, h3, h4⟩ := ih2 hb
    by_cases hf : f = .div
    · subst hf
      exact ⟨_, .paren (.prod (.div (.sgn (.pow (.atom h1))) (.pow (.atom h3)))),
        can_paren (can_bin (by decide +kernel) h2 h4)⟩
    · refine ⟨_, .fn2 f (reads_atom h1) (reads_atom h3), can_app (can_app (can_app (can_app ?_ h2)
        (can_one (can_fixed (by decide +kernel)))) h4) (can_one can_rp)⟩
      exact can_app (as := [.fn2 f]) (bs := [.lp]) (can_one (can_fixed (fn2_fixed f hf)))
        (can_one can_lp)

theorem write_fml (f : DFml) : WriteF num f →
    ∃ ts, ReadsF .unit ts f ∧ ∀ t ∈ ts, CanWrite num t := by
  induction f with
  | rel o a b =>
    rintro ⟨ha, hb⟩
    obtain ⟨ts, h1, h2⟩ := write_expr a ha
    obtain ⟨us, h3, h4⟩ := write_expr b hb
    exact ⟨_, .rel o (reads_atom h1) (reads_atom h3), can_bin (by cases o <;> decide +kernel) h2 h4⟩
  | and f g ih1 ih2 =>
    rintro ⟨ha, hb⟩
    obtain ⟨ts, h1, h2⟩ := ih1 ha
    obtain ⟨us, h3, h4⟩ := ih2 hb
    exact ⟨_, .paren (.or (.and (.conj (.unit h1) h3))), can_paren (can_bin (by decide +kernel) h2 h4)⟩
  | or f g ih1 ih2 =>
    rintro ⟨ha, hb⟩
    obtain ⟨ts, h1, h2⟩ := ih1 ha
    obtain ⟨us, h3, h4⟩ := ih2 hb
    exact ⟨_, .paren (.or (.disj (.and (.unit h1)) (.unit h3))),
      can_paren (can_bin (by decide +kernel) h2 h4)⟩
  | imp f g ih1 ih2 =>
    rintro ⟨ha, hb⟩
    obtain ⟨ts, h1, h2⟩ := ih1 ha
    obtain ⟨us, h3, h4⟩ := ih2 hb
    exact ⟨_, .paren (.impl (.and (.unit h1)) (readsF_unit h3)),
      can_paren (can_bin (by decide +kernel) h2 h4)⟩
  | not f ih =>
    intro h
    obtain ⟨ts, h1, h2⟩ := ih h
    exact ⟨_, .not h1, can_app (can_one (can_fixed (by decide +kernel))) h2⟩

theorem write_decl {ev : DExpr → Option EQ} (d : DDecl) (h : WriteD num ev d) :
    ∃ ts, SpellsDecl ev ts d ∧ ∀ t ∈ ts, CanWrite num t := by
  obtain ⟨hn, a, b, ha, hb, hl, hu⟩ := h
  obtain ⟨ts, h1, h2⟩ := write_expr a ha
  obtain ⟨us, h3, h4⟩ := write_expr b hb
  refine ⟨_, .bounds (n := d.name) (reads_atom h1) (reads_atom h3) hl hu, ?_⟩
  have hsemi : CanWrite num .semi := can_fixed (by decide +kernel)
  have hrb : CanWrite num .rb := can_fixed (by decide +kernel)
  refine can_app (can_app (can_app (can_app (can_one (can_fixed (by decide +kernel))) h2)
    (can_one (can_fixed (by decide +kernel)))) h4) ?_
  exact can_app (as := [.rb]) (bs := [.id d.name, .semi]) (can_one hrb)
    (can_app (as := [.id d.name]) (bs := [.semi]) (can_one hn) (can_one hsemi))

theorem write_all {α : Type} {P : List Tok → α → Prop} :
    ∀ {as : List α}, (∀ a ∈ as, ∃ ts, P ts a ∧ ∀ t ∈ ts, CanWrite num t) →
      ∃ ts, SpellsAll P ts as ∧ ∀ t ∈ ts, CanWrite num t
  | [], _ => ⟨[], .nil, by simp⟩
  | a :: as, h => by
    obtain ⟨ts, h1, h2⟩ := h a (by simp)
    obtain ⟨us, h3, h4⟩ := write_all (as := as) fun b hb => h b (List.mem_cons_of_mem _ hb)
    exact ⟨ts ++ us, .cons h1 h3, can_app h2 h4⟩

theorem write_section {α : Type} {P : List Tok → α → Prop} {key : Tok} (hk : ∃ p ∈ fixed, p.2 = key)
    {as : List α} (h : ∀ a ∈ as, ∃ ts, P ts a ∧ ∀ t ∈ ts, CanWrite num t) :
    ∃ ts, SpellsSection key P ts as ∧ ∀ t ∈ ts, CanWrite num t := by
  by_cases hn : as = []
  · exact ⟨[], .inl ⟨rfl, hn⟩, by simp⟩
  · obtain ⟨ts, h1, h2⟩ := write_all h
    refine ⟨_, .inr ⟨ts, rfl, hn, h1⟩, can_app ?_ h2⟩
    exact can_app (as := [key]) (bs := [.colon]) (can_one (can_fixed hk))
      (can_one (can_fixed (by decide +kernel)))

theorem write_problem {ev : DExpr → Option EQ} (p : DProb) (hn : p.decls ≠ [])
    (hd : ∀ d ∈ p.decls, WriteD num ev d) (hc : ∀ f ∈ p.ctrs, WriteF num f)
    (ho : ∀ e ∈ p.costs, WriteE num e) :
    ∃ ts, Spells ev ts p ∧ ∀ t ∈ ts, CanWrite num t := by
  have hsemi : CanWrite num .semi := can_fixed (by decide +kernel)
  obtain ⟨us, h1, h2⟩ := write_all (num := num) fun d h => write_decl d (hd d h)
  obtain ⟨vs, h3, h4⟩ := write_section (num := num) (P := SpellsCtr) (key := .ctr) (as := p.ctrs)
    (by decide +kernel) (fun f hf => by
      obtain ⟨ts, h1, h2⟩ := write_fml f (hc f hf)
      exact ⟨_, ⟨ts, readsF_unit h1, rfl⟩, can_app h2 (can_one hsemi)⟩)
  obtain ⟨ws, h5, h6⟩ := write_section (num := num) (P := SpellsCost) (key := .cost) (as := p.costs)
    (by decide +kernel) (fun e he => by
      obtain ⟨ts, h1, h2⟩ := write_expr e (ho e he)
      exact ⟨_, ⟨ts, reads_atom h1, rfl⟩, can_app h2 (can_one hsemi)⟩)
  refine ⟨_, ⟨us, vs, ws, rfl, hn, h1, h3, h5⟩, can_app (can_app (can_app ?_ h2) h4) h6⟩
  exact can_app (as := [.var]) (bs := [.colon]) (can_one (can_fixed (by decide +kernel)))
    (can_one (can_fixed (by decide +kernel)))

/-! ## Tokens that are errors -/

theorem reads_other {L ts e} (h : Reads L ts e) : ∀ c, Tok.other c ∉ ts := by
  induction h <;> intro c <;> simp_all

theorem readsF_other {L ts f} (h : ReadsF L ts f) : ∀ c, Tok.other c ∉ ts := by
  induction h with
  | rel o h1 h2 =>
    intro c
    have := reads_other h1 c
    have := reads_other h2 c
    cases o <;> simp_all [relTok]
  | _ => intro c; simp_all

theorem all_other {α : Type} {P : List Tok → α → Prop} {c : Char}
    (hP : ∀ {ts a}, P ts a → Tok.other c ∉ ts) {ts as} (h : SpellsAll P ts as) : Tok.other c ∉ ts := by
  induction h with
  | nil => simp
  | cons h1 _ ih => simp [hP h1, ih]

theorem section_other {α : Type} {P : List Tok → α → Prop} {c : Char} {key : Tok}
    (hk : key ≠ .other c) (hP : ∀ {ts a}, P ts a → Tok.other c ∉ ts) {ts as}
    (h : SpellsSection key P ts as) : Tok.other c ∉ ts := by
  rcases h with ⟨rfl, _⟩ | ⟨us, rfl, _, h⟩
  · simp
  · simp [all_other hP h, hk.symm]

theorem spells_other {ev ts p} (h : Spells ev ts p) (c : Char) : Tok.other c ∉ ts := by
  obtain ⟨us, vs, ws, rfl, _, h2, h3, h4⟩ := h
  have e1 : Tok.other c ∉ us := all_other (fun {ts a} h => by
    cases h with
    | bounds h1 h2 => simp [reads_other h1 c, reads_other h2 c]
    | point h1 => simp [reads_other h1 c]) h2
  have e2 : Tok.other c ∉ vs := section_other (by simp)
    (fun {ts a} ⟨us, h, he⟩ => by rw [he]; simp [readsF_other h c]) h3
  have e3 : Tok.other c ∉ ws := section_other (by simp)
    (fun {ts a} ⟨us, h, he⟩ => by rw [he]; simp [reads_other h c]) h4
  simp [e1, e2, e3]

/-! ## Values -/

theorem digit_isDigit (c : Char) : digit c = true ↔ '0' ≤ c ∧ c ≤ '9' := by
  simp [digit]

theorem numeral_value {w} (h : Numeral w) : ∃ q, IsDec w q := by
  obtain ⟨ip, fp, ex, h1, h2, h3, h⟩ := h
  have hex : ∃ e, IsExp ex e := by
    rcases h3 with rfl | ⟨c, sg, ds, rfl, hc, hs, hn, hd⟩
    · exact ⟨0, .inl ⟨rfl, rfl⟩⟩
    · have hds : IsDigits ds (Nat.ofDigits 10 (ds.reverse.map fun c => c.toNat - 48)) :=
        ⟨fun c hc => (digit_isDigit c).1 (hd c hc), rfl⟩
      rcases hs with rfl | rfl | rfl
      · exact ⟨_, .inr ⟨c, [], ds, _, hc, rfl, hn, hds, .inr ⟨.inr rfl, rfl⟩⟩⟩
      · exact ⟨_, .inr ⟨c, _, ds, _, hc, rfl, hn, hds, .inl ⟨rfl, rfl⟩⟩⟩
      · exact ⟨_, .inr ⟨c, _, ds, _, hc, rfl, hn, hds, .inr ⟨.inl rfl, rfl⟩⟩⟩
  obtain ⟨e, he⟩ := hex
  have hdig : ∀ {l : List Char}, (∀ d ∈ l, digit d = true) →
      IsDigits l (Nat.ofDigits 10 (l.reverse.map fun c => c.toNat - 48)) :=
    fun h => ⟨fun c hc => (digit_isDigit c).1 (h c hc), rfl⟩
  rcases h with ⟨rfl, hn⟩ | ⟨rfl, hn⟩ | ⟨rfl, hn⟩
  · exact ⟨_, ip, [], ex, _, e, .inr ⟨rfl, rfl⟩, by simpa using hn, hdig (by simpa using h1), he, rfl⟩
  · refine ⟨_, ip, fp, ex, _, e, .inl (by simp), by simp [hn], hdig ?_, he, rfl⟩
    intro d hd
    rcases List.mem_append.1 hd with hd | hd
    · exact h1 d hd
    · exact h2 d hd
  · exact ⟨_, ip, [], [], _, 0, .inl (by simp), by simpa using hn, hdig (by simpa using h1),
      .inl ⟨rfl, rfl⟩, rfl⟩

theorem numeral_stod {w q} (h : Numeral w) (hq : IsDec w q) {rangeErr : ℚ → Bool} {near : ℚ → ℚ}
    (h1 : |near q| ≤ maxDouble) (h2 : rangeErr q = false) :
    stodOf rangeErr near w = some (near q) := by
  obtain ⟨c, cs, rfl, hc⟩ := numeral_head h
  have hd : decVal (c :: cs) = unsignedVal (c :: cs) := by
    have h1 : c ≠ '-' ∧ c ≠ '+' := by
      rcases hc with hc | rfl
      · exact digit_plain hc
      · decide
    unfold decVal
    split
    · rename_i he; cases he; exact absurd rfl h1.1
    · rename_i he; cases he; exact absurd rfl h1.2
    · rfl
  simp only [stodOf, stod, hd, unsignedVal_iff.2 hq, h2, not_lt.2 h1, or_self, if_false,
    Bool.false_eq_true]

end Verif.Proof.DrScan
