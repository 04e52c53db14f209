import Verif.Proof.DrWrite
import Verif.Props.DrParse
import Verif.Props.Dr
import Verif.Props.Main

/-!
# C71: the text of a `dr` file
-/

namespace Verif.Props
open Verif Verif.Model Verif.Model.Dr Verif.Model.DrParse Verif.Model.DrScan Verif.Spec Verif.Spec.DrScan
  Verif.Spec.DrGrammar Verif.Proof.DrScan

/-- **C71**: the tokens of a text are its longest matches, each by the first rule that matches it; there
is only one such list of tokens. -/
theorem C71_longest (num : List Char → Option ℚ) (s : List Char) (ts : List Tok) :
    scan num s = some ts ↔ Scans num s ts := scans_iff

/-- **C71**: tokens are read as they are written, with any blanks and comments between them, and without
blanks where they can be told apart. -/
theorem C71_layout (num : List Char → Option ℚ) (s : List Char) (ts : List Tok) (h : Laid num s ts) :
    scan num s = some ts := by
  have := laid_scan h (rest := []) (by simp)
  rw [List.append_nil] at this
  rw [this]
  simp [scan, scanN]

/-- **C71**: how a text is read as a problem depends on its tokens only: texts with the same tokens are
read alike, as the problem the tokens spell, if they spell one. -/
theorem C71_problem (num : List Char → Option ℚ) (ev : DExpr → Option EQ) (text : String) (ts : List Tok)
    (h : Laid num text.toList ts) (p : DProb) : readText num ev text = some p ↔ Spells ev ts p := by
  rw [← C70_problem]
  simp [readText, C71_layout num _ _ h]

/-- **C71**: every problem that can be written is what some text is read as. -/
theorem C71_writable (num : List Char → Option ℚ) (ev : DExpr → Option EQ) (p : DProb)
    (h : CanWriteP num ev p) : ∃ text, readText num ev text = some p := by
  obtain ⟨ts, h1, h2⟩ := write_problem p h.1 h.2.1 h.2.2.1 h.2.2.2
  obtain ⟨s, hs⟩ := laid_exists h2
  exact ⟨String.ofList s, (C71_problem num ev _ ts (by simpa using hs) p).2 h1⟩

/-- **C71**: a number is the rounding of the decimal number it is. -/
theorem C71_number (w : List Char) (h : Numeral w) : ∃ q, IsDec w q ∧
    ∀ (rangeErr : ℚ → Bool) (near : ℚ → ℚ), |near q| ≤ maxDouble → rangeErr q = false →
      Writes (stodOf rangeErr near) (.num (near q)) w := by
  obtain ⟨q, hq⟩ := numeral_value h
  exact ⟨q, hq, fun _ _ h1 h2 => .num h (numeral_stod h hq h1 h2)⟩

/-- **C71**: false — a comment on the last line, without an end of that line, is an error, whatever the
text before it. -/
theorem C71_open_comment (num : List Char → Option ℚ) (ev : DExpr → Option EQ) (s line : List Char)
    (ts : List Tok) (h : Laid num s ts) (hl : ∀ c ∈ line, c ≠ '\n' ∧ c ≠ '\r') :
    readText num ev (String.ofList (s ++ '#' :: line)) = none := by
  have he : ∀ c ∈ line, eol c = false := fun c hc => by
    simp [eol, hl c hc]
  have h1 := laid_scan h (rest := '#' :: line) (by
    intro c hc
    simp at hc
    subst hc
    unfold Verif.Proof.DrScan.Sep; decide)
  rw [scan_open_comment he] at h1
  cases hr : readText num ev (String.ofList (s ++ '#' :: line)) with
  | none => rfl
  | some p =>
    exfalso
    simp only [readText, String.toList_ofList, h1, Option.map_map] at hr
    cases hs : scan num line with
    | none => rw [hs] at hr; cases hr
    | some us =>
      rw [hs] at hr
      have := (C70_problem ev _ p).1 hr
      exact spells_other this '#' (by simp)

/-- **C71**: false — what follows a character that is not ASCII, or a null character, outside of
comments, is ignored: the text ends there. -/
theorem C71_cut (num : List Char → Option ℚ) (ev : DExpr → Option EQ) (s rest : List Char) (c : Char)
    (ts : List Tok) (h : Laid num s ts) (hc : c.toNat = 0 ∨ 128 ≤ c.toNat) :
    readText num ev (String.ofList (s ++ c :: rest)) = readText num ev (String.ofList s) := by
  have h1 := laid_scan h (rest := c :: rest) (by
    intro d hd
    simp at hd
    subst hd
    have hl := loose_final (c := c) hc
    refine ⟨?_, char_ne ?_, char_ne ?_⟩
    · have : c ≠ '_' := char_ne (by show c.toNat ≠ 95; omega)
      simp [wordChar, hl.2.1, hl.2.2.1, hl.2.2.2.1, this]
    · show c.toNat ≠ 61; omega
    · show c.toNat ≠ 62; omega)
  rw [scan_final hc] at h1
  simp only [readText, String.toList_ofList, h1, C71_layout num s ts h]
  simp

/-- **C71**: what the program answers for a file of this format is what it finds for the problem that the
tokens of the file spell. -/
theorem C71_program (smt2 : String → List Main.FCmd) (num : List Char → Option ℚ)
    (ev : DExpr → Option EQ) (fmt : ℚ → String) (mk : Opts → CCfg) (w : Main.World)
    (cl : Main.CmdLine) (file : String) (text : String) (ts : List Tok) (p : DProb)
    (ht : Main.task w cl = .dr file) (hr : w.read file = some text) (hl : Laid num text.toList ts)
    (hs : Spells ev ts p) :
    Main.program ⟨smt2, readText num ev⟩ fmt mk w cl =
      (do let r ← Dr.solve (mk cl.extract) p
          Run.ok (0, [Main.drLine cl.extract r])) := by
  simp only [Main.program, ht, hr, Option.bind_some, (C71_problem num ev text ts hl p).2 hs]

/-- C71 for `unsat`: from the text of a file without costs to its meaning.  Missing: what is missing in
`C56_unsat_partial`. -/
theorem C71_unsat_partial (D : Dom) (I : Interp) (smt2 : String → List Main.FCmd)
    (num : List Char → Option ℚ) (ev : DExpr → Option EQ) (fmt : ℚ → String) (mk : Opts → CCfg)
    (w : Main.World) (cl : Main.CmdLine) (name text : String)
    (hA : Verif.Spec.Main.Asks w cl .dr name text) (ts : List Tok) (p : DProb)
    (hl : Laid num text.toList ts) (hs : Spells ev ts p) (hc : p.costs = [])
    (hmk : EnvOk D I (mk cl.extract).env ∧ DblOk (mk cl.extract).th.dbl ∧ PicosatOk (mk cl.extract).ps)
    (n : Nat) (h : Main.program ⟨smt2, readText num ev⟩ fmt mk w cl = .ok (n, [.unsat])) :
    ¬ ∃ σ, Verif.Spec.Dr.Solves I p σ ∧ Verif.Spec.Dr.Ordinary D I (mk cl.extract).th.dbl p σ := by
  rw [(C69_asked _ fmt mk w cl name text).2 p ((C71_problem num ev text ts hl p).2 hs) hA] at h
  obtain ⟨r, h1, h2⟩ := Verif.Proof.bindR_ok h
  have hr : r = none := by
    cases r with
    | none => rfl
    | some m => simp [Main.drLine] at h2
  subst hr
  exact C56_unsat_partial D I _ hmk.1 hmk.2.1 hmk.2.2 p hc h1

/-- C71 for `delta-sat with delta = δ` and a model: from the text of a file without costs to its
meaning.  The precision printed is that of the command line, and every point of the model is within the
declared bounds and satisfies the constraints, weakened by `δ`.  Missing: what is missing in
`C56_delta_sat_partial`. -/
theorem C71_delta_sat_partial (D : Dom) (I : Interp) (smt2 : String → List Main.FCmd)
    (num : List Char → Option ℚ) (ev : DExpr → Option EQ) (fmt : ℚ → String) (mk : Opts → CCfg)
    (w : Main.World) (cl : Main.CmdLine) (name text : String)
    (hA : Verif.Spec.Main.Asks w cl .dr name text) (ts : List Tok) (p : DProb)
    (hl : Laid num text.toList ts) (hs : Spells ev ts p) (hc : p.costs = [])
    (hmk : EnvOk D I (mk cl.extract).env ∧ DblOk (mk cl.extract).th.dbl ∧
      PicosatOk (mk cl.extract).ps ∧ DiamOk (mk cl.extract).env.fp ∧ DiamZero (mk cl.extract).env.fp ∧
      (mk cl.extract).env.delta = cl.extract.precision.get)
    (n : Nat) (δ : ℚ) (m : Box) (hδ : 0 ≤ δ)
    (h : Main.program ⟨smt2, readText num ev⟩ fmt mk w cl = .ok (n, [.deltaSat (some δ) (some m)]))
    (hn : (p.decls.map DDecl.name).Nodup) (hf : Verif.Spec.Dr.Fine (mk cl.extract).th.dbl δ p)
    (hst : ∀ c b r, posed (mk cl.extract) p = .ok c → checkCore (mk cl.extract) c = .ok (some b, r) →
      ∀ o x y a e, (o, x, y) ∈ Verif.Spec.Dr.DProb.atoms p → trE (scopeOf p) x = .ok a →
        trE (scopeOf p) y = .ok e → ¬ StuckOn (mk cl.extract).env (mk cl.extract).th b a e) :
    δ = Verif.Spec.Main.askedPrecision cl [] ∧
    Verif.Spec.Main.askedFlag cl [] .produceModels = true ∧
    ∀ ρ, InBox ρ m → ∃ σ : Verif.Spec.Dr.Point,
      (∀ i d, p.decls[i]? = some d → σ d.name = ρ ⟨i, .continuous⟩) ∧
      (∀ d ∈ p.decls, InItv (σ d.name) ⟨d.lo, d.hi⟩) ∧
      ∀ f ∈ p.ctrs, (∀ o a b, (o, a, b) ∈ Verif.Spec.Dr.atoms f →
        Verif.Spec.Dr.DefX D I σ a ∧ Verif.Spec.Dr.DefX D I σ b) → Verif.Spec.Dr.weakSat I δ σ true f := by
  rw [(C69_asked _ fmt mk w cl name text).2 p ((C71_problem num ev text ts hl p).2 hs) hA] at h
  obtain ⟨r, h1, h2⟩ := Verif.Proof.bindR_ok h
  obtain ⟨g1, g2, g3, g4, g5, g6⟩ := hmk
  cases r with
  | none => simp [Main.drLine] at h2
  | some m' =>
    simp only [Main.drLine, Run.ok.injEq, Prod.mk.injEq, List.cons.injEq, Main.Line.deltaSat.injEq,
      Option.some.injEq, and_true, Option.ite_none_right_eq_some] at h2
    obtain ⟨-, e1, e2, e3⟩ := h2
    subst e3
    rw [e1] at g6
    have hS := Verif.Proof.Main.asked_extract cl
    refine ⟨e1 ▸ hS.prec, e2 ▸ (hS.flag _).symm, fun ρ hρ => ?_⟩
    have := C56_delta_sat_partial D I _ g1 g2 g3 g4 g5 (by rw [g6]; exact hδ) p m' hc hn
      (by rw [g6]; exact hf) h1 hst ρ hρ
    rw [g6] at this
    exact this

/-! ## Cases -/

/-- `std::stod` on numbers that are doubles. -/
def drNum : List Char → Option ℚ := stodOf (fun _ => false) id

/-- Blanks are not needed around signs, and a comment is a blank. -/
example : scan drNum "x<=2.5e1;# c\n\ny=>.5".toList =
    some [.id "x", .le, .num 25, .semi, .id "y", .implies, .num (1 / 2)] := by decide +kernel

/-- The premise of the layout theorem for a text without a blank: `sinx<3`. -/
example : Laid drNum "sinx<3".toList [.id "sinx", .lt, .num 3] :=
  .tok (w := "sinx".toList) (s := "<3".toList)
    (.id ⟨'s', "inx".toList, by decide +kernel, by decide, by decide +kernel⟩ (free_word (by decide +kernel)))
    ⟨fun _ => by decide, fun _ => by decide, fun h => absurd h (by decide +kernel)⟩
    (.tok (w := ['<']) (s := ['3']) (.fixed (t := .lt) (s := "<") (by decide))
      ⟨fun ⟨_, _, h, hl, _⟩ => by cases h; exact absurd hl (by decide),
        fun h => by
          obtain ⟨c, cs, he, hc⟩ := numeral_head h
          cases he; exact absurd hc (by decide), fun _ => by decide⟩
      (.tok (w := ['3']) (s := [])
        (.num ⟨['3'], [], [], by decide, by simp, .inl rfl, .inl ⟨rfl, by simp⟩⟩ (by decide +kernel))
        trivial .nil))

/-- A text and its problem. -/
example : readText drNum litEv "var:[0,2]x;ctr:x^2=3;" =
    some ⟨[⟨"x", .fin 0, .fin 2⟩], [.rel .eq (.fn2 .pow (.id "x") (.num 2)) (.num 3)], []⟩ := by
  have h : scan drNum "var:[0,2]x;ctr:x^2=3;".toList =
    some [.var, .colon, .lb, .num 0, .comma, .num 2, .rb, .id "x", .semi, .ctr, .colon, .id "x", .caret,
      .num 2, .eq, .num 3, .semi] := by decide +kernel
  unfold readText
  rw [h]
  rfl

/-- A comment at the end. -/
example : scan drNum "1 x;# end".toList = some [.num 1, .id "x", .semi, .other '#', .id "end"] := by
  decide +kernel

/-- A number with a point and an exponent but no digits between is two tokens. -/
example : scan drNum "5.e3;".toList = some [.num 5, .id "e3", .semi] := by decide +kernel

/-- A constraint after a dash of another alphabet is ignored. -/
example : readText drNum litEv "var:1 x;–ctr:x=2;" =
    some ⟨[⟨"x", .fin 1, .fin 1⟩], [], []⟩ := by
  have h : scan drNum "var:1 x;–ctr:x=2;".toList =
    some [.var, .colon, .num 1, .id "x", .semi] := by decide +kernel
  unfold readText
  rw [h]
  rfl

/-- A problem that can be written. -/
example : CanWriteP drNum litEv ⟨[⟨"x", .fin 0, .fin 0⟩], [.rel .lt (.id "x") (.num 0)], []⟩ := by
  have hx : CanWrite drNum (.id "x") :=
    ⟨['x'], .id (w := ['x']) ⟨'x', [], rfl, by decide, by simp⟩ (free_word (by decide +kernel))⟩
  have h0 : CanWrite drNum (.num 0) :=
    ⟨['0'], .num ⟨['0'], [], [], by decide, by simp, .inl rfl, .inl ⟨rfl, by simp⟩⟩
      (by decide +kernel)⟩
  refine ⟨by simp, ?_, ?_, by simp⟩
  · intro d hd
    rw [List.mem_singleton.1 hd]
    exact ⟨hx, .num 0, .num 0, h0, h0, rfl, rfl⟩
  · intro f hf
    rw [List.mem_singleton.1 hf]
    exact ⟨hx, h0⟩

/-- `dreal --precision 1 --produce-models a.dr`. -/
def drCl : Main.CmdLine := { demoLine "a.dr" with flag := fun b => b == .produceModels }

theorem drCl_mk : demoMk drCl.extract = demoCfg := demoMk_one (by decide +kernel)

theorem drCl_asks (text : String) :
    Verif.Spec.Main.Asks ⟨fun _ => some text, ""⟩ drCl .dr "a.dr" text :=
  ⟨rfl, ⟨rfl, rfl, rfl⟩, rfl, by decide, rfl, .inr ⟨rfl, "a", .inr ⟨rfl, rfl⟩⟩⟩

theorem dr_x : CanWrite drNum (.id "x") :=
  ⟨['x'], .id (w := ['x']) ⟨'x', [], rfl, by decide, by simp⟩ (free_word (by decide +kernel))⟩
theorem dr_y : CanWrite drNum (.id "y") :=
  ⟨['y'], .id (w := ['y']) ⟨'y', [], rfl, by decide, by simp⟩ (free_word (by decide +kernel))⟩
theorem dr_digit (q : ℚ) (c : Char) (h1 : digit c = true) (h2 : drNum [c] = some q) :
    CanWrite drNum (.num q) :=
  ⟨[c], .num ⟨[c], [], [], by simpa using h1, by simp, .inl rfl, .inl ⟨rfl, by simp⟩⟩ h2⟩

theorem can_text {p : DProb} (h : CanWriteP drNum litEv p) :
    ∃ (text : String) (ts : List Tok), Laid drNum text.toList ts ∧ Spells litEv ts p := by
  obtain ⟨ts, h1, h2⟩ := write_problem p h.1 h.2.1 h.2.2.1 h.2.2.2
  obtain ⟨s, hs⟩ := laid_exists h2
  exact ⟨String.ofList s, ts, by simpa using hs, h1⟩

/-- There is a file with the problem `drSome`. -/
theorem drSome_text : CanWriteP drNum litEv drSome := by
  refine ⟨by simp [drSome], ?_, ?_, by simp [drSome]⟩
  · intro d hm
    rw [List.mem_singleton.1 hm]
    refine ⟨dr_x, .num 2, .num (11 / 4), dr_digit 2 '2' (by decide) (by decide +kernel), ?_, rfl, rfl⟩
    exact ⟨"2.75".toList, .num ⟨['2'], ['7', '5'], [], by decide, by decide, .inl rfl,
      .inr (.inl ⟨rfl, by decide⟩)⟩ (by decide +kernel)⟩
  · intro f hf
    rw [List.mem_singleton.1 hf]
    exact ⟨⟨dr_x, dr_x⟩, dr_digit 5 '5' (by decide) (by decide +kernel)⟩

/-- There is a file with the problem `drNone`. -/
theorem drNone_text : CanWriteP drNum litEv drNone := by
  have h0 := dr_digit 0 '0' (by decide) (by decide +kernel)
  have h1 := dr_digit 1 '1' (by decide) (by decide +kernel)
  have h2 := dr_digit 2 '2' (by decide) (by decide +kernel)
  have h3 := dr_digit 3 '3' (by decide) (by decide +kernel)
  refine ⟨by simp [drNone], ?_, ?_, by simp [drNone]⟩
  · intro d hm
    simp only [drNone, List.mem_cons, List.not_mem_nil, or_false] at hm
    rcases hm with rfl | rfl
    · exact ⟨dr_x, .num 0, .num 1, h0, h1, rfl, rfl⟩
    · exact ⟨dr_y, .num 0, .num 2, h0, h2, rfl, rfl⟩
  · intro f hf
    rw [List.mem_singleton.1 hf]
    exact ⟨⟨⟨dr_x, dr_x⟩, h3⟩, ⟨⟨dr_y, dr_x⟩, h3⟩⟩

/-- The hypotheses of `C71_unsat_partial` are met. -/
example (D : Dom) (I : Interp) : ¬ ∃ σ, Verif.Spec.Dr.Solves I drNone σ := by
  obtain ⟨text, ts, hl, hs⟩ := can_text drNone_text
  obtain ⟨h1, h2, h3, h4, h5, h6, -⟩ := drNone_meets D I
  rintro ⟨σ, hσ⟩
  refine C71_unsat_partial D I (fun _ => []) drNum litEv (fun _ => "") demoMk _ drCl "a.dr" text
    (drCl_asks text) ts drNone hl hs rfl (by rw [drCl_mk]; exact ⟨h1, h2, h3⟩) 0 ?_
    ⟨σ, hσ, by rw [drCl_mk]; exact h6 σ⟩
  rw [(C69_asked _ _ demoMk _ drCl "a.dr" text).2 drNone ((C71_problem _ _ text ts hl _).2 hs)
    (drCl_asks text), drCl_mk, h5]
  rfl

/-- The hypotheses of `C71_delta_sat_partial` are met. -/
example (D : Dom) (I : Interp) : ∃ σ : Verif.Spec.Dr.Point, σ "x" = 19 / 8 ∧
    ∀ f ∈ drSome.ctrs, (∀ o a b, (o, a, b) ∈ Verif.Spec.Dr.atoms f →
      Verif.Spec.Dr.DefX D I σ a ∧ Verif.Spec.Dr.DefX D I σ b) →
      Verif.Spec.Dr.weakSat I 1 σ true f := by
  obtain ⟨text, ts, hl, hs⟩ := can_text drSome_text
  obtain ⟨h1, h2, h3, h4, h5, h6, h7, h8, h9, h10, h11, h12⟩ := drSome_meets D I
  have hp : Main.program ⟨fun _ => [], readText drNum litEv⟩ (fun _ => "") demoMk
      ⟨fun _ => some text, ""⟩ drCl = .ok (0, [.deltaSat (some 1) (some drFound)]) := by
    rw [(C69_asked _ _ demoMk _ drCl "a.dr" text).2 drSome ((C71_problem _ _ text ts hl _).2 hs)
      (drCl_asks text), drCl_mk, h10]
    decide +kernel
  obtain ⟨-, -, h⟩ := C71_delta_sat_partial D I (fun _ => []) drNum litEv (fun _ => "") demoMk _ drCl
    "a.dr" text (drCl_asks text) ts drSome hl hs rfl
    (by rw [drCl_mk]; exact ⟨h1, h2, h3, h4, h5, by decide +kernel⟩) 0 1 drFound (by norm_num) hp h8
    (by rw [drCl_mk]; exact h9) (by rw [drCl_mk]; exact h11)
  obtain ⟨σ, s1, -, s3⟩ := h _ h12
  exact ⟨σ, s1 0 _ rfl, by simpa only [Rat.cast_one] using s3⟩

end Verif.Props
