import Verif.Proof.Smt2Scan
import Verif.Props.Smt2Parse
import Verif.Props.Main
import Verif.Props.Literal

/-!
# C73: the text of an SMT-LIB script
-/

namespace Verif.Props
open Verif Verif.Model Verif.Model.Smt2 Verif.Model.Smt2Parse Verif.Model.Smt2Scan Verif.Spec
  Verif.Spec.Smt2Scan Verif.Spec.Smt2Grammar Verif.Proof.Smt2Scan
open Verif.Spec.DrScan (Numeral)
open Verif.Spec.Smt2 Verif.Proof Verif.Proof.Smt2
open Verif.Model.DrScan (letter digit)

/-- **C73**: the tokens of a text are its longest matches, each by the first rule that matches it; there
is only one such list of tokens, and every text has one. -/
theorem C73_longest (hv : List Char → Option ℚ) (s : List Char) (ts : List Tok) :
    scan hv s = ts ↔ Scans hv s ts := scans_iff

/-- **C73**: tokens are read as they are written, with any blanks and comments between them, and without
blanks where they can be told apart. -/
theorem C73_layout (hv : List Char → Option ℚ) (s : List Char) (ts : List Tok) (h : Laid hv s ts) :
    scan hv s = ts := by
  have := laid_scan h (rest := []) (by simp)
  rw [List.append_nil] at this
  rw [this]
  simp [scan, scanN]

/-- **C73**: how a text is read depends on its tokens only: it is accepted if and only if they spell
commands, and these are executed. -/
theorem C73_script (hv : List Char → Option ℚ) (A : Actions) (text : String) (ts : List Tok)
    (h : Laid hv text.toList ts) (cs : List PCmd) :
    readScript hv A text = (cs, true) ↔ ∃ us rest, ts = us ++ rest ∧ SpS A us cs ∧
      (rest = [] ∨ cs.getLast? = some .exit) := by
  rw [← C72_script]
  simp [readScript, C73_layout hv _ _ h]

/-- **C73**: the same for texts that are not accepted. -/
theorem C73_same (hv : List Char → Option ℚ) (A : Actions) (text text' : String) (ts : List Tok)
    (h : Laid hv text.toList ts) (h' : Laid hv text'.toList ts) :
    readScript hv A text = readScript hv A text' := by
  simp [readScript, C73_layout hv _ _ h, C73_layout hv _ _ h']

theorem blank_laid {hv} {ts : List Tok} (h : ∀ t ∈ ts, ∃ w, Writes hv t w) :
    ∃ s, Laid hv (' ' :: s) ts := by
  induction ts with
  | nil => exact ⟨[], .blank (.inl rfl) .nil⟩
  | cons t ts ih =>
    obtain ⟨s, hs⟩ := ih fun u hu => h u (by simp [hu])
    obtain ⟨w, hw⟩ := h t (by simp)
    refine ⟨w ++ ' ' :: s, .blank (.inl rfl) (.tok hw ⟨fun _ _ _ => by decide, fun _ => by decide⟩ hs)⟩

/-- **C73**: commands with tokens that can be written can be written: some text is accepted and read as
them. -/
theorem C73_writable (hv : List Char → Option ℚ) (A : Actions) (ts : List Tok) (cs : List PCmd)
    (h : ∀ t ∈ ts, ∃ w, Writes hv t w) (hs : SpS A ts cs) :
    ∃ text, readScript hv A text = (cs, true) := by
  obtain ⟨s, hl⟩ := blank_laid h
  exact ⟨String.ofList (' ' :: s), (C73_script hv A _ ts (by simpa using hl) cs).2
    ⟨ts, [], by simp, hs, .inl rfl⟩⟩

theorem runs_toFs {pcs fs} (h : Runs pcs fs) : toFs pcs = some fs := by
  have key : pcs.any PCmd.isObjective = false ∧ pcs.filterMap PCmd.toF = fs := by
    induction h <;> simp_all [PCmd.isObjective, PCmd.toF, List.filterMap_cons]
  rw [toFs, key.1, key.2]
  rfl

theorem runs_exit {pcs fs} (h : Runs pcs fs) : Runs (pcs ++ [.exit]) (fs ++ [.exit]) := by
  induction h with
  | nil => exact .exit .nil
  | core _ ih => exact .core ih
  | setNum _ ih => exact .setNum ih
  | setStr _ ih => exact .setStr ih
  | exit _ ih => exact .exit ih
  | info _ ih => exact .info ih
  | logic _ ih => exact .logic ih
  | getModel _ ih => exact .getModel ih
  | getValue _ ih => exact .getValue ih
  | getOption _ ih => exact .getOption ih

/-- **C73**: the program executes the commands that are spelt by the text of the file (without
objectives, which the model of the program does not have). -/
theorem C73_program (hv : List Char → Option ℚ) (A : Actions) (dr : String → Option Dr.DProb)
    (fmt : ℚ → String) (mk : Opts → CCfg) (w : Main.World) (cl : Main.CmdLine) (name text : String)
    (hA : Verif.Spec.Main.Asks w cl .smt2 name text) (ts : List Tok) (hl : Laid hv text.toList ts)
    (us rest : List Tok) (cs : List PCmd) (he : ts = us ++ rest) (hs : SpS A us cs)
    (hr : rest = [] ∨ cs.getLast? = some .exit) (fs : List Main.FCmd) (hf : Runs cs fs) :
    Main.program ⟨fileReader hv A, dr⟩ fmt mk w cl =
      (Main.answers fmt mk cl.extract fs).bind fun ls => .ok (0, ls) := by
  rw [(C69_asked _ fmt mk w cl name text).1 hA]
  simp only [fileReader, (C73_script hv A text ts hl cs).2 ⟨us, rest, he, hs, hr⟩, runs_toFs hf,
    Option.getD_some]

theorem answers_exit (fmt : ℚ → String) (mk : Opts → CCfg) (o : Opts) (xs ys : List Main.FCmd) :
    Main.answers fmt mk o (xs ++ .exit :: ys) = Main.answers fmt mk o xs := by
  have key : ∀ xs st, Main.runF fmt mk (xs ++ .exit :: ys) st = Main.runF fmt mk xs st := by
    intro xs
    induction xs with
    | nil => intro st; rfl
    | cons x xs ih =>
      intro st
      cases x <;> simp [Main.runF, ih]
  unfold Main.answers
  rw [key]

theorem program_exit {hv A text ts us rest pcs ex fs} (dr : String → Option Dr.DProb)
    (fmt : ℚ → String) (mk : Opts → CCfg) {w : Main.World} {cl : Main.CmdLine} {name : String}
    (hA : Verif.Spec.Main.Asks w cl .smt2 name text) (hl : Laid hv text.toList ts)
    (he : ts = us ++ rest) (hsp : SpS A us (pcs ++ ex)) (hr : (rest = [] ∧ ex = []) ∨ ex = [.exit])
    (hp : Runs pcs fs) :
    Main.program ⟨fileReader hv A, dr⟩ fmt mk w cl = Main.program ⟨fun _ => fs, dr⟩ fmt mk w cl := by
  rcases hr with ⟨rfl, rfl⟩ | rfl
  · rw [C73_program hv A dr fmt mk w cl name text hA ts hl us [] (pcs ++ []) he hsp (.inl rfl) fs
      (by rw [List.append_nil]; exact hp), (C69_asked _ fmt mk w cl name text).1 hA]
  · rw [C73_program hv A dr fmt mk w cl name text hA ts hl us rest (pcs ++ [.exit]) he hsp
      (.inr (by simp)) _ (runs_exit hp), answers_exit, (C69_asked _ fmt mk w cl name text).1 hA]

/-- C73 for a last line `unsat`: from the text of a file to its meaning.  The tokens of the text spell
settings and then the commands `s` and a check, and an `exit` perhaps; if the program prints `unsat` as
its last line, the commands in force have no solution.  Missing: what is missing in
`C69_unsat_partial`. -/
theorem C73_unsat_partial (D : Dom) (I : Interp) (hv : List Char → Option ℚ) (A : Actions)
    (dr : String → Option Dr.DProb) (fmt : ℚ → String) (mk : Opts → CCfg) (w : Main.World)
    (cl : Main.CmdLine) (name text : String) (hA : Verif.Spec.Main.Asks w cl .smt2 name text)
    (ts us rest : List Tok) (pcs ex : List PCmd) (hl : Laid hv text.toList ts) (he : ts = us ++ rest)
    (hsp : SpS A us (pcs ++ ex)) (hr : (rest = [] ∧ ex = []) ∨ ex = [.exit])
    (cs : List Main.FCmd) (hs : ∀ c ∈ cs, Verif.Spec.Main.IsSetting c) (s : List SCmd)
    (hp : Runs pcs (cs ++ (s ++ [SCmd.check]).map .core))
    (hmk : ∀ o, EnvOk D I (mk o).env ∧ DblOk (mk o).th.dbl ∧ PicosatOk (mk o).ps)
    (hts : TidyScript s)
    (hc : ∀ o d, o.precision.get = Verif.Spec.Main.askedPrecision cl cs →
      run (idsTaken (mk o)) s {} = .ok d →
      Covered d.log ∧ ∀ ρ, Fulfils I (callsInForce d.log) ρ →
        Ordinary D I (mk o).th.dbl (callsInForce d.log) ρ)
    (n : Nat) (ls : List Main.Line)
    (h : Main.program ⟨fileReader hv A, dr⟩ fmt mk w cl = .ok (n, ls ++ [.unsat]))
    (xs : List ℝ) : ¬ Verif.Spec.Smt2.stated I (Verif.Spec.Smt2.inForce s) xs :=
  C69_unsat_partial D I ⟨fun _ => cs ++ (s ++ [SCmd.check]).map .core, dr⟩ fmt mk w cl name text
    hA cs hs s rfl hmk hts hc n ls (by rw [← h, program_exit dr fmt mk hA hl he hsp hr hp]) xs

/-- C73 for a last line `delta-sat with delta = δ` and a model: from the text of a file to its meaning.
The precision printed is that asked for, and every point of the model, with some values of the hidden
variables, fulfils the bounds and, weakened by `δ`, the assertions in force.  Missing: what is missing
in `C69_delta_sat_partial`. -/
theorem C73_delta_sat_partial (D : Dom) (I : Interp) (hv : List Char → Option ℚ) (A : Actions)
    (dr : String → Option Dr.DProb) (fmt : ℚ → String) (mk : Opts → CCfg) (w : Main.World)
    (cl : Main.CmdLine) (name text : String) (hA : Verif.Spec.Main.Asks w cl .smt2 name text)
    (ts us rest : List Tok) (pcs ex : List PCmd) (hl : Laid hv text.toList ts) (he : ts = us ++ rest)
    (hsp : SpS A us (pcs ++ ex)) (hr : (rest = [] ∧ ex = []) ∨ ex = [.exit])
    (cs : List Main.FCmd) (hs : ∀ c ∈ cs, Verif.Spec.Main.IsSetting c) (s : List SCmd)
    (hp : Runs pcs (cs ++ (s ++ [SCmd.check]).map .core))
    (hmk : ∀ o, EnvOk D I (mk o).env ∧ DblOk (mk o).th.dbl ∧ PicosatOk (mk o).ps ∧
      DiamOk (mk o).env.fp ∧ DiamZero (mk o).env.fp ∧ (mk o).env.delta = o.precision.get)
    (hts : TidyScript s) (S : Expr → Expr → Prop) (n : Nat) (ls : List Main.Line) (δ : ℚ) (m : Box)
    (hδ : 0 ≤ δ)
    (h : Main.program ⟨fileReader hv A, dr⟩ fmt mk w cl = .ok (n, ls ++ [.deltaSat (some δ) (some m)]))
    (hc : ∀ o d, o.precision.get = δ → run (idsTaken (mk o)) s {} = .ok d →
      Covered d.log ∧ CondLog (mk o) S d.log ∧
      (∀ v b, .declare v b ∈ callsInForce d.log → v.type = .continuous ∨ v.type = .boolean) ∧
      ∀ as c b r, runCmds (mk o) (Ctx.init 0) d.log = .ok (as, c) →
        checkCore (mk o) c = .ok (some b, r) →
        (∀ a e, S a e → ¬ StuckOn (mk o).env (mk o).th b a e) ∧
        ∀ v ∈ b.vars, v ∉ m.vars → ∃ x : ℝ, InItv x (b.getV v)) :
    δ = Verif.Spec.Main.askedPrecision cl cs ∧ Verif.Spec.Main.askedFlag cl cs .produceModels = true ∧
    ∃ o d, o.precision.get = δ ∧ run (idsTaken (mk o)) s {} = .ok d ∧
    ∀ ρ, InBox ρ m → ∃ ρ1 : Valuation, (∀ v ∈ m.vars, ρ1 v = ρ v) ∧
      (∀ v l u, .setInterval v l u ∈ callsInForce d.log → InItv (ρ1 v) ⟨l, u⟩) ∧
      ∀ f, .assert f ∈ callsInForce d.log → DefC D I δ ρ1 f → weakC I δ ρ1 true f :=
  C69_delta_sat_partial D I ⟨fun _ => cs ++ (s ++ [SCmd.check]).map .core, dr⟩ fmt mk w cl name text
    hA cs hs s rfl hmk hts S n ls δ m hδ
    (by rw [← h, program_exit dr fmt mk hA hl he hsp hr hp]) hc

/-- **C73**: a decimal number in a term is what it is written as: the number itself, if it is a double,
otherwise a constant that stands for an interval around it, whose ends are next to it. -/
theorem C73_decimal (rangeErr : ℚ → Bool) (near : ℚ → ℚ) (bound : STerm → Option EQ) (w : List Char)
    (q : ℚ) (t : STerm) (hq : IsLiteral w q)
    (h : readTerm (Actions.of rangeErr near bound) [.dbl w] = some (t, [])) :
    (IsDouble q ∧ t = .num q) ∨
      ∃ c : RConst, ¬ IsDouble q ∧ t = .dec c ∧ c.exact = q ∧ c.lb < q ∧ q < c.ub := by
  have h1 : decTerm rangeErr near w = some t := by
    simp only [readTerm, List.length_cons, List.length_nil, term, Actions.of] at h
    obtain ⟨u, hu, he⟩ := Option.map_eq_some_iff.1 h
    cases he
    exact hu
  unfold decTerm at h1
  split at h1
  · rename_i p hd
    cases h1
    rcases C43_literal rangeErr near w q _ hq hd with ⟨h2, h3⟩ | ⟨lb, ub, u, -, h3, -⟩
    · cases h3; exact .inl ⟨h2, rfl⟩
    · cases h3
  · rename_i l u b hd
    obtain ⟨q', hq', he⟩ := Option.map_eq_some_iff.1 h1
    rcases C43_literal rangeErr near w q _ hq hd with ⟨h2, h3⟩ | ⟨lb, ub, u', h2, h3, h4, h5, -⟩
    · cases h3
    · cases h3
      rw [decVal_of_literal hq, Option.some.injEq] at hq'
      subst hq'
      exact .inr ⟨_, h2, he.symm, rfl, h4, h5⟩
  · cases h1

/-- **C73**: an open comment on the last line is an error, but nothing is lost: the commands before it
have been executed. -/
theorem C73_open_comment (hv : List Char → Option ℚ) (A : Actions) (s line : List Char) (ts : List Tok)
    (cs : List PCmd) (h : Laid hv s ts) (hl : ∀ c ∈ line, c ≠ '\n' ∧ c ≠ '\r') (hs : SpS A ts cs)
    (he : ∀ c ∈ cs, c ≠ .exit) :
    readScript hv A (String.ofList (s ++ ';' :: line)) = (cs, false) := by
  have h1 := laid_scan h (rest := ';' :: line) (by
    intro c hc
    simp at hc
    subst hc
    unfold Verif.Proof.Smt2Scan.Sep; decide)
  rw [scan_open_comment fun c hc => by simp [Verif.Proof.DrScan.eol, hl c hc]] at h1
  simp only [readScript, String.toList_ofList, h1]
  rw [C72_before A ts _ cs hs he (by simp)]
  have : script A (Tok.other ';' :: scan hv line) = ([], false) :=
    Verif.Proof.Smt2Parse.script_none (by simp [command])
  rw [this, List.append_nil]

/-- **C73**: false — what follows a character that is not ASCII, or a null character, outside of
comments, strings and quoted symbols, is ignored: the text ends there. -/
theorem C73_cut (hv : List Char → Option ℚ) (A : Actions) (s rest : List Char) (c : Char)
    (ts : List Tok) (h : Laid hv s ts) (hc : c.toNat = 0 ∨ 128 ≤ c.toNat) :
    readScript hv A (String.ofList (s ++ c :: rest)) = readScript hv A (String.ofList s) := by
  have h1 := laid_scan h (rest := c :: rest) (by
    intro d hd
    simp at hd
    subst hd
    exact ⟨final_other hc, Verif.Proof.DrScan.char_ne (by show c.toNat ≠ 34; omega)⟩)
  rw [scan_final hc] at h1
  simp only [readScript, String.toList_ofList, h1, C73_layout hv s ts h]
  simp

theorem ascii_table {f : Char → Bool} {l : List Char} (h : ∀ n < 128, f (Char.ofNat n) = decide (Char.ofNat n ∈ l))
    (hf : ∀ c, f c = true → c.toNat < 128) (hl : ∀ c ∈ l, c.toNat < 128) (c : Char) :
    f c = true ↔ c ∈ l := by
  by_cases hc : c.toNat < 128
  · have := h c.toNat hc
    rw [Char.ofNat_toNat] at this
    rw [this, decide_eq_true_eq]
  · exact ⟨fun h1 => absurd (hf c h1) hc, fun h1 => absurd (hl c h1) hc⟩

theorem sym_ascii {c : Char} (h : symChar c = true) : c.toNat < 128 := by
  by_contra hc
  rw [final_other (.inr (by omega))] at h
  cases h

/-- **C73**: the characters that the layout speaks of: digits, hexadecimal digits, and those that
symbols begin with and consist of. -/
theorem C73_characters (c : Char) :
    (digit c = true ↔ c ∈ "0123456789".toList) ∧
    (hexDigit c = true ↔ c ∈ "0123456789abcdefABCDEF".toList) ∧
    (symBegin c = true ↔
      c ∈ "abcdefghijklmnopqrstuvwxyzABCDEFGHIJKLMNOPQRSTUVWXYZ+-/*=%?!.$_~&^<>@".toList) ∧
    (symChar c = true ↔ symBegin c = true ∨ digit c = true) :=
  ⟨ascii_table (by decide +kernel) (fun _ h => sym_ascii (sym_digit h)) (by decide +kernel) c,
    ascii_table (by decide +kernel) (fun _ h => sym_ascii (sym_hex h)) (by decide +kernel) c,
    ascii_table (by decide +kernel) (fun _ h => sym_ascii (sym_begin h)) (by decide +kernel) c,
    by simp [symChar]⟩

/-- **C73**: a number without a point is read as its value if that fits into 64 bits; otherwise the
scanner raises an exception, and what follows is not read. -/
theorem C73_integer (hv : List Char → Option ℚ) (s : List Char) (ts : List Tok) (hl : Laid hv s ts)
    (sg ds rest : List Char) (n : Nat) (hs : sg = [] ∨ sg = ['-'] ∨ sg = ['+']) (hd : Nat' ds)
    (hn : IsDigits ds n) (ha : Apart (sg ++ ds) rest) (z : Int)
    (hz : z = if sg = ['-'] then -(n : Int) else n) :
    (-2 ^ 63 ≤ z → z < 2 ^ 63 →
      scan hv (s ++ ' ' :: (sg ++ ds ++ rest)) = ts ++ .int z :: scan hv rest) ∧
    (z < -2 ^ 63 ∨ 2 ^ 63 ≤ z → scan hv (s ++ ' ' :: (sg ++ ds ++ rest)) = ts ++ [.raise]) := by
  obtain ⟨h1, rfl⟩ := isDigits_iff.mp hn
  have hw : Signed Nat' (sg ++ ds) := ⟨sg, ds, rfl, hs, hd⟩
  have hv' : stol (sg ++ ds) = if -2 ^ 63 ≤ z ∧ z < 2 ^ 63 then .ok z else .throw := by
    rcases hs with rfl | rfl | rfl
    · simp only [List.nil_append, if_neg (show ([] : List Char) ≠ ['-'] by simp)] at hz ⊢
      subst hz
      unfold stol
      split
      · simp at h1
      · simp at h1
      · rfl
    · simp only [if_true] at hz
      subst hz
      rfl
    · rw [if_neg (by decide)] at hz
      subst hz
      rfl
  have hsp : ∀ r, scan hv (s ++ ' ' :: r) = ts ++ scan hv r := by
    intro r
    rw [laid_scan hl (rest := ' ' :: r) (by
      intro c hc
      simp at hc
      subst hc
      unfold Verif.Proof.Smt2Scan.Sep; decide), scan_blank (.inl rfl)]
  refine ⟨fun h2 h3 => ?_, fun h2 => ?_⟩
  · rw [hsp, scan_tok (.int hw (by rw [hv', if_pos ⟨h2, h3⟩])) ha]
  · rw [hsp]
    obtain ⟨d, w', he, hsol⟩ := over_solid (over_signed over_nat) ((signed_iff (fun _ => nat_iff)).2 hw)
      (signed_ne (fun _ => nat_ne) hw)
    have hf := nat_first hw
    rw [if_neg (by omega)] at hv'
    rw [he] at hf hv' ha ⊢
    rw [scan_next (longest_solid hsol hf (simple_apart ha))]
    simp [Act.run, hv', scan, scanN]

/-- **C73**: false — a symbol is not the same symbol as the one in bars, as the standard has it: the
bars are part of the name. -/
theorem C73_bars_fails (hv : List Char → Option ℚ) (w : List Char) (h : Simple w)
    (hf : ∀ t, ∀ s ∈ words t, s.toList ≠ w) (hn : ¬ Signed Numeral w) (hx : ¬ Signed Hex w) :
    scan hv w = [.sym (String.ofList w)] ∧
      scan hv ('|' :: (w ++ ['|'])) = [.sym (String.ofList ('|' :: (w ++ ['|'])))] ∧
      String.ofList w ≠ String.ofList ('|' :: (w ++ ['|'])) := by
  have hb : ∀ c ∈ w, c ≠ '|' ∧ c ≠ '\\' := by
    obtain ⟨c, cs, rfl, h1, h2⟩ := h
    have key : ∀ c, symChar c = true → c ≠ '|' ∧ c ≠ '\\' := by
      intro c hc
      constructor <;> rintro rfl <;> exact absurd hc (by decide)
    intro d hd
    rcases List.mem_cons.1 hd with rfl | hd
    · exact key _ (sym_begin h1)
    · exact key _ (h2 d hd)
  refine ⟨?_, ?_, fun he => ?_⟩
  · have := C73_layout hv (w ++ []) _ (.tok (.sym h hf hn hx) trivial .nil)
    rwa [List.append_nil] at this
  · have := C73_layout hv (('|' :: (w ++ ['|'])) ++ []) _ (.tok (.quoted hb) trivial .nil)
    rwa [List.append_nil] at this
  · have := congrArg String.toList he
    simp only [String.toList_ofList] at this
    have := congrArg List.length this
    simp at this
    omega

theorem quoted_back : ∀ {u w v : List Char}, (∀ c ∈ u, c ≠ '|' ∧ c ≠ '\\') →
    quotedEnd w (u ++ '\\' :: v) = quotedEnd [] v
  | [], w, v, _ => by simp [quotedEnd]
  | c :: u, w, v, h => by
    have hc := h c (by simp)
    rw [List.cons_append, quotedEnd, quoted_back fun d hd => h d (by simp [hd])]
    · exact hc.1
    · exact hc.2

/-- **C73**: false — of a quoted symbol with a backslash only what follows the backslash is kept, so
that different symbols become the same. -/
theorem C73_backslash_fails (hv : List Char → Option ℚ) (u v : List Char)
    (hu : ∀ c ∈ u, c ≠ '|' ∧ c ≠ '\\') (h : ∀ c ∈ v, c ≠ '|' ∧ c ≠ '\\') :
    scan hv ('|' :: (u ++ '\\' :: (v ++ ['|']))) = [.sym (String.ofList (v ++ ['|']))] := by
  have hL := longest_solid (d := '|') (ds := []) (s := u ++ '\\' :: (v ++ ['|'])) (a := .quoted)
    (by unfold Verif.Proof.Smt2Scan.Solid; decide) (by decide +kernel) (fun c _ h => absurd h (by decide))
  have := scan_next (hv := hv) hL
  rw [List.singleton_append] at this
  rw [this, Act.run, quoted_back hu, quotedEnd_body h]
  simp [scan, scanN]

/-! ## Cases -/

/-- No hexadecimal numbers. -/
def noHex : List Char → Option ℚ := fun _ => none

example : scan noHex "(assert(<= -1.5 x1-2))".toList =
    [.lp, .assert, .lp, .rel .le, .dbl "-1.5".toList, .sym "x1-2", .rp, .rp] := by decide +kernel

/-- A comment, a keyword, a string and a symbol in bars. -/
example : scan noHex ":a\"b\"\"c\";d\n|e f|".toList =
    [.key ":a", .str "\"b\"\"c\"", .sym "|e f|"] := by decide +kernel

/-- `<=-1` is a symbol, as `1-` is a number and a sign. -/
example : scan noHex "<=-1 1- +1".toList = [.sym "<=-1", .int 1, .minus, .int 1] := by decide +kernel

/-- A number that fits, and one that does not. -/
example : scan noHex "(push -9223372036854775808) (pop 9223372036854775808)".toList =
    [.lp, .push, .int (-2 ^ 63), .rp, .lp, .pop, .raise] := by decide +kernel

/-- The premise of the layout theorem: `(exit);`, a line, and a blank. -/
example : Laid noHex ("(exit);\n ".toList) [.lp, .exit, .rp] :=
  .tok (w := ['(']) .lp ⟨fun d hd h => by
      cases hd; exact absurd h (by decide), fun h => absurd h (by decide)⟩
    (.tok (w := "exit".toList) (s := ");\n ".toList) (.fixed (t := .exit) (s := "exit") (by decide))
      ⟨fun _ _ _ => by decide, fun _ => by decide⟩
      (.tok (w := [')']) .rp ⟨fun d hd h => by
          cases hd; exact absurd h (by decide), fun h => absurd h (by decide)⟩
        (.comment (line := []) (by simp) (.blank (.inl rfl) .nil))))

/-- A script. -/
example : SpS plainActions [.lp, .exit, .rp] [.exit] := by
  have h : script plainActions [.lp, .exit, .rp] = ([.exit], true) := rfl
  obtain ⟨us, rest, h1, h2, -⟩ := (C72_script _ _ _).1 h
  cases h2 with
  | last h3 =>
    have := (C72_command plainActions [.lp, .exit, .rp] .exit rest).2 ⟨us, h1, h3⟩
    cases this
    rw [List.append_nil] at h1
    rw [h1]
    exact .last h3
  | cons _ _ h => cases h

/-- What follows a dash of a text processor is not read. -/
example : scan noHex "(exit)—(exit)".toList = [.lp, .exit, .rp] := by decide +kernel

/-- `|a\b|` and `|c\b|` are the same symbol. -/
example : scan noHex "|a\\b||c\\b|".toList = [.sym "b|", .sym "b|"] := by decide +kernel

/-- The premises of the theorem on decimal numbers, for `1e23`. -/
example : ∃ t, readTerm (Actions.of (fun _ => false) roundUp fun _ => none) [.dbl "1e23".toList] =
    some (t, []) ∧ IsLiteral "1e23".toList (10 ^ 23) := by
  have h : decLiteral (fun _ => false) roundUp "1e23".toList =
      .ok (.range 99999999999999991611392 100000000000000008388608 false) := by decide +kernel
  have h2 : decVal "1e23".toList = some (10 ^ 23) := by decide +kernel
  refine ⟨.dec ⟨99999999999999991611392, 100000000000000008388608, false, 10 ^ 23⟩, ?_,
    .inl (Verif.Proof.unsignedVal_iff.mp (by decide +kernel))⟩
  simp only [readTerm, List.length_cons, List.length_nil, term, Actions.of, decTerm, h, h2,
    Option.map_some]

/-- The tokens of a file:
`(declare-fun x () Real [0, 1]) (check-sat) (define-fun f ((a Real) (b Real)) Real (+ a b))
(assert (let ((p (>= (f x x) 3))) p)) (check-sat) (exit)`. -/
def demoToks : List Tok :=
  [.lp, .declareFun, .sym "x", .lp, .rp, .sym "Real", .lb, .int 0, .comma, .int 1, .rb, .rp,
   .lp, .checkSat, .rp,
   .lp, .defineFun, .sym "f", .lp, .lp, .sym "a", .sym "Real", .rp, .lp, .sym "b", .sym "Real", .rp,
   .rp, .sym "Real", .lp, .plus, .sym "a", .sym "b", .rp, .rp,
   .lp, .assert, .lp, .let_, .lp, .lp, .sym "p", .lp, .rel .ge, .lp, .sym "f", .sym "x", .sym "x",
   .rp, .int 3, .rp, .rp, .rp, .sym "p", .rp, .rp,
   .lp, .checkSat, .rp, .lp, .exit, .rp]

theorem demoToks_reads : script plainActions demoToks =
    (((demoScript ++ [SCmd.check]).map PCmd.core) ++ [.exit], true) := rfl

theorem sym_can {hv} (s : String) (c : Char) (cs : List Char) (hs : s = String.ofList (c :: cs))
    (h1 : letter c = true) (h2 : ∀ d ∈ cs, symChar d = true) (h3 : ∀ p ∈ strings, p.1.toList ≠ c :: cs) :
    ∃ w, Writes hv (.sym s) w := by
  subst hs
  have key : ∀ (P : List Char → Prop), (∀ u, P u → ∃ d ds, u = d :: ds ∧ (digit d = true ∨ d = '.')) →
      ¬ Signed P (c :: cs) := by
    rintro P hP ⟨sg, u, he, hsg, hu⟩
    obtain ⟨d, ds, rfl, hd⟩ := hP u hu
    have hc : c = '-' ∨ c = '+' ∨ digit c = true ∨ c = '.' := by
      rcases hsg with rfl | rfl | rfl
      · rw [(List.cons.inj he).1]; exact .inr (.inr hd)
      · exact .inl (List.cons.inj he).1
      · exact .inr (.inl (List.cons.inj he).1)
    rcases hc with rfl | rfl | hc | rfl
    · exact absurd h1 (by decide)
    · exact absurd h1 (by decide)
    · rw [(Verif.Proof.DrScan.letter_digit h1).1] at hc; cases hc
    · exact absurd h1 (by decide)
  refine ⟨_, .sym ⟨c, cs, rfl, by simp [symBegin, h1], h2⟩ (free_word h3) (key _ fun u hu => ?_)
    (key _ fun u hu => ?_)⟩
  · exact Verif.Proof.DrScan.numeral_head hu
  · obtain ⟨x, ip, fp, ex, -, -, -, -, ⟨rfl, -⟩ | ⟨rfl, -⟩ | ⟨rfl, -⟩⟩ := hu <;>
      exact ⟨_, _, rfl, .inl (by decide)⟩

theorem demoToks_writes : ∀ t ∈ demoToks, ∃ w, Writes noHex t w := by
  have hn : ∀ (z : Int) (w : List Char), w = ['0'] ∨ w = ['1'] ∨ w = ['3'] → stol w = .ok z →
      ∃ w, Writes noHex (.int z) w := by
    intro z w hw hz
    refine ⟨w, .int ⟨[], w, rfl, .inl rfl, ?_⟩ hz⟩
    rcases hw with rfl | rfl | rfl
    · exact .inl rfl
    · exact .inr ⟨'1', [], rfl, by decide, by decide, by simp⟩
    · exact .inr ⟨'3', [], rfl, by decide, by decide, by simp⟩
  have hf : ∀ (t : Tok) (s : String), s ∈ words t → ∃ w, Writes noHex t w :=
    fun t s h => ⟨_, .fixed h⟩
  have hall : ∀ t ∈ demoToks, t = .lp ∨ t = .rp ∨ t = .lb ∨ t = .rb ∨ t = .comma ∨ t = .int 0 ∨
      t = .int 1 ∨ t = .int 3 ∨ t = .sym "x" ∨ t = .sym "f" ∨ t = .sym "a" ∨ t = .sym "b" ∨
      t = .sym "p" ∨ t = .sym "Real" ∨ t = .declareFun ∨ t = .checkSat ∨ t = .defineFun ∨
      t = .assert ∨ t = .let_ ∨ t = .rel .ge ∨ t = .plus ∨ t = .exit := by decide +kernel
  intro t ht
  rcases hall t ht with rfl | rfl | rfl | rfl | rfl | rfl | rfl | rfl | rfl | rfl | rfl | rfl | rfl |
    rfl | rfl | rfl | rfl | rfl | rfl | rfl | rfl | rfl
  · exact ⟨_, .lp⟩
  · exact ⟨_, .rp⟩
  · exact ⟨_, .lb⟩
  · exact ⟨_, .rb⟩
  · exact ⟨_, .comma⟩
  · exact hn 0 ['0'] (by simp) (by decide +kernel)
  · exact hn 1 ['1'] (by simp) (by decide +kernel)
  · exact hn 3 ['3'] (by simp) (by decide +kernel)
  · exact sym_can _ 'x' [] rfl (by decide) (by simp) (by decide +kernel)
  · exact sym_can _ 'f' [] rfl (by decide) (by simp) (by decide +kernel)
  · exact sym_can _ 'a' [] rfl (by decide) (by simp) (by decide +kernel)
  · exact sym_can _ 'b' [] rfl (by decide) (by simp) (by decide +kernel)
  · exact sym_can _ 'p' [] rfl (by decide) (by simp) (by decide +kernel)
  · exact sym_can _ 'R' ['e', 'a', 'l'] rfl (by decide) (by decide) (by decide +kernel)
  · exact hf _ "declare-fun" (by decide)
  · exact hf _ "check-sat" (by decide)
  · exact hf _ "define-fun" (by decide)
  · exact hf _ "assert" (by decide)
  · exact hf _ "let" (by decide)
  · exact hf _ ">=" (by decide)
  · exact hf _ "+" (by decide)
  · exact hf _ "exit" (by decide)

/-- The commands of the file that the program executes. -/
def demoFile : List Main.FCmd := (demoScript ++ [SCmd.check]).map .core ++ [.exit]

/-- What is printed for them with precision 1. -/
def demoPrinted : Option (List Main.Line) :=
  match Main.answers (fun _ => "") demoMk (demoLine "a.smt2").extract demoFile with
  | .ok r => some r
  | _ => none

/-- The hypotheses of `C73_unsat_partial` are met: there is a file with these tokens, for which the
program prints `unsat` last. -/
example (D : Dom) (I : Interp) (xs : List ℝ) :
    ¬ Verif.Spec.Smt2.stated I (Verif.Spec.Smt2.inForce demoScript) xs := by
  obtain ⟨s, hs⟩ := blank_laid demoToks_writes
  have hl : Laid noHex (String.ofList (' ' :: s)).toList demoToks := by simpa using hs
  generalize String.ofList (' ' :: s) = text at hl
  obtain ⟨us, rest, h1, h2, h3⟩ := (C72_script _ _ _).1 demoToks_reads
  let w : Main.World := ⟨fun _ => some text, ""⟩
  have hA : Verif.Spec.Main.Asks w (demoLine "a.smt2") .smt2 "a.smt2" text :=
    ⟨rfl, ⟨rfl, rfl, rfl⟩, rfl, by decide, rfl, .inr ⟨rfl, "a", .inl ⟨rfl, rfl⟩⟩⟩
  obtain ⟨d, hd, hlog⟩ : ∃ d, run (idsTaken demoCfg) demoScript {} = .ok d ∧ d.log = demoScriptLog :=
    logOf_some (by decide +kernel)
  have hp : Main.program ⟨fileReader noHex plainActions, fun _ => none⟩ (fun _ => "") demoMk w
      (demoLine "a.smt2") =
      .ok (0, [.deltaSat (some 1) none] ++ [.unsat]) := by
    rw [C73_program noHex plainActions _ _ demoMk w (demoLine "a.smt2") "a.smt2" text hA _ hl us rest _
      h1 h2 h3 demoFile (by repeat constructor)]
    have h4 : demoPrinted = some [.deltaSat (some 1) none, .unsat] := by decide +kernel
    unfold demoPrinted at h4
    split at h4
    · rename_i r hr
      cases h4
      rw [hr]
      rfl
    · cases h4
  refine C73_unsat_partial D I noHex plainActions (fun _ => none) (fun _ => "") demoMk w
    (demoLine "a.smt2") "a.smt2" text hA demoToks us rest _ _ hl h1 h2 (.inr rfl) [] (by simp) demoScript
    (by repeat constructor)
    (fun o => ⟨demoMk_ok D I o, quarterDbl_ok, demoSat_ok⟩) (tidy_of_tame demoScript_tame hd).1
    (fun o d' ho hr => ?_) 0 _ hp xs
  rw [demoMk_one (by rw [ho]; decide +kernel)] at hr ⊢
  rw [hd] at hr
  simp only [Outcome.ok.injEq] at hr
  subst hr
  rw [hlog]
  exact ⟨demoScript_covered, fun ρ _ => demoScript_ordinary D I _ ρ⟩

/-- As `plainActions`, and bounds may be quotients of numbers. -/
def quotActions : Actions where
  literal := fun _ => none
  stod := fun _ => none
  bound := fun t => match t with
    | .num q => some (.fin q)
    | .div (.num a) [.num b] => some (.fin (a / b))
    | _ => none

/-- The tokens of another file:
`(set-option :produce-models true) (set-logic QF_NRA) (declare-fun x () Real [2, (/ 11 4)])
(declare-const b Bool) (assert (>= x (ite b 1 3))) (assert (let ((y 1)) (>= x y))) (check-sat)`. -/
def hiddenToks : List Tok :=
  [.lp, .setOption, .key ":produce-models", .tru, .rp, .lp, .setLogic, .sym "QF_NRA", .rp,
   .lp, .declareFun, .sym "x", .lp, .rp, .sym "Real", .lb, .int 2, .comma, .lp, .div, .int 11, .int 4,
   .rp, .rb, .rp, .lp, .declareConst, .sym "b", .sym "Bool", .rp,
   .lp, .assert, .lp, .rel .ge, .sym "x", .lp, .ite, .sym "b", .int 1, .int 3, .rp, .rp, .rp,
   .lp, .assert, .lp, .let_, .lp, .lp, .sym "y", .int 1, .rp, .rp, .lp, .rel .ge, .sym "x", .sym "y",
   .rp, .rp, .rp, .lp, .checkSat, .rp]

theorem hiddenToks_reads : script quotActions hiddenToks =
    (.setStr ":produce-models" "true" :: .logic "QF_NRA" ::
      (hiddenScript ++ [SCmd.check]).map PCmd.core, true) := rfl

theorem hiddenToks_writes : ∀ t ∈ hiddenToks, ∃ w, Writes noHex t w := by
  have hn : ∀ (z : Int) (c : Char) (cs : List Char), digit c = true → c ≠ '0' →
      (∀ d ∈ cs, digit d = true) → stol (c :: cs) = .ok z → ∃ w, Writes noHex (.int z) w :=
    fun z c cs h1 h2 h3 hz =>
      ⟨_, .int ⟨[], c :: cs, rfl, .inl rfl, .inr ⟨c, cs, rfl, h1, h2, h3⟩⟩ hz⟩
  have hf : ∀ (t : Tok) (s : String), s ∈ words t → ∃ w, Writes noHex t w :=
    fun t s h => ⟨_, .fixed h⟩
  have hall : ∀ t ∈ hiddenToks, t = .lp ∨ t = .rp ∨ t = .lb ∨ t = .rb ∨ t = .comma ∨ t = .int 1 ∨
      t = .int 2 ∨ t = .int 3 ∨ t = .int 4 ∨ t = .int 11 ∨ t = .sym "x" ∨ t = .sym "b" ∨ t = .sym "y" ∨
      t = .sym "Real" ∨ t = .sym "Bool" ∨ t = .sym "QF_NRA" ∨ t = .declareFun ∨ t = .declareConst ∨
      t = .checkSat ∨ t = .setOption ∨ t = .setLogic ∨ t = .tru ∨ t = .assert ∨ t = .let_ ∨
      t = .rel .ge ∨ t = .ite ∨ t = .div ∨ t = .key ":produce-models" := by decide +kernel
  intro t ht
  rcases hall t ht with rfl | rfl | rfl | rfl | rfl | rfl | rfl | rfl | rfl | rfl | rfl | rfl | rfl |
    rfl | rfl | rfl | rfl | rfl | rfl | rfl | rfl | rfl | rfl | rfl | rfl | rfl | rfl | rfl
  · exact ⟨_, .lp⟩
  · exact ⟨_, .rp⟩
  · exact ⟨_, .lb⟩
  · exact ⟨_, .rb⟩
  · exact ⟨_, .comma⟩
  · exact hn 1 '1' [] (by decide) (by decide) (by simp) (by decide +kernel)
  · exact hn 2 '2' [] (by decide) (by decide) (by simp) (by decide +kernel)
  · exact hn 3 '3' [] (by decide) (by decide) (by simp) (by decide +kernel)
  · exact hn 4 '4' [] (by decide) (by decide) (by simp) (by decide +kernel)
  · exact hn 11 '1' ['1'] (by decide) (by decide) (by decide) (by decide +kernel)
  · exact sym_can _ 'x' [] rfl (by decide) (by simp) (by decide +kernel)
  · exact sym_can _ 'b' [] rfl (by decide) (by simp) (by decide +kernel)
  · exact sym_can _ 'y' [] rfl (by decide) (by simp) (by decide +kernel)
  · exact sym_can _ 'R' ['e', 'a', 'l'] rfl (by decide) (by decide) (by decide +kernel)
  · exact sym_can _ 'B' ['o', 'o', 'l'] rfl (by decide) (by decide) (by decide +kernel)
  · exact sym_can _ 'Q' ['F', '_', 'N', 'R', 'A'] rfl (by decide) (by decide) (by decide +kernel)
  · exact hf _ "declare-fun" (by decide)
  · exact hf _ "declare-const" (by decide)
  · exact hf _ "check-sat" (by decide)
  · exact hf _ "set-option" (by decide)
  · exact hf _ "set-logic" (by decide)
  · exact hf _ "true" (by decide)
  · exact hf _ "assert" (by decide)
  · exact hf _ "let" (by decide)
  · exact hf _ ">=" (by decide)
  · exact hf _ "ite" (by decide)
  · exact hf _ "/" (by decide)
  · exact ⟨':' :: 'p' :: "roduce-models".toList, .key ⟨'p', _, rfl, by decide, by decide⟩⟩

/-- The hypotheses of `C73_delta_sat_partial` are met: there is a file with these tokens, for which the
program prints this model. -/
example (D : Dom) (I : Interp) : ∃ d, run (idsTaken demoCfg) hiddenScript {} = .ok d ∧
    ∀ ρ, InBox ρ hiddenModel → ∃ ρ1 : Valuation, (∀ v ∈ hiddenModel.vars, ρ1 v = ρ v) ∧
      (∀ v l u, .setInterval v l u ∈ callsInForce d.log → InItv (ρ1 v) ⟨l, u⟩) ∧
      ∀ f, .assert f ∈ callsInForce d.log → DefC D I 1 ρ1 f → weakC I 1 ρ1 true f := by
  obtain ⟨s, hs⟩ := blank_laid hiddenToks_writes
  have hl : Laid noHex (String.ofList (' ' :: s)).toList hiddenToks := by simpa using hs
  generalize String.ofList (' ' :: s) = text at hl
  obtain ⟨us, rest, h1, h2, h3⟩ := (C72_script _ _ _).1 hiddenToks_reads
  have hrest : rest = [] := by
    rcases h3 with h | h
    · exact h
    · simp [hiddenScript] at h
  rw [← List.append_nil (_ :: _)] at h2
  let w : Main.World := ⟨fun _ => some text, ""⟩
  have hA : Verif.Spec.Main.Asks w (demoLine "b.smt2") .smt2 "b.smt2" text :=
    ⟨rfl, ⟨rfl, rfl, rfl⟩, rfl, by decide, rfl, .inr ⟨rfl, "b", .inl ⟨rfl, rfl⟩⟩⟩
  obtain ⟨d, hd, hlog⟩ := logOf_some (cfg := demoCfg) (s := hiddenScript) (l := hiddenLog)
    (by decide +kernel)
  have hrun : Runs (.setStr ":produce-models" "true" :: .logic "QF_NRA" ::
      (hiddenScript ++ [SCmd.check]).map PCmd.core)
      ([.setStr ":produce-models" "true"] ++ (hiddenScript ++ [SCmd.check]).map .core) := by
    repeat constructor
  have hp : Main.program ⟨fileReader noHex quotActions, fun _ => none⟩ (fun _ => "") demoMk w
      (demoLine "b.smt2") = .ok (0, [] ++ [.deltaSat (some 1) (some hiddenModel)]) := by
    rw [program_exit _ _ _ hA hl h1 h2 (.inl ⟨hrest, rfl⟩) hrun,
      (C69_asked _ _ _ w (demoLine "b.smt2") "b.smt2" text).1 hA]
    have h4 := printedBy_some demo_prints_b
    rw [(C69_asked _ _ _ _ _ _ _).1 demo_asks_b] at h4
    exact h4
  obtain ⟨-, -, o, d', h4, h5, h6⟩ := C73_delta_sat_partial D I noHex quotActions (fun _ => none)
    (fun _ => "") demoMk w (demoLine "b.smt2") "b.smt2" text hA hiddenToks us rest _ _ hl h1 h2
    (.inl ⟨hrest, rfl⟩) [.setStr ":produce-models" "true"] (by simp [Verif.Spec.Main.IsSetting])
    hiddenScript hrun
    (fun o => ⟨demoMk_ok D I o, quarterDbl_ok, demoSat_ok, exactFp_diamOk, exactFp_diamZero, rfl⟩)
    (tidy_of_tame (by simp [hiddenScript, TameScript, Tame, Tames]) hd).1 hiddenS 0 [] 1 hiddenModel
    (by norm_num) hp hidden_meets
  rw [demoMk_one h4] at h5
  exact ⟨d', h5, by simpa only [Rat.cast_one] using h6⟩

end Verif.Props
