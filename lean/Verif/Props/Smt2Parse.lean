import Verif.Proof.Smt2Parse

/-!
# C72: the grammar of SMT-LIB scripts
-/

namespace Verif.Props
open Verif Verif.Model Verif.Model.Smt2 Verif.Model.Smt2Parse Verif.Spec.Smt2Grammar
  Verif.Proof.Smt2Parse

/-- **C72**: a term is read from the tokens that spell it, whatever follows them, and from no others. -/
theorem C72_term (A : Actions) (ts : List Tok) (t : STerm) (rest : List Tok) :
    readTerm A ts = some (t, rest) ↔ ∃ us, ts = us ++ rest ∧ Spells A us t := term_iff

/-- **C72**: a command is read from the tokens that spell it, whatever follows them, and from no
others. -/
theorem C72_command (A : Actions) (ts : List Tok) (c : PCmd) (rest : List Tok) :
    command A ts = some (c, rest) ↔ ∃ us, ts = us ++ rest ∧ SpC A us c := command_iff

/-- **C72**: a script is accepted if and only if its tokens spell commands, up to the end or the first
`exit`; these are the commands executed. -/
theorem C72_script (A : Actions) (ts : List Tok) (cs : List PCmd) :
    script A ts = (cs, true) ↔ ∃ us rest, ts = us ++ rest ∧ SpS A us cs ∧
      (rest = [] ∨ cs.getLast? = some .exit) := script_iff

/-- **C72**: tokens spell one term at most, and no beginning of the tokens of a term spells a term. -/
theorem C72_unambiguous (A : Actions) (us vs : List Tok) (t t' : STerm) (h : Spells A us t)
    (h' : Spells A (us ++ vs) t') : vs = [] ∧ t = t' := by
  have h1 : readTerm A (us ++ vs) = some (t, vs) := term_iff.2 ⟨us, rfl, h⟩
  have h2 : readTerm A (us ++ vs) = some (t', []) := term_iff.2 ⟨us ++ vs, by simp, h'⟩
  rw [h1] at h2
  cases h2
  exact ⟨rfl, rfl⟩

/-- **C72**: the same for commands. -/
theorem C72_unambiguous_command (A : Actions) (us vs : List Tok) (c c' : PCmd) (h : SpC A us c)
    (h' : SpC A (us ++ vs) c') : vs = [] ∧ c = c' := by
  have h1 : command A (us ++ vs) = some (c, vs) := command_iff.2 ⟨us, rfl, h⟩
  have h2 : command A (us ++ vs) = some (c', []) := command_iff.2 ⟨us ++ vs, by simp, h'⟩
  rw [h1] at h2
  cases h2
  exact ⟨rfl, rfl⟩

/-- **C72**: commands are executed as they come: whatever follows them, an error included, they have
been executed, and then what follows is read. -/
theorem C72_before (A : Actions) (us vs : List Tok) (cs : List PCmd) (h : SpS A us cs)
    (he : ∀ c ∈ cs, c ≠ .exit) (hv : vs ≠ []) :
    script A (us ++ vs) = (cs ++ (script A vs).1, (script A vs).2) := by
  induction h with
  | @last us c h =>
    exact script_more (command_iff.2 ⟨us, rfl, h⟩) (he c (by simp)) hv
  | @cons us ws c cs h hne h2 ih =>
    rw [script_more (command_iff.2 ⟨us, by rw [List.append_assoc], h⟩) hne (by simp [hv]),
      ih fun c hc => he c (by simp [hc])]
    rfl

/-- **C72**: what is executed of a script that is not accepted: the commands that are spelt at its
beginning, up to where no command is spelt. -/
theorem C72_error (A : Actions) (ts : List Tok) (cs : List PCmd) (h : script A ts = (cs, false)) :
    ∃ us rest, ts = us ++ rest ∧ ((us = [] ∧ cs = []) ∨ SpS A us cs) ∧ (∀ c ∈ cs, c ≠ .exit) ∧
      ∀ vs ws c, rest = vs ++ ws → ¬ SpC A vs c := by
  generalize hn : ts.length = n
  induction n using Nat.strong_induction_on generalizing ts cs with
  | _ n ih =>
    cases hc : command A ts with
    | none =>
      rw [script_none hc] at h
      cases h
      refine ⟨[], ts, rfl, .inl ⟨rfl, rfl⟩, by simp, fun vs ws c hw hs => ?_⟩
      rw [command_iff.2 ⟨vs, hw, hs⟩] at hc
      cases hc
    | some p =>
      obtain ⟨c, rest⟩ := p
      obtain ⟨us, rfl, e⟩ := command_iff.1 hc
      by_cases h1 : c = .exit
      · subst h1
        rw [script_exit hc] at h
        cases h
      by_cases h2 : rest = []
      · subst h2
        rw [script_last hc] at h
        cases h
      rw [script_more hc h1 h2, Prod.mk.injEq] at h
      obtain ⟨rfl, h3⟩ := h
      have hl := command_pos e
      rw [List.length_append] at hn
      generalize hcs : (script A rest).1 = cs'
      obtain ⟨vs, r, rfl, e2, h4, h5⟩ := ih rest.length (by omega) rest cs' (Prod.ext hcs h3) rfl
      refine ⟨us ++ vs, r, by simp, .inr ?_, ?_, h5⟩
      · rcases e2 with ⟨rfl, e2⟩ | e2
        · subst e2
          rw [List.append_nil]
          exact .last e
        · exact .cons e h1 e2
      · intro d hd
        rcases List.mem_cons.1 hd with rfl | hd
        · exact h1
        · exact h4 d hd

/-- **C72**: false for standard scripts — an option with an integer, a command of which only the name
is known (`reset`, `echo`, `check-sat-assuming`), the declaration or definition of a name that is a
function here (`max`, `log`), and an order relation of three terms are errors of syntax: everything
from there on is ignored. -/
theorem C72_standard_fails (A : Actions) (vs : List Tok) :
    (∀ k z, script A (.lp :: .setOption :: .key k :: .int z :: vs) = ([], false)) ∧
    (∀ s, script A (.lp :: .unused s :: vs) = ([], false)) ∧
    (∀ c ∈ [Tok.declareConst, .declareFun, .defineFun], ∀ t, (∀ s, t ≠ .sym s) →
      script A (.lp :: c :: t :: vs) = ([], false)) ∧
    ∀ o us a b c, Sp A us (.terms [a, b, c]) →
      script A (.lp :: .assert :: .lp :: .rel o :: (us ++ .rp :: vs)) = ([], false) := by
  refine ⟨fun k z => script_none (by simp [command]), fun s => script_none (by simp [command]), ?_, ?_⟩
  · intro c hc t ht
    refine script_none ?_
    simp only [List.mem_cons, List.not_mem_nil, or_false] at hc
    rcases hc with rfl | rfl | rfl <;> cases t <;>
      first
        | rfl
        | exact absurd rfl (ht _)
  intro o us a b c h
  refine script_none ?_
  have ha : readTerm A (.lp :: .rel o :: (us ++ .rp :: vs)) = none := by
    have := complete h ((us ++ .rp :: vs).length + 1) vs (by simp; omega)
    simp only [readTerm, List.length_cons, term, this]
    simp [build]
  simp [command, lastTerm, ha]

/-- Actions for the examples: no decimal literals, and bounds that are numbers. -/
def plainActions : Actions where
  literal := fun _ => none
  stod := fun _ => none
  bound := fun t => match t with | .num q => some (.fin q) | _ => none

/-- `(declare-fun x () Real [0, 1]) (assert (< x 1)) (check-sat) (exit) )`. -/
example : (script plainActions [.lp, .declareFun, .sym "x", .lp, .rp, .sym "Real", .lb, .int 0, .comma,
    .int 1, .rb, .rp, .lp, .assert, .lp, .rel .lt, .sym "x", .int 1, .rp, .rp, .lp, .checkSat, .rp,
    .lp, .exit, .rp, .rp]) =
    ([.core (.declare "x" .real (some (.fin 0, .fin 1))), .core (.assert (.rel .lt (.sym "x") (.num 1))),
      .core .check, .exit], true) := by
  rfl

/-- `(let ((a 1)) (forall ((y Real [0, 2])) (= a y)))`. -/
example : Spells plainActions [.lp, .let_, .lp, .lp, .sym "a", .int 1, .rp, .rp, .lp, .all, .lp, .lp,
    .sym "y", .sym "Real", .lb, .int 0, .comma, .int 2, .rb, .rp, .rp, .lp, .eq, .sym "a", .sym "y",
    .rp, .rp, .rp] (.let_ ["a"] [.num 1] (.all [⟨"y", .real, some (0, 2)⟩]
      (.eq (.sym "a") (.sym "y")))) := by
  have h : readTerm plainActions [.lp, .let_, .lp, .lp, .sym "a", .int 1, .rp, .rp, .lp, .all, .lp, .lp,
    .sym "y", .sym "Real", .lb, .int 0, .comma, .int 2, .rb, .rp, .rp, .lp, .eq, .sym "a", .sym "y",
    .rp, .rp, .rp] = some (.let_ ["a"] [.num 1] (.all [⟨"y", .real, some (0, 2)⟩]
      (.eq (.sym "a") (.sym "y"))), []) := rfl
  obtain ⟨us, h1, h2⟩ := (C72_term _ _ _ _).1 h
  rw [List.append_nil] at h1
  rw [h1]
  exact h2

/-- `(check-sat) (reset) (check-sat)`: only the first check is executed. -/
example : script plainActions [.lp, .checkSat, .rp, .lp, .unused "reset", .rp, .lp, .checkSat, .rp] =
    ([.core .check], false) := rfl

/-- Three terms, as in `(< 1 2 3)`. -/
example : Sp plainActions [.int 1, .int 2, .int 3] (.terms [.num 1, .num 2, .num 3]) := by
  refine .terms (us := [.int 1]) (.int ?_) (.terms (us := [.int 2]) (.int ?_)
    (.terms (us := [.int 3]) (vs := []) (.int ?_) .noTerm)) <;> decide

end Verif.Props
