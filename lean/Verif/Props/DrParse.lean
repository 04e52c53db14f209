import Verif.Proof.DrParse

/-!
# C70: the `dr` parser reads the grammar of the format
-/

namespace Verif.Props
open Verif Verif.Model Verif.Model.Dr Verif.Model.DrParse Verif.Spec.DrGrammar Verif.Proof.DrParse

/-- **C70**: before a semicolon the parser reads exactly the expressions that are sums of products of
signed powers, and it reads them as such. -/
theorem C70_expr (us rest : List Tok) (e : DExpr) :
    parseE (us ++ .semi :: rest) = some (e, .semi :: rest) ↔ Reads .sum us e := by
  constructor
  · intro h
    obtain ⟨vs, h1, h2⟩ := parseE_sound h
    rw [List.append_cancel_right h1]
    exact h2
  · exact fun h => parseE_complete h ⟨rfl, rfl⟩

/-- **C70**: before a semicolon the parser reads exactly the formulas that are implications of
disjunctions of conjunctions. -/
theorem C70_formula (us rest : List Tok) (f : DFml) :
    parseF (us ++ .semi :: rest) = some (f, .semi :: rest) ↔ ReadsF .imp us f := by
  constructor
  · intro h
    obtain ⟨vs, h1, h2⟩ := parseF_sound h
    rw [List.append_cancel_right h1]
    exact h2
  · exact fun h => parseF_complete h ⟨rfl, rfl⟩

/-- **C70**: a list of tokens is read as a problem iff it spells the problem. -/
theorem C70_problem (ev : DExpr → Option EQ) (ts : List Tok) (p : DProb) :
    parse ev ts = some p ↔ Spells ev ts p := parse_iff ev ts p

/-- **C70**: what tokens spell is determined. -/
theorem C70_unambiguous :
    (∀ {ts e e'}, Reads .sum ts e → Reads .sum ts e' → e = e') ∧
    (∀ {ts f f'}, ReadsF .imp ts f → ReadsF .imp ts f' → f = f') ∧
    (∀ {ev ts p p'}, Spells ev ts p → Spells ev ts p' → p = p') := by
  refine ⟨fun {ts e e'} h h' => ?_, fun {ts f f'} h h' => ?_, fun {ev ts p p'} h h' => ?_⟩
  · have h1 := (C70_expr ts [] e).2 h
    rw [(C70_expr ts [] e').2 h'] at h1
    cases h1; rfl
  · have h1 := (C70_formula ts [] f).2 h
    rw [(C70_formula ts [] f').2 h'] at h1
    cases h1; rfl
  · have h1 := (parse_iff ev ts p).2 h
    rw [(parse_iff ev ts p').2 h'] at h1
    cases h1; rfl

/-- **C70**: no declaration, no problem; and nothing may follow the last section. -/
theorem C70_nothing_else (ev : DExpr → Option EQ) (ts : List Tok) (p : DProb)
    (h : parse ev ts = some p) :
    p.decls ≠ [] ∧ (∃ us, ts = .var :: .colon :: us) ∧ ∃ us, ts = us ++ [.semi] := by
  obtain ⟨us, vs, ws, rfl, h1, h2, h3, h4⟩ := (parse_iff ev ts p).1 h
  refine ⟨h1, ⟨us ++ vs ++ ws, rfl⟩, ?_⟩
  have key : ∀ {α : Type} {P : List Tok → α → Prop} {us as},
      (∀ {us a}, P us a → ∃ vs, us = vs ++ [Tok.semi]) → as ≠ [] → SpellsAll P us as →
      ∃ vs, us = vs ++ [Tok.semi] := by
    intro α P us as hP hne h
    induction h with
    | nil => exact absurd rfl hne
    | @cons ts us a as ha hs ih =>
      cases as with
      | nil =>
        cases hs
        obtain ⟨vs, rfl⟩ := hP ha
        exact ⟨vs, by simp⟩
      | cons b bs =>
        obtain ⟨vs, rfl⟩ := ih (by simp)
        exact ⟨ts ++ vs, by simp⟩
  have hd : ∃ xs, us = xs ++ [Tok.semi] := by
    refine key ?_ h1 h2
    intro us a ha
    cases ha with
    | bounds => exact ⟨_, by rw [show [Tok.rb, .id _, .semi] = [Tok.rb, .id _] ++ [.semi] from rfl,
        ← List.append_assoc]⟩
    | point => exact ⟨_, by rw [show [Tok.id _, .semi] = [Tok.id _] ++ [.semi] from rfl,
        ← List.append_assoc]⟩
  obtain ⟨xs, rfl⟩ := hd
  rcases h4 with ⟨rfl, _⟩ | ⟨ws, rfl, h5, h6⟩
  · rcases h3 with ⟨rfl, _⟩ | ⟨vs, rfl, h5, h6⟩
    · exact ⟨[.var, .colon] ++ xs, by simp⟩
    · obtain ⟨ys, rfl⟩ := key (fun ⟨a, _, h⟩ => ⟨a, h⟩) h5 h6
      exact ⟨[.var, .colon] ++ (xs ++ [.semi]) ++ ([.ctr, .colon] ++ ys), by simp⟩
  · obtain ⟨ys, rfl⟩ := key (fun ⟨a, _, h⟩ => ⟨a, h⟩) h5 h6
    exact ⟨[.var, .colon] ++ (xs ++ [.semi]) ++ vs ++ ([.cost, .colon] ++ ys), by simp⟩

/-! ## Cases -/

/-- `-x^2;` is the opposite of the square. -/
example : parseE [.minus, .id "x", .caret, .num 2, .semi] =
    some (.neg (.fn2 .pow (.id "x") (.num 2)), [.semi]) := rfl

/-- `2^-x^3*y;`: the exponent is `-(x^3)`, and the product comes after. -/
example : parseE [.num 2, .caret, .minus, .id "x", .caret, .num 3, .times, .id "y", .semi] =
    some (.mul (.fn2 .pow (.num 2) (.neg (.fn2 .pow (.id "x") (.num 3)))) (.id "y"), [.semi]) := rfl

/-- `a - b - c * d / e;`. -/
example : parseE [.id "a", .minus, .id "b", .minus, .id "c", .times, .id "d", .div, .id "e", .semi] =
    some (.sub (.sub (.id "a") (.id "b")) (.fn2 .div (.mul (.id "c") (.id "d")) (.id "e")),
      [.semi]) := rfl

/-- `not x = 1 and (x < 2 or x > 3) implies x <= 4 implies x >= 5;`. -/
example : parseF [.not, .id "x", .eq, .num 1, .and, .lp, .id "x", .lt, .num 2, .or, .id "x", .gt,
      .num 3, .rp, .implies, .id "x", .le, .num 4, .implies, .id "x", .ge, .num 5, .semi] =
    some (.imp (.and (.not (.rel .eq (.id "x") (.num 1)))
      (.or (.rel .lt (.id "x") (.num 2)) (.rel .gt (.id "x") (.num 3))))
      (.imp (.rel .le (.id "x") (.num 4)) (.rel .ge (.id "x") (.num 5))), [.semi]) := rfl

/-- Comparisons do not chain: `x < y < z;`. -/
example : parseF [.id "x", .lt, .id "y", .lt, .id "z", .semi] =
    some (.rel .lt (.id "x") (.id "y"), [.lt, .id "z", .semi]) ∧
    parseCtr [.id "x", .lt, .id "y", .lt, .id "z", .semi] = none := ⟨rfl, rfl⟩

/-- The tokens of `var: [0, 2] x; 3 y; ctr: sin(x) = y; cost: max(x, y);`. -/
def drToks : List Tok := [.var, .colon, .lb, .num 0, .comma, .num 2, .rb, .id "x", .semi, .num 3, .id "y",
  .semi, .ctr, .colon, .fn1 .sin, .lp, .id "x", .rp, .eq, .id "y", .semi, .cost, .colon, .fn2 .max, .lp,
  .id "x", .comma, .id "y", .rp, .semi]

/-- Values of literals. -/
def litEv : DExpr → Option EQ
  | .num q => some (.fin q)
  | _ => none

/-- The problem they spell. -/
def drRead : DProb :=
  ⟨[⟨"x", .fin 0, .fin 2⟩, ⟨"y", .fin 3, .fin 3⟩], [.rel .eq (.fn1 .sin (.id "x")) (.id "y")],
    [.fn2 .max (.id "x") (.id "y")]⟩

example : Spells litEv drToks drRead := (C70_problem _ _ _).1 rfl

/-- A constraint section without constraints is an error, and so are the sections in another
order. -/
example : parse litEv [.var, .colon, .num 1, .id "x", .semi, .ctr, .colon] = none ∧
    parse litEv [.var, .colon, .num 1, .id "x", .semi, .cost, .colon, .id "x", .semi, .ctr, .colon,
      .id "x", .eq, .num 1, .semi] = none := ⟨rfl, rfl⟩

end Verif.Props
