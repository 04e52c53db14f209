import Verif.Model.DrParse

/-!
# What the `dr` format means, as a grammar without precedences

Sums of products of signed powers, and implications of disjunctions of conjunctions: an expression
is at one of these levels, and every level says which levels its parts are at.
-/

namespace Verif.Spec.DrGrammar
open Verif Verif.Model Verif.Model.Dr Verif.Model.DrParse

/-- Levels of expressions. -/
inductive Lvl where
  | sum | prod | signed | power | atom
deriving DecidableEq

/-- The tokens spell the expression, at a level. -/
inductive Reads : Lvl → List Tok → DExpr → Prop
  | num (q : ℚ) : Reads .atom [.num q] (.num q)
  | id (n : String) : Reads .atom [.id n] (.id n)
  | paren {ts e} : Reads .sum ts e → Reads .atom ([.lp] ++ ts ++ [.rp]) e
  | fn1 {ts e} (f : Fn1) : Reads .sum ts e → Reads .atom ([.fn1 f, .lp] ++ ts ++ [.rp]) (.fn1 f e)
  | fn2 {ts us a b} (f : Fn2) : Reads .sum ts a → Reads .sum us b →
      Reads .atom ([.fn2 f, .lp] ++ ts ++ [.comma] ++ us ++ [.rp]) (.fn2 f a b)
  | power {ts us a b} : Reads .atom ts a → Reads .signed us b →
      Reads .power (ts ++ [.caret] ++ us) (.fn2 .pow a b)
  | neg {ts a} : Reads .signed ts a → Reads .signed ([.minus] ++ ts) (.neg a)
  | mul {ts us a b} : Reads .prod ts a → Reads .signed us b →
      Reads .prod (ts ++ [.times] ++ us) (.mul a b)
  | div {ts us a b} : Reads .prod ts a → Reads .signed us b →
      Reads .prod (ts ++ [.div] ++ us) (.fn2 .div a b)
  | add {ts us a b} : Reads .sum ts a → Reads .prod us b →
      Reads .sum (ts ++ [.plus] ++ us) (.add a b)
  | sub {ts us a b} : Reads .sum ts a → Reads .prod us b →
      Reads .sum (ts ++ [.minus] ++ us) (.sub a b)
  | atom {ts e} : Reads .atom ts e → Reads .power ts e
  | pow {ts e} : Reads .power ts e → Reads .signed ts e
  | sgn {ts e} : Reads .signed ts e → Reads .prod ts e
  | prod {ts e} : Reads .prod ts e → Reads .sum ts e

/-- Levels of formulas. -/
inductive FLvl where
  | imp | or | and | unit
deriving DecidableEq

/-- The token of a relation. -/
def relTok : DRel → Tok
  | .eq => .eq
  | .lt => .lt
  | .le => .le
  | .gt => .gt
  | .ge => .ge

/-- The tokens spell the formula, at a level: implication associates to the right, the others to the
left. -/
inductive ReadsF : FLvl → List Tok → DFml → Prop
  | rel {ts us a b} (o : DRel) : Reads .sum ts a → Reads .sum us b →
      ReadsF .unit (ts ++ [relTok o] ++ us) (.rel o a b)
  | paren {ts f} : ReadsF .imp ts f → ReadsF .unit ([.lp] ++ ts ++ [.rp]) f
  | not {ts f} : ReadsF .unit ts f → ReadsF .unit ([.not] ++ ts) (.not f)
  | conj {ts us f g} : ReadsF .and ts f → ReadsF .unit us g →
      ReadsF .and (ts ++ [.and] ++ us) (.and f g)
  | disj {ts us f g} : ReadsF .or ts f → ReadsF .and us g →
      ReadsF .or (ts ++ [.or] ++ us) (.or f g)
  | impl {ts us f g} : ReadsF .or ts f → ReadsF .imp us g →
      ReadsF .imp (ts ++ [.implies] ++ us) (.imp f g)
  | unit {ts f} : ReadsF .unit ts f → ReadsF .and ts f
  | and {ts f} : ReadsF .and ts f → ReadsF .or ts f
  | or {ts f} : ReadsF .or ts f → ReadsF .imp ts f

/-- A declaration: bounds and a name, or a value and a name.  `ev` gives the values of the bounds. -/
inductive SpellsDecl (ev : DExpr → Option EQ) : List Tok → DDecl → Prop
  | bounds {ts us a b n l u} : Reads .sum ts a → Reads .sum us b → ev a = some l → ev b = some u →
      SpellsDecl ev ([.lb] ++ ts ++ [.comma] ++ us ++ [.rb, .id n, .semi]) ⟨n, l, u⟩
  | point {ts a n l} : Reads .sum ts a → ev a = some l →
      SpellsDecl ev (ts ++ [.id n, .semi]) ⟨n, l, l⟩

/-- A formula with a semicolon. -/
def SpellsCtr (ts : List Tok) (f : DFml) : Prop := ∃ us, ReadsF .imp us f ∧ ts = us ++ [.semi]

/-- An expression with a semicolon. -/
def SpellsCost (ts : List Tok) (e : DExpr) : Prop := ∃ us, Reads .sum us e ∧ ts = us ++ [.semi]

/-- One after the other. -/
inductive SpellsAll {α : Type} (item : List Tok → α → Prop) : List Tok → List α → Prop
  | nil : SpellsAll item [] []
  | cons {ts us a as} : item ts a → SpellsAll item us as → SpellsAll item (ts ++ us) (a :: as)

/-- A section with its key, or nothing. -/
def SpellsSection {α : Type} (key : Tok) (item : List Tok → α → Prop) (ts : List Tok) (as : List α) :
    Prop :=
  (ts = [] ∧ as = []) ∨ ∃ us, ts = [key, .colon] ++ us ∧ as ≠ [] ∧ SpellsAll item us as

/-- The tokens spell the problem. -/
def Spells (ev : DExpr → Option EQ) (ts : List Tok) (p : DProb) : Prop :=
  ∃ us vs ws, ts = [.var, .colon] ++ us ++ vs ++ ws ∧ p.decls ≠ [] ∧
    SpellsAll (SpellsDecl ev) us p.decls ∧ SpellsSection .ctr SpellsCtr vs p.ctrs ∧
    SpellsSection .cost SpellsCost ws p.costs

end Verif.Spec.DrGrammar
