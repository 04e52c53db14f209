import Verif.Spec.Sem
import Verif.Model.Smt2

/-!
# Meaning of SMT-LIB terms and scripts

A denotational semantics of the abstract syntax, independent of the translation.
-/

namespace Verif.Spec.Smt2
open Verif Verif.Model Verif.Model.Smt2 Verif.Spec

/-- A value: a number, a truth value, or nothing sensible (ill-sorted terms, unknown names). -/
inductive SVal where
  | num (x : ℝ)
  | tf (p : Prop)
  | bad

/-- Truth of a value. -/
def SVal.asProp : SVal → Prop
  | .tf p => p
  | _ => False

/-- Operations on values, `bad` unless the arguments have the right kind. -/
def lift1 (g : ℝ → ℝ) : SVal → SVal
  | .num x => .num (g x)
  | _ => .bad
def lift2 (g : ℝ → ℝ → ℝ) : SVal → SVal → SVal
  | .num x, .num y => .num (g x y)
  | _, _ => .bad
def liftR (r : ℝ → ℝ → Prop) : SVal → SVal → SVal
  | .num x, .num y => .tf (r x y)
  | _, _ => .bad
def liftP (g : Prop → Prop → Prop) : SVal → SVal → SVal
  | .tf p, .tf q => .tf (g p q)
  | _, _ => .bad
def notV : SVal → SVal
  | .tf p => .tf (¬ p)
  | _ => .bad
/-- Equality of numbers or of truth values. -/
def eqV : SVal → SVal → SVal
  | .num x, .num y => .tf (x = y)
  | .tf p, .tf q => .tf (p ↔ q)
  | _, _ => .bad
open Classical in
noncomputable def iteV : SVal → SVal → SVal → SVal
  | .tf c, .num x, .num y => .num (if c then x else y)
  | .tf c, .tf p, .tf q => .tf (if c then p else q)
  | _, _, _ => .bad

/-- The type of the variables of a sort. -/
def sortType : Srt → VType
  | .real => .continuous
  | .int => .integer
  | .binary => .binary
  | .bool => .boolean

/-- The value a variable of sort `s` has when its number is `x` (truth is 1). -/
def toVal (t : VType) (x : ℝ) : SVal := if t = .boolean then .tf (x = 1) else .num x

/-- What names mean. -/
abbrev Names := String → SVal
/-- What function names mean. -/
abbrev Funs := String → List SVal → SVal

/-- Binding a name. -/
def Names.set (E : Names) (n : String) (v : SVal) : Names := fun m => if m = n then v else E m

/-- Binding names to values, from the last to the first. -/
def Names.sets (E : Names) : List String → List SVal → Names
  | n :: ns, v :: vs => (E.sets ns vs).set n v
  | _, _ => E

/-- Binding the variables of a quantifier to numbers, from the first to the last. -/
def Names.binds (E : Names) : List SBind → List ℝ → Names
  | b :: bs, x :: xs => (E.set b.name (toVal (sortType b.srt) x)).binds bs xs
  | _, _ => E

/-- The numbers are values of the sorts of the variables and within their bounds. -/
def InBinds : List SBind → List ℝ → Prop
  | b :: bs, x :: xs => typeOk (sortType b.srt) x ∧ (∀ l u, b.dom = some (l, u) → l ≤ x ∧ x ≤ u) ∧
      InBinds bs xs
  | [], [] => True
  | _, _ => False

/-- The variables with bounds. -/
def boundedVars : List SBind → List Variable → List Variable
  | b :: bs, v :: vs => match b.dom with
    | none => boundedVars bs vs
    | some _ => v :: boundedVars bs vs
  | _, _ => []

/-- Meaning of the relations. -/
def relOf : SRel → ℝ → ℝ → Prop
  | .lt, x, y => x < y
  | .le, x, y => x ≤ y
  | .gt, x, y => y < x
  | .ge, x, y => y ≤ x

mutual
/-- Meaning of a term. -/
noncomputable def den (I : Interp) : Names → Funs → STerm → SVal
  | _, _, .tru => .tf True
  | _, _, .fls => .tf False
  | _, _, .num q => .num q
  | _, _, .dec r => .num r.exact
  | E, _, .sym n => E n
  | E, F, .eq a b => eqV (den I E F a) (den I E F b)
  | E, F, .rel o a b => liftR (relOf o) (den I E F a) (den I E F b)
  | E, F, .and ts => (dens I E F ts).foldl (liftP (· ∧ ·)) (.tf True)
  | E, F, .or ts => (dens I E F ts).foldl (liftP (· ∨ ·)) (.tf False)
  | E, F, .xor ts => (dens I E F ts).foldl (liftP Xor) (.tf False)
  | E, F, .not t => notV (den I E F t)
  | E, F, .imp a b => liftP (· → ·) (den I E F a) (den I E F b)
  | E, F, .ite c a b => iteV (den I E F c) (den I E F a) (den I E F b)
  | E, F, .all bs body => .tf (∀ xs, InBinds bs xs → (den I (E.binds bs xs) F body).asProp)
  | E, F, .let_ ns ts body => den I (E.sets ns (dens I E F ts)) F body
  | E, F, .add t ts => (dens I E F ts).foldl (lift2 (· + ·)) (den I E F t)
  | E, F, .neg t => lift1 (- ·) (den I E F t)
  | E, F, .sub t ts => (dens I E F ts).foldl (lift2 (· - ·)) (den I E F t)
  | E, F, .mul t ts => (dens I E F ts).foldl (lift2 (· * ·)) (den I E F t)
  | E, F, .div t ts => (dens I E F ts).foldl (lift2 (I.f2 .div)) (den I E F t)
  | E, F, .fn1 f t => lift1 (I.f1 f) (den I E F t)
  | E, F, .fn2 f a b => lift2 (I.f2 f) (den I E F a) (den I E F b)
  | E, F, .call n ts => F n (dens I E F ts)
/-- Meaning of a list of terms. -/
noncomputable def dens (I : Interp) : Names → Funs → List STerm → List SVal
  | _, _, [] => []
  | E, F, t :: ts => den I E F t :: dens I E F ts
end

/-! ## Terms the translation gets right -/

mutual
/-- No `let` in a term. -/
def LetFree : STerm → Prop
  | .tru | .fls | .num _ | .dec _ | .sym _ => True
  | .eq a b | .rel _ a b | .imp a b | .fn2 _ a b => LetFree a ∧ LetFree b
  | .and ts | .or ts | .xor ts | .call _ ts => LetFrees ts
  | .not t | .neg t | .fn1 _ t => LetFree t
  | .ite c a b => LetFree c ∧ LetFree a ∧ LetFree b
  | .all _ t => LetFree t
  | .let_ _ _ _ => False
  | .add t ts | .sub t ts | .mul t ts | .div t ts => LetFree t ∧ LetFrees ts
def LetFrees : List STerm → Prop
  | [] => True
  | t :: ts => LetFree t ∧ LetFrees ts
end

/-- The bounds of a variable leave it a value. -/
def SBind.Inhabited (b : SBind) : Prop := ∃ x : ℝ, InBinds [b] [x]

/-- A quantifier over one variable whose bounds leave it a value, or over variables without
bounds. -/
def TameBinds : List SBind → Prop
  | [b] => SBind.Inhabited b
  | bs => ∀ b ∈ bs, b.dom = none

mutual
/-- No `let` below a quantifier, and every quantifier is tame. -/
def Tame : STerm → Prop
  | .tru | .fls | .num _ | .dec _ | .sym _ => True
  | .eq a b | .rel _ a b | .imp a b | .fn2 _ a b => Tame a ∧ Tame b
  | .and ts | .or ts | .xor ts | .call _ ts => Tames ts
  | .not t | .neg t | .fn1 _ t => Tame t
  | .ite c a b => Tame c ∧ Tame a ∧ Tame b
  | .all bs t => TameBinds bs ∧ LetFree t ∧ Tame t
  | .let_ ns ts t => ns.length = ts.length ∧ Tames ts ∧ Tame t
  | .add t ts | .sub t ts | .mul t ts | .div t ts => Tame t ∧ Tames ts
def Tames : List STerm → Prop
  | [] => True
  | t :: ts => Tame t ∧ Tames ts
end

/-! ## Scripts -/

/-- The interval of a declaration. -/
def inBounds : Option (EQ × EQ) → ℝ → Prop
  | none, _ => True
  | some (l, u), x => (∀ q, l = .fin q → (q : ℝ) ≤ x) ∧ l ≠ .pinf ∧
      (∀ q, u = .fin q → x ≤ (q : ℝ)) ∧ u ≠ .ninf

/-- The arguments fit the parameters. -/
def fits : List (String × Srt) → List SVal → Bool
  | [], [] => true
  | (_, .bool) :: ps, .tf _ :: vs => fits ps vs
  | (_, s) :: ps, .num _ :: vs => s != .bool && fits ps vs
  | _, _ => false

/-- Binding parameters to arguments, from the first to the last. -/
def Names.params (E : Names) : List (String × Srt) → List SVal → Names
  | p :: ps, v :: vs => (E.set p.1 v).params ps vs
  | _, _ => E

/-- Meaning of a function definition. -/
noncomputable def Funs.define (F : Funs) (I : Interp) (E : Names) (n : String)
    (ps : List (String × Srt)) (body : STerm) : Funs := fun m args =>
  if m = n then (if fits ps args then den I (E.params ps args) F body else .bad) else F m args

/-- The constraints a script states about the numbers `xs` given to the variables it declares and
to the names it defines without parameters, in order. -/
noncomputable def holdsScript (I : Interp) : Names → Funs → List SCmd → List ℝ → Prop
  | _, _, [], xs => xs = []
  | E, F, .declare n s dom :: cs, xs => ∃ x xs', xs = x :: xs' ∧ typeOk (sortType s) x ∧
      inBounds dom x ∧ holdsScript I (E.set n (toVal (sortType s) x)) F cs xs'
  | E, F, .define n [] s body :: cs, xs => ∃ x xs', xs = x :: xs' ∧ typeOk (sortType s) x ∧
      toVal (sortType s) x = den I E F body ∧ holdsScript I (E.set n (toVal (sortType s) x)) F cs xs'
  | E, F, .define n (p :: ps) _ body :: cs, xs =>
      holdsScript I E (F.define I E n (p :: ps) body) cs xs
  | E, F, .assert t :: cs, xs => (den I E F t).asProp ∧ holdsScript I E F cs xs
  | E, F, _ :: cs, xs => holdsScript I E F cs xs

/-- What names mean after a script, when the variables it declares and the names it defines without
parameters have the values `xs`, in order. -/
noncomputable def namesOf (I : Interp) : Names → Funs → List SCmd → List ℝ → Names × Funs
  | E, F, .declare n s _ :: cs, x :: xs => namesOf I (E.set n (toVal (sortType s) x)) F cs xs
  | E, F, .define n [] s _ :: cs, x :: xs => namesOf I (E.set n (toVal (sortType s) x)) F cs xs
  | E, F, .define n (p :: ps) _ body :: cs, xs =>
      namesOf I E (F.define I E n (p :: ps) body) cs xs
  | E, F, .assert _ :: cs, xs => namesOf I E F cs xs
  | E, F, .check :: cs, xs => namesOf I E F cs xs
  | E, F, _, _ => (E, F)

/-- The value of a term at the end of a script. -/
noncomputable def valueAfter (I : Interp) (s : List SCmd) (xs : List ℝ) (t : STerm) : SVal :=
  let N := namesOf I (fun _ => .bad) (fun _ _ => .bad) s xs
  den I N.1 N.2 t

/-- Scripts without scopes in which every term is tame and functions with parameters have bodies
without `let`. -/
def TameScript : List SCmd → Prop
  | [] => True
  | .declare _ _ _ :: cs => TameScript cs
  | .define _ [] _ body :: cs => Tame body ∧ TameScript cs
  | .define _ (_ :: _) _ body :: cs => LetFree body ∧ Tame body ∧ TameScript cs
  | .assert t :: cs => Tame t ∧ TameScript cs
  | .check :: cs => TameScript cs
  | .push _ :: _ => False
  | .pop _ :: _ => False

/-! ## Names -/

mutual
/-- The names free in a term. -/
def freeNames : STerm → List String
  | .tru | .fls | .num _ | .dec _ => []
  | .sym n => [n]
  | .eq a b | .rel _ a b | .imp a b | .fn2 _ a b => freeNames a ++ freeNames b
  | .and ts | .or ts | .xor ts | .call _ ts => freeNamess ts
  | .not t | .neg t | .fn1 _ t => freeNames t
  | .ite c a b => freeNames c ++ freeNames a ++ freeNames b
  | .all bs t => (freeNames t).filter fun n => n ∉ bs.map SBind.name
  | .let_ ns ts t => freeNamess ts ++ (freeNames t).filter fun n => n ∉ ns
  | .add t ts | .sub t ts | .mul t ts | .div t ts => freeNames t ++ freeNamess ts
def freeNamess : List STerm → List String
  | [] => []
  | t :: ts => freeNames t ++ freeNamess ts
end

mutual
/-- The functions a term calls, with the number of arguments. -/
def callNames : STerm → List (String × Nat)
  | .tru | .fls | .num _ | .dec _ | .sym _ => []
  | .eq a b | .rel _ a b | .imp a b | .fn2 _ a b => callNames a ++ callNames b
  | .and ts | .or ts | .xor ts => callNamess ts
  | .call n ts => (n, ts.length) :: callNamess ts
  | .not t | .neg t | .fn1 _ t => callNames t
  | .ite c a b => callNames c ++ callNames a ++ callNames b
  | .all _ t => callNames t
  | .let_ _ ts t => callNamess ts ++ callNames t
  | .add t ts | .sub t ts | .mul t ts | .div t ts => callNames t ++ callNamess ts
def callNamess : List STerm → List (String × Nat)
  | [] => []
  | t :: ts => callNames t ++ callNamess ts
end

/-- Names of variables, and of functions with their numbers of parameters, the last first. -/
abbrev Decls := List String × List (String × Nat)

/-- The last function of a name has `k` parameters. -/
def Decls.arity (D : Decls) (n : String) (k : Nat) : Prop := D.2.lookup n = some k

/-- A term uses only what is declared, functions with the right number of arguments. -/
def UsesOnly (D : Decls) (t : STerm) : Prop :=
  (∀ n ∈ freeNames t, n ∈ D.1) ∧ ∀ c ∈ callNames t, D.arity c.1 c.2

/-- What a command declares. -/
def Decls.add (D : Decls) : SCmd → Decls
  | .declare n _ _ => (n :: D.1, D.2)
  | .define n [] _ _ => (n :: D.1, D.2)
  | .define n (p :: ps) _ _ => (D.1, (n, (p :: ps).length) :: D.2)
  | _ => D

/-- A command uses only what is declared. -/
def CmdUsesOnly (D : Decls) : SCmd → Prop
  | .define _ ps _ body => UsesOnly (ps.map Prod.fst ++ D.1, D.2) body
  | .assert t => UsesOnly D t
  | _ => True

/-- Every command uses only what was declared before it, be it in a scope that was closed. -/
def DeclaredBefore : Decls → List SCmd → Prop
  | _, [] => True
  | D, c :: cs => CmdUsesOnly D c ∧ DeclaredBefore (D.add c) cs

/-- Every command uses only what was declared before it in a scope that is still open; the list has
the declarations seen from the scopes around. -/
def WellScoped : Decls → List Decls → List SCmd → Prop
  | _, _, [] => True
  | D, st, .push n :: cs => WellScoped D (List.replicate n.toNat D ++ st) cs
  | D, st, .pop n :: cs => WellScoped ((st.drop (n.toNat - 1)).headD D) (st.drop n.toNat) cs
  | D, st, c :: cs => CmdUsesOnly D c ∧ WellScoped (D.add c) st cs

/-- What the calls on the context say about a valuation: every asserted formula holds, every
variable is within its interval, and declared variables have values of their types. -/
def CmdHolds (I : Interp) (ρ : Valuation) : Cmd → Prop
  | .assert f => holds I ρ f
  | .setInterval v l u => inBounds (some (l, u)) (ρ v)
  | .declare v _ => typeOk v.type (ρ v)
  | _ => True

/-- The declared model variables, in order. -/
def modelVars : List Cmd → List Variable
  | [] => []
  | .declare v true :: l => v :: modelVars l
  | _ :: l => modelVars l

/-- The problem posed to the context: a valuation that everything said to the context allows gives
the declared model variables, in order, the values `xs`. -/
def posed (I : Interp) (log : List Cmd) (xs : List ℝ) : Prop :=
  ∃ ρ : Valuation, (∀ c ∈ log, CmdHolds I ρ c) ∧ xs = (modelVars log).map ρ

/-- The problem a script states. -/
noncomputable def stated (I : Interp) (s : List SCmd) (xs : List ℝ) : Prop :=
  holdsScript I (fun _ => .bad) (fun _ _ => .bad) s xs

end Verif.Spec.Smt2
