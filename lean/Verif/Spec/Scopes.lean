import Verif.Spec.Smt2

/-!
# Scripts with scopes

What a script states at its end is what the commands in force state: those that were not given in a
scope closed since.
-/

namespace Verif.Spec.Smt2
open Verif Verif.Model Verif.Model.Smt2 Verif.Spec

/-- The commands in force after another command, with those that were in force where the open
scopes were opened, innermost first. -/
def enforce : List SCmd × List (List SCmd) → SCmd → List SCmd × List (List SCmd)
  | (a, st), .push n => (a, List.replicate n.toNat a ++ st)
  | (a, st), .pop n => ((st.drop (n.toNat - 1)).headD a, st.drop n.toNat)
  | (a, st), c => (a ++ [c], st)

/-- The commands of a script in force at its end. -/
def inForce (s : List SCmd) : List SCmd := (s.foldl enforce ([], [])).1

/-- The same for the calls on the context. -/
def enforceCall : List Cmd × List (List Cmd) → Cmd → List Cmd × List (List Cmd)
  | (a, st), .push => (a, a :: st)
  | (a, st), .pop => (st.headD a, st.tail)
  | (a, st), c => (a ++ [c], st)

/-- The calls in force. -/
def callsInForce (l : List Cmd) : List Cmd := (l.foldl enforceCall ([], [])).1

/-- What `TameScript` asks of a command, which may open or close scopes. -/
def TameCmd : SCmd → Prop
  | .define _ [] _ body => Tame body
  | .define _ (_ :: _) _ body => LetFree body ∧ Tame body
  | .assert t => Tame t
  | _ => True

/-- The command gives a name that is in `D`. -/
def Decls.Has (D : Decls) : SCmd → Prop
  | .declare n _ _ => n ∈ D.1
  | .define n [] _ _ => n ∈ D.1
  | .define n (_ :: _) _ _ => D.2.lookup n ≠ none
  | _ => False

/-- Only open scopes are closed, every command uses only what was declared before it in a scope
that is still open, and no command gives a name that can be seen in a scope around the innermost
one; the list has the declarations that can be seen there. -/
def Nests : Decls → List Decls → List SCmd → Prop
  | _, _, [] => True
  | D, st, .push n :: cs => Nests D (List.replicate n.toNat D ++ st) cs
  | D, st, .pop n :: cs => n.toNat ≤ st.length ∧
      Nests ((st.drop (n.toNat - 1)).headD D) (st.drop n.toNat) cs
  | D, st, c :: cs => CmdUsesOnly D c ∧ (∀ D' ∈ st, ¬ D'.Has c) ∧ Nests (D.add c) st cs

/-- The scripts that the theorems are about. -/
def TidyScript (s : List SCmd) : Prop := (∀ c ∈ s, TameCmd c) ∧ Nests ([], []) [] s

end Verif.Spec.Smt2
