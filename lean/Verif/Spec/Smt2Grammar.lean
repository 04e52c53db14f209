import Verif.Model.Smt2Parse

/-!
# How SMT-LIB scripts are spelt

The tokens that spell terms and commands, rule by rule.
-/

namespace Verif.Spec.Smt2Grammar
open Verif Verif.Model Verif.Model.Smt2 Verif.Model.Smt2Parse

/-- What tokens spell: a term, terms, variables of a quantifier, or names and their terms. -/
inductive Node where
  | term (t : STerm)
  | terms (ts : List STerm)
  | binds (bs : List SBind)
  | lets (ns : List String) (ts : List STerm)

/-- The names of the sorts. -/
inductive SortName : String → Srt → Prop
  | real : SortName "Real" .real
  | int : SortName "Int" .int
  | bool : SortName "Bool" .bool
  | binary : SortName "Binary" .binary

/-- The tokens spell the node. -/
inductive Sp (A : Actions) : List Tok → Node → Prop
  | tru : Sp A [.tru] (.term .tru)
  | fls : Sp A [.fls] (.term .fls)
  | dbl {w t} : A.literal w = some t → Sp A [.dbl w] (.term t)
  | hex {q} : Sp A [.hex q] (.term (.num q))
  | int {z} : |z| ≤ 2 ^ 53 → Sp A [.int z] (.term (.num z))
  | sym {s} : Sp A [.sym s] (.term (.sym s))
  | eq {us a b} : Sp A us (.terms [a, b]) → Sp A (.lp :: .eq :: (us ++ [.rp])) (.term (.eq a b))
  | rel {us o a b} : Sp A us (.terms [a, b]) →
      Sp A (.lp :: .rel o :: (us ++ [.rp])) (.term (.rel o a b))
  | and {us ts} : Sp A us (.terms ts) → ts ≠ [] → Sp A (.lp :: .and :: (us ++ [.rp])) (.term (.and ts))
  | or {us ts} : Sp A us (.terms ts) → ts ≠ [] → Sp A (.lp :: .or :: (us ++ [.rp])) (.term (.or ts))
  | xor {us ts} : Sp A us (.terms ts) → ts ≠ [] → Sp A (.lp :: .xor :: (us ++ [.rp])) (.term (.xor ts))
  | not {us t} : Sp A us (.terms [t]) → Sp A (.lp :: .not :: (us ++ [.rp])) (.term (.not t))
  | imp {us a b} : Sp A us (.terms [a, b]) →
      Sp A (.lp :: .implies :: (us ++ [.rp])) (.term (.imp a b))
  | ite {us c a b} : Sp A us (.terms [c, a, b]) →
      Sp A (.lp :: .ite :: (us ++ [.rp])) (.term (.ite c a b))
  | all {us vs bs t} : Sp A us (.binds bs) → Sp A vs (.term t) →
      Sp A (.lp :: .all :: .lp :: (us ++ .rp :: (vs ++ [.rp]))) (.term (.all bs t))
  | let_ {us vs ns ts t} : Sp A us (.lets ns ts) → Sp A vs (.term t) →
      Sp A (.lp :: .let_ :: .lp :: (us ++ .rp :: (vs ++ [.rp]))) (.term (.let_ ns ts t))
  | add {us t ts} : Sp A us (.terms (t :: ts)) → Sp A (.lp :: .plus :: (us ++ [.rp])) (.term (.add t ts))
  | neg {us t} : Sp A us (.terms [t]) → Sp A (.lp :: .minus :: (us ++ [.rp])) (.term (.neg t))
  | sub {us t ts} : Sp A us (.terms (t :: ts)) → ts ≠ [] →
      Sp A (.lp :: .minus :: (us ++ [.rp])) (.term (.sub t ts))
  | mul {us t ts} : Sp A us (.terms (t :: ts)) → ts ≠ [] →
      Sp A (.lp :: .times :: (us ++ [.rp])) (.term (.mul t ts))
  | div {us t ts} : Sp A us (.terms (t :: ts)) → ts ≠ [] →
      Sp A (.lp :: .div :: (us ++ [.rp])) (.term (.div t ts))
  | fn1 {us f t} : Sp A us (.terms [t]) → Sp A (.lp :: .fn1 f :: (us ++ [.rp])) (.term (.fn1 f t))
  | fn2 {us f a b} : Sp A us (.terms [a, b]) →
      Sp A (.lp :: .fn2 f :: (us ++ [.rp])) (.term (.fn2 f a b))
  | call {us n ts} : Sp A us (.terms ts) → ts ≠ [] →
      Sp A (.lp :: .sym n :: (us ++ [.rp])) (.term (.call n ts))
  | noTerm : Sp A [] (.terms [])
  | terms {us vs t ts} : Sp A us (.term t) → Sp A vs (.terms ts) → Sp A (us ++ vs) (.terms (t :: ts))
  | noBind : Sp A [] (.binds [])
  | bind {x s σ us bs} : SortName s σ → Sp A us (.binds bs) →
      Sp A (.lp :: .sym x :: .sym s :: .rp :: us) (.binds (⟨x, σ, none⟩ :: bs))
  | bound {x s σ us vs ws bs a b l u} : SortName s σ → Sp A us (.term a) → Sp A vs (.term b) →
      A.bound a = some (.fin l) → A.bound b = some (.fin u) → Sp A ws (.binds bs) →
      Sp A (.lp :: .sym x :: .sym s :: .lb :: (us ++ .comma :: (vs ++ .rb :: .rp :: ws)))
        (.binds (⟨x, σ, some (l, u)⟩ :: bs))
  | noLet : Sp A [] (.lets [] [])
  | lets {x us vs t ns ts} : Sp A us (.term t) → Sp A vs (.lets ns ts) →
      Sp A (.lp :: .sym x :: (us ++ .rp :: vs)) (.lets (x :: ns) (t :: ts))

/-- The tokens spell the term. -/
def Spells (A : Actions) (us : List Tok) (t : STerm) : Prop := Sp A us (.term t)

/-- The tokens spell parameters. -/
inductive SpP : List Tok → List (String × Srt) → Prop
  | nil : SpP [] []
  | cons {x s σ us ps} : SortName s σ → SpP us ps →
      SpP (.lp :: .sym x :: .sym s :: .rp :: us) ((x, σ) :: ps)

/-- The tokens of bounds, with their values. -/
inductive SpB (A : Actions) : List Tok → Option (EQ × EQ) → Prop
  | none : SpB A [] none
  | some {us vs a b l u} : Spells A us a → Spells A vs b → A.bound a = some l → A.bound b = some u →
      SpB A (.lb :: (us ++ .comma :: (vs ++ [.rb]))) (some (l, u))

/-- The tokens spell the command. -/
inductive SpC (A : Actions) : List Tok → PCmd → Prop
  | assert {us t} : Spells A us t → SpC A (.lp :: .assert :: (us ++ [.rp])) (.core (.assert t))
  | check : SpC A [.lp, .checkSat, .rp] (.core .check)
  | declareFun {x s σ us d} : SortName s σ → SpB A us d →
      SpC A (.lp :: .declareFun :: .sym x :: .lp :: .rp :: .sym s :: (us ++ [.rp]))
        (.core (.declare x σ d))
  | declareConst {x s σ us d} : SortName s σ → SpB A us d →
      SpC A (.lp :: .declareConst :: .sym x :: .sym s :: (us ++ [.rp])) (.core (.declare x σ d))
  | define {x us ps s σ vs t} : SpP us ps → SortName s σ → Spells A vs t →
      SpC A (.lp :: .defineFun :: .sym x :: .lp :: (us ++ .rp :: .sym s :: (vs ++ [.rp])))
        (.core (.define x ps σ t))
  | push {z} : -2 ^ 31 ≤ z → z < 2 ^ 31 → SpC A [.lp, .push, .int z, .rp] (.core (.push z))
  | pop {z} : -2 ^ 31 ≤ z → z < 2 ^ 31 → SpC A [.lp, .pop, .int z, .rp] (.core (.pop z))
  | setNum {k w q} : A.stod w = some q → SpC A [.lp, .setOption, .key k, .dbl w, .rp] (.setNum k q)
  | setSym {k s} : SpC A [.lp, .setOption, .key k, .sym s, .rp] (.setStr k s)
  | setTrue {k} : SpC A [.lp, .setOption, .key k, .tru, .rp] (.setStr k "true")
  | setFalse {k} : SpC A [.lp, .setOption, .key k, .fls, .rp] (.setStr k "false")
  | exit : SpC A [.lp, .exit, .rp] .exit
  | infoSym {k s} : SpC A [.lp, .setInfo, .key k, .sym s, .rp] .info
  | infoStr {k s} : SpC A [.lp, .setInfo, .key k, .str s, .rp] .info
  | infoNum {k w q} : A.stod w = some q → SpC A [.lp, .setInfo, .key k, .dbl w, .rp] .info
  | logic {s} : s ∈ ["ALL", "QF_LIA", "QF_LIRA", "QF_LRA", "QF_NIA", "QF_NIAT", "QF_NIRA", "QF_NIRAT",
      "QF_NRA", "QF_NRAT", "QF_RDL"] → SpC A [.lp, .setLogic, .sym s, .rp] (.logic s)
  | getModel : SpC A [.lp, .getModel, .rp] .getModel
  | getValue {us ts} : Sp A us (.terms ts) → ts ≠ [] →
      SpC A (.lp :: .getValue :: .lp :: (us ++ [.rp, .rp])) (.getValue ts)
  | getOption {k} : SpC A [.lp, .getOption, .key k, .rp] (.getOption k)
  | maximize {us t} : Spells A us t → SpC A (.lp :: .maximize :: (us ++ [.rp])) (.optimise true t)
  | minimize {us t} : Spells A us t → SpC A (.lp :: .minimize :: (us ++ [.rp])) (.optimise false t)

/-- The tokens spell commands, one after another, of which at most the last is `exit`. -/
inductive SpS (A : Actions) : List Tok → List PCmd → Prop
  | last {us c} : SpC A us c → SpS A us [c]
  | cons {us vs c cs} : SpC A us c → c ≠ .exit → SpS A vs cs → SpS A (us ++ vs) (c :: cs)

end Verif.Spec.Smt2Grammar
