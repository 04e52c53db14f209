import Verif.Model.OptionValue
import Mathlib.Data.List.Induction

/-! # C04: option precedence (`dreal/util/option_value.h`) -/

namespace Verif.Spec

/-- Who assigns an option. -/
inductive Source where
  | file | commandLine | code
deriving DecidableEq, Repr

def Source.rank : Source → Nat
  | .file => 1
  | .commandLine => 2
  | .code => 3

/-- The value in force after a list of assignments (oldest first): scanning the history, an
assignment counts unless an assignment of strictly higher rank has occurred anywhere before
or after it; among those left the last one wins.  `best` is the highest rank occurring. -/
def effective {T : Type u} (d : T) (h : List (Source × T)) : T :=
  let best := (h.map fun a => a.1.rank).foldr max 0
  match (h.filter fun a => a.1.rank = best).getLast? with
  | none => d
  | some a => a.2

end Verif.Spec

namespace Verif.Props
open Verif.Model Verif.Spec

/-- One assignment on the implementation. -/
def assignFrom {T : Type u} (o : OptionValue T) (a : Source × T) : OptionValue T :=
  match a.1 with
  | .file => o.setFromFile a.2
  | .commandLine => o.setFromCommandLine a.2
  | .code => o.assign a.2

def typeRank : OptType → Nat
  | .default => 0
  | .fromFile => 1
  | .fromCommandLine => 2
  | .fromCode => 3

theorem foldr_max_append (l : List Nat) (n : Nat) :
    (l ++ [n]).foldr max 0 = max (l.foldr max 0) n := by
  induction l with
  | nil => simp
  | cons a l ih => simp [ih, Nat.max_assoc]

theorem le_foldr_max (l : List Nat) (n : Nat) (h : n ∈ l) : n ≤ l.foldr max 0 := by
  induction l with
  | nil => simp at h
  | cons a l ih =>
    rcases List.mem_cons.mp h with rfl | h
    · simp only [List.foldr_cons]; omega
    · have := ih h; simp only [List.foldr_cons]; omega

theorem option_inv {T : Type u} (d : T) (h : List (Source × T)) :
    typeRank (h.foldl assignFrom (OptionValue.mk' d)).type =
      (h.map fun a => a.1.rank).foldr max 0 ∧
    (h.foldl assignFrom (OptionValue.mk' d)).get = effective d h := by
  induction h using List.reverseRecOn with
  | nil => simp [OptionValue.mk', OptionValue.get, effective, typeRank]
  | append_singleton h a ih =>
    obtain ⟨ih1, ih2⟩ := ih
    rw [List.foldl_append]
    generalize hs : h.foldl assignFrom (OptionValue.mk' d) = s at ih1 ih2
    simp only [List.foldl_cons, List.foldl_nil, List.map_append, List.map_cons, List.map_nil]
    rw [foldr_max_append]
    by_cases hle : (h.map fun a => a.1.rank).foldr max 0 ≤ a.1.rank
    · have hr : (assignFrom s a).get = a.2 ∧ typeRank (assignFrom s a).type = a.1.rank := by
        obtain ⟨src, v⟩ := a
        obtain ⟨sv, st⟩ := s
        rw [← ih1] at hle
        clear ih1 ih2 hs
        cases src <;> cases st <;>
          simp_all [assignFrom, OptionValue.setFromFile, OptionValue.setFromCommandLine,
            OptionValue.assign, OptionValue.get, typeRank, Source.rank]
      refine ⟨by rw [hr.2]; omega, ?_⟩
      rw [hr.1]
      simp only [effective, List.map_append, List.map_cons, List.map_nil, foldr_max_append]
      rw [Nat.max_eq_right hle]
      simp [List.filter_append]
    · have hr : assignFrom s a = s := by
        obtain ⟨src, v⟩ := a
        obtain ⟨sv, st⟩ := s
        rw [← ih1] at hle
        clear ih1 ih2 hs
        cases src <;> cases st <;>
          simp_all [assignFrom, OptionValue.setFromFile, OptionValue.setFromCommandLine,
            OptionValue.assign, typeRank, Source.rank]
      rw [hr]
      refine ⟨by rw [ih1]; omega, ?_⟩
      rw [ih2]
      simp only [effective, List.map_append, List.map_cons, List.map_nil, foldr_max_append]
      rw [Nat.max_eq_left (by omega)]
      simp only [List.filter_append]
      have : (List.filter (fun a => decide (a.1.rank =
          List.foldr max 0 (h.map fun a => a.1.rank))) [a]) = [] := by
        simp; omega
      rw [this, List.append_nil]

/-- C04. After any sequence of assignments the value read is the last assignment of the
highest-ranked source that occurs, or the default if there is none. -/
theorem C04_option_precedence {T : Type u} (d : T) (h : List (Source × T)) :
    (h.foldl assignFrom (OptionValue.mk' d)).get = effective d h :=
  (option_inv d h).2

example : ([(.file, 1), (.commandLine, 2), (.file, 3), (.commandLine, 4), (.file, 5)].foldl
    assignFrom (OptionValue.mk' 0)).get = 4 := by decide
example : effective 0 [(.file, 1), (.commandLine, 2), (.file, 3), (.commandLine, 4), (.file, 5)]
    = 4 := by decide

end Verif.Props
