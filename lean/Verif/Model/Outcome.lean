/-!
# Outcomes

Outcome of a C++ call in the model: a value, a C++ exception (`throw`), or
undefined behaviour / a failed `DREAL_ASSERT` (`ub`).
`DREAL_UNREACHABLE()` throws (`dreal/util/exception.h:29-30`) and is an exception here.
`DREAL_ASSERT` is `assert` in debug builds and nothing in release builds
(`dreal/util/assert.h:24-30`); a violated assertion is `ub` in the model.
-/

namespace Verif

inductive Outcome (α : Type u) where
  | ok (a : α)
  | throw
  | ub
deriving DecidableEq, Repr

namespace Outcome

def bind {α : Type u} {β : Type v} (x : Outcome α) (f : α → Outcome β) : Outcome β :=
  match x with
  | ok a => f a
  | throw => throw
  | ub => ub

instance : Monad Outcome where
  pure := ok
  bind := bind

@[simp] theorem bind_ok {α β : Type u} (a : α) (f : α → Outcome β) :
    ((ok a : Outcome α) >>= f) = f a := rfl
@[simp] theorem bind_throw {α β : Type u} (f : α → Outcome β) :
    ((throw : Outcome α) >>= f) = throw := rfl
@[simp] theorem bind_ub {α β : Type u} (f : α → Outcome β) :
    ((ub : Outcome α) >>= f) = ub := rfl
@[simp] theorem pure_eq {α : Type u} (a : α) : (pure a : Outcome α) = ok a := rfl

def isOk {α : Type u} : Outcome α → Bool
  | ok _ => true
  | _ => false

end Outcome
end Verif
