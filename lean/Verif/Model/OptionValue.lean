/-!
# `OptionValue`

Models `dreal/util/option_value.h`.
-/

namespace Verif.Model

/-- `OptionValue::Type` (`dreal/util/option_value.h:34-39`). -/
inductive OptType where
  | default | fromFile | fromCommandLine | fromCode
deriving DecidableEq, Repr

/-- `OptionValue<T>` (`dreal/util/option_value.h:121-123`). -/
structure OptionValue (T : Type u) where
  value : T
  type : OptType
deriving DecidableEq, Repr

namespace OptionValue
variable {T : Type u}

/-- Constructor (`dreal/util/option_value.h:42-43`). -/
def mk' (v : T) : OptionValue T := ⟨v, .default⟩

/-- `operator=(const T&)` (`dreal/util/option_value.h:63-76`). -/
def assign (_ : OptionValue T) (v : T) : OptionValue T := ⟨v, .fromCode⟩

/-- `get` (`dreal/util/option_value.h:79`). -/
def get (o : OptionValue T) : T := o.value

/-- `set_from_command_line` (`dreal/util/option_value.h:82-87`). -/
def setFromCommandLine (o : OptionValue T) (v : T) : OptionValue T :=
  if o.type ≠ .fromCode then ⟨v, .fromCommandLine⟩ else o

/-- `set_from_file` (`dreal/util/option_value.h:93-106`). -/
def setFromFile (o : OptionValue T) (v : T) : OptionValue T :=
  match o.type with
  | .default => ⟨v, .fromFile⟩
  | .fromFile => ⟨v, .fromFile⟩
  | .fromCommandLine => o
  | .fromCode => o

end OptionValue
end Verif.Model
