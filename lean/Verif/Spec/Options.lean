import Verif.Model.Options

/-! # Specification: the values of options

What a user expects of a configuration and a command line, read as a list of statements: the last word on an option decides, and an
option that was last written in terms of another one follows that one.
-/

namespace GPSKet.Spec.Options
open GPSKet.Options

/-- `st` is the last statement about the option `n`. -/
def Latest (p : List Stmt) (n : String) (st : Stmt) : Prop :=
  ∃ before after, p = before ++ st :: after ∧ st.name = n ∧ ∀ s ∈ after, s.name ≠ n

/-- The option `n` should have the value `v`. -/
inductive Effective (p : List Stmt) : String → Val → Prop
  | assigned (n : String) (v : Val) : Latest p n (.assign n v) → Effective p n v
  | given (n : String) (v : Val) : Latest p n (.flag n v) → Effective p n v
  | follows (n source : String) (v : Val) : Latest p n (.ref n source) → Effective p source v → Effective p n v
  | quotient (n source : String) (k i : ℤ) : Latest p n (.div n source k) → Effective p source (.int i) → Effective p n (.int (i / k))

end GPSKet.Spec.Options
