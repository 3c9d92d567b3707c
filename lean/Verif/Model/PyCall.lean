import Mathlib.Data.List.Basic

/-!
# Python's binding of call arguments

The semantics of a call `f(*args, **kw)` as far as the wiring of the composite models needs it: positional arguments are matched with
the parameters in the order of declaration, keyword arguments by name.  Used for the constructors of flax modules (dataclasses,
whose parameters are the fields in order of declaration) and for `__call__` methods.
-/

namespace GPSKet.PyCall

variable {V : Type}

/-- A parameter: its name, and its default value if it has one. -/
abbrev Param (V : Type) := String × Option V

/-- The bound value of the parameter at position `i`. -/
def bindOne (p : Param V) (positional : Option V) (kw : List (String × V)) : Option V :=
  match positional with
  | some v => some v
  | none => match kw.lookup p.1 with
    | some v => some v
    | none => p.2

/-- The values the body of the callee sees, or `none` for a `TypeError`: too many positional arguments, an unknown keyword, a
parameter given twice, or a missing argument. -/
def bind (params : List (Param V)) (args : List V) (kw : List (String × V)) : Option (String → Option V) :=
  if params.length < args.length then none
  else if ¬ (kw.all fun k => (params.drop args.length).any fun p => p.1 == k.1) then none
  else
    let bound := params.zipIdx.map fun p => (p.1.1, bindOne p.1 args[p.2]? kw)
    if bound.any fun b => b.2.isNone then none
    else some fun name => (bound.lookup name).join

end GPSKet.PyCall
