import Mathlib.Analysis.SpecialFunctions.Exp

/-!
# Specification: the asymmetric simple exclusion process with open boundaries

A chain of `n+1` sites, each empty (`0`) or occupied (`1`).  Elementary moves, each with a rate and with the amount
by which it changes the counted (left-to-right) current.  The tilted generator has, for every move that is
enabled in `x`, the element `rate * exp(λ * current)` from `x` to the moved configuration and the escape rate
`-rate` on the diagonal.
-/

namespace GPSKet.Spec

/-- A configuration of the chain. -/
abbrev Chain (n : ℕ) := Fin (n + 1) → Fin 2

/-- Elementary moves of the process. -/
inductive AsepMove (n : ℕ)
  | injectLeft | ejectLeft | injectRight | ejectRight
  | hopRight (i : Fin n) | hopLeft (i : Fin n)
  deriving DecidableEq, Fintype

/-- Rates of the process and the counting field. -/
structure AsepRates where
  lambd : ℝ
  alpha : ℝ
  beta : ℝ
  gamma : ℝ
  delta : ℝ
  p : ℝ
  q : ℝ

variable {n : ℕ}

/-- Is the move possible in `x`? -/
def AsepMove.enabled : AsepMove n → Chain n → Prop
  | injectLeft, x => x 0 = 0
  | ejectLeft, x => x 0 = 1
  | injectRight, x => x (Fin.last n) = 0
  | ejectRight, x => x (Fin.last n) = 1
  | hopRight i, x => x i.castSucc = 1 ∧ x i.succ = 0
  | hopLeft i, x => x i.succ = 1 ∧ x i.castSucc = 0

instance (m : AsepMove n) (x : Chain n) : Decidable (m.enabled x) := by
  cases m <;> unfold AsepMove.enabled <;> infer_instance

/-- The configuration after an enabled move. -/
def AsepMove.target : AsepMove n → Chain n → Chain n
  | injectLeft, x => Function.update x 0 1
  | ejectLeft, x => Function.update x 0 0
  | injectRight, x => Function.update x (Fin.last n) 1
  | ejectRight, x => Function.update x (Fin.last n) 0
  | hopRight i, x => Function.update (Function.update x i.castSucc 0) i.succ 1
  | hopLeft i, x => Function.update (Function.update x i.succ 0) i.castSucc 1

/-- The rate of a move. -/
def AsepMove.rate (r : AsepRates) : AsepMove n → ℝ
  | injectLeft => r.alpha
  | ejectLeft => r.gamma
  | injectRight => r.beta
  | ejectRight => r.delta
  | hopRight _ => r.p
  | hopLeft _ => r.q

/-- The contribution of a move to the current from left to right. -/
def AsepMove.current : AsepMove n → ℝ
  | injectLeft => 1
  | ejectLeft => -1
  | injectRight => -1
  | ejectRight => 1
  | hopRight _ => 1
  | hopLeft _ => -1

/-- The tilted generator. -/
noncomputable def asepGenerator (r : AsepRates) (x x' : Chain n) : ℝ :=
  ∑ m : AsepMove n, if m.enabled x then
    (if m.target x = x' then m.rate r * Real.exp (r.lambd * m.current) else 0)
      - (if x = x' then m.rate r else 0)
  else 0

end GPSKet.Spec
