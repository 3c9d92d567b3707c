import Verif.Spec.Occupation

/-! # Model of `GPSKet/hilbert/discrete_fermion.py` and `GPSKet/hilbert/random/discrete_fermion.py` -/

namespace GPSKet

variable {L : ℕ}

/-- `FermionicSumConstraint.__call__` (hilbert/discrete_fermion.py:20-29). -/
def fermionicSumConstraint (n_elec : ℕ × ℕ) (x : Cfg L) : Bool :=
  let x_up := fun i => if x i = 1 then 1 else if x i = 3 then 1 else 0
  let x_dn := fun i => if x i = 2 then 1 else if x i = 3 then 1 else 0
  decide (∑ i, x_up i = n_elec.1) && decide (∑ i, x_dn i = n_elec.2)

/-- Constructor arguments of `FermionicDiscreteHilbert` that the object remembers
(hilbert/discrete_fermion.py:41-52): number of sites and optional electron numbers. -/
structure FermionicHilbert where
  size : ℕ
  n_elec : Option (ℕ × ℕ)
  deriving DecidableEq

/-- Membership: all configurations of `{0,1,2,3}` if there is no constraint, otherwise those the constraint accepts
(hilbert/discrete_fermion.py:44-52). -/
def FermionicHilbert.accepts (h : FermionicHilbert) (x : Cfg h.size) : Bool :=
  match h.n_elec with
  | none => true
  | some n => fermionicSumConstraint n x

/-- `FermionicDiscreteHilbert.__pow__` (hilbert/discrete_fermion.py:56-62).  Line 60 reads the local variable `n_elec`
before it is assigned, so for a constrained space Python raises `UnboundLocalError`. -/
def FermionicHilbert.pow (h : FermionicHilbert) (n : ℕ) : Except String FermionicHilbert :=
  match h.n_elec with
  | none => .ok ⟨h.size * n, none⟩
  | some _ => .error "UnboundLocalError: n_elec"

/-- The random outcomes `random_state` uses for one constrained state: positions drawn without replacement
(hilbert/random/discrete_fermion.py:19-24). -/
structure RandomDraw (L : ℕ) where
  up_pos : List (Fin L)
  down_pos : List (Fin L)

/-- Outcomes `jax.random.choice(..., shape=(n,), replace=False)` can produce: every list of `n` distinct positions, all
equally likely. -/
def RandomDraw.Possible (n_elec : ℕ × ℕ) (d : RandomDraw L) : Prop :=
  d.up_pos.length = n_elec.1 ∧ d.up_pos.Nodup ∧ d.down_pos.length = n_elec.2 ∧ d.down_pos.Nodup

/-- `out.at[pos].add(v)` (hilbert/random/discrete_fermion.py:26-27): every listed position is incremented. -/
def scatterAdd (out : Cfg L) (pos : List (Fin L)) (v : Fin 4) : Cfg L :=
  pos.foldl (fun y p => Function.update y p (y p + v)) out

/-- One constrained random state (hilbert/random/discrete_fermion.py:25-28). -/
def randomState (d : RandomDraw L) : Cfg L :=
  scatterAdd (scatterAdd (fun _ => 0) d.up_pos 1) d.down_pos 2

end GPSKet
