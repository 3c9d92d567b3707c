import Mathlib.Data.Fintype.Basic
import Mathlib.Analysis.SpecialFunctions.Exp

/-!
# Specification: partial updates of a configuration and fast-update models

A partial update is a list of (site, new local state) pairs.  If a site is listed several times the *first*
entry is the one that counts (the convention stated in the comment operator/hamiltonian/ab_initio.py:828-838).
-/

namespace GPSKet.Spec

/-- The configuration denoted by a partial update of `x`. -/
def applyUpdate {S A : Type} [DecidableEq S] (x : S → A) (upd : List (S × A)) : S → A := fun k =>
  match upd.find? (fun u => decide (u.1 = k)) with
  | some u => u.2
  | none => x k

/-- A wave-function model offering fast updates: a full evaluation, the intermediates it caches for a
configuration, and an evaluation of a partial update from cached intermediates. -/
structure FastModel (S A Cache : Type) where
  full : (S → A) → ℂ
  cacheOf : (S → A) → Cache
  fast : Cache → List (S × A) → ℂ

/-- Fast evaluation means what it should for the updates satisfying `P`. -/
def FastModel.CoherentOn {S A Cache : Type} [DecidableEq S] (m : FastModel S A Cache)
    (P : (S → A) → List (S × A) → Prop) : Prop :=
  ∀ x upd, P x upd → m.fast (m.cacheOf x) upd = m.full (applyUpdate x upd)

/-- A fast-update model that, as the fast sampler requires, also returns the intermediates of the updated
configuration. -/
structure CachedModel (S A Cache : Type) extends FastModel S A Cache where
  fastCache : Cache → List (S × A) → Cache

/-- Fast evaluation and updated intermediates mean what they should for the updates satisfying `P`. -/
def CachedModel.CoherentOn {S A Cache : Type} [DecidableEq S] (m : CachedModel S A Cache)
    (P : (S → A) → List (S × A) → Prop) : Prop :=
  ∀ x upd, P x upd → m.fast (m.cacheOf x) upd = m.full (applyUpdate x upd) ∧
    m.fastCache (m.cacheOf x) upd = m.cacheOf (applyUpdate x upd)

/-- The convention for padding an update to a fixed length (comment operator/hamiltonian/ab_initio.py:828-838): an entry
whose site already occurs earlier in the list is a dummy that repeats the occupation before the update. -/
def Padded {S A : Type} (x : S → A) (upd : List (S × A)) : Prop :=
  upd.Pairwise fun u v => u.1 = v.1 → v.2 = x v.1

/-- The local energy `Σ_{x'} H(x,x') ψ(x') / ψ(x)` of a matrix row, with `ψ = exp logψ`. -/
noncomputable def localEnergy {C : Type} [Fintype C] (row : C → ℂ) (logpsi : C → ℂ) (x : C) : ℂ :=
  ∑ x', row x' * (Complex.exp (logpsi x') / Complex.exp (logpsi x))

end GPSKet.Spec
