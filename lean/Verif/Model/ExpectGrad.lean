import Verif.Model.Expect

/-!
# Model of `expect_and_grad` of unique-sample states (state_unique_samples.py:126-154, 184-253)

The parameters are a tree with real entries `ρ` and complex entries `γ`.  Differentiation itself (JAX) is not modelled: the derivatives of the
log-amplitudes are given, with respect to real entries and to the real and imaginary parts of complex entries.  Modelled is what
the code and NetKet's `vjp` and `vjp_chunked` make of them.  The model may or may not be holomorphic.
-/

namespace GPSKet.ExpectGrad

open GPSKet.Expect

variable {ρ γ X : Type} {ranks : ℕ}

/-- The derivatives of the log-amplitudes of all configurations, with respect to the real entries and to the real (`re`) and
imaginary (`im`) parts of the complex entries. -/
structure Derivs (ρ γ X : Type) where
  real : ρ → X → ℂ
  re : γ → X → ℂ
  im : γ → X → ℂ

/-- What `vjp_fun` returns before the entries are cast: complex numbers for all entries. -/
@[ext] structure Cotangent (ρ γ : Type) where
  real : ρ → ℂ
  complex : γ → ℂ

/-- `jax.tree_map(operator.add, ...)`, by which `vjp_chunked` adds up the chunks. -/
def Cotangent.add (a b : Cotangent ρ γ) : Cotangent ρ γ := ⟨a.real + b.real, a.complex + b.complex⟩

/-- `nkjax.vjp(f, parameters, samples, conjugate=True)[1](v)[0]` (state_unique_samples.py:233-241) for the pairs `l` of samples and entries of
`v`.  Complex entries: JAX's convention is `∂x Re ∑ v f - i ∂y Re ∑ v f`, afterwards conjugated.  Real entries: in trees without complex
entries NetKet adds the products with real and imaginary parts, in mixed trees JAX returns the real part (`mixed`). -/
noncomputable def vjp (mixed : Bool) (d : Derivs ρ γ X) (l : List (X × ℂ)) : Cotangent ρ γ where
  real k :=
    if mixed then (((l.map fun e => e.2 * d.real k e.1).sum.re : ℝ) : ℂ) else (starRingEnd ℂ) (l.map fun e => e.2 * d.real k e.1).sum
  complex k :=
    (starRingEnd ℂ) ((((l.map fun e => e.2 * d.re k e.1).sum.re : ℝ) : ℂ) - Complex.I * (((l.map fun e => e.2 * d.im k e.1).sum.re : ℝ) : ℂ))

/-- NetKet's `vjp_chunked(...)(v)[0]` (state_unique_samples.py:224-232): the products of the blocks and of the remainder are added up.
`none`: division by a chunk size of zero. -/
noncomputable def vjpChunked (mixed : Bool) (d : Derivs ρ γ X) (c : ℕ) (l : List (X × ℂ)) : Option (Cotangent ρ γ) :=
  if c = 0 then none
  else if c ≥ l.length then some (vjp mixed d l)
  else
    let n_rest := l.length % c
    let y_chunks := ((blocks c (l.take (l.length - n_rest))).map (vjp mixed d)).foldr Cotangent.add ⟨0, 0⟩
    if n_rest = 0 then some y_chunks else some (y_chunks.add (vjp mixed d (l.drop (l.length - n_rest))))

/-- The gradient as it is returned: real numbers for real entries. -/
@[ext] structure Gradient (ρ γ : Type) where
  real : ρ → ℝ
  complex : γ → ℂ

/-- `x if jnp.iscomplexobj(target) else 2 * x.real` (state_unique_samples.py:243-249). -/
noncomputable def cast (g : Cotangent ρ γ) : Gradient ρ γ := ⟨fun k => 2 * (g.real k).re, g.complex⟩

/-- The returned statistics and gradient. -/
@[ext] structure Result (ρ γ : Type) where
  mean : ℂ
  variance : ℝ
  grad : Gradient ρ γ

/-- The gradient of one rank before the sum over ranks (state_unique_samples.py:220-249) for the local values `loc_vals`. -/
noncomputable def rankGradient (mixed : Bool) (d : Derivs ρ γ X) (chunk_size : Option ℕ) (samples : List X) (counts : List ℝ)
    (loc_vals : List ℂ) (mean : ℂ) : Option (Gradient ρ γ) :=
  let loc_vals_centered := List.zipWith (fun (p : ℝ) v => (p : ℂ) * (v - mean)) counts loc_vals
  let v := samples.zip (loc_vals_centered.map (starRingEnd ℂ))
  (match chunk_size with
    | some c => vjpChunked mixed d c v
    | none => some (vjp mixed d v)).map cast

/-- `expect_and_grad` (state_unique_samples.py:126-154, 184-253) on all ranks, for the samples and relative counts `sw`; `none`: an exception. -/
noncomputable def expectAndGrad (mixed : Bool) (kernel : X → ℂ) (d : Derivs ρ γ X) (chunk_size : Option ℕ) (sw : Fin ranks → List (X × ℝ)) :
    Option (Result ρ γ) :=
  if h : ∀ r, (vmapChunked kernel chunk_size ((sw r).map Prod.fst)).isSome then
    let loc_vals := fun r => (vmapChunked kernel chunk_size ((sw r).map Prod.fst)).get (h r)
    let counts := fun r => (sw r).map Prod.snd
    let mean := ∑ r, (List.zipWith (fun (p : ℝ) v => (p : ℂ) * v) (counts r) (loc_vals r)).sum
    let variance := ∑ r, (List.zipWith (fun (p : ℝ) v => p * ‖v - mean‖ ^ 2) (counts r) (loc_vals r)).sum
    let grads := fun r => rankGradient mixed d chunk_size ((sw r).map Prod.fst) (counts r) (loc_vals r) mean
    if hg : ∀ r, (grads r).isSome then
      some ⟨mean, variance, ⟨fun k => ∑ r, ((grads r).get (hg r)).real k, fun k => ∑ r, ((grads r).get (hg r)).complex k⟩⟩
    else none
  else none

end GPSKet.ExpectGrad
