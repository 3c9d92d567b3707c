import Verif.Spec.Autoreg

/-!
# Model of `GPSKet/models/autoreg_qGPS.py`, and the parts shared by the autoregressive models

One sample (the code carries a batch axis).  Configurations are given by their local indices
(`hilbert.states_to_local_indices`, lines 126, 137, 179).  A log-amplitude is an `Option ℂ`, where `none` is `-inf`;
`-inf` only arises from `renormalize_log_psi`.  (For complex dtype the code's `gpu_cond` multiplies such entries by `1+0j`,
which makes their imaginary part NaN; here only their modulus 0 is modelled, `Verif.Model.FloatSelect` models the NaN.)
-/

namespace GPSKet.AR

variable {L D M : ℕ}

/-- A log-amplitude; `none` is `-inf`. -/
abbrev LogAmp := Option ℂ

/-- `exp(machine_pow * log_psi.real)` (autoreg_qGPS.py:132,143). -/
noncomputable def weight (machine_pow : ℝ) : LogAmp → ℝ
  | none => 0
  | some z => Real.exp (machine_pow * z.re)

/-- The static fields used when computing conditionals (autoreg_qGPS.py:90-115).  `renormalize n_spins index d = true` if
`renormalize_log_psi` adds `0` to entry `d`, `false` if it adds `-inf`. -/
structure Fields (D M : ℕ) where
  machine_pow : ℝ
  normalize : Bool
  constrained : Bool
  count_spins : Fin D → Fin D → ℤ
  renormalize : (Fin D → ℤ) → ℕ → Fin D → Bool
  out_transformation : (Fin M → ℂ) → ℂ

/-- The default `count_spins` (autoreg_qGPS.py:105-107): `[(s+1) & 1, ((s+1) & 2) / 2]`. -/
def defaultCountSpins (s : Fin 2) : Fin 2 → ℤ
  | 0 => (((s.val + 1) &&& 1 : ℕ) : ℤ)
  | 1 => (((s.val + 1) &&& 2 : ℕ) : ℤ) / 2

/-- The default `renormalize_log_psi` (autoreg_qGPS.py:110-112): `log(heaviside(size // 2 - n_spins, 0))`; `heaviside(v, 0)`
is 1 for `v > 0` and 0 otherwise. -/
def defaultRenormalize (size : ℕ) (n_spins : Fin 2 → ℤ) (_index : ℕ) (d : Fin 2) : Bool :=
  decide (0 < ((size / 2 : ℕ) : ℤ) - n_spins d)

/-- The default `out_transformation` (autoreg_qGPS.py:114). -/
def sumOut (argument : Fin M → ℂ) : ℂ := ∑ m, argument m

/-- The site read by `inputs[:, index - 1]` (autoreg_qGPS.py:247): for `index = 0` Python's index `-1` is the last. -/
def prevSite (index : Fin L) : Fin L :=
  ⟨if index.val = 0 then L - 1 else index.val - 1, by have := index.isLt; split <;> omega⟩

/-- The update of the spin counts (autoreg_qGPS.py:260-266). -/
def bumpSpins (f : Fields D M) (n_spins : Fin D → ℤ) (inputs : Fin L → Fin D) (index : Fin L) : Fin D → ℤ :=
  if index.val > 0 then fun d => n_spins d + f.count_spins (inputs (prevSite index)) d else n_spins

/-- `log_psi + renormalize_log_psi(...)` (autoreg_qGPS.py:273-278). -/
def mask (f : Fields D M) (n_spins : Fin D → ℤ) (index : ℕ) (log_psi : Fin D → ℂ) : Fin D → LogAmp :=
  fun d => if f.renormalize n_spins index d then some (log_psi d) else none

/-- `_normalize` (autoreg_qGPS.py:227-230).  (If all entries are `-inf` the code produces NaN; the model keeps `-inf`.) -/
noncomputable def normalizeLog (machine_pow : ℝ) (log_psi : Fin D → LogAmp) : Fin D → LogAmp :=
  fun d => (log_psi d).map fun z =>
    z - ((1 / machine_pow * Real.log (∑ e, weight machine_pow (log_psi e)) : ℝ) : ℂ)

/-- `if self.normalize: ...` (autoreg_qGPS.py:130-131,141-142,186-187). -/
noncomputable def maybeNormalize (f : Fields D M) (log_psi : Fin D → LogAmp) : Fin D → LogAmp :=
  if f.normalize then normalizeLog f.machine_pow log_psi else log_psi

/-- `jax.lax.scan` over `arange(n)`: the carry before index `k`. -/
def scanState {S O : Type} {n : ℕ} (step : S → Fin n → S × O) (init : S) : ℕ → S
  | 0 => init
  | k + 1 => if h : k < n then (step (scanState step init k) ⟨k, h⟩).1 else scanState step init k

/-- `jax.lax.scan` over `arange(n)`: the stacked outputs. -/
def scanOut {S O : Type} {n : ℕ} (step : S → Fin n → S × O) (init : S) (i : Fin n) : O :=
  (step (scanState step init i) i).2

/-- What the sampler and the evaluation use of an autoregressive model: the function scanned by `_conditionals`, and
`_conditional` with its mutable cache. -/
structure Machine (L D M : ℕ) where
  fields : Fields D M
  Carry : Type
  initCarry : Carry
  scanStep : (Fin L → Fin D) → Carry → Fin L → Carry × (Fin D → LogAmp)
  Cache : Type
  initCache : Cache
  conditional : Cache → (Fin L → Fin D) → Fin L → Cache × (Fin D → LogAmp)

/-- `_conditionals` (autoreg_qGPS.py:320-349). -/
def Machine.conditionalsLog (m : Machine L D M) (inputs : Fin L → Fin D) : Fin L → Fin D → LogAmp :=
  scanOut (m.scanStep inputs) m.initCarry

/-- `conditionals` (autoreg_qGPS.py:135-144). -/
noncomputable def Machine.conditionals (m : Machine L D M) (inputs : Fin L → Fin D) (i : Fin L) (d : Fin D) : ℝ :=
  weight m.fields.machine_pow (maybeNormalize m.fields (m.conditionalsLog inputs i) d)

/-- `_conditional` (autoreg_qGPS.py:124-133): new cache and probabilities. -/
noncomputable def Machine.conditionalP (m : Machine L D M) (cache : m.Cache) (inputs : Fin L → Fin D) (i : Fin L) :
    m.Cache × (Fin D → ℝ) :=
  let r := m.conditional cache inputs i
  (r.1, fun d => weight m.fields.machine_pow (maybeNormalize m.fields r.2 d))

/-- `take_along_axis` and the sum over sites (autoreg_qGPS.py:189-194). -/
noncomputable def pickSum (log_psi : Fin L → Fin D → LogAmp) (inputs : Fin L → Fin D) : LogAmp :=
  if ∀ i, (log_psi i (inputs i)).isSome then some (∑ i, (log_psi i (inputs i)).getD 0) else none

/-- The symmetrised log-amplitude (autoreg_qGPS.py:196-202): `(1/pow) log((1/T) Σ_t exp(pow Re_t))` for the real part,
the phase of `Σ_t exp(i Im_t)` for the imaginary part. -/
noncomputable def symmetrise {ι : Type} [Fintype ι] (machine_pow : ℝ) (log_psi : ι → LogAmp) : LogAmp :=
  let s := ∑ t, weight machine_pow (log_psi t) * (1 / (Fintype.card ι : ℝ))
  if s = 0 then none
  else some ⟨1 / machine_pow * Real.log s, (Complex.log (∑ t, Complex.exp (Complex.I * ((log_psi t).getD 0).im))).im⟩

/-- `__call__` without symmetrisation: the log-amplitude of one of the equivalent configurations. -/
noncomputable def Machine.logPsiOne (m : Machine L D M) (x : Fin L → Fin D) : LogAmp :=
  pickSum (fun i => maybeNormalize m.fields (m.conditionalsLog x i)) x

/-- `__call__` (autoreg_qGPS.py:170-202) with the symmetry operations `syms`. -/
noncomputable def Machine.logPsi {ι : Type} [Fintype ι] (m : Machine L D M)
    (syms : ι → (Fin L → Fin D) → Fin L → Fin D) (x : Fin L → Fin D) : LogAmp :=
  symmetrise m.fields.machine_pow fun t => m.logPsiOne (syms t x)

/-! ## `ARqGPS` -/

/-- Cached products and spin counts. -/
structure Carry (D M : ℕ) where
  cache : Fin D → Fin M → ℂ
  n_spins : Fin D → ℤ

/-- `_compute_conditional` (autoreg_qGPS.py:233-279), for `index ≥ 0`. -/
def computeConditional (f : Fields D M) (epsilon : Fin D → Fin M → Fin L → ℂ) (st : Carry D M)
    (inputs : Fin L → Fin D) (index : Fin L) : Carry D M × (Fin D → LogAmp) :=
  let inputs_i := inputs (prevSite index)
  let prods := fun d m => epsilon d m index * st.cache inputs_i m
  let log_psi := fun d => f.out_transformation (prods d)
  let n_spins := bumpSpins f st.n_spins inputs index
  (⟨prods, n_spins⟩, mask f n_spins index log_psi)

/-- The function scanned in `_conditionals` (autoreg_qGPS.py:322-341). -/
def scanStep (f : Fields D M) (epsilon : Fin D → Fin M → Fin L → ℂ) (inputs : Fin L → Fin D) (st : Carry D M)
    (index : Fin L) : Carry D M × (Fin D → LogAmp) :=
  let r := computeConditional f epsilon st inputs index
  (⟨r.1.cache, if f.constrained then r.1.n_spins else fun _ => 0⟩, r.2)

/-- `_conditional` (autoreg_qGPS.py:282-317).  The variable `spins` only exists if the space is constrained. -/
def conditional (f : Fields D M) (epsilon : Fin D → Fin M → Fin L → ℂ)
    (cache : (Fin D → Fin M → ℂ) × Option (Fin D → ℤ)) (inputs : Fin L → Fin D) (index : Fin L) :
    ((Fin D → Fin M → ℂ) × Option (Fin D → ℤ)) × (Fin D → LogAmp) :=
  let n_spins := match cache.2 with
    | some n => n
    | none => fun _ => 0
  let r := computeConditional f epsilon ⟨cache.1, n_spins⟩ inputs index
  ((r.1.cache, match cache.2 with
    | some _ => some r.1.n_spins
    | none => none), r.2)

/-- `ARqGPS` (autoreg_qGPS.py:84-202): the cache starts with ones and zero spins (lines 157-168, 344-345). -/
def arqGPS (f : Fields D M) (epsilon : Fin D → Fin M → Fin L → ℂ) : Machine L D M where
  fields := f
  Carry := Carry D M
  initCarry := ⟨fun _ _ => 1, fun _ => 0⟩
  scanStep := scanStep f epsilon
  Cache := (Fin D → Fin M → ℂ) × Option (Fin D → ℤ)
  initCache := (fun _ _ => 1, if f.constrained then some fun _ => 0 else none)
  conditional := conditional f epsilon

end GPSKet.AR
