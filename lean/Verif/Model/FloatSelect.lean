import Verif.Model.AutoregFull
import Verif.Model.AutoregPlaquette

/-!
# The autoregressive models with infinities and NaN

`gpu_cond` (GPSKet/models/autoreg_qGPS.py:14-17) selects between two arrays by arithmetic, `pred * x + (1 - pred) * y`, and the masks of
the autoregressive models add `log(0) = -inf` to some of the arrays.  Here the evaluation of the models is written down once more for
numbers that can be infinite or NaN, as in IEEE arithmetic; what is left out of floating-point arithmetic is rounding, overflow and the
sign of zero.  Products of complex numbers are the textbook formula, as in XLA and numpy.
-/

namespace GPSKet.Floats
open AR
open Classical

variable {L D M : ℕ}

/-- A floating-point number. -/
inductive F
  | fin (x : ℝ)
  | pinf
  | ninf
  | nan

namespace F

/-- IEEE addition. -/
noncomputable def add : F → F → F
  | fin x, fin y => fin (x + y)
  | nan, _ => nan
  | _, nan => nan
  | pinf, ninf => nan
  | ninf, pinf => nan
  | pinf, _ => pinf
  | _, pinf => pinf
  | ninf, _ => ninf
  | _, ninf => ninf

/-- IEEE negation. -/
noncomputable def neg : F → F
  | fin x => fin (-x)
  | pinf => ninf
  | ninf => pinf
  | nan => nan

/-- `x * inf` for a finite `x`: `0 * inf` is NaN. -/
noncomputable def timesInf (x : ℝ) : F := if 0 < x then pinf else if x < 0 then ninf else nan

/-- IEEE multiplication. -/
noncomputable def mul : F → F → F
  | fin x, fin y => fin (x * y)
  | nan, _ => nan
  | _, nan => nan
  | fin x, pinf => timesInf x
  | fin x, ninf => neg (timesInf x)
  | pinf, fin x => timesInf x
  | ninf, fin x => neg (timesInf x)
  | pinf, pinf => pinf
  | pinf, ninf => ninf
  | ninf, pinf => ninf
  | ninf, ninf => pinf

noncomputable instance : Add F := ⟨add⟩
noncomputable instance : Mul F := ⟨mul⟩
noncomputable instance : Neg F := ⟨neg⟩
noncomputable instance : Zero F := ⟨fin 0⟩

/-- `exp`. -/
noncomputable def exp : F → F
  | fin x => fin (Real.exp x)
  | pinf => pinf
  | ninf => fin 0
  | nan => nan

/-- `log`: `log(0) = -inf`, and NaN for negative arguments. -/
noncomputable def log : F → F
  | fin x => if 0 < x then fin (Real.log x) else if x = 0 then ninf else nan
  | pinf => pinf
  | ninf => nan
  | nan => nan

/-- `cos`, NaN at infinity. -/
noncomputable def cos : F → F
  | fin x => fin (Real.cos x)
  | _ => nan

/-- `sin`, NaN at infinity. -/
noncomputable def sin : F → F
  | fin x => fin (Real.sin x)
  | _ => nan

noncomputable instance : AddCommMonoid F where
  add_assoc a b c := by
    cases a <;> cases b <;> cases c <;> first | rfl | exact congrArg fin (add_assoc _ _ _)
  zero_add a := by
    cases a <;> first | rfl | exact congrArg fin (zero_add _)
  add_zero a := by
    cases a <;> first | rfl | exact congrArg fin (add_zero _)
  add_comm a b := by
    cases a <;> cases b <;> first | rfl | exact congrArg fin (add_comm _ _)
  nsmul := nsmulRec

end F

open F

/-- A complex floating-point number. -/
@[ext] structure FC where
  re : F
  im : F

namespace FC

/-- A finite complex number. -/
def ofC (z : ℂ) : FC := ⟨fin z.re, fin z.im⟩

/-- A real number used where a complex one is needed. -/
noncomputable def ofF (a : F) : FC := ⟨a, fin 0⟩

noncomputable instance : Add FC := ⟨fun a b => ⟨a.re + b.re, a.im + b.im⟩⟩
noncomputable instance : Zero FC := ⟨⟨fin 0, fin 0⟩⟩
noncomputable instance : Neg FC := ⟨fun a => ⟨-a.re, -a.im⟩⟩
noncomputable instance : Mul FC := ⟨fun a b => ⟨a.re * b.re + -(a.im * b.im), a.re * b.im + a.im * b.re⟩⟩

noncomputable instance : AddCommMonoid FC where
  add_assoc a b c := FC.ext (add_assoc a.re b.re c.re) (add_assoc a.im b.im c.im)
  zero_add a := FC.ext (zero_add a.re) (zero_add a.im)
  add_zero a := FC.ext (add_zero a.re) (add_zero a.im)
  add_comm a b := FC.ext (add_comm a.re b.re) (add_comm a.im b.im)
  nsmul := nsmulRec

/-- `exp` of a complex number. -/
noncomputable def exp (a : FC) : FC := ⟨F.exp a.re * F.cos a.im, F.exp a.re * F.sin a.im⟩

/-- The imaginary part of `log`, for finite arguments; NaN otherwise. -/
noncomputable def logIm (a : FC) : F :=
  match a.re, a.im with
  | fin x, fin y => fin (Complex.log ⟨x, y⟩).im
  | _, _ => nan

end FC

/-- The dtype of the parameters. -/
inductive DType
  | real
  | complex

/-- `gpu_cond` for integers (autoreg_qGPS.py:14-17). -/
def gpuCondInt (pred : Bool) (x y : ℤ) : ℤ := (if pred then 1 else 0) * x + (1 - (if pred then 1 else 0)) * y

/-- `gpu_cond` for arrays with the dtype of the parameters (autoreg_qGPS.py:14-17): the Boolean is converted to that dtype.  Arrays of real
dtype are represented with imaginary part 0. -/
noncomputable def gpuCond (dt : DType) (pred : Bool) (x y : FC) : FC :=
  let p : F := if pred then fin 1 else fin 0
  let q : F := if pred then fin 0 else fin 1
  match dt with
  | .real => FC.ofF (p * x.re + q * y.re)
  | .complex => FC.ofF p * x + FC.ofF q * y

/-- `log_psi + renormalize_log_psi(...)` for one entry, with `renormalize_log_psi` the logarithm of 1 or 0
(autoreg_qGPS.py:110-112, 275). -/
noncomputable def addRenormalize (allowed : Bool) (log_psi : FC) : FC :=
  log_psi + FC.ofF (F.log (fin (if allowed then 1 else 0)))

/-- The end of `_compute_conditional` (autoreg_qGPS.py:268-278; autoreg_qGPS_full.py:330-342, autoreg_plaquetteqGPS.py:169-179). -/
noncomputable def maskF (dt : DType) (f : Fields D M) (n_spins : Fin D → ℤ) (index : ℤ) (log_psi : Fin D → FC) : Fin D → FC :=
  fun d => gpuCond dt (decide (0 ≤ index)) (addRenormalize (f.renormalize n_spins index.toNat d) (log_psi d)) (log_psi d)

/-- A Python index into an axis of length `L`: negative indices count from the end.  (Indices below `-L` only occur in the call with index
-1 for one site, where the value is not used; JAX clamps them.) -/
def pyIndex [NeZero L] (k : ℤ) : Fin L := Fin.ofNat L (if k < 0 then k + L else k).toNat

/-- The update of the spin counts (autoreg_qGPS.py:260-266; autoreg_qGPS_full.py:321-329, autoreg_plaquetteqGPS.py:161-167). -/
def bumpSpinsF [NeZero L] (f : Fields D M) (n_spins : Fin D → ℤ) (inputs : Fin L → Fin D) (index : ℤ) : Fin D → ℤ :=
  fun d => gpuCondInt (decide (0 < index)) (n_spins d + f.count_spins (inputs (pyIndex (index - 1))) d) (n_spins d)

/-- Cached products and spin counts. -/
structure CarryF (D M : ℕ) where
  cache : Fin D → Fin M → FC
  n_spins : Fin D → ℤ

/-- `_compute_conditional` of `ARqGPS` (autoreg_qGPS.py:233-279) with the default `out_transformation`, for any Python index. -/
noncomputable def computeConditionalF [NeZero L] (dt : DType) (f : Fields D M) (epsilon : Fin D → Fin M → Fin L → ℂ) (st : CarryF D M)
    (inputs : Fin L → Fin D) (index : ℤ) : CarryF D M × (Fin D → FC) :=
  let inputs_i := inputs (pyIndex (index - 1))
  let prods := fun d m => FC.ofC (epsilon d m (pyIndex index)) * st.cache inputs_i m
  let cache := fun d m => gpuCond dt (decide (0 ≤ index)) (prods d m) (st.cache d m)
  let log_psi := fun d => ∑ m, prods d m
  let n_spins := bumpSpinsF f st.n_spins inputs index
  (⟨cache, n_spins⟩, maskF dt f n_spins index log_psi)

/-- `_conditionals` of `ARqGPS` (autoreg_qGPS.py:320-349). -/
noncomputable def conditionalsF [NeZero L] (dt : DType) (f : Fields D M) (epsilon : Fin D → Fin M → Fin L → ℂ) (inputs : Fin L → Fin D) :
    Fin L → Fin D → FC :=
  scanOut (fun (st : CarryF D M) (index : Fin L) =>
    let r := computeConditionalF dt f epsilon st inputs index
    (⟨r.1.cache, fun d => gpuCondInt f.constrained (r.1.n_spins d) 0⟩, r.2)) ⟨fun _ _ => FC.ofC 1, fun _ => 0⟩

/-- `_conditionals` of `ARqGPSFull` (autoreg_qGPS_full.py:258-424); the products of finite parameters are taken in ℂ. -/
noncomputable def conditionalsFullF [NeZero L] (dt : DType) (f : Fields D M) (epsilon : Fin D → Fin M → ℕ → ℂ) (inputs : Fin L → Fin D) :
    Fin L → Fin D → FC :=
  scanOut (fun (n_spins : Fin D → ℤ) (index : Fin L) =>
    let log_psi := fun d => f.out_transformation fun m =>
      ARFull.readPacked epsilon L d m (ARFull.lowerIndex index + index.val) * ARFull.contextProd epsilon inputs index m
    let n_spins := bumpSpinsF f n_spins inputs index
    ((fun d => gpuCondInt f.constrained (n_spins d) 0), maskF dt f n_spins index fun d => FC.ofC (log_psi d))) fun _ => 0

/-- `_conditionals` of `ARPlaquetteqGPS` (autoreg_plaquetteqGPS.py:131-248). -/
noncomputable def conditionalsPlaquetteF [NeZero L] (dt : DType) (f : Fields D M) (epsilon : Fin D → Fin M → Fin L → ℂ)
    (pl : ARPlaquette.Plaquettes L) (inputs : Fin L → Fin D) : Fin L → Fin D → FC :=
  scanOut (fun (n_spins : Fin D → ℤ) (index : Fin L) =>
    let context_prod := fun m => ∏ k : Fin L, if pl.masks index k then epsilon (inputs (pl.plaquettes index k)) m k else 1
    let log_psi := fun d => f.out_transformation fun m => epsilon d m 0 * context_prod m
    let n_spins := bumpSpinsF f n_spins inputs index
    ((fun d => gpuCondInt f.constrained (n_spins d) 0), maskF dt f n_spins index fun d => FC.ofC (log_psi d))) fun _ => 0

/-- `logsumexp(machine_pow * log_psi.real)` over the local states (autoreg_qGPS.py:228-230).  (JAX subtracts the largest finite entry
first, which makes the sum of `-inf` entries `-inf` as here.) -/
noncomputable def logSumExp (machine_pow : ℝ) (log_psi : Fin D → FC) : F := F.log (∑ d, F.exp (fin machine_pow * (log_psi d).re))

/-- `if self.normalize: log_psi = _normalize(...)` (autoreg_qGPS.py:186-187, 227-230). -/
noncomputable def maybeNormalizeF (f : Fields D M) (log_psi : Fin D → FC) : Fin D → FC :=
  if f.normalize then fun d => log_psi d + -FC.ofF (fin (1 / f.machine_pow) * logSumExp f.machine_pow log_psi) else log_psi

/-- `conditionals` (autoreg_qGPS.py:135-144), from the output of `_conditionals`. -/
noncomputable def probabilitiesF (f : Fields D M) (log_psi : Fin L → Fin D → FC) (i : Fin L) (d : Fin D) : F :=
  F.exp (fin f.machine_pow * (maybeNormalizeF f (log_psi i) d).re)

/-- The part of `__call__` after the symmetrisation of the inputs, for one image (autoreg_qGPS.py:186-194). -/
noncomputable def pickF (f : Fields D M) (log_psi : Fin L → Fin D → FC) (inputs : Fin L → Fin D) : FC :=
  ∑ i, maybeNormalizeF f (log_psi i) (inputs i)

/-- The symmetrised log-amplitude (autoreg_qGPS.py:196-202). -/
noncomputable def symmetriseF {ι : Type} [Fintype ι] (machine_pow : ℝ) (log_psi : ι → FC) : FC :=
  let log_psi_symm := fin (1 / machine_pow) *
    F.log (∑ t, fin (1 / (Fintype.card ι : ℝ)) * F.exp (fin machine_pow * (log_psi t).re))
  let log_psi_symm_im := FC.logIm (∑ t, FC.exp ((⟨fin 0, fin 1⟩ : FC) * FC.ofF (log_psi t).im))
  FC.ofF log_psi_symm + (⟨fin 0, fin 1⟩ : FC) * FC.ofF log_psi_symm_im

/-- `__call__` (autoreg_qGPS.py:170-202), given `_conditionals` of the model. -/
noncomputable def callF {ι : Type} [Fintype ι] (f : Fields D M) (conds : (Fin L → Fin D) → Fin L → Fin D → FC)
    (syms : ι → (Fin L → Fin D) → Fin L → Fin D) (x : Fin L → Fin D) : FC :=
  symmetriseF f.machine_pow fun t => pickF f (conds (syms t x)) (syms t x)

/-- The variables after `_init_cache` of the direct sampler (GPSKet/sampler/autoreg.py:48-61): `_conditional` is called with index -1 on
the fresh variables (ones, and zero spins). -/
noncomputable def initCacheF [NeZero L] (dt : DType) (f : Fields D M) (epsilon : Fin D → Fin M → Fin L → ℂ) (buffer : Fin L → Fin D) :
    (Fin D → Fin M → FC) × Option (Fin D → ℤ) :=
  let r := computeConditionalF dt f epsilon ⟨fun _ _ => FC.ofC 1, fun _ => 0⟩ buffer (-1)
  (r.1.cache, if f.constrained then some r.1.n_spins else none)

/-- The spin counts after `_init_cache` for the two models which only cache those (autoreg_qGPS_full.py:346-362,
autoreg_plaquetteqGPS.py:183-211). -/
def initSpinsF [NeZero L] (f : Fields D M) (buffer : Fin L → Fin D) : Option (Fin D → ℤ) :=
  if f.constrained then some (bumpSpinsF f (fun _ => 0) buffer (-1)) else none

end GPSKet.Floats
