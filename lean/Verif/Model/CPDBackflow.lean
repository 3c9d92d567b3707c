import Verif.Model.AmpSource
import Verif.Model.Electrons
import Mathlib.LinearAlgebra.Matrix.Determinant.Basic
import Mathlib.Analysis.SpecialFunctions.Complex.Log

/-!
# Model of `GPSKet/models/cpd_backflow.py`

One sample of the batch, for `environments=None` (with an environment matrix the code refuses fast updates, line 142).
The batched conversion to electron positions is the subject of C40; here it is used for a batch of one configuration.
-/

namespace GPSKet.CPDBackflow

variable {L R N M : ℕ}

/-- The parameters `epsilon[α, k, occupation, m, β]` (cpd_backflow.py:131-135); `R` is the number of (spin-)orbitals `α`: `L`, or
`2L` for generalised orbitals. -/
abbrev Eps (L R N M : ℕ) := Fin R → Fin N → Fin 4 → Fin M → Fin L → ℂ

/-- The intermediate values `p` of `CPD_single_orbital` for every orbital (cpd_backflow.py:28-29,61-68). -/
def siteProducts (eps : Eps L R N M) (n : Cfg L) : Fin R → Fin N → Fin M → ℂ := fun α k m => ∏ β, eps α k (n β) m β

/-- `o = sum_m p` (cpd_backflow.py:29,58). -/
def orbitals (p : Fin R → Fin N → Fin M → ℂ) : Fin R → Fin N → ℂ := fun α k => ∑ m, p α k m

/-- `CPD_with_cache`: the new site products (cpd_backflow.py:52-57). -/
noncomputable def siteProductsWithCache (eps : Eps L R N M) (old : Fin R → Fin N → Fin M → ℂ) (occ_new occ_old : List (Fin 4))
    (sites : List (Fin L)) : Fin R → Fin N → Fin M → ℂ := fun α k m =>
  old α k m / ((occ_old.zip sites).map fun os => eps α k os.1 m os.2).prod *
    ((occ_new.zip sites).map fun os => eps α k os.1 m os.2).prod

/-- Row `i` of `orbitals[r]`, where `r` is a list of row numbers (`jnp.take_along_axis`, cpd_backflow.py:195-200,207). -/
def take (o : Fin R → Fin N → ℂ) (r : List ℕ) (i : ℕ) (j : Fin N) : ℂ :=
  if h : r.getD i 0 < R then o ⟨r.getD i 0, h⟩ j else 0

/-- The logarithm of the determinant value returned from the orbitals, for the three kinds of orbitals
(cpd_backflow.py:190-210).  `log|d| + log(sign d)` is written as the principal logarithm of `d`. -/
inductive Kind (L : ℕ) : ℕ → ℕ → ℕ → ℕ → Type
  /-- restricted: `L` orbitals with `n` columns for `n` up and `n` down electrons -/
  | restricted (n : ℕ) : Kind L L n n n
  /-- unrestricted: `L` orbitals with `n_up + n_down` columns -/
  | unrestricted (n_up n_down : ℕ) : Kind L L (n_up + n_down) n_up n_down
  /-- generalised: `2L` orbitals with `n_up + n_down` columns -/
  | generalised (n_up n_down : ℕ) : Kind L (L + L) (n_up + n_down) n_up n_down

/-- cpd_backflow.py:190-210. -/
noncomputable def logDet {n_up n_down : ℕ} (kind : Kind L R N n_up n_down) (o : Fin R → Fin N → ℂ) (r : List ℕ) : ℂ :=
  match kind with
  | .restricted n =>
    Complex.log ((Matrix.of fun i j : Fin n => take o (r.take n) i j).det * (Matrix.of fun i j : Fin n => take o (r.drop n) i j).det)
  | .unrestricted n_up n_down =>
    Complex.log ((Matrix.of fun i j : Fin n_up => take o (r.take n_up) i (Fin.castAdd n_down j)).det *
      (Matrix.of fun i j : Fin n_down => take o (r.drop n_up) i (Fin.natAdd n_up j)).det)
  | .generalised n_up n_down =>
    Complex.log (Matrix.of fun i j : Fin (n_up + n_down) =>
      take o (r.take n_up ++ (r.drop n_up).map (· + L)) i j).det

/-- The cached variables (cpd_backflow.py:143-148). -/
structure Cache (L R N M : ℕ) where
  samples : Cfg L
  site_products : Fin R → Fin N → Fin M → ℂ

/-- `update_fun`: the reverse scan, so the first entry of a site is written last (cpd_backflow.py:151-162). -/
def updateFun (saved : Cfg L) (upd : List (Fin L × Fin 4)) : Cfg L := setSites saved upd.reverse

/-- The site products of a fast evaluation: the new occupations are read from the *updated* configuration
(cpd_backflow.py:180-185). -/
noncomputable def fastSiteProducts (eps : Eps L R N M) (c : Cache L R N M) (upd : List (Fin L × Fin 4)) :
    Fin R → Fin N → Fin M → ℂ :=
  let n := updateFun c.samples upd
  let update_sites := upd.map Prod.fst
  siteProductsWithCache eps c.site_products (update_sites.map n) (update_sites.map c.samples) update_sites

/-- `CPDBackflow.__call__` as a model with cached fast updates (cpd_backflow.py:137-217). -/
noncomputable def model {n_up n_down : ℕ} (kind : Kind L R N n_up n_down) (eps : Eps L R N M) :
    Spec.CachedModel (Fin L) (Fin 4) (Cache L R N M) where
  full n := logDet kind (orbitals (siteProducts eps n)) (Electrons.occupanciesToElectrons [n] n_up n_down 0)
  cacheOf n := ⟨n, siteProducts eps n⟩
  fast c upd := logDet kind (orbitals (fastSiteProducts eps c upd))
    (Electrons.occupanciesToElectrons [updateFun c.samples upd] n_up n_down 0)
  fastCache c upd := ⟨updateFun c.samples upd, fastSiteProducts eps c upd⟩

end GPSKet.CPDBackflow
