import Verif.Spec.Updates

/-!
# How the on-the-fly kernels obtain amplitudes

All `local_en_on_the_fly` kernels (operator/hamiltonian/hubbard.py:111-143, J1J2.py:80-114, ab_initio.py:259-415)
take the log-amplitude of a connected configuration either by re-evaluating the model on the updated configuration
or, if the model has the attribute `apply_fast_update`, by its fast update.
-/

namespace GPSKet

variable {L : ℕ} {A Cache : Type}

/-- Source of amplitudes: plain re-evaluation, or a model with fast updates. -/
inductive AmpSource (L : ℕ) (A Cache : Type)
  | full (logpsi : (Fin L → A) → ℂ)
  | fast (m : Spec.FastModel (Fin L) A Cache)

/-- `log_amp` of the sample (hubbard.py:119-128, J1J2.py:81-90, ab_initio.py:264-283). -/
def AmpSource.logAmp : AmpSource L A Cache → (Fin L → A) → ℂ
  | .full logpsi, x => logpsi x
  | .fast m, x => m.full x

/-- `sample.at[update_sites].set(updated_occ_partial)` (hubbard.py:141, J1J2.py:112): the updates are written one
after the other (JAX leaves the order open; callers list distinct sites, so it does not matter). -/
def setSites (x : Fin L → A) (upd : List (Fin L × A)) : Fin L → A :=
  upd.foldl (fun y u => Function.update y u.1 u.2) x

/-- The log-amplitude of an updated configuration (hubbard.py:133-143, J1J2.py:105-113). -/
def AmpSource.conn : AmpSource L A Cache → (Fin L → A) → List (Fin L × A) → ℂ
  | .full logpsi, x, upd => logpsi (setSites x upd)
  | .fast m, x, upd => m.fast (m.cacheOf x) upd

/-- Requirement on a fast-update model at the sample `x`: for updates that list distinct sites the fast evaluation
is the amplitude of the updated configuration.  (That the models of `GPSKet/models` satisfy it is the subject of C34–C41.) -/
def AmpSource.OkAt : AmpSource L A Cache → (Fin L → A) → Prop
  | .full _, _ => True
  | .fast m, x => m.CoherentOn fun y upd => y = x ∧ (upd.map Prod.fst).Nodup

end GPSKet
