import Verif.Model.Hubbard
import Verif.Model.AmpSource

/-! # Model of `local_en_on_the_fly` in `GPSKet/operator/hamiltonian/hubbard.py:106-201` -/

namespace GPSKet

variable {L : ℕ}

/-- `get_parity_multiplicator_hop` (operator/hamiltonian/ab_initio.py:236-240); `&1` is the remainder modulo 2.
The index `limits[1] - 1` is truncated subtraction here; it is only reached with two different sites. -/
def parityMultiplicatorHop (s₁ s₂ : Fin L) (count : ℕ → ℤ) : ℤ :=
  let lo := min s₁.val s₂.val
  let hi := max s₁.val s₂.val
  1 - 2 * ((count (hi - 1) - count lo) % 2)

/-- The inner `apply_hopping` (hubbard.py:148-184). -/
noncomputable def hubbardHopTerm {Cache : Type} (src : AmpSource L (Fin 4) Cache) (sample : Cfg L) (spin_int : Fin 4)
    (count : ℕ → ℤ) (annihilate_site create_site : Fin L) : ℂ :=
  let start_occ := sample annihilate_site
  let end_occ := sample create_site
  if start_occ &&& spin_int = 0 ∨ ¬ (end_occ &&& spin_int = 0) then 0
  else
    let upd := [(annihilate_site, start_occ - spin_int), (create_site, end_occ + spin_int)]
    (parityMultiplicatorHop annihilate_site create_site count : ℂ)
      * Complex.exp (src.conn sample upd - src.logAmp sample)

/-- `get_hopping_term` (hubbard.py:147-193). -/
noncomputable def hubbardHoppingTerm {Cache : Type} (src : AmpSource L (Fin 4) Cache)
    (edges : List ((Fin L × Fin L) × ℂ)) (sample : Cfg L) (spin_int : Fin 4) (count : ℕ → ℤ) : ℂ :=
  (edges.map fun e =>
    (hubbardHopTerm src sample spin_int count e.1.1 e.1.2
      + hubbardHopTerm src sample spin_int count e.1.2 e.1.1) * (-e.2)).sum

/-- `local_en_on_the_fly` for one sample (hubbard.py:111-199). -/
noncomputable def hubbardLocalEn {Cache : Type} (src : AmpSource L (Fin 4) Cache) (U : ℂ)
    (edges : List ((Fin L × Fin L) × ℂ)) (sample : Cfg L) : ℂ :=
  let up_count := cumsum (isOcc sample 1)
  let down_count := cumsum (isOcc sample 2)
  let local_en := U * ((Finset.univ.filter fun j => sample j = 3).card : ℂ)
  if edges.length > 0 then
    local_en + hubbardHoppingTerm src edges sample 1 up_count
      + hubbardHoppingTerm src edges sample 2 down_count
  else local_en

end GPSKet
