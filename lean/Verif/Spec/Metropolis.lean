import Verif.Model.Metropolis

/-!
# Specification: the plain Metropolis–Hastings chain

Only configurations are kept; both log-probabilities are computed by evaluating the wave function.
-/

namespace GPSKet.Spec

variable {Chain S A : Type}

/-- Does chain `c` accept its proposal? -/
def Accepts (logpsi : (S → A) → ℂ) (pow : ℝ) (σ : Chain → S → A) (inp : StepInput Chain S A) (c : Chain) : Prop :=
  let pr := inp.transition σ
  inp.uniform c < Real.exp (pow * (logpsi (pr.σp c)).re - pow * (logpsi (σ c)).re +
    match pr.log_prob_correction with
    | some corr => corr c
    | none => 0)

open Classical in
/-- One Metropolis–Hastings step of all chains. -/
noncomputable def mhStep (logpsi : (S → A) → ℂ) (pow : ℝ) (σ : Chain → S → A) (inp : StepInput Chain S A) :
    Chain → S → A :=
  fun c => if Accepts logpsi pow σ inp c then (inp.transition σ).σp c else σ c

/-- Any number of steps. -/
noncomputable def mhRun (logpsi : (S → A) → ℂ) (pow : ℝ) (σ : Chain → S → A) :
    List (StepInput Chain S A) → Chain → S → A
  | [] => σ
  | inp :: rest => mhRun logpsi pow (mhStep logpsi pow σ inp) rest

open Classical in
/-- Number of proposals accepted along the way. -/
noncomputable def mhAccepted [Fintype Chain] (logpsi : (S → A) → ℂ) (pow : ℝ) (σ : Chain → S → A) :
    List (StepInput Chain S A) → ℕ
  | [] => 0
  | inp :: rest => (Finset.univ.filter fun c => Accepts logpsi pow σ inp c).card
      + mhAccepted logpsi pow (mhStep logpsi pow σ inp) rest

end GPSKet.Spec
