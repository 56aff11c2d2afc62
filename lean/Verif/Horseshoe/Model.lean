import Mathlib.Probability.Distributions.Exponential
import Mathlib.MeasureTheory.Constructions.Pi
import Mathlib.MeasureTheory.Measure.GiryMonad

/-!
# Model of `horseshoe_posterior` (`/repo/aemcmc/gibbs.py:187-257`)

The result is the joint law of the two returned values.  `srng.gamma(a, r)` draws a gamma variable with
rate `r` (see `DESIGN.md`).  What the argument of `srng.exponential` means is library behaviour; NumPy
and Aesara read it as the scale (the mean), the comments of the code read it as the rate.  Both
readings are modelled.
-/

open MeasureTheory ProbabilityTheory

namespace Verif.Horseshoe

/-- How `srng.exponential` reads its argument. -/
inductive ExpArg
  | rate | scale

/-- Law of `srng.exponential(x)`. -/
noncomputable def expDraw : ExpArg → ℝ → Measure ℝ
  | .rate, r => expMeasure r
  | .scale, s => expMeasure s⁻¹

/-- `upsilon_inv` and `zeta_inv` (`/repo/aemcmc/gibbs.py:241-245`). -/
noncomputable def auxDraw (conv : ExpArg) {p : ℕ} (lambda2 : Fin p → ℝ) (tau2 : ℝ) :
    Measure ((Fin p → ℝ) × ℝ) :=
  (Measure.pi fun j => expDraw conv (1 + (lambda2 j)⁻¹)).prod (expDraw conv (1 + tau2⁻¹))

/-- `lambda2_inv_new` (`/repo/aemcmc/gibbs.py:247-248`). -/
noncomputable def lambdaDraw (conv : ExpArg) {p : ℕ} (β : Fin p → ℝ) (sigma2 tau2 : ℝ)
    (upsilonInv : Fin p → ℝ) : Measure (Fin p → ℝ) :=
  Measure.pi fun j => expDraw conv (upsilonInv j + 0.5 * β j ^ 2 * tau2⁻¹ / sigma2)

/-- `tau2_inv_new` (`/repo/aemcmc/gibbs.py:249-252`).  `rows` is `beta.shape[0]`. -/
noncomputable def tauDraw (rows : ℕ) {p : ℕ} (β : Fin p → ℝ) (sigma2 zetaInv : ℝ)
    (lambda2InvNew : Fin p → ℝ) : Measure ℝ :=
  gammaMeasure (0.5 * (rows + 1)) (zetaInv + 0.5 * (∑ j, β j ^ 2 * lambda2InvNew j) / sigma2)

/-- `horseshoe_posterior(srng, beta, sigma2, lambda2, tau2)` (`/repo/aemcmc/gibbs.py:241-257`), for
arrays `beta` and `lambda2` of the same shape with at least one dimension and scalars `sigma2` and
`tau2`.  The arrays are flattened to their `p` entries; `rows` is `beta.shape[0]`. -/
noncomputable def horseshoeArray (conv : ExpArg) (rows : ℕ) {p : ℕ} (β : Fin p → ℝ) (sigma2 : ℝ)
    (lambda2 : Fin p → ℝ) (tau2 : ℝ) : Measure ((Fin p → ℝ) × ℝ) :=
  (auxDraw conv lambda2 tau2).bind fun aux =>
    (lambdaDraw conv β sigma2 tau2 aux.1).bind fun lambda2InvNew =>
      (tauDraw rows β sigma2 aux.2 lambda2InvNew).map fun tau2InvNew =>
        (fun j => (√(lambda2InvNew j))⁻¹, (√tau2InvNew)⁻¹)

/-- `horseshoe_posterior(srng, beta, sigma2, lambda2, tau2)` (`/repo/aemcmc/gibbs.py:241-257`), for
vectors `beta` and `lambda2` of length `p` and scalars `sigma2` and `tau2`. -/
noncomputable def horseshoePosterior (conv : ExpArg) {p : ℕ} (β : Fin p → ℝ) (sigma2 : ℝ)
    (lambda2 : Fin p → ℝ) (tau2 : ℝ) : Measure ((Fin p → ℝ) × ℝ) :=
  horseshoeArray conv p β sigma2 lambda2 tau2

/-- The kernel of `normal_horseshoe_finder` (`/repo/aemcmc/gibbs.py:293-297`): `sigma2 = 1`, the
squares of the current values are passed. -/
noncomputable def horseshoeStep (conv : ExpArg) {p : ℕ} (β : Fin p → ℝ) (q : (Fin p → ℝ) × ℝ) :
    Measure ((Fin p → ℝ) × ℝ) :=
  horseshoePosterior conv β 1 (fun j => q.1 j ^ 2) (q.2 ^ 2)

end Verif.Horseshoe
