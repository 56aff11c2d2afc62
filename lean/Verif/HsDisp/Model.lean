import Verif.HsReg.Model
import Verif.CRT.Model

/-!
# Model of one call of the sampler for a negative-binomial regression with a horseshoe prior and an unknown
dispersion

The state is `((beta, (lambda, tau)), h)`.  `nbinom_logistic_finder` returns a step for `beta` and one for
`h` whose graph contains the node of the new `beta` (`/repo/aemcmc/gibbs.py:606-648`).
`normal_horseshoe_finder` returns the two outputs of one kernel for `lambda` and `tau`
(`/repo/aemcmc/gibbs.py:286-308`).
-/

open MeasureTheory ProbabilityTheory Matrix

namespace Verif.HsDisp

/-- The step for the shrinkage parameters (`/repo/aemcmc/gibbs.py:286-308`).  The rest is kept. -/
noncomputable def shrinkStep (conv : Horseshoe.ExpArg) {p : ℕ} (r : ((Fin p → ℝ) × ((Fin p → ℝ) × ℝ)) × ℝ) :
    Measure (((Fin p → ℝ) × ((Fin p → ℝ) × ℝ)) × ℝ) :=
  (HsReg.shrinkStep conv r.1).map fun q => (q, r.2)

/-- The step for the coefficients (`/repo/aemcmc/gibbs.py:606-619`), given the current dispersion.  The
rest is kept. -/
noncomputable def coefStep (la : LinAlg) {p n : ℕ} (X : Matrix (Fin n) (Fin p) ℝ) (y : Fin n → ℕ)
    (r : ((Fin p → ℝ) × ((Fin p → ℝ) × ℝ)) × ℝ) : Measure (((Fin p → ℝ) × ((Fin p → ℝ) × ℝ)) × ℝ) :=
  (HsReg.nbCoefStep la X (fun _ => r.2) y r.1).map fun q => (q, r.2)

/-- The step for the dispersion (`/repo/aemcmc/gibbs.py:622-648`), given the current coefficients.  The
rest is kept. -/
noncomputable def dispStep {p n : ℕ} (X : Matrix (Fin n) (Fin p) ℝ) (a b : ℝ) (y : Fin n → ℕ)
    (r : ((Fin p → ℝ) × ((Fin p → ℝ) × ℝ)) × ℝ) : Measure (((Fin p → ℝ) × ((Fin p → ℝ) × ℝ)) × ℝ) :=
  (CRT.finderDispersion X r.1.1 a b (List.ofFn fun i => (y i : ℤ)) r.2).map fun h => (r.1, h)

/-- Which shrinkage parameters the node of the new coefficients reads, as in a regression with a known
dispersion (`/repo/aemcmc/basic.py:78-86`).  The library's loop gives the current values of both, wherever
`h` comes in the order; see `Verif/Graph/Regression.lean`. -/
abbrev Reads := HsReg.Reads

/-- One call of the sampler (`/repo/aemcmc/basic.py:59-102`).  The shrinkage parameters are drawn given the
current coefficients; the coefficients given the current dispersion and the shrinkage parameters that are
read, with `beta_std = lambda * tau` (`/repo/aemcmc/gibbs.py:606-619`); the dispersion given the new
coefficients and the current dispersion (`/repo/aemcmc/gibbs.py:622-648`). -/
noncomputable def call (conv : Horseshoe.ExpArg) (rd : Reads) (la : LinAlg) {p n : ℕ}
    (X : Matrix (Fin n) (Fin p) ℝ) (a b : ℝ) (y : Fin n → ℕ)
    (r : ((Fin p → ℝ) × ((Fin p → ℝ) × ℝ)) × ℝ) :
    Measure (((Fin p → ℝ) × ((Fin p → ℝ) × ℝ)) × ℝ) :=
  (Horseshoe.horseshoeStep conv r.1.1 r.1.2).bind fun s =>
    (nbinomNormalPosterior la (fun j => (rd.read r.1.2 s).1 j * (rd.read r.1.2 s).2) X (fun _ => r.2) y
      r.1.1).bind fun beta =>
        (CRT.finderDispersion X beta a b (List.ofFn fun i => (y i : ℤ)) r.2).map fun h => ((beta, s), h)

end Verif.HsDisp
