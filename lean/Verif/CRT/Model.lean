import Mathlib.Probability.ProbabilityMassFunction.Constructions
import Mathlib.Probability.ProbabilityMassFunction.Monad
import Mathlib.Probability.Distributions.Gamma
import Mathlib.LinearAlgebra.Matrix.Notation
import Verif.Expr.Sem

/-!
# Model of `sample_CRT` and `nbinom_dispersion_posterior`

Randomness is modelled by probability mass functions for the Bernoulli draws and by a measure for
the gamma draw.  Draws of one call, and draws of different scan iterations, are independent
(the random stream hands every draw fresh state; see the updates returned by `aesara.scan`).
-/

open MeasureTheory ProbabilityTheory Matrix
open scoped ENNReal

namespace Verif.CRT

/-- A dense integer array: its shape and its entries in row-major order (`y` in
`/repo/aemcmc/gibbs.py:367`). -/
structure IntArr where
  /-- The shape, `y.shape`. -/
  shape : List ℕ
  /-- The entries in row-major order, `y.ravel()`. -/
  data : List ℤ

/-- One `srng.bernoulli(p)` draw (`/repo/aemcmc/gibbs.py:389`).  For `p ∈ [0, 1]` this is the
Bernoulli law; other `p` make the library raise and are mapped to the nearest valid value here. -/
noncomputable def bern (p : ℝ) : PMF Bool :=
  PMF.ofFintype (fun b => if b then min (ENNReal.ofReal p) 1 else 1 - min (ENNReal.ofReal p) 1)
    (by simp)

/-- The vector of independent draws `srng.bernoulli(ps)` (`/repo/aemcmc/gibbs.py:389`). -/
noncomputable def bernVec : List ℝ → PMF (List Bool)
  | [] => PMF.pure []
  | p :: ps => (bern p).bind fun b => (bernVec ps).bind fun bs => PMF.pure (b :: bs)

/-- `at.arange(lo, hi)` on integers: empty when `hi ≤ lo` (`/repo/aemcmc/gibbs.py:388`). -/
def arange (lo hi : ℤ) : List ℤ :=
  (List.range (hi - lo).toNat).map fun k : ℕ => lo + (k : ℤ)

/-- The success probabilities `h / (n_i - 1 + h)` with `n_i = at.arange(2, y_i + 1)`
(`/repo/aemcmc/gibbs.py:388-389`). -/
noncomputable def crtProbs (y : ℤ) (h : ℝ) : List ℝ :=
  (arange 2 (y + 1)).map fun n : ℤ => h / ((n : ℝ) - 1 + h)

/-- `at.switch(y_i < 1, 0, 1 + draws.sum())` as a function of the Bernoulli outcomes
(`/repo/aemcmc/gibbs.py:389`). -/
def crtValue (y : ℤ) (bs : List Bool) : ℤ :=
  if y < 1 then 0 else 1 + (bs.map fun b => if b then (1 : ℤ) else 0).sum

/-- `single_sample_CRT(y_i, h)` (`/repo/aemcmc/gibbs.py:387-389`), `h` a scalar. -/
noncomputable def singleCRT (y : ℤ) (h : ℝ) : PMF ℤ :=
  (bernVec (crtProbs y h)).map (crtValue y)

/-- The scan over the raveled counts (`/repo/aemcmc/gibbs.py:391-396`). -/
noncomputable def crtScan (h : ℝ) : List ℤ → PMF (List ℤ)
  | [] => PMF.pure []
  | y :: ys => (singleCRT y h).bind fun l => (crtScan h ys).bind fun ls => PMF.pure (l :: ls)

/-- `sample_CRT(srng, y, h)` (`/repo/aemcmc/gibbs.py:367-400`): scan, then reshape to `y.shape`. -/
noncomputable def sampleCRT (y : IntArr) (h : ℝ) : PMF IntArr :=
  (crtScan h y.data).map fun ls => ⟨y.shape, ls⟩

/-- `L_sum = Ls.sum(axis=-1)` for a vector `y` (`/repo/aemcmc/gibbs.py:472-473`); for arrays of counts
see `CRT/BatchModel.lean`. -/
noncomputable def crtTotal (y : List ℤ) (h : ℝ) : PMF ℤ :=
  (sampleCRT ⟨[y.length], y⟩ h).map fun Ls => Ls.data.sum

/-- `nbinom_dispersion_posterior(srng, h, p, a, b, y)` for a vector `y`, scalar `h`, `a`, `b` and a
vector `p` (`/repo/aemcmc/gibbs.py:403-478`): the law of the returned gamma draw.  The second
argument of `srng.gamma` is a rate. -/
noncomputable def dispersionPosterior (p : List ℝ) (a b : ℝ) (y : List ℤ) (h : ℝ) : Measure ℝ :=
  (crtTotal y h).toMeasure.bind fun L =>
    gammaMeasure (a + (L : ℝ)) (b⁻¹ - (p.map fun q => Real.log (1 - q)).sum)

/-- The `h` step built by `nbinom_logistic_finder` (`/repo/aemcmc/gibbs.py:627-629`): the probability
passed on is `at.sigmoid(-X @ beta_posterior)`, with `beta` the value of the coefficients drawn just
before. -/
noncomputable def finderDispersion {n q : ℕ} (X : Matrix (Fin n) (Fin q) ℝ) (beta : Fin q → ℝ)
    (a b : ℝ) (y : List ℤ) (h : ℝ) : Measure ℝ :=
  dispersionPosterior (List.ofFn fun i => sigmoid (((-X) *ᵥ beta) i)) a b y h

end Verif.CRT
