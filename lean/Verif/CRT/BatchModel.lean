import Verif.CRT.Model

/-!
# `sample_CRT` and `nbinom_dispersion_posterior` on arrays of counts

The counts form an array of any shape `s ++ [n]`; the last axis is summed out, so that the result has the
shape `s`.
-/

open MeasureTheory ProbabilityTheory
open scoped ENNReal

namespace Verif.CRT

/-- `Ls.sum(axis=-1)` for an array of at least one dimension (`/repo/aemcmc/gibbs.py:473`). -/
def sumLast (A : IntArr) : IntArr :=
  ⟨A.shape.dropLast, (List.range A.shape.dropLast.prod).map fun i =>
    ((A.data.drop (i * A.shape.getLastD 0)).take (A.shape.getLastD 0)).sum⟩

/-- The entries of an array of shape `s ++ [n]` in row-major order (`y.ravel()`,
`/repo/aemcmc/gibbs.py:393`), given by its rows. -/
def ravelRows {M n : ℕ} (y : Fin M → Fin n → ℤ) : List ℤ :=
  (List.ofFn fun i => List.ofFn (y i)).flatten

/-- `nbinom_dispersion_posterior(srng, h, p, a, b, y)` for arrays `y` and `p` of the same shape `s ++ [n]`
and scalars `h`, `a`, `b` (`/repo/aemcmc/gibbs.py:403-478`): `a + L_sum` and the rates have the shape `s`,
and `srng.gamma` draws each entry of its result independently. -/
noncomputable def batchDispersion (s : List ℕ) {n : ℕ} (p : Fin s.prod → Fin n → ℝ) (a b : ℝ)
    (y : Fin s.prod → Fin n → ℤ) (h : ℝ) : Measure (Fin s.prod → ℝ) :=
  ((sampleCRT ⟨s ++ [n], ravelRows y⟩ h).map fun Ls (i : Fin s.prod) => (sumLast Ls).data.getD i 0).toMeasure.bind
    fun L => Measure.pi fun i =>
      gammaMeasure (a + (L i : ℝ)) (b⁻¹ - ((List.ofFn (p i)).map fun q => Real.log (1 - q)).sum)

/-- NumPy broadcasting of two vectors (`h / (n_i - 1 + h)` with a vector `h`,
`/repo/aemcmc/gibbs.py:389`): equal lengths are paired off; a vector of length one is stretched if `dyn`
holds (whether Aesara stretches a dimension that is not known beforehand to be one depends on its version
and mode); otherwise an exception. -/
def bcast {α β : Type*} (dyn : Bool) (xs : List α) (ys : List β) : Option (List (α × β)) :=
  if xs.length = ys.length then some (xs.zip ys)
  else match dyn, xs, ys with
    | true, [x], ys => some (ys.map fun y => (x, y))
    | true, xs, [y] => some (xs.map fun x => (x, y))
    | _, _, _ => none

/-- `single_sample_CRT(y_i, h)` with a vector `h` (`/repo/aemcmc/gibbs.py:387-389`).  `at.switch` computes
both of its branches, so the shapes must fit also for `y_i < 1`. -/
noncomputable def singleCRTVec (dyn : Bool) (y : ℤ) (hs : List ℝ) : Option (PMF ℤ) :=
  (bcast dyn (arange 2 (y + 1)) hs).map fun ps =>
    (bernVec (ps.map fun q => q.2 / ((q.1 : ℝ) - 1 + q.2))).map (crtValue y)

/-- The scan over the raveled counts with a vector `h` (`/repo/aemcmc/gibbs.py:391-396`). -/
noncomputable def crtScanVec (dyn : Bool) (hs : List ℝ) : List ℤ → Option (PMF (List ℤ))
  | [] => some (PMF.pure [])
  | y :: ys => match singleCRTVec dyn y hs, crtScanVec dyn hs ys with
    | some l, some ls => some (l.bind fun l => ls.bind fun ls => PMF.pure (l :: ls))
    | _, _ => none

/-- `sample_CRT(srng, y, h)` with a vector `h` (`/repo/aemcmc/gibbs.py:367-400`). -/
noncomputable def sampleCRTVec (dyn : Bool) (y : IntArr) (hs : List ℝ) : Option (PMF IntArr) :=
  (crtScanVec dyn hs y.data).map fun q => q.map fun ls => ⟨y.shape, ls⟩

/-- `nbinom_dispersion_posterior(srng, h, p, a, b, y)` for matrices `y` and `p` of `m` rows and a vector `h`
(`/repo/aemcmc/gibbs.py:403-478`). -/
noncomputable def batchDispersionVec (dyn : Bool) {m n : ℕ} (p : Fin m → Fin n → ℝ) (a b : ℝ)
    (y : Fin m → Fin n → ℤ) (hs : List ℝ) : Option (Measure (Fin m → ℝ)) :=
  (sampleCRTVec dyn ⟨[m, n], ravelRows y⟩ hs).map fun q =>
    (q.map fun Ls (i : Fin m) => (sumLast Ls).data.getD i 0).toMeasure.bind fun L => Measure.pi fun i =>
      gammaMeasure (a + (L i : ℝ)) (b⁻¹ - ((List.ofFn (p i)).map fun q => Real.log (1 - q)).sum)

end Verif.CRT
