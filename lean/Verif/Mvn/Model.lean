import Verif.Prob.Mvn

/-!
# Model of the Gaussian samplers in `aemcmc/dists.py` and `aemcmc/gibbs.py`

Arrays are finite vectors and matrices of reals (floating point rounding is not modelled).  Each
sampler is a function of the standard normal vector it draws; its law is the image of independent
standard normals under that function.
-/

open MeasureTheory ProbabilityTheory Matrix

namespace Verif

/-- The dense linear algebra routines the samplers call: `at.linalg.cholesky`,
`at.slinalg.solve_triangular(_, _, lower=_)` and `at.linalg.solve(_, _, assume_a="pos")`
(`aemcmc/dists.py:52-57,152`).  Library code, so kept abstract; `LinAlg.Sound` is its contract. -/
structure LinAlg where
  chol : ∀ {n : ℕ}, Matrix (Fin n) (Fin n) ℝ → Matrix (Fin n) (Fin n) ℝ
  solveTri : ∀ {n : ℕ}, Matrix (Fin n) (Fin n) ℝ → (Fin n → ℝ) → (lower : Bool) → Fin n → ℝ
  solvePos : ∀ {n : ℕ}, Matrix (Fin n) (Fin n) ℝ → (Fin n → ℝ) → Fin n → ℝ

/-- The documented contract of those routines.  Nothing is promised for the wrong triangle, a
singular system, or a matrix that is not positive definite. -/
structure LinAlg.Sound (la : LinAlg) : Prop where
  chol : ∀ {n : ℕ} {Q : Matrix (Fin n) (Fin n) ℝ}, Q.PosDef →
    (∀ i j, i < j → la.chol Q i j = 0) ∧ (∀ i, 0 < la.chol Q i i) ∧ la.chol Q * (la.chol Q)ᵀ = Q
  solveLower : ∀ {n : ℕ} {A : Matrix (Fin n) (Fin n) ℝ} (b : Fin n → ℝ),
    (∀ i j, i < j → A i j = 0) → (∀ i, A i i ≠ 0) → A *ᵥ la.solveTri A b true = b
  solveUpper : ∀ {n : ℕ} {A : Matrix (Fin n) (Fin n) ℝ} (b : Fin n → ℝ),
    (∀ i j, j < i → A i j = 0) → (∀ i, A i i ≠ 0) → A *ᵥ la.solveTri A b false = b
  solvePos : ∀ {n : ℕ} {A : Matrix (Fin n) (Fin n) ℝ} (b : Fin n → ℝ),
    A.PosDef → A *ᵥ la.solvePos A b = b

/-- `set_subtensor(M[indices, indices], at.diag(M) + v)` with `indices = arange(M.shape[0])`
(`aemcmc/gibbs.py:45-49`, `aemcmc/dists.py:147-151`). -/
def setDiagAdd {n : ℕ} (M : Matrix (Fin n) (Fin n) ℝ) (v : Fin n → ℝ) :
    Matrix (Fin n) (Fin n) ℝ :=
  fun i j => if i = j then M i i + v i else M i j

/-- `multivariate_normal_rue2005` (`aemcmc/dists.py:32-58`) as a function of the standard normals
`z` it draws on line 55.  The sparse-to-dense conversion on lines 51-52 does not change values and
is left out. -/
noncomputable def rue2005 (la : LinAlg) {n : ℕ} (b : Fin n → ℝ) (Q : Matrix (Fin n) (Fin n) ℝ)
    (z : Fin n → ℝ) : Fin n → ℝ :=
  let L := la.chol Q
  let w := la.solveTri L b true
  let u := la.solveTri Lᵀ w false
  let v := la.solveTri Lᵀ z false
  u + v

/-- `multivariate_normal_cong2017` (`aemcmc/dists.py:61-153`) as a function of the standard normals
`z` it draws on line 136; the slices `z[:a_rows]` and `z[a_rows:]` are `Fin.castAdd`/`Fin.natAdd`. -/
noncomputable def cong2017 (la : LinAlg) {p n : ℕ} (A : Fin p → ℝ) (omega : Fin n → ℝ)
    (phi : Matrix (Fin n) (Fin p) ℝ) (t : Fin n → ℝ) (z : Fin (p + n) → ℝ) : Fin p → ℝ :=
  let A_inv : Fin p → ℝ := fun i => 1 / A i
  let y1 : Fin p → ℝ := fun i => Real.sqrt (A_inv i) * z (Fin.castAdd n i)
  let y2 : Fin n → ℝ := fun i => (1 / Real.sqrt (omega i)) * z (Fin.natAdd p i)
  let Ainv_phi : Matrix (Fin p) (Fin n) ℝ := fun i j => A_inv i * phi j i
  let B := setDiagAdd (phi * Ainv_phi) (fun i => 1 / omega i)
  let alpha := la.solvePos B (t - phi *ᵥ y1 - y2)
  y1 + Ainv_phi *ᵥ alpha

/-- `normal_regression_overdetermined_posterior` (`aemcmc/gibbs.py:30-50`). -/
noncomputable def normalRegressionOver (la : LinAlg) {p n : ℕ} (omega : Fin n → ℝ)
    (lmbdatau_inv : Fin p → ℝ) (X : Matrix (Fin n) (Fin p) ℝ) (z : Fin n → ℝ) :
    Measure (Fin p → ℝ) :=
  let Q := Xᵀ * (of fun i j => omega i * X i j)
  let Q := setDiagAdd Q lmbdatau_inv
  (iidNormal (Fin p)).map (rue2005 la (Xᵀ *ᵥ (omega * z)) Q)

/-- `normal_regression_underdetermined_posterior` (`aemcmc/gibbs.py:53-67`). -/
noncomputable def normalRegressionUnder (la : LinAlg) {p n : ℕ} (omega : Fin n → ℝ)
    (lmbdatau_inv : Fin p → ℝ) (X : Matrix (Fin n) (Fin p) ℝ) (z : Fin n → ℝ) :
    Measure (Fin p → ℝ) :=
  (iidNormal (Fin (p + n))).map (cong2017 la lmbdatau_inv omega X z)

/-- `normal_regression_posterior` (`aemcmc/gibbs.py:70-131`): the law of the returned sample.  The
`ifelse` on line 124 compares `X.shape[1]` with `X.shape[0]`.  `lmbdatau_inv` is a vector of length
`p` here; for a shape-`(1,)` or scalar argument see `Verif/Shapes`. -/
noncomputable def normalRegression (la : LinAlg) {p n : ℕ} (omega : Fin n → ℝ)
    (lmbdatau_inv : Fin p → ℝ) (X : Matrix (Fin n) (Fin p) ℝ) (z : Fin n → ℝ) :
    Measure (Fin p → ℝ) :=
  if p > n then normalRegressionUnder la omega lmbdatau_inv X z
  else normalRegressionOver la omega lmbdatau_inv X z

end Verif
