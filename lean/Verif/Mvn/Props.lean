import Verif.Mvn.Lemmas
import Verif.Prob.GaussBayes

/-!
# Properties of the Gaussian samplers (C17–C20)
-/

open MeasureTheory ProbabilityTheory Matrix
open scoped ENNReal

namespace Verif

/-- Spec.  Likelihood of the regression coefficients `β` in `z ~ N(X β, diag(1/ω))`: the product of
the normal densities of the entries of `z`. -/
noncomputable def regressionLik {p n : ℕ} (omega : Fin n → ℝ) (X : Matrix (Fin n) (Fin p) ℝ)
    (z : Fin n → ℝ) (β : Fin p → ℝ) : ℝ≥0∞ :=
  ∏ i, gaussianPDF ((X *ᵥ β) i) (1 / omega i).toNNReal (z i)

/-- Spec.  The prior `β_j ~ N(0, std_j ^ 2)`, independent. -/
noncomputable def normalPrior {p : ℕ} (std : Fin p → ℝ) : Measure (Fin p → ℝ) :=
  Measure.pi fun j => gaussianReal 0 ((std j) ^ 2).toNNReal

/-- **C17.** `multivariate_normal_rue2005` draws from `N(Q⁻¹ b, Q⁻¹)` for every dimension, positive
definite `Q` and `b`, with any linear algebra library meeting its contract. -/
theorem C17_rue2005_law {la : LinAlg} (hla : la.Sound) {n : ℕ} (b : Fin n → ℝ)
    {Q : Matrix (Fin n) (Fin n) ℝ} (hQ : Q.PosDef) :
    (iidNormal (Fin n)).map (rue2005 la b Q) = mvn (Q⁻¹ *ᵥ b) Q⁻¹ := by
  obtain ⟨C, hC, h⟩ := rue2005_eq hla b hQ
  rw [show rue2005 la b Q = fun z => Q⁻¹ *ᵥ b + C *ᵥ z from funext h, map_affine_iidNormal, hC]

/-- The hypotheses of C17 are met by a non-diagonal matrix and an existing library. -/
example : ∃ (la : LinAlg) (Q : Matrix (Fin 2) (Fin 2) ℝ),
    la.Sound ∧ Q.PosDef ∧ Q 0 1 ≠ 0 :=
  ⟨stdLinAlg, !![2, 1; 1, 2], stdLinAlg_sound, by
    refine PosDef.of_dotProduct_mulVec_pos (by ext i j; fin_cases i <;> fin_cases j <;> simp) ?_
    intro x hx
    have : x 0 ≠ 0 ∨ x 1 ≠ 0 := by
      by_contra h
      push Not at h
      exact hx (by ext i; fin_cases i <;> simp [h.1, h.2])
    simp only [dotProduct, mulVec, Fin.sum_univ_two, star_trivial, of_apply, cons_val',
      cons_val_zero, cons_val_one, cons_val_fin_one]
    rcases this with h | h <;>
      nlinarith [sq_nonneg (x 0 + x 1), sq_pos_of_ne_zero h, sq_nonneg (x 0), sq_nonneg (x 1)],
    by simp⟩

/-- **C18.** `multivariate_normal_cong2017` draws from `N(Λ⁻¹ Φᵀ Ω t, Λ⁻¹)` with
`Λ = A + Φᵀ Ω Φ`, for all sizes, positive `A`, `ω`, and all `Φ`, `t`. -/
theorem C18_cong2017_law {la : LinAlg} (hla : la.Sound) {p n : ℕ} {A : Fin p → ℝ}
    {omega : Fin n → ℝ} (hA : ∀ i, 0 < A i) (hω : ∀ i, 0 < omega i)
    (phi : Matrix (Fin n) (Fin p) ℝ) (t : Fin n → ℝ) :
    (iidNormal (Fin (p + n))).map (cong2017 la A omega phi t) =
      mvn ((diagonal A + phiᵀ * diagonal omega * phi)⁻¹ *ᵥ (phiᵀ *ᵥ (diagonal omega *ᵥ t)))
        (diagonal A + phiᵀ * diagonal omega * phi)⁻¹ := by
  obtain ⟨C, hC, h⟩ := cong2017_eq hla hA hω phi t
  have hωt : omega * t = diagonal omega *ᵥ t := by ext i; simp [mulVec_diagonal]
  rw [funext h, map_affine_iidNormal, hC, hωt]

example : ∃ (la : LinAlg) (A : Fin 3 → ℝ) (omega : Fin 2 → ℝ), la.Sound ∧ (∀ i, 0 < A i) ∧
    (∀ i, 0 < omega i) :=
  ⟨stdLinAlg, fun i => i + 1, fun i => i + 2, stdLinAlg_sound, fun i => by positivity,
    fun i => by positivity⟩

theorem normalRegressionOver_law {la : LinAlg} (hla : la.Sound) {p n : ℕ} {omega : Fin n → ℝ}
    {d : Fin p → ℝ} (hω : ∀ i, 0 < omega i) (hd : ∀ i, 0 < d i) (X : Matrix (Fin n) (Fin p) ℝ)
    (z : Fin n → ℝ) :
    normalRegressionOver la omega d X z =
      mvn ((diagonal d + Xᵀ * diagonal omega * X)⁻¹ *ᵥ (Xᵀ *ᵥ (diagonal omega *ᵥ z)))
        (diagonal d + Xᵀ * diagonal omega * X)⁻¹ := by
  have hQ : setDiagAdd (Xᵀ * (of fun i j => omega i * X i j)) d =
      diagonal d + Xᵀ * diagonal omega * X := by
    rw [setDiagAdd_eq, add_comm, Matrix.mul_assoc]
    congr 2
    ext i j
    simp [diagonal_mul]
  have hωz : omega * z = diagonal omega *ᵥ z := by ext i; simp [mulVec_diagonal]
  simp only [normalRegressionOver, hQ, hωz]
  exact C17_rue2005_law hla _ (posDef_diag_add hd hω X)

/-- Both branches together: the law of the returned sample. -/
theorem normalRegression_law {la : LinAlg} (hla : la.Sound) {p n : ℕ} {omega : Fin n → ℝ}
    {d : Fin p → ℝ} (hω : ∀ i, 0 < omega i) (hd : ∀ i, 0 < d i) (X : Matrix (Fin n) (Fin p) ℝ)
    (z : Fin n → ℝ) :
    normalRegression la omega d X z =
      mvn ((diagonal d + Xᵀ * diagonal omega * X)⁻¹ *ᵥ (Xᵀ *ᵥ (diagonal omega *ᵥ z)))
        (diagonal d + Xᵀ * diagonal omega * X)⁻¹ := by
  unfold normalRegression
  split_ifs
  · exact C18_cong2017_law hla hd hω X z
  · exact normalRegressionOver_law hla hω hd X z

/-- **C19.** The two algorithms `normal_regression_posterior` chooses between have the same law for
every shape of `X`, even when run with different linear algebra libraries, so what the shape test
selects does not change the distribution of the returned sample. -/
theorem C19_branches_agree {la la' : LinAlg} (hla : la.Sound) (hla' : la'.Sound) {p n : ℕ}
    {omega : Fin n → ℝ} {d : Fin p → ℝ} (hω : ∀ i, 0 < omega i) (hd : ∀ i, 0 < d i)
    (X : Matrix (Fin n) (Fin p) ℝ) (z : Fin n → ℝ) :
    normalRegressionUnder la omega d X z = normalRegressionOver la' omega d X z ∧
      normalRegression la omega d X z = normalRegressionOver la' omega d X z := by
  rw [normalRegressionOver_law hla' hω hd, normalRegression_law hla hω hd]
  exact ⟨C18_cong2017_law hla hd hω X z, rfl⟩

example : ∃ (la la' : LinAlg) (omega : Fin 2 → ℝ) (d : Fin 3 → ℝ), la.Sound ∧ la'.Sound ∧
    (∀ i, 0 < omega i) ∧ ∀ i, 0 < d i :=
  ⟨stdLinAlg, stdLinAlg, fun i => i + 2, fun i => i + 1, stdLinAlg_sound, stdLinAlg_sound,
    fun i => by positivity, fun i => by positivity⟩

theorem normalPrior_eq_mvn {p : ℕ} {std : Fin p → ℝ} (hs : ∀ j, 0 < std j) :
    normalPrior std = mvn 0 (diagonal fun j => (std j ^ 2)⁻¹)⁻¹ := by
  have h1 := pi_gaussianReal_eq_mvn (0 : Fin p → ℝ) std
  have h2 : (diagonal fun j => (std j ^ 2)⁻¹)⁻¹ = diagonal fun j => std j ^ 2 := by
    refine inv_eq_left_inv ?_
    rw [diagonal_mul_diagonal]
    simp [fun j => mul_inv_cancel₀ (pow_ne_zero 2 (hs j).ne')]
  rw [h2, ← h1]
  rfl

/-- The Bayes posterior of the normal regression, computed from the specification. -/
theorem bayes_regression {p n : ℕ} {omega : Fin n → ℝ} {std : Fin p → ℝ}
    (hω : ∀ i, 0 < omega i) (hs : ∀ j, 0 < std j) (X : Matrix (Fin n) (Fin p) ℝ)
    (z : Fin n → ℝ) :
    BayesDefined (normalPrior std) (regressionLik omega X z) ∧
    bayes (normalPrior std) (regressionLik omega X z) =
      mvn ((diagonal (fun j => (std j ^ 2)⁻¹) + Xᵀ * diagonal omega * X)⁻¹ *ᵥ
          (Xᵀ *ᵥ (diagonal omega *ᵥ z)))
        (diagonal (fun j => (std j ^ 2)⁻¹) + Xᵀ * diagonal omega * X)⁻¹ := by
  have hprior := normalPrior_eq_mvn hs
  have hv : ∀ i, ((1 / omega i).toNNReal : ℝ) = 1 / omega i := fun i =>
    Real.coe_toNNReal _ (by have := hω i; positivity)
  set k : ℝ := (∏ i, (Real.sqrt (2 * Real.pi * (1 / omega i)))⁻¹) *
    Real.exp (-(∑ i, omega i * z i ^ 2) / 2) with hk
  have hk0 : 0 < k := by
    refine mul_pos (Finset.prod_pos fun i _ => ?_) (Real.exp_pos _)
    have := hω i
    positivity
  have hP : (Xᵀ * diagonal omega * X).PosSemidef := by
    have := (PosSemidef.diagonal (fun i => (hω i).le)).conjTranspose_mul_mul_same X
    rwa [conjTranspose_eq_transpose_of_trivial] at this
  have hmeas : Measurable (regressionLik omega X z) := by
    unfold regressionLik
    refine Finset.measurable_prod _ fun i _ => ?_
    have h3 : Measurable fun m : ℝ => gaussianPDF m (1 / omega i).toNNReal (z i) := by
      unfold gaussianPDF gaussianPDFReal
      fun_prop
    exact h3.comp (by unfold mulVec; fun_prop)
  have hlik : ∀ β, regressionLik omega X z β = ENNReal.ofReal
      (k * Real.exp ((Xᵀ *ᵥ (diagonal omega *ᵥ z)) ⬝ᵥ β -
        (β ⬝ᵥ (Xᵀ * diagonal omega * X) *ᵥ β) / 2)) := by
    intro β
    unfold regressionLik gaussianPDF
    rw [← ENNReal.ofReal_prod_of_nonneg (fun i _ => gaussianPDFReal_nonneg _ _ _)]
    congr 1
    simp only [gaussianPDFReal, hv, Finset.prod_mul_distrib, ← Real.exp_sum]
    rw [hk, mul_assoc, ← Real.exp_add]
    congr 2
    have e1 : (Xᵀ *ᵥ (diagonal omega *ᵥ z)) ⬝ᵥ β = ∑ i, omega i * z i * (X *ᵥ β) i := by
      rw [dotProduct_comm, dotProduct_mulVec, ← mulVec_transpose, transpose_transpose]
      simp only [dotProduct, mulVec_diagonal]
      exact Finset.sum_congr rfl fun i _ => by ring
    have e2 : β ⬝ᵥ (Xᵀ * diagonal omega * X) *ᵥ β = ∑ i, omega i * (X *ᵥ β) i ^ 2 := by
      rw [Matrix.mul_assoc, ← mulVec_mulVec, dotProduct_mulVec, ← mulVec_transpose,
        transpose_transpose, ← mulVec_mulVec]
      simp only [dotProduct, mulVec_diagonal]
      exact Finset.sum_congr rfl fun i _ => by ring
    rw [e1, e2, ← Finset.sum_neg_distrib, Finset.sum_div, Finset.sum_div, ← Finset.sum_sub_distrib,
      ← Finset.sum_add_distrib]
    refine Finset.sum_congr rfl fun i _ => ?_
    have := (hω i).ne'
    field_simp
    ring
  have := bayes_mvn 0 (Q := diagonal fun j => (std j ^ 2)⁻¹)
    (PosDef.diagonal fun j => by have := hs j; positivity) hP
    (Xᵀ *ᵥ (diagonal omega *ᵥ z)) hk0 hmeas hlik
  rwa [mulVec_zero, zero_add, ← hprior] at this

/-- **C20 (partial).** Called with the inverse prior standard deviations, as documented and as its
callers do, `normal_regression_posterior` draws from the posterior *exactly when every prior
standard deviation is 1*.  The full property asks for the left-hand side for all standard
deviations; it fails for all others because the code adds `1/std` where the precision `1/std^2`
belongs. -/
theorem C20_regression_posterior_iff_partial {la : LinAlg} (hla : la.Sound) {p n : ℕ}
    {omega : Fin n → ℝ} {std : Fin p → ℝ} (hω : ∀ i, 0 < omega i) (hs : ∀ j, 0 < std j)
    (X : Matrix (Fin n) (Fin p) ℝ) (z : Fin n → ℝ) :
    normalRegression la omega (fun j => (std j)⁻¹) X z =
        bayes (normalPrior std) (regressionLik omega X z) ↔ ∀ j, std j = 1 := by
  rw [normalRegression_law hla hω (fun j => inv_pos.2 (hs j)), (bayes_regression hω hs X z).2]
  constructor
  · intro h
    have hp1 := posDef_diag_add (A := fun j => (std j)⁻¹) (fun j => inv_pos.2 (hs j)) hω X
    have hp2 := posDef_diag_add (A := fun j => (std j ^ 2)⁻¹)
      (fun j => inv_pos.2 (pow_pos (hs j) 2)) hω X
    have h1 := (mvn_inj hp1.inv.posSemidef hp2.inv.posSemidef h).2
    have h2 := congrArg (fun M => M⁻¹) h1
    simp only [nonsing_inv_nonsing_inv _ (isUnit_iff_ne_zero.2 hp1.det_pos.ne'),
      nonsing_inv_nonsing_inv _ (isUnit_iff_ne_zero.2 hp2.det_pos.ne'), add_left_inj] at h2
    intro j
    have h3 := congrFun (diagonal_injective h2) j
    have h4 : std j = std j ^ 2 := inv_injective h3
    have := hs j
    nlinarith
  · intro h
    simp [h]

example (X : Matrix (Fin 2) (Fin 3) ℝ) (z : Fin 2 → ℝ) :
    normalRegression stdLinAlg (fun i => i + 2) (fun _ => (1 : ℝ)⁻¹) X z =
        bayes (normalPrior fun _ => 1) (regressionLik (fun i => i + 2) X z) ∧
    normalRegression stdLinAlg (fun i => i + 2) (fun j => (![1, 1, 2] j)⁻¹) X z ≠
        bayes (normalPrior ![1, 1, 2]) (regressionLik (fun i => i + 2) X z) := by
  refine ⟨(C20_regression_posterior_iff_partial stdLinAlg_sound (fun i => by positivity)
    (fun _ => one_pos) X z).2 fun _ => rfl, fun h => ?_⟩
  have : (2 : ℝ) = 1 := (C20_regression_posterior_iff_partial stdLinAlg_sound (fun i => by positivity)
    (fun j => by fin_cases j <;> norm_num) X z).1 h 2
  norm_num at this

/-- **C20 (partial).** Called with prior *precisions* `1/std^2` instead, it draws from the
posterior, for all shapes, precisions, standard deviations and `z`. -/
theorem C20_regression_posterior_precision_partial {la : LinAlg} (hla : la.Sound) {p n : ℕ}
    {omega : Fin n → ℝ} {std : Fin p → ℝ} (hω : ∀ i, 0 < omega i) (hs : ∀ j, 0 < std j)
    (X : Matrix (Fin n) (Fin p) ℝ) (z : Fin n → ℝ) :
    normalRegression la omega (fun j => (std j ^ 2)⁻¹) X z =
        bayes (normalPrior std) (regressionLik omega X z) ∧
      BayesDefined (normalPrior std) (regressionLik omega X z) := by
  rw [normalRegression_law hla hω (fun j => inv_pos.2 (pow_pos (hs j) 2)),
    (bayes_regression hω hs X z).2]
  exact ⟨rfl, (bayes_regression hω hs X z).1⟩

example (X : Matrix (Fin 2) (Fin 3) ℝ) (z : Fin 2 → ℝ) :
    normalRegression stdLinAlg (fun i => i + 2) (fun j => (![1, 1, 2] j ^ 2)⁻¹) X z =
        bayes (normalPrior ![1, 1, 2]) (regressionLik (fun i => i + 2) X z) :=
  (C20_regression_posterior_precision_partial stdLinAlg_sound (fun i => by positivity)
    (fun j => by fin_cases j <;> norm_num) X z).1

/-- **C20 is violated.** One observation, one coefficient, prior standard deviation 2. -/
theorem C20_regression_posterior_violated : ∃ (la : LinAlg) (omega : Fin 1 → ℝ) (std : Fin 1 → ℝ)
    (X : Matrix (Fin 1) (Fin 1) ℝ) (z : Fin 1 → ℝ), la.Sound ∧ (∀ i, 0 < omega i) ∧
    (∀ j, 0 < std j) ∧ BayesDefined (normalPrior std) (regressionLik omega X z) ∧
    normalRegression la omega (fun j => (std j)⁻¹) X z ≠
      bayes (normalPrior std) (regressionLik omega X z) := by
  refine ⟨stdLinAlg, fun _ => 1, fun _ => 2, 1, 0, stdLinAlg_sound, fun _ => one_pos,
    fun _ => two_pos, (bayes_regression (fun _ => one_pos) (fun _ => two_pos) 1 0).1, fun h => ?_⟩
  have := (C20_regression_posterior_iff_partial stdLinAlg_sound (fun _ => one_pos)
    (fun _ => two_pos) 1 0).1 h 0
  norm_num at this

example : ∃ (la : LinAlg) (omega : Fin 2 → ℝ) (std : Fin 3 → ℝ), la.Sound ∧ (∀ i, 0 < omega i) ∧
    ∀ j, 0 < std j :=
  ⟨stdLinAlg, fun i => i + 2, fun i => i + 1, stdLinAlg_sound,
    fun i => by positivity, fun i => by positivity⟩

end Verif
