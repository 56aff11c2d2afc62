import Verif.Mvn.Props

/-!
# C102: a change of the observations moves every draw by the change of the fit
-/

open MeasureTheory ProbabilityTheory Matrix

namespace Verif

variable {p n : ℕ}

/-- Spec.  The sum of the weighted squares of the residuals and of the weighted squares of the
coefficients. -/
def penalizedLoss (omega : Fin n → ℝ) (d : Fin p → ℝ) (X : Matrix (Fin n) (Fin p) ℝ) (z : Fin n → ℝ)
    (β : Fin p → ℝ) : ℝ :=
  ∑ i, omega i * (z i - ∑ j, X i j * β j) ^ 2 + ∑ j, d j * β j ^ 2

/-- Spec.  The penalised least-squares fit to the observations `z`. -/
def IsFit (omega : Fin n → ℝ) (d : Fin p → ℝ) (X : Matrix (Fin n) (Fin p) ℝ) (z : Fin n → ℝ)
    (m : Fin p → ℝ) : Prop :=
  ∀ β, penalizedLoss omega d X z m ≤ penalizedLoss omega d X z β

/-- Mean of the regression step. -/
noncomputable def fitOf (omega : Fin n → ℝ) (d : Fin p → ℝ) (X : Matrix (Fin n) (Fin p) ℝ)
    (z : Fin n → ℝ) : Fin p → ℝ :=
  (diagonal d + Xᵀ * diagonal omega * X)⁻¹ *ᵥ (Xᵀ *ᵥ (diagonal omega *ᵥ z))

theorem penalizedLoss_eq (omega : Fin n → ℝ) (d : Fin p → ℝ) (X : Matrix (Fin n) (Fin p) ℝ) (z : Fin n → ℝ)
    {m : Fin p → ℝ} (hm : (diagonal d + Xᵀ * diagonal omega * X) *ᵥ m = Xᵀ *ᵥ (diagonal omega *ᵥ z))
    (β : Fin p → ℝ) : penalizedLoss omega d X z β = penalizedLoss omega d X z m +
      (β - m) ⬝ᵥ ((diagonal d + Xᵀ * diagonal omega * X) *ᵥ (β - m)) := by
  have hquad : ∀ u v : Fin p → ℝ, u ⬝ᵥ ((diagonal d + Xᵀ * diagonal omega * X) *ᵥ v) =
      ∑ i, omega i * ((X *ᵥ u) i * (X *ᵥ v) i) + ∑ j, d j * (u j * v j) := by
    intro u v
    rw [add_mulVec, dotProduct_add, add_comm]
    congr 1
    · rw [← mulVec_mulVec, ← mulVec_mulVec, dotProduct_mulVec, vecMul_transpose, dotProduct]
      refine Finset.sum_congr rfl fun i _ => ?_
      rw [mulVec_diagonal]
      ring
    · rw [dotProduct]
      refine Finset.sum_congr rfl fun j _ => ?_
      rw [mulVec_diagonal]
      ring
  have hcross := congrArg (fun v => (β - m) ⬝ᵥ v) hm
  rw [hquad, dotProduct_mulVec (β - m) Xᵀ, vecMul_transpose] at hcross
  have hr : (X *ᵥ (β - m)) ⬝ᵥ (diagonal omega *ᵥ z) = ∑ i, omega i * ((X *ᵥ (β - m)) i * z i) := by
    rw [dotProduct]
    refine Finset.sum_congr rfl fun i _ => ?_
    rw [mulVec_diagonal]
    ring
  rw [hr] at hcross
  have e : ∀ v : Fin p → ℝ, ∀ i, ∑ j, X i j * v j = (X *ᵥ v) i := fun v i => rfl
  rw [hquad]
  simp only [penalizedLoss, e]
  have h1 : ∑ i, omega i * (z i - (X *ᵥ β) i) ^ 2 = ∑ i, omega i * (z i - (X *ᵥ m) i) ^ 2 -
      2 * ∑ i, omega i * ((X *ᵥ (β - m)) i * z i) + 2 * ∑ i, omega i * ((X *ᵥ (β - m)) i * (X *ᵥ m) i) +
        ∑ i, omega i * ((X *ᵥ (β - m)) i * (X *ᵥ (β - m)) i) := by
    rw [Finset.mul_sum, Finset.mul_sum, ← Finset.sum_sub_distrib, ← Finset.sum_add_distrib,
      ← Finset.sum_add_distrib]
    refine Finset.sum_congr rfl fun i _ => ?_
    rw [mulVec_sub, Pi.sub_apply]
    ring
  have h2 : ∑ j, d j * β j ^ 2 = ∑ j, d j * m j ^ 2 + 2 * ∑ j, d j * ((β - m) j * m j) +
      ∑ j, d j * ((β - m) j * (β - m) j) := by
    rw [Finset.mul_sum, ← Finset.sum_add_distrib, ← Finset.sum_add_distrib]
    refine Finset.sum_congr rfl fun j _ => ?_
    rw [Pi.sub_apply]
    ring
  rw [h1, h2]
  linarith

theorem fitOf_solves {omega : Fin n → ℝ} {d : Fin p → ℝ} (hω : ∀ i, 0 < omega i) (hd : ∀ j, 0 < d j)
    (X : Matrix (Fin n) (Fin p) ℝ) (z : Fin n → ℝ) :
    (diagonal d + Xᵀ * diagonal omega * X) *ᵥ fitOf omega d X z = Xᵀ *ᵥ (diagonal omega *ᵥ z) := by
  have hdet := (posDef_diag_add hd hω X).det_pos.ne'
  rw [fitOf, mulVec_mulVec, mul_nonsing_inv _ (isUnit_iff_ne_zero.2 hdet), one_mulVec]

theorem isFit_iff {omega : Fin n → ℝ} {d : Fin p → ℝ} (hω : ∀ i, 0 < omega i) (hd : ∀ j, 0 < d j)
    (X : Matrix (Fin n) (Fin p) ℝ) (z : Fin n → ℝ) (m : Fin p → ℝ) :
    IsFit omega d X z m ↔ m = fitOf omega d X z := by
  have hP := posDef_diag_add hd hω X
  have he := penalizedLoss_eq omega d X z (fitOf_solves hω hd X z)
  constructor
  · intro h
    by_contra hne
    have h1 := h (fitOf omega d X z)
    rw [he m] at h1
    have h2 := hP.dotProduct_mulVec_pos (sub_ne_zero.2 hne)
    rw [star_trivial] at h2
    linarith
  · rintro rfl β
    rw [he β]
    have h2 := hP.posSemidef.dotProduct_mulVec_nonneg (β - fitOf omega d X z)
    rw [star_trivial] at h2
    linarith

theorem over_matrix (omega : Fin n → ℝ) (d : Fin p → ℝ) (X : Matrix (Fin n) (Fin p) ℝ) :
    setDiagAdd (Xᵀ * (of fun i j => omega i * X i j)) d = diagonal d + Xᵀ * diagonal omega * X := by
  rw [setDiagAdd_eq, add_comm, Matrix.mul_assoc]
  congr 2
  ext i j
  rw [diagonal_mul, of_apply]

theorem omega_mul (omega z : Fin n → ℝ) : omega * z = diagonal omega *ᵥ z := by
  ext i
  rw [mulVec_diagonal, Pi.mul_apply]

theorem rue_shift (la : LinAlg) (b b' : Fin p → ℝ) (Q : Matrix (Fin p) (Fin p) ℝ) (noise : Fin p → ℝ) :
    rue2005 la b' Q noise = rue2005 la b Q noise + (rue2005 la b' Q 0 - rue2005 la b Q 0) := by
  simp only [rue2005]
  abel

theorem cong_shift {la : LinAlg} (hla : la.Sound) {omega : Fin n → ℝ} {d : Fin p → ℝ}
    (hω : ∀ i, 0 < omega i) (hd : ∀ j, 0 < d j) (X : Matrix (Fin n) (Fin p) ℝ) (t t' : Fin n → ℝ)
    (noise : Fin (p + n) → ℝ) : cong2017 la d omega X t' noise =
      cong2017 la d omega X t noise + (cong2017 la d omega X t' 0 - cong2017 la d omega X t 0) := by
  have hAp : (fun i j => 1 / d i * X j i) = diagonal d⁻¹ * Xᵀ := by
    ext i j
    simp [diagonal_mul]
  have hB : setDiagAdd (X * (diagonal d⁻¹ * Xᵀ)) (fun i => 1 / omega i) =
      X * diagonal d⁻¹ * Xᵀ + diagonal omega⁻¹ := by
    rw [setDiagAdd_eq, Matrix.mul_assoc]
    congr 2
    ext i
    simp
  have hP := posDef_B hd hω X
  have hsol : ∀ c, la.solvePos (X * diagonal d⁻¹ * Xᵀ + diagonal omega⁻¹) c =
      (X * diagonal d⁻¹ * Xᵀ + diagonal omega⁻¹)⁻¹ *ᵥ c := fun c =>
    eq_inv_mulVec hP.det_pos.ne' (hla.solvePos c hP)
  simp only [cong2017, hAp, hB, hsol, mulVec_sub]
  abel

/-- **C102, same random numbers, at least as many observations as regressors.** With the same standard
normal numbers the draws for the observations `z` and `z'` differ by exactly the difference of the
penalised least-squares fits, and the draws for opposite numbers lie symmetrically around the fit. -/
theorem C102_overdetermined {la : LinAlg} (hla : la.Sound) {omega : Fin n → ℝ} {d : Fin p → ℝ}
    (hω : ∀ i, 0 < omega i) (hd : ∀ j, 0 < d j) (X : Matrix (Fin n) (Fin p) ℝ) {z z' : Fin n → ℝ}
    {m m' : Fin p → ℝ} (hm : IsFit omega d X z m) (hm' : IsFit omega d X z' m') (noise : Fin p → ℝ) :
    rue2005 la (Xᵀ *ᵥ (omega * z')) (setDiagAdd (Xᵀ * (of fun i j => omega i * X i j)) d) noise =
      rue2005 la (Xᵀ *ᵥ (omega * z)) (setDiagAdd (Xᵀ * (of fun i j => omega i * X i j)) d) noise + (m' - m) ∧
    rue2005 la (Xᵀ *ᵥ (omega * z)) (setDiagAdd (Xᵀ * (of fun i j => omega i * X i j)) d) noise +
      rue2005 la (Xᵀ *ᵥ (omega * z)) (setDiagAdd (Xᵀ * (of fun i j => omega i * X i j)) d) (-noise) = m + m := by
  rw [(isFit_iff hω hd X z m).1 hm, (isFit_iff hω hd X z' m').1 hm', over_matrix, omega_mul, omega_mul]
  have hP := posDef_diag_add hd hω X
  have h0 : ∀ b, rue2005 la b (diagonal d + Xᵀ * diagonal omega * X) 0 =
      (diagonal d + Xᵀ * diagonal omega * X)⁻¹ *ᵥ b := fun b => by
    obtain ⟨C, -, hC⟩ := rue2005_eq hla b hP
    rw [hC, mulVec_zero, add_zero]
  constructor
  · rw [rue_shift la (Xᵀ *ᵥ (diagonal omega *ᵥ z)), h0, h0, fitOf, fitOf]
  · obtain ⟨C, -, hC⟩ := rue2005_eq hla (Xᵀ *ᵥ (diagonal omega *ᵥ z)) hP
    rw [hC, hC, mulVec_neg, fitOf]
    abel

/-- **C102, same random numbers, fewer observations than regressors.** The same for the other algorithm. -/
theorem C102_underdetermined {la : LinAlg} (hla : la.Sound) {omega : Fin n → ℝ} {d : Fin p → ℝ}
    (hω : ∀ i, 0 < omega i) (hd : ∀ j, 0 < d j) (X : Matrix (Fin n) (Fin p) ℝ) {z z' : Fin n → ℝ}
    {m m' : Fin p → ℝ} (hm : IsFit omega d X z m) (hm' : IsFit omega d X z' m') (noise : Fin (p + n) → ℝ) :
    cong2017 la d omega X z' noise = cong2017 la d omega X z noise + (m' - m) ∧
    cong2017 la d omega X z noise + cong2017 la d omega X z (-noise) = m + m := by
  rw [(isFit_iff hω hd X z m).1 hm, (isFit_iff hω hd X z' m').1 hm']
  have h0 : ∀ t, cong2017 la d omega X t 0 = fitOf omega d X t := fun t => by
    obtain ⟨C, -, hC⟩ := cong2017_eq hla hd hω X t
    rw [hC, mulVec_zero, add_zero, omega_mul, fitOf]
  constructor
  · rw [cong_shift hla hω hd X z z', h0, h0]
  · obtain ⟨C, -, hC⟩ := cong2017_eq hla hd hω X z
    rw [hC, hC, mulVec_neg, omega_mul, fitOf]
    abel

/-- **C102, laws.** The law of the draws of `normal_regression_posterior` for the observations `z'` is the
one for `z`, moved by the difference of the fits: their spread does not depend on the observations. -/
theorem C102_regression {la : LinAlg} (hla : la.Sound) {omega : Fin n → ℝ} {d : Fin p → ℝ}
    (hω : ∀ i, 0 < omega i) (hd : ∀ j, 0 < d j) (X : Matrix (Fin n) (Fin p) ℝ) {z z' : Fin n → ℝ}
    {m m' : Fin p → ℝ} (hm : IsFit omega d X z m) (hm' : IsFit omega d X z' m') :
    normalRegression la omega d X z' = (normalRegression la omega d X z).map fun β => β + (m' - m) := by
  rw [(C19_branches_agree hla hla hω hd X z').2, (C19_branches_agree hla hla hω hd X z).2]
  simp only [normalRegressionOver]
  have hmeas : Measurable (rue2005 la (Xᵀ *ᵥ (omega * z))
      (setDiagAdd (Xᵀ * (of fun i j => omega i * X i j)) d)) := by
    obtain ⟨C, -, hC⟩ := rue2005_eq hla (Xᵀ *ᵥ (omega * z)) (over_matrix omega d X ▸ posDef_diag_add hd hω X)
    rw [funext hC]
    exact (Continuous.add continuous_const (Continuous.matrix_mulVec continuous_const continuous_id)).measurable
  rw [Measure.map_map (by fun_prop) hmeas]
  congr 1
  funext noise
  exact (C102_overdetermined hla hω hd X hm hm' noise).1

/-- The fit exists and is unique: one observation `3`, two regressors, all weights one. -/
example : IsFit (fun _ : Fin 1 => 1) (fun _ : Fin 2 => 1) !![1, 1] ![3] ![1, 1] ∧
    ∀ m, IsFit (fun _ : Fin 1 => 1) (fun _ : Fin 2 => 1) !![1, 1] ![3] m → m = ![1, 1] := by
  have h : IsFit (fun _ : Fin 1 => 1) (fun _ : Fin 2 => 1) !![1, 1] ![3] ![1, 1] := by
    intro β
    simp [penalizedLoss, Fin.sum_univ_two]
    nlinarith [sq_nonneg (β 0 - 1), sq_nonneg (β 1 - 1), sq_nonneg (β 0 + β 1 - 2)]
  refine ⟨h, fun m hm => ?_⟩
  rw [(isFit_iff (fun _ => one_pos) (fun _ => one_pos) _ _ m).1 hm]
  exact ((isFit_iff (fun _ => one_pos) (fun _ => one_pos) _ _ _).1 h).symm

/-- The observation changes from 3 to 6: every draw moves by 1 in both coefficients. -/
example (noise : Fin (2 + 1) → ℝ) :
    cong2017 stdLinAlg (fun _ => 1) (fun _ => 1) !![1, 1] ![6] noise =
      cong2017 stdLinAlg (fun _ => 1) (fun _ => 1) !![1, 1] ![3] noise + (![2, 2] - ![1, 1]) := by
  refine (C102_underdetermined stdLinAlg_sound (fun _ => one_pos) (fun _ => one_pos) _ ?_ ?_ noise).1
  · intro β
    simp [penalizedLoss, Fin.sum_univ_two]
    nlinarith [sq_nonneg (β 0 - 1), sq_nonneg (β 1 - 1), sq_nonneg (β 0 + β 1 - 2)]
  · intro β
    simp [penalizedLoss, Fin.sum_univ_two]
    nlinarith [sq_nonneg (β 0 - 2), sq_nonneg (β 1 - 2), sq_nonneg (β 0 + β 1 - 4)]

end Verif
