import Verif.Mvn.Props
import Verif.Prob.Settle

/-!
# C98 for `normal_regression_posterior`: with more data the coefficients settle on the true ones
-/

open MeasureTheory ProbabilityTheory Matrix
open scoped ENNReal

namespace Verif

variable {p n : ℕ}

/-- Spec.  Data from the regression with true coefficients `β₀`: independent, `z_i ~ N((X β₀)_i, 1/ω_i)`. -/
noncomputable def regressionData (omega : Fin n → ℝ) (X : Matrix (Fin n) (Fin p) ℝ) (β₀ : Fin p → ℝ) :
    Measure (Fin n → ℝ) :=
  Measure.pi fun i => gaussianReal ((X *ᵥ β₀) i) (1 / omega i).toNNReal

/-! ## Helpers -/

theorem lintegral_far_mvn {m : Fin p → ℝ} {S : Matrix (Fin p) (Fin p) ℝ} (hS : S.PosSemidef) (j : Fin p)
    (c : ℝ) : ∫⁻ x, ENNReal.ofReal ((x j - c) ^ 2) ∂mvn m S = ENNReal.ofReal (S j j + (m j - c) ^ 2) := by
  have hmp := measurePreserving_eval_multivariateGaussian (μ := WithLp.toLp 2 m) hS (i := j)
  have e : ∫⁻ x, ENNReal.ofReal ((x j - c) ^ 2) ∂mvn m S =
      ∫⁻ x, ENNReal.ofReal ((x - c) ^ 2) ∂gaussianReal (m j) (S j j).toNNReal := by
    rw [mvn, lintegral_map (by fun_prop) (by fun_prop)]
    exact hmp.lintegral_comp (f := fun x : ℝ => ENNReal.ofReal ((x - c) ^ 2)) (by fun_prop)
  rw [e, lintegral_far_gauss, Real.coe_toNNReal _ hS.diag_nonneg]

/-- The data as an affine image of independent standard normals. -/
theorem regressionData_eq {omega : Fin n → ℝ} (hω : ∀ i, 0 < omega i) (X : Matrix (Fin n) (Fin p) ℝ)
    (β₀ : Fin p → ℝ) : regressionData omega X β₀ =
      (iidNormal (Fin n)).map fun g => X *ᵥ β₀ + (diagonal fun i => (Real.sqrt (omega i))⁻¹) *ᵥ g := by
  have h1 : ∀ i, (1 / omega i).toNNReal = (((Real.sqrt (omega i))⁻¹) ^ 2).toNNReal := fun i => by
    rw [inv_pow, Real.sq_sqrt (hω i).le, one_div]
  unfold regressionData
  simp only [h1]
  rw [pi_gaussianReal_eq_mvn, map_affine_iidNormal, diagonal_transpose, diagonal_mul_diagonal]
  simp only [sq]

/-- What a column of the inverse of the total information says. -/
theorem info_bounds {d : Fin p → ℝ} (hd : ∀ j, 0 < d j) {P : Matrix (Fin p) (Fin p) ℝ}
    (hP : P.PosSemidef) {κ : ℝ} (hκ : 0 < κ) (hinfo : ∀ u : Fin p → ℝ, κ * ∑ i, u i ^ 2 ≤ u ⬝ᵥ P *ᵥ u)
    (β₀ : Fin p → ℝ) (j : Fin p) :
    (diagonal d + P)⁻¹ j j ≤ 1 / κ ∧
    ((diagonal d + P)⁻¹ * P * (diagonal d + P)⁻¹) j j ≤ (diagonal d + P)⁻¹ j j ∧
    ((diagonal d + P)⁻¹ *ᵥ (diagonal d *ᵥ β₀)) j ^ 2 ≤
      (diagonal d + P)⁻¹ j j * ∑ i, d i * β₀ i ^ 2 := by
  have hQ : (diagonal d + P).PosDef := (PosDef.diagonal hd).add_posSemidef hP
  have hdet : IsUnit (diagonal d + P).det := isUnit_iff_ne_zero.2 hQ.det_pos.ne'
  have hsymm : ((diagonal d + P)⁻¹)ᵀ = (diagonal d + P)⁻¹ := by
    have := hQ.inv.isHermitian
    rwa [IsHermitian, conjTranspose_eq_transpose_of_trivial] at this
  set Q := diagonal d + P with hQdef
  set u := Q⁻¹ *ᵥ Pi.single j 1 with hu
  have huj : u j = Q⁻¹ j j := by simp [hu]
  have hQu : Q *ᵥ u = Pi.single j 1 := by rw [hu, mulVec_mulVec, mul_nonsing_inv _ hdet, one_mulVec]
  have huQu : u ⬝ᵥ Q *ᵥ u = Q⁻¹ j j := by rw [hQu, ← huj]; simp
  have hD : u ⬝ᵥ diagonal d *ᵥ u = ∑ i, d i * u i ^ 2 := by
    simp only [dotProduct, mulVec_diagonal]
    exact Finset.sum_congr rfl fun i _ => by ring
  have hD0 : 0 ≤ ∑ i, d i * u i ^ 2 := Finset.sum_nonneg fun i _ => mul_nonneg (hd i).le (sq_nonneg _)
  have hP0 : 0 ≤ u ⬝ᵥ P *ᵥ u := by simpa using hP.dotProduct_mulVec_nonneg u
  have hsum : ∑ i, d i * u i ^ 2 + u ⬝ᵥ P *ᵥ u = Q⁻¹ j j := by
    rw [← huQu, hQdef, add_mulVec, dotProduct_add, hD]
  have hpos : 0 < Q⁻¹ j j := hQ.inv.diag_pos
  have hleft : ∀ v : Fin p → ℝ, (Q⁻¹ *ᵥ v) j = u ⬝ᵥ v := by
    intro v
    have : u = Q⁻¹ j := by
      rw [hu, mulVec_single_one]
      funext i
      exact congrFun (congrFun hsymm j) i
    rw [this]
    rfl
  refine ⟨?_, ?_, ?_⟩
  · have h1 := hinfo u
    have h2 : u j ^ 2 ≤ ∑ i, u i ^ 2 :=
      Finset.single_le_sum (f := fun i => u i ^ 2) (fun i _ => sq_nonneg _) (Finset.mem_univ j)
    rw [huj] at h2
    have h3 : κ * (Q⁻¹ j j) ^ 2 ≤ Q⁻¹ j j := by
      have := mul_le_mul_of_nonneg_left h2 hκ.le
      linarith
    rw [le_div_iff₀ hκ]
    by_contra hc
    push Not at hc
    nlinarith
  · have e : (Q⁻¹ * P * Q⁻¹) j j = u ⬝ᵥ P *ᵥ u := by
      have h1 : (Q⁻¹ * P * Q⁻¹) j j = ((Q⁻¹ * P * Q⁻¹) *ᵥ Pi.single j 1) j := by simp
      rw [h1, Matrix.mul_assoc, ← mulVec_mulVec, hleft, ← mulVec_mulVec]
    rw [e]
    linarith
  · rw [hleft]
    have hcs := Finset.sum_mul_sq_le_sq_mul_sq Finset.univ (fun i => Real.sqrt (d i) * u i)
      fun i => Real.sqrt (d i) * β₀ i
    have e1 : ∑ i, Real.sqrt (d i) * u i * (Real.sqrt (d i) * β₀ i) = u ⬝ᵥ diagonal d *ᵥ β₀ := by
      simp only [dotProduct, mulVec_diagonal]
      refine Finset.sum_congr rfl fun i _ => ?_
      have := Real.mul_self_sqrt (hd i).le
      linear_combination (u i * β₀ i) * this
    have e2 : ∀ v : Fin p → ℝ, ∑ i, (Real.sqrt (d i) * v i) ^ 2 = ∑ i, d i * v i ^ 2 := fun v =>
      Finset.sum_congr rfl fun i _ => by rw [mul_pow, Real.sq_sqrt (hd i).le]
    rw [e1, e2, e2] at hcs
    refine hcs.trans (mul_le_mul_of_nonneg_right ?_ (Finset.sum_nonneg fun i _ =>
      mul_nonneg (hd i).le (sq_nonneg _)))
    linarith

/-! ## The theorem -/

/-- **C98, regression.** Data from the regression with any true coefficients `β₀`, and a design that carries
at least the information `κ` in every direction: averaged over the data, the drawn coefficient `j` is at
distance `ε` or more from the true one with probability at most `(2 + ∑ d_i β₀_i²) / (κ ε²)`, whatever
algorithm the shape selects, and for every choice of the prior precisions `d`.  So the reading of the prior
scales in C20 does not matter once there is enough information. -/
theorem C98_normal_regression_settles {la : LinAlg} (hla : la.Sound) {omega : Fin n → ℝ} {d : Fin p → ℝ}
    (hω : ∀ i, 0 < omega i) (hd : ∀ j, 0 < d j) (X : Matrix (Fin n) (Fin p) ℝ) {κ : ℝ} (hκ : 0 < κ)
    (hinfo : ∀ u : Fin p → ℝ, κ * ∑ j, u j ^ 2 ≤ ∑ i, omega i * (X *ᵥ u) i ^ 2) (β₀ : Fin p → ℝ)
    (j : Fin p) {ε : ℝ} (hε : 0 < ε) :
    ∫⁻ z, normalRegression la omega d X z {β | ε ≤ |β j - β₀ j|} ∂regressionData omega X β₀ ≤
      ENNReal.ofReal ((2 + ∑ i, d i * β₀ i ^ 2) / (κ * ε ^ 2)) := by
  set P := Xᵀ * diagonal omega * X with hPdef
  have hquad : ∀ u : Fin p → ℝ, u ⬝ᵥ P *ᵥ u = ∑ i, omega i * (X *ᵥ u) i ^ 2 := by
    intro u
    rw [hPdef, ← mulVec_mulVec, ← mulVec_mulVec, dotProduct_mulVec, vecMul_transpose]
    simp only [dotProduct, mulVec_diagonal]
    exact Finset.sum_congr rfl fun i _ => by ring
  have hP : P.PosSemidef := by
    have h1 := (posSemidef_diagonal_iff.2 fun i => (hω i).le).conjTranspose_mul_mul_same X
    rwa [conjTranspose_eq_transpose_of_trivial] at h1
  have hQ : (diagonal d + P).PosDef := (PosDef.diagonal hd).add_posSemidef hP
  have hdet : IsUnit (diagonal d + P).det := isUnit_iff_ne_zero.2 hQ.det_pos.ne'
  have hsymm : ((diagonal d + P)⁻¹)ᵀ = (diagonal d + P)⁻¹ := by
    have := hQ.inv.isHermitian
    rwa [IsHermitian, conjTranspose_eq_transpose_of_trivial] at this
  obtain ⟨b1, b2, b3⟩ := info_bounds hd hP hκ (fun u => by rw [hquad]; exact hinfo u) β₀ j
  set Q := diagonal d + P with hQdef
  have hs0 : 0 < Q⁻¹ j j := hQ.inv.diag_pos
  set C : Matrix (Fin p) (Fin n) ℝ := Q⁻¹ * (Xᵀ * diagonal fun i => Real.sqrt (omega i)) with hC
  -- the mean of the draws, as a function of the noise
  have hm : ∀ g : Fin n → ℝ, Q⁻¹ *ᵥ (Xᵀ *ᵥ (diagonal omega *ᵥ
      (X *ᵥ β₀ + (diagonal fun i => (Real.sqrt (omega i))⁻¹) *ᵥ g))) =
      (β₀ - Q⁻¹ *ᵥ (diagonal d *ᵥ β₀)) + C *ᵥ g := by
    intro g
    have e1 : Q⁻¹ *ᵥ (P *ᵥ β₀) = β₀ - Q⁻¹ *ᵥ (diagonal d *ᵥ β₀) := by
      have : P = Q - diagonal d := by rw [hQdef]; abel
      rw [this, sub_mulVec, mulVec_sub, mulVec_mulVec, nonsing_inv_mul _ hdet, one_mulVec]
    rw [mulVec_add, mulVec_add, mulVec_add, ← e1]
    congr 1
    · rw [hPdef, ← mulVec_mulVec, ← mulVec_mulVec]
    · rw [hC, ← mulVec_mulVec, ← mulVec_mulVec, mulVec_mulVec _ (diagonal omega), diagonal_mul_diagonal]
      congr 4
      funext i
      have := Real.mul_self_sqrt (hω i).le
      have h0 : Real.sqrt (omega i) ≠ 0 := (Real.sqrt_pos.2 (hω i)).ne'
      field_simp
      linarith
  have hCC : C * Cᵀ = Q⁻¹ * P * Q⁻¹ := by
    rw [hC, transpose_mul, transpose_mul, diagonal_transpose, transpose_transpose, hsymm, hPdef]
    simp only [Matrix.mul_assoc]
    congr 2
    rw [← Matrix.mul_assoc (diagonal _) (diagonal _), diagonal_mul_diagonal]
    simp only [Real.mul_self_sqrt (hω _).le]
  -- for given data
  have hz : ∀ z, normalRegression la omega d X z {β | ε ≤ |β j - β₀ j|} ≤
      ENNReal.ofReal ((ε ^ 2)⁻¹) * ENNReal.ofReal (Q⁻¹ j j +
        ((Q⁻¹ *ᵥ (Xᵀ *ᵥ (diagonal omega *ᵥ z))) j - β₀ j) ^ 2) := by
    intro z
    rw [normalRegression_law hla hω hd]
    have h1 : mvn (Q⁻¹ *ᵥ (Xᵀ *ᵥ (diagonal omega *ᵥ z))) Q⁻¹ {β | ε ≤ |β j - β₀ j|} =
        (mvn (Q⁻¹ *ᵥ (Xᵀ *ᵥ (diagonal omega *ᵥ z))) Q⁻¹).map (fun β => β j) {x | ε ≤ |x - β₀ j|} := by
      rw [Measure.map_apply (by fun_prop) (measurableSet_le measurable_const (by fun_prop))]
      rfl
    refine h1.trans_le ?_
    refine (meas_far_le (v := Q⁻¹ j j + ((Q⁻¹ *ᵥ (Xᵀ *ᵥ (diagonal omega *ᵥ z))) j - β₀ j) ^ 2) hε ?_).trans
      (le_of_eq ?_)
    · rw [lintegral_map (by fun_prop) (by fun_prop), lintegral_far_mvn hQ.inv.posSemidef]
    · rw [← ENNReal.ofReal_mul (by positivity)]
      congr 1
      rw [div_eq_inv_mul]
  refine (lintegral_mono hz).trans ?_
  rw [lintegral_const_mul' _ _ ENNReal.ofReal_ne_top, regressionData_eq hω,
    lintegral_map (by fun_prop) (by fun_prop)]
  simp only [hm]
  have hsplit : ∀ g : Fin n → ℝ, ENNReal.ofReal (Q⁻¹ j j +
      ((β₀ - Q⁻¹ *ᵥ (diagonal d *ᵥ β₀) + C *ᵥ g) j - β₀ j) ^ 2) = ENNReal.ofReal (Q⁻¹ j j) +
      ENNReal.ofReal (((β₀ - Q⁻¹ *ᵥ (diagonal d *ᵥ β₀) + C *ᵥ g) j - β₀ j) ^ 2) := fun g =>
    ENNReal.ofReal_add hs0.le (sq_nonneg _)
  simp only [hsplit]
  rw [lintegral_add_left measurable_const, lintegral_const, measure_univ, mul_one]
  have hfar : ∫⁻ g, ENNReal.ofReal (((β₀ - Q⁻¹ *ᵥ (diagonal d *ᵥ β₀) + C *ᵥ g) j - β₀ j) ^ 2)
      ∂iidNormal (Fin n) = ENNReal.ofReal ((Q⁻¹ * P * Q⁻¹) j j + (Q⁻¹ *ᵥ (diagonal d *ᵥ β₀)) j ^ 2) := by
    have h1 := lintegral_far_mvn (m := β₀ - Q⁻¹ *ᵥ (diagonal d *ᵥ β₀)) (posSemidef_self_mul_transpose C) j (β₀ j)
    rw [← map_affine_iidNormal, lintegral_map (by fun_prop) (by fun_prop), hCC] at h1
    refine h1.trans ?_
    congr 2
    rw [Pi.sub_apply]
    ring
  rw [hfar, ← ENNReal.ofReal_add hs0.le (add_nonneg (hCC ▸ (posSemidef_self_mul_transpose C).diag_nonneg)
    (sq_nonneg _)), ← ENNReal.ofReal_mul (by positivity)]
  refine ENNReal.ofReal_le_ofReal ?_
  have hB : 0 ≤ ∑ i, d i * β₀ i ^ 2 := Finset.sum_nonneg fun i _ => mul_nonneg (hd i).le (sq_nonneg _)
  have h5 : Q⁻¹ j j + ((Q⁻¹ * P * Q⁻¹) j j + (Q⁻¹ *ᵥ (diagonal d *ᵥ β₀)) j ^ 2) ≤
      (2 + ∑ i, d i * β₀ i ^ 2) * (1 / κ) := by
    have := mul_le_mul_of_nonneg_right b1 (by positivity : 0 ≤ 2 + ∑ i, d i * β₀ i ^ 2)
    nlinarith
  calc _ ≤ (ε ^ 2)⁻¹ * ((2 + ∑ i, d i * β₀ i ^ 2) * (1 / κ)) :=
        mul_le_mul_of_nonneg_left h5 (by positivity)
    _ = _ := by field_simp

/-- Spec.  `m` measurements of each of two coefficients. -/
def repeated (m : ℕ) : Matrix (Fin (m * 2)) (Fin 2) ℝ :=
  of fun i j => if (finProdFinEquiv.symm i).2 = j then 1 else 0

/-- `m` measurements of each of two coefficients with unit precision. -/
example (m : ℕ) (hm : 0 < m) (β₀ : Fin 2 → ℝ) (ε : ℝ) (hε : 0 < ε) :
    ∫⁻ z, normalRegression stdLinAlg (fun _ => 1) (fun j => (j : ℝ) + 1) (repeated m) z
        {β | ε ≤ |β 1 - β₀ 1|} ∂regressionData (fun _ => 1) (repeated m) β₀ ≤
      ENNReal.ofReal ((2 + ∑ i : Fin 2, ((i : ℝ) + 1) * β₀ i ^ 2) / (m * ε ^ 2)) := by
  refine C98_normal_regression_settles stdLinAlg_sound (fun _ => one_pos) (fun j => by positivity) _
    (by exact_mod_cast hm) (fun u => le_of_eq ?_) β₀ 1 hε
  have e : ∀ i, (repeated m *ᵥ u) i = u (finProdFinEquiv.symm i).2 := fun i => by
    simp [repeated, mulVec, dotProduct]
  simp only [e, one_mul]
  rw [← finProdFinEquiv.sum_comp, Fintype.sum_prod_type]
  simp [mul_add]

end Verif
