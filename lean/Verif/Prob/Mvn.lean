import Mathlib.Probability.Distributions.Gaussian.Multivariate
import Mathlib.MeasureTheory.Integral.Pi
import Mathlib.MeasureTheory.Measure.Lebesgue.EqHaar
import Mathlib.Analysis.Matrix.LDL

/-!
# Multivariate normal laws on `ι → ℝ`

Library lemmas: affine images of independent standard normals, densities, uniqueness of the
parameters.  Nothing here refers to the modelled code.
-/

open MeasureTheory ProbabilityTheory Matrix
open scoped ENNReal MatrixOrder

namespace Verif

variable {ι κ : Type*} [Fintype ι] [Fintype κ]

/-- Spec.  Independent standard normals indexed by `ι`. -/
noncomputable def iidNormal (ι : Type*) [Fintype ι] : Measure (ι → ℝ) :=
  Measure.pi (fun _ => gaussianReal 0 1)

instance : IsProbabilityMeasure (iidNormal ι) := by unfold iidNormal; infer_instance

/-- Spec.  The multivariate normal law with mean `m` and covariance `S`, as a measure on plain
vectors (Mathlib's `multivariateGaussian` lives on `EuclideanSpace`). -/
noncomputable def mvn [DecidableEq ι] (m : ι → ℝ) (S : Matrix ι ι ℝ) : Measure (ι → ℝ) :=
  (multivariateGaussian (WithLp.toLp 2 m) S).map WithLp.ofLp

instance [DecidableEq ι] (m : ι → ℝ) (S : Matrix ι ι ℝ) : IsProbabilityMeasure (mvn m S) :=
  Measure.isProbabilityMeasure_map (by fun_prop)

theorem posSemidef_self_mul_transpose (C : Matrix ι κ ℝ) : (C * Cᵀ).PosSemidef := by
  have := posSemidef_self_mul_conjTranspose C
  rwa [conjTranspose_eq_transpose_of_trivial] at this

/-- An affine image of independent standard normals is multivariate normal. -/
theorem map_affine_iidNormal [DecidableEq ι] (m : ι → ℝ) (C : Matrix ι κ ℝ) :
    (iidNormal κ).map (fun z => m + C *ᵥ z) = mvn m (C * Cᵀ) := by
  have hS := posSemidef_self_mul_transpose C
  have hme : Measurable fun z : κ → ℝ => m + C *ᵥ z := by fun_prop
  have key : ((iidNormal κ).map (fun z => m + C *ᵥ z)).map (WithLp.toLp 2) =
      multivariateGaussian (WithLp.toLp 2 m) (C * Cᵀ) := by
    have : IsProbabilityMeasure ((iidNormal κ).map (fun z => m + C *ᵥ z)) :=
      Measure.isProbabilityMeasure_map hme.aemeasurable
    have : IsProbabilityMeasure (((iidNormal κ).map (fun z => m + C *ᵥ z)).map (WithLp.toLp 2)) :=
      Measure.isProbabilityMeasure_map (by fun_prop)
    apply Measure.ext_of_charFun (E := EuclideanSpace ℝ ι)
    ext t
    rw [charFun_multivariateGaussian hS, Measure.map_map (by fun_prop) hme, charFun_apply,
      integral_map (by fun_prop) (by fun_prop)]
    have h1 : ∀ z : κ → ℝ, inner ℝ (WithLp.toLp 2 (m + C *ᵥ z)) t =
        inner ℝ t (WithLp.toLp 2 m) + inner ℝ (WithLp.toLp 2 z) (WithLp.toLp 2 (Cᵀ *ᵥ t.ofLp)) := by
      intro z
      rw [← WithLp.toLp_ofLp 2 t]
      simp only [EuclideanSpace.inner_toLp_toLp, star_trivial, dotProduct_add]
      congr 1
      · exact dotProduct_comm _ _
      · rw [dotProduct_mulVec, mulVec_transpose]
    have h2 := charFun_stdGaussian (E := EuclideanSpace ℝ κ) (WithLp.toLp 2 (Cᵀ *ᵥ t.ofLp))
    rw [← map_pi_eq_stdGaussian, charFun_apply, integral_map (by fun_prop) (by fun_prop)] at h2
    simp only [Function.comp_apply, h1, Complex.ofReal_add, add_mul, Complex.exp_add]
    rw [integral_const_mul]
    erw [h2]
    rw [← Complex.exp_add]
    congr 1
    rw [← Complex.ofReal_pow, EuclideanSpace.real_norm_sq_eq]
    have h3 : (∑ i, (WithLp.toLp 2 (Cᵀ *ᵥ t.ofLp)).ofLp i ^ 2 : ℝ) = t.ofLp ⬝ᵥ (C * Cᵀ) *ᵥ t.ofLp := by
      rw [← mulVec_mulVec, dotProduct_mulVec, ← mulVec_transpose]
      simp [dotProduct, sq]
    rw [h3]
    push_cast
    ring
  have : (((iidNormal κ).map (fun z => m + C *ᵥ z)).map (WithLp.toLp 2)).map WithLp.ofLp =
      mvn m (C * Cᵀ) := by rw [key, mvn]
  rw [← this, Measure.map_map (by fun_prop) (by fun_prop)]
  exact (Measure.map_id).symm

/-- Mean and covariance of a multivariate normal are determined by the law. -/
theorem mvn_inj [DecidableEq ι] {m m' : ι → ℝ} {S S' : Matrix ι ι ℝ} (hS : S.PosSemidef)
    (hS' : S'.PosSemidef) (h : mvn m S = mvn m' S') : m = m' ∧ S = S' := by
  have h' : multivariateGaussian (WithLp.toLp 2 m) S =
      multivariateGaussian (WithLp.toLp 2 m') S' := by
    have := congrArg (fun μ => Measure.map (WithLp.toLp 2) μ) h
    simp only [mvn] at this
    rw [Measure.map_map (by fun_prop) (by fun_prop),
      Measure.map_map (by fun_prop) (by fun_prop)] at this
    have e : (WithLp.toLp 2 ∘ WithLp.ofLp : EuclideanSpace ℝ ι → EuclideanSpace ℝ ι) = id := rfl
    rwa [e, Measure.map_id, Measure.map_id] at this
  constructor
  · have h1 := integral_id_multivariateGaussian (μ := WithLp.toLp 2 m) (S := S)
    rw [h', integral_id_multivariateGaussian] at h1
    exact (congrArg WithLp.ofLp h1).symm
  · ext i j
    rw [← covariance_eval_multivariateGaussian (μ := WithLp.toLp 2 m) hS, h',
      covariance_eval_multivariateGaussian hS']

/-- Densities multiply over independent coordinates. -/
theorem pi_withDensity_ofReal {α : ι → Type*} [∀ i, MeasurableSpace (α i)]
    (μ : ∀ i, Measure (α i)) [∀ i, SigmaFinite (μ i)] {f : ∀ i, α i → ℝ}
    (hf : ∀ i, Integrable (f i) (μ i)) (h0 : ∀ i x, 0 ≤ f i x)
    [∀ i, SigmaFinite ((μ i).withDensity fun x => ENNReal.ofReal (f i x))] :
    Measure.pi (fun i => (μ i).withDensity fun x => ENNReal.ofReal (f i x)) =
      (Measure.pi μ).withDensity (fun x => ENNReal.ofReal (∏ i, f i (x i))) := by
  apply Measure.pi_eq
  intro s hs
  rw [withDensity_apply _ (MeasurableSet.univ_pi hs), Measure.restrict_pi_pi,
    ← ofReal_integral_eq_lintegral_ofReal]
  · rw [integral_fintype_prod_eq_prod (f := f), ENNReal.ofReal_prod_of_nonneg]
    · refine Finset.prod_congr rfl fun i _ => ?_
      rw [withDensity_apply _ (hs i), ← ofReal_integral_eq_lintegral_ofReal]
      · exact (hf i).restrict
      · exact Filter.Eventually.of_forall (h0 i)
    · exact fun i _ => integral_nonneg (h0 i)
  · exact Integrable.fintype_prod_dep (f := f) (μ := fun i => (μ i).restrict (s i))
      fun i => (hf i).restrict
  · exact Filter.Eventually.of_forall fun x => Finset.prod_nonneg fun i _ => h0 i _

/-- The density of independent standard normals. -/
theorem iidNormal_eq_withDensity : ∃ c : ℝ, 0 < c ∧
    iidNormal ι = volume.withDensity
      (fun z => ENNReal.ofReal (c * Real.exp (-(z ⬝ᵥ z) / 2))) := by
  refine ⟨((Real.sqrt (2 * Real.pi))⁻¹) ^ Fintype.card ι, by positivity, ?_⟩
  have h1 : gaussianReal 0 1 = volume.withDensity
      (fun x => ENNReal.ofReal (gaussianPDFReal 0 1 x)) :=
    gaussianReal_of_var_ne_zero 0 one_ne_zero
  have hsf : SigmaFinite (volume.withDensity
      (fun x => ENNReal.ofReal (gaussianPDFReal 0 1 x))) := by rw [← h1]; infer_instance
  unfold iidNormal
  simp only [h1]
  rw [pi_withDensity_ofReal (ι := ι) (fun _ => (volume : Measure ℝ))
    (f := fun _ => gaussianPDFReal 0 1)
    (fun _ => integrable_gaussianPDFReal 0 1) (fun _ => gaussianPDFReal_nonneg 0 1)]
  rw [← volume_pi]
  congr 1
  ext z
  congr 1
  simp only [gaussianPDFReal, Finset.prod_mul_distrib, Finset.prod_const, ← Real.exp_sum]
  simp [dotProduct, Finset.sum_div, neg_div, sq]

/-- Every positive definite matrix has a lower triangular factor with positive diagonal. -/
theorem exists_cholesky {n : ℕ} {Q : Matrix (Fin n) (Fin n) ℝ} (hQ : Q.PosDef) :
    ∃ L : Matrix (Fin n) (Fin n) ℝ, (∀ i j, i < j → L i j = 0) ∧ (∀ i, 0 < L i i) ∧ L * Lᵀ = Q := by
  -- a triangular factor from the LDL decomposition
  have hD0 : ∀ i, 0 ≤ LDL.diagEntries hQ i := by
    have h1 : (LDL.diag hQ).PosSemidef := by
      rw [LDL.diag_eq_lowerInv_conj]
      exact hQ.posSemidef.mul_mul_conjTranspose_same _
    exact fun i => by simpa [LDL.diag] using h1.diag_nonneg (i := i)
  have hlow : ∀ i j, i < j → LDL.lower hQ i j = 0 := by
    have hb : ((LDL.lowerInv hQ)).BlockTriangular (OrderDual.toDual : Fin n → (Fin n)ᵒᵈ) := by
      intro i j hij
      exact LDL.lowerInv_triangular hQ (OrderDual.toDual_lt_toDual.1 hij)
    have := blockTriangular_inv_of_blockTriangular hb
    intro i j hij
    exact this (OrderDual.toDual_lt_toDual.2 hij)
  set L0 : Matrix (Fin n) (Fin n) ℝ :=
    LDL.lower hQ * diagonal (fun i => Real.sqrt (LDL.diagEntries hQ i)) with hL0
  have htri : ∀ i j, i < j → L0 i j = 0 := by
    intro i j hij
    simp [hL0, mul_diagonal, hlow i j hij]
  have hmul : L0 * L0ᵀ = Q := by
    conv_rhs => rw [← LDL.lower_conj_diag hQ]
    rw [hL0, transpose_mul, diagonal_transpose, ← conjTranspose_eq_transpose_of_trivial,
      Matrix.mul_assoc, ← Matrix.mul_assoc (diagonal _), diagonal_mul_diagonal, ← Matrix.mul_assoc,
      LDL.diag]
    congr 3
    ext i
    exact Real.mul_self_sqrt (hD0 i)
  have hdiag : ∀ i, L0 i i ≠ 0 := by
    have hdet : L0.det ≠ 0 := by
      intro h0
      have := hQ.det_pos
      rw [← hmul, det_mul, h0, zero_mul] at this
      exact lt_irrefl _ this
    rw [det_of_isLowerTriangular L0 (fun i j hij => htri i j (OrderDual.toDual_lt_toDual.1 hij))]
      at hdet
    exact fun i => Finset.prod_ne_zero_iff.1 hdet i (Finset.mem_univ i)
  -- make the diagonal positive
  refine ⟨L0 * diagonal (fun i => ((SignType.sign (L0 i i) : SignType) : ℝ)), ?_, ?_, ?_⟩
  · intro i j hij
    simp [mul_diagonal, htri i j hij]
  · intro i
    rw [mul_diagonal, self_mul_sign]
    exact abs_pos.2 (hdiag i)
  · rw [transpose_mul, diagonal_transpose, Matrix.mul_assoc, ← Matrix.mul_assoc (diagonal _),
      diagonal_mul_diagonal]
    have : (fun i => ((SignType.sign (L0 i i) : SignType) : ℝ) *
        ((SignType.sign (L0 i i) : SignType) : ℝ)) = fun _ => 1 := by
      ext i
      rcases lt_or_gt_of_ne (hdiag i) with h | h <;> simp [h]
    rw [this, diagonal_one, Matrix.one_mul, hmul]

/-- Density of a nondegenerate multivariate normal in terms of its precision matrix. -/
theorem mvn_eq_withDensity [DecidableEq ι] (m : ι → ℝ) {Q : Matrix ι ι ℝ} (hQ : Q.PosDef) :
    ∃ c : ℝ, 0 < c ∧ mvn m Q⁻¹ = volume.withDensity
      (fun x => ENNReal.ofReal (c * Real.exp (-((x - m) ⬝ᵥ Q *ᵥ (x - m)) / 2))) := by
  obtain ⟨C, hC⟩ : ∃ C : Matrix ι ι ℝ, C * Cᵀ = Q⁻¹ := by
    refine ⟨CFC.sqrt Q⁻¹, ?_⟩
    have h0 : (CFC.sqrt Q⁻¹).PosSemidef := by
      exact Matrix.nonneg_iff_posSemidef.1 (CFC.sqrt_nonneg _)
    rw [← conjTranspose_eq_transpose_of_trivial, h0.isHermitian.eq]
    exact CFC.sqrt_mul_sqrt_self _ (Matrix.nonneg_iff_posSemidef.2 hQ.inv.posSemidef)
  obtain ⟨c, hc, hz⟩ := iidNormal_eq_withDensity (ι := ι)
  have hQu : IsUnit Q.det := (Matrix.isUnit_iff_isUnit_det _).1 hQ.isUnit
  have hdet : C.det ≠ 0 := by
    intro h0
    have h1 := congrArg det hC
    rw [det_mul, h0, zero_mul] at h1
    exact hQ.inv.det_pos.ne h1
  have hCu : IsUnit C.det := isUnit_iff_ne_zero.2 hdet
  refine ⟨|C.det⁻¹| * c, by positivity, ?_⟩
  rw [← hC, ← map_affine_iidNormal, hz]
  ext s hs
  have hmeas : Measurable fun z : ι → ℝ => m + C *ᵥ z := by fun_prop
  rw [Measure.map_apply hmeas hs, withDensity_apply _ (hmeas hs), withDensity_apply _ hs]
  -- change of variables `x = m + C z`
  have hvol : (volume : Measure (ι → ℝ)).map (fun z => m + C *ᵥ z) =
      ENNReal.ofReal |C.det⁻¹| • volume := by
    have h1 := Real.map_matrix_volume_pi_eq_smul_volume_pi hdet
    have h2 : (fun z => m + C *ᵥ z) = (fun x => m + x) ∘ (toLin' C) := by
      ext z; simp [toLin'_apply]
    rw [h2, ← Measure.map_map (by fun_prop)
      (LinearMap.continuous_on_pi _).measurable, h1, Measure.map_smul,
      (measurePreserving_add_left volume m).map_eq]
  have h3 : ∀ z : ι → ℝ, (C *ᵥ z) ⬝ᵥ Q *ᵥ (C *ᵥ z) = z ⬝ᵥ z := by
    intro z
    have hQC : Cᵀ * (Q * C) = 1 := by
      have e1 : (C * Cᵀ) * Q = 1 := by rw [hC, nonsing_inv_mul _ hQu]
      have e2 : C * (Cᵀ * Q) = 1 := by rw [← Matrix.mul_assoc, e1]
      have e3 : (Cᵀ * Q) * C = 1 := mul_eq_one_comm.1 e2
      rw [← Matrix.mul_assoc, e3]
    rw [mulVec_mulVec, dotProduct_comm, dotProduct_mulVec, ← mulVec_transpose,  dotProduct_comm,
      mulVec_mulVec, hQC, one_mulVec]
  have h4 : ∫⁻ x in s, ENNReal.ofReal
      (|C.det⁻¹| * c * Real.exp (-((x - m) ⬝ᵥ Q *ᵥ (x - m)) / 2)) =
      ∫⁻ x in s, ENNReal.ofReal
      (c * Real.exp (-((x - m) ⬝ᵥ Q *ᵥ (x - m)) / 2))
        ∂((volume : Measure (ι → ℝ)).map (fun z => m + C *ᵥ z)) := by
    rw [hvol, Measure.restrict_smul, lintegral_smul_measure, smul_eq_mul,
      ← lintegral_const_mul _ (by fun_prop)]
    refine lintegral_congr fun x => ?_
    rw [← ENNReal.ofReal_mul (by positivity), mul_assoc]
  rw [h4, setLIntegral_map hs (by fun_prop) hmeas]
  simp only [add_sub_cancel_left, h3]

end Verif
