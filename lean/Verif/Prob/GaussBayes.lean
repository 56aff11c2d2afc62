import Verif.Prob.Mvn
import Verif.Prob.Bayes

/-!
# Posterior of a multivariate normal prior under a log-quadratic likelihood
-/

open MeasureTheory ProbabilityTheory Matrix
open scoped ENNReal MatrixOrder

namespace Verif

variable {ι : Type*} [Fintype ι] [DecidableEq ι]

/-- Independent normals are a multivariate normal. -/
theorem pi_gaussianReal_eq_mvn (m s : ι → ℝ) :
    Measure.pi (fun i => gaussianReal (m i) ((s i) ^ 2).toNNReal) =
      mvn m (diagonal fun i => s i ^ 2) := by
  have h1 : ∀ i, gaussianReal (m i) ((s i) ^ 2).toNNReal =
      (gaussianReal 0 1).map (fun x => m i + s i * x) := by
    intro i
    have : (fun x => m i + s i * x) = (fun x => m i + x) ∘ (fun x => s i * x) := rfl
    rw [this, ← Measure.map_map (by fun_prop) (by fun_prop), gaussianReal_map_const_mul,
      gaussianReal_map_const_add]
    congr 1
    · ring
    · ext
      rw [Real.coe_toNNReal _ (sq_nonneg _)]
      simp
  simp only [h1]
  rw [← Measure.pi_map_pi (fun i => by fun_prop)]
  have h2 : (fun (x : ι → ℝ) i => m i + s i * x i) = fun z => m + diagonal s *ᵥ z := by
    ext z i; simp [mulVec_diagonal]
  rw [h2, show Measure.pi (fun _ : ι => gaussianReal 0 1) = iidNormal ι from rfl,
    map_affine_iidNormal, diagonal_transpose, diagonal_mul_diagonal]
  simp [sq]

omit [DecidableEq ι] in
theorem dotProduct_mulVec_comm_of_symm {Q : Matrix ι ι ℝ} (hQ : Qᵀ = Q) (x y : ι → ℝ) :
    x ⬝ᵥ Q *ᵥ y = y ⬝ᵥ Q *ᵥ x := by
  rw [dotProduct_mulVec, ← mulVec_transpose, hQ, dotProduct_comm]

omit [DecidableEq ι] in
theorem quad_sub {Q : Matrix ι ι ℝ} (hQ : Qᵀ = Q) (x m : ι → ℝ) :
    (x - m) ⬝ᵥ Q *ᵥ (x - m) = x ⬝ᵥ Q *ᵥ x - 2 * (x ⬝ᵥ Q *ᵥ m) + m ⬝ᵥ Q *ᵥ m := by
  rw [mulVec_sub, sub_dotProduct, dotProduct_sub, dotProduct_sub,
    dotProduct_mulVec_comm_of_symm hQ m x]
  ring

omit [Fintype ι] [DecidableEq ι] in
theorem PosDef.transpose_eq {Q : Matrix ι ι ℝ} (hQ : Q.PosDef) : Qᵀ = Q := by
  have := hQ.isHermitian.eq
  rwa [conjTranspose_eq_transpose_of_trivial] at this

omit [Fintype ι] [DecidableEq ι] in
theorem PosSemidef.transpose_eq {Q : Matrix ι ι ℝ} (hQ : Q.PosSemidef) : Qᵀ = Q := by
  have := hQ.isHermitian.eq
  rwa [conjTranspose_eq_transpose_of_trivial] at this

/-- A normal prior with precision `Q` and a likelihood `k * exp (q·x - x'Px/2)` give a normal
posterior with precision `Q + P`. -/
theorem bayes_mvn (m : ι → ℝ) {Q P : Matrix ι ι ℝ} (hQ : Q.PosDef) (hP : P.PosSemidef)
    (q : ι → ℝ) {k : ℝ} (hk : 0 < k) {lik : (ι → ℝ) → ℝ≥0∞} (hm : Measurable lik)
    (hl : ∀ x, lik x = ENNReal.ofReal (k * Real.exp (q ⬝ᵥ x - (x ⬝ᵥ P *ᵥ x) / 2))) :
    BayesDefined (mvn m Q⁻¹) lik ∧
      bayes (mvn m Q⁻¹) lik = mvn ((Q + P)⁻¹ *ᵥ (Q *ᵥ m + q)) (Q + P)⁻¹ := by
  have hA : (Q + P).PosDef := hQ.add_posSemidef hP
  set A := Q + P with hAdef
  set μ := A⁻¹ *ᵥ (Q *ᵥ m + q) with hμ
  obtain ⟨c, hc, h1⟩ := mvn_eq_withDensity m hQ
  obtain ⟨d, hd, h2⟩ := mvn_eq_withDensity μ hA
  have hAμ : A *ᵥ μ = Q *ᵥ m + q := by
    rw [hμ, mulVec_mulVec, mul_nonsing_inv _ (isUnit_iff_ne_zero.2 hA.det_pos.ne'), one_mulVec]
  have hg1 : ∫⁻ x, ENNReal.ofReal (d * Real.exp (-((x - μ) ⬝ᵥ A *ᵥ (x - μ)) / 2)) = 1 := by
    have := measure_univ (μ := mvn μ A⁻¹)
    rwa [h2, withDensity_apply _ MeasurableSet.univ, Measure.restrict_univ] at this
  rw [h1, h2]
  set K : ℝ := c * k / d * Real.exp ((μ ⬝ᵥ A *ᵥ μ) / 2 - (m ⬝ᵥ Q *ᵥ m) / 2) with hK
  have hKpos : 0 < K := by positivity
  refine bayes_withDensity (c := ENNReal.ofReal K) (by fun_prop) hm (by fun_prop) hg1
    (by simpa using hKpos) ENNReal.ofReal_ne_top (Filter.Eventually.of_forall fun x => ?_)
  rw [hl, ← ENNReal.ofReal_mul (by positivity), ← ENNReal.ofReal_mul hKpos.le]
  congr 1
  have hexp : Real.exp (-((x - m) ⬝ᵥ Q *ᵥ (x - m)) / 2) * Real.exp (q ⬝ᵥ x - (x ⬝ᵥ P *ᵥ x) / 2) =
      Real.exp ((μ ⬝ᵥ A *ᵥ μ) / 2 - (m ⬝ᵥ Q *ᵥ m) / 2) *
        Real.exp (-((x - μ) ⬝ᵥ A *ᵥ (x - μ)) / 2) := by
    rw [← Real.exp_add, ← Real.exp_add]
    congr 1
    rw [quad_sub (PosDef.transpose_eq hQ), quad_sub (PosDef.transpose_eq hA), hAμ, dotProduct_add x,
      hAdef, add_mulVec, dotProduct_add x (Q *ᵥ x), dotProduct_comm q x]
    ring
  calc _ = c * k * (Real.exp (-((x - m) ⬝ᵥ Q *ᵥ (x - m)) / 2) *
        Real.exp (q ⬝ᵥ x - (x ⬝ᵥ P *ᵥ x) / 2)) := by ring
    _ = _ := by rw [hexp, hK]; field_simp

end Verif
