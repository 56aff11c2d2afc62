import Verif.Prob.Mvn
import Verif.Prob.Bayes
import Mathlib.Analysis.SpecialFunctions.Integrals.Basic

/-!
# Negative moments of normal laws

A coordinate of a multivariate normal with precision matrix `Q` has variance at least `1 / Q_jj`, and the
mean of `|x|^(-2s)` is bounded in terms of the variance alone.
-/

open MeasureTheory ProbabilityTheory Matrix
open scoped ENNReal

namespace Verif

/-- `|x|^(-2s)`, and zero at zero. -/
noncomputable def negPow (s x : ℝ) : ℝ≥0∞ := ENNReal.ofReal ((x ^ 2)⁻¹ ^ s)

theorem measurable_negPow (s : ℝ) : Measurable (negPow s) := by
  unfold negPow
  fun_prop

theorem negPow_mul (s a x : ℝ) : negPow s (a * x) = negPow s a * negPow s x := by
  rw [negPow, negPow, negPow, ← ENNReal.ofReal_mul (by positivity),
    ← Real.mul_rpow (by positivity) (by positivity)]
  congr 2
  rw [mul_pow, mul_inv]

theorem negPow_neg (s x : ℝ) : negPow s (-x) = negPow s x := by
  rw [negPow, negPow, neg_sq]

theorem negPow_eq {s t : ℝ} (ht : 0 < t) : (t ^ 2)⁻¹ ^ s = t ^ (-(2 * s)) := by
  rw [Real.inv_rpow (by positivity), ← Real.rpow_natCast, ← Real.rpow_mul ht.le, Real.rpow_neg ht.le]
  norm_num

/-- The integral over the unit interval. -/
theorem lintegral_negPow {s : ℝ} (h1 : s < 1 / 2) :
    ∫⁻ t in Set.Ioc 0 1, negPow s t = ENNReal.ofReal (1 - 2 * s)⁻¹ := by
  have hi : IntegrableOn (fun t : ℝ => t ^ (-(2 * s))) (Set.Ioc 0 1) :=
    (intervalIntegrable_iff_integrableOn_Ioc_of_le zero_le_one).1
      (intervalIntegral.intervalIntegrable_rpow' (by linarith))
  have e : ∫⁻ t in Set.Ioc (0 : ℝ) 1, negPow s t =
      ∫⁻ t in Set.Ioc (0 : ℝ) 1, ENNReal.ofReal (t ^ (-(2 * s))) :=
    setLIntegral_congr_fun measurableSet_Ioc fun t ht => by
      simp only [negPow]
      rw [negPow_eq ht.1]
  rw [e, ← ofReal_integral_eq_lintegral_ofReal hi, ← intervalIntegral.integral_of_le zero_le_one,
    integral_rpow (Or.inl (by linarith)), Real.one_rpow, Real.zero_rpow (by linarith), sub_zero, one_div]
  · congr 2
    ring
  · filter_upwards [ae_restrict_mem measurableSet_Ioc] with t ht using Real.rpow_nonneg ht.1.le _

theorem lintegral_negPow_Ico {s : ℝ} (h1 : s < 1 / 2) :
    ∫⁻ t in Set.Ico (-1) 0, negPow s t = ENNReal.ofReal (1 - 2 * s)⁻¹ := by
  rw [← lintegral_negPow h1]
  have h := (Measure.measurePreserving_neg (volume : Measure ℝ)).setLIntegral_comp_preimage
    (s := Set.Ioc 0 1) measurableSet_Ioc (measurable_negPow s)
  rw [← h]
  simp only [negPow_neg]
  congr 2
  ext x
  simp only [Set.mem_Ico, Set.mem_preimage, Set.mem_Ioc]
  constructor <;> intro h <;> constructor <;> linarith [h.1, h.2]

theorem gaussianPDFReal_one_le (m x : ℝ) : gaussianPDFReal m 1 x ≤ 1 := by
  have h1 : (√(2 * Real.pi * (1 : NNReal)))⁻¹ ≤ 1 := by
    refine inv_le_one_of_one_le₀ ?_
    rw [Real.one_le_sqrt]
    have := Real.two_le_pi
    simp only [NNReal.coe_one]
    linarith
  have h2 : Real.exp (-(x - m) ^ 2 / (2 * (1 : NNReal))) ≤ 1 := by
    rw [Real.exp_le_one_iff]
    have := sq_nonneg (x - m)
    simp only [NNReal.coe_one]
    linarith
  exact mul_le_one₀ h1 (Real.exp_pos _).le h2

/-- Negative moments with variance one. -/
theorem lintegral_negPow_gauss_one {s : ℝ} (h0 : 0 < s) (h1 : s < 1 / 2) (m : ℝ) :
    ∫⁻ x, negPow s x ∂gaussianReal m 1 ≤ ENNReal.ofReal (3 * (1 - 2 * s)⁻¹) := by
  have hle : ∀ x, negPow s x ≤ 1 + ((Set.Ioc 0 1).indicator (negPow s) x +
      (Set.Ico (-1) 0).indicator (negPow s) x) := by
    intro x
    by_cases hp : x ∈ Set.Ioc (0 : ℝ) 1
    · rw [Set.indicator_of_mem hp]
      exact le_add_left le_self_add
    by_cases hn : x ∈ Set.Ico (-1 : ℝ) 0
    · rw [Set.indicator_of_mem hn]
      exact le_add_left (le_add_left le_rfl)
    refine le_add_right ?_
    rw [negPow, ENNReal.ofReal_le_one]
    rcases eq_or_ne x 0 with rfl | hx
    · simp [Real.zero_rpow h0.ne']
    · refine Real.rpow_le_one (by positivity) (inv_le_one_of_one_le₀ ?_) h0.le
      rw [Set.mem_Ioc, not_and, not_le] at hp
      rw [Set.mem_Ico, not_and', not_le] at hn
      rcases lt_or_gt_of_ne hx with h | h
      · nlinarith [hn h]
      · nlinarith [hp h]
  have hd : gaussianReal m 1 ≤ volume := by
    rw [gaussianReal_of_var_ne_zero _ one_ne_zero]
    refine (withDensity_mono (g := 1) (ae_of_all _ fun x => ?_)).trans withDensity_one.le
    rw [gaussianPDF, Pi.one_apply, ENNReal.ofReal_le_one]
    exact gaussianPDFReal_one_le m x
  have hi : ∀ S : Set ℝ, MeasurableSet S → ∫⁻ x, S.indicator (negPow s) x ∂gaussianReal m 1 ≤
      ∫⁻ x in S, negPow s x := fun S hS => by
    rw [lintegral_indicator hS]
    exact lintegral_mono' (Measure.restrict_mono le_rfl hd) le_rfl
  calc ∫⁻ x, negPow s x ∂gaussianReal m 1
      ≤ ∫⁻ x, (1 + ((Set.Ioc 0 1).indicator (negPow s) x + (Set.Ico (-1) 0).indicator (negPow s) x))
        ∂gaussianReal m 1 := lintegral_mono hle
    _ = 1 + (∫⁻ x, (Set.Ioc 0 1).indicator (negPow s) x ∂gaussianReal m 1 +
        ∫⁻ x, (Set.Ico (-1) 0).indicator (negPow s) x ∂gaussianReal m 1) := by
        rw [lintegral_add_left measurable_const,
          lintegral_add_left ((measurable_negPow s).indicator measurableSet_Ioc)]
        simp
    _ ≤ 1 + (ENNReal.ofReal (1 - 2 * s)⁻¹ + ENNReal.ofReal (1 - 2 * s)⁻¹) := by
        refine add_le_add le_rfl (add_le_add ?_ ?_)
        · exact (hi _ measurableSet_Ioc).trans (lintegral_negPow h1).le
        · exact (hi _ measurableSet_Ico).trans (lintegral_negPow_Ico h1).le
    _ ≤ ENNReal.ofReal (3 * (1 - 2 * s)⁻¹) := by
        have h2 : (1 : ℝ) ≤ (1 - 2 * s)⁻¹ := (one_le_inv₀ (by linarith)).2 (by linarith)
        have h3 : 0 ≤ (1 - 2 * s)⁻¹ := by linarith
        rw [← ENNReal.ofReal_one, ← ENNReal.ofReal_add h3 h3, ← ENNReal.ofReal_add zero_le_one (by linarith)]
        exact ENNReal.ofReal_le_ofReal (by linarith)

/-- Negative moments of a normal law, whatever its mean. -/
theorem lintegral_negPow_gauss {s : ℝ} (h0 : 0 < s) (h1 : s < 1 / 2) (m : ℝ) {v : ℝ} (hv : 0 < v) :
    ∫⁻ x, negPow s x ∂gaussianReal m v.toNNReal ≤ ENNReal.ofReal (3 * (1 - 2 * s)⁻¹ * v⁻¹ ^ s) := by
  have e : gaussianReal m v.toNNReal = (gaussianReal (m / √v) 1).map (√v * ·) := by
    have hs := Real.sqrt_pos.2 hv
    rw [gaussianReal_map_const_mul, mul_div_cancel₀ _ hs.ne', mul_one]
    congr 1
    ext
    simp [hv.le, Real.sq_sqrt hv.le]
  rw [e, lintegral_map (measurable_negPow s) (by fun_prop)]
  simp only [negPow_mul]
  have hn : negPow s √v = ENNReal.ofReal (v⁻¹ ^ s) := by rw [negPow, Real.sq_sqrt hv.le]
  have h2 : 0 ≤ (1 - 2 * s)⁻¹ := inv_nonneg.2 (by linarith)
  rw [hn, lintegral_const_mul _ (measurable_negPow s), mul_comm, ENNReal.ofReal_mul (by positivity)]
  exact mul_le_mul' (lintegral_negPow_gauss_one h0 h1 _) le_rfl

/-- A diagonal entry of the inverse is at least the inverse of the diagonal entry. -/
theorem inv_diag_ge {p : ℕ} {Q : Matrix (Fin p) (Fin p) ℝ} (hQ : Q.PosDef) (j : Fin p) :
    0 < Q⁻¹ j j ∧ (Q⁻¹ j j)⁻¹ ≤ Q j j := by
  obtain ⟨L, _, _, hL⟩ := exists_cholesky hQ
  have hdet : L.det ≠ 0 := by
    intro h0
    have := hQ.det_pos
    rw [← hL, det_mul, h0, zero_mul] at this
    exact lt_irrefl _ this
  have hu : IsUnit L.det := isUnit_iff_ne_zero.2 hdet
  have hinv : Q⁻¹ = (L⁻¹)ᵀ * L⁻¹ := by
    rw [← hL, Matrix.mul_inv_rev, transpose_nonsing_inv]
  have e1 : Q j j = ∑ k, L j k ^ 2 := by
    rw [← hL, mul_apply]
    exact Finset.sum_congr rfl fun k _ => by rw [transpose_apply, sq]
  have e2 : Q⁻¹ j j = ∑ k, L⁻¹ k j ^ 2 := by
    rw [hinv, mul_apply]
    exact Finset.sum_congr rfl fun k _ => by rw [transpose_apply, sq]
  have e3 : ∑ k, L j k * L⁻¹ k j = 1 := by
    rw [← mul_apply, mul_nonsing_inv _ hu, one_apply_eq]
  have hcs := Finset.sum_mul_sq_le_sq_mul_sq Finset.univ (fun k => L j k) fun k => L⁻¹ k j
  rw [e3, one_pow, ← e1, ← e2] at hcs
  have hpos : 0 < Q⁻¹ j j := hQ.inv.diag_pos
  refine ⟨hpos, ?_⟩
  rw [inv_le_iff_one_le_mul₀ hpos]
  exact hcs

/-- Negative moments of a coordinate, in terms of the precision matrix. -/
theorem lintegral_negPow_mvn {s : ℝ} (h0 : 0 < s) (h1 : s < 1 / 2) {p : ℕ} (m : Fin p → ℝ)
    {Q : Matrix (Fin p) (Fin p) ℝ} (hQ : Q.PosDef) (j : Fin p) :
    ∫⁻ x, negPow s (x j) ∂mvn m Q⁻¹ ≤ ENNReal.ofReal (3 * (1 - 2 * s)⁻¹ * Q j j ^ s) := by
  obtain ⟨hp, hle⟩ := inv_diag_ge hQ j
  have hmp := measurePreserving_eval_multivariateGaussian (μ := WithLp.toLp 2 m) hQ.inv.posSemidef (i := j)
  have hm : Measurable fun x : Fin p → ℝ => negPow s (x j) :=
    (measurable_negPow s).comp (measurable_pi_apply j)
  have e : ∫⁻ x, negPow s (x j) ∂mvn m Q⁻¹ = ∫⁻ x, negPow s x ∂gaussianReal (m j) (Q⁻¹ j j).toNNReal := by
    rw [mvn, lintegral_map hm (by fun_prop)]
    exact hmp.lintegral_comp (measurable_negPow s)
  rw [e]
  refine (lintegral_negPow_gauss h0 h1 _ hp).trans (ENNReal.ofReal_le_ofReal ?_)
  have h2 : 0 ≤ (1 - 2 * s)⁻¹ := inv_nonneg.2 (by linarith)
  have := Real.rpow_le_rpow (inv_nonneg.2 hp.le) hle h0.le
  gcongr

end Verif
