import Mathlib.Analysis.Analytic.Binomial
import Mathlib.Analysis.SpecialFunctions.Gamma.Basic
import Verif.Conj.Lemmas

/-!
# The negative binomial law is a probability law
-/

open MeasureTheory
open scoped ENNReal

namespace Verif

theorem gamma_add_eq {a : ℝ} (ha : 0 < a) (k : ℕ) :
    Real.Gamma (k + a) = (k.factorial : ℝ) * Ring.choose (a + k - 1) k * Real.Gamma a := by
  have h1 : (k.factorial : ℝ) * Ring.choose (a + k - 1) k = (ascPochhammer ℝ k).eval a := by
    have h2 := Ring.factorial_nsmul_multichoose_eq_ascPochhammer a k
    rw [Ring.choose, show a + k - 1 - k + 1 = a by ring, ← Polynomial.ascPochhammer_smeval_eq_eval, ← h2,
      nsmul_eq_mul]
  rw [h1]
  clear h1
  induction k with
  | zero => simp
  | succ k ih =>
    have e : ((k + 1 : ℕ) : ℝ) + a = (k + a) + 1 := by push_cast; ring
    rw [e, Real.Gamma_add_one (by positivity), ih, ascPochhammer_succ_right]
    simp only [Polynomial.eval_mul, Polynomial.eval_add, Polynomial.eval_X, Polynomial.eval_natCast]
    ring

theorem nbPMF_nonneg {a p : ℝ} (ha : 0 < a) (h0 : 0 ≤ p) (h1 : p ≤ 1) (k : ℕ) : 0 ≤ nbPMF a p k := by
  have := Real.Gamma_pos_of_pos ha
  have := Real.Gamma_pos_of_pos (show (0 : ℝ) < k + a by positivity)
  have : 0 ≤ 1 - p := by linarith
  unfold nbPMF
  positivity

theorem hasSum_nbPMF {a p : ℝ} (ha : 0 < a) (h0 : 0 < p) (h1 : p ≤ 1) : HasSum (nbPMF a p) 1 := by
  have hx : (1 - p) ∈ Metric.eball (0 : ℝ) 1 := by
    rw [Metric.mem_eball, edist_zero_right, ← ofReal_norm, Real.norm_eq_abs, abs_of_nonneg (by linarith),
      ENNReal.ofReal_lt_one]
    linarith
  have h2 := (Real.one_div_one_sub_rpow_hasFPowerSeriesOnBall_zero a).hasSum hx
  simp only [zero_add, FormalMultilinearSeries.ofScalars_apply_eq, smul_eq_mul, sub_sub_cancel] at h2
  have h3 := h2.mul_left (p ^ a)
  have hp : p ^ a ≠ 0 := (Real.rpow_pos_of_pos h0 a).ne'
  rw [mul_one_div_cancel hp] at h3
  refine h3.congr_fun fun k => ?_
  have hg := (Real.Gamma_pos_of_pos ha).ne'
  have hk : (k.factorial : ℝ) ≠ 0 := by exact_mod_cast k.factorial_ne_zero
  rw [nbPMF, gamma_add_eq ha]
  field_simp

theorem isProbabilityMeasure_nb {a p : ℝ} (ha : 0 < a) (h0 : 0 < p) (h1 : p ≤ 1) :
    IsProbabilityMeasure (nbMeasure a p) := by
  constructor
  rw [nbMeasure, Measure.sum_apply _ MeasurableSet.univ]
  simp only [Measure.smul_apply, measure_univ, smul_eq_mul, mul_one]
  rw [← ENNReal.ofReal_tsum_of_nonneg (nbPMF_nonneg ha h0.le h1) (hasSum_nbPMF ha h0 h1).summable,
    (hasSum_nbPMF ha h0 h1).tsum_eq, ENNReal.ofReal_one]

end Verif
