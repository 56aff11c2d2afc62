import Verif.Prob.Moments
import Verif.Prob.GaussBayes
import Verif.Prob.GammaBeta
import Mathlib.RingTheory.Polynomial.Bernstein

/-!
# Helper lemmas for C98: how closely laws are concentrated

Nothing here refers to the modelled code.
-/

open MeasureTheory ProbabilityTheory Matrix
open scoped ENNReal

namespace Verif

/-- Chebyshev's inequality around any point. -/
theorem meas_far_le {μ : Measure ℝ} {c v ε : ℝ} (hε : 0 < ε)
    (h : ∫⁻ x, ENNReal.ofReal ((x - c) ^ 2) ∂μ ≤ ENNReal.ofReal v) :
    μ {x | ε ≤ |x - c|} ≤ ENNReal.ofReal (v / ε ^ 2) := by
  have h1 := mul_meas_ge_le_lintegral (μ := μ) (f := fun x => ENNReal.ofReal ((x - c) ^ 2)) (by fun_prop)
    (ENNReal.ofReal (ε ^ 2))
  have e : {x : ℝ | ENNReal.ofReal (ε ^ 2) ≤ ENNReal.ofReal ((x - c) ^ 2)} = {x | ε ≤ |x - c|} := by
    ext x
    change ENNReal.ofReal (ε ^ 2) ≤ ENNReal.ofReal ((x - c) ^ 2) ↔ ε ≤ |x - c|
    rw [ENNReal.ofReal_le_ofReal_iff (sq_nonneg _), ← sq_abs (x - c), sq_le_sq₀ hε.le (abs_nonneg _)]
  rw [e] at h1
  have hpos : 0 < ε ^ 2 := by positivity
  rw [ENNReal.ofReal_div_of_pos hpos, ENNReal.le_div_iff_mul_le (.inl (by simpa using hpos.ne'))
    (.inl ENNReal.ofReal_ne_top), mul_comm]
  exact h1.trans h

theorem integrable_pow_beta {a b : ℝ} (ha : 0 < a) (hb : 0 < b) (n : ℕ) :
    Integrable (fun x => x ^ n) (betaMeasure a b) := by
  have := isProbabilityMeasureBeta ha hb
  refine Integrable.of_bound (by fun_prop) 1 ?_
  filter_upwards [ae_mem_betaMeasure] with x hx
  rw [Real.norm_eq_abs, abs_of_nonneg (by have := hx.1; positivity)]
  exact pow_le_one₀ hx.1.le hx.2.le

/-- The second moment of a beta law. -/
theorem integral_sq_beta {a b : ℝ} (ha : 0 < a) (hb : 0 < b) :
    ∫ x, x ^ 2 ∂betaMeasure a b = a / (a + b) * ((a + 1) / (a + 1 + b)) := by
  have ha1 : 0 < a + 1 := by linarith
  have := isProbabilityMeasureBeta ha hb
  have := isProbabilityMeasureBeta ha1 hb
  have key : ∫⁻ x, ENNReal.ofReal (x ^ 2) ∂betaMeasure a b =
      ENNReal.ofReal (a / (a + b)) * ∫⁻ x, ENNReal.ofReal x ∂betaMeasure (a + 1) b := by
    have hd : ∀ a : ℝ, betaMeasure a b = volume.withDensity (betaPDF a b) := fun a => rfl
    have hm : ∀ a : ℝ, Measurable (betaPDF a b) := fun a => (measurable_betaPDFReal a b).ennreal_ofReal
    rw [hd, hd, lintegral_withDensity_eq_lintegral_mul _ (hm a) (by fun_prop),
      lintegral_withDensity_eq_lintegral_mul _ (hm (a + 1)) (by fun_prop),
      ← lintegral_const_mul' _ _ ENNReal.ofReal_ne_top]
    refine lintegral_congr fun x => ?_
    rw [Pi.mul_apply, Pi.mul_apply]
    by_cases hx : 0 < x ∧ x < 1
    · have e : betaPDFReal a b x * x ^ 2 = a / (a + b) * (betaPDFReal (a + 1) b x * x) := by
        unfold betaPDFReal
        rw [if_pos hx, if_pos hx, beta, beta, Real.Gamma_add_one ha.ne', show a + 1 + b = a + b + 1 by ring,
          Real.Gamma_add_one (by positivity), show a + 1 - 1 = a - 1 + 1 by ring, Real.rpow_add_one hx.1.ne']
        have := Real.Gamma_pos_of_pos ha
        have := Real.Gamma_pos_of_pos hb
        have := Real.Gamma_pos_of_pos (add_pos ha hb)
        field_simp
      have p1 := (betaPDFReal_pos hx.1 hx.2 ha hb).le
      have p2 := (betaPDFReal_pos hx.1 hx.2 ha1 hb).le
      rw [betaPDF, betaPDF, ← ENNReal.ofReal_mul p1, ← ENNReal.ofReal_mul p2,
        ← ENNReal.ofReal_mul (by positivity), e]
    · have e : ∀ a, betaPDF a b x = 0 := fun a => by
        rw [betaPDF, betaPDFReal, if_neg hx, ENNReal.ofReal_zero]
      rw [e, e, zero_mul, zero_mul, mul_zero]
  have h2 := integrable_pow_beta ha hb 2
  have h1 : Integrable (fun x : ℝ => x) (betaMeasure (a + 1) b) := by
    simpa using integrable_pow_beta ha1 hb 1
  rw [← ofReal_integral_eq_lintegral_ofReal h2 (ae_of_all _ fun x => sq_nonneg x),
    ← ofReal_integral_eq_lintegral_ofReal h1 (by
      filter_upwards [ae_mem_betaMeasure] with x hx
      exact hx.1.le), integral_id_beta ha1 hb, ← ENNReal.ofReal_mul (by positivity)] at key
  exact (ENNReal.ofReal_eq_ofReal_iff (integral_nonneg fun x => sq_nonneg x) (by positivity)).1 key

/-- The spread of a beta law around any point. -/
theorem lintegral_far_beta {a b : ℝ} (ha : 0 < a) (hb : 0 < b) (c : ℝ) :
    ∫⁻ x, ENNReal.ofReal ((x - c) ^ 2) ∂betaMeasure a b ≤
      ENNReal.ofReal (1 / (4 * (a + b)) + (a / (a + b) - c) ^ 2) := by
  have := isProbabilityMeasureBeta ha hb
  have h2 := integrable_pow_beta ha hb 2
  have h1 : Integrable (fun x : ℝ => x) (betaMeasure a b) := by
    simpa using integrable_pow_beta ha hb 1
  have e : (fun x : ℝ => (x - c) ^ 2) = fun x => x ^ 2 - 2 * c * x + c ^ 2 := by funext x; ring
  have hi : Integrable (fun x : ℝ => (x - c) ^ 2) (betaMeasure a b) := by
    rw [e]
    exact (h2.sub (h1.const_mul _)).add (integrable_const _)
  rw [← ofReal_integral_eq_lintegral_ofReal hi (ae_of_all _ fun x => sq_nonneg _)]
  refine ENNReal.ofReal_le_ofReal ?_
  have hi' : Integrable (fun x : ℝ => x ^ 2 - 2 * c * x) (betaMeasure a b) := h2.sub (h1.const_mul _)
  rw [e, integral_add hi' (integrable_const _), integral_sub h2 (h1.const_mul _),
    integral_const_mul, integral_sq_beta ha hb, integral_id_beta ha hb, integral_const, probReal_univ,
    one_smul]
  have hs : 0 < a + b := by linarith
  have e2 : a / (a + b) * ((a + 1) / (a + 1 + b)) = (a / (a + b)) ^ 2 +
      a * b / ((a + b) ^ 2 * (a + 1 + b)) := by
    field_simp
    ring
  have e3 : a * b / ((a + b) ^ 2 * (a + 1 + b)) ≤ 1 / (4 * (a + b)) := by
    rw [div_le_div_iff₀ (by positivity) (by positivity)]
    nlinarith [sq_nonneg (a - b), mul_pos ha hb, mul_pos (pow_pos hs 2) hs, pow_pos hs 2]
  rw [e2]
  nlinarith

/-- Draws from a beta law are close to its mean. -/
theorem beta_far_le {a b : ℝ} (ha : 0 < a) (hb : 0 < b) (c : ℝ) {ε : ℝ} (hε : 0 < ε) :
    (betaMeasure a b).real {x | ε ≤ |x - c|} ≤ (1 / (4 * (a + b)) + (a / (a + b) - c) ^ 2) / ε ^ 2 := by
  have h := meas_far_le hε (lintegral_far_beta ha hb c)
  exact ENNReal.toReal_le_of_le_ofReal (by positivity) h

/-- The spread of a normal law around any point. -/
theorem lintegral_far_gauss (m c : ℝ) (v : NNReal) :
    ∫⁻ x, ENNReal.ofReal ((x - c) ^ 2) ∂gaussianReal m v = ENNReal.ofReal (v + (m - c) ^ 2) := by
  rw [← lintegral_sq_gauss, ← gaussianReal_map_sub_const, lintegral_map (by fun_prop) (by fun_prop)]

/-- Variance of the binomial law. -/
theorem binomial_spread (n : ℕ) (θ : ℝ) :
    ∑ y ∈ Finset.range (n + 1), (n.choose y * θ ^ y * (1 - θ) ^ (n - y)) * (y - n * θ) ^ 2 =
      n * θ * (1 - θ) := by
  have h := congrArg (Polynomial.eval θ) (bernsteinPolynomial.variance ℝ n)
  simp only [Polynomial.eval_finsetSum, bernsteinPolynomial, Polynomial.eval_mul, Polynomial.eval_pow,
    Polynomial.eval_sub, Polynomial.eval_X, Polynomial.eval_one, Polynomial.eval_natCast,
    nsmul_eq_mul] at h
  rw [← h]
  exact Finset.sum_congr rfl fun y _ => by ring

theorem binomial_mean (n : ℕ) (θ : ℝ) :
    ∑ y ∈ Finset.range (n + 1), (n.choose y * θ ^ y * (1 - θ) ^ (n - y)) * (y : ℝ) = n * θ := by
  have h := congrArg (Polynomial.eval θ) (bernsteinPolynomial.sum_smul ℝ n)
  simp only [Polynomial.eval_finsetSum, bernsteinPolynomial, Polynomial.eval_mul, Polynomial.eval_pow,
    Polynomial.eval_sub, Polynomial.eval_X, Polynomial.eval_one, Polynomial.eval_natCast,
    nsmul_eq_mul] at h
  rw [← h]
  exact Finset.sum_congr rfl fun y _ => by ring

theorem binomial_total (n : ℕ) (θ : ℝ) :
    ∑ y ∈ Finset.range (n + 1), (n.choose y * θ ^ y * (1 - θ) ^ (n - y) : ℝ) = 1 := by
  have h := congrArg (Polynomial.eval θ) (bernsteinPolynomial.sum ℝ n)
  simpa only [Polynomial.eval_finsetSum, bernsteinPolynomial, Polynomial.eval_mul, Polynomial.eval_pow,
    Polynomial.eval_sub, Polynomial.eval_X, Polynomial.eval_one, Polynomial.eval_natCast] using h

/-- The posterior mean of a proportion, averaged over the data. -/
theorem binomial_mean_spread {a b θ : ℝ} (ha : 0 < a) (hb : 0 < b) (h0 : 0 ≤ θ) (h1 : θ ≤ 1) (n : ℕ) :
    ∑ y ∈ Finset.range (n + 1), (n.choose y * θ ^ y * (1 - θ) ^ (n - y)) *
        (1 / (4 * (a + b + n)) + ((a + y) / (a + b + n) - θ) ^ 2) ≤ (a + b + 1 / 2) / (a + b + n) := by
  set S : ℝ := a + b + n with hS
  have hn : (0 : ℝ) ≤ n := Nat.cast_nonneg n
  have hS0 : 0 < S := by positivity
  have e : ∀ y : ℕ, (n.choose y * θ ^ y * (1 - θ) ^ (n - y) : ℝ) *
      (1 / (4 * S) + ((a + y) / S - θ) ^ 2) =
      (n.choose y * θ ^ y * (1 - θ) ^ (n - y) : ℝ) * (y - n * θ) ^ 2 / S ^ 2 +
      ((n.choose y * θ ^ y * (1 - θ) ^ (n - y) : ℝ) * y - (n.choose y * θ ^ y * (1 - θ) ^ (n - y) : ℝ) * (n * θ)) *
        (2 * (a - (a + b) * θ) / S ^ 2) +
      (n.choose y * θ ^ y * (1 - θ) ^ (n - y) : ℝ) * (1 / (4 * S) + (a - (a + b) * θ) ^ 2 / S ^ 2) := by
    intro y
    have : (a + y) / S - θ = ((y - n * θ) + (a - (a + b) * θ)) / S := by
      rw [hS]; field_simp; ring
    rw [this]
    field_simp
    ring
  rw [Finset.sum_congr rfl fun y _ => e y, Finset.sum_add_distrib, Finset.sum_add_distrib, ← Finset.sum_div,
    ← Finset.sum_mul, ← Finset.sum_mul, Finset.sum_sub_distrib, ← Finset.sum_mul, binomial_spread,
    binomial_mean, binomial_total]
  have hab : (a - (a + b) * θ) ^ 2 ≤ (a + b) ^ 2 := by
    rw [← sq_abs]
    refine pow_le_pow_left₀ (abs_nonneg _) ?_ 2
    rw [abs_le]
    constructor <;> nlinarith
  have hq : n * θ * (1 - θ) ≤ S / 4 := by nlinarith [sq_nonneg (θ - 1 / 2)]
  have h3 : n * θ * (1 - θ) / S ^ 2 ≤ 1 / (4 * S) := by
    rw [div_le_div_iff₀ (by positivity) (by positivity)]
    nlinarith
  have h4 : (a - (a + b) * θ) ^ 2 / S ^ 2 ≤ (a + b) / S := by
    rw [div_le_div_iff₀ (by positivity) hS0]
    have : (a + b) ^ 2 * S ≤ (a + b) * S ^ 2 := by nlinarith [mul_pos (add_pos ha hb) hS0]
    nlinarith
  have e5 : (a + b + 1 / 2) / S = (a + b) / S + 2 * (1 / (4 * S)) := by field_simp; ring
  rw [e5]
  linarith

end Verif
