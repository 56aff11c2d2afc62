import Verif.Prob.GammaBeta
import Mathlib.Probability.Independence.InfinitePi
import Mathlib.Probability.Independence.Integration
import Mathlib.Analysis.SpecialFunctions.Trigonometric.EulerSineProd
import Mathlib.Analysis.SpecialFunctions.Trigonometric.DerivHyp
import Mathlib.Analysis.PSeries
import Mathlib.Analysis.Real.Pi.Bounds
import Mathlib.MeasureTheory.Constructions.Polish.Basic

/-!
# The Pólya-Gamma law

Specification of the distribution drawn by the `polyagamma` package (Polson, Scott, Windle 2013):
`PG(b, 0)` is the law of `∑ g_k / (2 π² (k + 1/2)²)`, `k = 0, 1, ...`, with independent
`g_k ~ Gamma(b, 1)`, and `PG(b, c)` is `PG(b, 0)` reweighted by `exp (-c² w / 2)`.

Proved here: the Laplace transform `E exp(-c² w / 2) = cosh(c/2)^(-b)`.
-/

open MeasureTheory ProbabilityTheory Filter
open scoped ENNReal Topology

namespace Verif

/-- Spec.  Weight of the `k`-th gamma variable. -/
noncomputable def pgCoef (k : ℕ) : ℝ := 1 / (2 * Real.pi ^ 2 * ((k : ℝ) + 1 / 2) ^ 2)

/-- Spec.  The law `PG(b, 0)`. -/
noncomputable def pg0 (b : ℝ) : Measure ℝ :=
  (Measure.infinitePi fun _ : ℕ => gammaMeasure b 1).map (fun x => ∑' k, pgCoef k * x k)

/-- Spec.  The law `PG(b, c)`: exponential tilting of `PG(b, 0)`. -/
noncomputable def pg (b c : ℝ) : Measure ℝ :=
  bayes (pg0 b) fun w => ENNReal.ofReal (Real.exp (-(c ^ 2 / 2 * w)))

theorem pgCoef_pos (k : ℕ) : 0 < pgCoef k := by
  unfold pgCoef
  have := Real.pi_pos
  positivity

theorem summable_pgCoef : Summable pgCoef := by
  have h : Summable fun k : ℕ => 1 / ((k : ℝ) + 1) ^ 2 := by
    have := (summable_nat_add_iff 1).2 (Real.summable_one_div_nat_pow.2 one_lt_two)
    simpa using this
  refine Summable.of_nonneg_of_le (fun k => (pgCoef_pos k).le) (fun k => ?_) (h.mul_left 1)
  unfold pgCoef
  rw [one_mul]
  have hk : (0 : ℝ) ≤ k := Nat.cast_nonneg k
  have hpi : (9 : ℝ) < Real.pi ^ 2 := by nlinarith [Real.pi_gt_three]
  apply one_div_le_one_div_of_le (by positivity)
  nlinarith [sq_nonneg ((k : ℝ) + 1 / 2), sq_nonneg (k : ℝ)]

theorem measurable_pgSum : Measurable fun x : ℕ → ℝ => ∑' k, pgCoef k * x k := by
  have h : ∀ k, Measurable fun x : ℕ → ℝ => pgCoef k * x k := fun k => by fun_prop
  exact Measurable.tsum h

/-- Euler's product for the hyperbolic sine. -/
theorem tendsto_euler_sinh_prod (x : ℝ) :
    Tendsto (fun n : ℕ => Real.pi * x * ∏ j ∈ Finset.range n, ((1 : ℝ) + x ^ 2 / ((j : ℝ) + 1) ^ 2))
      atTop (𝓝 (Real.sinh (Real.pi * x))) := by
  have h := Complex.tendsto_euler_sin_prod ((x : ℂ) * Complex.I)
  have h2 := h.mul_const (-Complex.I)
  have e1 : Complex.sin (Real.pi * (x * Complex.I)) * -Complex.I = (Real.sinh (Real.pi * x) : ℂ) := by
    rw [← mul_assoc, Complex.sin_mul_I, mul_assoc]
    simp
  rw [e1] at h2
  have h3 := (Complex.continuous_re.tendsto _).comp h2
  rw [Complex.ofReal_re] at h3
  refine h3.congr fun n => ?_
  have e2 : (Real.pi * (x * Complex.I) * ∏ j ∈ Finset.range n,
      ((1 : ℂ) - (x * Complex.I) ^ 2 / ((j : ℂ) + 1) ^ 2)) * -Complex.I =
      ((Real.pi * x * ∏ j ∈ Finset.range n, ((1 : ℝ) + x ^ 2 / ((j : ℝ) + 1) ^ 2) : ℝ) : ℂ) := by
    push_cast
    have : ∀ j : ℕ, (1 : ℂ) - (x * Complex.I) ^ 2 / ((j : ℂ) + 1) ^ 2 =
        1 + x ^ 2 / ((j : ℂ) + 1) ^ 2 := by
      intro j
      rw [mul_pow, Complex.I_sq]
      ring
    simp only [this]
    linear_combination (-(Real.pi : ℂ) * x * ∏ j ∈ Finset.range n,
      (1 + (x : ℂ) ^ 2 / ((j : ℂ) + 1) ^ 2)) * Complex.I_sq
  simp only [Function.comp_apply]
  rw [e2, Complex.ofReal_re]

theorem prod_range_two_mul (f : ℕ → ℝ) (n : ℕ) :
    ∏ j ∈ Finset.range (2 * n), f j =
      (∏ j ∈ Finset.range n, f (2 * j)) * ∏ j ∈ Finset.range n, f (2 * j + 1) := by
  induction n with
  | zero => simp
  | succ n ih =>
    rw [show 2 * (n + 1) = 2 * n + 1 + 1 by ring, Finset.prod_range_succ, Finset.prod_range_succ, ih,
      Finset.prod_range_succ, Finset.prod_range_succ]
    ring

/-- Euler's product for the hyperbolic cosine. -/
theorem tendsto_euler_cosh_prod (x : ℝ) :
    Tendsto (fun n : ℕ => ∏ j ∈ Finset.range n, ((1 : ℝ) + x ^ 2 / ((j : ℝ) + 1 / 2) ^ 2))
      atTop (𝓝 (Real.cosh (Real.pi * x))) := by
  rcases eq_or_ne x 0 with rfl | hx
  · simp
  have hs : Real.sinh (Real.pi * x) ≠ 0 := by
    rw [Ne, Real.sinh_eq_zero]
    exact mul_ne_zero Real.pi_ne_zero hx
  have h1 := tendsto_euler_sinh_prod x
  have h2 := (tendsto_euler_sinh_prod (2 * x)).comp
    (tendsto_id.const_mul_atTop' (zero_lt_two (α := ℕ)))
  have h3 := h2.div (h1.const_mul 2) (mul_ne_zero two_ne_zero hs)
  have e : Real.sinh (Real.pi * (2 * x)) / (2 * Real.sinh (Real.pi * x)) =
      Real.cosh (Real.pi * x) := by
    rw [show Real.pi * (2 * x) = 2 * (Real.pi * x) by ring, Real.sinh_two_mul]
    field_simp
  rw [e] at h3
  refine h3.congr fun n => ?_
  simp only [Function.comp_apply, id, Pi.div_apply]
  rw [prod_range_two_mul]
  have e1 : ∀ j : ℕ, (1 : ℝ) + (2 * x) ^ 2 / (((2 * j + 1 : ℕ) : ℝ) + 1) ^ 2 =
      1 + x ^ 2 / ((j : ℝ) + 1) ^ 2 := by
    intro j
    have : (j : ℝ) + 1 ≠ 0 := by positivity
    push_cast
    rw [show 2 * (j : ℝ) + 1 + 1 = 2 * (j + 1) by ring, mul_pow, mul_pow]
    field_simp
  have e2 : ∀ j : ℕ, (1 : ℝ) + (2 * x) ^ 2 / (((2 * j : ℕ) : ℝ) + 1) ^ 2 =
      1 + x ^ 2 / ((j : ℝ) + 1 / 2) ^ 2 := by
    intro j
    have : (j : ℝ) + 1 / 2 ≠ 0 := by positivity
    push_cast
    rw [show 2 * (j : ℝ) + 1 = 2 * (j + 1 / 2) by ring, mul_pow, mul_pow]
    field_simp
  simp only [e1, e2]
  have hne : ∏ j ∈ Finset.range n, ((1 : ℝ) + x ^ 2 / ((j : ℝ) + 1) ^ 2) ≠ 0 :=
    Finset.prod_ne_zero_iff.2 fun j _ => by positivity
  have := Real.pi_ne_zero
  field_simp

/-- Laplace transform of the gamma law. -/
theorem lintegral_exp_gamma {b s : ℝ} (hb : 0 < b) (hs : 0 ≤ s) :
    ∫⁻ x, ENNReal.ofReal (Real.exp (-(s * x))) ∂gammaMeasure b 1 =
      ENNReal.ofReal ((1 + s) ^ (-b)) := by
  have hG := Real.Gamma_pos_of_pos hb
  have h1 : (0 : ℝ) < 1 + s := by linarith
  rw [gammaMeasure, lintegral_withDensity_eq_lintegral_mul _ (measurable_gammaPDF b 1) (by fun_prop)]
  have : ∀ x, (gammaPDF b 1 * fun x => ENNReal.ofReal (Real.exp (-(s * x)))) x =
      ENNReal.ofReal ((1 + s) ^ (-b)) * gammaPDF b (1 + s) x := by
    intro x
    rcases lt_or_ge x 0 with hx | hx
    · simp [gammaPDF_of_neg hx]
    · rw [Pi.mul_apply, gammaPDF_of_nonneg hx, gammaPDF_of_nonneg hx, ← ENNReal.ofReal_mul,
        ← ENNReal.ofReal_mul (by positivity)]
      · congr 1
        rw [Real.rpow_neg h1.le, Real.one_rpow, add_mul, neg_add, Real.exp_add, neg_mul_eq_neg_mul]
        have : (1 + s) ^ b ≠ 0 := (Real.rpow_pos_of_pos h1 b).ne'
        field_simp
      · positivity
  simp only [this]
  rw [lintegral_const_mul _ (measurable_gammaPDF _ _), lintegral_gammaPDF_eq_one hb h1, mul_one]

variable {b : ℝ}

/-- Independent `Gamma(b, 1)` variables. -/
noncomputable def gammaSeq (b : ℝ) : Measure (ℕ → ℝ) :=
  Measure.infinitePi fun _ : ℕ => gammaMeasure b 1

theorem isProbabilityMeasure_gammaSeq (hb : 0 < b) : IsProbabilityMeasure (gammaSeq b) := by
  have := isProbabilityMeasure_gammaMeasure hb one_pos
  unfold gammaSeq
  infer_instance

theorem gammaSeq_map_eval (hb : 0 < b) (k : ℕ) :
    (gammaSeq b).map (fun x => x k) = gammaMeasure b 1 := by
  have := isProbabilityMeasure_gammaMeasure hb one_pos
  exact Measure.infinitePi_map_eval (fun _ : ℕ => gammaMeasure b 1) k

theorem lintegral_gammaSeq_eval (hb : 0 < b) (k : ℕ) {f : ℝ → ℝ≥0∞} (hf : Measurable f) :
    ∫⁻ x, f (x k) ∂gammaSeq b = ∫⁻ y, f y ∂gammaMeasure b 1 := by
  rw [← gammaSeq_map_eval hb k, lintegral_map hf (measurable_pi_apply k)]

theorem ae_gammaSeq (hb : 0 < b) :
    ∀ᵐ x ∂gammaSeq b, (∀ k, 0 < x k) ∧ Summable fun k => pgCoef k * x k := by
  have hpos : ∀ᵐ x ∂gammaSeq b, ∀ k, 0 < x k := by
    rw [ae_all_iff]
    intro k
    have := ae_pos_gammaMeasure (a := b) (r := 1)
    rw [← gammaSeq_map_eval hb k] at this
    exact ae_of_ae_map (measurable_pi_apply k).aemeasurable this
  have hmeas : ∀ k, Measurable fun x : ℕ → ℝ => ENNReal.ofReal (pgCoef k * x k) := fun k =>
    ((measurable_pi_apply k).const_mul _).ennreal_ofReal
  have hsum : ∀ᵐ x ∂gammaSeq b, ∑' k, ENNReal.ofReal (pgCoef k * x k) < ∞ := by
    refine ae_lt_top (Measurable.tsum hmeas) ?_
    rw [lintegral_tsum fun k => (hmeas k).aemeasurable]
    have hM := (bayes_gamma (s := 1) (t := 0) (k := 1) hb one_pos (by linarith) (by norm_num)
      one_pos (lik := fun x => ENNReal.ofReal x) (by fun_prop) (fun x _ => by simp)).1.2
    have : ∀ k, ∫⁻ x, ENNReal.ofReal (pgCoef k * x k) ∂gammaSeq b =
        ENNReal.ofReal (pgCoef k) * ∫⁻ x, ENNReal.ofReal x ∂gammaMeasure b 1 := by
      intro k
      rw [lintegral_gammaSeq_eval hb k (f := fun y => ENNReal.ofReal (pgCoef k * y)) (by fun_prop),
        ← lintegral_const_mul _ (by fun_prop)]
      exact lintegral_congr fun x => ENNReal.ofReal_mul (pgCoef_pos k).le
    simp only [this]
    rw [ENNReal.tsum_mul_right]
    refine ENNReal.mul_ne_top ?_ hM
    rw [← ENNReal.ofReal_tsum_of_nonneg (fun k => (pgCoef_pos k).le) summable_pgCoef]
    exact ENNReal.ofReal_ne_top
  filter_upwards [hpos, hsum] with x h1 h2
  refine ⟨h1, ?_⟩
  have h3 := ENNReal.summable_toReal h2.ne
  refine h3.congr fun k => ?_
  rw [ENNReal.toReal_ofReal (mul_nonneg (pgCoef_pos k).le (h1 k).le)]

theorem isProbabilityMeasure_pg0 (hb : 0 < b) : IsProbabilityMeasure (pg0 b) := by
  have : IsProbabilityMeasure (Measure.infinitePi fun _ : ℕ => gammaMeasure b 1) :=
    isProbabilityMeasure_gammaSeq hb
  exact Measure.isProbabilityMeasure_map measurable_pgSum.aemeasurable

/-- Pólya-Gamma variables are positive. -/
theorem ae_pos_pg0 (hb : 0 < b) : ∀ᵐ w ∂pg0 b, 0 < w := by
  rw [pg0, ae_map_iff measurable_pgSum.aemeasurable measurableSet_Ioi]
  filter_upwards [ae_gammaSeq hb] with x hx
  exact hx.2.tsum_pos (fun k => mul_nonneg (pgCoef_pos k).le (hx.1 k).le) 0
    (mul_pos (pgCoef_pos 0) (hx.1 0))

theorem lintegral_exp_partial (hb : 0 < b) {s : ℝ} (hs : 0 ≤ s) (n : ℕ) :
    ∫⁻ x, ENNReal.ofReal (Real.exp (-(s * ∑ k ∈ Finset.range n, pgCoef k * x k))) ∂gammaSeq b =
      ENNReal.ofReal ((∏ k ∈ Finset.range n, (1 + s * pgCoef k)) ^ (-b)) := by
  have hp := isProbabilityMeasure_gammaMeasure hb one_pos
  have h1 : ∀ x : ℕ → ℝ, ENNReal.ofReal (Real.exp (-(s * ∑ k ∈ Finset.range n, pgCoef k * x k))) =
      ∏ k ∈ Finset.range n, ENNReal.ofReal (Real.exp (-(s * pgCoef k * x k))) := by
    intro x
    rw [← ENNReal.ofReal_prod_of_nonneg (fun k _ => (Real.exp_pos _).le), ← Real.exp_sum,
      Finset.mul_sum, ← Finset.sum_neg_distrib]
    simp only [mul_assoc]
  have hm : ∀ k, Measurable fun y : ℝ => ENNReal.ofReal (Real.exp (-(s * pgCoef k * y))) :=
    fun k => by fun_prop
  have h2 : ∀ k, ∫⁻ x, ENNReal.ofReal (Real.exp (-(s * pgCoef k * x k))) ∂gammaSeq b =
      ENNReal.ofReal ((1 + s * pgCoef k) ^ (-b)) := by
    intro k
    rw [lintegral_gammaSeq_eval hb k (hm k)]
    exact lintegral_exp_gamma hb (mul_nonneg hs (pgCoef_pos k).le)
  have hnn : ∀ k, 0 ≤ 1 + s * pgCoef k := fun k => by
    have := mul_nonneg hs (pgCoef_pos k).le
    linarith
  calc _ = ∫⁻ x, ∏ k ∈ Finset.range n, ENNReal.ofReal (Real.exp (-(s * pgCoef k * x k)))
        ∂gammaSeq b := lintegral_congr h1
    _ = ∏ k ∈ Finset.range n, ∫⁻ x, ENNReal.ofReal (Real.exp (-(s * pgCoef k * x k)))
        ∂gammaSeq b :=
      lintegral_prod_eq_prod_lintegral_of_indepFun (Finset.range n)
        (fun k (x : ℕ → ℝ) => ENNReal.ofReal (Real.exp (-(s * pgCoef k * x k))))
        (iIndepFun_infinitePi hm) (fun k => (hm k).comp (measurable_pi_apply k))
    _ = _ := by
      simp only [h2]
      rw [← ENNReal.ofReal_prod_of_nonneg (fun k _ => Real.rpow_nonneg (hnn k) _),
        Real.finsetProd_rpow _ _ (fun k _ => hnn k)]

/-- Laplace transform of `PG(b, 0)`. -/
theorem lintegral_exp_pg0 (hb : 0 < b) (c : ℝ) :
    ∫⁻ w, ENNReal.ofReal (Real.exp (-(c ^ 2 / 2 * w))) ∂pg0 b =
      ENNReal.ofReal (Real.cosh (c / 2) ^ (-b)) := by
  have hp := isProbabilityMeasure_gammaSeq hb
  have hs0 : 0 ≤ c ^ 2 / 2 := by positivity
  rw [pg0, lintegral_map (by fun_prop) measurable_pgSum]
  change ∫⁻ x, ENNReal.ofReal (Real.exp (-(c ^ 2 / 2 * ∑' k, pgCoef k * x k))) ∂gammaSeq b = _
  have hlim1 : Tendsto (fun n : ℕ => ∫⁻ x, ENNReal.ofReal
      (Real.exp (-(c ^ 2 / 2 * ∑ k ∈ Finset.range n, pgCoef k * x k))) ∂gammaSeq b) atTop
      (𝓝 (∫⁻ x, ENNReal.ofReal (Real.exp (-(c ^ 2 / 2 * ∑' k, pgCoef k * x k))) ∂gammaSeq b)) := by
    refine tendsto_lintegral_of_dominated_convergence (fun _ => 1) (fun n => ?_) (fun n => ?_)
      (by simp) ?_
    · refine Measurable.ennreal_ofReal (Real.measurable_exp.comp (Measurable.neg
        (Measurable.const_mul (Finset.measurable_sum _ fun k _ => ?_) _)))
      exact (measurable_pi_apply k).const_mul _
    · filter_upwards [ae_gammaSeq hb] with x hx
      rw [← ENNReal.ofReal_one]
      refine ENNReal.ofReal_le_ofReal (Real.exp_le_one_iff.2 (neg_nonpos.2 (mul_nonneg hs0 ?_)))
      exact Finset.sum_nonneg fun k _ => mul_nonneg (pgCoef_pos k).le (hx.1 k).le
    · filter_upwards [ae_gammaSeq hb] with x hx
      have := hx.2.hasSum.tendsto_sum_nat
      exact ENNReal.tendsto_ofReal
        ((Real.continuous_exp.tendsto _).comp ((this.const_mul (c ^ 2 / 2)).neg))
  have hlim2 : Tendsto (fun n : ℕ => ENNReal.ofReal ((∏ k ∈ Finset.range n,
      (1 + c ^ 2 / 2 * pgCoef k)) ^ (-b))) atTop
      (𝓝 (ENNReal.ofReal (Real.cosh (c / 2) ^ (-b)))) := by
    have h4 := tendsto_euler_cosh_prod (c / (2 * Real.pi))
    have hpi := Real.pi_ne_zero
    rw [show Real.pi * (c / (2 * Real.pi)) = c / 2 by field_simp] at h4
    have h5 : ∀ k : ℕ, 1 + (c / (2 * Real.pi)) ^ 2 / ((k : ℝ) + 1 / 2) ^ 2 =
        1 + c ^ 2 / 2 * pgCoef k := by
      intro k
      have : (k : ℝ) + 1 / 2 ≠ 0 := by positivity
      rw [pgCoef]
      field_simp
    simp only [h5] at h4
    exact ENNReal.tendsto_ofReal (h4.rpow_const (Or.inl (Real.cosh_pos _).ne'))
  simp only [lintegral_exp_partial hb hs0] at hlim1
  exact tendsto_nhds_unique hlim1 hlim2

theorem bayesDefined_pg (hb : 0 < b) (c : ℝ) :
    BayesDefined (pg0 b) fun w => ENNReal.ofReal (Real.exp (-(c ^ 2 / 2 * w))) := by
  rw [BayesDefined, lintegral_exp_pg0 hb]
  exact ⟨by simpa using Real.rpow_pos_of_pos (Real.cosh_pos _) _, ENNReal.ofReal_ne_top⟩

theorem isProbabilityMeasure_pg (hb : 0 < b) (c : ℝ) : IsProbabilityMeasure (pg b c) :=
  isProbabilityMeasure_bayes (bayesDefined_pg hb c)

end Verif
