import Verif.Trans.Lemmas
import Mathlib.MeasureTheory.Function.Jacobian
import Mathlib.Probability.Distributions.Cauchy
import Mathlib.Probability.Distributions.Gaussian.Real
import Mathlib.Analysis.SpecialFunctions.Log.Deriv

/-!
# The location-scale laws are the usual ones
-/

open MeasureTheory ProbabilityTheory Real

namespace Verif.Trans

theorem lsLaw_normal (m : ℝ) {s : ℝ} (hs : 0 < s) :
    lsLaw .normal m s = gaussianReal m (s ^ 2).toNNReal := by
  have h0 : (s ^ 2).toNNReal ≠ 0 := by simpa using hs.ne'
  rw [gaussianReal_of_var_ne_zero _ h0, lsLaw]
  congr 1
  funext x
  rw [gaussianPDF, gaussianPDFReal, lsDens]
  congr 1
  rw [Real.coe_toNNReal _ (sq_nonneg s), sqrt_mul (x := 2 * π) (by positivity) (s ^ 2), sqrt_sq hs.le]
  field_simp

theorem lsLaw_cauchy (m : ℝ) {s : ℝ} (hs : 0 < s) :
    lsLaw .cauchy m s = cauchyMeasure m s.toNNReal := by
  have h0 : s.toNNReal ≠ 0 := by simpa using hs
  rw [cauchyMeasure, if_neg h0, lsLaw]
  congr 1
  funext x
  rw [cauchyPDF, cauchyPDFReal_def', lsDens]
  congr 1
  rw [NNReal.coe_inv, Real.coe_toNNReal _ hs.le]
  have := pi_pos
  field_simp

/-- Mass of a density which is the derivative of a monotone bijection onto an interval. -/
theorem lintegral_of_deriv {F f : ℝ → ℝ} {S : Set ℝ} (hS : MeasurableSet S)
    (hder : ∀ x ∈ S, HasDerivAt F (f x) x) (hinj : Set.InjOn F S) (hf : ∀ x ∈ S, 0 ≤ f x) :
    ∫⁻ x in S, ENNReal.ofReal (f x) = volume (F '' S) := by
  have := lintegral_image_eq_lintegral_abs_deriv_mul hS
    (fun x hx => (hder x hx).hasDerivWithinAt) hinj (fun _ => 1)
  rw [lintegral_one, Measure.restrict_apply_univ] at this
  rw [this]
  refine setLIntegral_congr_fun hS fun x hx => ?_
  simp only [mul_one]
  rw [abs_of_nonneg (hf x hx)]

theorem lsLaw_logistic_univ : lsLaw .logistic 0 1 Set.univ = 1 := by
  have hd : Dist.logistic ∈ twoParam := by simp [twoParam]
  rw [lsLaw, withDensity_apply _ MeasurableSet.univ,
    lintegral_of_deriv (F := fun x : ℝ => (1 + exp (-x))⁻¹) MeasurableSet.univ]
  · have : (fun x : ℝ => (1 + exp (-x))⁻¹) '' Set.univ = Set.Ioo 0 1 := by
      ext y
      constructor
      · rintro ⟨x, -, rfl⟩
        have := exp_pos (-x)
        exact ⟨by positivity, inv_lt_one_of_one_lt₀ (by linarith)⟩
      · rintro ⟨h0, h1⟩
        refine ⟨-log (y⁻¹ - 1), Set.mem_univ _, ?_⟩
        have h2 : 0 < y⁻¹ - 1 := by
          have := (one_lt_inv₀ h0).2 h1
          linarith
        simp only [neg_neg]
        rw [exp_log h2]
        simp
    rw [this]
    simp
  · intro x _
    have h1 : HasDerivAt (fun x : ℝ => 1 + exp (-x)) (-exp (-x)) x := by
      have := ((hasDerivAt_id x).neg.exp).const_add 1
      simpa using this
    have h2 := h1.inv (by positivity)
    have e : lsDens .logistic 0 1 x = -(-exp (-x)) / (1 + exp (-x)) ^ 2 := by
      simp [lsDens]
    rw [e]
    exact h2
  · intro a _ b _ h
    have h1 : 1 + exp (-a) = 1 + exp (-b) := inv_injective h
    simpa using h1
  · intro x _
    exact (lsDens_pos hd one_pos 0 x).le

theorem lsLaw_gumbel_univ : lsLaw .gumbel 0 1 Set.univ = 1 := by
  have hd : Dist.gumbel ∈ twoParam := by simp [twoParam]
  rw [lsLaw, withDensity_apply _ MeasurableSet.univ,
    lintegral_of_deriv (F := fun x : ℝ => exp (-exp (-x))) MeasurableSet.univ]
  · have : (fun x : ℝ => exp (-exp (-x))) '' Set.univ = Set.Ioo 0 1 := by
      ext y
      constructor
      · rintro ⟨x, -, rfl⟩
        have := exp_pos (-x)
        exact ⟨by positivity, by simpa using this⟩
      · rintro ⟨h0, h1⟩
        refine ⟨-log (-log y), Set.mem_univ _, ?_⟩
        have h2 : 0 < -log y := by
          have := log_neg h0 h1
          linarith
        simp only [neg_neg]
        rw [exp_log h2, neg_neg, exp_log h0]
    rw [this]
    simp
  · intro x _
    have h1 : HasDerivAt (fun x : ℝ => -exp (-x)) (exp (-x)) x := by
      have := ((hasDerivAt_id x).neg.exp).neg
      simp only [mul_neg, mul_one, neg_neg] at this
      exact this
    have h2 := h1.exp
    convert h2 using 1
    simp only [lsDens, sub_zero, div_one]
    rw [← exp_add]
    congr 1
    ring
  · intro a _ b _ h
    simpa using h
  · intro x _
    exact (lsDens_pos hd one_pos 0 x).le

theorem lsLaw_laplace_univ : lsLaw .laplace 0 1 Set.univ = 1 := by
  have e1 : ∫⁻ x in Set.Iic (0 : ℝ), ENNReal.ofReal (lsDens .laplace 0 1 x) = ENNReal.ofReal (1 / 2) := by
    have h : ∀ x ∈ Set.Iic (0 : ℝ), ENNReal.ofReal (lsDens .laplace 0 1 x) =
        ENNReal.ofReal (exp x / 2) := fun x hx => by
      have hx : x ≤ 0 := hx
      simp [lsDens, abs_of_nonpos hx]
    rw [setLIntegral_congr_fun measurableSet_Iic h,
      lintegral_of_deriv (F := fun x : ℝ => exp x / 2) measurableSet_Iic]
    · have : (fun x : ℝ => exp x / 2) '' Set.Iic 0 = Set.Ioc 0 (1 / 2) := by
        ext y
        constructor
        · rintro ⟨x, hx, rfl⟩
          have hx : x ≤ 0 := hx
          have h2 := exp_le_one_iff.2 hx
          exact ⟨by positivity, by simp only; linarith⟩
        · rintro ⟨h0, h1⟩
          refine ⟨log (2 * y), ?_, ?_⟩
          · exact log_nonpos (by positivity) (by linarith)
          · simp only
            rw [exp_log (by positivity)]
            ring
      rw [this]
      simp
    · intro x _
      exact (hasDerivAt_exp x).div_const 2
    · intro a _ b _ h
      simpa using h
    · intro x _
      positivity
  have e2 : ∫⁻ x in Set.Ioi (0 : ℝ), ENNReal.ofReal (lsDens .laplace 0 1 x) = ENNReal.ofReal (1 / 2) := by
    have h : ∀ x ∈ Set.Ioi (0 : ℝ), ENNReal.ofReal (lsDens .laplace 0 1 x) =
        ENNReal.ofReal (exp (-x) / 2) := fun x hx => by
      have hx : 0 < x := hx
      simp [lsDens, abs_of_pos hx]
    rw [setLIntegral_congr_fun measurableSet_Ioi h,
      lintegral_of_deriv (F := fun x : ℝ => -exp (-x) / 2) measurableSet_Ioi]
    · have : (fun x : ℝ => -exp (-x) / 2) '' Set.Ioi 0 = Set.Ioo (-1 / 2) 0 := by
        ext y
        constructor
        · rintro ⟨x, hx, rfl⟩
          have hx : 0 < x := hx
          have h2 := exp_lt_one_iff.2 (neg_lt_zero.2 hx)
          have h3 := exp_pos (-x)
          exact ⟨by simp only; linarith, by simp only; linarith⟩
        · rintro ⟨h0, h1⟩
          refine ⟨-log (-(2 * y)), ?_, ?_⟩
          · have := log_neg (x := -(2 * y)) (by linarith) (by linarith)
            exact neg_pos.2 this
          · simp only [neg_neg]
            rw [exp_log (by linarith)]
            ring
      rw [this, Real.volume_Ioo]
      norm_num
    · intro x _
      have := ((hasDerivAt_id x).neg.exp).neg.div_const 2
      simpa using this
    · intro a _ b _ h
      simp only at h
      have h1 : exp (-a) = exp (-b) := by linarith
      simpa using h1
    · intro x _
      positivity
  rw [lsLaw, withDensity_apply _ MeasurableSet.univ, ← Set.Iic_union_Ioi (a := (0 : ℝ)),
    lintegral_union measurableSet_Ioi (by
      rw [Set.disjoint_left]
      intro a ha hb
      exact absurd (lt_of_lt_of_le (Set.mem_Ioi.1 hb) (Set.mem_Iic.1 ha)) (lt_irrefl _)), e1, e2,
    ← ENNReal.ofReal_add (by norm_num) (by norm_num)]
  norm_num

/-- Each of the five densities integrates to one. -/
theorem isProbabilityMeasure_lsLaw {d : Dist} (hd : d ∈ twoParam) {s : ℝ} (hs : 0 < s) (m : ℝ) :
    IsProbabilityMeasure (lsLaw d m s) := by
  have h0 : IsProbabilityMeasure (lsLaw d 0 1) := by
    have hd' := hd
    simp only [twoParam, List.mem_cons, List.not_mem_nil, or_false] at hd'
    rcases hd' with rfl | rfl | rfl | rfl | rfl
    · rw [lsLaw_cauchy _ one_pos]
      infer_instance
    · exact ⟨lsLaw_gumbel_univ⟩
    · exact ⟨lsLaw_laplace_univ⟩
    · exact ⟨lsLaw_logistic_univ⟩
    · rw [lsLaw_normal _ one_pos]
      infer_instance
  rw [← map_lsLaw hd hs m]
  exact Measure.isProbabilityMeasure_map (by fun_prop)

end Verif.Trans
