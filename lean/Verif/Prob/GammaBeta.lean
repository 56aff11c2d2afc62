import Verif.Prob.Bayes

/-!
# Conjugate updates and injectivity for the gamma and beta families

Library lemmas about Mathlib's `gammaMeasure` (shape, rate) and `betaMeasure`.
-/

open MeasureTheory ProbabilityTheory Real
open scoped ENNReal

namespace Verif

theorem measurable_gammaPDF (a r : ℝ) : Measurable (gammaPDF a r) :=
  (measurable_gammaPDFReal a r).ennreal_ofReal

theorem measurable_betaPDF (a b : ℝ) : Measurable (betaPDF a b) :=
  (measurable_betaPDFReal a b).ennreal_ofReal

/-- Almost every point of a gamma law is positive. -/
theorem ae_pos_gammaMeasure {a r : ℝ} : ∀ᵐ x ∂gammaMeasure a r, 0 < x := by
  have h0 : ∀ᵐ x : ℝ, x ≠ 0 := by simp [ae_iff, measure_singleton]
  rw [gammaMeasure, ae_withDensity_iff (measurable_gammaPDF a r)]
  filter_upwards [h0] with x hx h
  by_contra hneg
  have : x < 0 := lt_of_le_of_ne (not_lt.1 hneg) hx
  exact h (gammaPDF_of_neg this)

/-- Almost every point of a beta law lies in `(0, 1)`. -/
theorem ae_mem_betaMeasure {a b : ℝ} : ∀ᵐ x ∂betaMeasure a b, 0 < x ∧ x < 1 := by
  rw [betaMeasure, ae_withDensity_iff (measurable_betaPDF a b)]
  refine Filter.Eventually.of_forall fun x h => ?_
  by_contra hneg
  apply h
  simp [betaPDF_eq, hneg]

/-- Gamma update: a likelihood `k * x ^ s * exp (-(t * x))` turns `Gamma(a, r)` into
`Gamma(a + s, r + t)`. -/
theorem bayes_gamma {a r s t k : ℝ} (ha : 0 < a) (hr : 0 < r) (hs : 0 < a + s) (ht : 0 < r + t)
    (hk : 0 < k) {lik : ℝ → ℝ≥0∞} (hm : Measurable lik)
    (hl : ∀ x, 0 < x → lik x = ENNReal.ofReal (k * x ^ s * exp (-(t * x)))) :
    BayesDefined (gammaMeasure a r) lik ∧
      bayes (gammaMeasure a r) lik = gammaMeasure (a + s) (r + t) := by
  have hcpos : 0 < k * (r ^ a / Gamma a) / ((r + t) ^ (a + s) / Gamma (a + s)) := by
    have := Gamma_pos_of_pos ha
    have := Gamma_pos_of_pos hs
    positivity
  unfold gammaMeasure
  refine bayes_withDensity (c := ENNReal.ofReal (k * (r ^ a / Gamma a) /
    ((r + t) ^ (a + s) / Gamma (a + s)))) (measurable_gammaPDF a r) hm
    (measurable_gammaPDF _ _) (lintegral_gammaPDF_eq_one hs ht) ?_ ENNReal.ofReal_ne_top ?_
  · simpa using hcpos
  · have h0 : ∀ᵐ x : ℝ, x ≠ 0 := by simp [ae_iff, measure_singleton]
    filter_upwards [h0] with x hx
    rcases lt_or_gt_of_ne hx with hneg | hpos
    · simp [gammaPDF_of_neg hneg]
    · rw [hl x hpos, gammaPDF_of_nonneg hpos.le, gammaPDF_of_nonneg hpos.le,
        ← ENNReal.ofReal_mul, ← ENNReal.ofReal_mul hcpos.le]
      · congr 1
        have e1 : x ^ (a + s - 1) = x ^ (a - 1) * x ^ s := by
          rw [← rpow_add hpos]; ring_nf
        have e2 : exp (-((r + t) * x)) = exp (-(r * x)) * exp (-(t * x)) := by
          rw [← exp_add]; ring_nf
        have hG : Gamma (a + s) ≠ 0 := (Gamma_pos_of_pos hs).ne'
        have hR : (r + t) ^ (a + s) ≠ 0 := (rpow_pos_of_pos ht _).ne'
        rw [e1, e2]
        field_simp
      · have := Gamma_pos_of_pos ha
        positivity

/-- Beta update: a likelihood `k * x ^ s * (1 - x) ^ t` turns `Beta(a, b)` into
`Beta(a + s, b + t)`. -/
theorem bayes_beta {a b s t k : ℝ} (ha : 0 < a) (hb : 0 < b) (hs : 0 < a + s) (ht : 0 < b + t)
    (hk : 0 < k) {lik : ℝ → ℝ≥0∞} (hm : Measurable lik)
    (hl : ∀ x, 0 < x → x < 1 → lik x = ENNReal.ofReal (k * x ^ s * (1 - x) ^ t)) :
    BayesDefined (betaMeasure a b) lik ∧
      bayes (betaMeasure a b) lik = betaMeasure (a + s) (b + t) := by
  have hB := beta_pos ha hb
  have hB' := beta_pos hs ht
  have hcpos : 0 < k * beta (a + s) (b + t) / beta a b := by positivity
  unfold betaMeasure
  refine bayes_withDensity (c := ENNReal.ofReal (k * beta (a + s) (b + t) / beta a b))
    (measurable_betaPDF a b) hm (measurable_betaPDF _ _) (lintegral_betaPDF_eq_one hs ht) ?_
    ENNReal.ofReal_ne_top ?_
  · simpa using hcpos
  · refine Filter.Eventually.of_forall fun x => ?_
    by_cases hx : 0 < x ∧ x < 1
    · obtain ⟨h0, h1⟩ := hx
      have h1' : 0 < 1 - x := by linarith
      rw [hl x h0 h1, betaPDF_of_pos_lt_one h0 h1, betaPDF_of_pos_lt_one h0 h1,
        ← ENNReal.ofReal_mul (by positivity), ← ENNReal.ofReal_mul hcpos.le]
      congr 1
      have e1 : x ^ (a + s - 1) = x ^ (a - 1) * x ^ s := by
        rw [← rpow_add h0]; ring_nf
      have e2 : (1 - x) ^ (b + t - 1) = (1 - x) ^ (b - 1) * (1 - x) ^ t := by
        rw [← rpow_add h1']; ring_nf
      rw [e1, e2]
      field_simp
    · simp [betaPDF_eq, hx]

/-- The gamma family is injective in the rate. -/
theorem gammaMeasure_rate_inj {a r r' : ℝ} (ha : 0 < a) (hr : 0 < r) (hr' : 0 < r')
    (h : gammaMeasure a r = gammaMeasure a r') : r = r' := by
  have hae : gammaPDF a r =ᵐ[volume] gammaPDF a r' :=
    (withDensity_eq_iff_of_sigmaFinite (measurable_gammaPDF _ _).aemeasurable
      (measurable_gammaPDF _ _).aemeasurable).1 h
  have hG := Gamma_pos_of_pos ha
  have hEq : Set.EqOn (fun x => r ^ a / Gamma a * x ^ (a - 1) * exp (-(r * x)))
      (fun x => r' ^ a / Gamma a * x ^ (a - 1) * exp (-(r' * x))) (Set.Ioi 0) := by
    refine Measure.eqOn_open_of_ae_eq (μ := volume) ?_ isOpen_Ioi ?_ ?_
    · refine (ae_restrict_iff' measurableSet_Ioi).2 ?_
      filter_upwards [hae] with x hx hx0
      have hx0' : (0 : ℝ) < x := hx0
      rw [gammaPDF_of_nonneg hx0'.le, gammaPDF_of_nonneg hx0'.le,
        ENNReal.ofReal_eq_ofReal_iff (by positivity) (by positivity)] at hx
      exact hx
    all_goals
      intro x hx
      have hx0 : x ≠ 0 := (ne_of_gt hx)
      refine ContinuousAt.continuousWithinAt ?_
      refine ContinuousAt.mul (ContinuousAt.mul continuousAt_const ?_) ?_
      · exact continuousAt_rpow_const _ _ (Or.inl hx0)
      · fun_prop
  have h1 := hEq (show (1 : ℝ) ∈ Set.Ioi 0 by norm_num)
  have h2 := hEq (show (2 : ℝ) ∈ Set.Ioi 0 by norm_num)
  simp only [mul_one, one_rpow] at h1 h2
  have hA : 0 < r ^ a / Gamma a := by positivity
  have hA' : 0 < r' ^ a / Gamma a := by positivity
  have e1 : exp (-(r * 2)) = exp (-r) * exp (-r) := by rw [← exp_add]; ring_nf
  have e2 : exp (-(r' * 2)) = exp (-r') * exp (-r') := by rw [← exp_add]; ring_nf
  have h2p : (0 : ℝ) < 2 ^ (a - 1) := by positivity
  rw [e1, e2] at h2
  have h3 : r ^ a / Gamma a * exp (-r) * exp (-r) = r' ^ a / Gamma a * exp (-r') * exp (-r') := by
    have := mul_left_cancel₀ h2p.ne'
      (show 2 ^ (a - 1) * (r ^ a / Gamma a * exp (-r) * exp (-r)) =
        2 ^ (a - 1) * (r' ^ a / Gamma a * exp (-r') * exp (-r')) by linarith)
    exact this
  rw [h1] at h3
  have h4 : exp (-r) = exp (-r') := mul_left_cancel₀ (by positivity) h3
  have := exp_injective h4
  linarith

/-- The beta family is injective in both parameters. -/
theorem betaMeasure_inj {a b a' b' : ℝ} (ha : 0 < a) (hb : 0 < b) (ha' : 0 < a') (hb' : 0 < b')
    (h : betaMeasure a b = betaMeasure a' b') : a = a' ∧ b = b' := by
  have hae : betaPDF a b =ᵐ[volume] betaPDF a' b' :=
    (withDensity_eq_iff_of_sigmaFinite (measurable_betaPDF _ _).aemeasurable
      (measurable_betaPDF _ _).aemeasurable).1 h
  have hB := beta_pos ha hb
  have hB' := beta_pos ha' hb'
  have hEq : Set.EqOn (fun x => (1 / beta a b) * x ^ (a - 1) * (1 - x) ^ (b - 1))
      (fun x => (1 / beta a' b') * x ^ (a' - 1) * (1 - x) ^ (b' - 1)) (Set.Ioo 0 1) := by
    refine Measure.eqOn_open_of_ae_eq (μ := volume) ?_ isOpen_Ioo ?_ ?_
    · refine (ae_restrict_iff' measurableSet_Ioo).2 ?_
      filter_upwards [hae] with x hx hx0
      have h0 : 0 < x := hx0.1
      have h1 : 0 < 1 - x := by linarith [hx0.2]
      rw [betaPDF_of_pos_lt_one hx0.1 hx0.2, betaPDF_of_pos_lt_one hx0.1 hx0.2,
        ENNReal.ofReal_eq_ofReal_iff (by positivity) (by positivity)] at hx
      exact hx
    all_goals
      intro x hx
      have hx0 : x ≠ 0 := (ne_of_gt hx.1)
      have hx1 : 1 - x ≠ 0 := by linarith [hx.2]
      refine ContinuousAt.continuousWithinAt ?_
      refine ContinuousAt.mul (ContinuousAt.mul continuousAt_const ?_) ?_
      · exact continuousAt_rpow_const _ _ (Or.inl hx0)
      · exact ContinuousAt.rpow_const (by fun_prop) (Or.inl hx1)
  -- take logarithms at 1/2, 1/4, 3/4
  have hlog : ∀ x, 0 < x → x < 1 → -log (beta a b) + (a - 1) * log x + (b - 1) * log (1 - x) =
      -log (beta a' b') + (a' - 1) * log x + (b' - 1) * log (1 - x) := by
    intro x h0 h1
    have h1' : 0 < 1 - x := by linarith
    have h := congrArg log (hEq ⟨h0, h1⟩)
    simp only at h
    rwa [log_mul (by positivity) (by positivity), log_mul (by positivity) (by positivity),
      log_mul (by positivity) (by positivity), log_mul (by positivity) (by positivity),
      log_rpow h0, log_rpow h0, log_rpow h1', log_rpow h1', one_div, one_div, log_inv, log_inv] at h
  have q1 := hlog (1 / 2) (by norm_num) (by norm_num)
  have q2 := hlog (1 / 4) (by norm_num) (by norm_num)
  have q3 := hlog (3 / 4) (by norm_num) (by norm_num)
  have l1 : log (1 / 2) = -log 2 := by rw [one_div, log_inv]
  have l2 : log (1 / 4) = -(2 * log 2) := by
    rw [one_div, log_inv, show (4 : ℝ) = 2 ^ (2 : ℕ) by norm_num, log_pow]; norm_num
  have l3 : log (3 / 4) = log 3 - 2 * log 2 := by
    rw [log_div (by norm_num) (by norm_num), show (4 : ℝ) = 2 ^ (2 : ℕ) by norm_num, log_pow]
    norm_num
  rw [show (1 : ℝ) - 1 / 2 = 1 / 2 by norm_num, l1] at q1
  rw [show (1 : ℝ) - 1 / 4 = 3 / 4 by norm_num, l2, l3] at q2
  rw [show (1 : ℝ) - 3 / 4 = 1 / 4 by norm_num, l2, l3] at q3
  have hl2 : 0 < log 2 := log_pos (by norm_num)
  have hl3 : log 2 < log 3 := log_lt_log (by norm_num) (by norm_num)
  have hl3' : log 3 < 2 * log 2 := by
    have : (2 : ℝ) * log 2 = log 4 := by
      rw [show (4 : ℝ) = 2 ^ (2 : ℕ) by norm_num, log_pow]; norm_num
    rw [this]; exact log_lt_log (by norm_num) (by norm_num)
  set d := a - a' with hd
  set e := b - b' with he
  set P := log 2
  set R := log 3
  -- q2 - q1 and q3 - q1
  have r2 : -d * P + e * (R - P) = 0 := by
    have : a = a' + d := by rw [hd]; ring
    have : b = b' + e := by rw [he]; ring
    nlinarith [q1, q2]
  have r3 : d * (R - P) - e * P = 0 := by
    nlinarith [q1, q3]
  have hsum : (d + e) * (R - 2 * P) = 0 := by nlinarith
  have hdiff : (d - e) * R = 0 := by nlinarith
  have s1 : d + e = 0 := by
    rcases mul_eq_zero.1 hsum with h | h
    · exact h
    · linarith
  have s2 : d - e = 0 := by
    rcases mul_eq_zero.1 hdiff with h | h
    · exact h
    · linarith
  constructor <;> linarith

end Verif
