import Verif.CRT.Dispersion
import Mathlib.MeasureTheory.Measure.ProbabilityMeasure

/-!
# Invariance and uniqueness for the dispersion step
-/

open MeasureTheory ProbabilityTheory Polynomial
open scoped ENNReal

namespace Verif.CRT

/-- Spec.  Likelihood of the dispersion `h` when `Y_i ~ NB(h, p_i)` (Aesara's `nbinom(n, p)`, `p_i` the
success probability) was observed to be `y`. -/
noncomputable def nbDispLik {n : ℕ} (p : Fin n → ℝ) (y : Fin n → ℕ) (h : ℝ) : ℝ≥0∞ :=
  ∏ i, nbMeasure h (p i) {y i}

variable {n : ℕ}

/-- Marginal weight of the dispersion. -/
noncomputable def crtMarg (t : ℝ) (y : Fin n → ℕ) (h : ℝ) : ℝ≥0∞ :=
  ∫⁻ l, crtJoint t h l ∂polyMeas (crtPoly y)

theorem measurable_crtMarg (t : ℝ) (y : Fin n → ℕ) : Measurable (crtMarg t y) :=
  Measurable.lintegral_prod_right (measurable_crtJoint t)

theorem crtMarg_ne_zero (t : ℝ) (y : Fin n → ℕ) (h : ℝ) : crtMarg t y h ≠ 0 := (crtJoint_defined t y h).1

theorem crtMarg_ne_top (t : ℝ) (y : Fin n → ℕ) (h : ℝ) : crtMarg t y h ≠ ∞ := (crtJoint_defined t y h).2

theorem nbDispLik_eq {p : Fin n → ℝ} (hp0 : ∀ i, 0 < p i) (hp1 : ∀ i, p i < 1) (y : Fin n → ℕ) :
    ∃ c : ℝ≥0∞, c ≠ 0 ∧ c ≠ ∞ ∧
      ∀ h, 0 < h → nbDispLik p y h = c * crtMarg (-∑ i, Real.log (p i)) y h := by
  have hc : 0 < ∏ i, ((1 - p i) ^ (y i) / (Nat.factorial (y i) : ℝ)) :=
    Finset.prod_pos fun i _ => by
      have := hp1 i
      have : 0 < 1 - p i := by linarith
      positivity
  refine ⟨ENNReal.ofReal (∏ i, ((1 - p i) ^ (y i) / (Nat.factorial (y i) : ℝ))), by simpa using hc,
    ENNReal.ofReal_ne_top, fun h hh => ?_⟩
  have hG := Real.Gamma_pos_of_pos hh
  have e : Real.exp (-(-∑ i, Real.log (p i)) * h) = ∏ i, p i ^ h := by
    rw [neg_neg, Finset.sum_mul, Real.exp_sum]
    exact Finset.prod_congr rfl fun i _ => by rw [Real.rpow_def_of_pos (hp0 i)]
  rw [crtMarg, lintegral_crtJoint, ← ENNReal.ofReal_mul hc.le, posOr1_of_pos hh, ← neg_mul, e]
  simp only [nbDispLik, Conj.nbMeasure_singleton]
  rw [← ENNReal.ofReal_prod_of_nonneg]
  · congr 1
    rw [← Finset.prod_mul_distrib, ← Finset.prod_mul_distrib]
    refine Finset.prod_congr rfl fun i _ => ?_
    rw [nbPMF, add_comm (y i : ℝ) h]
    field_simp
  · intro i _
    have h1 := hp0 i
    have h2 : 0 ≤ 1 - p i := by have := hp1 i; linarith
    have h3 : 0 < Real.Gamma (y i + h) := Real.Gamma_pos_of_pos (by positivity)
    unfold nbPMF
    positivity

theorem crtMarg_defined {a r t : ℝ} (ha : 0 < a) (hr : 0 < r) (ht : 0 < r + t) (y : Fin n → ℕ) :
    BayesDefined (gammaMeasure a r) (crtMarg t y) := by
  have := isProbabilityMeasure_gammaMeasure ha hr
  constructor
  · intro h
    rw [lintegral_eq_zero_iff (measurable_crtMarg t y)] at h
    obtain ⟨x, hx⟩ := h.exists
    exact crtMarg_ne_zero t y x hx
  · unfold crtMarg
    rw [lintegral_lintegral_swap (measurable_crtJoint t).aemeasurable]
    unfold polyMeas
    rw [lintegral_finsetSum_measure]
    refine ENNReal.sum_ne_top.2 fun l _ => ?_
    rw [lintegral_smul_measure, lintegral_dirac' _ .of_discrete, smul_eq_mul]
    exact ENNReal.mul_ne_top (ENNReal.natCast_ne_top _) (crtJoint_gamma ha hr ht l).1.2

/-- The posterior of the dispersion in terms of the marginal weight. -/
theorem posterior_eq {a r : ℝ} {p : Fin n → ℝ} (hp0 : ∀ i, 0 < p i) (hp1 : ∀ i, p i < 1)
    (y : Fin n → ℕ) :
    bayes (gammaMeasure a r) (nbDispLik p y) =
      bayes (gammaMeasure a r) (crtMarg (-∑ i, Real.log (p i)) y) := by
  obtain ⟨c, hc0, hc, hl⟩ := nbDispLik_eq hp0 hp1 y
  rw [← bayes_const_mul _ (measurable_crtMarg _ y) hc0 hc]
  refine bayes_congr_ae ?_
  filter_upwards [ae_pos_gammaMeasure (a := a) (r := r)] with h hh using hl h hh

theorem posterior_defined {a r : ℝ} (ha : 0 < a) (hr : 0 < r) {p : Fin n → ℝ} (hp0 : ∀ i, 0 < p i)
    (hp1 : ∀ i, p i < 1) (y : Fin n → ℕ) :
    BayesDefined (gammaMeasure a r) (nbDispLik p y) := by
  obtain ⟨c, hc0, hc, hl⟩ := nbDispLik_eq hp0 hp1 y
  have ht : 0 < r + -∑ i, Real.log (p i) := by
    have : ∑ i, Real.log (p i) ≤ 0 :=
      Finset.sum_nonpos fun i _ => Real.log_nonpos (hp0 i).le (hp1 i).le
    linarith
  have hd := crtMarg_defined ha hr ht y
  refine BayesDefined.congr_ae (l₁ := fun h => c * crtMarg (-∑ i, Real.log (p i)) y h) ?_ ?_
  · filter_upwards [ae_pos_gammaMeasure (a := a) (r := r)] with h hh using (hl h hh).symm
  · rw [BayesDefined, lintegral_const_mul _ (measurable_crtMarg _ y)]
    exact ⟨mul_ne_zero hc0 hd.1, ENNReal.mul_ne_top hc hd.2⟩

/-- The two-block transition on all of `ℝ`. -/
noncomputable def crtKernel (y : Fin n → ℕ) (a r t : ℝ) (h : ℝ) : Measure ℝ :=
  (bayes (polyMeas (crtPoly y)) (crtJoint t h)).bind fun l : ℕ => gammaMeasure (a + l) (r + t)

section

variable {a r t : ℝ} (ha : 0 < a) (hr : 0 < r) (ht : 0 < r + t) (y : Fin n → ℕ)
include ha hr ht

theorem stationary_crtKernel :
    Stationary (bayes (gammaMeasure a r) (crtMarg t y)) (crtKernel y a r t) := by
  have := isProbabilityMeasure_gammaMeasure ha hr
  exact stationary_dataAug (measurable_crtJoint t) (ae_of_all _ fun h => crtJoint_defined t y h)
    (ae_of_all _ fun l => (crtJoint_gamma ha hr ht l).1)
    (ae_of_all _ fun l => (crtJoint_gamma ha hr ht l).2.symm)

theorem measurable_crtKernel : Measurable (crtKernel y a r t) := by
  have := isProbabilityMeasure_gammaMeasure ha hr
  exact measurable_dataAug (measurable_crtJoint t)
    (ae_of_all _ fun l => (crtJoint_gamma ha hr ht l).2.symm)

omit hr in
theorem prob_crtKernel (h : ℝ) : IsProbabilityMeasure (crtKernel y a r t h) := by
  have := isProbabilityMeasure_bayes (crtJoint_defined t y h)
  refine isProbabilityMeasure_bind (Measurable.of_discrete).aemeasurable (ae_of_all _ fun l => ?_)
  exact isProbabilityMeasure_gammaMeasure (by positivity) ht

omit ha hr ht in
theorem crtKernel_ac (h : ℝ) : crtKernel y a r t h ≪ volPos := by
  refine Measure.AbsolutelyContinuous.mk fun S hS h0 => ?_
  rw [crtKernel, Measure.bind_apply hS (Measurable.of_discrete).aemeasurable]
  refine (lintegral_eq_zero_iff .of_discrete).2 (ae_of_all _ fun l => ?_)
  have : gammaMeasure (a + (l : ℕ)) (r + t) ≪ volPos := by
    rw [gammaMeasure_eq_volPos]
    exact withDensity_absolutelyContinuous _ _
  exact this h0

omit hr in
theorem ac_crtKernel (h : ℝ) : volPos ≪ crtKernel y a r t h := by
  refine Measure.AbsolutelyContinuous.mk fun S hS h0 => ?_
  rw [crtKernel, Measure.bind_apply hS (Measurable.of_discrete).aemeasurable,
    lintegral_eq_zero_iff .of_discrete] at h0
  have := isProbabilityMeasure_bayes (crtJoint_defined t y h)
  obtain ⟨l, hl⟩ := h0.exists
  have h2 : volPos ≪ gammaMeasure (a + (l : ℕ)) (r + t) := by
    rw [gammaMeasure_eq_volPos]
    refine withDensity_absolutelyContinuous' ?_ ?_
    · exact (measurable_gammaPDFReal _ _).ennreal_ofReal.aemeasurable
    · filter_upwards [ae_volPos] with x hx
      simp only [ne_eq, ENNReal.ofReal_eq_zero, not_le]
      exact gammaPDFReal_pos (by positivity) ht hx
  exact h2 hl

/-- The transition keeps the posterior for weight `t'` invariant only for `t' = t`. -/
theorem stationary_crtKernel_iff {t' : ℝ} (ht' : 0 < r + t') :
    Stationary (bayes (gammaMeasure a r) (crtMarg t' y)) (crtKernel y a r t) ↔ t' = t := by
  refine ⟨fun h => ?_, fun h => h ▸ stationary_crtKernel ha hr ht y⟩
  have hp1 := isProbabilityMeasure_bayes (crtMarg_defined ha hr ht y)
  have hp2 := isProbabilityMeasure_bayes (crtMarg_defined ha hr ht' y)
  have heq := stationary_unique (measurable_crtKernel ha hr ht y) (prob_crtKernel ha ht y)
    (ac_crtKernel ha ht y) (crtKernel_ac y) h.2 (stationary_crtKernel ha hr ht y).2
  have hsplit : ∀ s : ℝ, 0 < r + s → bayes (gammaMeasure a r) (crtMarg s y) =
      bayes (gammaMeasure a (r + s)) (crtMarg 0 y) := by
    intro s hs
    have h0 := crtJoint_gamma (t := s) ha hr hs 0
    have hm : Measurable fun h => crtJoint s h 0 :=
      (measurable_crtJoint s).comp (measurable_id.prodMk measurable_const)
    have e := h0.2
    rw [Nat.cast_zero, add_zero] at e
    rw [← e, bayes_bayes hm (measurable_crtMarg 0 y) h0.1]
    congr 1
    funext x
    have hpos := prod_gamma_pos (posOr1_pos x) y
    rw [crtMarg, crtMarg, lintegral_crtJoint, lintegral_crtJoint, crtJoint, pow_zero, one_mul,
      ← ENNReal.ofReal_mul (Real.exp_pos _).le]
    simp [mul_comm]
  rw [hsplit t ht, hsplit t' ht'] at heq
  have := isProbabilityMeasure_gammaMeasure ha ht
  have := isProbabilityMeasure_gammaMeasure ha ht'
  have hg := bayes_prior_inj (measurable_crtMarg 0 y) (crtMarg_ne_zero 0 y) (crtMarg_ne_top 0 y)
    (crtMarg_defined (t := 0) ha ht (by simpa using ht) y) heq
  have := gammaMeasure_rate_inj ha ht' ht hg
  linarith

end

end Verif.CRT
