import Verif.CRT.Unique
import Verif.Prob.Doeblin

/-!
# All results of the dispersion step share a piece of positive mass
-/

open MeasureTheory ProbabilityTheory
open scoped ENNReal

namespace Verif.CRT

variable {n : ℕ}

theorem ae_polyMeas_le (P : Polynomial ℕ) : ∀ᵐ l ∂polyMeas P, l ≤ P.natDegree := by
  unfold polyMeas
  rw [ae_iff, Measure.finsetSum_apply]
  refine Finset.sum_eq_zero fun l hl => ?_
  have : l ∉ {a : ℕ | ¬a ≤ P.natDegree} := by
    simpa using Polynomial.le_natDegree_of_mem_supp _ hl
  rw [Measure.smul_apply, Measure.dirac_apply' _ .of_discrete, Set.indicator_of_notMem this, smul_zero]

/-- A density below the first `N + 1` gamma densities. -/
noncomputable def lowGamma (a r : ℝ) (N : ℕ) (x : ℝ) : ℝ≥0∞ :=
  ∏ l ∈ Finset.range (N + 1), min 1 (ENNReal.ofReal (gammaPDFReal (a + l) r x))

theorem measurable_lowGamma (a r : ℝ) (N : ℕ) : Measurable (lowGamma a r N) :=
  Finset.measurable_prod _ fun _ _ =>
    measurable_const.min (measurable_gammaPDFReal _ _).ennreal_ofReal

theorem lowGamma_le (a r : ℝ) {N l : ℕ} (hl : l ≤ N) (x : ℝ) :
    lowGamma a r N x ≤ ENNReal.ofReal (gammaPDFReal (a + l) r x) := by
  rw [lowGamma, ← Finset.mul_prod_erase _ _ (Finset.mem_range.2 (Nat.lt_succ_of_le hl))]
  exact (mul_le_of_le_one_right' (Finset.prod_le_one' fun _ _ => min_le_left _ _)).trans
    (min_le_right _ _)

theorem lowGamma_pos {a r : ℝ} (ha : 0 < a) (hr : 0 < r) (N : ℕ) {x : ℝ} (hx : 0 < x) :
    lowGamma a r N x ≠ 0 := by
  rw [lowGamma, Finset.prod_ne_zero_iff]
  intro l _ h0
  rcases min_eq_iff.1 h0 with h | h
  · exact one_ne_zero h.1
  · exact absurd (ENNReal.ofReal_eq_zero.1 h.1) (not_le.2 (gammaPDFReal_pos (by positivity) hr hx))

variable {a r t : ℝ} (ha : 0 < a) (hr : 0 < r) (ht : 0 < r + t) (y : Fin n → ℕ)

include ha ht in
theorem crtKernel_minor : ∃ m : Measure ℝ, m ≠ 0 ∧ ∀ h, m ≤ crtKernel y a r t h := by
  refine ⟨volPos.withDensity (lowGamma a (r + t) (crtPoly y).natDegree), ?_, fun h => ?_⟩
  · intro h0
    rw [withDensity_eq_zero_iff (measurable_lowGamma _ _ _).aemeasurable] at h0
    have hne : (ae volPos).NeBot := by
      rw [ae_neBot, volPos, ne_eq, Measure.restrict_eq_zero, Real.volume_Ioi]
      exact ENNReal.top_ne_zero
    obtain ⟨x, hx0, hx⟩ := (h0.and ae_volPos).exists
    exact lowGamma_pos ha ht _ hx hx0
  · have := isProbabilityMeasure_bayes (crtJoint_defined t y h)
    refine Measure.le_iff.2 fun S hS => ?_
    rw [crtKernel, Measure.bind_apply hS (Measurable.of_discrete).aemeasurable]
    calc volPos.withDensity (lowGamma a (r + t) (crtPoly y).natDegree) S
        = ∫⁻ _l : ℕ, volPos.withDensity (lowGamma a (r + t) (crtPoly y).natDegree) S
            ∂(bayes (polyMeas (crtPoly y)) (crtJoint t h)) := by
          rw [lintegral_const, measure_univ, mul_one]
      _ ≤ _ := by
          refine lintegral_mono_ae ?_
          filter_upwards [(bayes_absolutelyContinuous _ _).ae_le (ae_polyMeas_le (crtPoly y))]
            with l hl
          rw [gammaMeasure_eq_volPos]
          exact withDensity_mono (ae_of_all _ fun x => lowGamma_le a (r + t) hl x) S

include ha hr ht in
theorem crtKernel_converges :
    ConvergesGeom Set.univ (bayes (gammaMeasure a r) (crtMarg t y)) (crtKernel y a r t) := by
  obtain ⟨m, hm0, hm⟩ := crtKernel_minor ha ht y
  have := isProbabilityMeasure_bayes (crtMarg_defined ha hr ht y)
  exact convergesGeom_of_minorised (measurable_crtKernel ha hr ht y) (prob_crtKernel ha ht y) hm hm0
    (stationary_crtKernel ha hr ht y).2

/-- Repeated calls of the dispersion step converge from every positive start to the posterior for
the complementary success probability. -/
theorem dispersion_converges {b : ℝ} (ha : 0 < a) (hb : 0 < b) {p : Fin n → ℝ}
    (hp0 : ∀ i, 0 < p i) (hp1 : ∀ i, p i < 1) (y : Fin n → ℕ) :
    ConvergesGeom (Set.Ioi 0) (bayes (gammaMeasure a b⁻¹) (nbDispLik (fun i => 1 - p i) y))
      (dispersionPosterior (List.ofFn p) a b (List.ofFn fun i => (y i : ℤ))) ∧
    ConvergesFrom (Set.Ioi 0) (bayes (gammaMeasure a b⁻¹) (nbDispLik (fun i => 1 - p i) y))
      (dispersionPosterior (List.ofFn p) a b (List.ofFn fun i => (y i : ℤ))) := by
  have h0 : ∀ i, 0 < 1 - p i := fun i => by have := hp1 i; linarith
  have h1 : ∀ i, 1 - p i < 1 := fun i => by have := hp0 i; linarith
  have hr : (0 : ℝ) < b⁻¹ := inv_pos.2 hb
  have ht : 0 < b⁻¹ + -∑ i, Real.log (1 - p i) := by
    have : ∑ i, Real.log (1 - p i) ≤ 0 :=
      Finset.sum_nonpos fun i _ => Real.log_nonpos (h0 i).le (h1 i).le
    linarith
  have hc : ∀ h ∈ Set.Ioi (0 : ℝ), ∀ k,
      calls (dispersionPosterior (List.ofFn p) a b (List.ofFn fun i => (y i : ℤ))) k h =
        calls (crtKernel y a b⁻¹ (-∑ i, Real.log (1 - p i))) k h := fun h hh k =>
    calls_congr (D := Set.Ioi 0) (measurable_crtKernel ha hr ht y)
      (fun x hx => dispersion_eq p a b y hx)
      (fun x => (crtKernel_ac y x).ae_le ae_volPos) measurableSet_Ioi hh k
  have hg : ConvergesGeom (Set.Ioi 0) (bayes (gammaMeasure a b⁻¹) (nbDispLik (fun i => 1 - p i) y))
      (dispersionPosterior (List.ofFn p) a b (List.ofFn fun i => (y i : ℤ))) := by
    rw [posterior_eq h0 h1]
    obtain ⟨ρ, hρ0, hρ1, hρ⟩ := crtKernel_converges ha hr ht y
    refine ⟨ρ, hρ0, hρ1, fun h hh k S hS => ?_⟩
    rw [hc h hh k]
    exact hρ h (Set.mem_univ _) k S hS
  have := isProbabilityMeasure_bayes (posterior_defined ha hr h0 h1 y)
  refine ⟨hg, hg.converges fun h hh k => ?_⟩
  rw [hc h hh k]
  have := prob_calls (measurable_crtKernel ha hr ht y) (prob_crtKernel ha ht y) k h
  infer_instance

end Verif.CRT
