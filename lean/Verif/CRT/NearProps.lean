import Verif.CRT.Minor
import Verif.Prob.Near
import Verif.PG.NearProps

/-!
# C101: rounding the current values hardly changes the next draws (dispersion)
-/

open MeasureTheory ProbabilityTheory Filter
open scoped ENNReal Topology

namespace Verif

/-- Posteriors under likelihoods whose ratio varies by at most a factor `e^x`. -/
theorem near_bayes {Θ : Type*} [MeasurableSpace Θ] {μ : Measure Θ} {l l' : Θ → ℝ≥0∞} (hl : Measurable l)
    (hd : BayesDefined μ l) {c : ℝ≥0∞} (hc0 : c ≠ 0) (hc : c ≠ ∞) {x : ℝ}
    (hx : 0 ≤ x) (h : ∀ᵐ t ∂μ, c * l t ≤ l' t ∧ l' t ≤ ENNReal.ofReal (Real.exp x) * (c * l t)) :
    Near (ENNReal.ofReal x) (bayes μ l) (bayes μ l') := by
  have := isProbabilityMeasure_bayes hd
  refine near_of_le hx ?_
  have hex : ENNReal.ofReal (Real.exp x) ≠ 0 := by simpa using Real.exp_pos x
  have h1 : ∫⁻ t, l' t ∂μ ≤ ENNReal.ofReal (Real.exp x) * (c * ∫⁻ t, l t ∂μ) := by
    rw [← lintegral_const_mul _ hl, ← lintegral_const_mul _ (hl.const_mul c)]
    exact lintegral_mono_ae (h.mono fun t ht => ht.2)
  have h2 : c • μ.withDensity l ≤ μ.withDensity l' := by
    rw [← withDensity_smul _ hl]
    exact withDensity_mono (h.mono fun t ht => ht.1)
  have h3 : ENNReal.ofReal (Real.exp (-x)) * (∫⁻ t, l t ∂μ)⁻¹ ≤ (∫⁻ t, l' t ∂μ)⁻¹ * c := by
    have h4 := ENNReal.inv_le_inv.2 h1
    rw [ENNReal.mul_inv (.inl hex) (.inl ENNReal.ofReal_ne_top), ENNReal.mul_inv (.inl hc0) (.inl hc),
      ← ENNReal.ofReal_inv_of_pos (Real.exp_pos x), ← Real.exp_neg] at h4
    calc ENNReal.ofReal (Real.exp (-x)) * (∫⁻ t, l t ∂μ)⁻¹
        = ENNReal.ofReal (Real.exp (-x)) * (c⁻¹ * (∫⁻ t, l t ∂μ)⁻¹) * c := by
          rw [mul_assoc, mul_comm c⁻¹, mul_assoc, ENNReal.inv_mul_cancel hc0 hc, mul_one]
      _ ≤ _ := by gcongr
  rw [bayes, bayes, smul_smul]
  calc (ENNReal.ofReal (Real.exp (-x)) * (∫⁻ t, l t ∂μ)⁻¹) • μ.withDensity l
      ≤ ((∫⁻ t, l' t ∂μ)⁻¹ * c) • μ.withDensity l := by
        refine Measure.le_iff.2 fun s _ => ?_
        simp only [Measure.smul_apply, smul_eq_mul]
        gcongr
    _ = (∫⁻ t, l' t ∂μ)⁻¹ • (c • μ.withDensity l) := by rw [smul_smul]
    _ ≤ _ := by
        refine Measure.le_iff.2 fun s _ => ?_
        rw [Measure.smul_apply _ _ s, Measure.smul_apply _ (μ.withDensity l') s]
        have := h2 s
        simp only [smul_eq_mul]
        gcongr

end Verif

namespace Verif.CRT

variable {n : ℕ}

theorem natDegree_crtPoly (y : Fin n → ℕ) : (crtPoly y).natDegree ≤ ∑ i, y i := by
  unfold crtPoly
  refine (Polynomial.natDegree_list_prod_le _).trans ?_
  rw [List.map_map, List.map_ofFn, List.sum_ofFn]
  exact Finset.sum_le_sum fun i _ => by simp [ascPochhammer_natDegree]

theorem near_tables (t : ℝ) (y : Fin n → ℕ) {h h' : ℝ} (hh : 0 < h) (hh' : 0 < h') :
    Near (ENNReal.ofReal ((∑ i, (y i : ℝ)) * |Real.log h - Real.log h'|))
      (bayes (polyMeas (crtPoly y)) (crtJoint t h)) (bayes (polyMeas (crtPoly y)) (crtJoint t h')) := by
  have key : ∀ {h h' : ℝ}, 0 < h → 0 < h' → h ≤ h' →
      Near (ENNReal.ofReal ((∑ i, (y i : ℝ)) * |Real.log h - Real.log h'|))
        (bayes (polyMeas (crtPoly y)) (crtJoint t h)) (bayes (polyMeas (crtPoly y)) (crtJoint t h')) := by
    intro h h' hh hh' hle
    have hlog : Real.log h ≤ Real.log h' := Real.log_le_log hh hle
    refine near_bayes Measurable.of_discrete (crtJoint_defined t y h)
      (c := ENNReal.ofReal (Real.exp (-(t * h') + t * h))) (by simpa using Real.exp_pos _) ENNReal.ofReal_ne_top
      (by positivity) ?_
    filter_upwards [ae_polyMeas_le (crtPoly y)] with l hl
    have hl' : (l : ℝ) ≤ ∑ i, (y i : ℝ) := by
      have := hl.trans (natDegree_crtPoly y)
      exact_mod_cast this
    unfold crtJoint
    rw [posOr1_of_pos hh, posOr1_of_pos hh', ← ENNReal.ofReal_pow hh.le, ← ENNReal.ofReal_pow hh'.le]
    have e0 : Real.exp (-(t * h') + t * h) * (h ^ l * Real.exp (-(t * h))) = h ^ l * Real.exp (-(t * h')) := by
      rw [Real.exp_add, Real.exp_neg (t * h)]
      field_simp
    have e1 : ENNReal.ofReal (Real.exp (-(t * h') + t * h)) *
        (ENNReal.ofReal (h ^ l) * ENNReal.ofReal (Real.exp (-(t * h)))) =
          ENNReal.ofReal (h ^ l * Real.exp (-(t * h'))) := by
      rw [← ENNReal.ofReal_mul (by positivity), ← ENNReal.ofReal_mul (by positivity), e0]
    rw [e1, ← ENNReal.ofReal_mul (by positivity), ← ENNReal.ofReal_mul (by positivity)]
    constructor
    · apply ENNReal.ofReal_le_ofReal
      gcongr
    · apply ENNReal.ofReal_le_ofReal
      have h2 : h' ^ l ≤ Real.exp ((∑ i, (y i : ℝ)) * |Real.log h - Real.log h'|) * h ^ l := by
        rw [abs_of_nonpos (by linarith), ← Real.exp_log (pow_pos hh' l), ← Real.exp_log (pow_pos hh l),
          ← Real.exp_add, Real.log_pow, Real.log_pow]
        apply Real.exp_le_exp.2
        nlinarith
      calc h' ^ l * Real.exp (-(t * h')) ≤
            (Real.exp ((∑ i, (y i : ℝ)) * |Real.log h - Real.log h'|) * h ^ l) * Real.exp (-(t * h')) := by gcongr
        _ = _ := by ring
  rcases le_total h h' with hle | hle
  · exact key hh hh' hle
  · have := isProbabilityMeasure_bayes (crtJoint_defined t y h)
    have := isProbabilityMeasure_bayes (crtJoint_defined t y h')
    rw [abs_sub_comm]
    exact (key hh' hh hle).symm

/-- **C101, dispersion.** Starting from two different values of the dispersion, the probabilities of every
event differ after the first and after every later call by at most `(∑ y_i) |log h - log h'|`, that is,
the sum of the counts times the relative error. -/
theorem C101_dispersion {a b : ℝ} (ha : 0 < a) (hb : 0 < b) {p : Fin n → ℝ} (hp0 : ∀ i, 0 < p i)
    (hp1 : ∀ i, p i < 1) (y : Fin n → ℕ) {h h' : ℝ} (hh : 0 < h) (hh' : 0 < h') (k : ℕ) {A : Set ℝ}
    (hA : MeasurableSet A) :
    |(calls (dispersionPosterior (List.ofFn p) a b (List.ofFn fun i => (y i : ℤ))) (k + 1) h).real A -
      (calls (dispersionPosterior (List.ofFn p) a b (List.ofFn fun i => (y i : ℤ))) (k + 1) h').real A| ≤
        (∑ i, (y i : ℝ)) * |Real.log h - Real.log h'| := by
  have h0 : ∀ i, 0 < 1 - p i := fun i => by have := hp1 i; linarith
  have h1 : ∀ i, 1 - p i < 1 := fun i => by have := hp0 i; linarith
  have hr : (0 : ℝ) < b⁻¹ := inv_pos.2 hb
  have ht : 0 < b⁻¹ + -∑ i, Real.log (1 - p i) := by
    have : ∑ i, Real.log (1 - p i) ≤ 0 :=
      Finset.sum_nonpos fun i _ => Real.log_nonpos (h0 i).le (h1 i).le
    linarith
  have hc : ∀ h ∈ Set.Ioi (0 : ℝ), ∀ k,
      calls (dispersionPosterior (List.ofFn p) a b (List.ofFn fun i => (y i : ℤ))) k h =
        calls (crtKernel y a b⁻¹ (-∑ i, Real.log (1 - p i))) k h := fun h hh k =>
    calls_congr (D := Set.Ioi 0) (measurable_crtKernel ha hr ht y)
      (fun x hx => dispersion_eq p a b y hx)
      (fun x => (crtKernel_ac y x).ae_le ae_volPos) measurableSet_Ioi hh k
  rw [hc h hh, hc h' hh']
  refine near_real_calls (by positivity) (measurable_crtKernel ha hr ht y) (prob_crtKernel ha ht y) ?_ k hA
  unfold crtKernel
  refine (near_tables _ y hh hh').bind Measurable.of_discrete fun l => ?_
  have := isProbabilityMeasure_gammaMeasure (a := a + l) (by positivity) ht
  exact measure_univ.le

/-- Two counts, and a dispersion that is off by one in a thousand. -/
example (k : ℕ) {A : Set ℝ} (hA : MeasurableSet A) :
    |(calls (dispersionPosterior (List.ofFn fun _ : Fin 2 => (1 / 2 : ℝ)) 1 1
        (List.ofFn fun i : Fin 2 => ((![3, 4] i : ℕ) : ℤ))) (k + 1) 1).real A -
      (calls (dispersionPosterior (List.ofFn fun _ : Fin 2 => (1 / 2 : ℝ)) 1 1
        (List.ofFn fun i : Fin 2 => ((![3, 4] i : ℕ) : ℤ))) (k + 1) 1.001).real A| ≤ 0.007 := by
  refine (C101_dispersion one_pos one_pos (fun _ => by norm_num) (fun _ => by norm_num) ![3, 4] one_pos
    (by norm_num) k hA).trans ?_
  have h1 : Real.log 1.001 ≤ 0.001 := by
    have := Real.log_le_sub_one_of_pos (x := 1.001) (by norm_num)
    linarith
  have h2 : 0 ≤ Real.log 1.001 := Real.log_nonneg (by norm_num)
  rw [Real.log_one, zero_sub, abs_neg, abs_of_nonneg h2]
  simp [Fin.sum_univ_two]
  linarith

end Verif.CRT
