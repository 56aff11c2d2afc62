import Verif.CRT.Order
import Verif.CRT.Mean
import Verif.CRT.Unique
import Verif.Prob.Tilt

/-!
# Property C87 for the dispersion step
-/

open MeasureTheory ProbabilityTheory
open scoped ENNReal

namespace Verif.CRT

variable {n : ℕ}

theorem gamma_pos_Ioi {a r : ℝ} (ha : 0 < a) (hr : 0 < r) :
    gammaMeasure a r (Set.Ioi 1) ≠ 0 ∧ gammaMeasure a r (Set.Ioi 1)ᶜ ≠ 0 := by
  have key : ∀ S : Set ℝ, MeasurableSet S → S ⊆ Set.Ioi 0 → volume S ≠ 0 → gammaMeasure a r S ≠ 0 := by
    intro S hS hS0 hv h
    rw [gammaMeasure, withDensity_apply _ hS, setLIntegral_eq_zero_iff hS (measurable_gammaPDF a r)] at h
    refine hv (measure_mono_null (fun x hx => ?_) h)
    show ¬ (x ∈ S → gammaPDF a r x = 0)
    intro h0
    have h1 := h0 hx
    have h2 := gammaPDFReal_pos ha hr (hS0 hx)
    rw [gammaPDF, ENNReal.ofReal_eq_zero] at h1
    linarith
  refine ⟨key _ measurableSet_Ioi (Set.Ioi_subset_Ioi zero_le_one) (by simp), fun h => ?_⟩
  refine key (Set.Ioc 0 1) measurableSet_Ioc (fun x hx => hx.1) (by simp) (measure_mono_null ?_ h)
  intro x hx h1
  exact absurd hx.2 (not_le.2 h1)

/-- A smaller rate strictly raises the probability of exceeding 1. -/
theorem gamma_rate_strict {a r r' : ℝ} (ha : 0 < a) (hr' : 0 < r') (h : r' < r) :
    gammaMeasure a r (Set.Ioi 1) < gammaMeasure a r' (Set.Ioi 1) := by
  have hr := hr'.trans h
  have hmo : Monotone fun x : ℝ => ENNReal.ofReal (Real.exp ((r - r') * x)) := fun x z hxz =>
    ENNReal.ofReal_le_ofReal (Real.exp_le_exp.2 (mul_le_mul_of_nonneg_left hxz (by linarith)))
  have hb := bayes_gamma (a := a) (r := r) (s := 0) (t := r' - r) (k := 1) ha hr (by linarith)
    (by linarith) one_pos hmo.measurable fun x hx => by
      rw [Real.rpow_zero, mul_one, one_mul]
      congr 2
      ring
  rw [add_zero, add_sub_cancel] at hb
  have i1 := isProbabilityMeasure_gammaMeasure ha hr
  have e1 : bayes (gammaMeasure a r) (fun _ => 1) = gammaMeasure a r := by
    rw [bayes, lintegral_one, measure_univ, inv_one, one_smul]
    exact withDensity_one
  have h1 := bayes_tilt_lt (μ := gammaMeasure a r) (l := fun _ => 1)
    (g := fun x => ENNReal.ofReal (Real.exp ((r - r') * x))) measurable_const hmo.measurable
    (by simp [BayesDefined]) (by simpa only [one_mul] using hb.1) measurableSet_Ioi
    (B := Set.Ioi 1) (c := ENNReal.ofReal (Real.exp (r - r'))) ENNReal.ofReal_ne_top
    (fun x hx => by
      rw [ENNReal.ofReal_lt_ofReal_iff (Real.exp_pos _), Real.exp_lt_exp]
      have : (1 : ℝ) < x := hx
      nlinarith)
    (fun x hx => by
      refine ENNReal.ofReal_le_ofReal (Real.exp_le_exp.2 ?_)
      have : x ≤ 1 := not_lt.1 hx
      nlinarith)
    (fun _ => one_ne_zero) (fun _ => ENNReal.one_ne_top) (gamma_pos_Ioi ha hr).1
    (gamma_pos_Ioi ha hr).2
  simp only [one_mul] at h1
  rwa [e1, hb.2] at h1

theorem rate_pos {b : ℝ} (hb : 0 < b) {p : Fin n → ℝ} (hp0 : ∀ i, 0 < p i) (hp1 : ∀ i, p i < 1) :
    0 < b⁻¹ + -∑ i, Real.log (1 - p i) := by
  have : ∑ i, Real.log (1 - p i) ≤ 0 := Finset.sum_nonpos fun i _ =>
    Real.log_nonpos (by linarith [hp1 i]) (by linarith [hp0 i])
  have := inv_pos.2 hb
  linarith

/-- **C87 (partial).** The dispersion drawn by `nbinom_dispersion_posterior` rises with every count,
with the current dispersion, with the prior shape and with the prior scale, for vectors of every size;
strictly so if a count or a prior parameter is strictly larger, or the current dispersion is and some
count is at least 2 (with counts 0 and 1 the current value is not used).
Missing for the full property: the direction in the probabilities, which is wrong
(`C87_dispersion_violated`). -/
theorem C87_dispersion_partial {a a' b b' : ℝ} (ha : 0 < a) (haa : a ≤ a') (hb : 0 < b) (hbb : b ≤ b')
    {p : Fin n → ℝ} (hp0 : ∀ i, 0 < p i) (hp1 : ∀ i, p i < 1) {y y' : Fin n → ℕ}
    (hy : ∀ i, y i ≤ y' i) {h h' : ℝ} (hh : 0 < h) (hhh : h ≤ h') :
    StochLE (dispersionPosterior (List.ofFn p) a b (List.ofFn fun i => (y i : ℤ)) h)
      (dispersionPosterior (List.ofFn p) a' b' (List.ofFn fun i => (y' i : ℤ)) h') ∧
    (a < a' ∨ b < b' ∨ (∃ i, y i < y' i) ∨ (h < h' ∧ ∃ i, 2 ≤ y i) →
      dispersionPosterior (List.ofFn p) a b (List.ofFn fun i => (y i : ℤ)) h ≠
        dispersionPosterior (List.ofFn p) a' b' (List.ofFn fun i => (y' i : ℤ)) h') := by
  unfold dispersionPosterior
  rw [rate_eq, rate_eq]
  have hr := rate_pos (hb.trans_le hbb) hp0 hp1
  have hle := inv_anti₀ hb hbb
  refine ⟨stochLE_dispersion hy hh hhh ha haa hr (by linarith), fun hs =>
    dispersion_ne hy hh hhh ha haa hr (by linarith) ?_⟩
  rcases hs with hs | hs | hs
  · exact .inl hs
  · have := inv_strictAnti₀ hb hs
    exact .inr (.inl (by linarith))
  · exact .inr (.inr hs)

example : StochLE (dispersionPosterior (List.ofFn ![1 / 4, 1 / 3]) 2 1
      (List.ofFn fun i => ((![0, 3] : Fin 2 → ℕ) i : ℤ)) 5)
    (dispersionPosterior (List.ofFn ![1 / 4, 1 / 3]) 2 1
      (List.ofFn fun i => ((![2, 7] : Fin 2 → ℕ) i : ℤ)) 6) :=
  (C87_dispersion_partial two_pos le_rfl one_pos le_rfl (fun i => by fin_cases i <;> norm_num)
    (fun i => by fin_cases i <;> norm_num) (fun i => by fin_cases i <;> norm_num) (by norm_num)
    (by norm_num)).1

/-- The posterior rises with the probabilities. -/
theorem dispersion_posterior_mono {a r : ℝ} (ha : 0 < a) (hr : 0 < r) {p p' : Fin n → ℝ}
    (hp0 : ∀ i, 0 < p i) (hpp : ∀ i, p i ≤ p' i) (hp1 : ∀ i, p' i < 1) (y : Fin n → ℕ) :
    StochLE (bayes (gammaMeasure a r) (nbDispLik p y))
      (bayes (gammaMeasure a r) (nbDispLik p' y)) := by
  have hp0' := fun i => (hp0 i).trans_le (hpp i)
  have hp1' := fun i => (hpp i).trans_lt (hp1 i)
  have hle : ∑ i, Real.log (p i) ≤ ∑ i, Real.log (p' i) :=
    Finset.sum_le_sum fun i _ => Real.log_le_log (hp0 i) (hpp i)
  have hn : ∀ {q : Fin n → ℝ}, (∀ i, 0 < q i) → (∀ i, q i < 1) → 0 < r + -∑ i, Real.log (q i) :=
    fun h0 h1 => by
      have := Finset.sum_nonpos fun i (_ : i ∈ Finset.univ) => Real.log_nonpos (h0 i).le (h1 i).le
      linarith
  rw [posterior_eq hp0 hp1', posterior_eq hp0' hp1]
  have hd := crtMarg_defined ha hr (hn hp0 hp1') y
  have hd' := crtMarg_defined ha hr (hn hp0' hp1) y
  have htt : -∑ i, Real.log (p' i) ≤ -∑ i, Real.log (p i) := neg_le_neg hle
  generalize (-∑ i, Real.log (p i)) = t at *
  generalize (-∑ i, Real.log (p' i)) = t' at *
  have hmo : Monotone fun x : ℝ => ENNReal.ofReal (Real.exp ((t - t') * x)) := fun x z hxz =>
    ENNReal.ofReal_le_ofReal (Real.exp_le_exp.2 (mul_le_mul_of_nonneg_left hxz (by linarith)))
  have hae : (fun h => crtMarg t y h * ENNReal.ofReal (Real.exp ((t - t') * h)))
      =ᵐ[gammaMeasure a r] crtMarg t' y := by
    filter_upwards [ae_pos_gammaMeasure (a := a) (r := r)] with h hh
    have hG := prod_gamma_pos hh y
    rw [crtMarg, crtMarg, lintegral_crtJoint, lintegral_crtJoint, posOr1_of_pos hh,
      ← ENNReal.ofReal_mul (by positivity), mul_assoc, ← Real.exp_add]
    congr 3
    ring
  have h1 := stochLE_tilt (measurable_crtMarg t y) measurable_id hmo hd (hd'.congr_ae hae.symm)
  rw [Measure.map_id, Measure.map_id] at h1
  rwa [← bayes_congr_ae hae]

/-- **C87 is violated** for the dispersion step: for all counts, priors, current values and
probabilities, raising the success probabilities of the observations raises the posterior of the
dispersion but lowers the draws, strictly so as soon as one probability rises. -/
theorem C87_dispersion_violated {a b : ℝ} (ha : 0 < a) (hb : 0 < b) {p p' : Fin n → ℝ}
    (hp0 : ∀ i, 0 < p i) (hpp : ∀ i, p i ≤ p' i) (hp1 : ∀ i, p' i < 1) (y : Fin n → ℕ) {h : ℝ}
    (hh : 0 < h) :
    StochLE (bayes (gammaMeasure a b⁻¹) (nbDispLik p y))
      (bayes (gammaMeasure a b⁻¹) (nbDispLik p' y)) ∧
    StochLE (dispersionPosterior (List.ofFn p') a b (List.ofFn fun i => (y i : ℤ)) h)
      (dispersionPosterior (List.ofFn p) a b (List.ofFn fun i => (y i : ℤ)) h) ∧
    ((∃ i, p i < p' i) →
      dispersionPosterior (List.ofFn p') a b (List.ofFn fun i => (y i : ℤ)) h (Set.Ioi 1) <
        dispersionPosterior (List.ofFn p) a b (List.ofFn fun i => (y i : ℤ)) h (Set.Ioi 1)) := by
  have hp0' := fun i => (hp0 i).trans_le (hpp i)
  have hp1' := fun i => (hpp i).trans_lt (hp1 i)
  have r1 := rate_pos hb hp0 hp1'
  have r2 := rate_pos hb hp0' hp1
  refine ⟨dispersion_posterior_mono ha (inv_pos.2 hb) hp0 hpp hp1 y, ?_, fun hi => ?_⟩
  · unfold dispersionPosterior
    rw [rate_eq, rate_eq]
    refine stochLE_dispersion (fun _ => le_rfl) hh le_rfl ha le_rfl r1 ?_
    have : ∑ i, Real.log (1 - p' i) ≤ ∑ i, Real.log (1 - p i) := Finset.sum_le_sum fun i _ =>
      Real.log_le_log (by linarith [hp1 i]) (by linarith [hpp i])
    linarith
  · have hlt : b⁻¹ + -∑ i, Real.log (1 - p i) < b⁻¹ + -∑ i, Real.log (1 - p' i) := by
      obtain ⟨i, hi⟩ := hi
      have : ∑ i, Real.log (1 - p' i) < ∑ i, Real.log (1 - p i) :=
        Finset.sum_lt_sum (fun i _ => Real.log_le_log (by linarith [hp1 i]) (by linarith [hpp i]))
          ⟨i, Finset.mem_univ i, Real.log_lt_log (by linarith [hp1 i]) (by linarith)⟩
      linarith
    have hval : ∀ q : Fin n → ℝ,
        dispersionPosterior (List.ofFn q) a b (List.ofFn fun i => (y i : ℤ)) h (Set.Ioi 1) =
          ∫⁻ L, gammaMeasure (a + ((max L 0 : ℤ) : ℝ)) (b⁻¹ + -∑ i, Real.log (1 - q i)) (Set.Ioi 1)
            ∂(crtTotal (List.ofFn fun i => (y i : ℤ)) h).toMeasure := by
      intro q
      unfold dispersionPosterior
      rw [rate_eq, Measure.bind_apply measurableSet_Ioi (Measurable.of_discrete).aemeasurable,
        lintegral_toMeasure, lintegral_toMeasure]
      exact expect_crtTotal_congr hh y fun l => by simp
    have hsh : ∀ L : ℤ, 0 < a + ((max L 0 : ℤ) : ℝ) := fun L => by
      have : (0 : ℝ) ≤ ((max L 0 : ℤ) : ℝ) := by exact_mod_cast le_max_right L 0
      linarith
    rw [hval, hval]
    refine lintegral_strict_mono (IsProbabilityMeasure.ne_zero _)
      (Measurable.of_discrete).aemeasurable ?_
      (ae_of_all _ fun L => gamma_rate_strict (hsh L) r1 hlt)
    refine ne_top_of_le_ne_top (b := 1) ENNReal.one_ne_top ?_
    calc _ ≤ ∫⁻ _, 1 ∂(crtTotal (List.ofFn fun i => (y i : ℤ)) h).toMeasure :=
          lintegral_mono fun L => by
            have := isProbabilityMeasure_gammaMeasure (hsh L) r2
            exact prob_le_one
      _ = 1 := by simp

/-- Two observations; the first success probability rises from `1/4` to `1/2`. -/
example : dispersionPosterior (List.ofFn ![1 / 2, 1 / 3]) 2 1
      (List.ofFn fun i => ((![0, 3] : Fin 2 → ℕ) i : ℤ)) 5 (Set.Ioi 1) <
    dispersionPosterior (List.ofFn ![1 / 4, 1 / 3]) 2 1
      (List.ofFn fun i => ((![0, 3] : Fin 2 → ℕ) i : ℤ)) 5 (Set.Ioi 1) :=
  (C87_dispersion_violated two_pos one_pos (fun i => by fin_cases i <;> norm_num)
    (fun i => by fin_cases i <;> norm_num) (fun i => by fin_cases i <;> norm_num) ![0, 3]
    (by norm_num)).2.2 ⟨0, by norm_num⟩

end Verif.CRT
