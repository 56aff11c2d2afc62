import Verif.Horseshoe.Order
import Verif.CRT.OrderProps

/-!
# Lemmas: larger coefficients strictly raise the drawn global scale
-/

open MeasureTheory ProbabilityTheory Real
open scoped ENNReal

namespace Verif.Horseshoe

variable {p : ℕ}

/-- The factor of a standard exponential variable in `b * lambda2_inv_new`. -/
noncomputable def expFactor (conv : ExpArg) (u c b : ℝ) : ℝ := b / eRate conv (u + c * b)

theorem map_mul_exp_eq (conv : ExpArg) {u c b : ℝ} (hu : 0 < u) (hc : 0 ≤ c) (hb : 0 ≤ b) :
    (gammaMeasure 1 (eRate conv (u + c * b))).map (fun x => b * x) =
      (expMeasure 1).map fun x => expFactor conv u c b * x := by
  have r1 := eRate_pos conv (show 0 < u + c * b by positivity)
  have i1 := isProbabilityMeasure_gammaMeasure one_pos r1
  have i2 := isProbabilityMeasure_expMeasure one_pos
  rcases hb.eq_or_lt with rfl | hb0
  · simp only [expFactor, zero_mul, zero_div]
    rw [Measure.map_const, Measure.map_const, measure_univ, measure_univ]
  · have hf : 0 < expFactor conv u c b := div_pos hb0 r1
    rw [← expMeasure_eq, map_mul_expMeasure hb0 r1, map_mul_expMeasure hf one_pos, expFactor,
      one_div_div]

theorem expFactor_strict (conv : ExpArg) {u c b b' : ℝ} (hu : 0 < u) (hc : 0 ≤ c) (hb : 0 ≤ b)
    (hbb : b < b') : expFactor conv u c b < expFactor conv u c b' := by
  have hb' := hb.trans_lt hbb
  have h1 : 0 < u + c * b := by positivity
  have h2 : 0 < u + c * b' := by positivity
  cases conv
  · simp only [expFactor, eRate]
    rw [div_lt_div_iff₀ h1 h2]
    nlinarith
  · simp only [expFactor, eRate, div_inv_eq_mul]
    have : c * b ≤ c * b' := mul_le_mul_of_nonneg_left hbb.le hc
    nlinarith

theorem expFactor_mono (conv : ExpArg) {u c b b' : ℝ} (hu : 0 < u) (hc : 0 ≤ c) (hb : 0 ≤ b)
    (hbb : b ≤ b') : expFactor conv u c b ≤ expFactor conv u c b' := by
  rcases hbb.eq_or_lt with rfl | h
  · rfl
  · exact (expFactor_strict conv hu hc hb h).le

theorem expFactor_nonneg (conv : ExpArg) {u c b : ℝ} (hu : 0 < u) (hc : 0 ≤ c) (hb : 0 ≤ b) :
    0 ≤ expFactor conv u c b :=
  div_nonneg hb (eRate_pos conv (by positivity)).le

theorem tauLaw_ge_one (rows : ℕ) {sigma2 z : ℝ} (hs : 0 < sigma2) (hz : 0 < z) (v : Fin p → ℝ) :
    tauLaw rows sigma2 z v (Set.Ici 1) = 1 - gammaMeasure (((rows : ℝ) + 1) / 2)
      (z + ∑ j, max (v j) 0 / (2 * sigma2)) (Set.Ioi 1) := by
  have hp : 0 < z + ∑ j, max (v j) 0 / (2 * sigma2) :=
    add_pos_of_pos_of_nonneg hz (Finset.sum_nonneg fun j _ => by positivity)
  have i1 := isProbabilityMeasure_gammaMeasure (half_pos' rows) hp
  rw [tauLaw, posOr1_of_pos hp, Measure.map_apply (by fun_prop) measurableSet_Ici,
    ← prob_compl_eq_one_sub measurableSet_Ioi]
  refine measure_congr ?_
  filter_upwards [ae_pos_gammaMeasure] with t ht
  refine propext ?_
  show 1 ≤ (√t)⁻¹ ↔ ¬ 1 < t
  rw [not_lt, one_le_inv₀ (Real.sqrt_pos.2 ht), Real.sqrt_le_one]

/-- Strictness given the auxiliaries. -/
theorem tau_strict (conv : ExpArg) (rows : ℕ) {sigma2 z c : ℝ} (hs : 0 < sigma2) (hz : 0 < z)
    (hc : 0 ≤ c) {u b b' : Fin p → ℝ} (hu : ∀ j, 0 < u j) (hb : ∀ j, 0 ≤ b j)
    (hbb : ∀ j, b j ≤ b' j) (hlt : ∃ j, b j < b' j) :
    ((Measure.pi fun j => (gammaMeasure 1 (eRate conv (u j + c * b j))).map fun t => b j * t).bind
        (tauLaw rows sigma2 z)) (Set.Ici 1) <
      ((Measure.pi fun j => (gammaMeasure 1 (eRate conv (u j + c * b' j))).map fun t =>
        b' j * t).bind (tauLaw rows sigma2 z)) (Set.Ici 1) := by
  have hb' := fun j => (hb j).trans (hbb j)
  have i0 := isProbabilityMeasure_expMeasure (r := 1) one_pos
  have hmul : ∀ s : ℝ, Measurable fun t : ℝ => s * t := fun s => by fun_prop
  have ht := measurable_tauLaw (p := p) rows sigma2 z
  have hset : Measurable fun v : Fin p → ℝ => tauLaw rows sigma2 z v (Set.Ici 1) :=
    Measure.measurable_measure.1 ht _ measurableSet_Ici
  have hv : ∀ b : Fin p → ℝ, Measurable fun (w : Fin p → ℝ) (j : Fin p) =>
      expFactor conv (u j) c (b j) * w j := fun b => by fun_prop
  have key : ∀ b : Fin p → ℝ, (∀ j, 0 ≤ b j) →
      ((Measure.pi fun j => (gammaMeasure 1 (eRate conv (u j + c * b j))).map fun t => b j * t).bind
        (tauLaw rows sigma2 z)) (Set.Ici 1) =
      ∫⁻ w : Fin p → ℝ, tauLaw rows sigma2 z (fun j => expFactor conv (u j) c (b j) * w j) (Set.Ici 1)
        ∂(Measure.pi fun _ => expMeasure 1) := by
    intro b hb
    have i1 := fun j => Measure.isProbabilityMeasure_map (μ := expMeasure 1)
      (hmul (expFactor conv (u j) c (b j))).aemeasurable
    simp only [fun j => map_mul_exp_eq conv (hu j) hc (hb j)]
    rw [Measure.bind_apply measurableSet_Ici ht.aemeasurable,
      ← Measure.pi_map_pi fun j => (hmul (expFactor conv (u j) c (b j))).aemeasurable,
      lintegral_map hset (hv b)]
  rw [key b hb, key b' hb']
  have hpos : ∀ᵐ w ∂(Measure.pi fun _ : Fin p => expMeasure 1), ∀ j, 0 < w j := by
    have := ae_pos_pi_gamma (p := p) (a := 1) (r := fun _ => 1) one_pos fun _ => one_pos
    simpa only [expMeasure_eq] using this
  refine lintegral_strict_mono (IsProbabilityMeasure.ne_zero _) (hset.comp (hv b')).aemeasurable ?_ ?_
  · refine ne_top_of_le_ne_top (b := 1) ENNReal.one_ne_top ?_
    calc _ ≤ ∫⁻ _ : Fin p → ℝ, 1 ∂(Measure.pi fun _ => expMeasure 1) := lintegral_mono fun w => by
          have := isProbabilityMeasure_tauLaw (p := p) rows sigma2 z
            fun j => expFactor conv (u j) c (b j) * w j
          exact prob_le_one
      _ = 1 := by simp
  · filter_upwards [hpos] with w hw
    have hnn : ∀ b : Fin p → ℝ, (∀ j, 0 ≤ b j) → ∀ j, 0 ≤ expFactor conv (u j) c (b j) * w j :=
      fun b hb j => mul_nonneg (expFactor_nonneg conv (hu j) hc (hb j)) (hw j).le
    rw [tauLaw_ge_one rows hs hz, tauLaw_ge_one rows hs hz]
    simp only [fun j => max_eq_left (hnn b hb j), fun j => max_eq_left (hnn b' hb' j)]
    have hsum : ∑ j, expFactor conv (u j) c (b j) * w j / (2 * sigma2) <
        ∑ j, expFactor conv (u j) c (b' j) * w j / (2 * sigma2) := by
      refine Finset.sum_lt_sum (fun j _ => ?_) ?_
      · have := expFactor_mono conv (hu j) hc (hb j) (hbb j)
        have := (hw j).le
        gcongr
      · obtain ⟨j, hj⟩ := hlt
        refine ⟨j, Finset.mem_univ _, ?_⟩
        have := expFactor_strict conv (hu j) hc (hb j) hj
        have := hw j
        gcongr
    have h0 : 0 ≤ ∑ j, expFactor conv (u j) c (b j) * w j / (2 * sigma2) :=
      Finset.sum_nonneg fun j _ => div_nonneg (hnn b hb j) (by positivity)
    have hr : 0 < z + ∑ j, expFactor conv (u j) c (b j) * w j / (2 * sigma2) := by linarith
    have hlt' := CRT.gamma_rate_strict (half_pos' rows) hr (add_lt_add_right hsum z)
    have i1 := isProbabilityMeasure_gammaMeasure (half_pos' rows) hr
    exact ENNReal.cancel_of_ne (ne_top_of_le_ne_top ENNReal.one_ne_top tsub_le_self)
      |>.tsub_lt_tsub_left_of_le prob_le_one hlt'

end Verif.Horseshoe
