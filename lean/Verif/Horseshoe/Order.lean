import Verif.Horseshoe.Prec
import Verif.Prob.Order
import Mathlib.Probability.CDF

/-!
# Lemmas: how the drawn scales move with the coefficients
-/

open MeasureTheory ProbabilityTheory Real
open scoped ENNReal

namespace Verif

theorem stochLE_bind_ae {δ β : Type*} [MeasurableSpace δ] [MeasurableSpace β] [Preorder β]
    {μ : Measure δ} {K L : δ → Measure β}
    (hK : Measurable K) (hL : Measurable L) (h : ∀ᵐ x ∂μ, StochLE (K x) (L x)) :
    StochLE (μ.bind K) (μ.bind L) := by
  intro A hA hU
  rw [Measure.bind_apply hA hK.aemeasurable, Measure.bind_apply hA hL.aemeasurable]
  exact lintegral_mono_ae (h.mono fun x hx => hx A hA hU)

/-- Decreasing functions of positive draws. -/
theorem StochLE.map_antitoneOn {μ ν : Measure ℝ} [IsProbabilityMeasure μ] [IsProbabilityMeasure ν]
    (h : StochLE μ ν) (hμ : ∀ᵐ x ∂μ, 0 < x) (hν : ∀ᵐ x ∂ν, 0 < x) {f : ℝ → ℝ} (hf : Measurable f)
    (hm : AntitoneOn f (Set.Ioi 0)) : StochLE (ν.map f) (μ.map f) := by
  intro A hA hU
  rw [Measure.map_apply hf hA, Measure.map_apply hf hA]
  have hB : MeasurableSet ((f ⁻¹' A)ᶜ ∩ Set.Ioi 0) := (hf hA).compl.inter measurableSet_Ioi
  have hup : IsUpperSet ((f ⁻¹' A)ᶜ ∩ Set.Ioi 0) := fun x y hxy hx =>
    ⟨fun hy => hx.1 (hU (hm hx.2 (lt_of_lt_of_le hx.2 hxy) hxy) hy), lt_of_lt_of_le hx.2 hxy⟩
  have h1 := h _ hB hup
  have e : ∀ ξ : Measure ℝ, (∀ᵐ x ∂ξ, 0 < x) → ξ ((f ⁻¹' A)ᶜ ∩ Set.Ioi 0) = ξ (f ⁻¹' A)ᶜ :=
    fun ξ hξ => measure_congr (by
      filter_upwards [hξ] with x hx
      exact propext ⟨fun h => h.1, fun h => ⟨h, hx⟩⟩)
  rw [e μ hμ, e ν hν, prob_compl_eq_one_sub (hf hA), prob_compl_eq_one_sub (hf hA)] at h1
  have := tsub_le_tsub_left h1 (1 : ℝ≥0∞)
  rwa [ENNReal.sub_sub_cancel ENNReal.one_ne_top prob_le_one,
    ENNReal.sub_sub_cancel ENNReal.one_ne_top prob_le_one] at this

/-- A nonnegative draw exceeds zero. -/
theorem stochLE_dirac_zero {ν : Measure ℝ} [IsProbabilityMeasure ν] (h : ∀ᵐ x ∂ν, 0 ≤ x) :
    StochLE (Measure.dirac 0) ν := by
  intro A hA hU
  by_cases h0 : (0 : ℝ) ∈ A
  · have : ν A = 1 := (prob_compl_eq_zero_iff hA).1 (by
      refine measure_mono_null (fun x hx => ?_) h
      exact fun hx' => hx (hU hx' h0))
    rw [this]
    exact prob_le_one
  · rw [Measure.dirac_apply' _ hA, Set.indicator_of_notMem h0]
    exact zero_le

/-- A multiple of an exponential draw is an exponential draw. -/
theorem map_mul_expMeasure {b r : ℝ} (hb : 0 < b) (hr : 0 < r) :
    (expMeasure r).map (fun x => b * x) = expMeasure (r / b) := by
  have i1 := isProbabilityMeasure_expMeasure hr
  have i2 := isProbabilityMeasure_expMeasure (div_pos hr hb)
  have hm : Measurable fun x : ℝ => b * x := by fun_prop
  have i3 := Measure.isProbabilityMeasure_map (μ := expMeasure r) hm.aemeasurable
  refine Measure.eq_of_cdf _ _ ?_
  ext x
  have e : (fun x => b * x) ⁻¹' Set.Iic x = Set.Iic (x / b) := by
    ext y
    simp only [Set.mem_preimage, Set.mem_Iic, le_div_iff₀ hb, mul_comm]
  rw [cdf_eq_real, Measure.real, Measure.map_apply hm measurableSet_Iic, e, ← Measure.real,
    ← cdf_eq_real, cdf_expMeasure_eq hr, cdf_expMeasure_eq (div_pos hr hb)]
  have : 0 ≤ x / b ↔ 0 ≤ x := by rw [le_div_iff₀ hb, zero_mul]
  simp only [this]
  congr 4
  ring

theorem antitone_prec : AntitoneOn (fun t : ℝ => (√t)⁻¹) (Set.Ioi 0) := fun _ hx _ _ hxy =>
  inv_anti₀ (Real.sqrt_pos.2 hx) (Real.sqrt_le_sqrt hxy)

namespace Horseshoe

variable {p : ℕ}

/-- The scaled precision of one coefficient. -/
theorem stochLE_scaled (conv : ExpArg) {u c b b' : ℝ} (hu : 0 < u) (hc : 0 ≤ c) (hb : 0 ≤ b)
    (hbb : b ≤ b') :
    StochLE ((gammaMeasure 1 (eRate conv (u + c * b))).map fun x => b * x)
      ((gammaMeasure 1 (eRate conv (u + c * b'))).map fun x => b' * x) := by
  have hb' := hb.trans hbb
  have h1 : 0 < u + c * b := by positivity
  have h2 : 0 < u + c * b' := by positivity
  have r1 := eRate_pos conv h1
  have r2 := eRate_pos conv h2
  have i1 := isProbabilityMeasure_gammaMeasure one_pos r1
  have i2 := isProbabilityMeasure_gammaMeasure one_pos r2
  rcases hb.eq_or_lt with rfl | hb0
  · simp only [zero_mul]
    rw [Measure.map_const, measure_univ, one_smul]
    have hm : Measurable fun x : ℝ => b' * x := by fun_prop
    have := Measure.isProbabilityMeasure_map (μ := gammaMeasure 1 (eRate conv (u + c * b')))
      hm.aemeasurable
    refine stochLE_dirac_zero ?_
    rw [ae_map_iff hm.aemeasurable measurableSet_Ici]
    filter_upwards [ae_pos_gammaMeasure] with x hx
    positivity
  · have hb0' := hb0.trans_le hbb
    rw [← expMeasure_eq, ← expMeasure_eq, map_mul_expMeasure hb0 r1, map_mul_expMeasure hb0' r2]
    refine stochLE_gamma one_pos (div_pos r2 hb0') le_rfl ?_
    rw [div_le_div_iff₀ hb0' hb0]
    cases conv
    · simp only [eRate]
      nlinarith
    · simp only [eRate]
      have : (u + c * b')⁻¹ ≤ (u + c * b)⁻¹ := inv_anti₀ h1 (by nlinarith)
      exact mul_le_mul this hbb hb0.le (inv_pos.2 h1).le

theorem map_fst_lastTwo (conv : ExpArg) (rows : ℕ) (β : Fin p → ℝ) (sigma2 tau2 : ℝ)
    (x : (Fin p → ℝ) × ℝ) :
    (lastTwo conv rows β sigma2 tau2 x).map (fun q => (ofPrec q).1) =
      Measure.pi fun j => (gammaMeasure 1 (posOr1
        (eRate conv (x.1 j + β j ^ 2 / (2 * sigma2 * tau2))))).map fun t => (√t)⁻¹ := by
  have hm : Measurable fun q : (Fin p → ℝ) × ℝ => (ofPrec q).1 := measurable_ofPrec.fst
  have hs : Measurable fun t : ℝ => (√t)⁻¹ := by fun_prop
  have hv : Measurable fun (w : Fin p → ℝ) (j : Fin p) => (√(w j))⁻¹ := by fun_prop
  have i1 : ∀ j, IsProbabilityMeasure (gammaMeasure 1 (posOr1
        (eRate conv (x.1 j + β j ^ 2 / (2 * sigma2 * tau2))))) := fun j =>
    isProbabilityMeasure_gammaMeasure one_pos (posOr1_pos _)
  have i2 := fun j => Measure.isProbabilityMeasure_map (μ := gammaMeasure 1 (posOr1
        (eRate conv (x.1 j + β j ^ 2 / (2 * sigma2 * tau2))))) hs.aemeasurable
  rw [lastTwo, map_bind (measurable_lastDraw_right rows β sigma2 x).aemeasurable hm,
    ← Measure.pi_map_pi fun j => hs.aemeasurable, ← Measure.bind_dirac_eq_map _ hv]
  congr 1
  funext w
  have i3 := isProbabilityMeasure_gammaMeasure (half_pos' rows)
    (posOr1_pos (x.2 + ∑ j, β j ^ 2 * w j / (2 * sigma2)))
  have hp : Measurable fun t : ℝ => (w, t) := measurable_const.prodMk measurable_id
  rw [lastDraw, Measure.map_map hm hp]
  have e : ((fun q : (Fin p → ℝ) × ℝ => (ofPrec q).1) ∘ fun t : ℝ => (w, t)) =
      fun _ => fun j => (√(w j))⁻¹ := rfl
  rw [e, Measure.map_const, measure_univ, one_smul]

/-- The law of the global scale given the auxiliaries. -/
noncomputable def tauLaw (rows : ℕ) (sigma2 z : ℝ) (v : Fin p → ℝ) : Measure ℝ :=
  (gammaMeasure (((rows : ℝ) + 1) / 2) (posOr1 (z + ∑ j, max (v j) 0 / (2 * sigma2)))).map
    fun t => (√t)⁻¹

theorem measurable_tauLaw (rows : ℕ) (sigma2 z : ℝ) :
    Measurable (tauLaw (p := p) rows sigma2 z) := by
  have hK : Measurable fun v : Fin p → ℝ =>
      gammaMeasure (((rows : ℝ) + 1) / 2) (posOr1 (z + ∑ j, max (v j) 0 / (2 * sigma2))) :=
    (measurable_gammaMeasure_rate _).comp (measurable_posOr1.comp (by fun_prop))
  exact (Measure.measurable_map _ (by fun_prop)).comp hK

theorem isProbabilityMeasure_tauLaw (rows : ℕ) (sigma2 z : ℝ) (v : Fin p → ℝ) :
    IsProbabilityMeasure (tauLaw rows sigma2 z v) := by
  have := isProbabilityMeasure_gammaMeasure (half_pos' rows)
    (posOr1_pos (z + ∑ j, max (v j) 0 / (2 * sigma2)))
  exact Measure.isProbabilityMeasure_map (by fun_prop)

theorem tauLaw_mono (rows : ℕ) {sigma2 z : ℝ} (hs : 0 < sigma2) (hz : 0 < z) {v v' : Fin p → ℝ}
    (h : v ≤ v') : StochLE (tauLaw rows sigma2 z v) (tauLaw rows sigma2 z v') := by
  have hp : ∀ v : Fin p → ℝ, 0 < z + ∑ j, max (v j) 0 / (2 * sigma2) := fun v =>
    add_pos_of_pos_of_nonneg hz (Finset.sum_nonneg fun j _ => by positivity)
  unfold tauLaw
  rw [posOr1_of_pos (hp v), posOr1_of_pos (hp v')]
  have i1 := isProbabilityMeasure_gammaMeasure (half_pos' rows) (hp v)
  have i2 := isProbabilityMeasure_gammaMeasure (half_pos' rows) (hp v')
  refine StochLE.map_antitoneOn (stochLE_gamma (half_pos' rows) (hp v) le_rfl ?_)
    ae_pos_gammaMeasure ae_pos_gammaMeasure (by fun_prop) antitone_prec
  gcongr with j
  exact h j

theorem map_snd_lastTwo (conv : ExpArg) (rows : ℕ) (β : Fin p → ℝ) (sigma2 tau2 : ℝ)
    (x : (Fin p → ℝ) × ℝ) :
    (lastTwo conv rows β sigma2 tau2 x).map (fun q => (ofPrec q).2) =
      (Measure.pi fun j => (gammaMeasure 1 (posOr1
        (eRate conv (x.1 j + β j ^ 2 / (2 * sigma2 * tau2))))).map fun t => β j ^ 2 * t).bind
          (tauLaw rows sigma2 x.2) := by
  have hm : Measurable fun q : (Fin p → ℝ) × ℝ => (ofPrec q).2 := measurable_ofPrec.snd
  have hs : ∀ j, Measurable fun t : ℝ => β j ^ 2 * t := fun j => by fun_prop
  have hv : Measurable fun (w : Fin p → ℝ) (j : Fin p) => β j ^ 2 * w j := by fun_prop
  have i1 : ∀ j, IsProbabilityMeasure (gammaMeasure 1 (posOr1
        (eRate conv (x.1 j + β j ^ 2 / (2 * sigma2 * tau2))))) := fun j =>
    isProbabilityMeasure_gammaMeasure one_pos (posOr1_pos _)
  have i2 := fun j => Measure.isProbabilityMeasure_map (μ := gammaMeasure 1 (posOr1
        (eRate conv (x.1 j + β j ^ 2 / (2 * sigma2 * tau2))))) (hs j).aemeasurable
  have hd : Measurable fun (w : Fin p → ℝ) => Measure.dirac fun j : Fin p => β j ^ 2 * w j :=
    Measure.measurable_dirac.comp hv
  rw [lastTwo, map_bind (measurable_lastDraw_right rows β sigma2 x).aemeasurable hm,
    ← Measure.pi_map_pi fun j => (hs j).aemeasurable, ← Measure.bind_dirac_eq_map _ hv,
    Measure.bind_bind hd.aemeasurable
      (measurable_tauLaw rows sigma2 x.2).aemeasurable]
  refine Measure.bind_congr_right ?_
  filter_upwards [ae_pos_pi_gamma one_pos fun j => posOr1_pos _] with w hw
  have hp : Measurable fun t : ℝ => (w, t) := measurable_const.prodMk measurable_id
  rw [Measure.dirac_bind (measurable_tauLaw rows sigma2 x.2), lastDraw, Measure.map_map hm hp, tauLaw]
  have e : ∀ j, max (β j ^ 2 * w j) 0 = β j ^ 2 * w j := fun j =>
    max_eq_left (by have := hw j; positivity)
  simp only [e]
  rfl

end Horseshoe

end Verif
