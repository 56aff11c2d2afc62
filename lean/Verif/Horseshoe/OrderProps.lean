import Verif.Horseshoe.OrderStrict

/-!
# Property C87 for the horseshoe scales
-/

open MeasureTheory ProbabilityTheory Real
open scoped ENNReal

namespace Verif.Horseshoe

variable {p : ℕ}

/-- The auxiliary draws. -/
noncomputable abbrev auxLaw (conv : ExpArg) (lambda2 : Fin p → ℝ) (tau2 : ℝ) :
    Measure ((Fin p → ℝ) × ℝ) :=
  (Measure.pi fun j => expDraw conv (1 + 1 / lambda2 j)).prod (expDraw conv (1 + 1 / tau2))

theorem map_fst_horseshoe (conv : ExpArg) (rows : ℕ) (β : Fin p → ℝ) {sigma2 : ℝ} (hs : 0 < sigma2)
    {lambda2 : Fin p → ℝ} (hl : ∀ j, 0 < lambda2 j) {tau2 : ℝ} (ht : 0 < tau2) :
    (horseshoeArray conv rows β sigma2 lambda2 tau2).map Prod.fst =
      (auxLaw conv lambda2 tau2).bind fun x =>
        (lastTwo conv rows β sigma2 tau2 x).map fun q => (ofPrec q).1 := by
  rw [horseshoeArray_eq conv rows β hs hl ht, Measure.map_map measurable_fst measurable_ofPrec,
    map_bind (measurable_lastTwo conv rows β sigma2 tau2).aemeasurable
      (measurable_fst.comp measurable_ofPrec)]
  rfl

theorem map_snd_horseshoe (conv : ExpArg) (rows : ℕ) (β : Fin p → ℝ) {sigma2 : ℝ} (hs : 0 < sigma2)
    {lambda2 : Fin p → ℝ} (hl : ∀ j, 0 < lambda2 j) {tau2 : ℝ} (ht : 0 < tau2) :
    (horseshoeArray conv rows β sigma2 lambda2 tau2).map Prod.snd =
      (auxLaw conv lambda2 tau2).bind fun x =>
        (lastTwo conv rows β sigma2 tau2 x).map fun q => (ofPrec q).2 := by
  rw [horseshoeArray_eq conv rows β hs hl ht, Measure.map_map measurable_snd measurable_ofPrec,
    map_bind (measurable_lastTwo conv rows β sigma2 tau2).aemeasurable
      (measurable_snd.comp measurable_ofPrec)]
  rfl

theorem measurable_fst_lastTwo (conv : ExpArg) (rows : ℕ) (β : Fin p → ℝ) (sigma2 tau2 : ℝ) :
    Measurable fun x => (lastTwo conv rows β sigma2 tau2 x).map fun q => (ofPrec q).1 :=
  (Measure.measurable_map _ measurable_ofPrec.fst).comp (measurable_lastTwo conv rows β sigma2 tau2)

theorem measurable_snd_lastTwo (conv : ExpArg) (rows : ℕ) (β : Fin p → ℝ) (sigma2 tau2 : ℝ) :
    Measurable fun x => (lastTwo conv rows β sigma2 tau2 x).map fun q => (ofPrec q).2 :=
  (Measure.measurable_map _ measurable_ofPrec.snd).comp (measurable_lastTwo conv rows β sigma2 tau2)

theorem sq_le_of_abs {x y : ℝ} (h : |x| ≤ |y|) : x ^ 2 ≤ y ^ 2 := sq_le_sq.2 h

/-- The local scales given the auxiliaries, when one set of rates exceeds the other. -/
theorem stochLE_locals {r r' : Fin p → ℝ} (hr : ∀ j, 0 < r j) (h : ∀ j, r j ≤ r' j) :
    StochLE (Measure.pi fun j => (gammaMeasure 1 (r j)).map fun t => (√t)⁻¹)
      (Measure.pi fun j => (gammaMeasure 1 (r' j)).map fun t => (√t)⁻¹) := by
  have hs : Measurable fun t : ℝ => (√t)⁻¹ := by fun_prop
  have i1 := fun j => isProbabilityMeasure_gammaMeasure one_pos (hr j)
  have i2 := fun j => isProbabilityMeasure_gammaMeasure one_pos ((hr j).trans_le (h j))
  have i3 := fun j => Measure.isProbabilityMeasure_map (μ := gammaMeasure 1 (r j)) hs.aemeasurable
  have i4 := fun j => Measure.isProbabilityMeasure_map (μ := gammaMeasure 1 (r' j)) hs.aemeasurable
  exact stochLE_pi fun j => StochLE.map_antitoneOn (stochLE_gamma one_pos (hr j) le_rfl (h j))
    ae_pos_gammaMeasure ae_pos_gammaMeasure hs antitone_prec

/-- The global scale rises with the coefficients. -/
theorem stochLE_global (conv : ExpArg) (rows : ℕ) {β β' : Fin p → ℝ}
    (hβ : ∀ j, |β j| ≤ |β' j|) {sigma2 : ℝ} (hs : 0 < sigma2) {lambda2 : Fin p → ℝ}
    (hl : ∀ j, 0 < lambda2 j) {tau2 : ℝ} (ht : 0 < tau2) :
    StochLE ((horseshoeArray conv rows β sigma2 lambda2 tau2).map Prod.snd)
      ((horseshoeArray conv rows β' sigma2 lambda2 tau2).map Prod.snd) := by
  rw [map_snd_horseshoe conv rows β hs hl ht, map_snd_horseshoe conv rows β' hs hl ht]
  refine stochLE_bind_ae (measurable_snd_lastTwo _ _ _ _ _) (measurable_snd_lastTwo _ _ _ _ _) ?_
  filter_upwards [ae_pos_auxLaw conv hl ht] with x hx
  rw [map_snd_lastTwo, map_snd_lastTwo]
  have e : ∀ b : ℝ, b / (2 * sigma2 * tau2) = (2 * sigma2 * tau2)⁻¹ * b := fun b => by
    rw [div_eq_inv_mul]
  have hpos : ∀ (b : ℝ) j, 0 ≤ b → 0 < x.1 j + (2 * sigma2 * tau2)⁻¹ * b := fun b j hb =>
    add_pos_of_pos_of_nonneg (hx.1 j) (by positivity)
  have hp1 := fun j => eRate_pos conv (hpos _ j (sq_nonneg (β j)))
  have hp2 := fun j => eRate_pos conv (hpos _ j (sq_nonneg (β' j)))
  simp only [e, fun j => posOr1_of_pos (hp1 j), fun j => posOr1_of_pos (hp2 j)]
  have i1 := fun j => isProbabilityMeasure_gammaMeasure one_pos (hp1 j)
  have i2 := fun j => isProbabilityMeasure_gammaMeasure one_pos (hp2 j)
  have hm : ∀ b : ℝ, Measurable fun t : ℝ => b * t := fun b => by fun_prop
  have i3 := fun j => Measure.isProbabilityMeasure_map (hm (β j ^ 2)).aemeasurable
    (μ := gammaMeasure 1 (eRate conv (x.1 j + (2 * sigma2 * tau2)⁻¹ * β j ^ 2)))
  have i4 := fun j => Measure.isProbabilityMeasure_map (hm (β' j ^ 2)).aemeasurable
    (μ := gammaMeasure 1 (eRate conv (x.1 j + (2 * sigma2 * tau2)⁻¹ * β' j ^ 2)))
  have i5 := isProbabilityMeasure_tauLaw (p := p) rows sigma2 x.2
  exact StochLE.bind (stochLE_pi fun j => stochLE_scaled conv (hx.1 j)
      (inv_nonneg.2 (by positivity)) (sq_nonneg (β j)) (sq_le_of_abs (hβ j)))
    (measurable_tauLaw rows sigma2 x.2) (measurable_tauLaw rows sigma2 x.2)
    (fun v v' h => tauLaw_mono rows hs hx.2 h) fun v => StochLE.refl _

/-- **C87.** Larger coefficients (in absolute value) give a larger drawn global scale, for arrays of
every size, all values of the scales, and whichever way the library reads the argument of the
exponential generator; if one coefficient is strictly larger, the probability that the global scale is
at least 1 is strictly larger. -/
theorem C87_horseshoe_global (conv : ExpArg) (rows : ℕ) {β β' : Fin p → ℝ}
    (hβ : ∀ j, |β j| ≤ |β' j|) {sigma2 : ℝ} (hs : 0 < sigma2) {lambda2 : Fin p → ℝ}
    (hl : ∀ j, 0 < lambda2 j) {tau2 : ℝ} (ht : 0 < tau2) :
    StochLE ((horseshoeArray conv rows β sigma2 lambda2 tau2).map Prod.snd)
      ((horseshoeArray conv rows β' sigma2 lambda2 tau2).map Prod.snd) ∧
    ((∃ j, |β j| < |β' j|) →
      horseshoeArray conv rows β sigma2 lambda2 tau2 {q | 1 ≤ q.2} <
        horseshoeArray conv rows β' sigma2 lambda2 tau2 {q | 1 ≤ q.2}) := by
  refine ⟨stochLE_global conv rows hβ hs hl ht, fun hj => ?_⟩
  have e0 : {q : (Fin p → ℝ) × ℝ | 1 ≤ q.2} = Prod.snd ⁻¹' Set.Ici 1 := rfl
  have hle : ∀ b : Fin p → ℝ, horseshoeArray conv rows b sigma2 lambda2 tau2 {q | 1 ≤ q.2} =
      ∫⁻ x, (lastTwo conv rows b sigma2 tau2 x).map (fun q => (ofPrec q).2) (Set.Ici 1)
        ∂auxLaw conv lambda2 tau2 := fun b => by
    rw [e0, ← Measure.map_apply measurable_snd measurableSet_Ici,
      map_snd_horseshoe conv rows b hs hl ht,
      Measure.bind_apply measurableSet_Ici (measurable_snd_lastTwo _ _ _ _ _).aemeasurable]
  have i1 := isProbabilityMeasure_auxLaw conv hl ht
  rw [hle, hle]
  refine lintegral_strict_mono (IsProbabilityMeasure.ne_zero _)
    (Measure.measurable_measure.1 (measurable_snd_lastTwo conv rows β' sigma2 tau2) _
      measurableSet_Ici).aemeasurable ?_ ?_
  · refine ne_top_of_le_ne_top (b := 1) ENNReal.one_ne_top ?_
    calc _ ≤ ∫⁻ _, 1 ∂auxLaw conv lambda2 tau2 := lintegral_mono fun x => by
          have := isProbabilityMeasure_lastTwo conv rows β sigma2 tau2 x
          have := Measure.isProbabilityMeasure_map measurable_ofPrec.snd.aemeasurable
            (μ := lastTwo conv rows β sigma2 tau2 x)
          exact prob_le_one
      _ = 1 := by simp
  · filter_upwards [ae_pos_auxLaw conv hl ht] with x hx
    rw [map_snd_lastTwo, map_snd_lastTwo]
    have e : ∀ b : ℝ, b / (2 * sigma2 * tau2) = (2 * sigma2 * tau2)⁻¹ * b := fun b => by
      rw [div_eq_inv_mul]
    have hpos : ∀ (b : ℝ) j, 0 ≤ b → 0 < x.1 j + (2 * sigma2 * tau2)⁻¹ * b := fun b j hb =>
      add_pos_of_pos_of_nonneg (hx.1 j) (by positivity)
    simp only [e, fun j => posOr1_of_pos (eRate_pos conv (hpos _ j (sq_nonneg (β j)))),
      fun j => posOr1_of_pos (eRate_pos conv (hpos _ j (sq_nonneg (β' j))))]
    obtain ⟨j, hj⟩ := hj
    exact tau_strict conv rows hs hx.2 (inv_nonneg.2 (by positivity)) hx.1
      (fun j => sq_nonneg (β j)) (fun j => sq_le_of_abs (hβ j)) ⟨j, sq_lt_sq.2 hj⟩

example : StochLE ((horseshoeArray .scale 2 ![0, -1] 1 ![1, 4] 3).map Prod.snd)
    ((horseshoeArray .scale 2 ![1 / 2, 5] 1 ![1, 4] 3).map Prod.snd) :=
  (C87_horseshoe_global .scale 2 (fun j => by fin_cases j <;> norm_num [abs_le, le_abs]) one_pos
    (fun j => by fin_cases j <;> norm_num) (by norm_num)).1

/-- **C87 (partial).** If the argument of the exponential generator is read as a rate, larger
coefficients give larger drawn local scales.  Missing for the full property: the library reads it as
the mean, where the direction is reversed (`C87_horseshoe_local_violated`). -/
theorem C87_horseshoe_local_rate_partial (rows : ℕ) {β β' : Fin p → ℝ}
    (hβ : ∀ j, |β j| ≤ |β' j|) {sigma2 : ℝ} (hs : 0 < sigma2) {lambda2 : Fin p → ℝ}
    (hl : ∀ j, 0 < lambda2 j) {tau2 : ℝ} (ht : 0 < tau2) :
    StochLE ((horseshoeArray .rate rows β sigma2 lambda2 tau2).map Prod.fst)
      ((horseshoeArray .rate rows β' sigma2 lambda2 tau2).map Prod.fst) := by
  rw [map_fst_horseshoe .rate rows β hs hl ht, map_fst_horseshoe .rate rows β' hs hl ht]
  refine stochLE_bind_ae (measurable_fst_lastTwo _ _ _ _ _) (measurable_fst_lastTwo _ _ _ _ _) ?_
  filter_upwards [ae_pos_auxLaw .rate hl ht] with x hx
  rw [map_fst_lastTwo, map_fst_lastTwo]
  have hpos : ∀ (b : ℝ) j, 0 < x.1 j + b ^ 2 / (2 * sigma2 * tau2) := fun b j =>
    add_pos_of_pos_of_nonneg (hx.1 j) (by positivity)
  simp only [eRate, fun j => posOr1_of_pos (hpos (β j) j), fun j => posOr1_of_pos (hpos (β' j) j)]
  refine stochLE_locals (fun j => hpos _ j) fun j => ?_
  have := sq_le_of_abs (hβ j)
  gcongr

example : StochLE ((horseshoeArray .rate 2 ![0, -1] 1 ![1, 4] 3).map Prod.fst)
    ((horseshoeArray .rate 2 ![1 / 2, 5] 1 ![1, 4] 3).map Prod.fst) :=
  C87_horseshoe_local_rate_partial 2 (fun j => by fin_cases j <;> norm_num [abs_le, le_abs]) one_pos
    (fun j => by fin_cases j <;> norm_num) (by norm_num)

/-- The probability that the precision of one coefficient exceeds 1. -/
theorem expMeasure_Ioi {r : ℝ} (hr : 0 < r) {t : ℝ} (ht : 0 ≤ t) :
    gammaMeasure 1 r (Set.Ioi t) = ENNReal.ofReal (rexp (-(r * t))) := by
  have i1 := isProbabilityMeasure_expMeasure hr
  rw [← expMeasure_eq, ← Set.compl_Iic, prob_compl_eq_one_sub measurableSet_Iic]
  have h := cdf_expMeasure_eq hr t
  rw [cdf_eq_real, if_pos ht, Measure.real] at h
  have hle : rexp (-(r * t)) ≤ 1 := Real.exp_le_one_iff.2 (by nlinarith)
  rw [← ENNReal.ofReal_toReal (measure_ne_top (expMeasure r) (Set.Iic t)), h,
    ← ENNReal.ofReal_one, ← ENNReal.ofReal_sub _ (by linarith)]
  congr 1
  ring

theorem local_ge_one {r : Fin p → ℝ} (hr : ∀ j, 0 < r j) (j : Fin p) :
    (Measure.pi fun k => (gammaMeasure 1 (r k)).map fun t => (√t)⁻¹) {w | 1 ≤ w j} =
      ENNReal.ofReal (1 - rexp (-r j)) := by
  have hsq : Measurable fun t : ℝ => (√t)⁻¹ := by fun_prop
  have i1 := fun j => isProbabilityMeasure_gammaMeasure one_pos (hr j)
  have i3 := fun k => Measure.isProbabilityMeasure_map hsq.aemeasurable (μ := gammaMeasure 1 (r k))
  have hev := (measurePreserving_eval
    (μ := fun k => (gammaMeasure 1 (r k)).map fun t => (√t)⁻¹) j).map_eq
  have e1 : {w : Fin p → ℝ | 1 ≤ w j} = Function.eval j ⁻¹' Set.Ici 1 := rfl
  rw [e1, ← Measure.map_apply (measurable_pi_apply j) measurableSet_Ici, hev,
    Measure.map_apply hsq measurableSet_Ici]
  have e2 : gammaMeasure 1 (r j) ((fun t => (√t)⁻¹) ⁻¹' Set.Ici 1) =
      gammaMeasure 1 (r j) (Set.Ioi 1)ᶜ := by
    refine measure_congr ?_
    filter_upwards [ae_pos_gammaMeasure] with t ht
    refine propext ?_
    show 1 ≤ (√t)⁻¹ ↔ ¬ 1 < t
    rw [not_lt, one_le_inv₀ (Real.sqrt_pos.2 ht), Real.sqrt_le_one]
  rw [e2, prob_compl_eq_one_sub measurableSet_Ioi, expMeasure_Ioi (hr j) zero_le_one, mul_one,
    ← ENNReal.ofReal_one, ← ENNReal.ofReal_sub _ (Real.exp_pos _).le]

/-- **C87 is violated** for the local scales: with the library's reading (the argument of the
exponential generator is the mean) larger coefficients give *smaller* drawn local scales, for arrays of
every size and all values; and a coefficient that is strictly larger strictly lowers the probability
that its local scale is at least 1. -/
theorem C87_horseshoe_local_violated (rows : ℕ) {β β' : Fin p → ℝ}
    (hβ : ∀ j, |β j| ≤ |β' j|) {sigma2 : ℝ} (hs : 0 < sigma2) {lambda2 : Fin p → ℝ}
    (hl : ∀ j, 0 < lambda2 j) {tau2 : ℝ} (ht : 0 < tau2) :
    StochLE ((horseshoeArray .scale rows β' sigma2 lambda2 tau2).map Prod.fst)
      ((horseshoeArray .scale rows β sigma2 lambda2 tau2).map Prod.fst) ∧
    ∀ j, |β j| < |β' j| →
      horseshoeArray .scale rows β' sigma2 lambda2 tau2 {q | 1 ≤ q.1 j} <
        horseshoeArray .scale rows β sigma2 lambda2 tau2 {q | 1 ≤ q.1 j} := by
  have hpos : ∀ {x : (Fin p → ℝ) × ℝ}, AllPos x → ∀ (b : ℝ) j,
      0 < x.1 j + b ^ 2 / (2 * sigma2 * tau2) := fun hx b j =>
    add_pos_of_pos_of_nonneg (hx.1 j) (by positivity)
  refine ⟨?_, fun j hj => ?_⟩
  · rw [map_fst_horseshoe .scale rows β hs hl ht, map_fst_horseshoe .scale rows β' hs hl ht]
    refine stochLE_bind_ae (measurable_fst_lastTwo _ _ _ _ _) (measurable_fst_lastTwo _ _ _ _ _) ?_
    filter_upwards [ae_pos_auxLaw .scale hl ht] with x hx
    rw [map_fst_lastTwo, map_fst_lastTwo]
    have h1 := fun j => inv_pos.2 (hpos hx (β j) j)
    have h2 := fun j => inv_pos.2 (hpos hx (β' j) j)
    simp only [eRate, fun j => posOr1_of_pos (h1 j), fun j => posOr1_of_pos (h2 j)]
    refine stochLE_locals h2 fun j => inv_anti₀ (hpos hx _ j) ?_
    have := sq_le_of_abs (hβ j)
    gcongr
  · have hm : MeasurableSet {w : Fin p → ℝ | 1 ≤ w j} :=
      measurableSet_le measurable_const (measurable_pi_apply j)
    have hval : ∀ b : Fin p → ℝ, ∀ x, AllPos x →
        (lastTwo .scale rows b sigma2 tau2 x).map (fun q => (ofPrec q).1) {w | 1 ≤ w j} =
          ENNReal.ofReal (1 - rexp (-(x.1 j + b j ^ 2 / (2 * sigma2 * tau2))⁻¹)) := by
      intro b x hx
      have h1 := fun j => inv_pos.2 (hpos hx (b j) j)
      rw [map_fst_lastTwo]
      simp only [eRate, fun j => posOr1_of_pos (h1 j)]
      exact local_ge_one h1 j
    have hle : ∀ b : Fin p → ℝ, horseshoeArray .scale rows b sigma2 lambda2 tau2 {q | 1 ≤ q.1 j} =
        ∫⁻ x, ENNReal.ofReal (1 - rexp (-(x.1 j + b j ^ 2 / (2 * sigma2 * tau2))⁻¹))
          ∂auxLaw .scale lambda2 tau2 := by
      intro b
      have e0 : {q : (Fin p → ℝ) × ℝ | 1 ≤ q.1 j} = Prod.fst ⁻¹' {w | 1 ≤ w j} := rfl
      rw [e0, ← Measure.map_apply measurable_fst hm, map_fst_horseshoe .scale rows b hs hl ht,
        Measure.bind_apply hm (measurable_fst_lastTwo _ _ _ _ _).aemeasurable]
      refine lintegral_congr_ae ?_
      filter_upwards [ae_pos_auxLaw .scale hl ht] with x hx using hval b x hx
    have i1 := isProbabilityMeasure_auxLaw .scale hl ht
    rw [hle, hle]
    refine lintegral_strict_mono (IsProbabilityMeasure.ne_zero _) ?_ ?_ ?_
    · have : Measurable fun x : (Fin p → ℝ) × ℝ => x.1 j := by fun_prop
      fun_prop
    · refine ne_top_of_le_ne_top (b := 1) ENNReal.one_ne_top ?_
      calc _ ≤ ∫⁻ _, 1 ∂auxLaw .scale lambda2 tau2 := lintegral_mono fun x => by
            rw [← ENNReal.ofReal_one]
            exact ENNReal.ofReal_le_ofReal (by
              have := Real.exp_pos (-(x.1 j + β' j ^ 2 / (2 * sigma2 * tau2))⁻¹)
              linarith)
        _ = 1 := by simp
    · filter_upwards [ae_pos_auxLaw .scale hl ht] with x hx
      have h1 := hpos hx (β j) j
      have h2 := hpos hx (β' j) j
      have hsq : β j ^ 2 < β' j ^ 2 := sq_lt_sq.2 hj
      have h3 : (x.1 j + β' j ^ 2 / (2 * sigma2 * tau2))⁻¹ <
          (x.1 j + β j ^ 2 / (2 * sigma2 * tau2))⁻¹ := by
        refine inv_strictAnti₀ h1 ?_
        gcongr
      rw [ENNReal.ofReal_lt_ofReal_iff]
      · have := Real.exp_lt_exp.2 (neg_lt_neg h3)
        linarith
      · have : rexp (-(x.1 j + β j ^ 2 / (2 * sigma2 * tau2))⁻¹) < 1 :=
          Real.exp_lt_one_iff.2 (neg_lt_zero.2 (inv_pos.2 h1))
        linarith

/-- Twice as large a first coefficient. -/
example : horseshoeArray .scale 2 ![2, -1] 1 ![1, 4] 3 {q | 1 ≤ q.1 0} <
    horseshoeArray .scale 2 ![1, -1] 1 ![1, 4] 3 {q | 1 ≤ q.1 0} :=
  (C87_horseshoe_local_violated 2 (fun j => by fin_cases j <;> norm_num) one_pos
    (fun j => by fin_cases j <;> norm_num) (by norm_num)).2 0 (by norm_num)

end Verif.Horseshoe
