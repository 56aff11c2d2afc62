import Verif.Horseshoe.Scale

/-!
# Scale reading: a bound on powers of a local precision that needs nothing about the coefficients

Powers of a new local precision, counted only while the new global precision is not small, are bounded by
powers of the old precisions alone.
-/

open MeasureTheory ProbabilityTheory Real
open scoped ENNReal

namespace Verif.Horseshoe

variable {p : ℕ}

/-- Powers of a gamma variable. -/
theorem lintegral_rpow_gamma {a s r : ℝ} (ha : 0 < a) (hs : 0 < s) (hr : 0 < r) :
    ∫⁻ t, ENNReal.ofReal (t ^ s) ∂gammaMeasure a r =
      ENNReal.ofReal (Gamma (a + s) / Gamma a * r ^ (-s)) := by
  have hG : 0 < Gamma (a + s) := Gamma_pos_of_pos (by linarith)
  have hGa : 0 < Gamma a := Gamma_pos_of_pos ha
  have hm : ∀ b, Measurable fun x => ENNReal.ofReal (gammaPDFReal b r x) := fun b =>
    (measurable_gammaPDFReal _ _).ennreal_ofReal
  have h1 : ∫⁻ t, ENNReal.ofReal (t ^ s) ∂gammaMeasure a r =
      ∫⁻ t, ENNReal.ofReal (Gamma (a + s) / Gamma a * r ^ (-s)) *
        ENNReal.ofReal (gammaPDFReal (a + s) r t) ∂volPos := by
    rw [gammaMeasure_eq_volPos, lintegral_withDensity_eq_lintegral_mul _ (hm a) (by fun_prop)]
    refine lintegral_congr_ae ?_
    filter_upwards [ae_volPos] with t ht
    rw [Pi.mul_apply, ← ENNReal.ofReal_mul (gammaPDFReal_nonneg ha hr _),
      ← ENNReal.ofReal_mul (by positivity)]
    congr 1
    have hta : t ^ (a + s - 1) = t ^ (a - 1) * t ^ s := by
      rw [← rpow_add ht]
      congr 1
      ring
    rw [gammaPDFReal, gammaPDFReal, if_pos ht.le, if_pos ht.le, hta, rpow_add hr, rpow_neg hr.le]
    have := rpow_pos_of_pos hr s
    field_simp
  have ip := isProbabilityMeasure_gammaMeasure (show 0 < a + s by positivity) hr
  have h2 : ∫⁻ t, ENNReal.ofReal (gammaPDFReal (a + s) r t) ∂volPos = 1 := by
    have := measure_univ (μ := gammaMeasure (a + s) r)
    rwa [gammaMeasure_eq_volPos, withDensity_apply _ MeasurableSet.univ, Measure.restrict_univ] at this
  rw [h1, lintegral_const_mul _ (hm _), h2, mul_one]

/-- A weight that is one when the global precision is at least `1 / T²`. -/
noncomputable def cut (T t : ℝ) : ℝ≥0∞ := min 1 (ENNReal.ofReal (√T * t ^ (1 / 4 : ℝ)))

theorem measurable_cut (T : ℝ) : Measurable (cut T) := by
  unfold cut
  fun_prop

/-- The constant of the bound. -/
noncomputable def cutC (rows : ℕ) (T : ℝ) : ℝ :=
  √T * (Gamma (((rows : ℝ) + 1) / 2 + 1 / 4) / Gamma (((rows : ℝ) + 1) / 2))

theorem cutC_nonneg (rows : ℕ) (T : ℝ) : 0 ≤ cutC rows T := by
  have h1 := Gamma_pos_of_pos (half_pos' rows)
  have h2 : 0 < Gamma (((rows : ℝ) + 1) / 2 + 1 / 4) := Gamma_pos_of_pos (by positivity)
  unfold cutC
  positivity

theorem lintegral_cut_le (rows : ℕ) (T : ℝ) {R : ℝ} (hR : 0 < R) :
    ∫⁻ t, cut T t ∂gammaMeasure (((rows : ℝ) + 1) / 2) R ≤
      ENNReal.ofReal (min 1 (cutC rows T * R ^ (-(1 / 4) : ℝ))) := by
  have ip := isProbabilityMeasure_gammaMeasure (half_pos' rows) hR
  have hmin : ENNReal.ofReal (min 1 (cutC rows T * R ^ (-(1 / 4) : ℝ))) =
      min 1 (ENNReal.ofReal (cutC rows T * R ^ (-(1 / 4) : ℝ))) := by
    rw [← ENNReal.ofReal_one]
    exact (Monotone.map_min fun _ _ h => ENNReal.ofReal_le_ofReal h)
  rw [hmin]
  refine le_min ((lintegral_mono fun t => min_le_left _ _).trans (by simp)) ?_
  refine (lintegral_mono fun t => min_le_right _ _).trans (le_of_eq ?_)
  simp only [ENNReal.ofReal_mul (sqrt_nonneg T)]
  rw [lintegral_const_mul' _ _ ENNReal.ofReal_ne_top,
    lintegral_rpow_gamma (half_pos' rows) (by norm_num) hR, ← ENNReal.ofReal_mul (sqrt_nonneg T), cutC,
    mul_assoc]

theorem cut_real_bound {w u c W R s K : ℝ} (hw : 0 < w) (hu : 0 < u) (hc : 0 ≤ c) (hW : 0 < W)
    (hR : 0 < R) (hle : w * c / W ≤ R) (hs : 0 < s) (hs2 : s ≤ 1 / 2) (hK : 0 ≤ K) :
    w ^ s * min 1 (K * R ^ (-(1 / 4) : ℝ)) ≤
      (u / (u + c)) ^ s * w ^ s + 1 + K * (W / (u + c)) ^ (1 / 4 : ℝ) * w ^ (1 / 4 : ℝ) := by
  have hm0 : 0 ≤ min 1 (K * R ^ (-(1 / 4) : ℝ)) := le_min zero_le_one (by positivity)
  have hm1 : min 1 (K * R ^ (-(1 / 4) : ℝ)) ≤ 1 := min_le_left _ _
  have ha : 0 < u + c := by linarith
  have hsplit : w ^ s ≤ (u / (u + c)) ^ s * w ^ s + (w * c / (u + c)) ^ s := by
    rw [← mul_rpow (by positivity) hw.le]
    refine le_trans (le_of_eq ?_) (rpow_add_le_add_rpow (by positivity) (by positivity) hs.le (by linarith))
    congr 1
    field_simp
  have hsec : (w * c / (u + c)) ^ s * min 1 (K * R ^ (-(1 / 4) : ℝ)) ≤
      1 + K * (W / (u + c)) ^ (1 / 4 : ℝ) * w ^ (1 / 4 : ℝ) := by
    rcases hc.eq_or_lt with h0 | hc
    · rw [← h0, mul_zero, zero_div, zero_rpow hs.ne', zero_mul]
      positivity
    · set e := w * c / (u + c) with he
      have he0 : 0 < e := by positivity
      have h1 : e ^ s ≤ 1 + e ^ (1 / 2 : ℝ) := by
        rcases le_total e 1 with h | h
        · have := rpow_le_one he0.le h hs.le
          have := rpow_nonneg he0.le (1 / 2)
          linarith
        · have := rpow_le_rpow_of_exponent_le h hs2
          linarith
      have h2 : e ^ (1 / 2 : ℝ) * R ^ (-(1 / 4) : ℝ) ≤ (W / (u + c)) ^ (1 / 4 : ℝ) * w ^ (1 / 4 : ℝ) := by
        have h3 : R ^ (-(1 / 4) : ℝ) ≤ (w * c / W) ^ (-(1 / 4) : ℝ) :=
          rpow_le_rpow_of_nonpos (by positivity) hle (by norm_num)
        have h4 : e ≤ w := by
          rw [he, div_le_iff₀ ha]
          nlinarith
        calc e ^ (1 / 2 : ℝ) * R ^ (-(1 / 4) : ℝ)
            ≤ e ^ (1 / 2 : ℝ) * (w * c / W) ^ (-(1 / 4) : ℝ) := by gcongr
          _ = e ^ (1 / 4 : ℝ) * (W / (u + c)) ^ (1 / 4 : ℝ) := by
              have h5 : e ^ (1 / 2 : ℝ) = e ^ (1 / 4 : ℝ) * e ^ (1 / 4 : ℝ) := by
                rw [← rpow_add he0]
                norm_num
              rw [h5, rpow_neg (by positivity), mul_assoc, ← div_eq_mul_inv,
                ← div_rpow he0.le (by positivity)]
              congr 2
              rw [he]
              field_simp
          _ ≤ w ^ (1 / 4 : ℝ) * (W / (u + c)) ^ (1 / 4 : ℝ) := by gcongr
          _ = _ := mul_comm _ _
      calc e ^ s * min 1 (K * R ^ (-(1 / 4) : ℝ))
          ≤ (1 + e ^ (1 / 2 : ℝ)) * min 1 (K * R ^ (-(1 / 4) : ℝ)) := by gcongr
        _ = min 1 (K * R ^ (-(1 / 4) : ℝ)) + e ^ (1 / 2 : ℝ) * min 1 (K * R ^ (-(1 / 4) : ℝ)) := by ring
        _ ≤ 1 + e ^ (1 / 2 : ℝ) * (K * R ^ (-(1 / 4) : ℝ)) := by
            gcongr
            exact min_le_right _ _
        _ = 1 + K * (e ^ (1 / 2 : ℝ) * R ^ (-(1 / 4) : ℝ)) := by ring
        _ ≤ 1 + K * ((W / (u + c)) ^ (1 / 4 : ℝ) * w ^ (1 / 4 : ℝ)) := by gcongr
        _ = _ := by ring
  calc w ^ s * min 1 (K * R ^ (-(1 / 4) : ℝ))
      ≤ ((u / (u + c)) ^ s * w ^ s + (w * c / (u + c)) ^ s) * min 1 (K * R ^ (-(1 / 4) : ℝ)) := by gcongr
    _ = (u / (u + c)) ^ s * w ^ s * min 1 (K * R ^ (-(1 / 4) : ℝ)) +
        (w * c / (u + c)) ^ s * min 1 (K * R ^ (-(1 / 4) : ℝ)) := by ring
    _ ≤ (u / (u + c)) ^ s * w ^ s * 1 + (1 + K * (W / (u + c)) ^ (1 / 4 : ℝ) * w ^ (1 / 4 : ℝ)) := by
        gcongr
    _ = _ := by ring

/-- The bound given the auxiliary draws. -/
theorem cut_lastTwo (rows : ℕ) (β : Fin p → ℝ) {q : (Fin p → ℝ) × ℝ} (hq : AllPos q) (j : Fin p)
    {s : ℝ} (hs : 0 < s) (hs2 : s ≤ 1 / 2) (T : ℝ) {x : (Fin p → ℝ) × ℝ} (hx : AllPos x) :
    ∫⁻ r, ENNReal.ofReal (r.1 j ^ s) * cut T r.2 ∂lastTwo .scale rows β 1 (q.2 ^ 2) x ≤
      ENNReal.ofReal (Gamma (1 + s) * x.1 j ^ s) + 1 +
        ENNReal.ofReal (cutC rows T * Gamma (1 + 1 / 4) * (toPrec q).2 ^ (1 / 4 : ℝ)) := by
  have hm : Measurable fun r : (Fin p → ℝ) × ℝ => ENNReal.ofReal (r.1 j ^ s) * cut T r.2 :=
    Measurable.mul (by fun_prop) ((measurable_cut T).comp measurable_snd)
  have hT : 0 < (toPrec q).2 := inv_pos.2 (pow_pos hq.2 2)
  have hT' : (toPrec q).2 = (q.2 ^ 2)⁻¹ := rfl
  have hK := cutC_nonneg rows T
  have hGs : 0 < Gamma (1 + s) := Gamma_pos_of_pos (by linarith)
  have hG4 : 0 < Gamma (1 + 1 / 4) := Gamma_pos_of_pos (by norm_num)
  have hc0 : 0 ≤ β j ^ 2 / (2 * 1 * q.2 ^ 2) := by positivity
  have hu := hx.1 j
  have hpos : 0 < x.1 j + β j ^ 2 / (2 * 1 * q.2 ^ 2) := add_pos_of_pos_of_nonneg hu hc0
  have hpow : ∀ k : ℝ, Measurable fun t : ℝ => ENNReal.ofReal (t ^ k) := fun k => by fun_prop
  unfold lastTwo
  rw [Measure.lintegral_bind (measurable_lastDraw_right rows β 1 x).aemeasurable hm.aemeasurable]
  -- the global draw
  have hb : ∀ᵐ w ∂(Measure.pi fun j =>
      gammaMeasure 1 (posOr1 (eRate .scale (x.1 j + β j ^ 2 / (2 * 1 * q.2 ^ 2))))),
      ∫⁻ r, ENNReal.ofReal (r.1 j ^ s) * cut T r.2 ∂lastDraw rows β 1 (x, w) ≤
        (fun t : ℝ => ENNReal.ofReal ((x.1 j / (x.1 j + β j ^ 2 / (2 * 1 * q.2 ^ 2))) ^ s) *
            ENNReal.ofReal (t ^ s) + 1 +
          ENNReal.ofReal (cutC rows T * ((toPrec q).2 / (x.1 j + β j ^ 2 / (2 * 1 * q.2 ^ 2))) ^ (1 / 4 : ℝ)) *
            ENNReal.ofReal (t ^ (1 / 4 : ℝ))) (w j) := by
    filter_upwards [ae_pos_pi_gamma one_pos fun j => posOr1_pos _] with w hw
    have hpair : Measurable fun t : ℝ => (w, t) := measurable_const.prodMk measurable_id
    have hsum : 0 ≤ ∑ i, β i ^ 2 * w i / (2 * 1) := Finset.sum_nonneg fun i _ => by
      have := hw i
      positivity
    have hRpos : 0 < x.2 + ∑ i, β i ^ 2 * w i / (2 * 1) := add_pos_of_pos_of_nonneg hx.2 hsum
    have hRge : w j * (β j ^ 2 / (2 * 1 * q.2 ^ 2)) / (toPrec q).2 ≤
        x.2 + ∑ i, β i ^ 2 * w i / (2 * 1) := by
      have h1 : β j ^ 2 * w j / (2 * 1) ≤ ∑ i, β i ^ 2 * w i / (2 * 1) :=
        Finset.single_le_sum (f := fun i => β i ^ 2 * w i / (2 * 1)) (fun i _ => by
          have := hw i
          positivity) (Finset.mem_univ j)
      have h2 : w j * (β j ^ 2 / (2 * 1 * q.2 ^ 2)) / (toPrec q).2 = β j ^ 2 * w j / (2 * 1) := by
        have := hq.2
        rw [hT']
        field_simp
      have := hx.2
      linarith
    rw [lastDraw, lintegral_map hm hpair, posOr1_of_pos hRpos]
    simp only
    rw [lintegral_const_mul' _ _ ENNReal.ofReal_ne_top]
    refine (mul_le_mul_right (lintegral_cut_le rows T hRpos) _).trans ?_
    have hwj := hw j
    rw [← ENNReal.ofReal_mul (by positivity), ← ENNReal.ofReal_mul (by positivity),
      ← ENNReal.ofReal_mul (by positivity), ← ENNReal.ofReal_one,
      ← ENNReal.ofReal_add (by positivity) zero_le_one, ← ENNReal.ofReal_add (by positivity) (by positivity)]
    exact ENNReal.ofReal_le_ofReal (cut_real_bound hwj hu hc0 hT hRpos hRge hs hs2 hK)
  refine (lintegral_mono_ae hb).trans ?_
  have hmg : Measurable fun t : ℝ =>
      ENNReal.ofReal ((x.1 j / (x.1 j + β j ^ 2 / (2 * 1 * q.2 ^ 2))) ^ s) * ENNReal.ofReal (t ^ s) + 1 +
        ENNReal.ofReal (cutC rows T * ((toPrec q).2 / (x.1 j + β j ^ 2 / (2 * 1 * q.2 ^ 2))) ^ (1 / 4 : ℝ)) *
          ENNReal.ofReal (t ^ (1 / 4 : ℝ)) :=
    (((hpow s).const_mul _).add_const _).add ((hpow _).const_mul _)
  have ip := isProbabilityMeasure_gammaMeasure one_pos
    (inv_pos.2 hpos)
  rw [lintegral_pi_coord (fun i => isProbabilityMeasure_gammaMeasure one_pos (posOr1_pos _)) j hmg,
    posOr1_of_pos (eRate_pos .scale hpos)]
  show ∫⁻ t, _ ∂gammaMeasure 1 (x.1 j + β j ^ 2 / (2 * 1 * q.2 ^ 2))⁻¹ ≤ _
  rw [lintegral_add_right _ ((hpow _).const_mul _), lintegral_add_right _ measurable_const,
    lintegral_const_mul' _ _ ENNReal.ofReal_ne_top, lintegral_const_mul' _ _ ENNReal.ofReal_ne_top,
    lintegral_rpow_exp hs hpos, lintegral_rpow_exp (by norm_num) hpos, lintegral_const, measure_univ,
    mul_one (1 : ℝ≥0∞), ← ENNReal.ofReal_mul (by positivity), ← ENNReal.ofReal_mul (by positivity)]
  refine add_le_add (add_le_add (le_of_eq (congrArg _ ?_)) le_rfl) (le_of_eq (congrArg _ ?_))
  · have := rpow_pos_of_pos hpos s
    rw [div_rpow hu.le hpos.le]
    generalize (x.1 j + β j ^ 2 / (2 * 1 * q.2 ^ 2)) ^ s = a at this ⊢
    field_simp
  · have := rpow_pos_of_pos hpos (1 / 4)
    rw [div_rpow hT.le hpos.le]
    generalize (x.1 j + β j ^ 2 / (2 * 1 * q.2 ^ 2)) ^ (1 / 4 : ℝ) = a at this ⊢
    generalize Gamma (1 + 1 / 4) = g
    field_simp

/-- The bound for one step: the coefficients have disappeared. -/
theorem cut_step (rows : ℕ) (β : Fin p → ℝ) {q : (Fin p → ℝ) × ℝ} (hq : AllPos q) (j : Fin p)
    {s : ℝ} (hs : 0 < s) (hs2 : s ≤ 1 / 2) (T : ℝ) :
    ∫⁻ r, ENNReal.ofReal ((toPrec r).1 j ^ s) * cut T (toPrec r).2
        ∂horseshoeArray .scale rows β 1 (fun j => q.1 j ^ 2) (q.2 ^ 2) ≤
      ENNReal.ofReal (Gamma (1 + s) * Gamma (1 + s)) * (1 + ENNReal.ofReal ((toPrec q).1 j ^ s)) + 1 +
        ENNReal.ofReal (cutC rows T * Gamma (1 + 1 / 4)) * ENNReal.ofReal ((toPrec q).2 ^ (1 / 4 : ℝ)) := by
  have hl : ∀ j, 0 < q.1 j ^ 2 := fun j => pow_pos (hq.1 j) 2
  have ht : 0 < q.2 ^ 2 := pow_pos hq.2 2
  have hm : Measurable fun r : (Fin p → ℝ) × ℝ => ENNReal.ofReal (r.1 j ^ s) * cut T r.2 :=
    Measurable.mul (by fun_prop) ((measurable_cut T).comp measurable_snd)
  have hprob := isProbabilityMeasure_auxLaw .scale hl ht
  have hexp : ∀ r : ℝ, 0 < r → IsProbabilityMeasure (expDraw .scale r) := fun r hr =>
    isProbabilityMeasure_gammaMeasure one_pos (inv_pos.2 hr)
  have hpi : ∀ i, IsProbabilityMeasure (expDraw .scale (1 + 1 / q.1 i ^ 2)) := fun i =>
    hexp _ (add_pos one_pos (one_div_pos.2 (hl i)))
  have ht' : IsProbabilityMeasure (expDraw .scale (1 + 1 / q.2 ^ 2)) :=
    hexp _ (add_pos one_pos (one_div_pos.2 ht))
  have hK := cutC_nonneg rows T
  have hGs : 0 < Gamma (1 + s) := Gamma_pos_of_pos (by linarith)
  have hG4 : 0 < Gamma (1 + 1 / 4) := Gamma_pos_of_pos (by norm_num)
  have hW : 0 < (toPrec q).1 j := inv_pos.2 (hl j)
  rw [← lintegral_map (f := fun r : (Fin p → ℝ) × ℝ => ENNReal.ofReal (r.1 j ^ s) * cut T r.2) hm
    measurable_toPrec, horseshoeArray_map_toPrec .scale rows β one_pos hl ht,
    Measure.lintegral_bind (measurable_lastTwo .scale rows β 1 (q.2 ^ 2)).aemeasurable
      hm.aemeasurable]
  have e2 : ∫⁻ x, ∫⁻ r, ENNReal.ofReal (r.1 j ^ s) * cut T r.2 ∂lastTwo .scale rows β 1 (q.2 ^ 2) x
      ∂((Measure.pi fun j => expDraw .scale (1 + 1 / q.1 j ^ 2)).prod (expDraw .scale (1 + 1 / q.2 ^ 2))) ≤
      ∫⁻ x, (fun y : Fin p → ℝ => ENNReal.ofReal (Gamma (1 + s) * y j ^ s) + 1 +
        ENNReal.ofReal (cutC rows T * Gamma (1 + 1 / 4) * (toPrec q).2 ^ (1 / 4 : ℝ))) x.1
      ∂((Measure.pi fun j => expDraw .scale (1 + 1 / q.1 j ^ 2)).prod
        (expDraw .scale (1 + 1 / q.2 ^ 2))) := by
    refine lintegral_mono_ae ?_
    filter_upwards [ae_pos_auxLaw .scale hl ht] with x hx using cut_lastTwo rows β hq j hs hs2 T hx
  refine e2.trans ?_
  have hfst : MeasurePreserving (Prod.fst : (Fin p → ℝ) × ℝ → Fin p → ℝ)
      ((Measure.pi fun j => expDraw .scale (1 + 1 / q.1 j ^ 2)).prod (expDraw .scale (1 + 1 / q.2 ^ 2)))
      (Measure.pi fun j => expDraw .scale (1 + 1 / q.1 j ^ 2)) := measurePreserving_fst
  have hF : Measurable fun u : ℝ => ENNReal.ofReal (Gamma (1 + s) * u ^ s) + 1 +
      ENNReal.ofReal (cutC rows T * Gamma (1 + 1 / 4) * (toPrec q).2 ^ (1 / 4 : ℝ)) := by fun_prop
  have hFj : Measurable fun y : Fin p → ℝ => ENNReal.ofReal (Gamma (1 + s) * y j ^ s) + 1 +
      ENNReal.ofReal (cutC rows T * Gamma (1 + 1 / 4) * (toPrec q).2 ^ (1 / 4 : ℝ)) := by fun_prop
  have hX : 0 < 1 + (toPrec q).1 j := by positivity
  have eX : expDraw .scale (1 + 1 / q.1 j ^ 2) = gammaMeasure 1 (1 + (toPrec q).1 j)⁻¹ := by
    simp only [toPrec, one_div]
    rfl
  have hpj := hpi j
  rw [hfst.lintegral_comp hFj, lintegral_pi_coord hpi j hF, lintegral_add_right _ measurable_const,
    lintegral_add_right _ measurable_const, lintegral_const, lintegral_const, measure_univ, mul_one,
    mul_one, ENNReal.ofReal_mul (by positivity)]
  refine add_le_add (add_le_add ?_ le_rfl) le_rfl
  simp only [ENNReal.ofReal_mul hGs.le]
  rw [lintegral_const_mul' _ _ ENNReal.ofReal_ne_top, eX, lintegral_rpow_exp hs hX,
    ENNReal.ofReal_mul hGs.le, ← mul_assoc]
  refine mul_le_mul_right ?_ _
  rw [← ENNReal.ofReal_one, ← ENNReal.ofReal_add zero_le_one (by positivity)]
  refine ENNReal.ofReal_le_ofReal ?_
  have := rpow_add_le_add_rpow zero_le_one hW.le hs.le (by linarith : s ≤ 1)
  rwa [one_rpow] at this

end Verif.Horseshoe
