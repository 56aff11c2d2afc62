import Verif.Horseshoe.Array
import Verif.Prob.ChangeVar
import Mathlib.Analysis.SpecialFunctions.Gamma.BohrMollerup
import Mathlib.Analysis.Convex.SpecificFunctions.Pow

/-!
# Scale reading: the posterior is never invariant

The mean of a power of one local precision grows under the step.
-/

open MeasureTheory ProbabilityTheory Real
open scoped ENNReal

namespace Verif.Horseshoe

theorem lintegral_rpow_div_lt_top {s : ℝ} (h1 : -1 < s) (h2 : s < 0) :
    ∫⁻ w, ENNReal.ofReal (w ^ s / (1 + w)) ∂volPos < ∞ := by
  have hu : Set.Ioi (0 : ℝ) = Set.Ioc 0 1 ∪ Set.Ioi 1 := (Set.Ioc_union_Ioi_eq_Ioi zero_le_one).symm
  unfold volPos
  rw [hu]
  refine (lintegral_union_le _ _ _).trans_lt (ENNReal.add_lt_top.2 ⟨?_, ?_⟩)
  · have hi : IntegrableOn (fun w : ℝ => w ^ s) (Set.Ioc 0 1) :=
      (intervalIntegrable_iff_integrableOn_Ioc_of_le zero_le_one).1
        (intervalIntegral.intervalIntegrable_rpow' h1)
    refine lt_of_le_of_lt ?_ hi.lintegral_lt_top
    refine setLIntegral_mono_ae (by fun_prop) (ae_of_all _ fun w hw => ENNReal.ofReal_le_ofReal ?_)
    have hw0 : 0 < w := hw.1
    exact div_le_self (rpow_nonneg hw0.le _) (by linarith)
  · have hi : IntegrableOn (fun w : ℝ => w ^ (s - 1)) (Set.Ioi 1) :=
      integrableOn_Ioi_rpow_of_lt (by linarith) one_pos
    refine lt_of_le_of_lt ?_ hi.lintegral_lt_top
    refine setLIntegral_mono_ae (by fun_prop) (ae_of_all _ fun w hw => ENNReal.ofReal_le_ofReal ?_)
    have hw1 : 1 < w := hw
    have hw0 : 0 < w := by linarith
    rw [rpow_sub_one hw0.ne']
    exact div_le_div_of_nonneg_left (rpow_nonneg hw0.le _) hw0 (by linarith)

/-- Integrals over the two precisions. -/
theorem lintegral_refM_one {F : ℝ → ℝ → ℝ≥0∞} (hF : Measurable fun q : ℝ × ℝ => F q.1 q.2) :
    ∫⁻ r, F (r.1 0) r.2 ∂refM 1 = ∫⁻ w, ∫⁻ t, F w t ∂volPos ∂volPos := by
  have hm : (Measure.pi fun _ : Fin 1 => volPos).map (fun x => x 0) = volPos :=
    (measurePreserving_funUnique volPos (Fin 1)).map_eq
  have e : (refM 1).map (Prod.map (fun x : Fin 1 → ℝ => x 0) id) = volPos.prod volPos := by
    rw [← Measure.map_prod_map _ _ (by fun_prop) measurable_id, hm, Measure.map_id]
  have h2 := lintegral_map (μ := refM 1) (f := fun q : ℝ × ℝ => F q.1 q.2)
    (g := Prod.map (fun x : Fin 1 → ℝ => x 0) id) hF (by fun_prop)
  rw [e, lintegral_prod _ hF.aemeasurable] at h2
  exact h2.symm

/-- The marginal density of the two precisions. -/
noncomputable def marg1 (c w t : ℝ) : ℝ := exp (-(c * w * t)) / (1 + w) / (1 + t)

theorem marg1_symm (c w t : ℝ) : marg1 c w t = marg1 c t w := by
  unfold marg1
  rw [div_div, div_div, mul_comm (1 + w), mul_right_comm]

theorem marg_one (c : Fin 1 → ℝ) (r : (Fin 1 → ℝ) × ℝ) : marg c r = marg1 (c 0) (r.1 0) r.2 := by
  simp [marg, marg1]
  ring

theorem measurable_marg1 (c : ℝ) : Measurable fun q : ℝ × ℝ => marg1 c q.1 q.2 := by
  unfold marg1; fun_prop


/-! ## Moments of the posterior -/

theorem exp_neg_le_rpow {y r : ℝ} (hy : 0 < y) (h0 : 0 ≤ r) (h2 : r ≤ 2) :
    exp (-y) ≤ 2 * y ^ (-r) := by
  rw [exp_neg, rpow_neg hy.le, ← div_eq_mul_inv, inv_eq_one_div,
    div_le_div_iff₀ (exp_pos _) (rpow_pos_of_pos hy _), one_mul]
  rcases le_total y 1 with h | h
  · have h3 := rpow_le_one hy.le h h0
    have h4 := one_le_exp hy.le
    linarith
  · have h3 : y ^ r ≤ y ^ (2 : ℝ) := rpow_le_rpow_of_exponent_le h h2
    have h4 := quadratic_le_exp_of_nonneg hy.le
    rw [rpow_two] at h3
    nlinarith

/-- Integrals of products of powers of the precisions against the posterior density. -/
theorem moments_lt_top {p : ℕ} {c : Fin p → ℝ} (hc : ∀ j, 0 < c j) (a r : Fin p → ℝ) (b : ℝ)
    (h0 : ∀ j, 0 ≤ r j) (h2 : ∀ j, r j ≤ 2) (ha : ∀ j, -1 < a j - r j) (ha' : ∀ j, a j - r j < 0)
    (hs : -1 < ((p : ℝ) - 1) / 2 + b - ∑ j, r j) (hs' : ((p : ℝ) - 1) / 2 + b - ∑ j, r j < 0) :
    ∫⁻ x, ENNReal.ofReal (marg c x) * ENNReal.ofReal ((∏ j, x.1 j ^ a j) * x.2 ^ b) ∂refM p < ∞ := by
  have hm : ∀ s : ℝ, Measurable fun t : ℝ => ENNReal.ofReal (t ^ s / (1 + t)) := fun s => by fun_prop
  have hmj : Measurable fun x : Fin p → ℝ =>
      ∏ j, (fun t : ℝ => ENNReal.ofReal (t ^ (a j - r j) / (1 + t))) (x j) :=
    Finset.measurable_prod _ fun j _ => (hm _).comp (measurable_pi_apply j)
  have hb : ∫⁻ x, ENNReal.ofReal (marg c x) * ENNReal.ofReal ((∏ j, x.1 j ^ a j) * x.2 ^ b) ∂refM p ≤
      ∫⁻ x, ENNReal.ofReal (∏ j, 2 * c j ^ (-r j)) *
        ((∏ j, (fun t : ℝ => ENNReal.ofReal (t ^ (a j - r j) / (1 + t))) (x.1 j)) *
          ENNReal.ofReal (x.2 ^ (((p : ℝ) - 1) / 2 + b - ∑ j, r j) / (1 + x.2))) ∂refM p := by
    refine lintegral_mono_ae ?_
    filter_upwards [ae_volPos_prod p] with x hx
    have hx1 := hx.1
    have hx2 : 0 < x.2 := hx.2
    have hnn : ∀ j, 0 ≤ x.1 j ^ (a j - r j) / (1 + x.1 j) := fun j => by
      have := hx1 j
      positivity
    have hcc : 0 ≤ ∏ j, 2 * c j ^ (-r j) := Finset.prod_nonneg fun j _ => by
      have := hc j
      positivity
    have hpp : 0 ≤ ∏ j, x.1 j ^ a j := Finset.prod_nonneg fun j _ => by
      have := hx1 j
      positivity
    have hmg : 0 ≤ marg c x := mul_nonneg (Finset.prod_nonneg fun j _ => by
      have := hx1 j
      positivity) (by positivity)
    rw [← ENNReal.ofReal_prod_of_nonneg fun j _ => hnn j,
      ← ENNReal.ofReal_mul (Finset.prod_nonneg fun j _ => hnn j), ← ENNReal.ofReal_mul hcc,
      ← ENNReal.ofReal_mul hmg]
    refine ENNReal.ofReal_le_ofReal ?_
    have h1 : (∏ j, exp (-(c j * x.1 j * x.2)) / (1 + x.1 j)) * ∏ j, x.1 j ^ a j ≤
        (∏ j, 2 * c j ^ (-r j)) * (∏ j, x.1 j ^ (a j - r j) / (1 + x.1 j)) * ∏ j, x.2 ^ (-r j) := by
      rw [← Finset.prod_mul_distrib, ← Finset.prod_mul_distrib, ← Finset.prod_mul_distrib]
      refine Finset.prod_le_prod (fun j _ => ?_) fun j _ => ?_
      · have := hx1 j
        positivity
      · have hj := hx1 j
        have hcj := hc j
        have he := exp_neg_le_rpow (show 0 < c j * x.1 j * x.2 by positivity) (h0 j) (h2 j)
        rw [mul_rpow (by positivity) hx2.le, mul_rpow hcj.le hj.le] at he
        have hsub : x.1 j ^ (a j - r j) = x.1 j ^ (-r j) * x.1 j ^ a j := by
          rw [← rpow_add hj]
          congr 1
          ring
        calc exp (-(c j * x.1 j * x.2)) / (1 + x.1 j) * x.1 j ^ a j
            ≤ 2 * (c j ^ (-r j) * x.1 j ^ (-r j) * x.2 ^ (-r j)) / (1 + x.1 j) * x.1 j ^ a j := by
              gcongr
          _ = _ := by
              rw [hsub]
              field_simp
    have hq : (∏ j, x.2 ^ (-r j)) * (x.2 ^ (((p : ℝ) - 1) / 2) * x.2 ^ b / (1 + x.2)) =
        x.2 ^ (((p : ℝ) - 1) / 2 + b - ∑ j, r j) / (1 + x.2) := by
      rw [← rpow_sum_of_pos hx2, Finset.sum_neg_distrib, mul_div_assoc', ← rpow_add hx2, ← rpow_add hx2]
      congr 2
      ring
    calc marg c x * ((∏ j, x.1 j ^ a j) * x.2 ^ b)
        = ((∏ j, exp (-(c j * x.1 j * x.2)) / (1 + x.1 j)) * ∏ j, x.1 j ^ a j) *
          (x.2 ^ (((p : ℝ) - 1) / 2) * x.2 ^ b / (1 + x.2)) := by
          unfold marg
          ring
      _ ≤ ((∏ j, 2 * c j ^ (-r j)) * (∏ j, x.1 j ^ (a j - r j) / (1 + x.1 j)) *
          ∏ j, x.2 ^ (-r j)) * (x.2 ^ (((p : ℝ) - 1) / 2) * x.2 ^ b / (1 + x.2)) :=
          mul_le_mul_of_nonneg_right h1 (by positivity)
      _ = _ := by
          rw [mul_assoc, hq, mul_assoc]
  refine hb.trans_lt ?_
  rw [lintegral_const_mul' _ _ ENNReal.ofReal_ne_top,
    lintegral_prod_mul (f := fun x : Fin p → ℝ =>
      ∏ j, (fun t : ℝ => ENNReal.ofReal (t ^ (a j - r j) / (1 + t))) (x j))
      (g := fun t => ENNReal.ofReal (t ^ (((p : ℝ) - 1) / 2 + b - ∑ j, r j) / (1 + t)))
      hmj.aemeasurable (hm _).aemeasurable,
    lintegral_fin_prod (fun _ : Fin p => volPos)
      (f := fun j t => ENNReal.ofReal (t ^ (a j - r j) / (1 + t))) fun j => hm _]
  refine ENNReal.mul_lt_top ENNReal.ofReal_lt_top (ENNReal.mul_lt_top ?_
    (lintegral_rpow_div_lt_top hs hs'))
  exact ENNReal.prod_lt_top fun j _ => lintegral_rpow_div_lt_top (ha j) (ha' j)

theorem moment_lt_top {p : ℕ} {c : Fin p → ℝ} (hc : ∀ j, 0 < c j) (a r : Fin p → ℝ)
    (h0 : ∀ j, 0 ≤ r j) (h2 : ∀ j, r j ≤ 2) (ha : ∀ j, -1 < a j - r j) (ha' : ∀ j, a j - r j < 0)
    (hs : -1 < ((p : ℝ) - 1) / 2 - ∑ j, r j) (hs' : ((p : ℝ) - 1) / 2 - ∑ j, r j < 0) :
    ∫⁻ x, ENNReal.ofReal (marg c x) * ENNReal.ofReal (∏ j, x.1 j ^ a j) ∂refM p < ∞ := by
  have h := moments_lt_top hc a r 0 h0 h2 ha ha' (by rwa [add_zero]) (by rwa [add_zero])
  simpa only [rpow_zero, mul_one] using h

/-- The mean of a power of one local precision, up to the normalising constant. -/
noncomputable def powMass {p : ℕ} (c : Fin p → ℝ) (j : Fin p) (s : ℝ) : ℝ≥0∞ :=
  ∫⁻ x, ENNReal.ofReal (marg c x) * ENNReal.ofReal (x.1 j ^ s) ∂refM p

theorem powMass_eq {p : ℕ} (c : Fin p → ℝ) (j : Fin p) (s : ℝ) : powMass c j s =
    ∫⁻ x, ENNReal.ofReal (marg c x) * ENNReal.ofReal (∏ i, x.1 i ^ (if i = j then s else 0)) ∂refM p := by
  refine lintegral_congr fun x => ?_
  congr 2
  rw [Finset.prod_eq_single j (fun i _ hi => by rw [if_neg hi, rpow_zero])
    fun h => absurd (Finset.mem_univ j) h, if_pos rfl]

/-- One coefficient: powers less than one have finite mean. -/
theorem powMass_one_lt_top {c : Fin 1 → ℝ} (hc : ∀ j, 0 < c j) {s : ℝ} (h0 : 0 < s) (h1 : s < 1) :
    powMass c 0 s < ∞ := by
  rw [powMass_eq]
  refine moment_lt_top hc _ (fun _ => (s + 1) / 2) (fun _ => by linarith) (fun _ => by linarith)
    (fun j => ?_) (fun j => ?_) ?_ ?_
  · rw [if_pos (Fin.fin_one_eq_zero j)]
    linarith
  · rw [if_pos (Fin.fin_one_eq_zero j)]
    linarith
  · simp
    linarith
  · simp
    linarith

/-- Two coefficients or more: the power `5 / 4` has finite mean. -/
theorem powMass_lt_top {p : ℕ} (hp : 2 ≤ p) {c : Fin p → ℝ} (hc : ∀ j, 0 < c j) (j : Fin p) :
    powMass c j (5 / 4) < ∞ := by
  have hp' : (2 : ℝ) ≤ p := by exact_mod_cast hp
  have hp1 : (0 : ℝ) < p - 1 := by linarith
  have hd : 3 / (8 * ((p : ℝ) - 1)) ≤ 3 / 8 := by
    rw [div_le_div_iff₀ (by positivity) (by norm_num)]
    linarith
  have hd0 : 0 < 3 / (8 * ((p : ℝ) - 1)) := by positivity
  have hsum : ∑ i : Fin p, (if i = j then 21 / 16 else 1 / 2 - 3 / (8 * ((p : ℝ) - 1))) =
      21 / 16 + ((p : ℝ) - 1) / 2 - 3 / 8 := by
    rw [← Finset.add_sum_erase _ _ (Finset.mem_univ j), if_pos rfl,
      Finset.sum_congr rfl fun i hi => if_neg (Finset.ne_of_mem_erase hi), Finset.sum_const,
      Finset.card_erase_of_mem (Finset.mem_univ j), Finset.card_univ, Fintype.card_fin, nsmul_eq_mul,
      Nat.cast_sub (by omega), Nat.cast_one]
    field_simp
    ring
  rw [powMass_eq]
  refine moment_lt_top hc _ (fun i => if i = j then 21 / 16 else 1 / 2 - 3 / (8 * ((p : ℝ) - 1)))
    (fun i => ?_) (fun i => ?_) (fun i => ?_) (fun i => ?_) ?_ ?_
  · split_ifs <;> linarith
  · split_ifs <;> linarith
  · split_ifs <;> linarith
  · split_ifs <;> linarith
  · rw [hsum]
    linarith
  · rw [hsum]
    linarith

/-- One coefficient: the two precisions are exchangeable under the posterior. -/
theorem powMass_symm (c : Fin 1 → ℝ) (s : ℝ) : powMass c 0 s =
    ∫⁻ x, ENNReal.ofReal (marg c x) * ENNReal.ofReal (x.2 ^ s) ∂refM 1 := by
  have hm1 : Measurable fun q : ℝ × ℝ => ENNReal.ofReal (marg1 (c 0) q.1 q.2) * ENNReal.ofReal (q.1 ^ s) :=
    Measurable.fun_mul (measurable_marg1 _).ennreal_ofReal (by fun_prop)
  have hm2 : Measurable fun q : ℝ × ℝ => ENNReal.ofReal (marg1 (c 0) q.1 q.2) * ENNReal.ofReal (q.2 ^ s) :=
    Measurable.fun_mul (measurable_marg1 _).ennreal_ofReal (by fun_prop)
  unfold powMass
  simp only [marg_one]
  rw [lintegral_refM_one (F := fun w t => ENNReal.ofReal (marg1 (c 0) w t) * ENNReal.ofReal (w ^ s)) hm1,
    lintegral_refM_one (F := fun w t => ENNReal.ofReal (marg1 (c 0) w t) * ENNReal.ofReal (t ^ s)) hm2,
    lintegral_lintegral_swap (f := fun w t => ENNReal.ofReal (marg1 (c 0) w t) * ENNReal.ofReal (w ^ s))
      hm1.aemeasurable]
  refine lintegral_congr fun w => lintegral_congr fun t => ?_
  rw [marg1_symm]

/-! ## Moments after one step -/

/-- Powers of an exponential variable. -/
theorem lintegral_rpow_exp {s r : ℝ} (hs : 0 < s) (hr : 0 < r) :
    ∫⁻ t, ENNReal.ofReal (t ^ s) ∂gammaMeasure 1 r⁻¹ = ENNReal.ofReal (Gamma (1 + s) * r ^ s) := by
  have hr' : 0 < r⁻¹ := inv_pos.2 hr
  have hG : 0 < Gamma (1 + s) := Gamma_pos_of_pos (by linarith)
  have hm : ∀ b, Measurable fun x => ENNReal.ofReal (gammaPDFReal b r⁻¹ x) := fun b =>
    (measurable_gammaPDFReal _ _).ennreal_ofReal
  have h1 : ∫⁻ t, ENNReal.ofReal (t ^ s) ∂gammaMeasure 1 r⁻¹ =
      ∫⁻ t, ENNReal.ofReal (Gamma (1 + s) * r ^ s) *
        ENNReal.ofReal (gammaPDFReal (1 + s) r⁻¹ t) ∂volPos := by
    rw [gammaMeasure_eq_volPos, lintegral_withDensity_eq_lintegral_mul _ (hm 1) (by fun_prop)]
    refine lintegral_congr_ae ?_
    filter_upwards [ae_volPos] with t ht
    rw [Pi.mul_apply, ← ENNReal.ofReal_mul (gammaPDFReal_nonneg one_pos hr' _),
      ← ENNReal.ofReal_mul (by positivity), gammaPDFReal_one ht]
    congr 1
    rw [gammaPDFReal, if_pos ht.le, add_sub_cancel_left, rpow_add hr', rpow_one, inv_rpow hr.le]
    have := rpow_pos_of_pos hr s
    field_simp
  have ip := isProbabilityMeasure_gammaMeasure (show 0 < 1 + s by positivity) hr'
  have h2 : ∫⁻ t, ENNReal.ofReal (gammaPDFReal (1 + s) r⁻¹ t) ∂volPos = 1 := by
    have := measure_univ (μ := gammaMeasure (1 + s) r⁻¹)
    rwa [gammaMeasure_eq_volPos, withDensity_apply _ MeasurableSet.univ, Measure.restrict_univ] at this
  rw [h1, lintegral_const_mul _ (hm _), h2, mul_one]

/-- One coordinate of independent draws. -/
theorem lintegral_pi_coord {p : ℕ} {μ : Fin p → Measure ℝ} (hμ : ∀ j, IsProbabilityMeasure (μ j))
    (j : Fin p) {f : ℝ → ℝ≥0∞} (hf : Measurable f) :
    ∫⁻ w, f (w j) ∂Measure.pi μ = ∫⁻ t, f t ∂μ j :=
  (measurePreserving_eval μ j).lintegral_comp hf

/-- The mean of a power of one local precision after one step. -/
theorem scale_moment {p : ℕ} (rows : ℕ) (β : Fin p → ℝ) {sigma2 : ℝ} (hsg : 0 < sigma2)
    {q : (Fin p → ℝ) × ℝ} (hq : AllPos q) (j : Fin p) {s : ℝ} (hs : 0 < s) :
    ∫⁻ r, ENNReal.ofReal ((toPrec r).1 j ^ s)
        ∂horseshoeArray .scale rows β sigma2 (fun j => q.1 j ^ 2) (q.2 ^ 2) =
      ∫⁻ u, ENNReal.ofReal (Gamma (1 + s) * (u + β j ^ 2 / (2 * sigma2) * (toPrec q).2) ^ s)
        ∂gammaMeasure 1 (1 + (toPrec q).1 j)⁻¹ := by
  have hl : ∀ j, 0 < q.1 j ^ 2 := fun j => pow_pos (hq.1 j) 2
  have ht : 0 < q.2 ^ 2 := pow_pos hq.2 2
  have hm : Measurable fun r : (Fin p → ℝ) × ℝ => ENNReal.ofReal (r.1 j ^ s) := by fun_prop
  have hpow : Measurable fun t : ℝ => ENNReal.ofReal (t ^ s) := by fun_prop
  have hprob := isProbabilityMeasure_auxLaw .scale hl ht
  have hexp : ∀ r : ℝ, 0 < r → IsProbabilityMeasure (expDraw .scale r) := fun r hr =>
    isProbabilityMeasure_gammaMeasure one_pos (inv_pos.2 hr)
  have hpi : ∀ i, IsProbabilityMeasure (expDraw .scale (1 + 1 / q.1 i ^ 2)) := fun i =>
    hexp _ (add_pos one_pos (one_div_pos.2 (hl i)))
  have ht' : IsProbabilityMeasure (expDraw .scale (1 + 1 / q.2 ^ 2)) :=
    hexp _ (add_pos one_pos (one_div_pos.2 ht))
  have e1 : ∀ x : (Fin p → ℝ) × ℝ, AllPos x →
      ∫⁻ r, ENNReal.ofReal (r.1 j ^ s) ∂lastTwo .scale rows β sigma2 (q.2 ^ 2) x =
        ENNReal.ofReal (Gamma (1 + s) * (x.1 j + β j ^ 2 / (2 * sigma2) * (toPrec q).2) ^ s) := by
    intro x hx
    have hpos : 0 < x.1 j + β j ^ 2 / (2 * sigma2 * q.2 ^ 2) :=
      add_pos_of_pos_of_nonneg (hx.1 j) (by positivity)
    unfold lastTwo
    rw [Measure.lintegral_bind (measurable_lastDraw_right rows β sigma2 x).aemeasurable
      hm.aemeasurable]
    have e : ∀ w : Fin p → ℝ, ∫⁻ r, ENNReal.ofReal (r.1 j ^ s) ∂lastDraw rows β sigma2 (x, w) =
        ENNReal.ofReal (w j ^ s) := fun w => by
      have hpair : Measurable fun s : ℝ => (w, s) := measurable_const.prodMk measurable_id
      have ip := isProbabilityMeasure_gammaMeasure (half_pos' rows)
        (posOr1_pos (x.2 + ∑ j, β j ^ 2 * w j / (2 * sigma2)))
      rw [lastDraw, lintegral_map hm hpair]
      refine (lintegral_const (ENNReal.ofReal (w j ^ s))).trans ?_
      have h1 : gammaMeasure (((rows : ℝ) + 1) / 2)
          (posOr1 (x.2 + ∑ j, β j ^ 2 * w j / (2 * sigma2))) Set.univ = 1 := measure_univ
      exact (congrArg (ENNReal.ofReal (w j ^ s) * ·) h1).trans (mul_one _)
    simp only [e]
    rw [lintegral_pi_coord (fun i => isProbabilityMeasure_gammaMeasure one_pos (posOr1_pos _)) j hpow,
      posOr1_of_pos (eRate_pos .scale hpos)]
    refine (lintegral_rpow_exp hs hpos).trans ?_
    congr 3
    simp only [toPrec]
    have := hq.2
    field_simp
  rw [← lintegral_map (f := fun r : (Fin p → ℝ) × ℝ => ENNReal.ofReal (r.1 j ^ s)) hm
    measurable_toPrec, horseshoeArray_map_toPrec .scale rows β hsg hl ht,
    Measure.lintegral_bind (measurable_lastTwo .scale rows β sigma2 (q.2 ^ 2)).aemeasurable
      hm.aemeasurable]
  have hF : Measurable fun u : ℝ =>
      ENNReal.ofReal (Gamma (1 + s) * (u + β j ^ 2 / (2 * sigma2) * (toPrec q).2) ^ s) := by fun_prop
  have e2 : ∫⁻ x, ∫⁻ r, ENNReal.ofReal (r.1 j ^ s) ∂lastTwo .scale rows β sigma2 (q.2 ^ 2) x
      ∂((Measure.pi fun j => expDraw .scale (1 + 1 / q.1 j ^ 2)).prod (expDraw .scale (1 + 1 / q.2 ^ 2))) =
      ∫⁻ x, (fun y : Fin p → ℝ =>
        ENNReal.ofReal (Gamma (1 + s) * (y j + β j ^ 2 / (2 * sigma2) * (toPrec q).2) ^ s)) x.1
      ∂((Measure.pi fun j => expDraw .scale (1 + 1 / q.1 j ^ 2)).prod
        (expDraw .scale (1 + 1 / q.2 ^ 2))) := by
    refine lintegral_congr_ae ?_
    filter_upwards [ae_pos_auxLaw .scale hl ht] with x hx using e1 x hx
  have hfst : MeasurePreserving (Prod.fst : (Fin p → ℝ) × ℝ → Fin p → ℝ)
      ((Measure.pi fun j => expDraw .scale (1 + 1 / q.1 j ^ 2)).prod (expDraw .scale (1 + 1 / q.2 ^ 2)))
      (Measure.pi fun j => expDraw .scale (1 + 1 / q.1 j ^ 2)) := measurePreserving_fst
  have hFj : Measurable fun y : Fin p → ℝ =>
      ENNReal.ofReal (Gamma (1 + s) * (y j + β j ^ 2 / (2 * sigma2) * (toPrec q).2) ^ s) := by fun_prop
  rw [e2, hfst.lintegral_comp hFj, lintegral_pi_coord hpi j hF]
  simp only [toPrec, one_div]
  rfl

/-- The step multiplies the mean of a power by at least `Γ(1 + s)²`. -/
theorem scale_moment_ge {p : ℕ} (rows : ℕ) (β : Fin p → ℝ) {sigma2 : ℝ} (hsg : 0 < sigma2)
    {q : (Fin p → ℝ) × ℝ} (hq : AllPos q) (j : Fin p) {s : ℝ} (hs : 0 < s) :
    ENNReal.ofReal (Gamma (1 + s) * Gamma (1 + s)) * ENNReal.ofReal ((toPrec q).1 j ^ s) ≤
      ∫⁻ r, ENNReal.ofReal ((toPrec r).1 j ^ s)
        ∂horseshoeArray .scale rows β sigma2 (fun j => q.1 j ^ 2) (q.2 ^ 2) := by
  have hG : 0 < Gamma (1 + s) := Gamma_pos_of_pos (by linarith)
  have hW : 0 < (toPrec q).1 j := inv_pos.2 (pow_pos (hq.1 j) 2)
  have hT : 0 < (toPrec q).2 := inv_pos.2 (pow_pos hq.2 2)
  rw [scale_moment rows β hsg hq j hs]
  calc ENNReal.ofReal (Gamma (1 + s) * Gamma (1 + s)) * ENNReal.ofReal ((toPrec q).1 j ^ s)
      ≤ ENNReal.ofReal (Gamma (1 + s)) * ENNReal.ofReal (Gamma (1 + s) * (1 + (toPrec q).1 j) ^ s) := by
        rw [← ENNReal.ofReal_mul (by positivity), ← ENNReal.ofReal_mul hG.le, mul_assoc]
        refine ENNReal.ofReal_le_ofReal ?_
        gcongr
        linarith
    _ = ∫⁻ u, ENNReal.ofReal (Gamma (1 + s)) * ENNReal.ofReal (u ^ s)
        ∂gammaMeasure 1 (1 + (toPrec q).1 j)⁻¹ := by
        rw [lintegral_const_mul' _ _ ENNReal.ofReal_ne_top, lintegral_rpow_exp hs (by positivity)]
    _ ≤ _ := by
        refine lintegral_mono_ae ?_
        filter_upwards [ae_pos_gammaMeasure] with u hu
        rw [← ENNReal.ofReal_mul hG.le]
        refine ENNReal.ofReal_le_ofReal ?_
        have : 0 ≤ β j ^ 2 / (2 * sigma2) * (toPrec q).2 := by positivity
        gcongr
        linarith

theorem rpow_add_ge {a b s : ℝ} (ha : 0 ≤ a) (hb : 0 ≤ b) (hs : 0 ≤ s) (hs1 : s ≤ 1) :
    2 ^ (s - 1) * (a ^ s + b ^ s) ≤ (a + b) ^ s := by
  have h := (concaveOn_rpow hs hs1).2 (Set.mem_Ici.2 ha) (Set.mem_Ici.2 hb)
    (show (0 : ℝ) ≤ 1 / 2 by norm_num) (show (0 : ℝ) ≤ 1 / 2 by norm_num) (by norm_num)
  simp only [smul_eq_mul] at h
  rw [← mul_add, ← mul_add, mul_rpow (by norm_num) (by positivity)] at h
  have e : (2 : ℝ) ^ (s - 1) * (2 : ℝ) ^ (1 - s) = 1 := by
    rw [← rpow_add two_pos]
    norm_num
  have e2 : (1 / 2 : ℝ) ^ s = 1 / 2 * 2 ^ (1 - s) := by
    rw [one_div, inv_rpow two_pos.le, ← rpow_neg two_pos.le, sub_eq_add_neg, rpow_add two_pos, rpow_one]
    ring
  rw [e2, mul_assoc] at h
  have h' : a ^ s + b ^ s ≤ 2 ^ (1 - s) * (a + b) ^ s := by linarith
  calc (2 : ℝ) ^ (s - 1) * (a ^ s + b ^ s) ≤ 2 ^ (s - 1) * (2 ^ (1 - s) * (a + b) ^ s) := by gcongr
    _ = (a + b) ^ s := by rw [← mul_assoc, e, one_mul]

/-- For powers less than one, the global precision adds to the mean. -/
theorem scale_moment_add_ge {p : ℕ} (rows : ℕ) (β : Fin p → ℝ) {sigma2 : ℝ} (hsg : 0 < sigma2)
    {q : (Fin p → ℝ) × ℝ} (hq : AllPos q) (j : Fin p) {s : ℝ} (hs : 0 < s) (hs1 : s ≤ 1) :
    ENNReal.ofReal (Gamma (1 + s) * 2 ^ (s - 1) * Gamma (1 + s)) * ENNReal.ofReal ((toPrec q).1 j ^ s) +
      ENNReal.ofReal (Gamma (1 + s) * 2 ^ (s - 1) * (β j ^ 2 / (2 * sigma2)) ^ s) *
        ENNReal.ofReal ((toPrec q).2 ^ s) ≤
      ∫⁻ r, ENNReal.ofReal ((toPrec r).1 j ^ s)
        ∂horseshoeArray .scale rows β sigma2 (fun j => q.1 j ^ 2) (q.2 ^ 2) := by
  have hG : 0 < Gamma (1 + s) := Gamma_pos_of_pos (by linarith)
  have hW : 0 < (toPrec q).1 j := inv_pos.2 (pow_pos (hq.1 j) 2)
  have hT : 0 < (toPrec q).2 := inv_pos.2 (pow_pos hq.2 2)
  have ip := isProbabilityMeasure_gammaMeasure one_pos (inv_pos.2 (show 0 < 1 + (toPrec q).1 j by positivity))
  rw [scale_moment rows β hsg hq j hs]
  have hk : 0 < Gamma (1 + s) * 2 ^ (s - 1) := by positivity
  calc _ ≤ ENNReal.ofReal (Gamma (1 + s) * 2 ^ (s - 1)) *
          ENNReal.ofReal (Gamma (1 + s) * (1 + (toPrec q).1 j) ^ s) +
        ENNReal.ofReal (Gamma (1 + s) * 2 ^ (s - 1) * (β j ^ 2 / (2 * sigma2)) ^ s) *
          ENNReal.ofReal ((toPrec q).2 ^ s) := by
        refine add_le_add ?_ le_rfl
        rw [← ENNReal.ofReal_mul (by positivity), ← ENNReal.ofReal_mul hk.le, mul_assoc]
        refine ENNReal.ofReal_le_ofReal ?_
        gcongr
        linarith
    _ = ∫⁻ u, (ENNReal.ofReal (Gamma (1 + s) * 2 ^ (s - 1)) * ENNReal.ofReal (u ^ s) +
        ENNReal.ofReal (Gamma (1 + s) * 2 ^ (s - 1) * (β j ^ 2 / (2 * sigma2)) ^ s) *
          ENNReal.ofReal ((toPrec q).2 ^ s)) ∂gammaMeasure 1 (1 + (toPrec q).1 j)⁻¹ := by
        rw [lintegral_add_right _ measurable_const, lintegral_const, measure_univ, mul_one,
          lintegral_const_mul' _ _ ENNReal.ofReal_ne_top, lintegral_rpow_exp hs (by positivity)]
    _ ≤ _ := by
        refine lintegral_mono_ae ?_
        filter_upwards [ae_pos_gammaMeasure] with u hu
        have hc : 0 ≤ β j ^ 2 / (2 * sigma2) := by positivity
        rw [← ENNReal.ofReal_mul hk.le, ← ENNReal.ofReal_mul (by positivity),
          ← ENNReal.ofReal_add (by positivity) (by positivity)]
        refine ENNReal.ofReal_le_ofReal ?_
        have h := rpow_add_ge hu.le (show 0 ≤ β j ^ 2 / (2 * sigma2) * (toPrec q).2 by positivity) hs.le hs1
        rw [mul_rpow hc hT.le] at h
        calc _ = Gamma (1 + s) * (2 ^ (s - 1) * (u ^ s + (β j ^ 2 / (2 * sigma2)) ^ s *
              (toPrec q).2 ^ s)) := by ring
          _ ≤ _ := mul_le_mul_of_nonneg_left h hG.le

/-! ## The posterior is not stationary -/

theorem posterior_pow {p : ℕ} (β : Fin p → ℝ) {sigma2 : ℝ} (hsg : 0 < sigma2) {f : (Fin p → ℝ) × ℝ → ℝ≥0∞}
    (hf : Measurable f) : ∫⁻ q, f (toPrec q) ∂posterior β sigma2 =
      (∫⁻ r, ENNReal.ofReal (marg (fun j => β j ^ 2 / (2 * sigma2)) r) ∂refM p)⁻¹ *
        ∫⁻ x, ENNReal.ofReal (marg (fun j => β j ^ 2 / (2 * sigma2)) x) * f x ∂refM p := by
  rw [← lintegral_map hf measurable_toPrec, posterior_map β hsg,
    lintegral_bayes (measurable_marg _).ennreal_ofReal hf]

theorem inv_mass_ne_top {p : ℕ} {β : Fin p → ℝ} (hβ : ∀ j, β j ≠ 0) {sigma2 : ℝ} (hsg : 0 < sigma2) :
    (∫⁻ r, ENNReal.ofReal (marg (fun j => β j ^ 2 / (2 * sigma2)) r) ∂refM p)⁻¹ ≠ ∞ := by
  intro h
  have hprob : IsProbabilityMeasure (posterior β sigma2) :=
    isProbabilityMeasure_bayes (bayesDefined_posterior hβ hsg)
  rw [ENNReal.inv_eq_top, lintegral_eq_zero_iff (measurable_marg _).ennreal_ofReal] at h
  have hz : (posterior β sigma2).map toPrec = 0 := by
    rw [posterior_map β hsg, bayes, withDensity_congr_ae h, withDensity_zero, smul_zero]
  have h1 := Measure.isProbabilityMeasure_map (μ := posterior β sigma2)
    (measurable_toPrec (p := p)).aemeasurable
  rw [hz] at h1
  have h2 : (0 : Measure ((Fin p → ℝ) × ℝ)) Set.univ = 1 := h1.measure_univ
  rw [Measure.coe_zero, Pi.zero_apply] at h2
  exact zero_ne_one h2

/-- If the step multiplies a positive finite mean by more than one, the law is not stationary. -/
theorem no_growth {p : ℕ} {β : Fin p → ℝ} (hβ : ∀ j, β j ≠ 0) {sigma2 : ℝ} (hsg : 0 < sigma2)
    (j : Fin p) {s k : ℝ} (hfin : powMass (fun j => β j ^ 2 / (2 * sigma2)) j s < ∞)
    (h : ENNReal.ofReal k * ∫⁻ q, ENNReal.ofReal ((toPrec q).1 j ^ s) ∂posterior β sigma2 ≤
      ∫⁻ q, ENNReal.ofReal ((toPrec q).1 j ^ s) ∂posterior β sigma2) : k ≤ 1 := by
  by_contra hk
  push Not at hk
  have hprob : IsProbabilityMeasure (posterior β sigma2) :=
    isProbabilityMeasure_bayes (bayesDefined_posterior hβ hsg)
  have hm : Measurable fun r : (Fin p → ℝ) × ℝ => ENNReal.ofReal (r.1 j ^ s) := by fun_prop
  have hmT : Measurable fun q : (Fin p → ℝ) × ℝ => ENNReal.ofReal ((toPrec q).1 j ^ s) :=
    hm.comp measurable_toPrec
  have hf := posterior_pow β hsg hm
  have hne0 : ∫⁻ q, ENNReal.ofReal ((toPrec q).1 j ^ s) ∂posterior β sigma2 ≠ 0 := by
    intro h
    rw [lintegral_eq_zero_iff hmT] at h
    obtain ⟨q, hq, hq0⟩ := ((ae_posterior_pos β sigma2).and h).exists
    have h0 : ENNReal.ofReal ((toPrec q).1 j ^ s) = 0 := hq0
    rw [ENNReal.ofReal_eq_zero] at h0
    exact absurd h0 (not_le.2 (rpow_pos_of_pos (inv_pos.2 (pow_pos (hq.1 j) 2)) s))
  have hntop : ∫⁻ q, ENNReal.ofReal ((toPrec q).1 j ^ s) ∂posterior β sigma2 ≠ ∞ := by
    rw [hf]
    exact ENNReal.mul_ne_top (inv_mass_ne_top hβ hsg) hfin.ne
  have : (∫⁻ q, ENNReal.ofReal ((toPrec q).1 j ^ s) ∂posterior β sigma2) * 1 <
      (∫⁻ q, ENNReal.ofReal ((toPrec q).1 j ^ s) ∂posterior β sigma2) * ENNReal.ofReal k :=
    (ENNReal.mul_lt_mul_iff_right hne0 hntop).2 (by
      rw [← ENNReal.ofReal_one]
      exact (ENNReal.ofReal_lt_ofReal_iff (by linarith)).2 hk)
  rw [mul_one, mul_comm] at this
  exact absurd h (not_le.2 this)

/-- In the scale reading the posterior is not stationary, for any number of coefficients and whatever
number of rows the global draw counts. -/
theorem not_stationary_scale {p : ℕ} (hp : 0 < p) (rows : ℕ) {β : Fin p → ℝ} (hβ : ∀ j, β j ≠ 0)
    {sigma2 : ℝ} (hsg : 0 < sigma2) :
    ¬Stationary (posterior β sigma2)
      fun q => horseshoeArray .scale rows β sigma2 (fun j => q.1 j ^ 2) (q.2 ^ 2) := by
  intro hst
  have hc : ∀ j, 0 < β j ^ 2 / (2 * sigma2) := fun j => by
    have := hβ j
    positivity
  have step : ∀ (j : Fin p) (s : ℝ), ∫⁻ q, ENNReal.ofReal ((toPrec q).1 j ^ s) ∂posterior β sigma2 =
      ∫⁻ q, ∫⁻ r, ENNReal.ofReal ((toPrec r).1 j ^ s)
        ∂horseshoeArray .scale rows β sigma2 (fun j => q.1 j ^ 2) (q.2 ^ 2) ∂posterior β sigma2 := by
    intro j s
    have hm : Measurable fun r : (Fin p → ℝ) × ℝ => ENNReal.ofReal (r.1 j ^ s) := by fun_prop
    have hmT : Measurable fun q : (Fin p → ℝ) × ℝ => ENNReal.ofReal ((toPrec q).1 j ^ s) :=
      hm.comp measurable_toPrec
    conv_lhs => rw [← hst.2, Measure.lintegral_bind hst.1 hmT.aemeasurable]
  rcases Nat.lt_or_ge p 2 with h1 | h2
  · obtain rfl : p = 1 := by omega
    -- one coefficient: let the power tend to one
    have hall : ∀ s : ℝ, 0 < s → s < 1 →
        Gamma (1 + s) * 2 ^ (s - 1) * (Gamma (1 + s) + (β 0 ^ 2 / (2 * sigma2)) ^ s) ≤ 1 := by
      intro s hs hs1
      have hG : 0 < Gamma (1 + s) := Gamma_pos_of_pos (by linarith)
      have hm1 : Measurable fun r : (Fin 1 → ℝ) × ℝ => ENNReal.ofReal (r.1 0 ^ s) := by fun_prop
      have hm2 : Measurable fun r : (Fin 1 → ℝ) × ℝ => ENNReal.ofReal (r.2 ^ s) := by fun_prop
      have hm3 : Measurable fun q : (Fin 1 → ℝ) × ℝ =>
          ENNReal.ofReal (Gamma (1 + s) * 2 ^ (s - 1) * Gamma (1 + s)) *
            ENNReal.ofReal ((toPrec q).1 0 ^ s) := (hm1.comp measurable_toPrec).const_mul _
      have hsymm : ∫⁻ q, ENNReal.ofReal ((toPrec q).2 ^ s) ∂posterior β sigma2 =
          ∫⁻ q, ENNReal.ofReal ((toPrec q).1 0 ^ s) ∂posterior β sigma2 := by
        rw [posterior_pow β hsg hm1, posterior_pow β hsg hm2]
        congr 1
        exact (powMass_symm _ s).symm
      refine no_growth hβ hsg 0 (powMass_one_lt_top hc hs hs1) ?_
      conv_rhs => rw [step 0 s]
      have h0c := (hc 0).le
      rw [mul_add, ENNReal.ofReal_add (by positivity) (by positivity), add_mul]
      nth_rw 2 [← hsymm]
      rw [← lintegral_const_mul' _ _ ENNReal.ofReal_ne_top,
        ← lintegral_const_mul' _ _ ENNReal.ofReal_ne_top,
        ← lintegral_add_left hm3]
      refine lintegral_mono_ae ?_
      filter_upwards [ae_posterior_pos β sigma2] with q hq using
        scale_moment_add_ge rows β hsg hq 0 hs hs1.le
    have hcont : Filter.Tendsto (fun s : ℝ =>
        Gamma (1 + s) * 2 ^ (s - 1) * (Gamma (1 + s) + (β 0 ^ 2 / (2 * sigma2)) ^ s)) (nhdsWithin 1 (Set.Iio 1))
        (nhds (1 + β 0 ^ 2 / (2 * sigma2))) := by
      have hGc : ContinuousAt (fun s : ℝ => Gamma (1 + s)) 1 := by
        refine ContinuousAt.comp (g := Gamma) ?_ (by fun_prop)
        refine (differentiableAt_Gamma fun m => ?_).continuousAt
        have : (0 : ℝ) ≤ m := by positivity
        intro h
        linarith
      have h2c : ContinuousAt (fun s : ℝ => (2 : ℝ) ^ (s - 1)) 1 :=
        ContinuousAt.rpow continuousAt_const (by fun_prop) (Or.inl two_ne_zero)
      have hcc : ContinuousAt (fun s : ℝ => (β 0 ^ 2 / (2 * sigma2)) ^ s) 1 :=
        ContinuousAt.rpow continuousAt_const (by fun_prop) (Or.inl (hc 0).ne')
      have h := ((hGc.mul h2c).mul (hGc.add hcc)).tendsto
      have hG2 : Gamma (1 + 1) = 1 := by norm_num
      have e : Gamma (1 + 1) * 2 ^ ((1 : ℝ) - 1) * (Gamma (1 + 1) + (β 0 ^ 2 / (2 * sigma2)) ^ (1 : ℝ)) =
          1 + β 0 ^ 2 / (2 * sigma2) := by
        rw [hG2, sub_self, rpow_zero, rpow_one, one_mul, one_mul]
      rw [← e]
      exact h.mono_left nhdsWithin_le_nhds
    have hle : 1 + β 0 ^ 2 / (2 * sigma2) ≤ 1 := by
      refine le_of_tendsto hcont ?_
      have hio : ∀ᶠ s in nhdsWithin (1 : ℝ) (Set.Iio 1), s ∈ Set.Ioo (0 : ℝ) 1 :=
        Ioo_mem_nhdsLT one_pos
      filter_upwards [hio] with s hs using hall s hs.1 hs.2
    linarith [hc 0]
  · -- two coefficients or more
    have hG : 1 < Gamma (1 + 5 / 4) := by
      have := Gamma_strictMonoOn_Ici (Set.mem_Ici.2 le_rfl) (Set.mem_Ici.2 (show (2 : ℝ) ≤ 1 + 5 / 4 by norm_num))
        (by norm_num)
      rwa [Gamma_two] at this
    have hk := no_growth hβ hsg ⟨0, hp⟩ (k := Gamma (1 + 5 / 4) * Gamma (1 + 5 / 4))
      (powMass_lt_top h2 hc ⟨0, hp⟩) (by
        conv_rhs => rw [step ⟨0, hp⟩ (5 / 4)]
        rw [← lintegral_const_mul' _ _ ENNReal.ofReal_ne_top]
        refine lintegral_mono_ae ?_
        filter_upwards [ae_posterior_pos β sigma2] with q hq using
          scale_moment_ge rows β hsg hq ⟨0, hp⟩ (by norm_num))
    nlinarith

end Verif.Horseshoe
