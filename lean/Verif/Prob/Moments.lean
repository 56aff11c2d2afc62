import Verif.Prob.SmallBall
import Verif.Prob.GammaBeta
import Mathlib.Probability.Moments.Variance

/-!
# Second moments of normal and gamma laws
-/

open MeasureTheory ProbabilityTheory Matrix
open scoped ENNReal

namespace Verif

theorem lintegral_sq_gamma {a r : ℝ} (ha : 0 < a) (hr : 0 < r) :
    ∫⁻ x, ENNReal.ofReal (x ^ 2) ∂gammaMeasure a r ≠ ∞ := by
  have h := (bayes_gamma (s := 2) (t := 0) (k := 1) ha hr (by positivity) (by positivity) one_pos
    (lik := fun x => ENNReal.ofReal (x ^ 2)) (by fun_prop) (fun x hx => by
      simp)).1
  exact h.2

/-- Mean of a law with density `g` when `x * g x` is a multiple of another probability density. -/
theorem integral_id_withDensity {g g' : ℝ → ℝ} (hg : Measurable g) {c : ℝ} (hc : 0 ≤ c)
    (h0 : ∀ x, 0 ≤ g x) (h : ∀ x, ENNReal.ofReal (x * g x) = ENNReal.ofReal (c * g' x))
    (hneg : ∀ x, x < 0 → g x = 0) (hg' : ∫⁻ x, ENNReal.ofReal (g' x) = 1) :
    ∫ x, x ∂volume.withDensity (fun x => ENNReal.ofReal (g x)) = c := by
  have hpos : ∀ᵐ x ∂volume.withDensity (fun x => ENNReal.ofReal (g x)), 0 ≤ x := by
    rw [ae_withDensity_iff hg.ennreal_ofReal]
    refine ae_of_all _ fun x hx => ?_
    by_contra hlt
    exact hx (by rw [hneg x (not_le.1 hlt), ENNReal.ofReal_zero])
  rw [integral_eq_lintegral_of_nonneg_ae hpos measurable_id.aestronglyMeasurable,
    lintegral_withDensity_eq_lintegral_mul _ hg.ennreal_ofReal (by fun_prop)]
  have e : ∀ x, ((fun x => ENNReal.ofReal (g x)) * fun x => ENNReal.ofReal x) x =
      ENNReal.ofReal c * ENNReal.ofReal (g' x) := by
    intro x
    rw [Pi.mul_apply, mul_comm, ← ENNReal.ofReal_mul hc, ← h, mul_comm x, ENNReal.ofReal_mul (h0 x),
      mul_comm]
  simp only [e]
  rw [lintegral_const_mul' _ _ ENNReal.ofReal_ne_top, hg', mul_one, ENNReal.toReal_ofReal hc]

theorem integral_id_gamma {a r : ℝ} (ha : 0 < a) (hr : 0 < r) : ∫ x, x ∂gammaMeasure a r = a / r := by
  refine integral_id_withDensity (g := gammaPDFReal a r) (g' := gammaPDFReal (a + 1) r)
    (measurable_gammaPDFReal a r) (by positivity) (gammaPDFReal_nonneg ha hr) (fun x => ?_)
    (fun x hx => if_neg (not_le.2 hx)) (lintegral_gammaPDF_eq_one (by positivity) hr)
  congr 1
  unfold gammaPDFReal
  split_ifs with hx
  · rcases hx.eq_or_lt with rfl | hx
    · have : (0 : ℝ) ^ (a + 1 - 1) = 0 := by rw [add_sub_cancel_right]; exact Real.zero_rpow ha.ne'
      rw [this]
      ring
    · rw [Real.Gamma_add_one ha.ne', Real.rpow_add_one hr.ne', show a + 1 - 1 = a - 1 + 1 by ring,
        Real.rpow_add_one hx.ne']
      have := Real.Gamma_pos_of_pos ha
      field_simp
  · ring

theorem integral_id_beta {a b : ℝ} (ha : 0 < a) (hb : 0 < b) :
    ∫ x, x ∂betaMeasure a b = a / (a + b) := by
  have h0 : ∀ x, 0 ≤ betaPDFReal a b x := by
    intro x
    by_cases hx : 0 < x ∧ x < 1
    · exact (betaPDFReal_pos hx.1 hx.2 ha hb).le
    · unfold betaPDFReal
      rw [if_neg hx]
  refine integral_id_withDensity (g := betaPDFReal a b) (g' := betaPDFReal (a + 1) b)
    (measurable_betaPDFReal a b) (by positivity) h0 (fun x => ?_)
    (fun x hx => if_neg fun h => absurd h.1 (not_lt.2 hx.le)) (lintegral_betaPDF_eq_one (by positivity) hb)
  congr 1
  unfold betaPDFReal
  split_ifs with hx
  · rw [beta, beta, Real.Gamma_add_one ha.ne', show a + 1 + b = a + b + 1 by ring,
      Real.Gamma_add_one (by positivity), show a + 1 - 1 = a - 1 + 1 by ring, Real.rpow_add_one hx.1.ne']
    have := Real.Gamma_pos_of_pos ha
    have := Real.Gamma_pos_of_pos hb
    have := Real.Gamma_pos_of_pos (add_pos ha hb)
    field_simp
  · ring

theorem lintegral_sq_gauss (m : ℝ) (v : NNReal) :
    ∫⁻ x, ENNReal.ofReal (x ^ 2) ∂gaussianReal m v = ENNReal.ofReal (v + m ^ 2) := by
  have h2 : MemLp id 2 (gaussianReal m v) := memLp_id_gaussianReal 2
  have hv := variance_eq_sub h2
  rw [variance_id_gaussianReal] at hv
  have e : ∫ x, x ^ 2 ∂gaussianReal m v = v + m ^ 2 := by
    have h3 : (gaussianReal m v)[id] = m := by simp
    rw [h3] at hv
    simp only [Pi.pow_apply, id] at hv
    linarith
  rw [← e, ofReal_integral_eq_lintegral_ofReal _ (ae_of_all _ fun x => sq_nonneg x)]
  exact h2.integrable_sq

/-- A coordinate of a normal vector with precision at least `diagonal d`. -/
theorem lintegral_sq_mvn {p : ℕ} {d : Fin p → ℝ} (hd : ∀ j, 0 < d j) {P : Matrix (Fin p) (Fin p) ℝ}
    (hP : P.PosSemidef) (z : Fin p → ℝ) (j : Fin p) :
    ∫⁻ x, ENNReal.ofReal (x j ^ 2) ∂mvn ((diagonal d + P)⁻¹ *ᵥ z) (diagonal d + P)⁻¹ ≤
      ENNReal.ofReal ((d j)⁻¹ + (∑ i, z i ^ 2 / d i) / d j) := by
  have hQ : (diagonal d + P).PosDef := (PosDef.diagonal hd).add_posSemidef hP
  set Q := diagonal d + P with hQdef
  have hdet : IsUnit Q.det := isUnit_iff_ne_zero.2 hQ.det_pos.ne'
  have hlow : ∀ u : Fin p → ℝ, ∑ i, d i * u i ^ 2 ≤ u ⬝ᵥ Q *ᵥ u := by
    intro u
    have h1 := hP.dotProduct_mulVec_nonneg u
    simp only [star_trivial] at h1
    rw [hQdef, add_mulVec, dotProduct_add]
    have e : u ⬝ᵥ diagonal d *ᵥ u = ∑ i, d i * u i ^ 2 := by
      simp only [dotProduct, mulVec_diagonal]
      exact Finset.sum_congr rfl fun i _ => by ring
    linarith
  have hmp := measurePreserving_eval_multivariateGaussian (μ := WithLp.toLp 2 (Q⁻¹ *ᵥ z))
    hQ.inv.posSemidef (i := j)
  have e : ∫⁻ x, ENNReal.ofReal (x j ^ 2) ∂mvn (Q⁻¹ *ᵥ z) Q⁻¹ =
      ∫⁻ x, ENNReal.ofReal (x ^ 2) ∂gaussianReal ((Q⁻¹ *ᵥ z) j) (Q⁻¹ j j).toNNReal := by
    rw [mvn, lintegral_map (by fun_prop) (by fun_prop)]
    exact hmp.lintegral_comp (f := fun x : ℝ => ENNReal.ofReal (x ^ 2)) (by fun_prop)
  rw [e, lintegral_sq_gauss]
  refine ENNReal.ofReal_le_ofReal ?_
  have hv : Q⁻¹ j j ≤ (d j)⁻¹ := by
    have h1 := hlow (Q⁻¹ *ᵥ Pi.single j 1)
    rw [mulVec_mulVec, mul_nonsing_inv _ hdet, one_mulVec] at h1
    have e1 : (Q⁻¹ *ᵥ Pi.single j 1) ⬝ᵥ Pi.single j 1 = Q⁻¹ j j := by simp
    have e2 : (Q⁻¹ *ᵥ Pi.single j 1) j = Q⁻¹ j j := by simp
    rw [e1] at h1
    have h2 : d j * (Q⁻¹ *ᵥ Pi.single j 1) j ^ 2 ≤ ∑ i, d i * (Q⁻¹ *ᵥ Pi.single j 1) i ^ 2 :=
      Finset.single_le_sum (f := fun i => d i * (Q⁻¹ *ᵥ Pi.single j 1) i ^ 2)
        (fun i _ => mul_nonneg (hd i).le (sq_nonneg _)) (Finset.mem_univ j)
    rw [e2] at h2
    have h3 : d j * (Q⁻¹ j j) ^ 2 ≤ Q⁻¹ j j := h2.trans h1
    have hpos : 0 < Q⁻¹ j j := hQ.inv.diag_pos
    rw [← one_div (d j), le_div_iff₀ (hd j)]
    by_contra hc
    push Not at hc
    nlinarith
  have hm : (Q⁻¹ *ᵥ z) j ^ 2 ≤ (∑ i, z i ^ 2 / d i) / d j := by
    have h1 := hlow (Q⁻¹ *ᵥ z)
    rw [mulVec_mulVec, mul_nonsing_inv _ hdet, one_mulVec] at h1
    set m := Q⁻¹ *ᵥ z with hmdef
    have h2 : m ⬝ᵥ z ≤ ∑ i, (d i * m i ^ 2 / 2 + z i ^ 2 / d i / 2) := by
      rw [dotProduct]
      refine Finset.sum_le_sum fun i _ => ?_
      have hi := hd i
      have e : d i * m i ^ 2 / 2 + z i ^ 2 / d i / 2 - m i * z i = (d i * m i - z i) ^ 2 / (2 * d i) := by
        field_simp
        ring
      have : 0 ≤ d i * m i ^ 2 / 2 + z i ^ 2 / d i / 2 - m i * z i := by rw [e]; positivity
      linarith
    rw [Finset.sum_add_distrib, ← Finset.sum_div, ← Finset.sum_div] at h2
    have h3 : d j * m j ^ 2 ≤ ∑ i, d i * m i ^ 2 :=
      Finset.single_le_sum (f := fun i => d i * m i ^ 2)
        (fun i _ => mul_nonneg (hd i).le (sq_nonneg _)) (Finset.mem_univ j)
    rw [le_div_iff₀ (hd j)]
    linarith
  have hpos : 0 < Q⁻¹ j j := hQ.inv.diag_pos
  rw [Real.coe_toNNReal _ hpos.le]
  linarith

end Verif
