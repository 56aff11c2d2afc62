import Verif.Horseshoe.Model
import Verif.Horseshoe.Spec
import Verif.Prob.HalfLine
import Verif.PG.Lemmas
import Mathlib.Analysis.SpecialFunctions.ImproperIntegrals
import Mathlib.MeasureTheory.Function.JacobianOneDim

/-!
# The horseshoe posterior in precision coordinates, and the augmented joint density
-/

open MeasureTheory ProbabilityTheory Real
open scoped ENNReal

namespace Verif.Horseshoe

instance : IsProbabilityMeasure halfCauchy := by
  constructor
  have hi : IntegrableOn (fun x : ℝ => (1 + x ^ 2)⁻¹) (Set.Ioi 0) :=
    integrable_inv_one_add_sq.integrableOn
  have e : ∀ x : ℝ, 2 / (π * (1 + x ^ 2)) = 2 / π * (1 + x ^ 2)⁻¹ := fun x => by
    rw [div_mul_eq_div_div, div_eq_mul_inv]
  rw [halfCauchy, withDensity_apply _ MeasurableSet.univ, Measure.restrict_univ]
  simp only [e]
  rw [← ofReal_integral_eq_lintegral_ofReal (hi.const_mul _)
    (ae_of_all _ fun x => by positivity), integral_const_mul, integral_Ioi_inv_one_add_sq]
  have := pi_ne_zero
  simp only [arctan_zero, sub_zero]
  rw [show 2 / π * (π / 2) = 1 by field_simp]
  simp

theorem ae_pos_halfCauchy : ∀ᵐ x ∂halfCauchy, 0 < x :=
  (withDensity_absolutelyContinuous _ _).ae_le (ae_restrict_mem measurableSet_Ioi)

/-- Density of the precision `1 / x²` of a half-Cauchy variable. -/
noncomputable def precDens (w : ℝ) : ℝ := w ^ (-(1 / 2) : ℝ) / (π * (1 + w))

theorem measurable_precDens : Measurable precDens := by unfold precDens; fun_prop

theorem halfCauchy_map : halfCauchy.map (fun x => (x ^ 2)⁻¹) =
    volPos.withDensity fun w => ENNReal.ofReal (precDens w) := by
  have hg : Measurable fun x : ℝ => (x ^ 2)⁻¹ := by fun_prop
  refine Measure.ext_of_lintegral _ fun φ hφ => ?_
  have hφg : Measurable fun x : ℝ => φ ((x ^ 2)⁻¹) := hφ.comp hg
  rw [lintegral_map hφ hg, halfCauchy, lintegral_withDensity_eq_lintegral_mul _ (by fun_prop)
    hφg, lintegral_withDensity_eq_lintegral_mul _
      (measurable_precDens.ennreal_ofReal) hφ]
  have himg : (fun w : ℝ => (√w)⁻¹) '' Set.Ioi 0 = Set.Ioi 0 := by
    ext x
    constructor
    · rintro ⟨w, hw, rfl⟩
      exact inv_pos.2 (sqrt_pos.2 hw)
    · intro hx
      have hx : 0 < x := hx
      refine ⟨(x ^ 2)⁻¹, inv_pos.2 (pow_pos hx 2), ?_⟩
      simp [sqrt_inv, sqrt_sq hx.le]
  have hinj : Set.InjOn (fun w : ℝ => (√w)⁻¹) (Set.Ioi 0) := by
    intro a ha b hb h
    have ha : 0 < a := ha
    have hb : 0 < b := hb
    exact (sqrt_inj ha.le hb.le).1 (inv_injective h)
  have hder : ∀ w ∈ Set.Ioi (0 : ℝ), HasDerivWithinAt (fun w : ℝ => (√w)⁻¹)
      (-(1 / (2 * √w)) / √w ^ 2) (Set.Ioi 0) w := fun w hw => by
    have hw : 0 < w := hw
    exact ((hasDerivAt_sqrt hw.ne').inv (sqrt_pos.2 hw).ne').hasDerivWithinAt
  have := lintegral_image_eq_lintegral_abs_deriv_mul measurableSet_Ioi hder hinj
    ((fun x => ENNReal.ofReal (2 / (π * (1 + x ^ 2)))) * fun x => φ ((x ^ 2)⁻¹))
  rw [himg] at this
  refine this.trans ?_
  refine setLIntegral_congr_fun measurableSet_Ioi fun w hw => ?_
  have hw : 0 < w := hw
  have hs : 0 < √w := sqrt_pos.2 hw
  simp only [Pi.mul_apply]
  rw [← mul_assoc, ← ENNReal.ofReal_mul (abs_nonneg _)]
  have e1 : (((√w)⁻¹) ^ 2)⁻¹ = w := by rw [inv_pow, inv_inv, sq_sqrt hw.le]
  rw [e1]
  congr 2
  rw [neg_div, abs_neg, abs_of_pos (by positivity), precDens, rpow_neg hw.le, ← sqrt_eq_rpow,
    inv_pow, sq_sqrt hw.le]
  have := pi_pos
  field_simp
  ring

/-- From `(λ, τ)` to the precisions `(1/λ², 1/τ²)`. -/
noncomputable def toPrec {p : ℕ} (q : (Fin p → ℝ) × ℝ) : (Fin p → ℝ) × ℝ :=
  (fun j => (q.1 j ^ 2)⁻¹, (q.2 ^ 2)⁻¹)

/-- From precisions to `(λ, τ)`. -/
noncomputable def ofPrec {p : ℕ} (r : (Fin p → ℝ) × ℝ) : (Fin p → ℝ) × ℝ :=
  (fun j => (√(r.1 j))⁻¹, (√r.2)⁻¹)

theorem measurable_toPrec {p : ℕ} : Measurable (toPrec (p := p)) := by
  unfold toPrec; fun_prop

theorem measurable_ofPrec {p : ℕ} : Measurable (ofPrec (p := p)) := by
  unfold ofPrec; fun_prop

theorem ofPrec_toPrec {p : ℕ} {q : (Fin p → ℝ) × ℝ} (h1 : ∀ j, 0 < q.1 j) (h2 : 0 < q.2) :
    ofPrec (toPrec q) = q := by
  refine Prod.ext (funext fun j => ?_) ?_
  · simp [ofPrec, toPrec, sqrt_sq (h1 j).le]
  · simp [ofPrec, toPrec, sqrt_sq h2.le]

theorem toPrec_ofPrec {p : ℕ} {q : (Fin p → ℝ) × ℝ} (h1 : ∀ j, 0 < q.1 j) (h2 : 0 < q.2) :
    toPrec (ofPrec q) = q := by
  refine Prod.ext (funext fun j => ?_) ?_
  · simp [ofPrec, toPrec, sq_sqrt (h1 j).le]
  · simp [ofPrec, toPrec, sq_sqrt h2.le]

/-- All coordinates are positive. -/
def AllPos {p : ℕ} (q : (Fin p → ℝ) × ℝ) : Prop := (∀ j, 0 < q.1 j) ∧ 0 < q.2

theorem ae_prior_pos (p : ℕ) : ∀ᵐ q ∂prior p, AllPos q := by
  have h1 : ∀ᵐ x ∂(Measure.pi fun _ : Fin p => halfCauchy), ∀ j, 0 < x j :=
    ae_all_iff.2 fun j =>
      (Measure.quasiMeasurePreserving_eval (μ := fun _ : Fin p => halfCauchy) j).ae
        ae_pos_halfCauchy
  have h2 := Measure.quasiMeasurePreserving_fst (μ := Measure.pi fun _ : Fin p => halfCauchy)
    (ν := halfCauchy) |>.ae h1
  have h3 := Measure.quasiMeasurePreserving_snd (μ := Measure.pi fun _ : Fin p => halfCauchy)
    (ν := halfCauchy) |>.ae ae_pos_halfCauchy
  filter_upwards [h2, h3] with q a b using ⟨a, b⟩

theorem ae_volPos_prod (p : ℕ) :
    ∀ᵐ q ∂(Measure.pi fun _ : Fin p => volPos).prod volPos, AllPos q := by
  have h2 := Measure.quasiMeasurePreserving_fst (μ := Measure.pi fun _ : Fin p => volPos)
    (ν := volPos) |>.ae (ae_pi_volPos p)
  have h3 := Measure.quasiMeasurePreserving_snd (μ := Measure.pi fun _ : Fin p => volPos)
    (ν := volPos) |>.ae ae_volPos
  filter_upwards [h2, h3] with q a b using ⟨a, b⟩

instance (p : ℕ) : IsProbabilityMeasure (prior p) := by unfold prior; infer_instance

theorem pi_halfCauchy_map (p : ℕ) :
    (Measure.pi fun _ : Fin p => halfCauchy).map (fun x j => (x j ^ 2)⁻¹) =
      (Measure.pi fun _ : Fin p => volPos).withDensity
        fun x => ENNReal.ofReal (∏ j, precDens (x j)) := by
  have hg : Measurable fun x : ℝ => (x ^ 2)⁻¹ := by fun_prop
  have hp : IsProbabilityMeasure (halfCauchy.map fun x => (x ^ 2)⁻¹) :=
    Measure.isProbabilityMeasure_map hg.aemeasurable
  have hpd : IsProbabilityMeasure (volPos.withDensity fun w => ENNReal.ofReal (precDens w)) := by
    rw [← halfCauchy_map]; exact hp
  have h0 : ∀ᵐ w ∂volPos, 0 ≤ precDens w := by
    filter_upwards [ae_volPos] with w hw
    unfold precDens
    have := pi_pos
    positivity
  have hint : Integrable precDens volPos := by
    refine ⟨measurable_precDens.aestronglyMeasurable, ?_⟩
    rw [hasFiniteIntegral_iff_ofReal h0]
    have h1 := measure_univ (μ := volPos.withDensity fun w => ENNReal.ofReal (precDens w))
    rw [withDensity_apply _ MeasurableSet.univ, Measure.restrict_univ] at h1
    rw [h1]
    exact ENNReal.one_lt_top
  -- a nonnegative version of the density
  have hcongr : (volPos.withDensity fun w => ENNReal.ofReal (precDens w)) =
      volPos.withDensity fun w => ENNReal.ofReal (max (precDens w) 0) := by
    congr 1
    ext w
    simp [ENNReal.ofReal_max]
  have hpd' : IsProbabilityMeasure
      (volPos.withDensity fun w => ENNReal.ofReal (max (precDens w) 0)) := hcongr ▸ hpd
  rw [Measure.pi_map_pi (fun _ => hg.aemeasurable), halfCauchy_map, hcongr,
    pi_withDensity_ofReal (fun _ : Fin p => volPos)
      (f := fun _ w => max (precDens w) 0) (fun _ => hint.pos_part) (fun _ _ => le_max_right _ _)]
  refine withDensity_congr_ae ?_
  filter_upwards [ae_pi_volPos p] with x hx
  congr 1
  refine Finset.prod_congr rfl fun j _ => max_eq_left ?_
  unfold precDens
  have := pi_pos
  have := hx j
  positivity

theorem prior_map (p : ℕ) : (prior p).map toPrec =
    ((Measure.pi fun _ : Fin p => volPos).prod volPos).withDensity fun r =>
      ENNReal.ofReal (∏ j, precDens (r.1 j)) * ENNReal.ofReal (precDens r.2) := by
  have hg : Measurable fun x : ℝ => (x ^ 2)⁻¹ := by fun_prop
  have hgp : Measurable fun (x : Fin p → ℝ) j => (x j ^ 2)⁻¹ := by fun_prop
  have hp : IsProbabilityMeasure (halfCauchy.map fun x => (x ^ 2)⁻¹) :=
    Measure.isProbabilityMeasure_map hg.aemeasurable
  have e1 : (prior p).map toPrec = ((Measure.pi fun _ : Fin p => halfCauchy).map
      fun x j => (x j ^ 2)⁻¹).prod (halfCauchy.map fun x => (x ^ 2)⁻¹) := by
    rw [Measure.map_prod_map _ _ hgp hg]
    rfl
  have hpd : IsProbabilityMeasure (volPos.withDensity fun w => ENNReal.ofReal (precDens w)) := by
    rw [← halfCauchy_map]; exact hp
  rw [e1, halfCauchy_map, pi_halfCauchy_map]
  refine prod_withDensity ?_ measurable_precDens.ennreal_ofReal
  exact (Finset.measurable_prod _ fun j _ =>
    measurable_precDens.comp (measurable_pi_apply j)).ennreal_ofReal

/-- The likelihood as a function of the precisions, up to its constant. -/
noncomputable def likPrec {p : ℕ} (β : Fin p → ℝ) (sigma2 : ℝ) (r : (Fin p → ℝ) × ℝ) : ℝ :=
  ∏ j, (√(2 * π * sigma2))⁻¹ * (√(r.1 j) * √r.2 * exp (-(β j ^ 2 / (2 * sigma2) * r.1 j * r.2)))

theorem measurable_likPrec {p : ℕ} (β : Fin p → ℝ) (sigma2 : ℝ) : Measurable (likPrec β sigma2) := by
  unfold likPrec; fun_prop

theorem lik_eq_likPrec {p : ℕ} (β : Fin p → ℝ) {sigma2 : ℝ} (hs : 0 < sigma2)
    {q : (Fin p → ℝ) × ℝ} (hq : AllPos q) :
    lik β sigma2 q = ENNReal.ofReal (likPrec β sigma2 (toPrec q)) := by
  unfold lik likPrec
  congr 1
  refine Finset.prod_congr rfl fun j _ => ?_
  have h1 := hq.1 j
  have h2 := hq.2
  have hpi := pi_pos
  rw [gaussianPDFReal, coe_toNNReal _ (by positivity)]
  simp only [toPrec, sqrt_inv, sqrt_sq h1.le, sqrt_sq h2.le, sub_zero]
  rw [show 2 * π * (q.1 j ^ 2 * q.2 ^ 2 * sigma2) = 2 * π * sigma2 * (q.1 j * q.2) ^ 2 by ring,
    sqrt_mul (by positivity), sqrt_sq (by positivity), mul_inv, mul_inv, mul_assoc]
  congr 3
  field_simp

/-- Marginal density of the precisions given the coefficients, up to a constant; `c_j` is
`β_j² / (2 σ²)`. -/
noncomputable def marg {p : ℕ} (c : Fin p → ℝ) (r : (Fin p → ℝ) × ℝ) : ℝ :=
  (∏ j, exp (-(c j * r.1 j * r.2)) / (1 + r.1 j)) * (r.2 ^ (((p : ℝ) - 1) / 2) / (1 + r.2))

theorem measurable_marg {p : ℕ} (c : Fin p → ℝ) : Measurable (marg c) := by
  unfold marg; fun_prop

theorem posterior_map {p : ℕ} (β : Fin p → ℝ) {sigma2 : ℝ} (hs : 0 < sigma2) :
    (posterior β sigma2).map toPrec = bayes ((Measure.pi fun _ : Fin p => volPos).prod volPos)
      fun r => ENNReal.ofReal (marg (fun j => β j ^ 2 / (2 * sigma2)) r) := by
  have hpi := pi_pos
  have hmL := (measurable_likPrec β sigma2).ennreal_ofReal
  have h1 : posterior β sigma2 =
      bayes (prior p) fun q => ENNReal.ofReal (likPrec β sigma2 (toPrec q)) := by
    refine bayes_congr_ae ?_
    filter_upwards [ae_prior_pos p] with q hq using lik_eq_likPrec β hs hq
  rw [h1, bayes_map measurable_toPrec hmL, prior_map, bayes_withDensity_left ?_ hmL]
  · have hK : 0 < ((√(2 * π * sigma2))⁻¹ / π) ^ p / π := by positivity
    rw [← bayes_const_mul _ (measurable_marg _).ennreal_ofReal
      (c := ENNReal.ofReal (((√(2 * π * sigma2))⁻¹ / π) ^ p / π)) (by simpa using hK)
      ENNReal.ofReal_ne_top]
    refine bayes_congr_ae ?_
    filter_upwards [ae_volPos_prod p] with r hr
    have hr1 := hr.1
    have hr2 := hr.2
    have hd : ∀ j, 0 ≤ precDens (r.1 j) := fun j => by
      unfold precDens; have := hr1 j; positivity
    have hd2 : 0 ≤ precDens r.2 := by unfold precDens; positivity
    rw [← ENNReal.ofReal_mul (Finset.prod_nonneg fun j _ => hd j), ← ENNReal.ofReal_mul hK.le,
      ← ENNReal.ofReal_mul (mul_nonneg (Finset.prod_nonneg fun j _ => hd j) hd2)]
    congr 1
    have e : ∀ j, precDens (r.1 j) * ((√(2 * π * sigma2))⁻¹ *
        (√(r.1 j) * √r.2 * exp (-(β j ^ 2 / (2 * sigma2) * r.1 j * r.2)))) =
        ((√(2 * π * sigma2))⁻¹ / π * √r.2) *
          (exp (-(β j ^ 2 / (2 * sigma2) * r.1 j * r.2)) / (1 + r.1 j)) := fun j => by
      have := hr1 j
      have hs' := sqrt_pos.2 this
      rw [precDens, rpow_neg this.le, ← sqrt_eq_rpow]
      field_simp
    have e2 : (∏ j, precDens (r.1 j)) * likPrec β sigma2 r =
        ((√(2 * π * sigma2))⁻¹ / π) ^ p * √r.2 ^ p *
          ∏ j, (exp (-(β j ^ 2 / (2 * sigma2) * r.1 j * r.2)) / (1 + r.1 j)) := by
      rw [likPrec, ← Finset.prod_mul_distrib, Finset.prod_congr rfl fun j _ => e j,
        Finset.prod_mul_distrib, Finset.prod_const, Finset.card_fin, mul_pow]
    have e3 : √r.2 ^ p * r.2 ^ (-(1 / 2) : ℝ) = r.2 ^ (((p : ℝ) - 1) / 2) := by
      rw [sqrt_eq_rpow, ← rpow_natCast, ← rpow_mul hr2.le, ← rpow_add hr2]
      congr 1
      ring
    rw [mul_right_comm, e2, marg, ← e3, precDens]
    generalize (∏ j, exp (-(β j ^ 2 / (2 * sigma2) * r.1 j * r.2)) / (1 + r.1 j)) = P
    field_simp
  · refine Measurable.fun_mul ?_ ?_
    · exact (Finset.measurable_prod _ fun j _ => measurable_precDens.comp
        ((measurable_pi_apply j).comp measurable_fst)).ennreal_ofReal
    · exact (measurable_precDens.comp measurable_snd).ennreal_ofReal

end Verif.Horseshoe
