import Verif.HsReg.Steps
import Verif.Horseshoe.Drift

/-!
# Whole calls in the scale reading

The `(λ, τ)`-marginal of the joint posterior has the tails `Horseshoe.scale_drift` asks for.  So no call
that updates the shrinkage parameters with the scale reading and then the coefficients in any way keeps
the joint posterior.
-/

open MeasureTheory ProbabilityTheory Matrix
open scoped ENNReal

namespace Verif.HsReg

variable {p n : ℕ} {X : Matrix (Fin n) (Fin p) ℝ} {b κ : Fin n → ℝ} {lik : (Fin p → ℝ) → ℝ≥0∞}

/-- Means over the joint posterior of what depends on the shrinkage parameters only. -/
theorem lintegral_hsPosterior_snd (hl : Measurable lik) {f : (Fin p → ℝ) × ℝ → ℝ≥0∞}
    (hf : Measurable f) :
    ∫⁻ q, f q.2 ∂hsPosterior lik = (∫⁻ q, dens q * lik q.1 ∂volume.prod (Horseshoe.prior p))⁻¹ *
      ∫⁻ s, f s * ∫⁻ β, lik β ∂(normalPrior fun j => s.1 j * s.2) ∂Horseshoe.prior p := by
  have hm : Measurable fun q : (Fin p → ℝ) × ((Fin p → ℝ) × ℝ) => dens q * lik q.1 :=
    measurable_dens.mul (hl.comp measurable_fst)
  have hf2 : Measurable fun q : (Fin p → ℝ) × ((Fin p → ℝ) × ℝ) => f q.2 := hf.comp measurable_snd
  have hm2 : Measurable fun q : (Fin p → ℝ) × ((Fin p → ℝ) × ℝ) => dens q * lik q.1 * f q.2 :=
    hm.mul hf2
  rw [hsPosterior_eq hl, lintegral_bayes hm hf2, lintegral_prod_symm' _ hm2]
  congr 1
  refine lintegral_congr_ae ?_
  filter_upwards [Horseshoe.ae_prior_pos p] with s hs
  rw [← bayesDefined_slice hl hs, mul_comm]
  exact lintegral_mul_const _ (hm.comp measurable_prodMk_right)

/-- The unit box. -/
def unitBox (p : ℕ) : Set (Fin p → ℝ) := Set.univ.pi fun _ => Set.Icc (-1) 1

theorem measurableSet_unitBox : MeasurableSet (unitBox p) :=
  MeasurableSet.univ_pi fun _ => measurableSet_Icc

/-- What the tails need of a likelihood: positive, bounded, and bounded away from zero on the unit box. -/
structure BoxLik (lik : (Fin p → ℝ) → ℝ≥0∞) where
  measurable : Measurable lik
  ne_zero : ∀ β, lik β ≠ 0
  C : ℝ≥0∞
  hC : C ≠ ∞
  hle : ∀ β, lik β ≤ C
  l : ℝ≥0∞
  hl : l ≠ 0
  hbox : ∀ β ∈ unitBox p, l ≤ lik β

theorem BoxLik.jointDefined (F : BoxLik lik) :
    BayesDefined (volume.prod (Horseshoe.prior p)) fun q => dens q * lik q.1 :=
  bayesDefined_joint F.measurable F.ne_zero F.hC F.hle

theorem BoxLik.l_ne_top (F : BoxLik lik) : F.l ≠ ∞ :=
  ne_top_of_le_ne_top F.hC ((F.hbox 0 fun _ _ => by constructor <;> norm_num).trans (F.hle 0))

theorem prob_normalPrior (std : Fin p → ℝ) : IsProbabilityMeasure (normalPrior std) := by
  unfold normalPrior
  infer_instance

/-- The marginal is at most a multiple of the prior. -/
theorem BoxLik.marginal_le (F : BoxLik lik) :
    ∃ C : ℝ≥0∞, C ≠ ∞ ∧ (hsPosterior lik).map Prod.snd ≤ C • Horseshoe.prior p := by
  refine ⟨(∫⁻ q, dens q * lik q.1 ∂volume.prod (Horseshoe.prior p))⁻¹ * F.C,
    ENNReal.mul_ne_top (ENNReal.inv_ne_top.2 F.jointDefined.1) F.hC, ?_⟩
  refine Measure.le_intro fun S hS _ => ?_
  have h := lintegral_hsPosterior_snd F.measurable (f := S.indicator 1) (measurable_one.indicator hS)
  rw [← lintegral_map (f := S.indicator 1) (measurable_one.indicator hS) measurable_snd,
    lintegral_indicator_one hS] at h
  rw [h, Measure.smul_apply, smul_eq_mul, mul_assoc]
  gcongr
  calc ∫⁻ s, S.indicator 1 s * ∫⁻ β, lik β ∂(normalPrior fun j => s.1 j * s.2) ∂Horseshoe.prior p
      ≤ ∫⁻ s, S.indicator 1 s * F.C ∂Horseshoe.prior p := by
        refine lintegral_mono fun s => ?_
        have := prob_normalPrior (p := p) fun j => s.1 j * s.2
        refine mul_le_mul' le_rfl ((lintegral_mono F.hle).trans ?_)
        simp
    _ = F.C * Horseshoe.prior p S := by
        rw [lintegral_mul_const _ (measurable_one.indicator hS), lintegral_indicator_one hS, mul_comm]

/-- The likelihood is bounded away from zero on the unit box. -/
theorem PGForm.box_ge (F : PGForm X b κ lik) : ∃ l : ℝ, 0 < l ∧
    ∀ β ∈ unitBox p, ENNReal.ofReal l ≤ lik β := by
  have hc : Continuous fun β : Fin p → ℝ => F.c * (Real.exp (F.tilt ⬝ᵥ β) * pgLik X b κ β) := by
    have h1 : ∀ i, Continuous fun β : Fin p → ℝ => (X *ᵥ β) i := fun i => by
      simp only [mulVec, dotProduct]
      fun_prop
    have h2 : Continuous fun β : Fin p → ℝ => F.tilt ⬝ᵥ β := by
      simp only [dotProduct]
      fun_prop
    have h3 : Continuous fun β : Fin p → ℝ => pgLik X b κ β := by
      unfold pgLik
      refine continuous_finsetProd _ fun i _ => ?_
      refine (Real.continuous_exp.comp (continuous_const.mul (h1 i))).mul ?_
      exact (Real.continuous_cosh.comp ((h1 i).div_const 2)).rpow_const
        fun β => Or.inl (Real.cosh_pos _).ne'
    exact continuous_const.mul ((Real.continuous_exp.comp h2).mul h3)
  have hK : IsCompact (unitBox p) := isCompact_univ_pi fun _ => isCompact_Icc
  have hne : (unitBox p).Nonempty := ⟨0, fun _ _ => by constructor <;> norm_num⟩
  obtain ⟨β₀, _, hmin⟩ := hK.exists_isMinOn hne hc.continuousOn
  refine ⟨_, mul_pos F.hc (mul_pos (Real.exp_pos (F.tilt ⬝ᵥ β₀)) (pgLik_pos X b κ β₀)), fun β hβ => ?_⟩
  rw [F.hlik]
  exact ENNReal.ofReal_le_ofReal (hmin hβ)

/-- A likelihood of the Polya-Gamma form qualifies. -/
noncomputable def PGForm.boxLik (F : PGForm X b κ lik) : BoxLik lik where
  measurable := F.measurable
  ne_zero := F.ne_zero
  C := F.C
  hC := F.hC
  hle := F.hle
  l := ENNReal.ofReal F.box_ge.choose
  hl := by simpa using F.box_ge.choose_spec.1
  hbox := F.box_ge.choose_spec.2

theorem gauss_Icc_ge {σ : ℝ} (h0 : 0 ≤ σ) (h1 : σ ≤ 1) :
    gaussianReal 0 1 (Set.Icc (-1) 1) ≤ gaussianReal 0 (σ ^ 2).toNNReal (Set.Icc (-1) 1) := by
  have e : gaussianReal 0 (σ ^ 2).toNNReal = (gaussianReal 0 1).map (σ * ·) := by
    rw [gaussianReal_map_const_mul, mul_zero, mul_one]
    congr 1
    ext
    simp [sq_nonneg]
  rw [e, Measure.map_apply (by fun_prop) measurableSet_Icc]
  refine measure_mono fun x hx => ?_
  have h2 := hx.1
  have h3 := hx.2
  constructor <;> simp only <;> nlinarith

theorem normalPrior_box_ge {s : (Fin p → ℝ) × ℝ} (hs : Horseshoe.AllPos s) (h1 : ∀ j, s.1 j ≤ 1) (h2 : s.2 ≤ 1) :
    gaussianReal 0 1 (Set.Icc (-1) 1) ^ p ≤ normalPrior (fun j => s.1 j * s.2) (unitBox p) := by
  rw [normalPrior, unitBox, Measure.pi_pi]
  calc gaussianReal 0 1 (Set.Icc (-1) 1) ^ p = ∏ _j : Fin p, gaussianReal 0 1 (Set.Icc (-1) 1) := by
        simp
    _ ≤ _ := Finset.prod_le_prod' fun j _ => gauss_Icc_ge (mul_pos (hs.1 j) hs.2).le
        (mul_le_one₀ (h1 j) hs.2.le h2)

/-- Near zero a local parameter has at least a multiple of the prior mass. -/
theorem BoxLik.marginal_ge (F : BoxLik lik) (j : Fin p) : ∃ c : ℝ≥0∞, c ≠ 0 ∧ c ≠ ∞ ∧
    ∀ f : ℝ → ℝ≥0∞, Measurable f → c * ∫⁻ t in Set.Ioc 0 1, f t ∂Horseshoe.halfCauchy ≤
      ∫⁻ q, f (q.1 j) ∂(hsPosterior lik).map Prod.snd := by
  have hg : gaussianReal 0 1 (Set.Icc (-1) 1) ≠ 0 := fun h => by
    have h1 := gaussianReal_absolutelyContinuous' (0 : ℝ) (one_ne_zero (α := NNReal)) h
    rw [Real.volume_Icc] at h1
    norm_num at h1
  have hI : Horseshoe.halfCauchy (Set.Ioc 0 1) ≠ 0 := fun h => by
    have h1 := Horseshoe.hcPow1_ge (s := 1 / 4) (by norm_num) (by norm_num)
    rw [Horseshoe.hcPow1, Measure.restrict_zero_set h, lintegral_zero_measure] at h1
    have h2 : 0 < Real.pi⁻¹ * (1 - 2 * (1 / 4 : ℝ))⁻¹ := by
      have := Real.pi_pos
      norm_num
      positivity
    simp only [nonpos_iff_eq_zero, ENNReal.ofReal_eq_zero] at h1
    linarith
  let Z : ℝ≥0∞ := ∫⁻ q, dens q * lik q.1 ∂volume.prod (Horseshoe.prior p)
  have hZ0 : Z ≠ 0 := F.jointDefined.1
  have hZT : Z ≠ ∞ := F.jointDefined.2
  let g : ℝ≥0∞ := F.l * gaussianReal 0 1 (Set.Icc (-1) 1) ^ p
  let h : ℝ≥0∞ := (∏ _i ∈ Finset.univ.erase j, Horseshoe.halfCauchy (Set.Ioc 0 1)) *
    Horseshoe.halfCauchy (Set.Ioc 0 1)
  have hg0 : g ≠ 0 := mul_ne_zero F.hl (pow_ne_zero _ hg)
  have hgT : g ≠ ∞ := ENNReal.mul_ne_top F.l_ne_top
    (ENNReal.pow_ne_top (measure_ne_top _ _))
  have hh0 : h ≠ 0 := mul_ne_zero (Finset.prod_ne_zero_iff.2 fun _ _ => hI) hI
  have hhT : h ≠ ∞ := ENNReal.mul_ne_top (ENNReal.prod_ne_top fun _ _ => measure_ne_top _ _)
    (measure_ne_top _ _)
  refine ⟨Z⁻¹ * (g * h), mul_ne_zero (ENNReal.inv_ne_zero.2 hZT) (mul_ne_zero hg0 hh0),
    ENNReal.mul_ne_top (ENNReal.inv_ne_top.2 hZ0) (ENNReal.mul_ne_top hgT hhT), fun f hf => ?_⟩
  have hfj : Measurable fun s : (Fin p → ℝ) × ℝ => f (s.1 j) := by fun_prop
  rw [lintegral_map hfj measurable_snd, lintegral_hsPosterior_snd F.measurable hfj, mul_assoc]
  gcongr
  let S : Set ((Fin p → ℝ) × ℝ) := (Set.univ.pi fun _ => Set.Ioc 0 1) ×ˢ Set.Ioc 0 1
  have hS : MeasurableSet S :=
    (MeasurableSet.univ_pi fun _ => measurableSet_Ioc).prod measurableSet_Ioc
  have e : ∫⁻ s in S, f (s.1 j) ∂Horseshoe.prior p =
      h * ∫⁻ t in Set.Ioc 0 1, f t ∂Horseshoe.halfCauchy := by
    have hfj' : Measurable fun x : Fin p → ℝ => f (x j) := by fun_prop
    rw [Horseshoe.prior, ← Measure.prod_restrict, Measure.restrict_pi_pi]
    have e1 := lintegral_prod_mul (μ := Measure.pi fun _ : Fin p =>
        Horseshoe.halfCauchy.restrict (Set.Ioc 0 1))
      (ν := Horseshoe.halfCauchy.restrict (Set.Ioc 0 1)) (f := fun x => f (x j)) (g := 1)
      hfj'.aemeasurable measurable_one.aemeasurable
    simp only [Pi.one_apply, mul_one, lintegral_const, Measure.restrict_apply MeasurableSet.univ,
      Set.univ_inter, one_mul] at e1
    rw [e1, ← lintegral_map (f := f) (g := fun x : Fin p → ℝ => x j) hf (by fun_prop)]
    have e2 := Measure.pi_map_eval (μ := fun _ : Fin p =>
        Horseshoe.halfCauchy.restrict (Set.Ioc 0 1)) j
    have e3 : (Measure.pi fun _ : Fin p => Horseshoe.halfCauchy.restrict (Set.Ioc 0 1)).map
        (fun x : Fin p → ℝ => x j) =
        (∏ _i ∈ Finset.univ.erase j, Horseshoe.halfCauchy (Set.Ioc 0 1)) •
          Horseshoe.halfCauchy.restrict (Set.Ioc 0 1) := by
      refine Eq.trans e2 ?_
      simp
    rw [e3, lintegral_smul_measure, smul_eq_mul]
    simp only [h]
    ring
  calc g * h * ∫⁻ t in Set.Ioc 0 1, f t ∂Horseshoe.halfCauchy
      = ∫⁻ s in S, f (s.1 j) * g ∂Horseshoe.prior p := by
        rw [lintegral_mul_const _ hfj, e]
        ring
    _ ≤ ∫⁻ s in S, f (s.1 j) * ∫⁻ β, lik β ∂(normalPrior fun j => s.1 j * s.2) ∂Horseshoe.prior p := by
        refine lintegral_mono_ae ?_
        filter_upwards [ae_restrict_mem hS] with s hs
        have hp : Horseshoe.AllPos s := ⟨fun j => (hs.1 j trivial).1, hs.2.1⟩
        refine mul_le_mul' le_rfl ?_
        calc g ≤ F.l * normalPrior (fun j => s.1 j * s.2) (unitBox p) :=
              mul_le_mul' le_rfl (normalPrior_box_ge hp (fun j => (hs.1 j trivial).2) hs.2.2)
          _ = ∫⁻ _β in unitBox p, F.l ∂(normalPrior fun j => s.1 j * s.2) :=
              (setLIntegral_const _ _).symm
          _ ≤ ∫⁻ β in unitBox p, lik β ∂(normalPrior fun j => s.1 j * s.2) :=
              setLIntegral_mono_ae F.measurable.aemeasurable (ae_of_all _ F.hbox)
          _ ≤ _ := setLIntegral_le_lintegral _ _
    _ ≤ _ := setLIntegral_le_lintegral _ _

/-- Tails: whatever the joint law `ρ` the step starts from, if its `(λ, τ)`-marginal is that of the
posterior then the law of the new `(λ, τ)` is another one. -/
theorem BoxLik.scale_marginal (F : BoxLik lik) (j : Fin p)
    {ρ : Measure ((Fin p → ℝ) × ((Fin p → ℝ) × ℝ))}
    (hρ : ρ.map Prod.snd = (hsPosterior lik).map Prod.snd) :
    ρ.bind (shrinkK .scale) ≠ (hsPosterior lik).map Prod.snd := by
  intro h
  obtain ⟨C, hC, hup⟩ := F.marginal_le
  obtain ⟨c, hc0, hcT, hlow⟩ := F.marginal_ge j
  have hpr : IsProbabilityMeasure (hsPosterior lik) := by
    rw [hsPosterior_eq F.measurable]
    exact isProbabilityMeasure_bayes F.jointDefined
  have hpr2 : IsProbabilityMeasure ((hsPosterior lik).map Prod.snd) :=
    Measure.isProbabilityMeasure_map measurable_snd.aemeasurable
  have hpos : ∀ᵐ r ∂ρ, Horseshoe.AllPos r.2 := by
    have h1 : ∀ᵐ s ∂(hsPosterior lik).map Prod.snd, Horseshoe.AllPos s :=
      ((Measure.absolutelyContinuous_of_le hup).trans Measure.smul_absolutelyContinuous).ae_le
        (Horseshoe.ae_prior_pos p)
    rw [← hρ] at h1
    exact ae_of_ae_map measurable_snd.aemeasurable h1
  refine Horseshoe.scale_drift p j hρ hC hup hc0 hcT hlow fun f hf => le_of_eq ?_
  rw [← h, Measure.lintegral_bind (measurable_shrinkK _).aemeasurable hf.aemeasurable]
  refine lintegral_congr_ae ?_
  filter_upwards [hpos] with r hr
  rw [← shrinkK_eq .scale r.1 hr]
  rfl

end Verif.HsReg
