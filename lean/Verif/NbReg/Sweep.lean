import Verif.NbReg.Lemmas
import Verif.PG.Other
import Verif.Prob.Assoc

/-!
# A call with a wrong prior scale never keeps the joint posterior

The step for the coefficients uses the prior variances `std` in place of `std²`.  Whatever the dispersion,
it makes one bounded function of the coefficients smaller on average.  The step of the dispersion keeps
the coefficients, so it cannot undo this.
-/

open MeasureTheory ProbabilityTheory Matrix
open scoped ENNReal

namespace Verif.NbReg

variable {p n : ℕ}

/-- The model's prior is a multiple of `exp (-priorGap)` times the prior the step uses. -/
theorem normalPrior_tilt {std : Fin p → ℝ} (hs : ∀ j, 0 < std j) : ∃ k : ℝ, 0 < k ∧
    normalPrior std = (mvn 0 (diagonal fun j => (std j)⁻¹)⁻¹).withDensity
      fun x => ENNReal.ofReal (k * Real.exp (-priorGap std x)) := by
  obtain ⟨c₁, hc₁, h₁⟩ := normalPrior_density hs
  obtain ⟨c₂, hc₂, h₂⟩ := normalPrior_density (std := fun j => Real.sqrt (std j))
    fun j => Real.sqrt_pos.2 (hs j)
  simp only [fun j => Real.sq_sqrt (hs j).le] at h₂
  have hg : Measurable fun x : Fin p → ℝ => Real.exp (-priorGap std x) :=
    Real.measurable_exp.comp (continuous_priorGap std).measurable.neg
  refine ⟨c₁ / c₂, by positivity, ?_⟩
  rw [← normalPrior_sqrt hs, h₁, h₂, ← withDensity_mul _ (by fun_prop) (by fun_prop)]
  congr 1
  ext x
  simp only [Pi.mul_apply]
  have key : -priorGap std x = -(∑ j, (std j ^ 2)⁻¹ * x j ^ 2) / 2 -
      -(∑ j, (std j)⁻¹ * x j ^ 2) / 2 := by
    rw [priorGap, neg_div, neg_div, Finset.sum_div, Finset.sum_div, sub_neg_eq_add, neg_add_eq_sub,
      ← Finset.sum_sub_distrib, ← Finset.sum_neg_distrib]
    exact Finset.sum_congr rfl fun j _ => by ring
  rw [← ENNReal.ofReal_mul (by positivity), key, Real.exp_sub]
  congr 1
  field_simp

/-- The tilt is not constant almost everywhere unless every standard deviation is one. -/
theorem priorGap_not_const {std : Fin p → ℝ} (hs : ∀ j, 0 < std j) {j : Fin p} (hj : std j ≠ 1)
    (c : ℝ) : ¬ ∀ᵐ x : Fin p → ℝ, Real.exp (-priorGap std x) = c := by
  intro h
  have hc : (fun x : Fin p → ℝ => Real.exp (-priorGap std x)) = fun _ => c :=
    Continuous.ae_eq_iff_eq volume (Real.continuous_exp.comp (continuous_priorGap std).neg)
      continuous_const |>.1 h
  have h0 := congrFun hc 0
  have h1 := congrFun hc (Pi.single j 1)
  have h2 : priorGap std (Pi.single j 1) = priorGap std 0 := by
    have := Real.exp_injective (h1.trans h0.symm)
    linarith
  have e : priorGap std (Pi.single j 1) = ((std j ^ 2)⁻¹ - (std j)⁻¹) / 2 := by
    rw [priorGap, Finset.sum_eq_single j]
    · simp
    · intro l _ hl
      simp [hl]
    · simp
  have e0 : priorGap std (0 : Fin p → ℝ) = 0 := by simp [priorGap]
  rw [e, e0] at h2
  have h3 : std j ^ 2 = std j := inv_injective (by linarith)
  have := hs j
  exact hj (by nlinarith)

/-- The bounded function of the coefficients. -/
noncomputable def probe (std : Fin p → ℝ) (β : Fin p → ℝ) : ℝ≥0∞ :=
  ENNReal.ofReal (squash (Real.exp (-priorGap std β)))

theorem measurable_probe (std : Fin p → ℝ) : Measurable (probe std) :=
  (measurable_squash.comp
    (Real.measurable_exp.comp (continuous_priorGap std).measurable.neg)).ennreal_ofReal

theorem probe_le_one (std β : Fin p → ℝ) : probe std β ≤ 1 := by
  rw [probe, ENNReal.ofReal_le_one]
  exact squash_le_one (Real.exp_pos _)

/-- For every dispersion the step makes `probe` smaller on average. -/
theorem slice_lt {std : Fin p → ℝ} (hs : ∀ j, 0 < std j) {j : Fin p} (hj : std j ≠ 1)
    (X : Matrix (Fin n) (Fin p) ℝ) (y : Fin n → ℕ) (h : ℝ) :
    ∫⁻ β, lik' X y (β, h) * ∫⁻ x, probe std x ∂coefK (fun j => (std j)⁻¹) X y (β, h) ∂normalPrior std <
      ∫⁻ β, lik' X y (β, h) * probe std β ∂normalPrior std := by
  have hh := posOr1_pos h
  have hb : ∀ i, 0 < (y i : ℝ) + posOr1 h := add_posOr1_pos y h
  obtain ⟨c, hc, hlik⟩ := nbRegLik_eq X (h := fun _ => posOr1 h) (fun _ => hh) y
  obtain ⟨k, hk, hpr⟩ := normalPrior_tilt hs
  have hd : ∀ j, 0 < (std j)⁻¹ := fun j => inv_pos.2 (hs j)
  let κ : Fin n → ℝ := fun i => 0.5 * ((y i : ℝ) - posOr1 h)
  have hp0 : ∀ i, IsProbabilityMeasure (pg0 ((y i : ℝ) + posOr1 h)) :=
    fun i => isProbabilityMeasure_pg0 (hb i)
  have hu : Measurable fun x : Fin p → ℝ => Real.exp (-priorGap std x) :=
    Real.measurable_exp.comp (continuous_priorGap std).measurable.neg
  have hpm : ∀ β, IsProbabilityMeasure (Measure.pi fun i => pg ((y i : ℝ) + posOr1 h) ((X *ᵥ β) i)) := by
    intro β
    have : ∀ i, IsProbabilityMeasure (pg ((y i : ℝ) + posOr1 h) ((X *ᵥ β) i)) :=
      fun i => isProbabilityMeasure_pg (hb i) _
    infer_instance
  have hbm := measurable_bayes_pgJoint (fun j => (std j)⁻¹) X κ
  have hlik2 : ∀ β, lik' X y (β, h) = ENNReal.ofReal c *
      ∫⁻ w, pgJoint X κ β w ∂(Measure.pi fun i => pg0 ((y i : ℝ) + posOr1 h)) := by
    intro β
    have e : lik' X y (β, h) = nbRegLik X (fun _ => posOr1 h) y β := rfl
    rw [e, hlik β, ENNReal.ofReal_mul hc.le, (pi_pg_eq X hb κ β).2.1]
  have hG : Measurable fun w => ∫⁻ x, probe std x
      ∂bayes (mvn 0 (diagonal fun j => (std j)⁻¹)⁻¹) (fun β => pgJoint X κ β w) :=
    (Measure.measurable_lintegral (measurable_probe std)).comp hbm
  have hstep : ∀ β, lik' X y (β, h) * ∫⁻ x, probe std x ∂coefK (fun j => (std j)⁻¹) X y (β, h) =
      ENNReal.ofReal c * ∫⁻ w, pgJoint X κ β w * ∫⁻ x, probe std x
        ∂bayes (mvn 0 (diagonal fun j => (std j)⁻¹)⁻¹) (fun β => pgJoint X κ β w)
        ∂(Measure.pi fun i => pg0 ((y i : ℝ) + posOr1 h)) := by
    intro β
    have hpi := pi_pg_eq X hb κ β
    have e : coefK (fun j => (std j)⁻¹) X y (β, h) =
        (Measure.pi fun i => pg ((y i : ℝ) + posOr1 h) ((X *ᵥ β) i)).bind fun w =>
          bayes (mvn 0 (diagonal fun j => (std j)⁻¹)⁻¹) fun β => pgJoint X κ β w := by
      rw [coefK]
      simp only [posOr1_of_pos (hb _)]
      rfl
    rw [e, Measure.lintegral_bind hbm.aemeasurable (measurable_probe std).aemeasurable, hpi.2.2,
      lintegral_bayes (measurable_pgJoint_left X κ β) hG, hlik2 β, mul_assoc,
      ← mul_assoc (∫⁻ w, pgJoint X κ β w ∂_), ENNReal.mul_inv_cancel hpi.1.1 hpi.1.2, one_mul]
  have hfinE : ∫⁻ β, ∫⁻ w, pgJoint X κ β w ∂(Measure.pi fun i => pg0 ((y i : ℝ) + posOr1 h))
      ∂normalPrior std ≠ ∞ := by
    simp only [fun β => (pi_pg_eq X hb κ β).2.1]
    exact (bayesDefined_pgLik X (nb_kappa_le (h := fun _ => posOr1 h) (fun _ => hh) y)
      (normalPrior std)).2
  have hJm := measurable_pgJoint X κ
  have key := dataAug_tilt_lt (μ₀ := mvn 0 (diagonal fun j => (std j)⁻¹)⁻¹)
    (ν := Measure.pi fun i => pg0 ((y i : ℝ) + posOr1 h)) (J := pgJoint X κ) hJm hu
    (fun x => Real.exp_pos _) hk
    ((ae_pi_pg0_pos hb).mono fun w hw => (normalRegression_eq_bayes stdLinAlg_sound hd X κ hw).1)
    ((ae_pi_pg0_pos hb).mono fun w hw => by
      rintro ⟨c, hce⟩
      refine priorGap_not_const hs hj c ?_
      have hac : (volume : Measure (Fin p → ℝ)) ≪
          bayes (mvn 0 (diagonal fun j => (std j)⁻¹)⁻¹) fun β => pgJoint X κ β w := by
        have hdef := (normalRegression_eq_bayes stdLinAlg_sound hd X κ hw).1
        refine (mvn_absolutelyContinuous 0 (PosDef.diagonal hd)).2.trans ?_
        rw [bayes]
        refine (withDensity_absolutelyContinuous' (measurable_pgJoint_right X κ w).aemeasurable
          (ae_of_all _ fun β => ?_)).trans
          (Measure.absolutelyContinuous_smul (ENNReal.inv_ne_zero.2 hdef.2))
        rw [pgJoint, Ne, ENNReal.ofReal_eq_zero, not_le]
        exact Finset.prod_pos fun i _ => mul_pos (Real.exp_pos _) (Real.exp_pos _)
      exact hac.ae_le hce)
    (by rw [← hpr]; exact hfinE)
  rw [← hpr] at key
  simp only [hstep]
  have hrhs : ∀ β, lik' X y (β, h) * probe std β = ENNReal.ofReal c *
      ((∫⁻ w, pgJoint X κ β w ∂(Measure.pi fun i => pg0 ((y i : ℝ) + posOr1 h))) * probe std β) :=
    fun β => by rw [hlik2 β, mul_assoc]
  simp only [hrhs]
  have hm1 : Measurable fun β => ∫⁻ w, pgJoint X κ β w * ∫⁻ x, probe std x
        ∂bayes (mvn 0 (diagonal fun j => (std j)⁻¹)⁻¹) (fun β => pgJoint X κ β w)
        ∂(Measure.pi fun i => pg0 ((y i : ℝ) + posOr1 h)) :=
    (hJm.mul (hG.comp measurable_snd)).lintegral_prod_right'
  have hm2 : Measurable fun β => (∫⁻ w, pgJoint X κ β w
      ∂(Measure.pi fun i => pg0 ((y i : ℝ) + posOr1 h))) * probe std β :=
    hJm.lintegral_prod_right'.mul (measurable_probe std)
  rw [lintegral_const_mul _ hm1, lintegral_const_mul _ hm2]
  exact (ENNReal.mul_lt_mul_iff_right (by simpa using hc) ENNReal.ofReal_ne_top).2 key

theorem onFirst_map_fst {A B : Type*} [MeasurableSpace A] [MeasurableSpace B] {ρ : Measure (A × B)}
    {K : A × B → Measure A} (hK : Measurable K) (hp : ∀ q, IsProbabilityMeasure (K q)) :
    (ρ.bind (onFirst K)).map Prod.fst = ρ.bind K := by
  refine Measure.ext fun S hS => ?_
  rw [Measure.map_apply measurable_fst hS, Measure.bind_apply (measurable_fst hS)
    (measurable_onFirst hK hp).aemeasurable, Measure.bind_apply hS hK.aemeasurable]
  refine lintegral_congr fun q => ?_
  rw [onFirst, Measure.map_apply measurable_prodMk_right (measurable_fst hS)]
  rfl

theorem onSecond_map_fst {A B : Type*} [MeasurableSpace A] [MeasurableSpace B] {ρ : Measure (A × B)}
    {K : A × B → Measure B} (hK : Measurable K) (hp : ∀ q, IsProbabilityMeasure (K q)) :
    (ρ.bind (onSecond K)).map Prod.fst = ρ.map Prod.fst := by
  refine Measure.ext fun S hS => ?_
  rw [Measure.map_apply measurable_fst hS, Measure.bind_apply (measurable_fst hS)
    (measurable_onSecond hK hp).aemeasurable, Measure.map_apply measurable_fst hS,
    ← lintegral_indicator_one (measurable_fst hS)]
  refine lintegral_congr fun q => ?_
  rw [onSecond, Measure.map_apply measurable_prodMk_left (measurable_fst hS)]
  by_cases h : q.1 ∈ S
  · rw [Set.indicator_of_mem (show q ∈ Prod.fst ⁻¹' S from h)]
    have : (Prod.mk q.1) ⁻¹' ((Prod.fst : A × B → A) ⁻¹' S) = Set.univ :=
      Set.eq_univ_of_forall fun _ => h
    rw [this, measure_univ]
    rfl
  · rw [Set.indicator_of_notMem (show q ∉ Prod.fst ⁻¹' S from h)]
    have : (Prod.mk q.1) ⁻¹' ((Prod.fst : A × B → A) ⁻¹' S) = ∅ :=
      Set.eq_empty_of_forall_notMem fun _ => h
    rw [this, measure_empty]

/-- With a standard deviation other than one, the step of the coefficients followed by any step of the
dispersion changes the joint posterior. -/
theorem std_never {std : Fin p → ℝ} (hs : ∀ j, 0 < std j) {j : Fin p} (hj : std j ≠ 1)
    {a b : ℝ} (ha : 0 < a) (hb : 0 < b) (X : Matrix (Fin n) (Fin p) ℝ) (y : Fin n → ℕ)
    {K : (Fin p → ℝ) × ℝ → Measure ℝ} (hK : Measurable K) (hp : ∀ q, IsProbabilityMeasure (K q)) :
    ¬ Stationary (bayes (nbPrior std a b) (lik' X y))
      fun q => (onFirst (coefK (fun j => (std j)⁻¹) X y) q).bind (onSecond K) := by
  intro hst
  have hQ := isProbabilityMeasure_gammaMeasure ha (inv_pos.2 hb)
  have hd : ∀ j, 0 < (std j)⁻¹ := fun j => inv_pos.2 (hs j)
  have hCm := measurable_coefK (fun j => (std j)⁻¹) X y
  have hCp := prob_coefK hd X y
  have h2 := hst.2
  rw [← Measure.bind_bind (measurable_onFirst hCm hCp).aemeasurable
    (measurable_onSecond hK hp).aemeasurable] at h2
  have h3 : (bayes (nbPrior std a b) (lik' X y)).bind (coefK (fun j => (std j)⁻¹) X y) =
      (bayes (nbPrior std a b) (lik' X y)).map Prod.fst := by
    rw [← onFirst_map_fst hCm hCp, ← onSecond_map_fst hK hp, h2]
  have h4 : ∫⁻ q, ∫⁻ x, probe std x ∂coefK (fun j => (std j)⁻¹) X y q
      ∂bayes (nbPrior std a b) (lik' X y) = ∫⁻ q, probe std q.1 ∂bayes (nbPrior std a b) (lik' X y) := by
    rw [← Measure.lintegral_bind hCm.aemeasurable (measurable_probe std).aemeasurable, h3,
      lintegral_map (measurable_probe std) measurable_fst]
  have hL := measurable_lik' X y
  have hdef := bayesDefined_lik' std ha hb X y
  have hf1 : Measurable fun q => ∫⁻ x, probe std x ∂coefK (fun j => (std j)⁻¹) X y q :=
    (Measure.measurable_lintegral (measurable_probe std)).comp hCm
  have hf2 : Measurable fun q : (Fin p → ℝ) × ℝ => probe std q.1 :=
    (measurable_probe std).comp measurable_fst
  rw [lintegral_bayes hL hf1, lintegral_bayes hL hf2,
    ENNReal.mul_right_inj (ENNReal.inv_ne_zero.2 hdef.2) (ENNReal.inv_ne_top.2 hdef.1)] at h4
  refine absurd h4 (ne_of_lt ?_)
  have hm1 : Measurable fun q => lik' X y q * ∫⁻ x, probe std x ∂coefK (fun j => (std j)⁻¹) X y q :=
    hL.mul hf1
  have hm2 : Measurable fun q : (Fin p → ℝ) × ℝ => lik' X y q * probe std q.1 := hL.mul hf2
  have hfin : ∫⁻ q, lik' X y q * ∫⁻ x, probe std x ∂coefK (fun j => (std j)⁻¹) X y q
      ∂nbPrior std a b ≠ ∞ := by
    refine ne_top_of_le_ne_top hdef.2 (lintegral_mono fun q => ?_)
    have := hCp q
    refine mul_le_of_le_one_right' ?_
    calc ∫⁻ x, probe std x ∂coefK (fun j => (std j)⁻¹) X y q
        ≤ ∫⁻ _x, 1 ∂coefK (fun j => (std j)⁻¹) X y q := lintegral_mono fun x => probe_le_one std x
      _ = 1 := by simp
  rw [nbPrior, lintegral_prod_symm' _ hm1, lintegral_prod_symm' _ hm2]
  rw [nbPrior, lintegral_prod_symm' _ hm1] at hfin
  exact lintegral_strict_mono (IsProbabilityMeasure.ne_zero _)
    hm2.lintegral_prod_left'.aemeasurable hfin (ae_of_all _ fun h => slice_lt hs hj X y h)

end Verif.NbReg
