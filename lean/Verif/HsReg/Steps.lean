import Verif.HsReg.Lemmas

/-!
# The steps of a regression with a horseshoe prior on the joint posterior
-/

open MeasureTheory ProbabilityTheory Matrix
open scoped ENNReal

namespace Verif.HsReg

variable {p n : ℕ}

/-- What the theorems need of a likelihood: the Polya-Gamma form with an exponential tilt, bounded. -/
structure PGForm (X : Matrix (Fin n) (Fin p) ℝ) (b κ : Fin n → ℝ) (lik : (Fin p → ℝ) → ℝ≥0∞) where
  hb : ∀ i, 0 < b i
  hκ : ∀ i, |κ i| ≤ b i / 2
  c : ℝ
  hc : 0 < c
  tilt : Fin p → ℝ
  hlik : ∀ β, lik β = ENNReal.ofReal (c * (Real.exp (tilt ⬝ᵥ β) * pgLik X b κ β))
  C : ℝ≥0∞
  hC : C ≠ ∞
  hle : ∀ β, lik β ≤ C

section

variable {X : Matrix (Fin n) (Fin p) ℝ} {b κ : Fin n → ℝ} {lik : (Fin p → ℝ) → ℝ≥0∞}

theorem PGForm.measurable (F : PGForm X b κ lik) : Measurable lik := by
  have h1 := measurable_pgLik X b κ
  have h2 : Measurable fun β : Fin p → ℝ => ENNReal.ofReal (Real.exp (F.tilt ⬝ᵥ β)) := by
    unfold dotProduct
    fun_prop
  rw [funext F.hlik]
  simp only [ENNReal.ofReal_mul F.hc.le, ENNReal.ofReal_mul (Real.exp_pos _).le]
  exact (h2.mul h1).const_mul _

theorem PGForm.ne_zero (F : PGForm X b κ lik) (β : Fin p → ℝ) : lik β ≠ 0 := by
  rw [F.hlik]
  simpa using mul_pos F.hc (mul_pos (Real.exp_pos _) (pgLik_pos X b κ β))

theorem PGForm.defined (F : PGForm X b κ lik) (μ : Measure (Fin p → ℝ)) [IsProbabilityMeasure μ] :
    BayesDefined μ lik := by
  constructor
  · intro h
    rw [lintegral_eq_zero_iff F.measurable] at h
    obtain ⟨β, hβ⟩ := h.exists
    exact F.ne_zero β hβ
  · refine ne_top_of_le_ne_top F.hC ((lintegral_mono F.hle).trans ?_)
    simp

theorem PGForm.jointDefined (F : PGForm X b κ lik) :
    BayesDefined (volume.prod (Horseshoe.prior p)) fun q => dens q * lik q.1 :=
  bayesDefined_joint F.measurable F.ne_zero F.hC F.hle

theorem PGForm.measurable_joint (F : PGForm X b κ lik) :
    Measurable fun q : (Fin p → ℝ) × ((Fin p → ℝ) × ℝ) => dens q * lik q.1 :=
  measurable_dens.mul (F.measurable.comp measurable_fst)

theorem ae_hsPosterior_pos (lik : (Fin p → ℝ) → ℝ≥0∞) (hl : Measurable lik) :
    ∀ᵐ q ∂hsPosterior lik, Horseshoe.AllPos q.2 := by
  rw [hsPosterior_eq hl]
  exact (bayes_absolutelyContinuous _ _).ae_le ae_dens_pos

theorem coefStep_ae (F : PGForm X b κ lik) {la : LinAlg} (hla : la.Sound) :
    (fun q => (pgStep la (fun j => (q.2.1 j * q.2.2)⁻¹) X b κ q.1).map fun β => (β, q.2))
      =ᵐ[hsPosterior lik] onFirst (coefK X b κ) := by
  filter_upwards [ae_hsPosterior_pos lik F.measurable] with q hq
  rw [coefK_eq hla X F.hb κ hq]
  rfl

theorem shrinkStep_ae (hl : Measurable lik) (conv : Horseshoe.ExpArg) :
    shrinkStep (p := p) conv =ᵐ[hsPosterior lik] onSecond (shrinkK conv) := by
  filter_upwards [ae_hsPosterior_pos lik hl] with q hq
  rw [shrinkStep, shrinkK_eq conv q.1 hq]
  rfl

theorem coef_never (F : PGForm X b κ lik) (j : Fin p) :
    ¬ Stationary (hsPosterior lik) (onFirst (coefK X b κ)) := by
  intro h
  rw [hsPosterior_eq F.measurable, stationary_onFirst_iff F.measurable_joint F.jointDefined
    (measurable_coefK X b κ) (prob_coefK X b κ)] at h
  obtain ⟨s, ⟨hs, h1⟩, hst⟩ := (((Horseshoe.ae_prior_pos p).and (ae_std_ne_one j)).and h).exists
  have hpos : ∀ j, 0 < s.1 j * s.2 := fun j => mul_pos (hs.1 j) hs.2
  have hpr : IsProbabilityMeasure (normalPrior fun j => s.1 j * s.2) := by
    unfold normalPrior
    infer_instance
  have e1 : (bayes volume fun β => dens (β, s) * lik β) =
      bayes (normalPrior fun j => s.1 j * s.2) lik := by
    rw [normalPrior_eq_dens hs, bayes_withDensity_left (f := fun β => dens (β, s))
      (measurable_dens.comp measurable_prodMk_right) F.measurable]
  have e2 : (fun β => coefK X b κ (β, s)) = pgStep stdLinAlg (fun j => (s.1 j * s.2)⁻¹) X b κ :=
    funext fun β => (coefK_eq stdLinAlg_sound X F.hb κ hs β).symm
  have hst' : Stationary (bayes (normalPrior fun j => s.1 j * s.2) lik)
      (pgStep stdLinAlg (fun j => (s.1 j * s.2)⁻¹) X b κ) := by
    rw [← e1, ← e2]
    exact hst
  exact h1 (((pgStep_tilt_iff stdLinAlg_sound hpos X F.hb F.hκ F.hc F.tilt F.hlik
    (F.defined _)).1 hst').1 j)

theorem shrink_iff (F : PGForm X b κ lik) (conv : Horseshoe.ExpArg) :
    Stationary (hsPosterior lik) (onSecond (shrinkK conv)) ↔
      ∀ᵐ β : Fin p → ℝ, Stationary (Horseshoe.posterior β 1) (Horseshoe.horseshoeStep conv β) := by
  rw [hsPosterior_eq F.measurable, stationary_onSecond_iff F.measurable_joint F.jointDefined
    (measurable_shrinkK conv) (prob_shrinkK conv)]
  refine Filter.eventually_congr (Filter.Eventually.of_forall fun β => ?_)
  have e1 : (bayes (Horseshoe.prior p) fun s => dens (β, s) * lik β) = Horseshoe.posterior β 1 := by
    simp only [mul_comm _ (lik β)]
    exact bayes_const_mul _ (Horseshoe.measurable_lik β 1) (F.ne_zero β)
      (ne_top_of_le_ne_top F.hC (F.hle β))
  rw [e1]
  have e2 : Horseshoe.horseshoeStep conv β =ᵐ[Horseshoe.posterior β 1] fun s => shrinkK conv (β, s) := by
    filter_upwards [Horseshoe.ae_posterior_pos β 1] with s hs using shrinkK_eq conv β hs
  exact ⟨fun h => h.congr_ae e2.symm, fun h => h.congr_ae e2⟩

theorem shrink_rate (F : PGForm X b κ lik) : Stationary (hsPosterior lik) (onSecond (shrinkK .rate)) :=
  (shrink_iff F .rate).2 (ae_of_all _ fun β => Horseshoe.stationary_rate β one_pos)

/-- Almost no coefficient vector has a zero entry. -/
theorem ae_ne_zero : ∀ᵐ β : Fin p → ℝ, ∀ j, β j ≠ 0 := by
  rw [ae_all_iff]
  intro j
  have h : (volume : Measure (Fin p → ℝ)) {β | β j = 0} = 0 := by
    rw [volume_pi]
    exact Measure.pi_hyperplane _ j 0
  exact measure_eq_zero_iff_ae_notMem.1 h

theorem shrink_scale_never {X : Matrix (Fin n) (Fin p) ℝ} {b κ : Fin n → ℝ}
    {lik : (Fin p → ℝ) → ℝ≥0∞} (F : PGForm X b κ lik) (hp : 0 < p) :
    ¬ Stationary (hsPosterior lik) (onSecond (shrinkK .scale)) := by
  rw [shrink_iff F]
  intro h
  obtain ⟨β, hβ, h0⟩ := (h.and ae_ne_zero).exists
  exact (Horseshoe.C28_step_violated hp h0).2 hβ

end

/-! ## The two regressions -/

/-- The negative-binomial likelihood has the Polya-Gamma form. -/
theorem nbForm (X : Matrix (Fin n) (Fin p) ℝ) {h : Fin n → ℝ} (hh : ∀ i, 0 < h i) (y : Fin n → ℕ) :
    Nonempty (PGForm X (fun i => (y i : ℝ) + h i) (fun i => 0.5 * ((y i : ℝ) - h i))
      (nbRegLik X h y)) := by
  obtain ⟨c, hc, hl⟩ := nbRegLik_eq X hh y
  exact ⟨{
    hb := fun i => by have := hh i; positivity
    hκ := nb_kappa_le hh y
    c := c
    hc := hc
    tilt := 0
    hlik := fun β => by rw [hl, zero_dotProduct, Real.exp_zero, one_mul]
    C := ∏ i, ENNReal.ofReal (Real.Gamma (h i + y i) / Real.Gamma (h i))
    hC := ENNReal.prod_ne_top fun _ _ => ENNReal.ofReal_ne_top
    hle := fun β => by
      unfold nbRegLik
      simp only [Conj.nbMeasure_singleton]
      exact Finset.prod_le_prod' fun i _ => ENNReal.ofReal_le_ofReal
        (NbReg.nbPMF_le (hh i) (CRT.sigmoid_pos' _) (CRT.sigmoid_lt_one' _) _).2 }⟩

/-- The Bernoulli likelihood of the matched model has the Polya-Gamma form. -/
theorem bernForm (X : Matrix (Fin n) (Fin p) ℝ) (y : Fin n → Bool) :
    Nonempty (PGForm X (fun _ => 1) (fun i => boolVal (y i) - 0.5)
      (bernRegLik (fun ψ => sigmoid (-ψ)) X y)) := by
  refine ⟨{
    hb := fun _ => one_pos
    hκ := fun i => bern_kappa_le (y i)
    c := ∏ _i : Fin n, (2 : ℝ)⁻¹
    hc := by positivity
    tilt := -(Xᵀ *ᵥ fun i => 2 * boolVal (y i) - 1)
    hlik := bernRegLik_tilt X y
    C := 1
    hC := ENNReal.one_ne_top
    hle := fun β => ?_ }⟩
  unfold bernRegLik
  refine Finset.prod_le_one' fun i _ => ?_
  rw [ENNReal.ofReal_le_one]
  have h1 := CRT.sigmoid_pos' (-(X *ᵥ β) i)
  have h2 := CRT.sigmoid_lt_one' (-(X *ᵥ β) i)
  split_ifs <;> linarith

end Verif.HsReg
