import Verif.NbReg.Sweep

/-!
# C59: one call of the sampler of a negative-binomial regression keeps the joint posterior
-/

open MeasureTheory ProbabilityTheory Matrix
open scoped ENNReal

namespace Verif.NbReg

variable {p n : ℕ}

theorem onFirst_coefK_ae {la : LinAlg} (hla : la.Sound) {std : Fin p → ℝ} (hs : ∀ j, 0 < std j)
    {a b : ℝ} (ha : 0 < a) (hb : 0 < b) (X : Matrix (Fin n) (Fin p) ℝ) (y : Fin n → ℕ) :
    coefStep la std X y =ᵐ[bayes (nbPrior std a b) (lik' X y)]
      onFirst (coefK (fun j => (std j)⁻¹) X y) := by
  refine (bayes_absolutelyContinuous _ _).ae_le ?_
  filter_upwards [ae_nbPrior_pos std ha hb] with q hq
  rw [coefStep, coefK_eq hla hs X y hq]
  rfl

theorem onSecond_dispK_ae (std : Fin p → ℝ) {a b : ℝ} (ha : 0 < a) (hb : 0 < b)
    (X : Matrix (Fin n) (Fin p) ℝ) (y : Fin n → ℕ) :
    dispersionStep X a b y =ᵐ[bayes (nbPrior std a b) (lik' X y)] onSecond (dispK X a b y) := by
  refine (bayes_absolutelyContinuous _ _).ae_le ?_
  filter_upwards [ae_nbPrior_pos std ha hb] with q hq
  rw [dispersionStep, dispK_eq X a b y hq]
  rfl

theorem sweep_ae {la : LinAlg} (hla : la.Sound) {std : Fin p → ℝ} (hs : ∀ j, 0 < std j)
    {a b : ℝ} (ha : 0 < a) (hb : 0 < b) (X : Matrix (Fin n) (Fin p) ℝ) (y : Fin n → ℕ) :
    sweep la std X a b y =ᵐ[bayes (nbPrior std a b) (lik' X y)]
      fun q => (onFirst (coefK (fun j => (std j)⁻¹) X y) q).bind (onSecond (dispK X a b y)) := by
  refine (bayes_absolutelyContinuous _ _).ae_le ?_
  filter_upwards [ae_nbPrior_pos std ha hb] with q hq
  rw [sweep, coefK_eq hla hs X y hq,
    onFirst_bind_onSecond (measurable_dispK X a b y) (prob_dispK X ha hb y)]
  simp only [dispK_eq X a b y hq]

/-- The joint posterior the theorems speak about exists: the likelihood has a positive finite integral
under the prior. -/
theorem C59_posterior_exists (std : Fin p → ℝ) {a b : ℝ} (ha : 0 < a) (hb : 0 < b)
    (X : Matrix (Fin n) (Fin p) ℝ) (y : Fin n → ℕ) : BayesDefined (nbPrior std a b) (nbJointLik X y) :=
  (bayesDefined_lik' std ha hb X y).congr_ae
    ((ae_nbPrior_pos std ha hb).mono fun _ hq => lik'_of_pos X y hq)

example (y : Fin 2 → ℕ) : BayesDefined (nbPrior (fun _ => 3) 2 1) (nbJointLik !![1, 2; 0, 1] y) :=
  C59_posterior_exists _ two_pos one_pos _ y

/-- **C59 (partial).** For every negative-binomial regression with independent centred normal
coefficients and a gamma dispersion, the step for the coefficients leaves the joint posterior of the
coefficients and the dispersion invariant exactly when every prior standard deviation is one.  The full
property asks for the left-hand side always. -/
theorem C59_coef_step_iff_partial {la : LinAlg} (hla : la.Sound) {std : Fin p → ℝ}
    (hs : ∀ j, 0 < std j) {a b : ℝ} (ha : 0 < a) (hb : 0 < b) (X : Matrix (Fin n) (Fin p) ℝ)
    (y : Fin n → ℕ) :
    Stationary (bayes (nbPrior std a b) (nbJointLik X y)) (coefStep la std X y) ↔ ∀ j, std j = 1 := by
  have hQ := isProbabilityMeasure_gammaMeasure ha (inv_pos.2 hb)
  have hae := onFirst_coefK_ae hla hs ha hb X y
  have hd : ∀ j, 0 < (std j)⁻¹ := fun j => inv_pos.2 (hs j)
  have h1 : Stationary (bayes (nbPrior std a b) (nbJointLik X y)) (coefStep la std X y) ↔
      ∀ᵐ h ∂gammaMeasure a b⁻¹, Stationary (bayes (normalPrior std) fun β => lik' X y (β, h))
        fun β => coefK (fun j => (std j)⁻¹) X y (β, h) := by
    rw [posterior_eq std ha hb]
    exact ⟨fun h => (stationary_onFirst_iff (measurable_lik' X y) (bayesDefined_lik' std ha hb X y)
        (measurable_coefK _ X y) (prob_coefK hd X y)).1 (h.congr_ae hae),
      fun h => ((stationary_onFirst_iff (measurable_lik' X y) (bayesDefined_lik' std ha hb X y)
        (measurable_coefK _ X y) (prob_coefK hd X y)).2 h).congr_ae hae.symm⟩
  rw [h1]
  have h2 : ∀ᵐ h ∂gammaMeasure a b⁻¹,
      (Stationary (bayes (normalPrior std) fun β => lik' X y (β, h))
        fun β => coefK (fun j => (std j)⁻¹) X y (β, h)) ↔ ∀ j, std j = 1 := by
    filter_upwards [ae_pos_gammaMeasure (a := a) (r := b⁻¹)] with h hh
    rw [← C21_nbinom_step_iff_partial hla hs X (h := fun _ => h) (fun _ => hh) y]
    have e1 : (fun β => lik' X y (β, h)) = nbRegLik X (fun _ => h) y := funext fun β => by
      rw [lik'_of_pos X y (q := (β, h)) hh]
      rfl
    have e2 : (fun β => coefK (fun j => (std j)⁻¹) X y (β, h)) =
        nbinomNormalPosterior la std X (fun _ => h) y :=
      funext fun β => (coefK_eq hla hs X y hh β).symm
    rw [e1, e2]
  rw [Filter.eventually_congr h2, Filter.eventually_const]

example (X : Matrix (Fin 3) (Fin 2) ℝ) (y : Fin 3 → ℕ) :
    Stationary (bayes (nbPrior (fun _ => 1) 2 1) (nbJointLik X y)) (coefStep stdLinAlg (fun _ => 1) X y) ∧
    ¬ Stationary (bayes (nbPrior (fun _ => 3) 2 1) (nbJointLik X y))
      (coefStep stdLinAlg (fun _ => 3) X y) := by
  refine ⟨(C59_coef_step_iff_partial stdLinAlg_sound (fun _ => one_pos) two_pos one_pos X y).2
    fun _ => rfl, fun h => ?_⟩
  have := (C59_coef_step_iff_partial stdLinAlg_sound (fun _ => by norm_num) two_pos one_pos X y).1 h 0
  norm_num at this

/-- **C59 (partial).** The step for the dispersion leaves the joint posterior invariant exactly when
every column of `X` sums to zero.  The full property asks for the left-hand side always. -/
theorem C59_dispersion_step_iff_partial {std : Fin p → ℝ} (hs : ∀ j, 0 < std j) {a b : ℝ}
    (ha : 0 < a) (hb : 0 < b) (X : Matrix (Fin n) (Fin p) ℝ) (y : Fin n → ℕ) :
    Stationary (bayes (nbPrior std a b) (nbJointLik X y)) (dispersionStep X a b y) ↔
      ∀ j, ∑ i, X i j = 0 := by
  have hQ := isProbabilityMeasure_gammaMeasure ha (inv_pos.2 hb)
  have hae := onSecond_dispK_ae std ha hb X y
  have h1 : Stationary (bayes (nbPrior std a b) (nbJointLik X y)) (dispersionStep X a b y) ↔
      ∀ᵐ β ∂normalPrior std, Stationary (bayes (gammaMeasure a b⁻¹) fun h => lik' X y (β, h))
        fun h => dispK X a b y (β, h) := by
    rw [posterior_eq std ha hb]
    exact ⟨fun h => (stationary_onSecond_iff (measurable_lik' X y) (bayesDefined_lik' std ha hb X y)
        (measurable_dispK X a b y) (prob_dispK X ha hb y)).1 (h.congr_ae hae),
      fun h => ((stationary_onSecond_iff (measurable_lik' X y) (bayesDefined_lik' std ha hb X y)
        (measurable_dispK X a b y) (prob_dispK X ha hb y)).2 h).congr_ae hae.symm⟩
  rw [h1, ← ae_sum_zero_iff hs X]
  refine Filter.eventually_congr (Filter.Eventually.of_forall fun β => ?_)
  rw [← CRT.C32_finder_step_iff_partial ha hb X β y]
  have hpos := ae_pos_gammaMeasure (a := a) (r := b⁻¹)
  have e1 : bayes (gammaMeasure a b⁻¹) (fun h => lik' X y (β, h)) =
      bayes (gammaMeasure a b⁻¹) (CRT.nbDispLik (fun i => sigmoid (-(X *ᵥ β) i)) y) :=
    bayes_congr_ae (hpos.mono fun h hh => lik'_of_pos X y (q := (β, h)) hh)
  rw [e1]
  have e2 : (fun h => dispK X a b y (β, h)) =ᵐ[bayes (gammaMeasure a b⁻¹)
      (CRT.nbDispLik (fun i => sigmoid (-(X *ᵥ β) i)) y)]
      CRT.finderDispersion X β a b (List.ofFn fun i => (y i : ℤ)) :=
    (bayes_absolutelyContinuous _ _).ae_le (hpos.mono fun h hh => (dispK_eq X a b y hh β).symm)
  exact ⟨fun h => h.congr_ae e2, fun h => h.congr_ae e2.symm⟩

example (y : Fin 2 → ℕ) :
    Stationary (bayes (nbPrior (fun _ => 3) 2 1) (nbJointLik !![1; -1] y)) (dispersionStep !![1; -1] 2 1 y) ∧
    ¬ Stationary (bayes (nbPrior (fun _ => 3) 2 1) (nbJointLik !![1; 1] y))
      (dispersionStep !![1; 1] 2 1 y) := by
  refine ⟨(C59_dispersion_step_iff_partial (fun _ => by norm_num) two_pos one_pos _ y).2
    (fun j => by fin_cases j; simp), fun h => ?_⟩
  have := (C59_dispersion_step_iff_partial (fun _ => by norm_num) two_pos one_pos _ y).1 h 0
  norm_num [Fin.sum_univ_two] at this

theorem sweep_iff_unit {la : LinAlg} (hla : la.Sound) {a b : ℝ} (ha : 0 < a) (hb : 0 < b)
    (X : Matrix (Fin n) (Fin p) ℝ) (y : Fin n → ℕ) :
    Stationary (bayes (nbPrior (fun _ => 1) a b) (nbJointLik X y)) (sweep la (fun _ => 1) X a b y) ↔
      ∀ j, ∑ i, X i j = 0 := by
  have hs : ∀ j : Fin p, (0 : ℝ) < (fun _ => 1) j := fun _ => one_pos
  have hd : ∀ j : Fin p, (0 : ℝ) < ((fun _ => 1 : Fin p → ℝ) j)⁻¹ := fun _ => by norm_num
  have hc := (C59_coef_step_iff_partial hla hs ha hb X y).2 fun _ => rfl
  have hae := sweep_ae hla hs ha hb X y
  rw [← C59_dispersion_step_iff_partial hs ha hb X y]
  rw [posterior_eq _ ha hb] at hc ⊢
  have hcomp := stationary_comp_iff (hc.congr_ae (onFirst_coefK_ae hla hs ha hb X y))
    (measurable_onFirst (measurable_coefK _ X y) (prob_coefK hd X y))
    (measurable_onSecond (measurable_dispK X a b y) (prob_dispK X ha hb y))
  have h2 := onSecond_dispK_ae (fun _ : Fin p => (1 : ℝ)) ha hb X y
  exact ⟨fun h => (hcomp.1 (h.congr_ae hae)).congr_ae h2.symm,
    fun h => (hcomp.2 (h.congr_ae h2)).congr_ae hae.symm⟩

/-- **C59 (partial).** One call of the sampler leaves the joint posterior invariant exactly when every
prior standard deviation is one and every column of `X` sums to zero.  The full property asks for the
left-hand side always. -/
theorem C59_sweep_iff_partial {la : LinAlg} (hla : la.Sound) {std : Fin p → ℝ} (hs : ∀ j, 0 < std j)
    {a b : ℝ} (ha : 0 < a) (hb : 0 < b) (X : Matrix (Fin n) (Fin p) ℝ) (y : Fin n → ℕ) :
    Stationary (bayes (nbPrior std a b) (nbJointLik X y)) (sweep la std X a b y) ↔
      (∀ j, std j = 1) ∧ ∀ j, ∑ i, X i j = 0 := by
  by_cases h1 : ∀ j, std j = 1
  · have e : std = fun _ => 1 := funext h1
    subst e
    rw [sweep_iff_unit hla ha hb]
    simp
  · obtain ⟨j, hj⟩ := not_forall.1 h1
    refine ⟨fun h => ?_, fun h => absurd h.1 h1⟩
    rw [posterior_eq std ha hb] at h
    exact absurd (h.congr_ae (sweep_ae hla hs ha hb X y))
      (std_never hs hj ha hb X y (measurable_dispK X a b y) (prob_dispK X ha hb y))

/-- **C59 is violated.** One observation `y = 3`, one coefficient with prior standard deviation one and
regressor `1`, dispersion prior `Gamma(2, scale 1)`: one call of the sampler changes the joint
posterior. -/
theorem C59_violated :
    ¬ Stationary (bayes (nbPrior (fun _ : Fin 1 => 1) 2 1)
        (nbJointLik (1 : Matrix (Fin 1) (Fin 1) ℝ) fun _ => 3))
      (sweep stdLinAlg (fun _ => 1) (1 : Matrix (Fin 1) (Fin 1) ℝ) 2 1 fun _ => 3) := by
  intro h
  have := ((C59_sweep_iff_partial stdLinAlg_sound (fun _ => one_pos) two_pos one_pos _ _).1 h).2 0
  simp at this

/-- With a centred design the sign error does not show, and a standard deviation of two alone breaks the
call. -/
example : ¬ Stationary (bayes (nbPrior (fun _ : Fin 1 => 2) 2 1)
      (nbJointLik (!![1; -1] : Matrix (Fin 2) (Fin 1) ℝ) fun _ => 3))
    (sweep stdLinAlg (fun _ => 2) (!![1; -1] : Matrix (Fin 2) (Fin 1) ℝ) 2 1 fun _ => 3) := by
  intro h
  have := ((C59_sweep_iff_partial stdLinAlg_sound (fun _ => two_pos) two_pos one_pos _ _).1 h).1 0
  norm_num at this

/-- The hypotheses are met, and the right-hand sides both hold and fail: a centred design and one with
an intercept. -/
example : (∀ j, ∑ i, (!![1, 2; -1, -2] : Matrix (Fin 2) (Fin 2) ℝ) i j = 0) ∧
    ¬ ∀ j, ∑ i, (!![1, 2; 1, -2] : Matrix (Fin 2) (Fin 2) ℝ) i j = 0 := by
  constructor
  · intro j
    fin_cases j <;> simp
  · intro h
    have := h 0
    simp at this

end Verif.NbReg
