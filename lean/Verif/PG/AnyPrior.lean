import Verif.PG.Siblings

/-!
# C25: the regression steps for coefficients with any prior
-/

open MeasureTheory ProbabilityTheory Matrix
open scoped ENNReal

namespace Verif

section

variable {p n : ℕ}

/-- Spec.  Independent normal coefficients `β_j ~ N(m_j, v_j)`, `v_j` the variance. -/
noncomputable def normalLaw (m v : Fin p → ℝ) : Measure (Fin p → ℝ) :=
  Measure.pi fun j => gaussianReal (m j) (v j).toNNReal

instance isProbabilityMeasure_normalLaw (m v : Fin p → ℝ) : IsProbabilityMeasure (normalLaw m v) := by
  unfold normalLaw
  infer_instance

theorem normalLaw_eq_mvn (m : Fin p → ℝ) {v : Fin p → ℝ} (hv : ∀ j, 0 < v j) :
    normalLaw m v = mvn m (diagonal fun j => (v j)⁻¹)⁻¹ := by
  have h1 := pi_gaussianReal_eq_mvn m fun j => Real.sqrt (v j)
  have h2 : (diagonal fun j => (v j)⁻¹)⁻¹ = diagonal fun j => Real.sqrt (v j) ^ 2 := by
    refine inv_eq_left_inv ?_
    rw [diagonal_mul_diagonal]
    simp [fun j => Real.sq_sqrt (hv j).le, fun j => mul_inv_cancel₀ (hv j).ne']
  rw [h2, ← h1]
  simp only [fun j => Real.sq_sqrt (hv j).le]
  rfl

/-- Means and variances of independent normals are determined by the law. -/
theorem normalLaw_inj {m m' v v' : Fin p → ℝ} (hv : ∀ j, 0 ≤ v j) (hv' : ∀ j, 0 ≤ v' j) :
    normalLaw m v = normalLaw m' v' ↔ m = m' ∧ v = v' := by
  constructor
  · intro h
    have hj : ∀ j, m j = m' j ∧ v j = v' j := fun j => by
      have h' := congrArg (fun μ : Measure (Fin p → ℝ) => μ.map (Function.eval j)) h
      simp only [normalLaw] at h'
      rw [(measurePreserving_eval _ j).map_eq, (measurePreserving_eval _ j).map_eq] at h'
      have := gaussianReal_ext_iff.1 h'
      exact ⟨this.1, by rw [← Real.coe_toNNReal _ (hv j), this.2, Real.coe_toNNReal _ (hv' j)]⟩
    exact ⟨funext fun j => (hj j).1, funext fun j => (hj j).2⟩
  · rintro ⟨rfl, rfl⟩
    rfl

/-- The step called with `1/std`, when the coefficients have prior `μ`. -/
theorem pgStep_prior_iff {la : LinAlg} (hla : la.Sound) {std : Fin p → ℝ}
    (hs : ∀ j, 0 < std j) (X : Matrix (Fin n) (Fin p) ℝ) {b κ : Fin n → ℝ} (hb : ∀ i, 0 < b i)
    (hκ : ∀ i, |κ i| ≤ b i / 2) {c : ℝ} (hc : 0 < c) (q : Fin p → ℝ)
    {lik : (Fin p → ℝ) → ℝ≥0∞}
    (hlik : ∀ β, lik β = ENNReal.ofReal (c * (Real.exp (q ⬝ᵥ β) * pgLik X b κ β)))
    (μ : Measure (Fin p → ℝ)) [IsProbabilityMeasure μ] (hd : BayesDefined μ lik) :
    Stationary (bayes μ lik) (pgStep la (fun j => (std j)⁻¹) X b κ) ↔
      μ = normalLaw (fun j => -(std j * q j)) std := by
  have hpr := isProbabilityMeasure_bayes hd
  rw [pgStep_stationary_iff hla (fun j => inv_pos.2 (hs j)) X hb hκ]
  have hLm := measurable_pgLik X b κ
  have hEm : Measurable fun β : Fin p → ℝ => ENNReal.ofReal (Real.exp (q ⬝ᵥ β)) := by
    have : Continuous fun β : Fin p → ℝ => q ⬝ᵥ β := continuous_const.dotProduct continuous_id
    fun_prop
  have hlik' : lik = fun β => ENNReal.ofReal c *
      (ENNReal.ofReal (Real.exp (q ⬝ᵥ β)) * ENNReal.ofReal (pgLik X b κ β)) := by
    ext β
    rw [hlik, ENNReal.ofReal_mul hc.le, ENNReal.ofReal_mul (Real.exp_pos _).le]
  have hlm : Measurable lik := by
    rw [hlik']
    exact (hEm.mul hLm).const_mul _
  have hQ : (diagonal fun j => (std j)⁻¹).PosDef := PosDef.diagonal fun j => inv_pos.2 (hs j)
  have hE := bayes_mvn (fun j => -(std j * q j)) (Q := diagonal fun j => (std j)⁻¹) hQ
    (P := 0) PosSemidef.zero q one_pos hEm (fun β => by simp)
  have hz : (diagonal fun j => (std j)⁻¹) *ᵥ (fun j => -(std j * q j)) + q = 0 := by
    ext j
    rw [Pi.add_apply, mulVec_diagonal, mul_neg, inv_mul_cancel_left₀ (hs j).ne']
    simp
  rw [hz, mulVec_zero, add_zero, ← normalLaw_eq_mvn _ hs] at hE
  have hsplit : bayes (normalLaw (fun j => -(std j * q j)) std) lik =
      bayes (mvn 0 (diagonal fun j => (std j)⁻¹)⁻¹) fun β => ENNReal.ofReal (pgLik X b κ β) := by
    rw [← hE.2, bayes_bayes hEm hLm hE.1, hlik']
    exact bayes_const_mul _
      (lik := fun β => ENNReal.ofReal (Real.exp (q ⬝ᵥ β)) * ENNReal.ofReal (pgLik X b κ β))
      (hEm.mul hLm) (c := ENNReal.ofReal c) (by simpa using hc) ENNReal.ofReal_ne_top
  rw [← hsplit]
  constructor
  · intro h
    refine (bayes_prior_inj (μ := normalLaw (fun j => -(std j * q j)) std) hlm (fun β => ?_)
      (fun β => ?_) hd h.symm).symm
    · have := pgLik_pos X b κ β
      rw [hlik, Ne, ENNReal.ofReal_eq_zero, not_le]
      positivity
    · rw [hlik]
      exact ENNReal.ofReal_ne_top
  · rintro rfl
    rfl

/-- **C25 (partial), what the negative-binomial step assumes of the coefficients.** The finder takes
whatever sits where a normal keeps its scale, `std`, and never looks at the law `μ` of the
coefficients.  The step leaves the posterior of the model with prior `μ` invariant *if and only if* `μ`
is independent normal with mean zero and variance (not standard deviation) `std`: for every other prior,
normal or not, it is wrong, whatever the data.  The full property asks that the finder fires only for
zero-mean normals. -/
theorem C25_nbinom_prior_iff_partial {la : LinAlg} (hla : la.Sound) {std : Fin p → ℝ}
    (hs : ∀ j, 0 < std j) (X : Matrix (Fin n) (Fin p) ℝ) {h : Fin n → ℝ} (hh : ∀ i, 0 < h i)
    (y : Fin n → ℕ) (μ : Measure (Fin p → ℝ)) [IsProbabilityMeasure μ] :
    Stationary (bayes μ (nbRegLik X h y)) (nbinomNormalPosterior la std X h y) ↔
      μ = normalLaw 0 std := by
  obtain ⟨c, hc, hl⟩ := nbRegLik_eq X hh y
  rw [nbinomNormalPosterior_eq, pgStep_prior_iff hla hs X
    (fun i => by have := hh i; positivity) (nb_kappa_le hh y) hc 0
    (fun β => by rw [hl, zero_dotProduct, Real.exp_zero, one_mul]) μ (bayesDefined_nbRegLik X hh y μ)]
  simp only [Pi.zero_apply, mul_zero, neg_zero]
  rfl

/-- A prior on a single point is never the right one. -/
example (X : Matrix (Fin 3) (Fin 1) ℝ) (y : Fin 3 → ℕ) (m : Fin 1 → ℝ) :
    ¬ Stationary (bayes (Measure.dirac m) (nbRegLik X (fun _ => 2) y))
      (nbinomNormalPosterior stdLinAlg (fun _ => 1) X (fun _ => 2) y) := by
  rw [C25_nbinom_prior_iff_partial stdLinAlg_sound (fun _ => one_pos) X (fun _ => two_pos) y]
  intro h
  have h1 : (Measure.dirac m) {m} = 1 := by simp
  have h2 := mvn_absolutelyContinuous 0 (PosDef.diagonal (d := fun _ : Fin 1 => (1 : ℝ)) fun _ => one_pos)
  rw [h, normalLaw_eq_mvn 0 (fun _ => one_pos)] at h1
  simp only [inv_one] at h1
  rw [h2.1 (measure_singleton m)] at h1
  exact zero_ne_one h1

/-- **C25 (partial), negative-binomial regression of normal coefficients with any means.** With
`β_j ~ N(m_j, std_j²)` the step is right if and only if every mean is 0 and every standard deviation
is 1. -/
theorem C25_nbinom_mean_iff_partial {la : LinAlg} (hla : la.Sound) {std : Fin p → ℝ}
    (hs : ∀ j, 0 < std j) (X : Matrix (Fin n) (Fin p) ℝ) {h : Fin n → ℝ} (hh : ∀ i, 0 < h i)
    (y : Fin n → ℕ) (m : Fin p → ℝ) :
    Stationary (bayes (normalLaw m fun j => std j ^ 2) (nbRegLik X h y))
        (nbinomNormalPosterior la std X h y) ↔
      (∀ j, m j = 0) ∧ ∀ j, std j = 1 := by
  rw [C25_nbinom_prior_iff_partial hla hs X hh y,
    normalLaw_inj (fun j => sq_nonneg _) (fun j => (hs j).le)]
  refine and_congr funext_iff (funext_iff.trans (forall_congr' fun j => ?_))
  have := hs j
  rw [sq, mul_eq_left₀ this.ne']

example (X : Matrix (Fin 3) (Fin 2) ℝ) (y : Fin 3 → ℕ) :
    ¬ Stationary (bayes (normalLaw ![0, 5] fun _ => (1 : ℝ) ^ 2) (nbRegLik X (fun _ => 2) y))
      (nbinomNormalPosterior stdLinAlg (fun _ => 1) X (fun _ => 2) y) := by
  intro h
  have : (5 : ℝ) = 0 := ((C25_nbinom_mean_iff_partial stdLinAlg_sound (fun _ => one_pos) X (fun _ => two_pos) y
    ![0, 5]).1 h).1 1
  norm_num at this

/-- **C25 (partial), what the Bernoulli step assumes of the coefficients.** As for the negative
binomial, for `Y ~ Bern(sigmoid(-1 * X β))` as the finder matches it: the step is right if and only if
the coefficients are independent normal with variances `std` and means `std_j (Xᵀ(2y-1))_j`, which
depend on the data. -/
theorem C25_bern_prior_iff_partial {la : LinAlg} (hla : la.Sound) {std : Fin p → ℝ}
    (hs : ∀ j, 0 < std j) (X : Matrix (Fin n) (Fin p) ℝ) (y : Fin n → Bool)
    (μ : Measure (Fin p → ℝ)) [IsProbabilityMeasure μ] :
    Stationary (bayes μ (bernRegLik (fun ψ => sigmoid (-ψ)) X y)) (bernNormalPosterior la std X y) ↔
      μ = normalLaw (fun j => std j * (Xᵀ *ᵥ fun i => 2 * boolVal (y i) - 1) j) std := by
  have hd : BayesDefined μ (bernRegLik (fun ψ => sigmoid (-ψ)) X y) := by
    rw [funext (bernRegLik_neg X y)]
    exact bayesDefined_bernRegLik (-X) y _
  rw [bernNormalPosterior_eq, pgStep_prior_iff hla hs X (fun _ => one_pos)
    (fun i => bern_kappa_le (y i)) (c := ∏ _i : Fin n, (2 : ℝ)⁻¹) (by positivity)
    (-(Xᵀ *ᵥ fun i => 2 * boolVal (y i) - 1)) (bernRegLik_tilt X y) μ hd]
  simp only [Pi.neg_apply, mul_neg, neg_neg]

/-- Standard deviation 4 and two successes at 1: the step is right for the prior `N(8, 4)`. -/
example : Stationary (bayes (normalLaw (fun _ : Fin 1 => 8) fun _ => 4)
      (bernRegLik (fun ψ => sigmoid (-ψ)) (of fun _ _ => 1) fun _ : Fin 2 => true))
    (bernNormalPosterior stdLinAlg (fun _ => 4) (of fun _ _ => 1) fun _ : Fin 2 => true) := by
  refine (C25_bern_prior_iff_partial stdLinAlg_sound (fun _ => by norm_num) _ _ _).2 ?_
  congr 1
  ext j
  norm_num [boolVal, mulVec, dotProduct, Fin.sum_univ_two, transpose_apply]

/-- **C25 (partial), Bernoulli regression of normal coefficients with any means.** With
`β_j ~ N(m_j, std_j²)` the step for the matched model is right if and only if every standard deviation
is 1 and the means happen to be `Xᵀ(2y-1)`. -/
theorem C25_bern_mean_iff_partial {la : LinAlg} (hla : la.Sound) {std : Fin p → ℝ}
    (hs : ∀ j, 0 < std j) (X : Matrix (Fin n) (Fin p) ℝ) (y : Fin n → Bool) (m : Fin p → ℝ) :
    Stationary (bayes (normalLaw m fun j => std j ^ 2) (bernRegLik (fun ψ => sigmoid (-ψ)) X y))
        (bernNormalPosterior la std X y) ↔
      (∀ j, std j = 1) ∧ m = Xᵀ *ᵥ fun i => 2 * boolVal (y i) - 1 := by
  rw [C25_bern_prior_iff_partial hla hs X y,
    normalLaw_inj (fun j => sq_nonneg _) (fun j => (hs j).le), and_comm]
  have h1 : ((fun j => std j ^ 2) = std) ↔ ∀ j, std j = 1 :=
    funext_iff.trans (forall_congr' fun j => by
      have := hs j
      rw [sq, mul_eq_left₀ this.ne'])
  rw [h1]
  refine and_congr_right fun h => ?_
  simp only [h, one_mul]

/-- **C25 is violated** in what is sampled: the finder's step for a coefficient with mean 5 and unit
standard deviation, and for a gamma coefficient of unit scale, does not keep the posterior. -/
theorem C25_step_violated : ∃ (la : LinAlg) (X : Matrix (Fin 1) (Fin 1) ℝ) (h : Fin 1 → ℝ)
    (y : Fin 1 → ℕ), la.Sound ∧ (∀ i, 0 < h i) ∧
    (BayesDefined (normalLaw (fun _ => 5) fun _ => 1) (nbRegLik X h y) ∧
      ¬ Stationary (bayes (normalLaw (fun _ => 5) fun _ => 1) (nbRegLik X h y))
        (nbinomNormalPosterior la (fun _ => 1) X h y)) ∧
    (BayesDefined (Measure.pi fun _ => gammaMeasure 2 1) (nbRegLik X h y) ∧
      ¬ Stationary (bayes (Measure.pi fun _ => gammaMeasure 2 1) (nbRegLik X h y))
        (nbinomNormalPosterior la (fun _ => 1) X h y)) := by
  have h1 : ∀ _ : Fin 1, (0 : ℝ) < 1 := fun _ => one_pos
  have hg : IsProbabilityMeasure (gammaMeasure 2 1) := isProbabilityMeasure_gammaMeasure two_pos one_pos
  refine ⟨stdLinAlg, 1, fun _ => 1, fun _ => 3, stdLinAlg_sound, h1,
    ⟨bayesDefined_nbRegLik 1 h1 _ _, fun hst => ?_⟩, bayesDefined_nbRegLik 1 h1 _ _, fun hst => ?_⟩
  · have e : (fun _ : Fin 1 => (1 : ℝ)) = fun _ => (1 : ℝ) ^ 2 := by simp
    rw [e] at hst
    have := ((C25_nbinom_mean_iff_partial stdLinAlg_sound (std := fun _ => (1 : ℝ)) h1 1 h1 (fun _ => 3)
      fun _ => 5).1 (by simpa using hst)).1 0
    norm_num at this
  · have h2 := (C25_nbinom_prior_iff_partial stdLinAlg_sound h1 1 h1 _ _).1 hst
    have h3 := congrArg (fun μ : Measure (Fin 1 → ℝ) => μ.map (Function.eval 0)) h2
    simp only [normalLaw] at h3
    rw [(measurePreserving_eval _ (0 : Fin 1)).map_eq, (measurePreserving_eval _ (0 : Fin 1)).map_eq] at h3
    have h4 : gammaMeasure 2 1 (Set.Iio 0) = 0 := by
      rw [gammaMeasure, withDensity_apply _ measurableSet_Iio]
      exact lintegral_gammaPDF_of_nonpos le_rfl
    rw [h3] at h4
    have hv : ((1 : ℝ)).toNNReal ≠ 0 := by simp
    have h5 := gaussianReal_absolutelyContinuous' (0 : ℝ) hv h4
    simp at h5

/-- The condition of `C25_bern_mean_iff_partial` is met by a non-zero mean. -/
example : ∃ (X : Matrix (Fin 2) (Fin 1) ℝ) (y : Fin 2 → Bool) (m : Fin 1 → ℝ), m 0 ≠ 0 ∧
    Stationary (bayes (normalLaw m fun _ => (1 : ℝ) ^ 2) (bernRegLik (fun ψ => sigmoid (-ψ)) X y))
      (bernNormalPosterior stdLinAlg (fun _ => 1) X y) :=
  ⟨of fun _ _ => 1, fun _ => true, fun _ => 2, by norm_num,
    (C25_bern_mean_iff_partial stdLinAlg_sound (fun _ => one_pos) _ _ _).2
      ⟨fun _ => rfl, by ext j; norm_num [boolVal, mulVec, dotProduct, Fin.sum_univ_two, transpose_apply]⟩⟩

end

end Verif
