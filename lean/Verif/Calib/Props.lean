import Verif.Calib.Lemmas
import Verif.Prob.NegBin
import Verif.Iter.StrongProps

/-!
# Checks against simulated data (C78)

`Calibrated prior data K`: parameters are drawn from `prior`, data `y` are simulated from `data` at these
parameters, one step `K y` is made from them; the pair of new parameters and data has the same law as the
pair of old parameters and data (`Calib/Lemmas.lean`).
-/

open MeasureTheory ProbabilityTheory Matrix
open scoped ENNReal

namespace Verif

variable {p n : ℕ}

theorem sigmoid_pos (x : ℝ) : 0 < sigmoid x := by
  unfold sigmoid
  positivity

theorem sigmoid_lt_one (x : ℝ) : sigmoid x < 1 := by
  unfold sigmoid
  rw [div_lt_one (by positivity)]
  linarith [Real.exp_pos (-x)]

/-! ### Regressions -/

/-- Spec.  Counts of a negative-binomial regression: independent, number of successes `h i` and success
probability `sigmoid (-(X β) i)`. -/
noncomputable def nbRegData (X : Matrix (Fin n) (Fin p) ℝ) (h : Fin n → ℝ) (β : Fin p → ℝ) :
    Measure (Fin n → ℕ) :=
  Measure.pi fun i => nbMeasure (h i) (sigmoid (-(X *ᵥ β) i))

theorem nbRegData_prob (X : Matrix (Fin n) (Fin p) ℝ) {h : Fin n → ℝ} (hh : ∀ i, 0 < h i)
    (β : Fin p → ℝ) : IsProbabilityMeasure (nbRegData X h β) ∧
      ∀ y, nbRegData X h β {y} = nbRegLik X h y β := by
  have hp : ∀ i, IsProbabilityMeasure (nbMeasure (h i) (sigmoid (-(X *ᵥ β) i))) := fun i =>
    isProbabilityMeasure_nb (hh i) (sigmoid_pos _) (sigmoid_lt_one _).le
  exact ⟨by unfold nbRegData; infer_instance, fun y => Measure.pi_singleton _ y⟩

theorem measurable_nbRegLik (X : Matrix (Fin n) (Fin p) ℝ) {h : Fin n → ℝ} (hh : ∀ i, 0 < h i)
    (y : Fin n → ℕ) : Measurable (nbRegLik X h y) := by
  obtain ⟨c, hc, hl⟩ := nbRegLik_eq X hh y
  rw [funext hl]
  simp only [ENNReal.ofReal_mul hc.le]
  exact (measurable_pgLik X _ _).const_mul _

/-- **C78 (partial).** Negative-binomial regression, known dispersion: `nbinom_normal_posterior` passes the
check exactly when every prior standard deviation is 1. -/
theorem C78_nbinom_iff_partial {la : LinAlg} (hla : la.Sound) {std : Fin p → ℝ} (hs : ∀ j, 0 < std j)
    (X : Matrix (Fin n) (Fin p) ℝ) {h : Fin n → ℝ} (hh : ∀ i, 0 < h i) :
    Calibrated (normalPrior std) (nbRegData X h) (fun y => nbinomNormalPosterior la std X h y) ↔
      ∀ j, std j = 1 := by
  have hl : ∀ y, (fun β => nbRegData X h β {y}) = nbRegLik X h y := fun y =>
    funext fun β => (nbRegData_prob X hh β).2 y
  rw [calibrated_iff (aemeasurable_of_singleton fun y => by
      rw [hl]; exact (measurable_nbRegLik X hh y).aemeasurable)
    (ae_of_all _ fun β => (nbRegData_prob X hh β).1)
    fun y => (nbinom_runs hla hs X hh y).meas.aemeasurable]
  simp only [hl, C21_nbinom_step_iff_partial hla hs X hh]
  refine ⟨fun h1 => h1 (fun _ => 0) ?_, fun h1 _ _ => h1⟩
  simpa only [(nbRegData_prob X hh _).2] using
    (bayesDefined_nbRegLik X hh (fun _ => 0) (normalPrior std)).1

example (X : Matrix (Fin 3) (Fin 2) ℝ) :
    Calibrated (normalPrior fun _ => 1) (nbRegData X fun _ => 2)
      (fun y => nbinomNormalPosterior stdLinAlg (fun _ => 1) X (fun _ => 2) y) :=
  (C78_nbinom_iff_partial stdLinAlg_sound (fun _ => one_pos) X fun _ => two_pos).2 fun _ => rfl

/-- Spec.  Toss of a coin. -/
noncomputable def coin (q : ℝ) : Measure Bool :=
  ENNReal.ofReal q • Measure.dirac true + ENNReal.ofReal (1 - q) • Measure.dirac false

/-- Spec.  Outcomes of a Bernoulli regression with success probability `prob ((X β) i)`. -/
noncomputable def bernRegData (prob : ℝ → ℝ) (X : Matrix (Fin n) (Fin p) ℝ) (β : Fin p → ℝ) :
    Measure (Fin n → Bool) :=
  Measure.pi fun i => coin (prob ((X *ᵥ β) i))

theorem coin_prob {q : ℝ} (h0 : 0 ≤ q) (h1 : q ≤ 1) : IsProbabilityMeasure (coin q) := by
  constructor
  simp only [coin, Measure.add_apply, Measure.smul_apply, measure_univ, smul_eq_mul, mul_one]
  rw [← ENNReal.ofReal_add h0 (by linarith)]
  simp

theorem coin_singleton (q : ℝ) (b : Bool) : coin q {b} = ENNReal.ofReal (if b then q else 1 - q) := by
  cases b <;> simp [coin]

theorem bernRegData_prob {prob : ℝ → ℝ} (h0 : ∀ x, 0 ≤ prob x) (h1 : ∀ x, prob x ≤ 1)
    (X : Matrix (Fin n) (Fin p) ℝ) (β : Fin p → ℝ) : IsProbabilityMeasure (bernRegData prob X β) ∧
      ∀ y, bernRegData prob X β {y} = bernRegLik prob X y β := by
  have hp : ∀ i, IsProbabilityMeasure (coin (prob ((X *ᵥ β) i))) := fun i => coin_prob (h0 _) (h1 _)
  refine ⟨by unfold bernRegData; infer_instance, fun y => ?_⟩
  rw [bernRegData, Measure.pi_singleton]
  simp only [coin_singleton, bernRegLik]

theorem measurable_bernRegLik (X : Matrix (Fin n) (Fin p) ℝ) (y : Fin n → Bool) :
    Measurable (bernRegLik sigmoid X y) := by
  have hc : (0 : ℝ) < ∏ _i : Fin n, (2 : ℝ)⁻¹ := by positivity
  rw [funext (bernRegLik_eq X y)]
  simp only [ENNReal.ofReal_mul hc.le]
  exact (measurable_pgLik X _ _).const_mul _

/-- **C78 (partial).** Bernoulli regression with success probability `sigmoid (X β)`:
`bern_normal_posterior` passes the check exactly when every prior standard deviation is 1. -/
theorem C78_bern_iff_partial {la : LinAlg} (hla : la.Sound) {std : Fin p → ℝ} (hs : ∀ j, 0 < std j)
    (X : Matrix (Fin n) (Fin p) ℝ) :
    Calibrated (normalPrior std) (bernRegData sigmoid X) (fun y => bernNormalPosterior la std X y) ↔
      ∀ j, std j = 1 := by
  have hd := bernRegData_prob (fun x => (sigmoid_pos x).le) (fun x => (sigmoid_lt_one x).le) X
  have hl : ∀ y, (fun β => bernRegData sigmoid X β {y}) = bernRegLik sigmoid X y := fun y =>
    funext fun β => (hd β).2 y
  rw [calibrated_iff (aemeasurable_of_singleton fun y => by
      rw [hl]; exact (measurable_bernRegLik X y).aemeasurable)
    (ae_of_all _ fun β => (hd β).1) fun y => (bern_runs hla hs X y).meas.aemeasurable]
  simp only [hl, C22_bern_step_iff_partial hla hs X]
  refine ⟨fun h1 => h1 (fun _ => true) ?_, fun h1 _ _ => h1⟩
  simpa only [(hd _).2] using (bayesDefined_bernRegLik X (fun _ => true) (normalPrior std)).1

example (X : Matrix (Fin 3) (Fin 2) ℝ) :
    ¬ Calibrated (normalPrior fun _ => 3) (bernRegData sigmoid X)
      (fun y => bernNormalPosterior stdLinAlg (fun _ => 3) X y) := by
  rw [C78_bern_iff_partial stdLinAlg_sound (fun _ => by norm_num)]
  intro h
  have := h 0
  norm_num at this

/-- **C78 (partial).** The Bernoulli regression the finder matches, with success probability
`sigmoid (-(X β))`: the step it builds passes the check exactly when every prior standard deviation is 1 and
the design is zero. -/
theorem C78_bern_finder_iff_partial {la : LinAlg} (hla : la.Sound) {std : Fin p → ℝ}
    (hs : ∀ j, 0 < std j) (X : Matrix (Fin n) (Fin p) ℝ) :
    Calibrated (normalPrior std) (bernRegData (fun ψ => sigmoid (-ψ)) X)
      (fun y => bernNormalPosterior la std X y) ↔ (∀ j, std j = 1) ∧ X = 0 := by
  have hd := bernRegData_prob (prob := fun ψ => sigmoid (-ψ)) (fun x => (sigmoid_pos _).le)
    (fun x => (sigmoid_lt_one _).le) X
  have hl : ∀ y, (fun β => bernRegData (fun ψ => sigmoid (-ψ)) X β {y}) =
      bernRegLik (fun ψ => sigmoid (-ψ)) X y := fun y => funext fun β => (hd β).2 y
  have hdef : ∀ y, BayesDefined (normalPrior std) (bernRegLik (fun ψ => sigmoid (-ψ)) X y) := fun y => by
    rw [funext (bernRegLik_neg X y)]
    exact bayesDefined_bernRegLik (-X) y _
  rw [calibrated_iff (aemeasurable_of_singleton fun y => by
      rw [hl, funext (bernRegLik_neg X y)]; exact (measurable_bernRegLik (-X) y).aemeasurable)
    (ae_of_all _ fun β => (hd β).1) fun y => (bern_runs hla hs X y).meas.aemeasurable]
  simp only [hl, C23_bern_finder_step_iff_partial hla hs X]
  constructor
  · intro h1
    have h2 : ∀ y : Fin n → Bool, (∀ j, std j = 1) ∧ (Xᵀ *ᵥ fun i => 2 * boolVal (y i) - 1) = 0 := fun y =>
      h1 y (by simpa only [(hd _).2] using (hdef y).1)
    refine ⟨(h2 fun _ => true).1, ?_⟩
    ext i j
    have h3 := congrFun (h2 fun _ => true).2 j
    have h4 := congrFun (h2 (Function.update (fun _ => true) i false)).2 j
    have e : ∀ k, X k j * (2 * boolVal (Function.update (fun _ => true) i false k) - 1) =
        X k j * (2 * boolVal true - 1) - (if k = i then 2 * X k j else 0) := by
      intro k
      by_cases hk : k = i
      · subst hk
        rw [Function.update_self, if_pos rfl]
        simp [boolVal]
        ring
      · rw [Function.update_of_ne hk, if_neg hk, sub_zero]
    simp only [Matrix.mulVec, dotProduct, Matrix.transpose_apply, Pi.zero_apply, e,
      Finset.sum_sub_distrib, Finset.sum_ite_eq', Finset.mem_univ, if_true] at h3 h4
    simp only [Matrix.zero_apply]
    linarith
  · rintro ⟨h1, rfl⟩ y -
    exact ⟨h1, by simp⟩

example : ¬ Calibrated (normalPrior fun _ => 1) (bernRegData (fun ψ => sigmoid (-ψ)) !![1; -2])
    (fun y => bernNormalPosterior stdLinAlg (fun _ => 1) !![1; -2] y) := by
  rw [C78_bern_finder_iff_partial stdLinAlg_sound (fun _ => one_pos)]
  rintro ⟨-, h⟩
  have := congrFun (congrFun h 0) 0
  norm_num at this

/-- **C78 is violated** by the regressions the library matches: prior standard deviation 2 whatever the
design, and for Bernoulli outcomes any design other than zero. -/
theorem C78_regression_violated {la : LinAlg} (hla : la.Sound) (hp : 0 < p) (X : Matrix (Fin n) (Fin p) ℝ)
    {h : Fin n → ℝ} (hh : ∀ i, 0 < h i) :
    ¬ Calibrated (normalPrior fun _ => 2) (nbRegData X h)
      (fun y => nbinomNormalPosterior la (fun _ => 2) X h y) ∧
    ∀ std : Fin p → ℝ, (∀ j, 0 < std j) → X ≠ 0 →
      ¬ Calibrated (normalPrior std) (bernRegData (fun ψ => sigmoid (-ψ)) X)
        (fun y => bernNormalPosterior la std X y) := by
  rw [C78_nbinom_iff_partial hla (fun _ => two_pos) X hh]
  refine ⟨fun h => ?_, fun std hs hX h => hX ((C78_bern_finder_iff_partial hla hs X).1 h).2⟩
  have := h ⟨0, hp⟩
  norm_num at this

example : ¬ Calibrated (normalPrior fun _ => 2) (nbRegData (1 : Matrix (Fin 2) (Fin 2) ℝ) fun _ => 5)
    (fun y => nbinomNormalPosterior stdLinAlg (fun _ => 2) 1 (fun _ => 5) y) :=
  (C78_regression_violated stdLinAlg_sound (by norm_num) 1 fun _ => by norm_num).1

/-! ### The dispersion -/

section
open CRT

/-- Spec.  Independent negative binomial counts with success probabilities `p i` and dispersion `h`. -/
noncomputable def nbDispData (p : Fin n → ℝ) (h : ℝ) : Measure (Fin n → ℕ) :=
  Measure.pi fun i => nbMeasure h (p i)

theorem nbDispData_prob {p : Fin n → ℝ} (hp0 : ∀ i, 0 < p i) (hp1 : ∀ i, p i < 1) {h : ℝ} (hh : 0 < h) :
    IsProbabilityMeasure (nbDispData p h) ∧ ∀ y, nbDispData p h {y} = nbDispLik p y h := by
  have hp : ∀ i, IsProbabilityMeasure (nbMeasure h (p i)) := fun i =>
    isProbabilityMeasure_nb hh (hp0 i) (hp1 i).le
  exact ⟨by unfold nbDispData; infer_instance, fun y => Measure.pi_singleton _ y⟩

/-- **C78 (partial).** `nbinom_dispersion_posterior` passes the check exactly when
`∑ log p = ∑ log (1 - p)`. -/
theorem C78_dispersion_iff_partial {a b : ℝ} (ha : 0 < a) (hb : 0 < b) {p : Fin n → ℝ}
    (hp0 : ∀ i, 0 < p i) (hp1 : ∀ i, p i < 1) :
    Calibrated (gammaMeasure a b⁻¹) (nbDispData p)
      (fun y => dispersionPosterior (List.ofFn p) a b (List.ofFn fun i => (y i : ℤ))) ↔
      ∑ i, Real.log (p i) = ∑ i, Real.log (1 - p i) := by
  have hpr := isProbabilityMeasure_gammaMeasure ha (inv_pos.2 hb)
  have hpos : ∀ᵐ h ∂gammaMeasure a b⁻¹, 0 < h := ae_pos_gammaMeasure
  have hl : ∀ y, (fun h => nbDispData p h {y}) =ᵐ[gammaMeasure a b⁻¹] nbDispLik p y := fun y =>
    hpos.mono fun h hh => (nbDispData_prob hp0 hp1 hh).2 y
  rw [calibrated_iff (aemeasurable_of_singleton fun y => ?_)
    (hpos.mono fun h hh => (nbDispData_prob hp0 hp1 hh).1) fun y => ?_]
  · have hb' : ∀ y, bayes (gammaMeasure a b⁻¹) (fun h => nbDispData p h {y}) =
        bayes (gammaMeasure a b⁻¹) (nbDispLik p y) := fun y => bayes_congr_ae (hl y)
    simp only [hb', C32_dispersion_iff_partial ha hb hp0 hp1]
    refine ⟨fun h1 => h1 (fun _ => 0) ?_, fun h1 _ _ => h1⟩
    rw [lintegral_congr_ae (hl _)]
    exact (posterior_defined ha (inv_pos.2 hb) hp0 hp1 _).1
  · obtain ⟨c, -, -, h1⟩ := nbDispLik_eq hp0 hp1 y
    refine ((measurable_crtMarg (-∑ i, Real.log (p i)) y).const_mul c).aemeasurable.congr ?_
    filter_upwards [hpos, hl y] with h hh h2
    rw [h2, h1 h hh]
  · obtain ⟨-, r⟩ := dispersion_runs ha hb hp0 hp1 y
    exact r.meas.aemeasurable.congr (hpos.mono fun h hh => (r.eq h hh).symm)

example : Calibrated (gammaMeasure 2 1⁻¹) (nbDispData ![1 / 4, 3 / 4])
    (fun y => dispersionPosterior (List.ofFn ![1 / 4, 3 / 4]) 2 1 (List.ofFn fun i => (y i : ℤ))) := by
  refine (C78_dispersion_iff_partial two_pos one_pos (fun i => ?_) (fun i => ?_)).2 ?_
  · fin_cases i <;> norm_num
  · fin_cases i <;> norm_num
  · rw [Fin.sum_univ_two, Fin.sum_univ_two]
    norm_num
    ring

/-- **C78 is violated** by the dispersion step: counts with a common success probability below one half. -/
theorem C78_dispersion_violated {a b : ℝ} (ha : 0 < a) (hb : 0 < b) (hn : 0 < n) {q : ℝ} (hq0 : 0 < q)
    (hq1 : q < 1 / 2) :
    ¬ Calibrated (gammaMeasure a b⁻¹) (nbDispData fun _ : Fin n => q)
      (fun y => dispersionPosterior (List.ofFn fun _ : Fin n => q) a b (List.ofFn fun i => (y i : ℤ))) := by
  rw [C78_dispersion_iff_partial ha hb (fun _ => hq0) (fun _ => by linarith),
    ← C75_dispersion_averages_iff_partial ha hb (fun _ => hq0) (fun _ => by linarith) (fun _ => 0) one_pos]
  exact C75_dispersion_violated ha hb hn hq0 hq1 _ one_pos

example : ¬ Calibrated (gammaMeasure 2 1⁻¹) (nbDispData fun _ : Fin 2 => 1 / 4)
    (fun y => dispersionPosterior (List.ofFn fun _ : Fin 2 => 1 / 4) 2 1
      (List.ofFn fun i => (y i : ℤ))) :=
  C78_dispersion_violated two_pos one_pos (by norm_num) (by norm_num) (by norm_num)

end

/-! ### Negative-binomial regression with unknown dispersion -/

/-- Spec.  Counts of a negative-binomial regression with coefficients `q.1` and dispersion `q.2`. -/
noncomputable def nbJointData (X : Matrix (Fin n) (Fin p) ℝ) (q : (Fin p → ℝ) × ℝ) : Measure (Fin n → ℕ) :=
  Measure.pi fun i => nbMeasure q.2 (sigmoid (-(X *ᵥ q.1) i))

theorem nbJointData_prob (X : Matrix (Fin n) (Fin p) ℝ) {q : (Fin p → ℝ) × ℝ} (hq : 0 < q.2) :
    IsProbabilityMeasure (nbJointData X q) ∧ ∀ y, nbJointData X q {y} = NbReg.nbJointLik X y q := by
  have hp : ∀ i, IsProbabilityMeasure (nbMeasure q.2 (sigmoid (-(X *ᵥ q.1) i))) := fun i =>
    isProbabilityMeasure_nb hq (sigmoid_pos _) (sigmoid_lt_one _).le
  exact ⟨by unfold nbJointData; infer_instance, fun y => Measure.pi_singleton _ y⟩

/-- **C78 (partial).** Coefficients and dispersion together: the sampler passes the check exactly when every
prior standard deviation is 1 and every column of the design sums to 0. -/
theorem C78_nbinom_joint_iff_partial {la : LinAlg} (hla : la.Sound) {std : Fin p → ℝ} (hs : ∀ j, 0 < std j)
    {a b : ℝ} (ha : 0 < a) (hb : 0 < b) (X : Matrix (Fin n) (Fin p) ℝ) :
    Calibrated (NbReg.nbPrior std a b) (nbJointData X) (fun y => NbReg.sweep la std X a b y) ↔
      (∀ j, std j = 1) ∧ ∀ j, ∑ i, X i j = 0 := by
  have hQ := isProbabilityMeasure_gammaMeasure ha (inv_pos.2 hb)
  have hpr : IsFiniteMeasure (NbReg.nbPrior std a b) := by
    unfold NbReg.nbPrior
    infer_instance
  have hpos := NbReg.ae_nbPrior_pos std ha hb
  have hl : ∀ y, (fun q => nbJointData X q {y}) =ᵐ[NbReg.nbPrior std a b] NbReg.nbJointLik X y := fun y =>
    hpos.mono fun q hq => (nbJointData_prob X hq).2 y
  rw [calibrated_iff (aemeasurable_of_singleton fun y => ?_)
    (hpos.mono fun q hq => (nbJointData_prob X hq).1) fun y => ?_]
  · have hb' : ∀ y, bayes (NbReg.nbPrior std a b) (fun q => nbJointData X q {y}) =
        bayes (NbReg.nbPrior std a b) (NbReg.nbJointLik X y) := fun y => bayes_congr_ae (hl y)
    simp only [hb', NbReg.C59_sweep_iff_partial hla hs ha hb X]
    refine ⟨fun h1 => h1 (fun _ => 0) ?_, fun h1 _ _ => h1⟩
    rw [lintegral_congr_ae (hl _)]
    exact (NbReg.C59_posterior_exists std ha hb X _).1
  · refine (NbReg.measurable_lik' X y).aemeasurable.congr ?_
    filter_upwards [hpos, hl y] with q hq h2
    rw [h2, NbReg.lik'_of_pos X y hq]
  · have r := NbReg.sweep_runs hla hs ha hb X y
    exact r.meas.aemeasurable.congr (hpos.mono fun q hq => (r.eq q hq).symm)

example : Calibrated (NbReg.nbPrior (fun _ => 1) 2 1) (nbJointData !![1; -1])
      (fun y => NbReg.sweep stdLinAlg (fun _ => 1) !![1; -1] 2 1 y) ∧
    ¬ Calibrated (NbReg.nbPrior (fun _ => 1) 2 1) (nbJointData !![1; 1])
      (fun y => NbReg.sweep stdLinAlg (fun _ => 1) !![1; 1] 2 1 y) := by
  rw [C78_nbinom_joint_iff_partial stdLinAlg_sound (fun _ => one_pos) two_pos one_pos,
    C78_nbinom_joint_iff_partial stdLinAlg_sound (fun _ => one_pos) two_pos one_pos]
  refine ⟨⟨fun _ => rfl, fun j => by fin_cases j; simp⟩, fun h => ?_⟩
  have := h.2 0
  simp [Fin.sum_univ_two] at this

end Verif
