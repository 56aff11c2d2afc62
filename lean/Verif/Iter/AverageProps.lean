import Verif.Iter.Props
import Verif.Iter.JointProps
import Verif.PG.Symm
import Verif.Prob.AveragesConv
import Verif.Prob.Moments
import Verif.Conj.Props

/-!
# What averages over the draws converge to (C75)

`AverageConverges D K f m` says that from every start in `D` the average of `f` over the values returned
by the first `k` calls converges in probability to `m` as `k` grows; `AveragesConverge D π K` says so for
every bounded `f` and its expectation under `π` (`Prob/Averages.lean`, `Prob/AveragesConv.lean`).
-/

open MeasureTheory ProbabilityTheory Matrix
open scoped ENNReal

namespace Verif

variable {p n : ℕ}

/-- A step with a measurable family of laws on all states. -/
theorem runs_univ {Θ : Type*} [MeasurableSpace Θ] {K : Θ → Measure Θ} (hK : Measurable K)
    (hp : ∀ θ, IsProbabilityMeasure (K θ)) : Runs Set.univ K K :=
  ⟨hK, hp, fun _ _ => rfl, fun _ => ae_of_all _ fun _ => trivial, MeasurableSet.univ⟩

/-! ### Regressions -/

/-- Second moment of a coefficient after one call, whatever the start. -/
theorem lintegral_sq_pgStep {la : LinAlg} (hla : la.Sound) {d : Fin p → ℝ} (hd : ∀ j, 0 < d j)
    (X : Matrix (Fin n) (Fin p) ℝ) {b : Fin n → ℝ} (κ : Fin n → ℝ) (hb : ∀ i, 0 < b i) (j : Fin p)
    (β : Fin p → ℝ) : ∫⁻ x, ENNReal.ofReal (x j ^ 2) ∂pgStep la d X b κ β ≤
      ENNReal.ofReal ((d j)⁻¹ + (∑ i, (Xᵀ *ᵥ κ) i ^ 2 / d i) / d j) := by
  have hm : Measurable fun x : Fin p → ℝ => ENNReal.ofReal (x j ^ 2) := by fun_prop
  have hpr : ∀ i, IsProbabilityMeasure (pg (b i) ((X *ᵥ β) i)) := fun i =>
    isProbabilityMeasure_pg (hb i) _
  have hpos : ∀ᵐ w ∂(Measure.pi fun i => pg (b i) ((X *ᵥ β) i)), ∀ i, 0 < w i := by
    rw [(pi_pg_eq X hb 0 β).2.2]
    exact (bayes_absolutelyContinuous _ _).ae_le (ae_pi_pg0_pos hb)
  rw [pgStep_eq_bayes hla hd X hb κ β,
    Measure.lintegral_bind (measurable_bayes_pgJoint d X κ).aemeasurable hm.aemeasurable]
  refine (lintegral_mono_ae (g := fun _ => ENNReal.ofReal
    ((d j)⁻¹ + (∑ i, (Xᵀ *ᵥ κ) i ^ 2 / d i) / d j)) ?_).trans_eq ?_
  · filter_upwards [hpos] with w hw
    have hP : (Xᵀ * diagonal w * X).PosSemidef := by
      have := (PosSemidef.diagonal (fun i => (hw i).le)).conjTranspose_mul_mul_same X
      rwa [conjTranspose_eq_transpose_of_trivial] at this
    have hκ : (diagonal w *ᵥ fun i => κ i / w i) = κ := by
      ext i
      rw [mulVec_diagonal, mul_div_cancel₀ _ (hw i).ne']
    rw [← (normalRegression_eq_bayes hla hd X κ hw).2, normalRegression_law hla hw hd, hκ]
    exact lintegral_sq_mvn hd hP (Xᵀ *ᵥ κ) j
  · rw [lintegral_const, measure_univ, mul_one]

theorem pgStep_averages {la : LinAlg} (hla : la.Sound) {d : Fin p → ℝ} (hd : ∀ j, 0 < d j)
    (X : Matrix (Fin n) (Fin p) ℝ) {b κ : Fin n → ℝ} (hb : ∀ i, 0 < b i) {π : Measure (Fin p → ℝ)}
    [IsProbabilityMeasure π] (hc : ConvergesFrom Set.univ π (pgStep la d X b κ)) :
    AveragesConverge Set.univ π (pgStep la d X b κ) ∧
      ∀ j, AverageConverges Set.univ (pgStep la d X b κ) (fun β => β j) (∫ β, β j ∂π) := by
  obtain ⟨hm, hp, -⟩ := pgStep_minor hla hd X κ hb
  have r := runs_univ hm hp
  exact ⟨r.averagesConverge hc, fun j => r.averageConverges hc (measurable_pi_apply j)
    ENNReal.ofReal_ne_top fun β _ => lintegral_sq_pgStep hla hd X κ hb j β⟩

/-- **C75 (partial).** Averages over the draws of `nbinom_normal_posterior`: from every start those of
bounded functions and of every coefficient converge to expectations under the posterior for prior standard
deviations `sqrt std`. -/
theorem C75_nbinom_averages_partial {la : LinAlg} (hla : la.Sound) {std : Fin p → ℝ}
    (hs : ∀ j, 0 < std j) (X : Matrix (Fin n) (Fin p) ℝ) {h : Fin n → ℝ} (hh : ∀ i, 0 < h i)
    (y : Fin n → ℕ) :
    AveragesConverge Set.univ (bayes (normalPrior fun j => Real.sqrt (std j)) (nbRegLik X h y))
      (nbinomNormalPosterior la std X h y) ∧
    ∀ j, AverageConverges Set.univ (nbinomNormalPosterior la std X h y) (fun β => β j)
      (∫ β, β j ∂bayes (normalPrior fun j => Real.sqrt (std j)) (nbRegLik X h y)) := by
  have hp := isProbabilityMeasure_bayes
    (bayesDefined_nbRegLik X hh y (normalPrior fun j => Real.sqrt (std j)))
  have hc := (C65_nbinom_converges_partial hla hs X hh y).2
  rw [nbinomNormalPosterior_eq] at hc ⊢
  exact pgStep_averages hla (fun j => inv_pos.2 (hs j)) X (fun i => by have := hh i; positivity) hc

/-- With prior standard deviation 4 the averages converge to the expectation for 2. -/
example (X : Matrix (Fin 3) (Fin 1) ℝ) (y : Fin 3 → ℕ) :
    AverageConverges Set.univ (nbinomNormalPosterior stdLinAlg (fun _ => 4) X (fun _ => 2) y)
      (fun β => β 0) (∫ β, β 0 ∂bayes (normalPrior fun _ => Real.sqrt 4) (nbRegLik X (fun _ => 2) y)) :=
  (C75_nbinom_averages_partial stdLinAlg_sound (fun _ => by norm_num) X (fun _ => two_pos) y).2 0

/-- **C75 (partial).** They converge to posterior expectations, from any one start, exactly when every
prior standard deviation is 1. -/
theorem C75_nbinom_averages_iff_partial {la : LinAlg} (hla : la.Sound) {std : Fin p → ℝ}
    (hs : ∀ j, 0 < std j) (X : Matrix (Fin n) (Fin p) ℝ) {h : Fin n → ℝ} (hh : ∀ i, 0 < h i)
    (y : Fin n → ℕ) (β : Fin p → ℝ) :
    AveragesConverge {β} (bayes (normalPrior std) (nbRegLik X h y))
      (nbinomNormalPosterior la std X h y) ↔ ∀ j, std j = 1 := by
  have hp := isProbabilityMeasure_bayes (bayesDefined_nbRegLik X hh y (normalPrior std))
  rw [← C21_nbinom_step_iff_partial hla hs X hh y]
  constructor
  · intro h1
    obtain ⟨hm, hp', -⟩ := pgStep_minor hla (fun j => inv_pos.2 (hs j)) X
      (fun i => 0.5 * ((y i : ℝ) - h i)) (b := fun i => (y i : ℝ) + h i)
      (fun i => by have := hh i; positivity)
    rw [nbinomNormalPosterior_eq] at h1 ⊢
    exact (runs_univ hm hp').stationary_of_averages (Set.mem_univ β) h1
  · intro h1
    have h2 := (C21_nbinom_step_target_partial hla hs X hh y _).1 h1
    rw [h2]
    exact (C75_nbinom_averages_partial hla hs X hh y).1.mono (Set.subset_univ _)

/-- **C75 (partial).** Averages over the draws of `bern_normal_posterior`: from every start those of bounded
functions and of every coefficient converge to expectations under the posterior for prior standard
deviations `sqrt std` and success probability `sigmoid (X β)`. -/
theorem C75_bern_averages_partial {la : LinAlg} (hla : la.Sound) {std : Fin p → ℝ}
    (hs : ∀ j, 0 < std j) (X : Matrix (Fin n) (Fin p) ℝ) (y : Fin n → Bool) :
    AveragesConverge Set.univ
      (bayes (normalPrior fun j => Real.sqrt (std j)) (bernRegLik sigmoid X y))
      (bernNormalPosterior la std X y) ∧
    ∀ j, AverageConverges Set.univ (bernNormalPosterior la std X y) (fun β => β j)
      (∫ β, β j ∂bayes (normalPrior fun j => Real.sqrt (std j)) (bernRegLik sigmoid X y)) := by
  have hp := isProbabilityMeasure_bayes
    (bayesDefined_bernRegLik X y (normalPrior fun j => Real.sqrt (std j)))
  have hc := (C65_bern_converges_partial hla hs X y).2
  rw [bernNormalPosterior_eq] at hc ⊢
  exact pgStep_averages hla (fun j => inv_pos.2 (hs j)) X (fun _ => one_pos) hc

example (X : Matrix (Fin 3) (Fin 1) ℝ) :
    AverageConverges Set.univ (bernNormalPosterior stdLinAlg (fun _ => 4) X ![true, false, true])
      (fun β => β 0) (∫ β, β 0 ∂bayes (normalPrior fun _ => Real.sqrt 4)
        (bernRegLik sigmoid X ![true, false, true])) :=
  (C75_bern_averages_partial stdLinAlg_sound (fun _ => by norm_num) X _).2 0

theorem bern_stationary_of_averages {la : LinAlg} (hla : la.Sound) {std : Fin p → ℝ}
    (hs : ∀ j, 0 < std j) (X : Matrix (Fin n) (Fin p) ℝ) (y : Fin n → Bool) (β : Fin p → ℝ)
    {π : Measure (Fin p → ℝ)} [IsProbabilityMeasure π]
    (h : AveragesConverge {β} π (bernNormalPosterior la std X y)) :
    Stationary π (bernNormalPosterior la std X y) := by
  rw [bernNormalPosterior_eq] at h ⊢
  obtain ⟨hm, hp', -⟩ := pgStep_minor hla (fun j => inv_pos.2 (hs j)) X
    (fun i => boolVal (y i) - 0.5) (b := fun _ => 1) (fun _ => one_pos)
  exact (runs_univ hm hp').stationary_of_averages (Set.mem_univ β) h

/-- **C75 (partial).** They converge to expectations under the posterior with success probability
`sigmoid (X β)`, from any one start, exactly when every prior standard deviation is 1. -/
theorem C75_bern_averages_iff_partial {la : LinAlg} (hla : la.Sound) {std : Fin p → ℝ}
    (hs : ∀ j, 0 < std j) (X : Matrix (Fin n) (Fin p) ℝ) (y : Fin n → Bool) (β : Fin p → ℝ) :
    AveragesConverge {β} (bayes (normalPrior std) (bernRegLik sigmoid X y))
      (bernNormalPosterior la std X y) ↔ ∀ j, std j = 1 := by
  have hp := isProbabilityMeasure_bayes (bayesDefined_bernRegLik X y (normalPrior std))
  rw [← C22_bern_step_iff_partial hla hs X y]
  refine ⟨bern_stationary_of_averages hla hs X y β, fun h1 => ?_⟩
  rw [(C22_bern_step_target_partial hla hs X y _).1 h1]
  exact (C75_bern_averages_partial hla hs X y).1.mono (Set.subset_univ _)

example (X : Matrix (Fin 3) (Fin 1) ℝ) (β : Fin 1 → ℝ) :
    ¬ AveragesConverge {β} (bayes (normalPrior fun _ => 4) (bernRegLik sigmoid X ![true, false, true]))
      (bernNormalPosterior stdLinAlg (fun _ => 4) X ![true, false, true]) := by
  rw [C75_bern_averages_iff_partial stdLinAlg_sound (fun _ => by norm_num)]
  intro h
  have := h 0
  norm_num at this

/-- **C75 (partial).** The step the Bernoulli finder builds: its averages converge to expectations under
the posterior of the model the finder matches, from any one start, exactly when moreover
`Xᵀ (2 y - 1) = 0`. -/
theorem C75_bern_finder_averages_iff_partial {la : LinAlg} (hla : la.Sound) {std : Fin p → ℝ}
    (hs : ∀ j, 0 < std j) (X : Matrix (Fin n) (Fin p) ℝ) (y : Fin n → Bool) (β : Fin p → ℝ) :
    AveragesConverge {β} (bayes (normalPrior std) (bernRegLik (fun ψ => sigmoid (-ψ)) X y))
      (bernNormalPosterior la std X y) ↔
        (∀ j, std j = 1) ∧ (Xᵀ *ᵥ fun i => 2 * boolVal (y i) - 1) = 0 := by
  have hd : BayesDefined (normalPrior std) (bernRegLik (fun ψ => sigmoid (-ψ)) X y) := by
    rw [funext (bernRegLik_neg X y)]
    exact bayesDefined_bernRegLik (-X) y _
  have hp := isProbabilityMeasure_bayes hd
  rw [← C23_bern_finder_step_iff_partial hla hs X y]
  refine ⟨bern_stationary_of_averages hla hs X y β, fun h1 => ?_⟩
  rw [(C22_bern_step_target_partial hla hs X y _).1 h1]
  exact (C75_bern_averages_partial hla hs X y).1.mono (Set.subset_univ _)

/-- Two coefficients, three counts, prior standard deviations 1. -/
example (X : Matrix (Fin 3) (Fin 2) ℝ) (y : Fin 3 → ℕ) :
    AveragesConverge {![4, -7]} (bayes (normalPrior fun _ => 1) (nbRegLik X (fun i => i + 1) y))
      (nbinomNormalPosterior stdLinAlg (fun _ => 1) X (fun i => i + 1) y) :=
  (C75_nbinom_averages_iff_partial stdLinAlg_sound (fun _ => one_pos) X (fun i => by positivity) y _).2
    fun _ => rfl

/-- **C75 is violated**: regression coefficients with prior standard deviation 2.  Whatever the design and
the data, from no start do the averages converge to the posterior expectations. -/
theorem C75_regression_violated {la : LinAlg} (hla : la.Sound) (hp : 0 < p)
    (X : Matrix (Fin n) (Fin p) ℝ) {h : Fin n → ℝ} (hh : ∀ i, 0 < h i) (y : Fin n → ℕ)
    (z : Fin n → Bool) (β : Fin p → ℝ) :
    ¬ AveragesConverge {β} (bayes (normalPrior fun _ => 2) (nbRegLik X h y))
      (nbinomNormalPosterior la (fun _ => 2) X h y) ∧
    ¬ AveragesConverge {β} (bayes (normalPrior fun _ => 2) (bernRegLik sigmoid X z))
      (bernNormalPosterior la (fun _ => 2) X z) ∧
    ¬ AveragesConverge {β} (bayes (normalPrior fun _ => 2) (bernRegLik (fun ψ => sigmoid (-ψ)) X z))
      (bernNormalPosterior la (fun _ => 2) X z) := by
  have hne : ¬ ∀ _j : Fin p, (2 : ℝ) = 1 := fun h => by
    have := h ⟨0, hp⟩
    norm_num at this
  rw [C75_nbinom_averages_iff_partial hla (fun _ => two_pos) X hh y,
    C75_bern_averages_iff_partial hla (fun _ => two_pos) X z,
    C75_bern_finder_averages_iff_partial hla (fun _ => two_pos) X z]
  exact ⟨hne, hne, fun h => hne h.1⟩

example : ¬ AveragesConverge {![0]} (bayes (normalPrior fun _ => 2)
      (nbRegLik (1 : Matrix (Fin 1) (Fin 1) ℝ) (fun _ => 1) fun _ => 3))
    (nbinomNormalPosterior stdLinAlg (fun _ => 2) (1 : Matrix (Fin 1) (Fin 1) ℝ) (fun _ => 1)
      fun _ => 3) :=
  (C75_regression_violated stdLinAlg_sound (by norm_num) (1 : Matrix (Fin 1) (Fin 1) ℝ) (fun _ => one_pos) (fun _ => 3)
    (fun _ => true) _).1

/-! ### The dispersion -/

section
open CRT

/-- Second moment of the dispersion after one call, whatever the start. -/
theorem lintegral_sq_crtKernel {a r t : ℝ} (ha : 0 < a) (ht : 0 < r + t) (y : Fin n → ℕ) :
    ∃ C : ℝ≥0∞, C ≠ ∞ ∧ ∀ h, ∫⁻ x, ENNReal.ofReal (x ^ 2) ∂crtKernel y a r t h ≤ C := by
  refine ⟨∑ l ∈ Finset.range ((crtPoly y).natDegree + 1),
    ∫⁻ x, ENNReal.ofReal (x ^ 2) ∂gammaMeasure (a + l) (r + t),
    (ENNReal.sum_lt_top.2 fun l _ => (lintegral_sq_gamma (by positivity) ht).lt_top).ne, fun h => ?_⟩
  have := isProbabilityMeasure_bayes (crtJoint_defined t y h)
  rw [crtKernel, Measure.lintegral_bind (Measurable.of_discrete).aemeasurable
    (by fun_prop : Measurable fun x : ℝ => ENNReal.ofReal (x ^ 2)).aemeasurable]
  refine (lintegral_mono_ae (g := fun _ => ∑ l ∈ Finset.range ((crtPoly y).natDegree + 1),
    ∫⁻ x, ENNReal.ofReal (x ^ 2) ∂gammaMeasure (a + l) (r + t)) ?_).trans_eq ?_
  · filter_upwards [(bayes_absolutelyContinuous _ _).ae_le (ae_polyMeas_le (crtPoly y))] with l hl
    exact Finset.single_le_sum
      (f := fun l : ℕ => ∫⁻ x, ENNReal.ofReal (x ^ 2) ∂gammaMeasure (a + l) (r + t))
      (fun _ _ => zero_le) (Finset.mem_range.2 (Nat.lt_succ_of_le hl))
  · rw [lintegral_const, measure_univ, mul_one]

theorem dispersion_runs {a b : ℝ} (ha : 0 < a) (hb : 0 < b) {p : Fin n → ℝ}
    (hp0 : ∀ i, 0 < p i) (hp1 : ∀ i, p i < 1) (y : Fin n → ℕ) :
    0 < b⁻¹ + -∑ i, Real.log (1 - p i) ∧ Runs (Set.Ioi 0)
      (dispersionPosterior (List.ofFn p) a b (List.ofFn fun i => (y i : ℤ)))
      (crtKernel y a b⁻¹ (-∑ i, Real.log (1 - p i))) := by
  have hr : (0 : ℝ) < b⁻¹ := inv_pos.2 hb
  have ht : 0 < b⁻¹ + -∑ i, Real.log (1 - p i) := by
    have : ∑ i, Real.log (1 - p i) ≤ 0 := Finset.sum_nonpos fun i _ =>
      Real.log_nonpos (by have := hp1 i; linarith) (by have := hp0 i; linarith)
    linarith
  exact ⟨ht, measurable_crtKernel ha hr ht y, prob_crtKernel ha ht y, fun x hx => dispersion_eq p a b y hx,
    fun x => (crtKernel_ac y x).ae_le ae_volPos, measurableSet_Ioi⟩

/-- **C75 (partial).** Averages over the draws of `nbinom_dispersion_posterior`: from every positive start
those of bounded functions and of the dispersion itself converge to expectations under the posterior for
success probabilities `1 - p`. -/
theorem C75_dispersion_averages_partial {a b : ℝ} (ha : 0 < a) (hb : 0 < b) {p : Fin n → ℝ}
    (hp0 : ∀ i, 0 < p i) (hp1 : ∀ i, p i < 1) (y : Fin n → ℕ) :
    AveragesConverge (Set.Ioi 0) (bayes (gammaMeasure a b⁻¹) (nbDispLik (fun i => 1 - p i) y))
      (dispersionPosterior (List.ofFn p) a b (List.ofFn fun i => (y i : ℤ))) ∧
    AverageConverges (Set.Ioi 0) (dispersionPosterior (List.ofFn p) a b (List.ofFn fun i => (y i : ℤ)))
      (fun h => h) (∫ h, h ∂bayes (gammaMeasure a b⁻¹) (nbDispLik (fun i => 1 - p i) y)) := by
  have h0 : ∀ i, 0 < 1 - p i := fun i => by have := hp1 i; linarith
  have h1 : ∀ i, 1 - p i < 1 := fun i => by have := hp0 i; linarith
  have hpr := isProbabilityMeasure_bayes (posterior_defined ha (inv_pos.2 hb) h0 h1 y)
  have hc := (dispersion_converges ha hb hp0 hp1 y).2
  obtain ⟨ht, r⟩ := dispersion_runs ha hb hp0 hp1 y
  obtain ⟨C, hC, h2⟩ := lintegral_sq_crtKernel ha ht y
  exact ⟨r.averagesConverge hc, r.averageConverges hc measurable_id hC fun x hx => by
    rw [r.eq x hx]
    exact h2 x⟩

example : AverageConverges (Set.Ioi 0) (dispersionPosterior (List.ofFn ![1 / 4, 1 / 2]) 2 1
      (List.ofFn fun i => ((![3, 0] : Fin 2 → ℕ) i : ℤ))) (fun h => h)
    (∫ h, h ∂bayes (gammaMeasure 2 1⁻¹)
      (nbDispLik (fun i => 1 - (![1 / 4, 1 / 2] : Fin 2 → ℝ) i) ![3, 0])) :=
  (C75_dispersion_averages_partial two_pos one_pos (fun i => by fin_cases i <;> norm_num)
    (fun i => by fin_cases i <;> norm_num) _).2

/-- **C75 (partial).** They converge to expectations under the posterior for success probabilities `p`,
from any one positive start, exactly when `∑ log p = ∑ log (1 - p)`. -/
theorem C75_dispersion_averages_iff_partial {a b : ℝ} (ha : 0 < a) (hb : 0 < b) {p : Fin n → ℝ}
    (hp0 : ∀ i, 0 < p i) (hp1 : ∀ i, p i < 1) (y : Fin n → ℕ) {h : ℝ} (hh : 0 < h) :
    AveragesConverge {h} (bayes (gammaMeasure a b⁻¹) (nbDispLik p y))
      (dispersionPosterior (List.ofFn p) a b (List.ofFn fun i => (y i : ℤ))) ↔
      ∑ i, Real.log (p i) = ∑ i, Real.log (1 - p i) := by
  have hpr := isProbabilityMeasure_bayes (posterior_defined ha (inv_pos.2 hb) hp0 hp1 y)
  constructor
  · intro h1
    rw [← C32_dispersion_iff_partial ha hb hp0 hp1 y]
    exact (dispersion_runs ha hb hp0 hp1 y).2.stationary_of_averages hh h1
  · intro h1
    rw [posterior_eq hp0 hp1, h1, ← posterior_eq (fun i => by have := hp1 i; linarith)
      (fun i => by have := hp0 i; linarith)]
    exact (C75_dispersion_averages_partial ha hb hp0 hp1 y).1.mono (Set.singleton_subset_iff.2 hh)

example (y : Fin 2 → ℕ) : AveragesConverge {5}
    (bayes (gammaMeasure 2 1⁻¹) (nbDispLik ![1 / 4, 3 / 4] y))
    (dispersionPosterior (List.ofFn ![1 / 4, 3 / 4]) 2 1 (List.ofFn fun i => (y i : ℤ))) := by
  refine (C75_dispersion_averages_iff_partial two_pos one_pos (fun i => ?_) (fun i => ?_) y
    (by norm_num)).2 ?_
  · fin_cases i <;> norm_num
  · fin_cases i <;> norm_num
  · rw [Fin.sum_univ_two, Fin.sum_univ_two]
    norm_num
    ring

/-- **C75 is violated**: counts with a common success probability below one half.  From no positive start
do the averages converge to the posterior expectations. -/
theorem C75_dispersion_violated {a b : ℝ} (ha : 0 < a) (hb : 0 < b) (hn : 0 < n) {q : ℝ} (hq0 : 0 < q)
    (hq1 : q < 1 / 2) (y : Fin n → ℕ) {h : ℝ} (hh : 0 < h) :
    ¬ AveragesConverge {h} (bayes (gammaMeasure a b⁻¹) (nbDispLik (fun _ => q) y))
      (dispersionPosterior (List.ofFn fun _ : Fin n => q) a b (List.ofFn fun i => (y i : ℤ))) := by
  rw [C75_dispersion_averages_iff_partial ha hb (fun _ => hq0) (fun _ => by linarith) y hh]
  simp only [Finset.sum_const, Finset.card_univ, Fintype.card_fin, nsmul_eq_mul]
  intro h1
  have h2 : Real.log q < Real.log (1 - q) := Real.log_lt_log hq0 (by linarith)
  have h3 : (0 : ℝ) < n := by exact_mod_cast hn
  nlinarith

example : ¬ AveragesConverge {1} (bayes (gammaMeasure 2 1⁻¹) (nbDispLik (fun _ : Fin 2 => 1 / 4) ![3, 0]))
    (dispersionPosterior (List.ofFn fun _ : Fin 2 => 1 / 4) 2 1
      (List.ofFn fun i : Fin 2 => ((![3, 0] : Fin 2 → ℕ) i : ℤ))) :=
  C75_dispersion_violated two_pos one_pos (by norm_num) (by norm_num) (by norm_num) _ one_pos

end

/-! ### Horseshoe steps and samplers of several unknowns -/

/-- **C75 (partial).** Horseshoe step, rate reading: from every positive start the averages converge to
expectations under the joint posterior of the shrinkage parameters. -/
theorem C75_horseshoe_averages_partial {β : Fin p → ℝ} (hβ : ∀ j, β j ≠ 0) :
    AveragesConverge {s | (∀ j, 0 < s.1 j) ∧ 0 < s.2} (Horseshoe.posterior β 1)
      (Horseshoe.horseshoeStep .rate β) := by
  have hpr : IsProbabilityMeasure (Horseshoe.posterior β 1) :=
    isProbabilityMeasure_bayes (Horseshoe.C28_rate_step_invariant_partial hβ).1
  exact (horseshoe_runs .rate β).averagesConverge (C65_horseshoe_converges_partial hβ)

example : AveragesConverge {s | (∀ j, 0 < s.1 j) ∧ 0 < s.2} (Horseshoe.posterior ![2, -1] 1)
    (Horseshoe.horseshoeStep .rate ![2, -1]) :=
  C75_horseshoe_averages_partial fun j => by fin_cases j <;> norm_num

/-- **C75 is violated**: horseshoe step in the reading the library uses.  From no positive start do the
averages converge to the posterior expectations. -/
theorem C75_horseshoe_scale_violated (hp : 0 < p) {β : Fin p → ℝ} (hβ : ∀ j, β j ≠ 0)
    {s : (Fin p → ℝ) × ℝ} (h1 : ∀ j, 0 < s.1 j) (h2 : 0 < s.2) :
    ¬ AveragesConverge {s} (Horseshoe.posterior β 1) (Horseshoe.horseshoeStep .scale β) := by
  have hv := Horseshoe.C28_step_violated hp hβ
  have hpr : IsProbabilityMeasure (Horseshoe.posterior β 1) := isProbabilityMeasure_bayes hv.1
  exact fun h => hv.2 ((horseshoe_runs .scale β).stationary_of_averages ⟨h1, h2⟩ h)

example : ¬ AveragesConverge {(![1, 3], 2)} (Horseshoe.posterior ![2, -1] 1)
    (Horseshoe.horseshoeStep .scale ![2, -1]) :=
  C75_horseshoe_scale_violated (by norm_num) (fun j => by fin_cases j <;> norm_num)
    (fun j => by fin_cases j <;> norm_num) (by norm_num)

/-- **C75 (partial).** Negative-binomial regression with normal coefficients and a gamma dispersion: from
any one start with a positive dispersion the averages converge to expectations under the joint posterior
exactly when every prior standard deviation is 1 and every column of the design sums to 0. -/
theorem C75_nbinom_joint_averages_iff_partial {la : LinAlg} (hla : la.Sound) {std : Fin p → ℝ}
    (hs : ∀ j, 0 < std j) {a b : ℝ} (ha : 0 < a) (hb : 0 < b) (X : Matrix (Fin n) (Fin p) ℝ)
    (y : Fin n → ℕ) {q : (Fin p → ℝ) × ℝ} (hq : 0 < q.2) :
    AveragesConverge {q} (bayes (NbReg.nbPrior std a b) (NbReg.nbJointLik X y))
      (NbReg.sweep la std X a b y) ↔ (∀ j, std j = 1) ∧ ∀ j, ∑ i, X i j = 0 := by
  have hpr := isProbabilityMeasure_bayes (NbReg.C59_posterior_exists std ha hb X y)
  have r := NbReg.sweep_runs hla hs ha hb X y
  constructor
  · intro h
    rw [← NbReg.C59_sweep_iff_partial hla hs ha hb X y]
    exact r.stationary_of_averages hq h
  · intro h
    exact (r.averagesConverge fun q hq =>
      (C65_nbinom_joint_converges_iff_partial hla hs ha hb X y hq).2 h q rfl).mono
        (Set.singleton_subset_iff.2 hq)

example (y : Fin 2 → ℕ) : AveragesConverge {(![5], 3)}
    (bayes (NbReg.nbPrior (fun _ => 1) 2 1) (NbReg.nbJointLik !![1; -1] y))
    (NbReg.sweep stdLinAlg (fun _ => 1) !![1; -1] 2 1 y) :=
  (C75_nbinom_joint_averages_iff_partial stdLinAlg_sound (fun _ => one_pos) two_pos one_pos _ y
    (by norm_num)).2 ⟨fun _ => rfl, fun j => by fin_cases j; simp⟩

/-- **C75 is violated**: a design with an intercept. -/
theorem C75_nbinom_intercept_violated {la : LinAlg} (hla : la.Sound) {std : Fin p → ℝ}
    (hs : ∀ j, 0 < std j) {a b : ℝ} (ha : 0 < a) (hb : 0 < b) (hn : 0 < n)
    {X : Matrix (Fin n) (Fin p) ℝ} {j : Fin p} (hX : ∀ i, X i j = 1) (y : Fin n → ℕ)
    {q : (Fin p → ℝ) × ℝ} (hq : 0 < q.2) :
    ¬ AveragesConverge {q} (bayes (NbReg.nbPrior std a b) (NbReg.nbJointLik X y))
      (NbReg.sweep la std X a b y) := by
  rw [C75_nbinom_joint_averages_iff_partial hla hs ha hb X y hq,
    ← C65_nbinom_joint_converges_iff_partial hla hs ha hb X y hq]
  exact C65_nbinom_intercept_violated hla hs ha hb hn hX y hq

example (y : Fin 3 → ℕ) : ¬ AveragesConverge {(![0, 0], 1)}
    (bayes (NbReg.nbPrior (fun _ => 1) 2 1) (NbReg.nbJointLik !![1, 4; 1, 5; 1, 6] y))
    (NbReg.sweep stdLinAlg (fun _ => 1) !![1, 4; 1, 5; 1, 6] 2 1 y) :=
  C75_nbinom_intercept_violated stdLinAlg_sound (fun _ => one_pos) two_pos one_pos (by norm_num)
    (j := 0) (fun i => by fin_cases i <;> rfl) y one_pos

/-- **C75 is violated**: regressions with a horseshoe prior.  Whatever the data, from no start with
positive shrinkage parameters do the averages converge to the posterior expectations. -/
theorem C75_horseshoe_regression_violated (conv : Horseshoe.ExpArg) (rd : HsReg.Reads) {la : LinAlg}
    (hla : la.Sound) (hp : 0 < p) (X : Matrix (Fin n) (Fin p) ℝ) {h : Fin n → ℝ} (hh : ∀ i, 0 < h i)
    (y : Fin n → ℕ) (z : Fin n → Bool) {q : (Fin p → ℝ) × ((Fin p → ℝ) × ℝ)} (h1 : ∀ j, 0 < q.2.1 j)
    (h2 : 0 < q.2.2) :
    ¬ AveragesConverge {q} (HsReg.hsPosterior (nbRegLik X h y)) (HsReg.nbSweep conv rd la X h y) ∧
    ¬ AveragesConverge {q} (HsReg.hsPosterior (bernRegLik (fun ψ => sigmoid (-ψ)) X z))
      (HsReg.bernSweep conv rd la X z) := by
  have hv := HsReg.C60_sweep_violated conv rd hla hp X hh y z
  have hd := HsReg.C60_posterior_exists X hh y z
  have hp1 : IsProbabilityMeasure (HsReg.hsPosterior (nbRegLik X h y)) := isProbabilityMeasure_bayes hd.1
  have hp2 : IsProbabilityMeasure (HsReg.hsPosterior (bernRegLik (fun ψ => sigmoid (-ψ)) X z)) :=
    isProbabilityMeasure_bayes hd.2
  exact ⟨fun hc => hv.1 ((HsReg.sweep_runs hla (HsReg.nbForm X hh y).some conv rd).stationary_of_averages
      (θ := q) ⟨h1, h2⟩ hc),
    fun hc => hv.2 ((HsReg.sweep_runs hla (HsReg.bernForm X z).some conv rd).stationary_of_averages
      (θ := q) ⟨h1, h2⟩ hc)⟩

example : ¬ AveragesConverge {(![0, 1], (![1, 2], 3))}
    (HsReg.hsPosterior (nbRegLik !![1, 0; 2, 1] (fun _ => 2) ![0, 4]))
    (HsReg.nbSweep .scale ⟨false, false⟩ stdLinAlg !![1, 0; 2, 1] (fun _ => 2) ![0, 4]) :=
  (C75_horseshoe_regression_violated .scale _ stdLinAlg_sound (by norm_num) _ (fun _ => two_pos) _
    (fun _ => true) (fun j => by fin_cases j <;> norm_num) (by norm_num)).1

/-- **C75 is violated**: two groups of coefficients that share their global parameter. -/
theorem C75_shared_violated {p₁ p₂ : ℕ} (conv : Horseshoe.ExpArg) (ord : Shared.Order) (hp₁ : 0 < p₁)
    (hp₂ : 0 < p₂) {β₁ : Fin p₁ → ℝ} {β₂ : Fin p₂ → ℝ} (h₁ : ∀ j, β₁ j ≠ 0) (h₂ : ∀ j, β₂ j ≠ 0)
    {q : (Fin p₁ → ℝ) × ((Fin p₂ → ℝ) × ℝ)} (q1 : ∀ j, 0 < q.1 j) (q2 : ∀ j, 0 < q.2.1 j)
    (q3 : 0 < q.2.2) :
    ¬ AveragesConverge {q} (Shared.posterior β₁ β₂) (Shared.sharedStep conv ord β₁ β₂) := by
  intro h
  have hpr : IsProbabilityMeasure (Shared.posterior β₁ β₂) :=
    isProbabilityMeasure_bayes (Shared.C61_local_draw_partial h₁ h₂).1
  have hst := (Shared.shared_runs conv ord β₁ β₂).stationary_of_averages (θ := q) ⟨q1, q2, q3⟩ h
  cases conv
  · exact (Shared.C61_violated ord hp₁ h₁ h₂).2 hst
  · exact Shared.C61_scale_violated ord hp₁ hp₂ h₁ h₂ hst

example : ¬ AveragesConverge {(![1, 1], (![1], 1))} (Shared.posterior ![1, -2] ![3])
    (Shared.sharedStep .scale .globalFirst ![1, -2] ![3]) :=
  C75_shared_violated .scale .globalFirst (by norm_num) (by norm_num)
    (fun j => by fin_cases j <;> norm_num) (fun j => by fin_cases j; norm_num)
    (fun j => by fin_cases j <;> norm_num) (fun j => by fin_cases j; norm_num) (by norm_num)

/-! ### Draws from a conjugate posterior -/

/-- Every call draws from the same law, whatever the value before. -/
def freshDraw (law : Measure ℝ) (_ : ℝ) : Measure ℝ := law

theorem freshDraw_runs (law : Measure ℝ) [IsProbabilityMeasure law] :
    Runs Set.univ (freshDraw law) (freshDraw law) :=
  runs_univ measurable_const fun _ => ‹_›

theorem freshDraw_converges (law : Measure ℝ) [IsProbabilityMeasure law] :
    ConvergesFrom Set.univ law (freshDraw law) := by
  intro θ _ S hS
  refine tendsto_const_nhds.congr' ?_
  filter_upwards [Filter.eventually_ge_atTop 1] with k hk
  obtain ⟨k, rfl⟩ := Nat.exists_eq_add_of_le' hk
  have := prob_calls (freshDraw_runs law).meas (freshDraw_runs law).prob k θ
  have e : (calls (freshDraw law) k θ).bind (freshDraw law) = law :=
    (Measure.bind_const (m := calls (freshDraw law) k θ) (ν := law)).trans (by
      rw [measure_univ, one_smul])
  rw [calls, e]

theorem freshDraw_average (law : Measure ℝ) [IsProbabilityMeasure law] {f : ℝ → ℝ} (hf : Measurable f)
    (h2 : ∫⁻ x, ENNReal.ofReal (f x ^ 2) ∂law ≠ ∞) :
    AverageConverges Set.univ (freshDraw law) f (∫ x, f x ∂law) :=
  (freshDraw_runs law).averageConverges (freshDraw_converges law) hf h2 fun _ _ => le_rfl

theorem lintegral_sq_beta (a b : ℝ) (ha : 0 < a) (hb : 0 < b) :
    ∫⁻ x, ENNReal.ofReal (x ^ 2) ∂betaMeasure a b ≠ ∞ := by
  have := isProbabilityMeasureBeta ha hb
  refine ((lintegral_mono_ae (g := fun _ => 1) ?_).trans_lt ?_).ne
  · filter_upwards [ae_mem_betaMeasure] with x hx
    rw [← ENNReal.ofReal_one]
    exact ENNReal.ofReal_le_ofReal (by nlinarith [hx.1, hx.2])
  · rw [lintegral_one, measure_univ]
    exact ENNReal.one_lt_top

section
open Conj

theorem betaBinomial_prior {rng Y latent post : Expr}
    (h : betaBinomialFinder rng Y = some [(latent, post)]) {ρ : Env} {prior : Measure ℝ}
    (hprior : lawAt ρ latent = some prior) : ∃ a b, prior = betaMeasure a b := by
  unfold betaBinomialFinder finder at h
  cases hp : betaBinomialPosterior rng Y with
  | none => simp [hp] at h
  | some q =>
    obtain ⟨shY, rY', sY', dY', n', shL, rL, size, dtype, alpha, beta, hY', hq⟩ :=
      betaBinomialPosterior_some hp
    rw [hp, hY'] at h
    simp only [Expr.args?, Option.bind_some, List.getLast?, List.getLast_cons_cons,
      List.getLast_singleton, Option.some.injEq, List.cons.injEq, Prod.mk.injEq, and_true] at h
    obtain ⟨rfl, rfl⟩ := h
    obtain ⟨x, z, -, -, -, -, rfl⟩ := lawAt_beta_inv hprior
    exact ⟨x, z, rfl⟩

/-- **C75 (partial).** Draws from the beta-binomial posterior: averages of bounded functions and of the
probability itself converge to posterior expectations. -/
theorem C75_beta_binomial_averages_partial {rng Y latent post : Expr}
    (h : betaBinomialFinder rng Y = some [(latent, post)])
    {sh : SShape} {rY sY dY nE pE : Expr} (hY : Y = .app (.rv .binomial) sh [rY, sY, dY, nE, pE])
    (ρ : Env) {n y : ℕ} (hn : evalE ρ nE = some (n : ℝ)) (hread : ¬ Reads latent nE)
    (hy : ρ Y = y) (hyn : y ≤ n) {prior : Measure ℝ} (hprior : lawAt ρ latent = some prior) :
    ∃ law, lawAt ρ post = some law ∧
      AveragesConverge Set.univ (bayes prior (likAt ρ latent Y y)) (freshDraw law) ∧
      AverageConverges Set.univ (freshDraw law) (fun θ => θ)
        (∫ θ, θ ∂bayes prior (likAt ρ latent Y y)) := by
  obtain ⟨hd, hl⟩ := C12_beta_binomial_exact h hY ρ hn hread hy hyn hprior
  have hpr := isProbabilityMeasure_bayes hd
  refine ⟨_, hl, (freshDraw_runs _).averagesConverge (freshDraw_converges _),
    freshDraw_average _ measurable_id ?_⟩
  have hb : ∀ᵐ x ∂prior, 0 < x ∧ x < 1 := by
    obtain ⟨a, b, rfl⟩ := betaBinomial_prior h hprior
    exact ae_mem_betaMeasure
  refine ((lintegral_mono_ae (g := fun _ => 1) ?_).trans_lt ?_).ne
  · filter_upwards [(bayes_absolutelyContinuous _ _).ae_le hb] with x hx
    rw [← ENNReal.ofReal_one]
    exact ENNReal.ofReal_le_ofReal (by nlinarith [hx.1, hx.2])
  · rw [lintegral_one, measure_univ]
    exact ENNReal.one_lt_top

/-- **C75 (partial).** Draws from the gamma-Poisson step: their average converges to the posterior mean
exactly when the rate of the prior is 1. -/
theorem C75_gamma_poisson_average_iff_partial {rng Y latent post : Expr}
    (h : gammaPoissonFinder rng Y = some [(latent, post)]) (ρ : Env) {y : ℕ} (hy : ρ Y = y)
    {sh : SShape} {r sz d aE bE : Expr} (hL : latent = .app (.rv .gamma) sh [r, sz, d, aE, bE])
    {a b : ℝ} (ha : evalE ρ aE = some a) (hb : evalE ρ bE = some (1 / b)) (ha0 : 0 < a)
    (hb0 : 0 < b) (θ : ℝ) :
    ∃ prior law, lawAt ρ latent = some prior ∧ prior = gammaMeasure a b ∧ lawAt ρ post = some law ∧
      AverageConverges {θ} (freshDraw law) (fun x => x) ((a + y) / (1 / b + 1)) ∧
      ∫ x, x ∂bayes prior (likAt ρ latent Y y) = (a + y) / (b + 1) ∧
      (AverageConverges {θ} (freshDraw law) (fun x => x) (∫ x, x ∂bayes prior (likAt ρ latent Y y)) ↔
        b = 1) := by
  have hs : 0 < 1 / b := by positivity
  obtain ⟨h1, h2, h3, h4⟩ := gamma_poisson_step_law h ρ hy hL ha hb ha0 hs
  have hinv : (1 / b)⁻¹ = b := by simp
  rw [hinv] at h1 h3 h4
  have hay : 0 < a + y := by positivity
  have hr : 0 < 1 / b + 1 := by positivity
  have hpr := isProbabilityMeasure_gammaMeasure hay hr
  have hm : ∫ x, x ∂bayes (gammaMeasure a b) (likAt ρ latent Y y) = (a + y) / (b + 1) := by
    rw [h4, integral_id_gamma hay (by positivity)]
  have hav : AverageConverges {θ} (freshDraw (gammaMeasure (a + y) (1 / b + 1))) (fun x => x)
      ((a + y) / (1 / b + 1)) := by
    rw [← integral_id_gamma hay hr]
    exact (freshDraw_average _ measurable_id (lintegral_sq_gamma hay hr)).mono (Set.subset_univ _)
  refine ⟨_, _, h1, rfl, h2, hav, hm, ?_⟩
  rw [hm]
  constructor
  · intro hc
    have he := (freshDraw_runs _).average_unique (Set.mem_univ θ) measurable_id hav hc
    have hne : b + 1 ≠ 0 := by positivity
    rw [div_eq_div_iff hr.ne' hne] at he
    have he' := mul_left_cancel₀ hay.ne' he
    have h5 : b * b = 1 := by
      field_simp at he'
      linarith
    nlinarith
  · rintro rfl
    simpa using hav

/-- **C75 (partial).** Draws from the beta-negative-binomial step: their average converges to the posterior
mean exactly when the count equals the number of successes. -/
theorem C75_beta_nbinom_average_iff_partial {rng Y latent post : Expr}
    (h : betaNegBinomialFinder rng Y = some [(latent, post)])
    {shY : SShape} {rY sY dY nE pE : Expr} (hY : Y = .app (.rv .nbinom) shY [rY, sY, dY, nE, pE])
    (ρ : Env) {n : ℝ} (hn : evalE ρ nE = some n) (hn0 : 0 < n) (hread : ¬ Reads latent nE)
    {y : ℕ} (hy : ρ Y = y) {prior : Measure ℝ} (hprior : lawAt ρ latent = some prior) (θ : ℝ) :
    ∃ a b law, prior = betaMeasure a b ∧ lawAt ρ post = some law ∧
      AverageConverges {θ} (freshDraw law) (fun x => x) ((a + y) / (a + b + y + n)) ∧
      ∫ x, x ∂bayes prior (likAt ρ latent Y y) = (a + n) / (a + b + y + n) ∧
      (AverageConverges {θ} (freshDraw law) (fun x => x) (∫ x, x ∂bayes prior (likAt ρ latent Y y)) ↔
        (y : ℝ) = n) := by
  obtain ⟨a, b, ha, hb, hp, hd, hl, hpost, -⟩ :=
    C14_beta_nbinom_exact_iff_partial h hY ρ hn hn0 hread hy hprior
  have h1 : 0 < a + y := by positivity
  have h2 : 0 < b + n := by positivity
  have hpr := isProbabilityMeasureBeta h1 h2
  have hm : ∫ x, x ∂bayes prior (likAt ρ latent Y y) = (a + n) / (a + b + y + n) := by
    rw [hpost, integral_id_beta (by positivity) (by positivity)]
    congr 1
    ring
  have hav : AverageConverges {θ} (freshDraw (betaMeasure (a + y) (b + n))) (fun x => x)
      ((a + y) / (a + b + y + n)) := by
    have e : a + b + y + n = a + y + (b + n) := by ring
    rw [e, ← integral_id_beta h1 h2]
    exact (freshDraw_average _ measurable_id (lintegral_sq_beta _ _ h1 h2)).mono (Set.subset_univ _)
  refine ⟨a, b, _, hp, hl, hav, hm, ?_⟩
  rw [hm]
  constructor
  · intro hc
    have he := (freshDraw_runs _).average_unique (Set.mem_univ θ) measurable_id hav hc
    have hne : a + b + y + n ≠ 0 := by positivity
    rw [div_left_inj' hne] at he
    linarith
  · intro he
    rw [← he]
    rw [← he] at hav
    exact hav

/-- Five trials, three successes, prior `Beta(2, 1)`. -/
example : ∃ (ρ : Env) (post : Expr) (law : Measure ℝ),
    betaBinomialFinder (exRng 0) (exBinomial 5 (exBeta 2 1)) = some [(exBeta 2 1, post)] ∧
    lawAt ρ post = some law ∧ AveragesConverge Set.univ
      (bayes (betaMeasure 2 1) (likAt ρ (exBeta 2 1) (exBinomial 5 (exBeta 2 1)) (3 : ℕ)))
      (freshDraw law) := by
  obtain ⟨law, h1, h2, -⟩ := C75_beta_binomial_averages_partial (rng := exRng 0)
    (Y := exBinomial 5 (exBeta 2 1)) (latent := exBeta 2 1) rfl rfl (fun _ => 3) (n := 5) (y := 3)
    (by simp [exNum, evalE]) (by intro h; cases h) (by norm_num) (by norm_num)
    (prior := betaMeasure 2 1) (by simp [exBeta, lawAt, exNum, evalE, rvLaw])
  exact ⟨_, _, law, rfl, h1, h2⟩

/-- **C75 is violated** by draws of a conjugate step.  Prior `Gamma(1, rate 2)` for a Poisson mean and a
count `y`: the average of the draws tends to `(1 + y) / 1.5` while the posterior mean is `(1 + y) / 3`.
Prior `Beta(1, 1)` for the success probability of a count of 0 with 10 required successes: the average
tends to `1 / 12` while the posterior mean is `11 / 12`. -/
theorem C75_conjugate_violated (rng : Expr) (y : ℕ) (θ : ℝ) :
    (∃ post, gammaPoissonFinder rng (exPoisson (exGamma 1 (1 / 2))) = some [(exGamma 1 (1 / 2), post)] ∧
      ∀ ρ : Env, ρ (exPoisson (exGamma 1 (1 / 2))) = y → ∃ law, lawAt ρ post = some law ∧
        lawAt ρ (exGamma 1 (1 / 2)) = some (gammaMeasure 1 2) ∧
        ∫ x, x ∂bayes (gammaMeasure 1 2) (likAt ρ (exGamma 1 (1 / 2)) (exPoisson (exGamma 1 (1 / 2))) y) =
          (1 + y) / 3 ∧
        AverageConverges {θ} (freshDraw law) (fun x => x) ((1 + y) / 1.5) ∧
        ¬ AverageConverges {θ} (freshDraw law) (fun x => x) ((1 + y) / 3)) ∧
    ∃ post, betaNegBinomialFinder rng (exNbinom 10 (exBeta 1 1)) = some [(exBeta 1 1, post)] ∧
      ∀ ρ : Env, ρ (exNbinom 10 (exBeta 1 1)) = (0 : ℕ) → ∃ law, lawAt ρ post = some law ∧
        lawAt ρ (exBeta 1 1) = some (betaMeasure 1 1) ∧
        ∫ x, x ∂bayes (betaMeasure 1 1) (likAt ρ (exBeta 1 1) (exNbinom 10 (exBeta 1 1)) (0 : ℕ)) =
          11 / 12 ∧
        AverageConverges {θ} (freshDraw law) (fun x => x) (1 / 12) ∧
        ¬ AverageConverges {θ} (freshDraw law) (fun x => x) (11 / 12) := by
  constructor
  · refine ⟨_, rfl, fun ρ hy => ?_⟩
    obtain ⟨prior, law, h1, rfl, h3, h4, h5, h6⟩ := C75_gamma_poisson_average_iff_partial (rng := rng)
      (Y := exPoisson (exGamma 1 (1 / 2))) rfl ρ hy (latent := exGamma 1 (1 / 2)) rfl
      (a := 1) (b := 2) (by simp [exNum, evalE]) (by simp [exNum, evalE]) (by norm_num) (by norm_num) θ
    rw [h5] at h6
    norm_num at h4 h5 h6
    exact ⟨law, h3, h1, by norm_num; exact h5, by norm_num; exact h4, h6⟩
  · refine ⟨_, rfl, fun ρ hy => ?_⟩
    have hpr : lawAt ρ (exBeta 1 1) = some (betaMeasure 1 1) := by
      simp [exBeta, lawAt, exNum, evalE, rvLaw]
    obtain ⟨a, b, ha, hb, hab, hbd, h3, h5, -⟩ := C14_beta_nbinom_exact_iff_partial (rng := rng)
      (Y := exNbinom 10 (exBeta 1 1)) (latent := exBeta 1 1) rfl rfl ρ (n := 10)
      (by simp [exNum, evalE]) (by norm_num) (by intro h; cases h) hy hpr
    obtain ⟨rfl, rfl⟩ := betaMeasure_inj one_pos one_pos ha hb hab
    have h1 : (0 : ℝ) < 1 + ((0 : ℕ) : ℝ) := by norm_num
    have h2 : (0 : ℝ) < 1 + 10 := by norm_num
    have hpb := isProbabilityMeasureBeta h1 h2
    have hav := (freshDraw_average _ measurable_id (lintegral_sq_beta _ _ h1 h2)).mono
      (Set.subset_univ {θ})
    simp only [id] at hav
    rw [integral_id_beta h1 h2] at hav
    norm_num at hav
    refine ⟨_, h3, hpr, ?_, ?_, fun hc => ?_⟩
    · rw [h5, integral_id_beta h2 h1]
      norm_num
    · norm_num
      exact hav
    · have := (freshDraw_runs (betaMeasure (1 + ((0 : ℕ) : ℝ)) (1 + 10))).average_unique (Set.mem_univ θ)
        measurable_id (m := 1 / 12) (by norm_num; exact hav) hc
      norm_num at this

end

end Verif
