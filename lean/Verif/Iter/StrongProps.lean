import Verif.Iter.AverageProps
import Verif.Prob.StrongRuns

/-!
# Averages along a single run (C75)

`IsRun K θ P X` says that under `P` the sequence `X` is what a user gets who starts at `θ` and calls the
step `K` over and over on what it returned; `StrongAverages D π K` says that with probability one the
averages of every function with an expectation under `π` converge to it, from every start in `D`
(`Prob/Paths.lean`, `Prob/StrongRuns.lean`).
-/

open MeasureTheory ProbabilityTheory Matrix Filter
open scoped ENNReal Topology

namespace Verif

variable {p n : ℕ}

/-! ### Regressions -/

theorem pgStep_runs {la : LinAlg} (hla : la.Sound) {d : Fin p → ℝ} (hd : ∀ j, 0 < d j)
    (X : Matrix (Fin n) (Fin p) ℝ) {b : Fin n → ℝ} (κ : Fin n → ℝ) (hb : ∀ i, 0 < b i) :
    Runs Set.univ (pgStep la d X b κ) (pgStep la d X b κ) :=
  let ⟨hm, hp, _⟩ := pgStep_minor hla hd X κ hb
  runs_univ hm hp

theorem nbinom_runs {la : LinAlg} (hla : la.Sound) {std : Fin p → ℝ} (hs : ∀ j, 0 < std j)
    (X : Matrix (Fin n) (Fin p) ℝ) {h : Fin n → ℝ} (hh : ∀ i, 0 < h i) (y : Fin n → ℕ) :
    Runs Set.univ (nbinomNormalPosterior la std X h y) (nbinomNormalPosterior la std X h y) := by
  rw [nbinomNormalPosterior_eq]
  exact pgStep_runs hla (fun j => inv_pos.2 (hs j)) X _ fun i => by have := hh i; positivity

theorem bern_runs {la : LinAlg} (hla : la.Sound) {std : Fin p → ℝ} (hs : ∀ j, 0 < std j)
    (X : Matrix (Fin n) (Fin p) ℝ) (y : Fin n → Bool) :
    Runs Set.univ (bernNormalPosterior la std X y) (bernNormalPosterior la std X y) := by
  rw [bernNormalPosterior_eq]
  exact pgStep_runs hla (fun j => inv_pos.2 (hs j)) X _ fun _ => one_pos

/-- **C75 (partial).** Runs of `nbinom_normal_posterior`: with probability one the averages of every
function with an expectation converge to it, the expectation taken under the posterior for prior standard
deviations `sqrt std`. -/
theorem C75_nbinom_strong_partial {la : LinAlg} (hla : la.Sound) {std : Fin p → ℝ} (hs : ∀ j, 0 < std j)
    (X : Matrix (Fin n) (Fin p) ℝ) {h : Fin n → ℝ} (hh : ∀ i, 0 < h i) (y : Fin n → ℕ) :
    StrongAverages Set.univ (bayes (normalPrior fun j => Real.sqrt (std j)) (nbRegLik X h y))
      (nbinomNormalPosterior la std X h y) := by
  have hp := isProbabilityMeasure_bayes
    (bayesDefined_nbRegLik X hh y (normalPrior fun j => Real.sqrt (std j)))
  exact (nbinom_runs hla hs X hh y).strongAverages (C65_nbinom_converges_partial hla hs X hh y).2

/-- Runs exist, so the statement is not vacuous: the sign of the first coefficient. -/
example (X : Matrix (Fin 3) (Fin 2) ℝ) (y : Fin 3 → ℕ) :
    ∃ (Ω : Type) (_ : MeasurableSpace Ω) (P : Measure Ω) (Z : ℕ → Ω → Fin 2 → ℝ),
      IsProbabilityMeasure P ∧ IsRun (nbinomNormalPosterior stdLinAlg (fun _ => 4) X (fun _ => 2) y) ![1, 5] P Z ∧
      ∀ᵐ ω ∂P, Tendsto (fun n : ℕ => (∑ i ∈ Finset.range n, (if 0 < Z i ω 0 then (1 : ℝ) else 0)) / n) atTop
        (𝓝 (∫ β, (if 0 < β 0 then (1 : ℝ) else 0)
          ∂bayes (normalPrior fun _ => Real.sqrt 4) (nbRegLik X (fun _ => 2) y))) := by
  have hs : ∀ _ : Fin 2, (0 : ℝ) < 4 := fun _ => by norm_num
  obtain ⟨Ω, m, P, Z, hP, hr⟩ := (nbinom_runs stdLinAlg_sound hs X (fun _ => two_pos) y).exists_run
    (Set.mem_univ ![1, 5])
  have hp := isProbabilityMeasure_bayes
    (bayesDefined_nbRegLik X (h := fun _ => 2) (fun _ => two_pos) y (normalPrior fun _ => Real.sqrt 4))
  have hm : Measurable fun β : Fin 2 → ℝ => if 0 < β 0 then (1 : ℝ) else 0 :=
    Measurable.ite (measurableSet_lt measurable_const (measurable_pi_apply 0)) measurable_const
      measurable_const
  refine ⟨Ω, m, P, Z, hP, hr, C75_nbinom_strong_partial stdLinAlg_sound hs X (fun _ => two_pos) y _
    (Set.mem_univ _) Ω P Z hP hr _ hm (Integrable.of_bound hm.aestronglyMeasurable 1
      (ae_of_all _ fun β => ?_))⟩
  split_ifs <;> simp

/-- **C75 (partial).** They converge to posterior expectations, from any one start, exactly when every
prior standard deviation is 1. -/
theorem C75_nbinom_strong_iff_partial {la : LinAlg} (hla : la.Sound) {std : Fin p → ℝ}
    (hs : ∀ j, 0 < std j) (X : Matrix (Fin n) (Fin p) ℝ) {h : Fin n → ℝ} (hh : ∀ i, 0 < h i)
    (y : Fin n → ℕ) (β : Fin p → ℝ) :
    StrongAverages {β} (bayes (normalPrior std) (nbRegLik X h y)) (nbinomNormalPosterior la std X h y) ↔
      ∀ j, std j = 1 := by
  have hp := isProbabilityMeasure_bayes (bayesDefined_nbRegLik X hh y (normalPrior std))
  rw [(nbinom_runs hla hs X hh y).strong_iff (Set.mem_univ β) fun h1 =>
    (C65_nbinom_converges_iff_partial hla hs X hh y).2 ((C21_nbinom_step_iff_partial hla hs X hh y).1 h1)]
  exact C21_nbinom_step_iff_partial hla hs X hh y

example (X : Matrix (Fin 3) (Fin 2) ℝ) (y : Fin 3 → ℕ) :
    StrongAverages {![4, -7]} (bayes (normalPrior fun _ => 1) (nbRegLik X (fun i => i + 1) y))
      (nbinomNormalPosterior stdLinAlg (fun _ => 1) X (fun i => i + 1) y) :=
  (C75_nbinom_strong_iff_partial stdLinAlg_sound (fun _ => one_pos) X (fun i => by positivity) y _).2
    fun _ => rfl

/-- **C75 (partial).** Runs of `bern_normal_posterior`, expectations under the posterior for prior standard
deviations `sqrt std` and success probability `sigmoid (X β)`. -/
theorem C75_bern_strong_partial {la : LinAlg} (hla : la.Sound) {std : Fin p → ℝ} (hs : ∀ j, 0 < std j)
    (X : Matrix (Fin n) (Fin p) ℝ) (y : Fin n → Bool) :
    StrongAverages Set.univ (bayes (normalPrior fun j => Real.sqrt (std j)) (bernRegLik sigmoid X y))
      (bernNormalPosterior la std X y) := by
  have hp := isProbabilityMeasure_bayes
    (bayesDefined_bernRegLik X y (normalPrior fun j => Real.sqrt (std j)))
  exact (bern_runs hla hs X y).strongAverages (C65_bern_converges_partial hla hs X y).2

example (X : Matrix (Fin 3) (Fin 1) ℝ) :
    StrongAverages Set.univ (bayes (normalPrior fun _ => Real.sqrt 4) (bernRegLik sigmoid X ![true, false, true]))
      (bernNormalPosterior stdLinAlg (fun _ => 4) X ![true, false, true]) :=
  C75_bern_strong_partial stdLinAlg_sound (fun _ => by norm_num) X _

/-- **C75 (partial).** They converge to expectations under the posterior with success probability
`sigmoid (X β)` exactly when every prior standard deviation is 1, and to expectations under the posterior
of the model the finder matches exactly when moreover `Xᵀ (2 y - 1) = 0`. -/
theorem C75_bern_strong_iff_partial {la : LinAlg} (hla : la.Sound) {std : Fin p → ℝ}
    (hs : ∀ j, 0 < std j) (X : Matrix (Fin n) (Fin p) ℝ) (y : Fin n → Bool) (β : Fin p → ℝ) :
    (StrongAverages {β} (bayes (normalPrior std) (bernRegLik sigmoid X y))
      (bernNormalPosterior la std X y) ↔ ∀ j, std j = 1) ∧
    (StrongAverages {β} (bayes (normalPrior std) (bernRegLik (fun ψ => sigmoid (-ψ)) X y))
      (bernNormalPosterior la std X y) ↔
        (∀ j, std j = 1) ∧ (Xᵀ *ᵥ fun i => 2 * boolVal (y i) - 1) = 0) := by
  have hp := isProbabilityMeasure_bayes (bayesDefined_bernRegLik X y (normalPrior std))
  have hd : BayesDefined (normalPrior std) (bernRegLik (fun ψ => sigmoid (-ψ)) X y) := by
    rw [funext (bernRegLik_neg X y)]
    exact bayesDefined_bernRegLik (-X) y _
  have hp' := isProbabilityMeasure_bayes hd
  constructor
  · rw [(bern_runs hla hs X y).strong_iff (Set.mem_univ β) fun h1 =>
      (C65_bern_converges_iff_partial hla hs X y).2 ((C22_bern_step_iff_partial hla hs X y).1 h1)]
    exact C22_bern_step_iff_partial hla hs X y
  · rw [(bern_runs hla hs X y).strong_iff (Set.mem_univ β) fun h1 =>
      (C65_bern_finder_converges_iff_partial hla hs X y).2
        ((C23_bern_finder_step_iff_partial hla hs X y).1 h1)]
    exact C23_bern_finder_step_iff_partial hla hs X y

/-- One regressor, two outcomes that cancel. -/
example (β : Fin 1 → ℝ) :
    StrongAverages {β} (bayes (normalPrior fun _ => 1)
        (bernRegLik (fun ψ => sigmoid (-ψ)) !![3; 3] ![true, false]))
      (bernNormalPosterior stdLinAlg (fun _ => 1) !![3; 3] ![true, false]) := by
  refine (C75_bern_strong_iff_partial stdLinAlg_sound (fun _ => one_pos) _ _ β).2.2 ⟨fun _ => rfl, ?_⟩
  ext j
  fin_cases j
  simp [Matrix.mulVec, dotProduct, Fin.sum_univ_two, boolVal]
  norm_num

/-- **C75 is violated**: regression coefficients with prior standard deviation 2, whatever the design, the
data and the start. -/
theorem C75_regression_strong_violated {la : LinAlg} (hla : la.Sound) (hp : 0 < p)
    (X : Matrix (Fin n) (Fin p) ℝ) {h : Fin n → ℝ} (hh : ∀ i, 0 < h i) (y : Fin n → ℕ)
    (z : Fin n → Bool) (β : Fin p → ℝ) :
    ¬ StrongAverages {β} (bayes (normalPrior fun _ => 2) (nbRegLik X h y))
      (nbinomNormalPosterior la (fun _ => 2) X h y) ∧
    ¬ StrongAverages {β} (bayes (normalPrior fun _ => 2) (bernRegLik sigmoid X z))
      (bernNormalPosterior la (fun _ => 2) X z) ∧
    ¬ StrongAverages {β} (bayes (normalPrior fun _ => 2) (bernRegLik (fun ψ => sigmoid (-ψ)) X z))
      (bernNormalPosterior la (fun _ => 2) X z) := by
  have hne : ¬ ∀ _j : Fin p, (2 : ℝ) = 1 := fun h => by
    have := h ⟨0, hp⟩
    norm_num at this
  have hb := C75_bern_strong_iff_partial hla (fun _ => two_pos) X z β
  rw [C75_nbinom_strong_iff_partial hla (fun _ => two_pos) X hh y, hb.1, hb.2]
  exact ⟨hne, hne, fun h => hne h.1⟩

example : ¬ StrongAverages {![0]} (bayes (normalPrior fun _ => 2)
      (nbRegLik (1 : Matrix (Fin 1) (Fin 1) ℝ) (fun _ => 1) fun _ => 3))
    (nbinomNormalPosterior stdLinAlg (fun _ => 2) (1 : Matrix (Fin 1) (Fin 1) ℝ) (fun _ => 1)
      fun _ => 3) :=
  (C75_regression_strong_violated stdLinAlg_sound (by norm_num) (1 : Matrix (Fin 1) (Fin 1) ℝ)
    (fun _ => one_pos) (fun _ => 3) (fun _ => true) _).1

/-! ### The dispersion -/

section
open CRT

/-- **C75 (partial).** Runs of `nbinom_dispersion_posterior` from a positive start: expectations under the
posterior for success probabilities `1 - p`; and under the posterior for `p`, from any one positive start,
exactly when `∑ log p = ∑ log (1 - p)`. -/
theorem C75_dispersion_strong_iff_partial {a b : ℝ} (ha : 0 < a) (hb : 0 < b) {p : Fin n → ℝ}
    (hp0 : ∀ i, 0 < p i) (hp1 : ∀ i, p i < 1) (y : Fin n → ℕ) :
    StrongAverages (Set.Ioi 0) (bayes (gammaMeasure a b⁻¹) (nbDispLik (fun i => 1 - p i) y))
      (dispersionPosterior (List.ofFn p) a b (List.ofFn fun i => (y i : ℤ))) ∧
    ∀ h > 0, (StrongAverages {h} (bayes (gammaMeasure a b⁻¹) (nbDispLik p y))
      (dispersionPosterior (List.ofFn p) a b (List.ofFn fun i => (y i : ℤ))) ↔
        ∑ i, Real.log (p i) = ∑ i, Real.log (1 - p i)) := by
  have h0 : ∀ i, 0 < 1 - p i := fun i => by have := hp1 i; linarith
  have h1 : ∀ i, 1 - p i < 1 := fun i => by have := hp0 i; linarith
  have hpr := isProbabilityMeasure_bayes (posterior_defined ha (inv_pos.2 hb) h0 h1 y)
  have hpr' := isProbabilityMeasure_bayes (posterior_defined ha (inv_pos.2 hb) hp0 hp1 y)
  obtain ⟨-, r⟩ := dispersion_runs ha hb hp0 hp1 y
  refine ⟨r.strongAverages (dispersion_converges ha hb hp0 hp1 y).2, fun h hh => ?_⟩
  rw [r.strong_iff (Set.mem_Ioi.2 hh) fun h2 => (C65_dispersion_converges_iff_partial ha hb hp0 hp1 y).2
    ((C32_dispersion_iff_partial ha hb hp0 hp1 y).1 h2)]
  exact C32_dispersion_iff_partial ha hb hp0 hp1 y

example (y : Fin 2 → ℕ) : StrongAverages {5}
    (bayes (gammaMeasure 2 1⁻¹) (nbDispLik ![1 / 4, 3 / 4] y))
    (dispersionPosterior (List.ofFn ![1 / 4, 3 / 4]) 2 1 (List.ofFn fun i => (y i : ℤ))) := by
  refine ((C75_dispersion_strong_iff_partial two_pos one_pos (fun i => ?_) (fun i => ?_) y).2 5
    (by norm_num)).2 ?_
  · fin_cases i <;> norm_num
  · fin_cases i <;> norm_num
  · rw [Fin.sum_univ_two, Fin.sum_univ_two]
    norm_num
    ring

/-- **C75 is violated**: counts with a common success probability below one half, from every positive
start. -/
theorem C75_dispersion_strong_violated {a b : ℝ} (ha : 0 < a) (hb : 0 < b) (hn : 0 < n) {q : ℝ}
    (hq0 : 0 < q) (hq1 : q < 1 / 2) (y : Fin n → ℕ) {h : ℝ} (hh : 0 < h) :
    ¬ StrongAverages {h} (bayes (gammaMeasure a b⁻¹) (nbDispLik (fun _ => q) y))
      (dispersionPosterior (List.ofFn fun _ : Fin n => q) a b (List.ofFn fun i => (y i : ℤ))) := by
  rw [(C75_dispersion_strong_iff_partial ha hb (fun _ => hq0) (fun _ => by linarith) y).2 h hh,
    ← C75_dispersion_averages_iff_partial ha hb (fun _ => hq0) (fun _ => by linarith) y hh]
  exact C75_dispersion_violated ha hb hn hq0 hq1 y hh

example : ¬ StrongAverages {1} (bayes (gammaMeasure 2 1⁻¹) (nbDispLik (fun _ : Fin 2 => 1 / 4) ![3, 0]))
    (dispersionPosterior (List.ofFn fun _ : Fin 2 => 1 / 4) 2 1
      (List.ofFn fun i : Fin 2 => ((![3, 0] : Fin 2 → ℕ) i : ℤ))) :=
  C75_dispersion_strong_violated two_pos one_pos (by norm_num) (by norm_num) (by norm_num) _ one_pos

end

/-! ### Horseshoe steps and samplers of several unknowns -/

/-- **C75 (partial).** Runs of the horseshoe step, rate reading, from every positive start: every function
of the shrinkage parameters that has a posterior expectation. -/
theorem C75_horseshoe_strong_partial {β : Fin p → ℝ} (hβ : ∀ j, β j ≠ 0) :
    StrongAverages {s | (∀ j, 0 < s.1 j) ∧ 0 < s.2} (Horseshoe.posterior β 1)
      (Horseshoe.horseshoeStep .rate β) := by
  have hpr : IsProbabilityMeasure (Horseshoe.posterior β 1) :=
    isProbabilityMeasure_bayes (Horseshoe.C28_rate_step_invariant_partial hβ).1
  exact (horseshoe_runs .rate β).strongAverages (C65_horseshoe_converges_partial hβ)

example : StrongAverages {s | (∀ j, 0 < s.1 j) ∧ 0 < s.2} (Horseshoe.posterior ![2, -1] 1)
    (Horseshoe.horseshoeStep .rate ![2, -1]) :=
  C75_horseshoe_strong_partial fun j => by fin_cases j <;> norm_num

/-- **C75 is violated**: horseshoe step in the reading the library uses, from every positive start. -/
theorem C75_horseshoe_scale_strong_violated (hp : 0 < p) {β : Fin p → ℝ} (hβ : ∀ j, β j ≠ 0)
    {s : (Fin p → ℝ) × ℝ} (h1 : ∀ j, 0 < s.1 j) (h2 : 0 < s.2) :
    ¬ StrongAverages {s} (Horseshoe.posterior β 1) (Horseshoe.horseshoeStep .scale β) := by
  have hv := Horseshoe.C28_step_violated hp hβ
  have hpr : IsProbabilityMeasure (Horseshoe.posterior β 1) := isProbabilityMeasure_bayes hv.1
  exact fun h => hv.2 ((horseshoe_runs .scale β).stationary_of_strong ⟨h1, h2⟩ h)

example : ¬ StrongAverages {(![1, 3], 2)} (Horseshoe.posterior ![2, -1] 1)
    (Horseshoe.horseshoeStep .scale ![2, -1]) :=
  C75_horseshoe_scale_strong_violated (by norm_num) (fun j => by fin_cases j <;> norm_num)
    (fun j => by fin_cases j <;> norm_num) (by norm_num)

/-- **C75 (partial).** Negative-binomial regression with normal coefficients and a gamma dispersion: from
any one start with a positive dispersion the averages along runs converge to expectations under the joint
posterior exactly when every prior standard deviation is 1 and every column of the design sums to 0. -/
theorem C75_nbinom_joint_strong_iff_partial {la : LinAlg} (hla : la.Sound) {std : Fin p → ℝ}
    (hs : ∀ j, 0 < std j) {a b : ℝ} (ha : 0 < a) (hb : 0 < b) (X : Matrix (Fin n) (Fin p) ℝ)
    (y : Fin n → ℕ) {q : (Fin p → ℝ) × ℝ} (hq : 0 < q.2) :
    StrongAverages {q} (bayes (NbReg.nbPrior std a b) (NbReg.nbJointLik X y))
      (NbReg.sweep la std X a b y) ↔ (∀ j, std j = 1) ∧ ∀ j, ∑ i, X i j = 0 := by
  have hpr := isProbabilityMeasure_bayes (NbReg.C59_posterior_exists std ha hb X y)
  rw [(NbReg.sweep_runs hla hs ha hb X y).strong_iff hq fun h1 q hq =>
      (C65_nbinom_joint_converges_iff_partial hla hs ha hb X y hq).2
        ((NbReg.C59_sweep_iff_partial hla hs ha hb X y).1 h1) q rfl]
  exact NbReg.C59_sweep_iff_partial hla hs ha hb X y

example (y : Fin 2 → ℕ) : StrongAverages {(![5], 3)}
    (bayes (NbReg.nbPrior (fun _ => 1) 2 1) (NbReg.nbJointLik !![1; -1] y))
    (NbReg.sweep stdLinAlg (fun _ => 1) !![1; -1] 2 1 y) :=
  (C75_nbinom_joint_strong_iff_partial stdLinAlg_sound (fun _ => one_pos) two_pos one_pos _ y
    (by norm_num)).2 ⟨fun _ => rfl, fun j => by fin_cases j; simp⟩

/-- **C75 is violated** along runs: a design with an intercept. -/
theorem C75_nbinom_intercept_strong_violated {la : LinAlg} (hla : la.Sound) {std : Fin p → ℝ}
    (hs : ∀ j, 0 < std j) {a b : ℝ} (ha : 0 < a) (hb : 0 < b) (hn : 0 < n)
    {X : Matrix (Fin n) (Fin p) ℝ} {j : Fin p} (hX : ∀ i, X i j = 1) (y : Fin n → ℕ)
    {q : (Fin p → ℝ) × ℝ} (hq : 0 < q.2) :
    ¬ StrongAverages {q} (bayes (NbReg.nbPrior std a b) (NbReg.nbJointLik X y))
      (NbReg.sweep la std X a b y) := by
  rw [C75_nbinom_joint_strong_iff_partial hla hs ha hb X y hq,
    ← C65_nbinom_joint_converges_iff_partial hla hs ha hb X y hq]
  exact C65_nbinom_intercept_violated hla hs ha hb hn hX y hq

example (y : Fin 3 → ℕ) : ¬ StrongAverages {(![0, 0], 1)}
    (bayes (NbReg.nbPrior (fun _ => 1) 2 1) (NbReg.nbJointLik !![1, 4; 1, 5; 1, 6] y))
    (NbReg.sweep stdLinAlg (fun _ => 1) !![1, 4; 1, 5; 1, 6] 2 1 y) :=
  C75_nbinom_intercept_strong_violated stdLinAlg_sound (fun _ => one_pos) two_pos one_pos (by norm_num)
    (j := 0) (fun i => by fin_cases i <;> rfl) y one_pos

/-- **C75 is violated** along runs: regressions with a horseshoe prior, whatever the data, from every start
with positive shrinkage parameters. -/
theorem C75_horseshoe_regression_strong_violated (conv : Horseshoe.ExpArg) (rd : HsReg.Reads) {la : LinAlg}
    (hla : la.Sound) (hp : 0 < p) (X : Matrix (Fin n) (Fin p) ℝ) {h : Fin n → ℝ} (hh : ∀ i, 0 < h i)
    (y : Fin n → ℕ) (z : Fin n → Bool) {q : (Fin p → ℝ) × ((Fin p → ℝ) × ℝ)} (h1 : ∀ j, 0 < q.2.1 j)
    (h2 : 0 < q.2.2) :
    ¬ StrongAverages {q} (HsReg.hsPosterior (nbRegLik X h y)) (HsReg.nbSweep conv rd la X h y) ∧
    ¬ StrongAverages {q} (HsReg.hsPosterior (bernRegLik (fun ψ => sigmoid (-ψ)) X z))
      (HsReg.bernSweep conv rd la X z) := by
  have hv := HsReg.C60_sweep_violated conv rd hla hp X hh y z
  have hd := HsReg.C60_posterior_exists X hh y z
  have hp1 : IsProbabilityMeasure (HsReg.hsPosterior (nbRegLik X h y)) := isProbabilityMeasure_bayes hd.1
  have hp2 : IsProbabilityMeasure (HsReg.hsPosterior (bernRegLik (fun ψ => sigmoid (-ψ)) X z)) :=
    isProbabilityMeasure_bayes hd.2
  exact ⟨fun hc => hv.1 ((HsReg.sweep_runs hla (HsReg.nbForm X hh y).some conv rd).stationary_of_strong
      (θ := q) ⟨h1, h2⟩ hc),
    fun hc => hv.2 ((HsReg.sweep_runs hla (HsReg.bernForm X z).some conv rd).stationary_of_strong
      (θ := q) ⟨h1, h2⟩ hc)⟩

example : ¬ StrongAverages {(![0, 1], (![1, 2], 3))}
    (HsReg.hsPosterior (nbRegLik !![1, 0; 2, 1] (fun _ => 2) ![0, 4]))
    (HsReg.nbSweep .scale ⟨false, false⟩ stdLinAlg !![1, 0; 2, 1] (fun _ => 2) ![0, 4]) :=
  (C75_horseshoe_regression_strong_violated .scale _ stdLinAlg_sound (by norm_num) _ (fun _ => two_pos) _
    (fun _ => true) (fun j => by fin_cases j <;> norm_num) (by norm_num)).1

/-- **C75 is violated** along runs: two groups of coefficients that share their global parameter. -/
theorem C75_shared_strong_violated {p₁ p₂ : ℕ} (conv : Horseshoe.ExpArg) (ord : Shared.Order)
    (hp₁ : 0 < p₁) (hp₂ : 0 < p₂) {β₁ : Fin p₁ → ℝ} {β₂ : Fin p₂ → ℝ} (h₁ : ∀ j, β₁ j ≠ 0)
    (h₂ : ∀ j, β₂ j ≠ 0) {q : (Fin p₁ → ℝ) × ((Fin p₂ → ℝ) × ℝ)} (q1 : ∀ j, 0 < q.1 j)
    (q2 : ∀ j, 0 < q.2.1 j) (q3 : 0 < q.2.2) :
    ¬ StrongAverages {q} (Shared.posterior β₁ β₂) (Shared.sharedStep conv ord β₁ β₂) := by
  intro h
  have hpr : IsProbabilityMeasure (Shared.posterior β₁ β₂) :=
    isProbabilityMeasure_bayes (Shared.C61_local_draw_partial h₁ h₂).1
  have hst := (Shared.shared_runs conv ord β₁ β₂).stationary_of_strong (θ := q) ⟨q1, q2, q3⟩ h
  cases conv
  · exact (Shared.C61_violated ord hp₁ h₁ h₂).2 hst
  · exact Shared.C61_scale_violated ord hp₁ hp₂ h₁ h₂ hst

example : ¬ StrongAverages {(![1, 1], (![1], 1))} (Shared.posterior ![1, -2] ![3])
    (Shared.sharedStep .scale .globalFirst ![1, -2] ![3]) :=
  C75_shared_strong_violated .scale .globalFirst (by norm_num) (by norm_num)
    (fun j => by fin_cases j <;> norm_num) (fun j => by fin_cases j; norm_num)
    (fun j => by fin_cases j <;> norm_num) (fun j => by fin_cases j; norm_num) (by norm_num)

/-! ### Draws from a conjugate posterior -/

section
open Conj

theorem freshDraw_strong (law : Measure ℝ) [IsProbabilityMeasure law] :
    StrongAverages Set.univ law (freshDraw law) :=
  (freshDraw_runs law).strongAverages (freshDraw_converges law)

theorem freshDraw_strong_iff (law π : Measure ℝ) [IsProbabilityMeasure law] [IsProbabilityMeasure π] (θ : ℝ) :
    StrongAverages {θ} π (freshDraw law) ↔ law = π := by
  constructor
  · intro h
    have h1 := ((freshDraw_runs law).stationary_of_strong (Set.mem_univ θ) h).2
    have e : π.bind (freshDraw law) = law :=
      (Measure.bind_const (m := π) (ν := law)).trans (by rw [measure_univ, one_smul])
    exact e.symm.trans h1
  · rintro rfl
    exact (freshDraw_strong law).mono (Set.subset_univ _)

/-- **C75 (partial).** Repeated draws of the conjugate steps: averages of every function with a posterior
expectation converge to it with probability one for a beta-binomial model. -/
theorem C75_beta_binomial_strong_partial {rng Y latent post : Expr}
    (h : betaBinomialFinder rng Y = some [(latent, post)])
    {sh : SShape} {rY sY dY nE pE : Expr} (hY : Y = .app (.rv .binomial) sh [rY, sY, dY, nE, pE])
    (ρ : Env) {n y : ℕ} (hn : evalE ρ nE = some (n : ℝ)) (hread : ¬ Reads latent nE)
    (hy : ρ Y = y) (hyn : y ≤ n) {prior : Measure ℝ} (hprior : lawAt ρ latent = some prior) :
    ∃ law, lawAt ρ post = some law ∧
      StrongAverages Set.univ (bayes prior (likAt ρ latent Y y)) (freshDraw law) := by
  obtain ⟨hd, hl⟩ := C12_beta_binomial_exact h hY ρ hn hread hy hyn hprior
  have hpr := isProbabilityMeasure_bayes hd
  exact ⟨_, hl, freshDraw_strong _⟩

/-- Five trials, three successes, prior `Beta(2, 1)`. -/
example : ∃ (ρ : Env) (post : Expr) (law : Measure ℝ),
    betaBinomialFinder (exRng 0) (exBinomial 5 (exBeta 2 1)) = some [(exBeta 2 1, post)] ∧
    lawAt ρ post = some law ∧ StrongAverages Set.univ
      (bayes (betaMeasure 2 1) (likAt ρ (exBeta 2 1) (exBinomial 5 (exBeta 2 1)) (3 : ℕ)))
      (freshDraw law) := by
  obtain ⟨law, h1, h2⟩ := C75_beta_binomial_strong_partial (rng := exRng 0)
    (Y := exBinomial 5 (exBeta 2 1)) (latent := exBeta 2 1) rfl rfl (fun _ => 3) (n := 5) (y := 3)
    (by simp [exNum, evalE]) (by intro h; cases h) (by norm_num) (by norm_num)
    (prior := betaMeasure 2 1) (by simp [exBeta, lawAt, exNum, evalE, rvLaw])
  exact ⟨_, _, law, rfl, h1, h2⟩

/-- **C75 (partial).** Gamma-Poisson step: averages along runs converge to posterior expectations, from any
one start, exactly when the rate of the prior is 1. -/
theorem C75_gamma_poisson_strong_iff_partial {rng Y latent post : Expr}
    (h : gammaPoissonFinder rng Y = some [(latent, post)]) (ρ : Env) {y : ℕ} (hy : ρ Y = y)
    {sh : SShape} {r sz d aE bE : Expr} (hL : latent = .app (.rv .gamma) sh [r, sz, d, aE, bE])
    {a b : ℝ} (ha : evalE ρ aE = some a) (hb : evalE ρ bE = some (1 / b)) (ha0 : 0 < a)
    (hb0 : 0 < b) (θ : ℝ) :
    ∃ prior law, lawAt ρ latent = some prior ∧ prior = gammaMeasure a b ∧ lawAt ρ post = some law ∧
      (StrongAverages {θ} (bayes prior (likAt ρ latent Y y)) (freshDraw law) ↔ b = 1) := by
  have hs : 0 < 1 / b := by positivity
  obtain ⟨-, h2, -⟩ := gamma_poisson_step_law h ρ hy hL ha hb ha0 hs
  obtain ⟨prior, h3, h4, h5, h6⟩ := C13_gamma_poisson_exact_iff_partial h ρ hy hL ha hb ha0 hb0
  have := isProbabilityMeasure_gammaMeasure (a := a + y) (r := 1 / b + 1) (by positivity) (by positivity)
  have := isProbabilityMeasure_bayes h5
  refine ⟨prior, _, h3, h4, h2, ?_⟩
  rw [freshDraw_strong_iff, ← h6, h2, Option.some.injEq]

/-- Prior `Gamma(1, rate 2)`: never; `Gamma(3, rate 1)`: always. -/
example (θ : ℝ) : ∃ (ρ : Env) (post post' : Expr) (law law' : Measure ℝ),
    gammaPoissonFinder (exRng 0) (exPoisson (exGamma 1 (1 / 2))) = some [(exGamma 1 (1 / 2), post)] ∧
    lawAt ρ post = some law ∧
    ¬ StrongAverages {θ} (bayes (gammaMeasure 1 2)
      (likAt ρ (exGamma 1 (1 / 2)) (exPoisson (exGamma 1 (1 / 2))) (7 : ℕ))) (freshDraw law) ∧
    gammaPoissonFinder (exRng 0) (exPoisson (exGamma 3 1)) = some [(exGamma 3 1, post')] ∧
    lawAt ρ post' = some law' ∧
    StrongAverages {θ} (bayes (gammaMeasure 3 1)
      (likAt ρ (exGamma 3 1) (exPoisson (exGamma 3 1)) (7 : ℕ))) (freshDraw law') := by
  obtain ⟨-, law, -, rfl, h3, h4⟩ := C75_gamma_poisson_strong_iff_partial (rng := exRng 0)
    (Y := exPoisson (exGamma 1 (1 / 2))) rfl (fun _ => 7) (y := 7) (by norm_num)
    (latent := exGamma 1 (1 / 2)) rfl (a := 1) (b := 2) (by simp [exNum, evalE])
    (by simp [exNum, evalE]) (by norm_num) (by norm_num) θ
  obtain ⟨-, law', -, rfl, h7, h8⟩ := C75_gamma_poisson_strong_iff_partial (rng := exRng 0)
    (Y := exPoisson (exGamma 3 1)) rfl (fun _ => 7) (y := 7) (by norm_num)
    (latent := exGamma 3 1) rfl (a := 3) (b := 1) (by simp [exNum, evalE])
    (by simp [exNum, evalE]) (by norm_num) (by norm_num) θ
  exact ⟨_, _, _, law, law', rfl, h3, fun hc => by have := h4.1 hc; norm_num at this, rfl, h7, h8.2 rfl⟩

/-- **C75 (partial).** Beta-negative-binomial step: averages along runs converge to posterior expectations,
from any one start, exactly when the count equals the number of successes. -/
theorem C75_beta_nbinom_strong_iff_partial {rng Y latent post : Expr}
    (h : betaNegBinomialFinder rng Y = some [(latent, post)])
    {shY : SShape} {rY sY dY nE pE : Expr} (hY : Y = .app (.rv .nbinom) shY [rY, sY, dY, nE, pE])
    (ρ : Env) {n : ℝ} (hn : evalE ρ nE = some n) (hn0 : 0 < n) (hread : ¬ Reads latent nE)
    {y : ℕ} (hy : ρ Y = y) {prior : Measure ℝ} (hprior : lawAt ρ latent = some prior) (θ : ℝ) :
    ∃ law, lawAt ρ post = some law ∧
      (StrongAverages {θ} (bayes prior (likAt ρ latent Y y)) (freshDraw law) ↔ (y : ℝ) = n) := by
  obtain ⟨a, b, ha, hb, hp, hd, hl, -, h6⟩ :=
    C14_beta_nbinom_exact_iff_partial h hY ρ hn hn0 hread hy hprior
  have := isProbabilityMeasureBeta (α := a + y) (β := b + n) (by positivity) (by positivity)
  have := isProbabilityMeasure_bayes hd
  refine ⟨_, hl, ?_⟩
  rw [freshDraw_strong_iff, ← h6, hl, Option.some.injEq]

/-- Ten required successes and a count of 0. -/
example (θ : ℝ) : ∃ (ρ : Env) (post : Expr) (law : Measure ℝ),
    betaNegBinomialFinder (exRng 0) (exNbinom 10 (exBeta 1 1)) = some [(exBeta 1 1, post)] ∧
    lawAt ρ post = some law ∧
    ¬ StrongAverages {θ} (bayes (betaMeasure 1 1)
      (likAt ρ (exBeta 1 1) (exNbinom 10 (exBeta 1 1)) (0 : ℕ))) (freshDraw law) := by
  obtain ⟨law, h1, h2⟩ := C75_beta_nbinom_strong_iff_partial (rng := exRng 0)
    (Y := exNbinom 10 (exBeta 1 1)) (latent := exBeta 1 1) rfl rfl (fun _ => 0) (n := 10) (y := 0)
    (by simp [exNum, evalE]) (by norm_num) (by intro h; cases h) (by norm_num)
    (prior := betaMeasure 1 1) (by simp [exBeta, lawAt, exNum, evalE, rvLaw]) θ
  exact ⟨_, _, law, rfl, h1, fun hc => by have := h2.1 hc; norm_num at this⟩

end

end Verif
