import Verif.Iter.ErrorProps
import Verif.Prob.LagRuns
import Verif.Rev.Props
import Verif.Conj.OrderProps
import Verif.Calib.Props

/-!
# C96: thinned runs, statistics of pairs of draws, estimated autocovariances
-/

open MeasureTheory ProbabilityTheory Matrix Filter
open scoped ENNReal Topology

namespace Verif

variable {p n : ℕ}

/-! ### Regressions -/

/-- **C96 (partial).** Runs of `nbinom_normal_posterior` from every start: statistics of pairs of draws converge along
the whole run and along thinned ones, estimated autocovariances converge, and their limits begin with a posterior
variance, are nonnegative, decrease and do so ever more slowly; the posterior is that for prior standard deviations
`sqrt std`. -/
theorem C96_nbinom_partial {la : LinAlg} (hla : la.Sound) {std : Fin p → ℝ} (hs : ∀ j, 0 < std j)
    (X : Matrix (Fin n) (Fin p) ℝ) {h : Fin n → ℝ} (hh : ∀ i, 0 < h i) (y : Fin n → ℕ) :
    LagAverages Set.univ (bayes (normalPrior fun j => Real.sqrt (std j)) (nbRegLik X h y))
      (nbinomNormalPosterior la std X h y) ∧
    AutocovConverges Set.univ (bayes (normalPrior fun j => Real.sqrt (std j)) (nbRegLik X h y))
      (nbinomNormalPosterior la std X h y) ∧
    FadingCovariances (bayes (normalPrior fun j => Real.sqrt (std j)) (nbRegLik X h y))
      (nbinomNormalPosterior la std X h y) := by
  have hp := isProbabilityMeasure_bayes
    (bayesDefined_nbRegLik X hh y (normalPrior fun j => Real.sqrt (std j)))
  have r := nbinom_runs hla hs X hh y
  have hc := (C65_nbinom_converges_partial hla hs X hh y).2
  exact ⟨r.lagAverages hc, r.autocovConverges hc, ((C79_nbinom_successive_draws hla hs X hh y).2 _ hp
    ((C21_nbinom_step_target_partial hla hs X hh y _).2 rfl)).2⟩

/-- A run from a given start: how often a coefficient changes sign within two calls; and the estimated autocovariances of
its sign at distances 3 and 4, of which the limits are nonnegative and in this order. -/
example (X : Matrix (Fin 3) (Fin 2) ℝ) (y : Fin 3 → ℕ) :
    ∃ (v c₃ c₄ : ℝ) (Ω : Type) (_ : MeasurableSpace Ω) (P : Measure Ω) (Z : ℕ → Ω → Fin 2 → ℝ),
      IsProbabilityMeasure P ∧ IsRun (nbinomNormalPosterior stdLinAlg (fun _ => 4) X (fun _ => 2) y) ![1, 5] P Z ∧
      (∀ᵐ ω ∂P, Tendsto (fun N : ℕ => (∑ i ∈ Finset.range N,
        (if Z (100 + 5 * i) ω 0 * Z (100 + 5 * i + 2) ω 0 < 0 then (1 : ℝ) else 0)) / N) atTop (𝓝 v)) ∧
      (∀ᵐ ω ∂P, Tendsto (sampleAutocov (fun i => if 0 < Z i ω 0 then 1 else 0) 3) atTop (𝓝 c₃)) ∧
      (∀ᵐ ω ∂P, Tendsto (sampleAutocov (fun i => if 0 < Z i ω 0 then 1 else 0) 4) atTop (𝓝 c₄)) ∧
      0 ≤ c₄ ∧ c₄ ≤ c₃ := by
  have hs : ∀ _ : Fin 2, (0 : ℝ) < 4 := fun _ => by norm_num
  obtain ⟨h1, h2, h3⟩ := C96_nbinom_partial stdLinAlg_sound hs X (fun _ => two_pos) y
  have r := nbinom_runs stdLinAlg_sound hs X (fun _ => two_pos) y
  have hpr := isProbabilityMeasure_bayes
    (bayesDefined_nbRegLik X (h := fun _ => 2) (fun _ => two_pos) y (normalPrior fun _ => Real.sqrt 4))
  have hst := ((C21_nbinom_step_target_partial stdLinAlg_sound hs X (fun _ => two_pos) y _).2 rfl).2
  generalize bayes (normalPrior fun _ : Fin 2 => Real.sqrt 4) (nbRegLik X (fun _ => 2) y) = π at *
  generalize nbinomNormalPosterior stdLinAlg (fun _ => 4) X (fun _ => 2) y = K at *
  obtain ⟨Ω, m, P, Z, hP, hr⟩ := r.exists_run (Set.mem_univ ![1, 5])
  have hpl : IsProbabilityMeasure (atLag π K 2) := by
    have h4 := (atLag_marginals r.meas r.prob hst 2).1
    have : IsProbabilityMeasure ((atLag π K 2).map Prod.fst) := by rwa [h4]
    exact Measure.isProbabilityMeasure_of_map Prod.fst
  have hg : Measurable fun q : (Fin 2 → ℝ) × (Fin 2 → ℝ) => if q.1 0 * q.2 0 < 0 then (1 : ℝ) else 0 :=
    Measurable.ite (measurableSet_lt (by fun_prop) measurable_const) measurable_const measurable_const
  have hf : Measurable fun β : Fin 2 → ℝ => if 0 < β 0 then (1 : ℝ) else 0 :=
    Measurable.ite (measurableSet_lt measurable_const (measurable_pi_apply 0)) measurable_const measurable_const
  have hf2 : MemLp (fun β : Fin 2 → ℝ => if 0 < β 0 then (1 : ℝ) else 0) 2 π :=
    MemLp.of_bound hf.aestronglyMeasurable 1 (ae_of_all _ fun β => by split_ifs <;> norm_num)
  obtain ⟨-, h5, h6, -⟩ := h3 _ hf2
  have h7 := h1 _ (Set.mem_univ _) Ω P Z hP hr 100 5 2 (by norm_num) _ hg
    (Integrable.of_bound hg.aestronglyMeasurable 1 (ae_of_all _ fun q => by split_ifs <;> norm_num))
  have h8 := h2 _ (Set.mem_univ _) Ω P Z hP hr _ hf hf2
  exact ⟨_, _, _, Ω, m, P, Z, hP, hr, h7, h8 3, h8 4, h5 4, h6 (by norm_num)⟩

/-- **C96 (partial).** However a run from one start is thinned, its averages converge to posterior expectations exactly
when every prior standard deviation is 1. -/
theorem C96_nbinom_iff_partial {la : LinAlg} (hla : la.Sound) {std : Fin p → ℝ} (hs : ∀ j, 0 < std j)
    (X : Matrix (Fin n) (Fin p) ℝ) {h : Fin n → ℝ} (hh : ∀ i, 0 < h i) (y : Fin n → ℕ) (β : Fin p → ℝ)
    (m : ℕ) {k : ℕ} (hk : 0 < k) :
    ThinnedAverages m k {β} (bayes (normalPrior std) (nbRegLik X h y)) (nbinomNormalPosterior la std X h y) ↔
      ∀ j, std j = 1 := by
  have hp := isProbabilityMeasure_bayes
    (bayesDefined_nbRegLik X hh y (normalPrior fun j => Real.sqrt (std j)))
  have hp' := isProbabilityMeasure_bayes (bayesDefined_nbRegLik X hh y (normalPrior std))
  rw [(nbinom_runs hla hs X hh y).thinned_iff (Set.mem_univ β) (C65_nbinom_converges_partial hla hs X hh y).2 m hk,
    ← C21_nbinom_step_target_partial hla hs X hh y, C21_nbinom_step_iff_partial hla hs X hh y]

/-- Every tenth draw after the first thousand: right with prior standard deviation 1, wrong with 4. -/
example (X : Matrix (Fin 3) (Fin 2) ℝ) (y : Fin 3 → ℕ) :
    ThinnedAverages 1000 10 {![4, -7]} (bayes (normalPrior fun _ => 1) (nbRegLik X (fun i => i + 1) y))
      (nbinomNormalPosterior stdLinAlg (fun _ => 1) X (fun i => i + 1) y) ∧
    ¬ ThinnedAverages 1000 10 {![4, -7]} (bayes (normalPrior fun _ => 4) (nbRegLik X (fun i => i + 1) y))
      (nbinomNormalPosterior stdLinAlg (fun _ => 4) X (fun i => i + 1) y) := by
  refine ⟨(C96_nbinom_iff_partial stdLinAlg_sound (fun _ => one_pos) X (fun i => by positivity) y _ _
    (by norm_num)).2 fun _ => rfl, ?_⟩
  rw [C96_nbinom_iff_partial stdLinAlg_sound (fun _ => by norm_num) X (fun i => by positivity) y _ _ (by norm_num)]
  intro h
  have := h 0
  norm_num at this

/-- **C96 (partial).** The same for `bern_normal_posterior`, with success probability `sigmoid (X β)`. -/
theorem C96_bern_partial {la : LinAlg} (hla : la.Sound) {std : Fin p → ℝ} (hs : ∀ j, 0 < std j)
    (X : Matrix (Fin n) (Fin p) ℝ) (y : Fin n → Bool) :
    LagAverages Set.univ (bayes (normalPrior fun j => Real.sqrt (std j)) (bernRegLik sigmoid X y))
      (bernNormalPosterior la std X y) ∧
    AutocovConverges Set.univ (bayes (normalPrior fun j => Real.sqrt (std j)) (bernRegLik sigmoid X y))
      (bernNormalPosterior la std X y) ∧
    FadingCovariances (bayes (normalPrior fun j => Real.sqrt (std j)) (bernRegLik sigmoid X y))
      (bernNormalPosterior la std X y) := by
  have hp := isProbabilityMeasure_bayes
    (bayesDefined_bernRegLik X y (normalPrior fun j => Real.sqrt (std j)))
  have r := bern_runs hla hs X y
  have hc := (C65_bern_converges_partial hla hs X y).2
  exact ⟨r.lagAverages hc, r.autocovConverges hc, ((C79_bern_successive_draws hla hs X y).2 _ hp
    ((C22_bern_step_target_partial hla hs X y _).2 rfl)).2⟩

/-- Every third draw: the averages converge. -/
example (X : Matrix (Fin 3) (Fin 1) ℝ) : ThinnedAverages 7 3 Set.univ
    (bayes (normalPrior fun _ => Real.sqrt 4) (bernRegLik sigmoid X ![true, false, true]))
    (bernNormalPosterior stdLinAlg (fun _ => 4) X ![true, false, true]) :=
  (C96_bern_partial stdLinAlg_sound (fun _ => by norm_num) X _).1.thinned 7 (by norm_num)

/-- **C96 (partial).** Thinned averages: right for the documented model exactly when every prior standard deviation is
1, and for the model the finder matches exactly when moreover `Xᵀ (2 y - 1) = 0`. -/
theorem C96_bern_iff_partial {la : LinAlg} (hla : la.Sound) {std : Fin p → ℝ} (hs : ∀ j, 0 < std j)
    (X : Matrix (Fin n) (Fin p) ℝ) (y : Fin n → Bool) (β : Fin p → ℝ) (m : ℕ) {k : ℕ} (hk : 0 < k) :
    (ThinnedAverages m k {β} (bayes (normalPrior std) (bernRegLik sigmoid X y))
      (bernNormalPosterior la std X y) ↔ ∀ j, std j = 1) ∧
    (ThinnedAverages m k {β} (bayes (normalPrior std) (bernRegLik (fun ψ => sigmoid (-ψ)) X y))
      (bernNormalPosterior la std X y) ↔
        (∀ j, std j = 1) ∧ (Xᵀ *ᵥ fun i => 2 * boolVal (y i) - 1) = 0) := by
  have hpt := isProbabilityMeasure_bayes
    (bayesDefined_bernRegLik X y (normalPrior fun j => Real.sqrt (std j)))
  have hp := isProbabilityMeasure_bayes (bayesDefined_bernRegLik X y (normalPrior std))
  have hd : BayesDefined (normalPrior std) (bernRegLik (fun ψ => sigmoid (-ψ)) X y) := by
    rw [funext (bernRegLik_neg X y)]
    exact bayesDefined_bernRegLik (-X) y _
  have hp' := isProbabilityMeasure_bayes hd
  have r := bern_runs hla hs X y
  have hc := (C65_bern_converges_partial hla hs X y).2
  rw [r.thinned_iff (Set.mem_univ β) hc m hk, r.thinned_iff (Set.mem_univ β) hc m hk,
    ← C22_bern_step_target_partial hla hs X y, ← C22_bern_step_target_partial hla hs X y]
  exact ⟨C22_bern_step_iff_partial hla hs X y, C23_bern_finder_step_iff_partial hla hs X y⟩

/-- One regressor, two outcomes that cancel, every second draw. -/
example (β : Fin 1 → ℝ) :
    ThinnedAverages 0 2 {β} (bayes (normalPrior fun _ => 1)
        (bernRegLik (fun ψ => sigmoid (-ψ)) !![3; 3] ![true, false]))
      (bernNormalPosterior stdLinAlg (fun _ => 1) !![3; 3] ![true, false]) := by
  refine (C96_bern_iff_partial stdLinAlg_sound (fun _ => one_pos) _ _ β 0 two_pos).2.2 ⟨fun _ => rfl, ?_⟩
  ext j
  fin_cases j
  simp [Matrix.mulVec, dotProduct, boolVal]
  norm_num

/-- **C96 is violated**: regression coefficients with prior standard deviation 2, whatever the design, the data, the
start and the thinning. -/
theorem C96_regression_violated {la : LinAlg} (hla : la.Sound) (hp : 0 < p)
    (X : Matrix (Fin n) (Fin p) ℝ) {h : Fin n → ℝ} (hh : ∀ i, 0 < h i) (y : Fin n → ℕ)
    (z : Fin n → Bool) (β : Fin p → ℝ) (m : ℕ) {k : ℕ} (hk : 0 < k) :
    ¬ ThinnedAverages m k {β} (bayes (normalPrior fun _ => 2) (nbRegLik X h y))
      (nbinomNormalPosterior la (fun _ => 2) X h y) ∧
    ¬ ThinnedAverages m k {β} (bayes (normalPrior fun _ => 2) (bernRegLik sigmoid X z))
      (bernNormalPosterior la (fun _ => 2) X z) ∧
    ¬ ThinnedAverages m k {β} (bayes (normalPrior fun _ => 2) (bernRegLik (fun ψ => sigmoid (-ψ)) X z))
      (bernNormalPosterior la (fun _ => 2) X z) := by
  have h2 : ∀ _ : Fin p, (0 : ℝ) < 2 := fun _ => two_pos
  have h0 : ¬ ∀ _ : Fin p, (2 : ℝ) = 1 := fun h => by
    have := h ⟨0, hp⟩
    norm_num at this
  rw [C96_nbinom_iff_partial hla h2 X hh y β m hk, (C96_bern_iff_partial hla h2 X z β m hk).1,
    (C96_bern_iff_partial hla h2 X z β m hk).2]
  exact ⟨h0, h0, fun h => h0 h.1⟩

example : ¬ ThinnedAverages 50 2 {![0]} (bayes (normalPrior fun _ => 2)
      (nbRegLik (1 : Matrix (Fin 1) (Fin 1) ℝ) (fun _ => 1) fun _ => 3))
    (nbinomNormalPosterior stdLinAlg (fun _ => 2) (1 : Matrix (Fin 1) (Fin 1) ℝ) (fun _ => 1)
      fun _ => 3) :=
  (C96_regression_violated stdLinAlg_sound (by norm_num) (1 : Matrix (Fin 1) (Fin 1) ℝ)
    (fun _ => one_pos) (fun _ => 3) (fun _ => true) _ 50 two_pos).1

/-! ### The dispersion -/

section
open CRT

/-- **C96 (partial).** Runs of `nbinom_dispersion_posterior` from positive starts, with the posterior for success
probabilities `1 - p`. -/
theorem C96_dispersion_partial {a b : ℝ} (ha : 0 < a) (hb : 0 < b) {p : Fin n → ℝ}
    (hp0 : ∀ i, 0 < p i) (hp1 : ∀ i, p i < 1) (y : Fin n → ℕ) :
    LagAverages (Set.Ioi 0) (bayes (gammaMeasure a b⁻¹) (nbDispLik (fun i => 1 - p i) y))
      (dispersionPosterior (List.ofFn p) a b (List.ofFn fun i => (y i : ℤ))) ∧
    AutocovConverges (Set.Ioi 0) (bayes (gammaMeasure a b⁻¹) (nbDispLik (fun i => 1 - p i) y))
      (dispersionPosterior (List.ofFn p) a b (List.ofFn fun i => (y i : ℤ))) ∧
    FadingCovariances (bayes (gammaMeasure a b⁻¹) (nbDispLik (fun i => 1 - p i) y))
      (dispersionPosterior (List.ofFn p) a b (List.ofFn fun i => (y i : ℤ))) := by
  have h0 : ∀ i, 0 < 1 - p i := fun i => by have := hp1 i; linarith
  have h1 : ∀ i, 1 - p i < 1 := fun i => by have := hp0 i; linarith
  have hpr := isProbabilityMeasure_bayes (posterior_defined ha (inv_pos.2 hb) h0 h1 y)
  obtain ⟨-, r⟩ := dispersion_runs ha hb hp0 hp1 y
  have hc := (dispersion_converges ha hb hp0 hp1 y).2
  refine ⟨r.lagAverages hc, r.autocovConverges hc, ((C79_dispersion_successive_draws ha hb hp0 hp1 y).2 _ hpr
    ((bayes_absolutelyContinuous _ _).ae_le ae_pos_gammaMeasure)
    (r.stationary (Set.mem_Ioi.2 one_pos) fun x hx => hc x ?_)).2⟩
  rw [Set.mem_singleton_iff.1 hx]
  exact Set.mem_Ioi.2 one_pos

/-- Pairs of neighbouring draws among every fourth draw. -/
example (y : Fin 2 → ℕ) :
    AutocovConverges (Set.Ioi 0) (bayes (gammaMeasure 2 1⁻¹) (nbDispLik (fun i => 1 - (![1 / 4, 1 / 3] : Fin 2 → ℝ) i) y))
      (dispersionPosterior (List.ofFn ![1 / 4, 1 / 3]) 2 1 (List.ofFn fun i => (y i : ℤ))) :=
  (C96_dispersion_partial two_pos one_pos (fun i => by fin_cases i <;> norm_num)
    (fun i => by fin_cases i <;> norm_num) y).2.1

/-- **C96 (partial).** Thinned averages from one positive start: right for success probabilities `p` exactly when
`∑ log p = ∑ log (1 - p)`. -/
theorem C96_dispersion_iff_partial {a b : ℝ} (ha : 0 < a) (hb : 0 < b) {p : Fin n → ℝ}
    (hp0 : ∀ i, 0 < p i) (hp1 : ∀ i, p i < 1) (y : Fin n → ℕ) {h : ℝ} (hh : 0 < h) (m : ℕ) {k : ℕ} (hk : 0 < k) :
    ThinnedAverages m k {h} (bayes (gammaMeasure a b⁻¹) (nbDispLik p y))
      (dispersionPosterior (List.ofFn p) a b (List.ofFn fun i => (y i : ℤ))) ↔
      ∑ i, Real.log (p i) = ∑ i, Real.log (1 - p i) := by
  have h0 : ∀ i, 0 < 1 - p i := fun i => by have := hp1 i; linarith
  have h1 : ∀ i, 1 - p i < 1 := fun i => by have := hp0 i; linarith
  have hpr := isProbabilityMeasure_bayes (posterior_defined ha (inv_pos.2 hb) h0 h1 y)
  have hpr' := isProbabilityMeasure_bayes (posterior_defined ha (inv_pos.2 hb) hp0 hp1 y)
  have r := (dispersion_runs ha hb hp0 hp1 y).2
  have hc := (dispersion_converges ha hb hp0 hp1 y).2
  rw [r.thinned_iff (Set.mem_Ioi.2 hh) hc m hk]
  constructor
  · intro e
    rw [← (C75_dispersion_strong_iff_partial ha hb hp0 hp1 y).2 h hh, e]
    exact (C75_dispersion_strong_iff_partial ha hb hp0 hp1 y).1.mono (Set.singleton_subset_iff.2 hh)
  · intro h2
    rw [posterior_eq hp0 hp1, h2, ← posterior_eq h0 h1]

/-- **C96 is violated**: counts with a common success probability below one half. -/
theorem C96_dispersion_violated {a b : ℝ} (ha : 0 < a) (hb : 0 < b) (hn : 0 < n) {q : ℝ} (hq0 : 0 < q)
    (hq1 : q < 1 / 2) (y : Fin n → ℕ) {h : ℝ} (hh : 0 < h) (m : ℕ) {k : ℕ} (hk : 0 < k) :
    ¬ ThinnedAverages m k {h} (bayes (gammaMeasure a b⁻¹) (nbDispLik (fun _ => q) y))
      (dispersionPosterior (List.ofFn fun _ : Fin n => q) a b (List.ofFn fun i => (y i : ℤ))) := by
  rw [C96_dispersion_iff_partial ha hb (fun _ => hq0) (fun _ => by linarith) y hh m hk,
    ← (C75_dispersion_strong_iff_partial ha hb (fun _ => hq0) (fun _ => by linarith) y).2 h hh]
  exact C75_dispersion_strong_violated ha hb hn hq0 hq1 y hh

/-- Success probabilities 1/4 and 3/4: right; 1/4 and 1/4: wrong. -/
example (y : Fin 2 → ℕ) :
    ThinnedAverages 3 4 {5} (bayes (gammaMeasure 2 1⁻¹) (nbDispLik ![1 / 4, 3 / 4] y))
      (dispersionPosterior (List.ofFn ![1 / 4, 3 / 4]) 2 1 (List.ofFn fun i => (y i : ℤ))) ∧
    ¬ ThinnedAverages 3 4 {5} (bayes (gammaMeasure 2 1⁻¹) (nbDispLik (fun _ => 1 / 4) y))
      (dispersionPosterior (List.ofFn fun _ : Fin 2 => 1 / 4) 2 1 (List.ofFn fun i => (y i : ℤ))) := by
  refine ⟨(C96_dispersion_iff_partial two_pos one_pos (fun i => ?_) (fun i => ?_) y (by norm_num) 3
    (by norm_num)).2 ?_, C96_dispersion_violated two_pos one_pos (by norm_num) (by norm_num) (by norm_num) y
      (by norm_num) 3 (by norm_num)⟩
  · fin_cases i <;> norm_num
  · fin_cases i <;> norm_num
  · rw [Fin.sum_univ_two, Fin.sum_univ_two]
    norm_num
    ring

end

/-! ### Horseshoe steps and samplers of several unknowns -/

/-- **C96 (partial).** Horseshoe step, rate reading, from positive starts. -/
theorem C96_horseshoe_partial {β : Fin p → ℝ} (hβ : ∀ j, β j ≠ 0) :
    LagAverages {s | (∀ j, 0 < s.1 j) ∧ 0 < s.2} (Horseshoe.posterior β 1) (Horseshoe.horseshoeStep .rate β) ∧
    AutocovConverges {s | (∀ j, 0 < s.1 j) ∧ 0 < s.2} (Horseshoe.posterior β 1)
      (Horseshoe.horseshoeStep .rate β) := by
  have hpr : IsProbabilityMeasure (Horseshoe.posterior β 1) :=
    isProbabilityMeasure_bayes (Horseshoe.C28_rate_step_invariant_partial hβ).1
  have hc := C65_horseshoe_converges_partial hβ
  exact ⟨(horseshoe_runs .rate β).lagAverages hc, (horseshoe_runs .rate β).autocovConverges hc⟩

example : ThinnedAverages 10 2 {s | (∀ j, 0 < s.1 j) ∧ 0 < s.2} (Horseshoe.posterior ![2, -1] 1)
    (Horseshoe.horseshoeStep .rate ![2, -1]) :=
  (C96_horseshoe_partial (fun j => by fin_cases j <;> norm_num)).1.thinned 10 two_pos

/-- **C96 is violated**: horseshoe step in the reading the library uses, from every positive start. -/
theorem C96_horseshoe_scale_violated (hp : 0 < p) {β : Fin p → ℝ} (hβ : ∀ j, β j ≠ 0)
    {s : (Fin p → ℝ) × ℝ} (h1 : ∀ j, 0 < s.1 j) (h2 : 0 < s.2) :
    ¬ ∀ m k, 0 < k → ThinnedAverages m k {s} (Horseshoe.posterior β 1) (Horseshoe.horseshoeStep .scale β) :=
  fun h => C75_horseshoe_scale_strong_violated hp hβ h1 h2 (h 0 1 one_pos).strong

example : ¬ ∀ m k, 0 < k → ThinnedAverages m k {(![1, 3], 2)} (Horseshoe.posterior ![2, -1] 1)
    (Horseshoe.horseshoeStep .scale ![2, -1]) :=
  C96_horseshoe_scale_violated (by norm_num) (fun j => by fin_cases j <;> norm_num)
    (fun j => by fin_cases j <;> norm_num) (by norm_num)

/-- **C96 (partial).** Negative-binomial regression with normal coefficients and a gamma dispersion, from any one start
with a positive dispersion: statistics of pairs of draws, thinned or not, converge to what they are for the joint
posterior exactly when every prior standard deviation is 1 and every column of the design sums to 0; then estimated
autocovariances converge too. -/
theorem C96_nbinom_joint_iff_partial {la : LinAlg} (hla : la.Sound) {std : Fin p → ℝ}
    (hs : ∀ j, 0 < std j) {a b : ℝ} (ha : 0 < a) (hb : 0 < b) (X : Matrix (Fin n) (Fin p) ℝ)
    (y : Fin n → ℕ) {q : (Fin p → ℝ) × ℝ} (hq : 0 < q.2) :
    (LagAverages {q} (bayes (NbReg.nbPrior std a b) (NbReg.nbJointLik X y)) (NbReg.sweep la std X a b y) ↔
      (∀ j, std j = 1) ∧ ∀ j, ∑ i, X i j = 0) ∧
    ((∀ j, std j = 1) → (∀ j, ∑ i, X i j = 0) →
      AutocovConverges {q | 0 < q.2} (bayes (NbReg.nbPrior std a b) (NbReg.nbJointLik X y))
        (NbReg.sweep la std X a b y)) := by
  have hpr := isProbabilityMeasure_bayes (NbReg.C59_posterior_exists std ha hb X y)
  have r := NbReg.sweep_runs hla hs ha hb X y
  have hc : (∀ j, std j = 1) → (∀ j, ∑ i, X i j = 0) →
      ConvergesFrom {q | 0 < q.2} (bayes (NbReg.nbPrior std a b) (NbReg.nbJointLik X y))
        (NbReg.sweep la std X a b y) := fun h1 h2 x hx =>
    (C65_nbinom_joint_converges_iff_partial hla hs ha hb X y hx).2 ⟨h1, h2⟩ x rfl
  refine ⟨⟨fun h => ?_, fun h θ hθ => ?_⟩, fun h1 h2 => r.autocovConverges (hc h1 h2)⟩
  · exact (C75_nbinom_joint_strong_iff_partial hla hs ha hb X y hq).1 (h.thinned 0 one_pos).strong
  · rw [Set.mem_singleton_iff.1 hθ]
    exact r.lagAverages (hc h.1 h.2) q hq

example (y : Fin 2 → ℕ) : LagAverages {(![5], 3)}
    (bayes (NbReg.nbPrior (fun _ => 1) 2 1) (NbReg.nbJointLik !![1; -1] y))
    (NbReg.sweep stdLinAlg (fun _ => 1) !![1; -1] 2 1 y) :=
  (C96_nbinom_joint_iff_partial stdLinAlg_sound (fun _ => one_pos) two_pos one_pos _ y
    (by norm_num)).1.2 ⟨fun _ => rfl, fun j => by fin_cases j; simp⟩

/-! ### Conjugate steps -/

section
open Conj

theorem freshDraw_calls (law : Measure ℝ) [IsProbabilityMeasure law] (l : ℕ) (θ : ℝ) :
    calls (freshDraw law) (l + 1) θ = law := by
  have := prob_calls (freshDraw_runs law).meas (freshDraw_runs law).prob l θ
  exact (Measure.bind_const (m := calls (freshDraw law) l θ) (ν := law)).trans (by rw [measure_univ, one_smul])

theorem freshDraw_autocov {law : Measure ℝ} [IsProbabilityMeasure law] {f : ℝ → ℝ} (hf : MemLp f 2 law) {l : ℕ}
    (hl : 0 < l) : autocov law (freshDraw law) f l = 0 := by
  obtain ⟨l, rfl⟩ := Nat.exists_eq_add_of_le' hl
  have e : atLag law (freshDraw law) (l + 1) = law.prod law := by
    have r := freshDraw_runs law
    refine Measure.ext fun S hS => ?_
    rw [atLag, Measure.bind_apply hS (measurable_lagKernel r.meas r.prob (l + 1)).aemeasurable,
      Measure.prod_apply hS]
    refine lintegral_congr fun θ => ?_
    rw [freshDraw_calls, Measure.map_apply measurable_prodMk_left hS]
  have h1 : MemLp (fun q : ℝ × ℝ => f q.1) 2 (law.prod law) := hf.comp_measurePreserving measurePreserving_fst
  have h2 : MemLp (fun q : ℝ × ℝ => f q.2) 2 (law.prod law) := hf.comp_measurePreserving measurePreserving_snd
  rw [autocov, e, covariance_eq_sub h1 h2]
  have e3 : ∫ q : ℝ × ℝ, ((fun q : ℝ × ℝ => f q.1) * fun q : ℝ × ℝ => f q.2) q ∂law.prod law = (∫ x, f x ∂law) * ∫ x, f x ∂law :=
    integral_prod_mul f f
  have e4 : ∫ q, f q.1 ∂law.prod law = ∫ x, f x ∂law := by rw [integral_fun_fst]; simp
  have e5 : ∫ q, f q.2 ∂law.prod law = ∫ x, f x ∂law := by rw [integral_fun_snd]; simp
  rw [e3, e4, e5, sub_self]

/-- Spec.  Draws that look independent: thinned averages are right, and at every positive distance the estimated
autocovariances converge to 0. -/
def LooksIndependent (π : Measure ℝ) (K : ℝ → Measure ℝ) : Prop :=
  (∀ m k, 0 < k → ThinnedAverages m k Set.univ π K) ∧
  ∀ (θ : ℝ) (Ω : Type) [MeasurableSpace Ω] (P : Measure Ω) (X : ℕ → Ω → ℝ), IsProbabilityMeasure P →
    IsRun K θ P X → ∀ f : ℝ → ℝ, Measurable f → MemLp f 2 π → ∀ l, 0 < l →
      ∀ᵐ ω ∂P, Tendsto (sampleAutocov (fun i => f (X i ω)) l) atTop (𝓝 0)

theorem freshDraw_looksIndependent_iff (law π : Measure ℝ) [IsProbabilityMeasure law] [IsProbabilityMeasure π] :
    LooksIndependent π (freshDraw law) ↔ law = π := by
  have r := freshDraw_runs law
  have hc := freshDraw_converges law
  constructor
  · intro h
    exact ((r.thinned_iff (Set.mem_univ 0) hc 0 one_pos).1 ((h.1 0 1 one_pos).mono (Set.subset_univ _))).symm
  · rintro rfl
    refine ⟨fun m k hk => (r.lagAverages hc).thinned m hk, fun θ Ω _ P X hP hr f hf hf2 l hl => ?_⟩
    have := r.autocovConverges hc θ (Set.mem_univ θ) Ω P X hP hr f hf hf2 l
    rwa [freshDraw_autocov hf2 hl] at this

/-- **C96, beta-binomial.** Draws from the beta-binomial step look like independent draws from the posterior. -/
theorem C96_beta_binomial {rng Y latent post : Expr}
    (h : betaBinomialFinder rng Y = some [(latent, post)])
    {sh : SShape} {rY sY dY nE pE : Expr} (hY : Y = .app (.rv .binomial) sh [rY, sY, dY, nE, pE])
    (ρ : Env) {n y : ℕ} (hn : evalE ρ nE = some (n : ℝ)) (hread : ¬ Reads latent nE)
    (hy : ρ Y = y) (hyn : y ≤ n) {prior : Measure ℝ} (hprior : lawAt ρ latent = some prior) :
    ∃ law, lawAt ρ post = some law ∧ LooksIndependent (bayes prior (likAt ρ latent Y y)) (freshDraw law) := by
  obtain ⟨hd, hl⟩ := C12_beta_binomial_exact h hY ρ hn hread hy hyn hprior
  have hpr := isProbabilityMeasure_bayes hd
  exact ⟨_, hl, (freshDraw_looksIndependent_iff _ _).2 rfl⟩

/-- Five trials, three successes, prior `Beta(2, 1)`. -/
example : ∃ (ρ : Env) (post : Expr) (law : Measure ℝ),
    betaBinomialFinder (exRng 0) (exBinomial 5 (exBeta 2 1)) = some [(exBeta 2 1, post)] ∧
    lawAt ρ post = some law ∧ LooksIndependent
      (bayes (betaMeasure 2 1) (likAt ρ (exBeta 2 1) (exBinomial 5 (exBeta 2 1)) (3 : ℕ))) (freshDraw law) := by
  obtain ⟨law, h1, h2⟩ := C96_beta_binomial (rng := exRng 0)
    (Y := exBinomial 5 (exBeta 2 1)) (latent := exBeta 2 1) rfl rfl (fun _ => 3) (n := 5) (y := 3)
    (by simp [exNum, evalE]) (by intro h; cases h) (by norm_num) (by norm_num)
    (prior := betaMeasure 2 1) (by simp [exBeta, lawAt, exNum, evalE, rvLaw])
  exact ⟨_, _, law, rfl, h1, h2⟩

/-- **C96 (partial).** Gamma-Poisson step: exactly when the rate of the prior is 1. -/
theorem C96_gamma_poisson_iff_partial {rng Y latent post : Expr}
    (h : gammaPoissonFinder rng Y = some [(latent, post)]) (ρ : Env) {y : ℕ} (hy : ρ Y = y)
    {sh : SShape} {r sz d aE bE : Expr} (hL : latent = .app (.rv .gamma) sh [r, sz, d, aE, bE])
    {a b : ℝ} (ha : evalE ρ aE = some a) (hb : evalE ρ bE = some (1 / b)) (ha0 : 0 < a) (hb0 : 0 < b) :
    ∃ prior law, lawAt ρ latent = some prior ∧ prior = gammaMeasure a b ∧ lawAt ρ post = some law ∧
      (LooksIndependent (bayes prior (likAt ρ latent Y y)) (freshDraw law) ↔ b = 1) := by
  have hs : 0 < 1 / b := by positivity
  obtain ⟨-, h2, -⟩ := gamma_poisson_step_law h ρ hy hL ha hb ha0 hs
  obtain ⟨prior, h3, h4, h5, h6⟩ := C13_gamma_poisson_exact_iff_partial h ρ hy hL ha hb ha0 hb0
  have := isProbabilityMeasure_gammaMeasure (a := a + y) (r := 1 / b + 1) (by positivity) (by positivity)
  have := isProbabilityMeasure_bayes h5
  refine ⟨prior, _, h3, h4, h2, ?_⟩
  rw [freshDraw_looksIndependent_iff, ← h6, h2, Option.some.injEq]

/-- Prior `Gamma(1, rate 2)`: not. -/
example : ∃ (ρ : Env) (post : Expr) (law : Measure ℝ),
    gammaPoissonFinder (exRng 0) (exPoisson (exGamma 1 (1 / 2))) = some [(exGamma 1 (1 / 2), post)] ∧
    lawAt ρ post = some law ∧
    ¬ LooksIndependent (bayes (gammaMeasure 1 2)
      (likAt ρ (exGamma 1 (1 / 2)) (exPoisson (exGamma 1 (1 / 2))) (7 : ℕ))) (freshDraw law) := by
  obtain ⟨-, law, -, rfl, h3, h4⟩ := C96_gamma_poisson_iff_partial (rng := exRng 0)
    (Y := exPoisson (exGamma 1 (1 / 2))) rfl (fun _ => 7) (y := 7) (by norm_num)
    (latent := exGamma 1 (1 / 2)) rfl (a := 1) (b := 2) (by simp [exNum, evalE])
    (by simp [exNum, evalE]) (by norm_num) (by norm_num)
  exact ⟨_, _, law, rfl, h3, fun hc => by have := h4.1 hc; norm_num at this⟩

/-- **C96 (partial).** Beta-negative-binomial step: exactly when the count equals the number of successes. -/
theorem C96_beta_nbinom_iff_partial {rng Y latent post : Expr}
    (h : betaNegBinomialFinder rng Y = some [(latent, post)])
    {shY : SShape} {rY sY dY nE pE : Expr} (hY : Y = .app (.rv .nbinom) shY [rY, sY, dY, nE, pE])
    (ρ : Env) {n : ℝ} (hn : evalE ρ nE = some n) (hn0 : 0 < n) (hread : ¬ Reads latent nE)
    {y : ℕ} (hy : ρ Y = y) {prior : Measure ℝ} (hprior : lawAt ρ latent = some prior) :
    ∃ law, lawAt ρ post = some law ∧
      (LooksIndependent (bayes prior (likAt ρ latent Y y)) (freshDraw law) ↔ (y : ℝ) = n) := by
  obtain ⟨a, b, ha, hb, hp, hd, hl, -, h6⟩ :=
    C14_beta_nbinom_exact_iff_partial h hY ρ hn hn0 hread hy hprior
  have := isProbabilityMeasureBeta (α := a + y) (β := b + n) (by positivity) (by positivity)
  have := isProbabilityMeasure_bayes hd
  refine ⟨_, hl, ?_⟩
  rw [freshDraw_looksIndependent_iff, ← h6, hl, Option.some.injEq]

/-- Ten required successes and a count of 0. -/
example : ∃ (ρ : Env) (post : Expr) (law : Measure ℝ),
    betaNegBinomialFinder (exRng 0) (exNbinom 10 (exBeta 1 1)) = some [(exBeta 1 1, post)] ∧
    lawAt ρ post = some law ∧
    ¬ LooksIndependent (bayes (betaMeasure 1 1)
      (likAt ρ (exBeta 1 1) (exNbinom 10 (exBeta 1 1)) (0 : ℕ))) (freshDraw law) := by
  obtain ⟨law, h1, h2⟩ := C96_beta_nbinom_iff_partial (rng := exRng 0)
    (Y := exNbinom 10 (exBeta 1 1)) (latent := exBeta 1 1) rfl rfl (fun _ => 0) (n := 10) (y := 0)
    (by simp [exNum, evalE]) (by norm_num) (by intro h; cases h) (by norm_num)
    (prior := betaMeasure 1 1) (by simp [exBeta, lawAt, exNum, evalE, rvLaw])
  exact ⟨_, _, law, rfl, h1, fun hc => by have := h2.1 hc; norm_num at this⟩

end

end Verif
