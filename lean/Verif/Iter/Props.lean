import Verif.PG.Minor
import Verif.PG.Props
import Verif.CRT.Minor
import Verif.CRT.Props

/-!
# What repeated calls of a Gibbs step converge to (C65)

`calls K k θ` is the law of the value after `k` calls started at `θ`; `ConvergesFrom D π K` says that
from every start in `D` the probability of every event tends to its probability under `π`, and
`ConvergesGeom D π K` that the error after `k` calls is at most `ρ ^ k` with one `ρ < 1` for all starts
and events (`Prob/Doeblin.lean`).
-/

open MeasureTheory ProbabilityTheory Matrix
open scoped ENNReal

namespace Verif

variable {p n : ℕ}

/-- **C65 (partial).** Repeated calls of `nbinom_normal_posterior` converge at a geometric rate, from
every start, to the posterior under prior standard deviations `sqrt std`. -/
theorem C65_nbinom_converges_partial {la : LinAlg} (hla : la.Sound) {std : Fin p → ℝ}
    (hs : ∀ j, 0 < std j) (X : Matrix (Fin n) (Fin p) ℝ) {h : Fin n → ℝ} (hh : ∀ i, 0 < h i)
    (y : Fin n → ℕ) :
    ConvergesGeom Set.univ (bayes (normalPrior fun j => Real.sqrt (std j)) (nbRegLik X h y))
      (nbinomNormalPosterior la std X h y) ∧
    ConvergesFrom Set.univ (bayes (normalPrior fun j => Real.sqrt (std j)) (nbRegLik X h y))
      (nbinomNormalPosterior la std X h y) := by
  obtain ⟨c, hc, hl⟩ := nbRegLik_eq X hh y
  have h1 := pgStep_converges hla (fun j => inv_pos.2 (hs j)) X
    (b := fun i => (y i : ℝ) + h i) (fun i => by have := hh i; positivity) (nb_kappa_le hh y)
  rw [nbinomNormalPosterior_eq, normalPrior_sqrt hs, funext hl]
  simp only [ENNReal.ofReal_mul hc.le]
  rw [bayes_const_mul _ (measurable_pgLik X _ _) (c := ENNReal.ofReal c) (by simpa using hc)
      ENNReal.ofReal_ne_top]
  exact h1

example (X : Matrix (Fin 3) (Fin 2) ℝ) (y : Fin 3 → ℕ) :
    ConvergesFrom Set.univ (bayes (normalPrior fun j => Real.sqrt (![4, 9] j)) (nbRegLik X (fun _ => 2) y))
      (nbinomNormalPosterior stdLinAlg ![4, 9] X (fun _ => 2) y) :=
  (C65_nbinom_converges_partial stdLinAlg_sound (fun j => by fin_cases j <;> norm_num) X
    (fun _ => two_pos) y).2

/-- **C65 (partial).** They converge to the posterior of the model exactly when every prior standard
deviation is 1. -/
theorem C65_nbinom_converges_iff_partial {la : LinAlg} (hla : la.Sound) {std : Fin p → ℝ}
    (hs : ∀ j, 0 < std j) (X : Matrix (Fin n) (Fin p) ℝ) {h : Fin n → ℝ} (hh : ∀ i, 0 < h i)
    (y : Fin n → ℕ) :
    ConvergesFrom Set.univ (bayes (normalPrior std) (nbRegLik X h y))
      (nbinomNormalPosterior la std X h y) ↔ ∀ j, std j = 1 := by
  have hp := isProbabilityMeasure_bayes (bayesDefined_nbRegLik X hh y (normalPrior std))
  have hc := (C65_nbinom_converges_partial hla hs X hh y).2
  rw [← C21_nbinom_step_iff_partial hla hs X hh y, C21_nbinom_step_target_partial hla hs X hh y]
  exact ⟨fun h => h.unique Set.univ_nonempty hc, fun h => h ▸ hc⟩

/-- **C65 (partial).** Repeated calls of `bern_normal_posterior` converge at a geometric rate, from every
start, to the posterior under prior standard deviations `sqrt std` with success probability
`sigmoid (X β)`. -/
theorem C65_bern_converges_partial {la : LinAlg} (hla : la.Sound) {std : Fin p → ℝ}
    (hs : ∀ j, 0 < std j) (X : Matrix (Fin n) (Fin p) ℝ) (y : Fin n → Bool) :
    ConvergesGeom Set.univ (bayes (normalPrior fun j => Real.sqrt (std j)) (bernRegLik sigmoid X y))
      (bernNormalPosterior la std X y) ∧
    ConvergesFrom Set.univ (bayes (normalPrior fun j => Real.sqrt (std j)) (bernRegLik sigmoid X y))
      (bernNormalPosterior la std X y) := by
  have hc : (0 : ℝ) < ∏ _i : Fin n, (2 : ℝ)⁻¹ := by positivity
  have h1 := pgStep_converges hla (fun j => inv_pos.2 (hs j)) X (fun _ => one_pos)
    (fun i => bern_kappa_le (y i))
  rw [bernNormalPosterior_eq, normalPrior_sqrt hs, funext (bernRegLik_eq X y)]
  simp only [ENNReal.ofReal_mul hc.le]
  rw [bayes_const_mul _ (measurable_pgLik X _ _) (c := ENNReal.ofReal (∏ _i : Fin n, (2 : ℝ)⁻¹))
      (by simp) ENNReal.ofReal_ne_top]
  exact h1

example (X : Matrix (Fin 3) (Fin 2) ℝ) :
    ConvergesGeom Set.univ (bayes (normalPrior fun j => Real.sqrt (![4, 9] j))
        (bernRegLik sigmoid X ![true, false, true]))
      (bernNormalPosterior stdLinAlg ![4, 9] X ![true, false, true]) :=
  (C65_bern_converges_partial stdLinAlg_sound (fun j => by fin_cases j <;> norm_num) X _).1

/-- **C65 (partial).** They converge to the posterior with success probability `sigmoid (X β)` exactly
when every prior standard deviation is 1. -/
theorem C65_bern_converges_iff_partial {la : LinAlg} (hla : la.Sound) {std : Fin p → ℝ}
    (hs : ∀ j, 0 < std j) (X : Matrix (Fin n) (Fin p) ℝ) (y : Fin n → Bool) :
    ConvergesFrom Set.univ (bayes (normalPrior std) (bernRegLik sigmoid X y))
      (bernNormalPosterior la std X y) ↔ ∀ j, std j = 1 := by
  have hp := isProbabilityMeasure_bayes (bayesDefined_bernRegLik X y (normalPrior std))
  have hc := (C65_bern_converges_partial hla hs X y).2
  rw [← C22_bern_step_iff_partial hla hs X y, C22_bern_step_target_partial hla hs X y]
  exact ⟨fun h => h.unique Set.univ_nonempty hc, fun h => h ▸ hc⟩

example (X : Matrix (Fin 3) (Fin 2) ℝ) :
    ConvergesFrom Set.univ (bayes (normalPrior fun _ => 1) (bernRegLik sigmoid X ![true, false, true]))
      (bernNormalPosterior stdLinAlg (fun _ => 1) X ![true, false, true]) ∧
    ¬ ConvergesFrom Set.univ (bayes (normalPrior ![1, 2]) (bernRegLik sigmoid X ![true, false, true]))
      (bernNormalPosterior stdLinAlg ![1, 2] X ![true, false, true]) := by
  refine ⟨(C65_bern_converges_iff_partial stdLinAlg_sound (fun _ => one_pos) X _).2 fun _ => rfl,
    fun h => ?_⟩
  have : (2 : ℝ) = 1 :=
    (C65_bern_converges_iff_partial stdLinAlg_sound (fun j => by fin_cases j <;> norm_num) X _).1 h 1
  norm_num at this

/-- **C65 (partial).** The step the Bernoulli finder builds converges to the posterior of the model the
finder matches exactly when moreover `Xᵀ (2 y - 1) = 0`. -/
theorem C65_bern_finder_converges_iff_partial {la : LinAlg} (hla : la.Sound) {std : Fin p → ℝ}
    (hs : ∀ j, 0 < std j) (X : Matrix (Fin n) (Fin p) ℝ) (y : Fin n → Bool) :
    ConvergesFrom Set.univ (bayes (normalPrior std) (bernRegLik (fun ψ => sigmoid (-ψ)) X y))
      (bernNormalPosterior la std X y) ↔
        (∀ j, std j = 1) ∧ (Xᵀ *ᵥ fun i => 2 * boolVal (y i) - 1) = 0 := by
  have hd : BayesDefined (normalPrior std) (bernRegLik (fun ψ => sigmoid (-ψ)) X y) := by
    rw [funext (bernRegLik_neg X y)]
    exact bayesDefined_bernRegLik (-X) y _
  have hp := isProbabilityMeasure_bayes hd
  have hc := (C65_bern_converges_partial hla hs X y).2
  rw [← C23_bern_finder_step_iff_partial hla hs X y, C22_bern_step_target_partial hla hs X y]
  exact ⟨fun h => h.unique Set.univ_nonempty hc, fun h => h ▸ hc⟩

/-- One regressor with value 3 and one positive outcome: the wrong limit, whatever the prior. -/
example : ¬ ConvergesFrom Set.univ (bayes (normalPrior fun _ => 1)
      (bernRegLik (fun ψ => sigmoid (-ψ)) !![3] ![true]))
    (bernNormalPosterior stdLinAlg (fun _ => 1) !![3] ![true]) := by
  rw [C65_bern_finder_converges_iff_partial stdLinAlg_sound (fun _ => one_pos)]
  rintro ⟨-, h⟩
  have := congrFun h 0
  simp [Matrix.mulVec, dotProduct, boolVal] at this
  norm_num at this

open CRT

/-- **C65 (partial).** Repeated calls of `nbinom_dispersion_posterior` converge at a geometric rate, from
every positive start, to the posterior for success probabilities `1 - p`. -/
theorem C65_dispersion_converges_partial {a b : ℝ} (ha : 0 < a) (hb : 0 < b) {p : Fin n → ℝ}
    (hp0 : ∀ i, 0 < p i) (hp1 : ∀ i, p i < 1) (y : Fin n → ℕ) :
    ConvergesGeom (Set.Ioi 0) (bayes (gammaMeasure a b⁻¹) (nbDispLik (fun i => 1 - p i) y))
      (dispersionPosterior (List.ofFn p) a b (List.ofFn fun i => (y i : ℤ))) ∧
    ConvergesFrom (Set.Ioi 0) (bayes (gammaMeasure a b⁻¹) (nbDispLik (fun i => 1 - p i) y))
      (dispersionPosterior (List.ofFn p) a b (List.ofFn fun i => (y i : ℤ))) :=
  dispersion_converges ha hb hp0 hp1 y

example : ConvergesFrom (Set.Ioi 0)
    (bayes (gammaMeasure 2 1⁻¹) (nbDispLik (fun i => 1 - (![1 / 4, 1 / 2] : Fin 2 → ℝ) i) ![3, 0]))
    (dispersionPosterior (List.ofFn ![1 / 4, 1 / 2]) 2 1
      (List.ofFn fun i => ((![3, 0] : Fin 2 → ℕ) i : ℤ))) :=
  (C65_dispersion_converges_partial two_pos one_pos (fun i => by fin_cases i <;> norm_num)
    (fun i => by fin_cases i <;> norm_num) _).2

/-- **C65 (partial).** They converge to the posterior for success probabilities `p` exactly when
`∑ log p = ∑ log (1 - p)`. -/
theorem C65_dispersion_converges_iff_partial {a b : ℝ} (ha : 0 < a) (hb : 0 < b) {p : Fin n → ℝ}
    (hp0 : ∀ i, 0 < p i) (hp1 : ∀ i, p i < 1) (y : Fin n → ℕ) :
    ConvergesFrom (Set.Ioi 0) (bayes (gammaMeasure a b⁻¹) (nbDispLik p y))
      (dispersionPosterior (List.ofFn p) a b (List.ofFn fun i => (y i : ℤ))) ↔
      ∑ i, Real.log (p i) = ∑ i, Real.log (1 - p i) := by
  have h0 : ∀ i, 0 < 1 - p i := fun i => by have := hp1 i; linarith
  have h1 : ∀ i, 1 - p i < 1 := fun i => by have := hp0 i; linarith
  have hc := (dispersion_converges ha hb hp0 hp1 y).2
  constructor
  · intro h
    rw [← C32_dispersion_iff_partial ha hb hp0 hp1 y, h.unique ⟨1, one_pos⟩ hc]
    exact (C32_dispersion_complement_partial ha hb hp0 hp1 y).2
  · intro h
    rw [posterior_eq hp0 hp1, h, ← posterior_eq h0 h1]
    exact hc

/-- **C65 is violated**: one count with success probability `1/4`.  From every positive start some event
has probabilities that do not tend to its posterior probability. -/
theorem C65_dispersion_violated :
    BayesDefined (gammaMeasure 2 1⁻¹) (nbDispLik (n := 1) (fun _ => 1 / 4) fun _ => 3) ∧
    ∀ h > 0, ∃ S, MeasurableSet S ∧ ¬ Filter.Tendsto
      (fun k => calls (dispersionPosterior [1 / 4] 2 1 [3]) k h S) Filter.atTop
      (nhds (bayes (gammaMeasure 2 1⁻¹) (nbDispLik (n := 1) (fun _ => 1 / 4) fun _ => 3) S)) := by
  refine ⟨posterior_defined two_pos (by norm_num) (fun _ => by norm_num) (fun _ => by norm_num) _,
    fun h hh => ?_⟩
  by_contra hcon
  push Not at hcon
  have hc := (dispersion_converges (n := 1) (a := 2) (b := 1) two_pos one_pos (p := fun _ => 1 / 4)
    (fun _ => by norm_num) (fun _ => by norm_num) (fun _ => 3)).2
  have e : bayes (gammaMeasure 2 1⁻¹) (nbDispLik (n := 1) (fun _ => 1 / 4) fun _ => 3) =
      bayes (gammaMeasure 2 1⁻¹) (nbDispLik (n := 1) (fun _ => 1 - 1 / 4) fun _ => 3) :=
    Measure.ext fun S hS => tendsto_nhds_unique (hcon S hS) (hc h hh S hS)
  refine C32_violated.2 ?_
  rw [e]
  exact (C32_dispersion_complement_partial (n := 1) (a := 2) (b := 1) two_pos one_pos
    (p := fun _ => 1 / 4) (fun _ => by norm_num) (fun _ => by norm_num) (fun _ => 3)).2

/-- **C65 is violated**: one observation, one coefficient with prior standard deviation 2.  From every
start, some event has probabilities that do not tend to its posterior probability. -/
theorem C65_regression_violated :
    (∀ β, ∃ S, MeasurableSet S ∧ ¬ Filter.Tendsto
      (fun k => calls (nbinomNormalPosterior stdLinAlg (fun _ => 2) (1 : Matrix (Fin 1) (Fin 1) ℝ)
        (fun _ => 1) fun _ => 1) k β S) Filter.atTop
      (nhds (bayes (normalPrior fun _ => 2) (nbRegLik (n := 1) 1 (fun _ => 1) fun _ => 1) S))) ∧
    ∀ β, ∃ S, MeasurableSet S ∧ ¬ Filter.Tendsto
      (fun k => calls (bernNormalPosterior stdLinAlg (fun _ => 2) (1 : Matrix (Fin 1) (Fin 1) ℝ)
        fun _ => true) k β S) Filter.atTop
      (nhds (bayes (normalPrior fun _ => 2) (bernRegLik (n := 1) sigmoid 1 fun _ => true) S)) := by
  constructor <;> intro β <;> by_contra hcon <;> push Not at hcon
  · have hc := (C65_nbinom_converges_partial stdLinAlg_sound (fun _ => two_pos)
      (1 : Matrix (Fin 1) (Fin 1) ℝ) (fun _ => one_pos) (fun _ => 1)).2
    have e := Measure.ext fun S hS => tendsto_nhds_unique (hcon S hS) (hc β (Set.mem_univ _) S hS)
    have h1 := (C65_nbinom_converges_iff_partial stdLinAlg_sound (fun _ => two_pos)
      (1 : Matrix (Fin 1) (Fin 1) ℝ) (fun _ => one_pos) (fun _ => 1)).1 (e ▸ hc) 0
    norm_num at h1
  · have hc := (C65_bern_converges_partial stdLinAlg_sound (fun _ => two_pos)
      (1 : Matrix (Fin 1) (Fin 1) ℝ) (fun _ => true)).2
    have e := Measure.ext fun S hS => tendsto_nhds_unique (hcon S hS) (hc β (Set.mem_univ _) S hS)
    have h1 := (C65_bern_converges_iff_partial stdLinAlg_sound (fun _ => two_pos)
      (1 : Matrix (Fin 1) (Fin 1) ℝ) (fun _ => true)).1 (e ▸ hc) 0
    norm_num at h1

/-- The hypotheses are met: a regression with two coefficients and three counts. -/
example : ∃ (la : LinAlg) (std : Fin 2 → ℝ) (h : Fin 3 → ℝ), la.Sound ∧ (∀ j, 0 < std j) ∧
    (∀ i, 0 < h i) ∧ ∀ (X : Matrix (Fin 3) (Fin 2) ℝ) (y : Fin 3 → ℕ),
      ConvergesFrom Set.univ (bayes (normalPrior std) (nbRegLik X h y))
        (nbinomNormalPosterior la std X h y) :=
  ⟨stdLinAlg, fun _ => 1, fun i => i + 1, stdLinAlg_sound, fun _ => one_pos, fun i => by positivity,
    fun X y => (C65_nbinom_converges_iff_partial stdLinAlg_sound (fun _ => one_pos) X
      (fun i => by positivity) y).2 fun _ => rfl⟩

/-- Unequal success probabilities `1/4` and `3/4`: here repeated calls converge to the posterior. -/
example (y : Fin 2 → ℕ) : ConvergesFrom (Set.Ioi 0)
    (bayes (gammaMeasure 2 1⁻¹) (nbDispLik ![1 / 4, 3 / 4] y))
    (dispersionPosterior (List.ofFn ![1 / 4, 3 / 4]) 2 1 (List.ofFn fun i => (y i : ℤ))) := by
  refine (C65_dispersion_converges_iff_partial two_pos one_pos (fun i => ?_) (fun i => ?_) y).2 ?_
  · fin_cases i <;> norm_num
  · fin_cases i <;> norm_num
  · rw [Fin.sum_univ_two, Fin.sum_univ_two]
    norm_num
    ring

end Verif
