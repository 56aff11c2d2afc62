import Verif.Rev.Keep
import Verif.Rev.Props
import Verif.NbReg.Props

/-!
# C82: keeping every draw
-/

open MeasureTheory ProbabilityTheory Matrix
open scoped ENNReal

namespace Verif

section PG

variable {n p : ℕ}

/-- **C82.** `nbinom_normal_posterior`, in any law one call keeps: of `k N` successive draws the mean of all
is at least as precise as the mean of every `k`-th, and means of more draws are at least as precise as
means of fewer. -/
theorem C82_nbinom_keep {la : LinAlg} (hla : la.Sound) {std : Fin p → ℝ} (hs : ∀ j, 0 < std j)
    (X : Matrix (Fin n) (Fin p) ℝ) {h : Fin n → ℝ} (hh : ∀ i, 0 < h i) (y : Fin n → ℕ)
    {π : Measure (Fin p → ℝ)} [IsProbabilityMeasure π]
    (hπ : Stationary π (nbinomNormalPosterior la std X h y)) :
    ThinningNeverHelps π (nbinomNormalPosterior la std X h y) ∧
      MoreDrawsHelp π (nbinomNormalPosterior la std X h y) :=
  ⟨thinningNeverHelps hπ, (nbinom_runs hla hs X hh y).moreDrawsHelp (ae_of_all _ fun _ => trivial) hπ
    ((C79_nbinom_successive_draws hla hs X hh y).2 π inferInstance hπ).2⟩

/-- One run exists for which the mean of a thousand draws is at least as precise as the mean of every
tenth and as the mean of the first nine hundred, for the first coefficient being positive. -/
example (X : Matrix (Fin 3) (Fin 2) ℝ) (y : Fin 3 → ℕ) : ∃ (π : Measure (Fin 2 → ℝ))
    (P : Measure (ℕ → Fin 2 → ℝ)), IsProbabilityMeasure π ∧ IsProbabilityMeasure P ∧
    IsEquilibriumRun π (nbinomNormalPosterior stdLinAlg (fun _ => 4) X (fun _ => 2) y) P (fun n s => s n) ∧
    variance (fun s => (∑ i ∈ Finset.range (10 * 100), ({β | 0 < β 0}.indicator 1 : (Fin 2 → ℝ) → ℝ) (s i)) /
        (10 * 100 : ℕ)) P ≤
      variance (fun s => (∑ i ∈ Finset.range 100, ({β | 0 < β 0}.indicator 1 : (Fin 2 → ℝ) → ℝ) (s (10 * i))) /
        (100 : ℕ)) P ∧
    variance (fun s => (∑ i ∈ Finset.range 1000, ({β | 0 < β 0}.indicator 1 : (Fin 2 → ℝ) → ℝ) (s i)) /
        (1000 : ℕ)) P ≤
      variance (fun s => (∑ i ∈ Finset.range 900, ({β | 0 < β 0}.indicator 1 : (Fin 2 → ℝ) → ℝ) (s i)) /
        (900 : ℕ)) P := by
  have hs : ∀ _ : Fin 2, (0 : ℝ) < 4 := fun _ => by norm_num
  obtain ⟨π, hπ, hst⟩ := (C79_nbinom_successive_draws stdLinAlg_sound hs X (fun _ => two_pos) y).1
  have r := nbinom_runs stdLinAlg_sound hs X (fun _ => two_pos) y
  obtain ⟨P, hP, hr⟩ := exists_equilibriumRun r.meas r.prob hst
  have hm : MemLp ({β | 0 < β 0}.indicator 1 : (Fin 2 → ℝ) → ℝ) 2 π :=
    memLp_indicator_const 2 (measurableSet_lt measurable_const (measurable_pi_apply 0)) (1 : ℝ)
      (Or.inr (measure_ne_top _ _))
  have k := C82_nbinom_keep stdLinAlg_sound hs X (fun _ => two_pos) y hst
  exact ⟨π, P, hπ, hP, hr, k.1 _ P _ hP hr _ hm 10 100 (by norm_num) (by norm_num),
    k.2 _ P _ hP hr _ hm 900 1000 (by norm_num) (by norm_num)⟩

/-- **C82.** The same for `bern_normal_posterior`. -/
theorem C82_bern_keep {la : LinAlg} (hla : la.Sound) {std : Fin p → ℝ} (hs : ∀ j, 0 < std j)
    (X : Matrix (Fin n) (Fin p) ℝ) (y : Fin n → Bool) {π : Measure (Fin p → ℝ)} [IsProbabilityMeasure π]
    (hπ : Stationary π (bernNormalPosterior la std X y)) :
    ThinningNeverHelps π (bernNormalPosterior la std X y) ∧
      MoreDrawsHelp π (bernNormalPosterior la std X y) :=
  ⟨thinningNeverHelps hπ, (bern_runs hla hs X y).moreDrawsHelp (ae_of_all _ fun _ => trivial) hπ
    ((C79_bern_successive_draws hla hs X y).2 π inferInstance hπ).2⟩

example (X : Matrix (Fin 3) (Fin 2) ℝ) : ∃ π : Measure (Fin 2 → ℝ), IsProbabilityMeasure π ∧
    MoreDrawsHelp π (bernNormalPosterior stdLinAlg (fun _ => 4) X ![true, false, true]) := by
  have hs : ∀ _ : Fin 2, (0 : ℝ) < 4 := fun _ => by norm_num
  obtain ⟨π, hπ, hst⟩ := (C79_bern_successive_draws stdLinAlg_sound hs X ![true, false, true]).1
  exact ⟨π, hπ, (C82_bern_keep stdLinAlg_sound hs X _ hst).2⟩

/-- **C82.** The shrinkage step of the horseshoe prior, which alternates more than two draws, in any law it
keeps: thinning never helps. -/
theorem C82_horseshoe_thinning (conv : Horseshoe.ExpArg) (β : Fin p → ℝ) {π : Measure ((Fin p → ℝ) × ℝ)}
    (hπ : Stationary π (Horseshoe.horseshoeStep conv β)) :
    ThinningNeverHelps π (Horseshoe.horseshoeStep conv β) :=
  thinningNeverHelps hπ

/-- With exponential draws that take a rate the step keeps the posterior of the scales. -/
example : ThinningNeverHelps (Horseshoe.posterior ![2] 1) (Horseshoe.horseshoeStep .rate ![2]) :=
  C82_horseshoe_thinning .rate _
    (Horseshoe.C28_rate_step_invariant_partial (fun j => by fin_cases j; norm_num)).2

/-- **C82.** One call of the sampler for a regression with a normal prior and unknown dispersion, in any law
it keeps: thinning never helps. -/
theorem C82_nbinom_joint_thinning (la : LinAlg) (std : Fin p → ℝ) (X : Matrix (Fin n) (Fin p) ℝ) (a b : ℝ)
    (y : Fin n → ℕ) {π : Measure ((Fin p → ℝ) × ℝ)} (hπ : Stationary π (NbReg.sweep la std X a b y)) :
    ThinningNeverHelps π (NbReg.sweep la std X a b y) :=
  thinningNeverHelps hπ

/-- A design for which the call keeps the joint posterior. -/
example (y : Fin 2 → ℕ) : ThinningNeverHelps (bayes (NbReg.nbPrior (fun _ => 1) 2 1) (NbReg.nbJointLik !![1; -1] y))
    (NbReg.sweep stdLinAlg (fun _ => 1) !![1; -1] 2 1 y) :=
  C82_nbinom_joint_thinning _ _ _ _ _ _ ((NbReg.C59_sweep_iff_partial stdLinAlg_sound (fun _ => one_pos) two_pos
    one_pos _ y).2 ⟨fun _ => rfl, fun j => by fin_cases j; simp⟩)

end PG

section Dispersion

open Verif.CRT

variable {n : ℕ}

/-- **C82.** The same as for the regressions for `nbinom_dispersion_posterior`. -/
theorem C82_dispersion_keep {a b : ℝ} (ha : 0 < a) (hb : 0 < b) {p : Fin n → ℝ}
    (hp0 : ∀ i, 0 < p i) (hp1 : ∀ i, p i < 1) (y : Fin n → ℕ) {π : Measure ℝ} [IsProbabilityMeasure π]
    (hD : ∀ᵐ h ∂π, 0 < h)
    (hπ : Stationary π (dispersionPosterior (List.ofFn p) a b (List.ofFn fun i => (y i : ℤ)))) :
    ThinningNeverHelps π (dispersionPosterior (List.ofFn p) a b (List.ofFn fun i => (y i : ℤ))) ∧
      MoreDrawsHelp π (dispersionPosterior (List.ofFn p) a b (List.ofFn fun i => (y i : ℤ))) := by
  obtain ⟨ht, r⟩ := dispersion_runs ha hb hp0 hp1 y
  have h1 := ((C79_dispersion_successive_draws ha hb hp0 hp1 y).2 π inferInstance hD hπ).2
  have e : autocov π (dispersionPosterior (List.ofFn p) a b (List.ofFn fun i => (y i : ℤ))) =
      autocov π (crtKernel y a b⁻¹ (-∑ i, Real.log (1 - p i))) := by
    funext f k
    rw [autocov, autocov, r.atLag_eq hD]
  exact ⟨thinningNeverHelps hπ, r.moreDrawsHelp hD hπ (by simpa only [FadingCovariances, e] using h1)⟩

example (y : Fin 2 → ℕ) : ∃ π : Measure ℝ, IsProbabilityMeasure π ∧ MoreDrawsHelp π
    (dispersionPosterior (List.ofFn ![1 / 4, 1 / 3]) 2 1 (List.ofFn fun i => (y i : ℤ))) := by
  have h0 : ∀ i, 0 < (![1 / 4, 1 / 3] : Fin 2 → ℝ) i := fun i => by fin_cases i <;> norm_num
  have h1 : ∀ i, (![1 / 4, 1 / 3] : Fin 2 → ℝ) i < 1 := fun i => by fin_cases i <;> norm_num
  obtain ⟨π, hπ, hD, hst⟩ := (C79_dispersion_successive_draws two_pos one_pos h0 h1 y).1
  exact ⟨π, hπ, (C82_dispersion_keep two_pos one_pos h0 h1 y hD hst).2⟩

end Dispersion

end Verif
