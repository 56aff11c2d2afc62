import Verif.Rev.DataAug
import Verif.Rev.Mean
import Verif.Iter.StrongProps

/-!
# C79: successive draws of a regression or dispersion step
-/

open MeasureTheory ProbabilityTheory Matrix
open scoped ENNReal

namespace Verif

section PG

variable {n p : ℕ}

theorem pgStep_reversible {la : LinAlg} (hla : la.Sound) {d : Fin p → ℝ} (hd : ∀ j, 0 < d j)
    (X : Matrix (Fin n) (Fin p) ℝ) {b κ : Fin n → ℝ} (hb : ∀ i, 0 < b i) (hκ : ∀ i, |κ i| ≤ b i / 2) :
    Reversible (bayes (mvn 0 (diagonal d)⁻¹) fun β => ENNReal.ofReal (pgLik X b κ β)) (pgStep la d X b κ) ∧
      FadingCovariances (bayes (mvn 0 (diagonal d)⁻¹) fun β => ENNReal.ofReal (pgLik X b κ β))
        (pgStep la d X b κ) := by
  have hp0 : ∀ i, IsProbabilityMeasure (pg0 (b i)) := fun i => isProbabilityMeasure_pg0 (hb i)
  have hstep : pgStep la d X b κ = fun β =>
      (bayes (Measure.pi fun i => pg0 (b i)) (pgJoint X κ β)).bind fun w =>
        normalRegression la w d X (fun i => κ i / w i) := by
    ext1 β
    rw [pgStep, (pi_pg_eq X hb κ β).2.2]
  have hae : ∀ᵐ w ∂(Measure.pi fun i => pg0 (b i)),
      normalRegression la w d X (fun i => κ i / w i) =
        bayes (mvn 0 (diagonal d)⁻¹) (fun β => pgJoint X κ β w) := by
    filter_upwards [ae_pi_pg0_pos hb] with w hw
    exact (normalRegression_eq_bayes hla hd X κ hw).2
  have hdef2 : ∀ᵐ w ∂(Measure.pi fun i => pg0 (b i)),
      BayesDefined (mvn 0 (diagonal d)⁻¹) (fun β => pgJoint X κ β w) := by
    filter_upwards [ae_pi_pg0_pos hb] with w hw
    exact (normalRegression_eq_bayes hla hd X κ hw).1
  have hZ : BayesDefined (mvn 0 (diagonal d)⁻¹) fun β =>
      ∫⁻ w, pgJoint X κ β w ∂(Measure.pi fun i => pg0 (b i)) := by
    simp only [fun β => (pi_pg_eq X hb κ β).2.1]
    exact bayesDefined_pgLik X hκ _
  have := reversible_dataAug (measurable_pgJoint X κ) (fun β => (pi_pg_eq X hb κ β).1) hdef2 hae hZ
  rw [← hstep] at this
  simpa only [fun β => (pi_pg_eq X hb κ β).2.1] using this

/-- **C79.** `nbinom_normal_posterior`: whatever law of the coefficients one call keeps, successive
coefficients drawn in it are reversible in time, and the covariances of every function of finite variance
start with its variance, are nonnegative, never increase with the distance and decrease ever more slowly.
There is such a law. -/
theorem C79_nbinom_successive_draws {la : LinAlg} (hla : la.Sound) {std : Fin p → ℝ} (hs : ∀ j, 0 < std j)
    (X : Matrix (Fin n) (Fin p) ℝ) {h : Fin n → ℝ} (hh : ∀ i, 0 < h i) (y : Fin n → ℕ) :
    (∃ π, IsProbabilityMeasure π ∧ Stationary π (nbinomNormalPosterior la std X h y)) ∧
    ∀ π, IsProbabilityMeasure π → Stationary π (nbinomNormalPosterior la std X h y) →
      Reversible π (nbinomNormalPosterior la std X h y) ∧
      FadingCovariances π (nbinomNormalPosterior la std X h y) := by
  have hb : ∀ i, 0 < (y i : ℝ) + h i := fun i => by have := hh i; positivity
  have hr := pgStep_reversible hla (fun j => inv_pos.2 (hs j)) X hb (nb_kappa_le hh y)
  have hp := isProbabilityMeasure_bayes
    (bayesDefined_nbRegLik X hh y (normalPrior fun j => Real.sqrt (std j)))
  have hst := (C21_nbinom_step_target_partial hla hs X hh y _).2 rfl
  refine ⟨⟨_, hp, hst⟩, fun π hπ h1 => ?_⟩
  rw [nbinomNormalPosterior_eq] at h1 ⊢
  rw [pgStep_stationary_iff hla (fun j => inv_pos.2 (hs j)) X hb (nb_kappa_le hh y)] at h1
  rw [h1]
  exact hr

/-- The covariance of the sign of a coefficient with itself ten calls later is at most that nine calls
later. -/
example (X : Matrix (Fin 3) (Fin 2) ℝ) (y : Fin 3 → ℕ) {π : Measure (Fin 2 → ℝ)} [IsProbabilityMeasure π]
    (hπ : Stationary π (nbinomNormalPosterior stdLinAlg (fun _ => 4) X (fun _ => 2) y)) :
    autocov π (nbinomNormalPosterior stdLinAlg (fun _ => 4) X (fun _ => 2) y)
        ({β | 0 < β 0}.indicator 1) 10 ≤
      autocov π (nbinomNormalPosterior stdLinAlg (fun _ => 4) X (fun _ => 2) y)
        ({β | 0 < β 0}.indicator 1) 9 :=
  (((C79_nbinom_successive_draws stdLinAlg_sound (fun _ => by norm_num) X (fun _ => two_pos) y).2 π
    inferInstance hπ).2 _ (memLp_indicator_const 2 (measurableSet_lt measurable_const (measurable_pi_apply 0))
      (1 : ℝ) (Or.inr (measure_ne_top _ _)))).2.2.1 (by norm_num)

/-- **C79.** The same for `bern_normal_posterior`. -/
theorem C79_bern_successive_draws {la : LinAlg} (hla : la.Sound) {std : Fin p → ℝ} (hs : ∀ j, 0 < std j)
    (X : Matrix (Fin n) (Fin p) ℝ) (y : Fin n → Bool) :
    (∃ π, IsProbabilityMeasure π ∧ Stationary π (bernNormalPosterior la std X y)) ∧
    ∀ π, IsProbabilityMeasure π → Stationary π (bernNormalPosterior la std X y) →
      Reversible π (bernNormalPosterior la std X y) ∧ FadingCovariances π (bernNormalPosterior la std X y) := by
  rw [bernNormalPosterior_eq]
  have hr := pgStep_reversible hla (fun j => inv_pos.2 (hs j)) X (fun _ => one_pos)
    fun i => bern_kappa_le (y i)
  have hp := isProbabilityMeasure_bayes (bayesDefined_pgLik X (b := fun _ => 1)
    (fun i => bern_kappa_le (y i)) (mvn 0 (diagonal fun j => (std j)⁻¹)⁻¹))
  have hst := pgStep_stationary_iff hla (fun j => inv_pos.2 (hs j)) X (b := fun _ => 1) (fun _ => one_pos)
    fun i => bern_kappa_le (y i)
  refine ⟨⟨_, hp, (hst _).2 rfl⟩, fun π hπ h1 => ?_⟩
  rw [hst] at h1
  rw [h1]
  exact hr

/-- A call may be exchanged with the one before it. -/
example (X : Matrix (Fin 3) (Fin 2) ℝ) {π : Measure (Fin 2 → ℝ)} [IsProbabilityMeasure π]
    (hπ : Stationary π (bernNormalPosterior stdLinAlg (fun _ => 4) X ![true, false, true])) :
    (atLag π (bernNormalPosterior stdLinAlg (fun _ => 4) X ![true, false, true]) 1).map Prod.swap =
      atLag π (bernNormalPosterior stdLinAlg (fun _ => 4) X ![true, false, true]) 1 :=
  ((C79_bern_successive_draws stdLinAlg_sound (fun _ => by norm_num) X _).2 π inferInstance hπ).1 1

/-- **C79.** Means of successive coefficients drawn by `nbinom_normal_posterior` in a law it keeps: never
more precise than means of as many independent draws, never less precise than one draw. -/
theorem C79_nbinom_means {la : LinAlg} (hla : la.Sound) {std : Fin p → ℝ} (hs : ∀ j, 0 < std j)
    (X : Matrix (Fin n) (Fin p) ℝ) {h : Fin n → ℝ} (hh : ∀ i, 0 < h i) (y : Fin n → ℕ)
    {π : Measure (Fin p → ℝ)} [IsProbabilityMeasure π]
    (hπ : Stationary π (nbinomNormalPosterior la std X h y)) : NoGain π (nbinomNormalPosterior la std X h y) :=
  (nbinom_runs hla hs X hh y).noGain (ae_of_all _ fun _ => trivial) hπ
    ((C79_nbinom_successive_draws hla hs X hh y).2 π inferInstance hπ).2

/-- Such runs exist. -/
example (X : Matrix (Fin 3) (Fin 2) ℝ) (y : Fin 3 → ℕ) : ∃ (π : Measure (Fin 2 → ℝ))
    (P : Measure (ℕ → Fin 2 → ℝ)), IsProbabilityMeasure π ∧ IsProbabilityMeasure P ∧
    IsEquilibriumRun π (nbinomNormalPosterior stdLinAlg (fun _ => 4) X (fun _ => 2) y) P (fun n s => s n) ∧
    ∀ f : (Fin 2 → ℝ) → ℝ, MemLp f 2 π →
      variance f π / 100 ≤ variance (fun s => (∑ i ∈ Finset.range 100, f (s i)) / 100) P := by
  have hs : ∀ _ : Fin 2, (0 : ℝ) < 4 := fun _ => by norm_num
  obtain ⟨π, hπ, hst⟩ := (C79_nbinom_successive_draws stdLinAlg_sound hs X (fun _ => two_pos) y).1
  have r := nbinom_runs stdLinAlg_sound hs X (fun _ => two_pos) y
  obtain ⟨P, hP, hr⟩ := exists_equilibriumRun r.meas r.prob hst
  refine ⟨π, P, hπ, hP, hr, fun f hf => ?_⟩
  exact_mod_cast (C79_nbinom_means stdLinAlg_sound hs X (fun _ => two_pos) y hst _ P _ hP hr f hf 100
    (by norm_num)).1

/-- **C79.** The same for `bern_normal_posterior`. -/
theorem C79_bern_means {la : LinAlg} (hla : la.Sound) {std : Fin p → ℝ} (hs : ∀ j, 0 < std j)
    (X : Matrix (Fin n) (Fin p) ℝ) (y : Fin n → Bool) {π : Measure (Fin p → ℝ)} [IsProbabilityMeasure π]
    (hπ : Stationary π (bernNormalPosterior la std X y)) : NoGain π (bernNormalPosterior la std X y) :=
  (bern_runs hla hs X y).noGain (ae_of_all _ fun _ => trivial) hπ
    ((C79_bern_successive_draws hla hs X y).2 π inferInstance hπ).2

example (X : Matrix (Fin 3) (Fin 2) ℝ) : ∃ π : Measure (Fin 2 → ℝ), IsProbabilityMeasure π ∧
    NoGain π (bernNormalPosterior stdLinAlg (fun _ => 4) X ![true, false, true]) := by
  have hs : ∀ _ : Fin 2, (0 : ℝ) < 4 := fun _ => by norm_num
  obtain ⟨π, hπ, hst⟩ := (C79_bern_successive_draws stdLinAlg_sound hs X ![true, false, true]).1
  exact ⟨π, hπ, C79_bern_means stdLinAlg_sound hs X _ hst⟩

end PG

section Dispersion

open Verif.CRT

variable {n : ℕ}

/-- **C79.** `nbinom_dispersion_posterior`: the same, for every law on the positive numbers one call
keeps. -/
theorem C79_dispersion_successive_draws {a b : ℝ} (ha : 0 < a) (hb : 0 < b) {p : Fin n → ℝ}
    (hp0 : ∀ i, 0 < p i) (hp1 : ∀ i, p i < 1) (y : Fin n → ℕ) :
    (∃ π : Measure ℝ, IsProbabilityMeasure π ∧ (∀ᵐ h ∂π, 0 < h) ∧
      Stationary π (dispersionPosterior (List.ofFn p) a b (List.ofFn fun i => (y i : ℤ)))) ∧
    ∀ π : Measure ℝ, IsProbabilityMeasure π → (∀ᵐ h ∂π, 0 < h) →
      Stationary π (dispersionPosterior (List.ofFn p) a b (List.ofFn fun i => (y i : ℤ))) →
      Reversible π (dispersionPosterior (List.ofFn p) a b (List.ofFn fun i => (y i : ℤ))) ∧
      FadingCovariances π (dispersionPosterior (List.ofFn p) a b (List.ofFn fun i => (y i : ℤ))) := by
  obtain ⟨ht, r⟩ := dispersion_runs ha hb hp0 hp1 y
  have hr : (0 : ℝ) < b⁻¹ := inv_pos.2 hb
  have hg := isProbabilityMeasure_gammaMeasure ha hr
  have hd := crtMarg_defined ha hr ht y
  have hπ0 := isProbabilityMeasure_bayes hd
  have hst := stationary_crtKernel ha hr ht y
  have hpos : ∀ᵐ h ∂bayes (gammaMeasure a b⁻¹) (crtMarg (-∑ i, Real.log (1 - p i)) y), 0 < h :=
    (bayes_absolutelyContinuous _ _).ae_le ae_pos_gammaMeasure
  refine ⟨⟨_, hπ0, hpos, hst.congr_ae ?_⟩, fun π hπ hD h1 => ?_⟩
  · filter_upwards [hpos] with x hx using (r.eq x hx).symm
  · have h2 : Stationary π (crtKernel y a b⁻¹ (-∑ i, Real.log (1 - p i))) :=
      h1.congr_ae (by filter_upwards [hD] with x hx using r.eq x hx)
    have e := stationary_unique r.meas r.prob (ac_crtKernel ha ht y) (crtKernel_ac y) h2.2 hst.2
    refine r.reversible hD ?_
    rw [e]
    exact reversible_dataAug (measurable_crtJoint _) (fun h => crtJoint_defined _ y h)
      (ae_of_all _ fun l => (crtJoint_gamma ha hr ht l).1)
      (ae_of_all _ fun l => (crtJoint_gamma ha hr ht l).2.symm) hd

example (y : Fin 2 → ℕ) {π : Measure ℝ} [IsProbabilityMeasure π] (hD : ∀ᵐ h ∂π, 0 < h)
    (hπ : Stationary π (dispersionPosterior (List.ofFn ![1 / 4, 1 / 3]) 2 1 (List.ofFn fun i => (y i : ℤ))))
    (hm : MemLp (fun h : ℝ => h) 2 π) :
    0 ≤ autocov π (dispersionPosterior (List.ofFn ![1 / 4, 1 / 3]) 2 1 (List.ofFn fun i => (y i : ℤ)))
      (fun h => h) 3 :=
  (((C79_dispersion_successive_draws two_pos one_pos (fun i => by fin_cases i <;> norm_num)
    (fun i => by fin_cases i <;> norm_num) y).2 π inferInstance hD hπ).2 _ hm).2.1 3

/-- **C79.** The same for `nbinom_dispersion_posterior`. -/
theorem C79_dispersion_means {a b : ℝ} (ha : 0 < a) (hb : 0 < b) {p : Fin n → ℝ}
    (hp0 : ∀ i, 0 < p i) (hp1 : ∀ i, p i < 1) (y : Fin n → ℕ) {π : Measure ℝ} [IsProbabilityMeasure π]
    (hD : ∀ᵐ h ∂π, 0 < h)
    (hπ : Stationary π (dispersionPosterior (List.ofFn p) a b (List.ofFn fun i => (y i : ℤ)))) :
    NoGain π (dispersionPosterior (List.ofFn p) a b (List.ofFn fun i => (y i : ℤ))) := by
  obtain ⟨ht, r⟩ := dispersion_runs ha hb hp0 hp1 y
  have h1 := ((C79_dispersion_successive_draws ha hb hp0 hp1 y).2 π inferInstance hD hπ).2
  have e : autocov π (dispersionPosterior (List.ofFn p) a b (List.ofFn fun i => (y i : ℤ))) =
      autocov π (crtKernel y a b⁻¹ (-∑ i, Real.log (1 - p i))) := by
    funext f k
    rw [autocov, autocov, r.atLag_eq hD]
  exact r.noGain hD hπ (by simpa only [FadingCovariances, e] using h1)

example (y : Fin 2 → ℕ) : ∃ π : Measure ℝ, IsProbabilityMeasure π ∧ NoGain π
    (dispersionPosterior (List.ofFn ![1 / 4, 1 / 3]) 2 1 (List.ofFn fun i => (y i : ℤ))) := by
  have h0 : ∀ i, 0 < (![1 / 4, 1 / 3] : Fin 2 → ℝ) i := fun i => by fin_cases i <;> norm_num
  have h1 : ∀ i, (![1 / 4, 1 / 3] : Fin 2 → ℝ) i < 1 := fun i => by fin_cases i <;> norm_num
  obtain ⟨π, hπ, hD, hst⟩ := (C79_dispersion_successive_draws two_pos one_pos h0 h1 y).1
  exact ⟨π, hπ, C79_dispersion_means two_pos one_pos h0 h1 y hD hst⟩

end Dispersion

end Verif
