import Verif.Prob.StrongLaw

/-!
# Averages along a run
-/

open MeasureTheory ProbabilityTheory Filter
open scoped ENNReal Topology

namespace Verif

variable {Θ : Type} [MeasurableSpace Θ]

/-- Spec.  From every start in `D`, in every run of the step `K`, the averages of every function with an
expectation under `π` over the returned values converge to that expectation with probability one. -/
def StrongAverages (D : Set Θ) (π : Measure Θ) (K : Θ → Measure Θ) : Prop :=
  ∀ θ ∈ D, ∀ (Ω : Type) [MeasurableSpace Ω] (P : Measure Ω) (X : ℕ → Ω → Θ), IsProbabilityMeasure P →
    IsRun K θ P X → ∀ f : Θ → ℝ, Measurable f → Integrable f π →
      ∀ᵐ ω ∂P, Tendsto (fun n : ℕ => (∑ i ∈ Finset.range n, f (X i ω)) / n) atTop (𝓝 (∫ x, f x ∂π))

theorem StrongAverages.mono {D D' : Set Θ} {K : Θ → Measure Θ} {π : Measure Θ}
    (h : StrongAverages D π K) (hD : D' ⊆ D) : StrongAverages D' π K := fun θ hθ => h θ (hD hθ)

variable {D : Set Θ} {K K' : Θ → Measure Θ} {Ω : Type} [MeasurableSpace Ω] {P : Measure Ω} {X : ℕ → Ω → Θ}

/-- A run of a step that stays in `D` has all its values in `D`. -/
theorem Runs.run_stays (r : Runs D K K') {θ : Θ} (hX : ∀ n, Measurable (X n))
    (h0 : P.map (X 0) = K' θ) (hn : ∀ n, P {ω | X (n + 1) ω ∈ Dᶜ} = ∫⁻ ω, K (X n ω) Dᶜ ∂P) (n : ℕ) :
    ∀ᵐ ω ∂P, X n ω ∈ D := by
  induction n with
  | zero =>
    have h := r.stays θ
    rw [← h0] at h
    exact (ae_map_iff (hX 0).aemeasurable r.measD).1 h
  | succ n ih =>
    have h := hn n
    rw [lintegral_congr_ae (g := fun _ => 0)] at h
    · rw [lintegral_zero] at h
      exact measure_eq_zero_iff_ae_notMem.1 h |>.mono fun ω hω => not_not.1 hω
    · filter_upwards [ih] with ω hω
      rw [r.eq _ hω]
      exact measure_eq_zero_iff_ae_notMem.2 ((r.stays _).mono fun x hx => not_not.2 hx)

/-- Runs of the step and of the measurable family that agrees with it on `D` are the same. -/
theorem Runs.isRun_iff (r : Runs D K K') {θ : Θ} (hθ : θ ∈ D) : IsRun K θ P X ↔ IsRun K' θ P X := by
  have huniv : ∀ n, {ω | ∀ i ≤ n, X i ω ∈ (fun _ : ℕ => (Set.univ : Set Θ)) i} = Set.univ := by
    intro n
    simp
  constructor
  · intro h
    have hst := r.run_stays (P := P) (X := X) h.meas (h.first.trans (r.eq θ hθ)) fun n => by
      have := h.next n (fun _ => Set.univ) (fun _ => MeasurableSet.univ) Dᶜ r.measD.compl
      rwa [huniv, Set.univ_inter, setLIntegral_univ] at this
    refine ⟨h.meas, h.first.trans (r.eq θ hθ), fun n S hS B hB => ?_⟩
    rw [h.next n S hS B hB]
    refine lintegral_congr_ae (ae_restrict_of_ae ?_)
    filter_upwards [hst n] with ω hω
    rw [r.eq _ hω]
  · intro h
    have hst : ∀ n, ∀ᵐ ω ∂P, X n ω ∈ D := by
      intro n
      cases n with
      | zero =>
        have h1 := r.stays θ
        rw [← h.first] at h1
        exact (ae_map_iff (h.meas 0).aemeasurable r.measD).1 h1
      | succ n =>
        have h2 := h.next n (fun _ => Set.univ) (fun _ => MeasurableSet.univ) Dᶜ r.measD.compl
        rw [huniv, Set.univ_inter, setLIntegral_univ, lintegral_congr (g := fun _ => 0), lintegral_zero] at h2
        · exact measure_eq_zero_iff_ae_notMem.1 h2 |>.mono fun ω hω => not_not.1 hω
        · exact fun ω => measure_eq_zero_iff_ae_notMem.2 ((r.stays _).mono fun x hx => not_not.2 hx)
    refine ⟨h.meas, h.first.trans (r.eq θ hθ).symm, fun n S hS B hB => ?_⟩
    rw [h.next n S hS B hB]
    refine lintegral_congr_ae (ae_restrict_of_ae ?_)
    filter_upwards [hst n] with ω hω
    rw [r.eq _ hω]

/-- There is a run from every start. -/
theorem Runs.exists_run (r : Runs D K K') {θ : Θ} (hθ : θ ∈ D) :
    ∃ (Ω : Type) (_ : MeasurableSpace Ω) (P : Measure Ω) (X : ℕ → Ω → Θ), IsProbabilityMeasure P ∧
      IsRun K θ P X :=
  ⟨ℕ → Θ, inferInstance, pathLaw r.meas r.prob θ, fun n s => s n, isProbabilityMeasure_pathLaw _ _ _,
    (r.isRun_iff hθ).2 (isRun_pathLaw r.meas r.prob θ)⟩

/-- If the laws of repeated calls converge to `π`, averages converge almost surely. -/
theorem Runs.strongAverages (r : Runs D K K') {π : Measure Θ} [IsProbabilityMeasure π]
    (hc : ConvergesFrom D π K) : StrongAverages D π K := by
  intro θ hθ Ω _ P X hP hrun f hf hi
  have hc' : ConvergesFrom D π K' := by
    intro x hx S hS
    simpa only [r.calls_eq hx] using hc x hx S hS
  have hst : π.bind K' = π := (stationary_of_tendsto r.meas r.prob (hc' θ hθ)).2
  have h := ae_tendsto_average r.meas r.prob r.stays hc' hst hf hi θ
  have hm : Measurable fun ω n => X n ω := measurable_pi_lambda _ hrun.meas
  rw [← pathLaw_eq r.meas r.prob ((r.isRun_iff hθ).1 hrun)] at h
  exact ae_of_ae_map hm.aemeasurable h

/-- The values of a run have the laws of repeated calls. -/
theorem IsRun.law {θ : Θ} (h : IsRun K' θ P X) (hK : Measurable K') (n : ℕ) :
    P.map (X n) = calls K' (n + 1) θ := by
  induction n with
  | zero =>
    rw [h.first, (calls_succ' hK 0).2 θ]
    exact (Measure.bind_dirac (m := K' θ)).symm
  | succ n ih =>
    rw [calls, ← ih]
    have := h.map_next hK n (S := fun _ => Set.univ) fun _ => MeasurableSet.univ
    simp only [Set.mem_univ, implies_true, Set.ofPred_true, Measure.restrict_univ] at this
    rw [this]
    refine Measure.ext fun B hB => ?_
    rw [Measure.bind_apply (f := fun ω => K' (X n ω)) hB (hK.comp (h.meas n)).aemeasurable,
      Measure.bind_apply hB hK.aemeasurable,
      lintegral_map (f := fun x => K' x B) ((Measure.measurable_coe hB).comp hK) (h.meas n)]

/-- If averages converge almost surely, the step keeps the limit. -/
theorem Runs.stationary_of_strong (r : Runs D K K') {θ : Θ} (hθ : θ ∈ D) {π : Measure Θ}
    [IsProbabilityMeasure π] (h : StrongAverages {θ} π K) : Stationary π K := by
  have hP := isProbabilityMeasure_pathLaw r.meas r.prob θ
  have hrun := isRun_pathLaw r.meas r.prob θ
  have h0 : π.bind K' = π := by
    refine stationary_of_cesaro r.meas r.prob (θ := θ) fun f B hf hB => ?_
    have hB0 : 0 ≤ B := (abs_nonneg _).trans (hB θ)
    have hi : ∀ (μ : Measure Θ) [IsFiniteMeasure μ], Integrable f μ := fun μ _ =>
      Integrable.of_bound hf.aestronglyMeasurable B (ae_of_all _ hB)
    have h1 := h θ rfl (ℕ → Θ) (pathLaw r.meas r.prob θ) (fun n s => s n) hP
      ((r.isRun_iff hθ).2 hrun) f hf (hi π)
    have hm : ∀ n : ℕ, Measurable fun s : ℕ → Θ => (∑ i ∈ Finset.range n, f (s i)) / (n : ℝ) := by
      intro n
      fun_prop
    have h2 := tendsto_integral_of_dominated_convergence (fun _ => B)
      (fun n => (hm n).aestronglyMeasurable) (integrable_const _) (fun n => ae_of_all _ fun s => by
        rw [Real.norm_eq_abs, abs_div, Nat.abs_cast]
        rcases Nat.eq_zero_or_pos n with rfl | hn
        · simpa using hB0
        · rw [div_le_iff₀ (by exact_mod_cast hn)]
          refine (Finset.abs_sum_le_sum_abs _ _).trans ((Finset.sum_le_sum fun i _ => hB (s i)).trans_eq ?_)
          simp [mul_comm]) h1
    rw [integral_const, probReal_univ, one_smul] at h2
    refine h2.congr fun n => ?_
    rw [integral_div, integral_finsetSum]
    · congr 1
      refine Finset.sum_congr rfl fun i _ => ?_
      rw [← hrun.law r.meas i, integral_map (hrun.meas i).aemeasurable hf.aestronglyMeasurable]
    · intro i _
      exact Integrable.of_bound (hf.comp (hrun.meas i)).aestronglyMeasurable B (ae_of_all _ fun s => hB (s i))
  have hD : ∀ᵐ x ∂π, x ∈ D := by
    rw [← h0]
    exact ae_bind r.meas.aemeasurable r.measD (ae_of_all _ r.stays)
  have hs : Stationary π K' := ⟨r.meas.aemeasurable, h0⟩
  exact hs.congr_ae (by filter_upwards [hD] with x hx using (r.eq x hx).symm)

/-- For a step whose invariant law is the limit of its laws: averages along every run from one start
converge to expectations under `π` exactly when the step keeps `π`. -/
theorem Runs.strong_iff (r : Runs D K K') {θ : Θ} (hθ : θ ∈ D) {π : Measure Θ} [IsProbabilityMeasure π]
    (hc : Stationary π K → ConvergesFrom D π K) : StrongAverages {θ} π K ↔ Stationary π K :=
  ⟨r.stationary_of_strong hθ, fun h => (r.strongAverages (hc h)).mono (Set.singleton_subset_iff.2 hθ)⟩

end Verif
