import Verif.Rev.Lemmas
import Verif.Prob.Paths

/-!
# Means of successive draws in equilibrium
-/

open MeasureTheory ProbabilityTheory
open scoped ENNReal

namespace Verif

variable {Θ Ω : Type*} [MeasurableSpace Θ] [MeasurableSpace Ω] {π : Measure Θ} {K K' : Θ → Measure Θ}
  {P : Measure Ω} {Z : ℕ → Ω → Θ}

namespace IsEquilibriumRun

theorem next_one (h : IsEquilibriumRun π K P Z) (n : ℕ) {B : Set Θ} (hB : MeasurableSet B) :
    P (Z (n + 1) ⁻¹' B) = ∫⁻ ω, K (Z n ω) B ∂P := by
  have := h.next n (fun _ => Set.univ) (fun _ => MeasurableSet.univ) B hB
  simp only [Set.mem_univ, implies_true, Set.ofPred_true, Set.univ_inter, Measure.restrict_univ] at this
  exact this

/-- Every value has the law `π`. -/
theorem law (h : IsEquilibriumRun π K P Z) (hst : Stationary π K) (n : ℕ) : P.map (Z n) = π := by
  induction n with
  | zero => exact h.first
  | succ n ih =>
    refine Measure.ext fun B hB => ?_
    have hae : AEMeasurable (fun x => K x B) (P.map (Z n)) := by
      rw [ih]
      exact (Measure.measurable_coe hB).comp_aemeasurable hst.1
    rw [Measure.map_apply (h.meas _) hB, h.next_one n hB,
      ← lintegral_map' (f := fun x => K x B) hae (h.meas n).aemeasurable, ih,
      ← Measure.bind_apply hB hst.1, hst.2]

theorem congr (h : IsEquilibriumRun π K P Z) (hst : Stationary π K) (hK : K =ᵐ[π] K') :
    IsEquilibriumRun π K' P Z where
  meas := h.meas
  first := h.first
  next n S hS B hB := by
    rw [h.next n S hS B hB]
    refine lintegral_congr_ae (ae_restrict_of_ae ?_)
    have h1 : ∀ᵐ x ∂P.map (Z n), K x = K' x := by
      rw [h.law hst n]
      exact hK
    filter_upwards [ae_of_ae_map (h.meas n).aemeasurable h1] with ω h2
    rw [h2]

theorem lintegral_next (h : IsEquilibriumRun π K P Z) (hK : Measurable K) (n : ℕ) {S : ℕ → Set Θ}
    (hS : ∀ i, MeasurableSet (S i)) {g : Θ → ℝ≥0∞} (hg : Measurable g) :
    ∫⁻ ω in {ω | ∀ i ≤ n, Z i ω ∈ S i}, g (Z (n + 1) ω) ∂P =
      ∫⁻ ω in {ω | ∀ i ≤ n, Z i ω ∈ S i}, ∫⁻ x, g x ∂K (Z n ω) ∂P := by
  have e : (P.restrict {ω | ∀ i ≤ n, Z i ω ∈ S i}).map (Z (n + 1)) =
      (P.restrict {ω | ∀ i ≤ n, Z i ω ∈ S i}).bind fun ω => K (Z n ω) := by
    refine Measure.ext fun B hB => ?_
    rw [Measure.map_apply (h.meas _) hB,
      Measure.bind_apply (f := fun ω => K (Z n ω)) hB (hK.comp (h.meas n)).aemeasurable,
      Measure.restrict_apply (h.meas _ hB), Set.inter_comm]
    exact h.next n S hS B hB
  rw [← lintegral_map hg (h.meas _), e,
    Measure.lintegral_bind (μ := fun ω => K (Z n ω)) (hK.comp (h.meas n)).aemeasurable hg.aemeasurable]

/-- Two values `k` calls apart. -/
theorem lintegral_lag (h : IsEquilibriumRun π K P Z) (hK : Measurable K) (hst : Stationary π K) (i k : ℕ)
    {S : Set Θ} (hS : MeasurableSet S) {g : Θ → ℝ≥0∞} (hg : Measurable g) :
    ∫⁻ ω in Z i ⁻¹' S, g (Z (i + k) ω) ∂P = ∫⁻ θ in S, ∫⁻ x, g x ∂calls K k θ ∂π := by
  induction k generalizing g with
  | zero =>
    have := h.law hst i
    rw [add_zero, ← setLIntegral_map hS hg (h.meas i), this]
    refine lintegral_congr fun θ => ?_
    rw [calls, lintegral_dirac' _ hg]
  | succ k ih =>
    have e : Z i ⁻¹' S = {ω | ∀ j ≤ i + k, Z j ω ∈ if j = i then S else Set.univ} := by
      ext ω
      constructor
      · intro h1 j _
        split_ifs with h2
        · rw [h2]
          exact h1
        · trivial
      · intro h1
        have := h1 i (by omega)
        rwa [if_pos rfl] at this
    have h1 := h.lintegral_next hK (i + k) (S := fun j => if j = i then S else Set.univ)
      (fun j => by
        split_ifs
        · exact hS
        · exact MeasurableSet.univ) hg
    rw [← e] at h1
    rw [← add_assoc, h1, ih (g := fun y => ∫⁻ x, g x ∂K y) ((Measure.measurable_lintegral hg).comp hK)]
    refine lintegral_congr fun θ => ?_
    rw [calls, Measure.lintegral_bind hK.aemeasurable hg.aemeasurable]

theorem pair_law [IsProbabilityMeasure P] [IsProbabilityMeasure π] (h : IsEquilibriumRun π K P Z)
    (hK : Measurable K) (hp : ∀ θ, IsProbabilityMeasure (K θ)) (hst : Stationary π K) (i k : ℕ) :
    P.map (fun ω => (Z i ω, Z (i + k) ω)) = atLag π K k := by
  let κ : Kernel Θ Θ := ⟨K, hK⟩
  have hκ : IsMarkovKernel κ := ⟨hp⟩
  have hm : Measurable fun ω => (Z i ω, Z (i + k) ω) := (h.meas i).prodMk (h.meas _)
  have := Measure.isProbabilityMeasure_map (μ := P) hm.aemeasurable
  change _ = atLag π κ k
  rw [atLag_eq]
  refine Measure.ext_prod fun {S T} hS hT => ?_
  rw [Measure.map_apply hm (hS.prod hT), Measure.compProd_apply_prod hS hT]
  have h1 := h.lintegral_lag hK hst i k hS (g := T.indicator 1) (measurable_one.indicator hT)
  simp only [lintegral_indicator_one hT] at h1
  have e : (fun ω => T.indicator (1 : Θ → ℝ≥0∞) (Z (i + k) ω)) = (Z (i + k) ⁻¹' T).indicator 1 := by
    funext ω
    rfl
  rw [e, lintegral_indicator_one (h.meas _ hT), Measure.restrict_apply (h.meas _ hT)] at h1
  simp only [callsK_apply]
  refine Eq.trans ?_ h1
  rw [Set.inter_comm]
  rfl

theorem cov_pair [IsProbabilityMeasure P] [IsProbabilityMeasure π] (h : IsEquilibriumRun π K P Z)
    (hK : Measurable K) (hp : ∀ θ, IsProbabilityMeasure (K θ)) (hst : Stationary π K) {f : Θ → ℝ}
    (hf : MemLp f 2 π) (i k : ℕ) :
    cov[fun ω => f (Z i ω), fun ω => f (Z (i + k) ω); P] = autocov π K f k := by
  have hm : Measurable fun ω => (Z i ω, Z (i + k) ω) := (h.meas i).prodMk (h.meas _)
  have h1 : AEStronglyMeasurable (fun q : Θ × Θ => f q.1) (P.map fun ω => (Z i ω, Z (i + k) ω)) := by
    refine AEStronglyMeasurable.comp_measurable (g := f) ?_ measurable_fst
    rw [Measure.map_map measurable_fst hm]
    exact (h.law hst i).symm ▸ hf.aestronglyMeasurable
  have h2 : AEStronglyMeasurable (fun q : Θ × Θ => f q.2) (P.map fun ω => (Z i ω, Z (i + k) ω)) := by
    refine AEStronglyMeasurable.comp_measurable (g := f) ?_ measurable_snd
    rw [Measure.map_map measurable_snd hm]
    exact (h.law hst (i + k)).symm ▸ hf.aestronglyMeasurable
  rw [autocov, ← h.pair_law hK hp hst i k, covariance_map_fun h1 h2 hm.aemeasurable]

theorem memLp (h : IsEquilibriumRun π K P Z) (hst : Stationary π K) {f : Θ → ℝ}
    (hf : MemLp f 2 π) (i : ℕ) : MemLp (fun ω => f (Z i ω)) 2 P :=
  hf.comp_measurePreserving ⟨h.meas i, h.law hst i⟩

end IsEquilibriumRun

theorem noGain [IsProbabilityMeasure π] (hK : Measurable K) (hp : ∀ θ, IsProbabilityMeasure (K θ))
    (hst : Stationary π K) (hf : FadingCovariances π K) : NoGain π K := by
  intro Ω _ P Z hP h f hf2 N hN
  obtain ⟨h0, hnn, hanti, -⟩ := hf f hf2
  have hc : ∀ i j, cov[fun ω => f (Z i ω), fun ω => f (Z j ω); P] = autocov π K f (max i j - min i j) := by
    intro i j
    rcases le_total i j with hij | hij
    · have := h.cov_pair hK hp hst hf2 i (j - i)
      rw [Nat.add_sub_cancel' hij] at this
      rw [this, max_eq_right hij, min_eq_left hij]
    · have := h.cov_pair hK hp hst hf2 j (i - j)
      rw [Nat.add_sub_cancel' hij] at this
      rw [covariance_comm, this, max_eq_left hij, min_eq_right hij]
  have hN' : (0 : ℝ) < N := by exact_mod_cast hN
  have hv : variance (fun ω => (∑ i ∈ Finset.range N, f (Z i ω)) / N) P =
      (∑ i ∈ Finset.range N, ∑ j ∈ Finset.range N, autocov π K f (max i j - min i j)) * ((N : ℝ)⁻¹) ^ 2 := by
    simp only [div_eq_mul_inv]
    rw [variance_mul_const, variance_fun_sum' fun i _ => h.memLp hst hf2 i]
    simp only [hc]
  rw [hv, ← h0]
  constructor
  · have : N * autocov π K f 0 ≤
        ∑ i ∈ Finset.range N, ∑ j ∈ Finset.range N, autocov π K f (max i j - min i j) := by
      rw [← nsmul_eq_mul]
      conv_lhs => rw [← Finset.card_range N]
      refine Finset.card_nsmul_le_sum _ _ _ fun i hi => ?_
      have := Finset.single_le_sum (f := fun j => autocov π K f (max i j - min i j)) (fun j _ => hnn _) hi
      simpa using this
    calc autocov π K f 0 / N = (N * autocov π K f 0) * ((N : ℝ)⁻¹) ^ 2 := by
          field_simp
      _ ≤ _ := mul_le_mul_of_nonneg_right this (sq_nonneg _)
  · have : ∑ i ∈ Finset.range N, ∑ j ∈ Finset.range N, autocov π K f (max i j - min i j) ≤
        N * (N * autocov π K f 0) := by
      rw [← nsmul_eq_mul, ← nsmul_eq_mul]
      conv_rhs => rw [← Finset.card_range N]
      refine Finset.sum_le_card_nsmul _ _ _ fun i _ => ?_
      rw [Finset.card_range]
      conv_rhs => rw [← Finset.card_range N]
      exact Finset.sum_le_card_nsmul _ _ _ fun j _ => hanti (Nat.zero_le _)
    calc _ ≤ (N * (N * autocov π K f 0)) * ((N : ℝ)⁻¹) ^ 2 := mul_le_mul_of_nonneg_right this (sq_nonneg _)
      _ = _ := by field_simp

theorem Runs.noGain {D : Set Θ} (r : Runs D K K') [IsProbabilityMeasure π] (hD : ∀ᵐ θ ∂π, θ ∈ D)
    (hst : Stationary π K) (hf : FadingCovariances π K') : NoGain π K := by
  have e : K =ᵐ[π] K' := by filter_upwards [hD] with θ hθ using r.eq θ hθ
  intro Ω _ P Z hP h
  exact Verif.noGain r.meas r.prob (hst.congr_ae e) hf Ω P Z hP (h.congr hst e)

/-- Runs in equilibrium exist. -/
theorem exists_equilibriumRun [IsProbabilityMeasure π] (hK : Measurable K)
    (hp : ∀ θ, IsProbabilityMeasure (K θ)) (hst : Stationary π K) :
    ∃ P : Measure (ℕ → Θ), IsProbabilityMeasure P ∧ IsEquilibriumRun π K P fun n s => s n := by
  have hm := measurable_pathLaw hK hp
  have hpr := isProbabilityMeasure_pathLaw hK hp
  refine ⟨π.bind (pathLaw hK hp), isProbabilityMeasure_bind hm.aemeasurable (ae_of_all _ hpr),
    fun n => measurable_pi_apply n, ?_, fun n S hS B hB => ?_⟩
  · refine Measure.ext fun B hB => ?_
    have e : ∀ θ, pathLaw hK hp θ ((fun s : ℕ → Θ => s 0) ⁻¹' B) = K θ B := by
      intro θ
      rw [← Measure.map_apply (measurable_pi_apply 0) hB, (isRun_pathLaw hK hp θ).first]
    rw [Measure.map_apply (measurable_pi_apply 0) hB,
      Measure.bind_apply (measurable_pi_apply 0 hB) hm.aemeasurable]
    simp only [e]
    rw [← Measure.bind_apply hB hst.1, hst.2]
  · have hh := measurableSet_hist (X := fun n (s : ℕ → Θ) => s n) (fun n => measurable_pi_apply n) hS n
    have hB' : MeasurableSet {s : ℕ → Θ | s (n + 1) ∈ B} := measurable_pi_apply (n + 1) hB
    have hKB : Measurable fun s : ℕ → Θ => K (s n) B :=
      (Measure.measurable_coe hB).comp (hK.comp (measurable_pi_apply n))
    rw [Measure.bind_apply (hh.inter hB') hm.aemeasurable, ← lintegral_indicator hh,
      Measure.lintegral_bind hm.aemeasurable (hKB.indicator hh).aemeasurable]
    refine lintegral_congr fun θ => ?_
    rw [(isRun_pathLaw hK hp θ).next n S hS B hB, lintegral_indicator hh]

end Verif
