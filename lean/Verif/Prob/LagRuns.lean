import Verif.Prob.StrongRuns
import Verif.Rev.DataAug

/-!
# Pairs of values along a run, thinned or not

If the laws of repeated calls converge event by event, averages of functions of two values a fixed number of calls
apart converge almost surely, along the whole run and along every `k`-th value, from any value on.
-/

open MeasureTheory ProbabilityTheory Filter
open scoped ENNReal Topology

namespace Verif

/-- Spec.  From every start in `D`, in every run of the step `K`, averages over `i` of a function of the values
number `m + k i` and `m + k i + l` converge with probability one to its expectation under the joint law of a draw
from `π` and the value `l` calls later, whatever the number `m` of values left out at the beginning and the
distance `k` of the values kept. -/
def LagAverages {Θ : Type} [MeasurableSpace Θ] (D : Set Θ) (π : Measure Θ) (K : Θ → Measure Θ) : Prop :=
  ∀ θ ∈ D, ∀ (Ω : Type) [MeasurableSpace Ω] (P : Measure Ω) (X : ℕ → Ω → Θ), IsProbabilityMeasure P →
    IsRun K θ P X → ∀ m k l : ℕ, 0 < k → ∀ g : Θ × Θ → ℝ, Measurable g → Integrable g (atLag π K l) →
      ∀ᵐ ω ∂P, Tendsto (fun n : ℕ => (∑ i ∈ Finset.range n, g (X (m + k * i) ω, X (m + k * i + l) ω)) / n) atTop
        (𝓝 (∫ q, g q ∂atLag π K l))

/-- Spec.  From every start in `D`, in every run of the step `K`, averages over every `k`-th value, the first `m` left
out, converge with probability one to expectations under `π`. -/
def ThinnedAverages {Θ : Type} [MeasurableSpace Θ] (m k : ℕ) (D : Set Θ) (π : Measure Θ) (K : Θ → Measure Θ) : Prop :=
  ∀ θ ∈ D, ∀ (Ω : Type) [MeasurableSpace Ω] (P : Measure Ω) (X : ℕ → Ω → Θ), IsProbabilityMeasure P →
    IsRun K θ P X → ∀ f : Θ → ℝ, Measurable f → Integrable f π →
      ∀ᵐ ω ∂P, Tendsto (fun n : ℕ => (∑ i ∈ Finset.range n, f (X (m + k * i) ω)) / n) atTop (𝓝 (∫ x, f x ∂π))

/-- Spec.  Mean of the first `n` entries. -/
noncomputable def sampleMean (a : ℕ → ℝ) (n : ℕ) : ℝ := (∑ i ∈ Finset.range n, a i) / n

/-- Spec.  The autocovariance at lag `l` estimated from the first `n` entries. -/
noncomputable def sampleAutocov (a : ℕ → ℝ) (l n : ℕ) : ℝ :=
  (∑ i ∈ Finset.range (n - l), (a i - sampleMean a n) * (a (i + l) - sampleMean a n)) / n

/-- Spec.  From every start in `D`, in every run of `K`, the estimated autocovariances of every function of finite
variance converge with probability one to those of the sampler in equilibrium. -/
def AutocovConverges {Θ : Type} [MeasurableSpace Θ] (D : Set Θ) (π : Measure Θ) (K : Θ → Measure Θ) : Prop :=
  ∀ θ ∈ D, ∀ (Ω : Type) [MeasurableSpace Ω] (P : Measure Ω) (X : ℕ → Ω → Θ), IsProbabilityMeasure P →
    IsRun K θ P X → ∀ f : Θ → ℝ, Measurable f → MemLp f 2 π → ∀ l,
      ∀ᵐ ω ∂P, Tendsto (sampleAutocov (fun i => f (X i ω)) l) atTop (𝓝 (autocov π K f l))

section

variable {Θ : Type} [MeasurableSpace Θ]
variable {K : Θ → Measure Θ} (hK : Measurable K) (hp : ∀ θ, IsProbabilityMeasure (K θ))

theorem measurable_tail_iterate (k : ℕ) : Measurable (tailSeq (Θ := Θ))^[k] := measurable_tail.iterate k

theorem pathLaw_tail_iterate (k : ℕ) (θ : Θ) :
    (pathLaw hK hp θ).map tailSeq^[k] = (calls K k θ).bind (pathLaw hK hp) := by
  induction k with
  | zero =>
    rw [Function.iterate_zero, Measure.map_id, calls]
    exact (Measure.dirac_bind (measurable_pathLaw hK hp) θ).symm
  | succ k ih =>
    rw [Function.iterate_succ', ← Measure.map_map measurable_tail (measurable_tail_iterate k), ih,
      map_bind (measurable_pathLaw hK hp).aemeasurable measurable_tail]
    simp only [pathLaw_tail]
    rw [← Measure.bind_bind hK.aemeasurable (measurable_pathLaw hK hp).aemeasurable]
    rfl

theorem pathLaw_later {A : Set (ℕ → Θ)} (hA : MeasurableSet A) (k : ℕ) (θ : Θ) :
    pathLaw hK hp θ (tailSeq^[k] ⁻¹' A) = ∫⁻ y, pathLaw hK hp y A ∂calls K k θ := by
  rw [← Measure.map_apply (measurable_tail_iterate k) hA, pathLaw_tail_iterate,
    Measure.bind_apply hA (measurable_pathLaw hK hp).aemeasurable]

omit [MeasurableSpace Θ] in
theorem preimage_iterate_mul {A : Set (ℕ → Θ)} {k : ℕ} (hT : tailSeq^[k] ⁻¹' A = A) (j : ℕ) :
    tailSeq^[k * j] ⁻¹' A = A := by
  induction j with
  | zero => rfl
  | succ j ih =>
    rw [Nat.mul_succ, Function.iterate_add, Set.preimage_comp, ih, hT]

/-- Events that do not change when `k` values are left out have the same probability from every start. -/
theorem pathLaw_const_iterate {D : Set Θ} (hDm : MeasurableSet D)
    (hD : ∀ θ, ∀ᵐ x ∂K θ, x ∈ D) {π : Measure Θ} [IsProbabilityMeasure π]
    (hc : ConvergesFrom D π K) {k : ℕ} (hk : 0 < k) {A : Set (ℕ → Θ)} (hA : MeasurableSet A)
    (hT : tailSeq^[k] ⁻¹' A = A) : ∃ c : ℝ≥0∞, ∀ θ, pathLaw hK hp θ A = c := by
  have hpr := isProbabilityMeasure_pathLaw hK hp
  have hm : Measurable fun y => pathLaw hK hp y A :=
    (Measure.measurable_coe hA).comp (measurable_pathLaw hK hp)
  have hj : ∀ θ j, ∫⁻ y, pathLaw hK hp y A ∂calls K (k * j) θ = pathLaw hK hp θ A := by
    intro θ j
    rw [← pathLaw_later hK hp hA, preimage_iterate_mul hT]
  have hlim : Tendsto (fun j : ℕ => k * j) atTop atTop := tendsto_id.const_mul_atTop' hk
  have hD1 : ∀ θ ∈ D, (pathLaw hK hp θ A).toReal = ∫ y, (pathLaw hK hp y A).toReal ∂π := by
    intro θ hθ
    have h1 := tendsto_integral_of_events (fun k => prob_calls hK hp k θ) (hc θ hθ) (g := fun y =>
      (pathLaw hK hp y A).toReal) hm.ennreal_toReal (B := 1) (fun y => by
        rw [abs_of_nonneg ENNReal.toReal_nonneg]
        exact ENNReal.toReal_le_of_le_ofReal zero_le_one (by simpa using prob_le_one))
    have h3 := h1.comp hlim
    have h2 : ∀ j, ∫ y, (pathLaw hK hp y A).toReal ∂calls K (k * j) θ = (pathLaw hK hp θ A).toReal := by
      intro j
      rw [integral_toReal hm.aemeasurable (ae_of_all _ fun y => measure_lt_top _ _), hj]
    simp only [Function.comp_def, h2] at h3
    exact tendsto_nhds_unique tendsto_const_nhds h3
  have hD2 : ∀ θ ∈ D, pathLaw hK hp θ A = ENNReal.ofReal (∫ y, (pathLaw hK hp y A).toReal ∂π) := by
    intro θ hθ
    rw [← hD1 θ hθ, ENNReal.ofReal_toReal (measure_ne_top _ _)]
  refine ⟨ENNReal.ofReal (∫ y, (pathLaw hK hp y A).toReal ∂π), fun θ => ?_⟩
  have hst : ∀ᵐ y ∂calls K k θ, y ∈ D := by
    obtain ⟨k, rfl⟩ : ∃ j, k = j + 1 := ⟨k - 1, by omega⟩
    exact ae_bind hK.aemeasurable hDm (ae_of_all _ hD)
  have h4 := hj θ 1
  rw [mul_one] at h4
  rw [← h4, lintegral_congr_ae (g := fun _ => ENNReal.ofReal (∫ y, (pathLaw hK hp y A).toReal ∂π))
    (hst.mono fun y hy => hD2 y hy)]
  have := prob_calls hK hp k θ
  rw [lintegral_const, measure_univ, mul_one]

/-- What happens after the first values is independent of them if its probability does not depend on the start. -/
theorem pathLaw_indep_later {B : Set (ℕ → Θ)} (hB : MeasurableSet B) {c : ℝ≥0∞}
    (hc : ∀ θ, pathLaw hK hp θ B = c) (n : ℕ) {S : ℕ → Set Θ} (hS : ∀ i, MeasurableSet (S i)) (θ : Θ) :
    pathLaw hK hp θ ({s | ∀ i ≤ n, s i ∈ S i} ∩ tailSeq^[n + 1] ⁻¹' B) =
      c * pathLaw hK hp θ {s | ∀ i ≤ n, s i ∈ S i} := by
  have hcA : ∀ n y, consSeq y ⁻¹' (tailSeq^[n + 1] ⁻¹' B) = tailSeq^[n] ⁻¹' B := by
    intro n y
    rw [Function.iterate_succ]
    rfl
  induction n generalizing S θ with
  | zero =>
    have hm := measurableSet_hist (X := fun n (s : ℕ → Θ) => s n) (fun n => measurable_pi_apply n) hS 0
    have hA := measurable_tail_iterate (Θ := Θ) (0 + 1) hB
    rw [pathLaw_first hK hp θ, Measure.bind_apply (hm.inter hA) (measurable_pathLaw_cons hK hp).aemeasurable,
      Measure.bind_apply hm (measurable_pathLaw_cons hK hp).aemeasurable,
      ← lintegral_const_mul (f := fun y => (pathLaw hK hp y).map (consSeq y) _) _
        ((Measure.measurable_coe hm).comp (measurable_pathLaw_cons hK hp))]
    refine lintegral_congr fun y => ?_
    have hpr := isProbabilityMeasure_pathLaw hK hp y
    rw [Measure.map_apply (measurable_consSeq_right y) (hm.inter hA),
      Measure.map_apply (measurable_consSeq_right y) hm, Set.preimage_inter, hcA]
    by_cases hy : y ∈ S 0
    · have e2 : consSeq y ⁻¹' {s | ∀ i ≤ 0, s i ∈ S i} = Set.univ := by
        refine Set.eq_univ_of_forall fun s i hi => ?_
        obtain rfl : i = 0 := by omega
        exact hy
      rw [e2, Set.univ_inter, measure_univ, mul_one]
      exact hc y
    · have e2 : consSeq y ⁻¹' {s | ∀ i ≤ 0, s i ∈ S i} = ∅ :=
        Set.eq_empty_of_forall_notMem fun s hs => hy (hs 0 le_rfl)
      rw [e2, Set.empty_inter, measure_empty, mul_zero]
  | succ n ih =>
    have hm := measurableSet_hist (X := fun n (s : ℕ → Θ) => s n) (fun n => measurable_pi_apply n) hS (n + 1)
    have hA := measurable_tail_iterate (Θ := Θ) (n + 1 + 1) hB
    rw [pathLaw_first hK hp θ, Measure.bind_apply (hm.inter hA) (measurable_pathLaw_cons hK hp).aemeasurable,
      Measure.bind_apply hm (measurable_pathLaw_cons hK hp).aemeasurable,
      ← lintegral_const_mul (f := fun y => (pathLaw hK hp y).map (consSeq y) _) _
        ((Measure.measurable_coe hm).comp (measurable_pathLaw_cons hK hp))]
    refine lintegral_congr fun y => ?_
    rw [Measure.map_apply (measurable_consSeq_right y) (hm.inter hA),
      Measure.map_apply (measurable_consSeq_right y) hm, Set.preimage_inter, hcA]
    by_cases hy : y ∈ S 0
    · have e2 : consSeq y ⁻¹' {s | ∀ i ≤ n + 1, s i ∈ S i} = {s | ∀ i ≤ n, s i ∈ S (i + 1)} := by
        ext s
        constructor
        · exact fun h i hi => h (i + 1) (by omega)
        · intro h i hi
          cases i with
          | zero => exact hy
          | succ i => exact h i (by omega)
      rw [e2]
      exact ih (S := fun i => S (i + 1)) (fun i => hS _) y
    · have e2 : consSeq y ⁻¹' {s | ∀ i ≤ n + 1, s i ∈ S i} = ∅ :=
        Set.eq_empty_of_forall_notMem fun s hs => hy (hs 0 (Nat.zero_le _))
      rw [e2, Set.empty_inter, measure_empty, mul_zero]

theorem pathLaw_zero_one_iterate {k : ℕ} (hk : 0 < k) {A : Set (ℕ → Θ)} (hA : MeasurableSet A)
    (hT : tailSeq^[k] ⁻¹' A = A) {c : ℝ≥0∞} (hc : ∀ θ, pathLaw hK hp θ A = c) (θ : Θ) : c = 0 ∨ c = 1 := by
  have hpr := isProbabilityMeasure_pathLaw hK hp θ
  have h : (pathLaw hK hp θ).restrict A = c • pathLaw hK hp θ := by
    refine seq_ext fun n S hS => ?_
    have hm := measurableSet_hist (X := fun n (s : ℕ → Θ) => s n) (fun n => measurable_pi_apply n) hS n
    obtain ⟨j, hj⟩ : ∃ j, k * (n + 1) = j + (n + 1) := by
      obtain ⟨i, rfl⟩ : ∃ i, k = i + 1 := ⟨k - 1, by omega⟩
      exact ⟨i * (n + 1), by ring⟩
    have eA : A = tailSeq^[n + 1] ⁻¹' (tailSeq^[j] ⁻¹' A) := by
      rw [← Set.preimage_comp, ← Function.iterate_add, ← hj, preimage_iterate_mul hT]
    have hB : ∀ y, pathLaw hK hp y (tailSeq^[j] ⁻¹' A) = c := by
      intro y
      have := prob_calls hK hp j y
      rw [pathLaw_later hK hp hA]
      simp only [hc, lintegral_const, measure_univ, mul_one]
    rw [Measure.restrict_apply hm]
    conv_lhs => rw [eA]
    rw [pathLaw_indep_later hK hp (measurable_tail_iterate j hA) hB n hS θ]
    rfl
  have h1 := congrArg (fun m => m A) h
  simp only [Measure.restrict_apply_self, Measure.smul_apply, smul_eq_mul, hc] at h1
  have hfin : c ≠ ∞ := by rw [← hc θ]; exact measure_ne_top _ _
  by_cases h0 : c = 0
  · exact Or.inl h0
  · right
    have h2 : c * 1 = c * c := by rw [mul_one]; exact h1
    exact ((ENNReal.mul_right_inj h0 hfin).1 h2).symm

theorem map_tail_stationary {π : Measure Θ} (hst : π.bind K = π) :
    (π.bind (pathLaw hK hp)).map tailSeq = π.bind (pathLaw hK hp) := by
  rw [map_bind (measurable_pathLaw hK hp).aemeasurable measurable_tail]
  simp only [pathLaw_tail]
  rw [← Measure.bind_bind hK.aemeasurable (measurable_pathLaw hK hp).aemeasurable, hst]

theorem ergodic_tail_iterate {D : Set Θ} (hDm : MeasurableSet D)
    (hD : ∀ θ, ∀ᵐ x ∂K θ, x ∈ D) {π : Measure Θ} [IsProbabilityMeasure π]
    (hc : ConvergesFrom D π K) (hst : π.bind K = π) {k : ℕ} (hk : 0 < k) (θ : Θ) :
    Ergodic tailSeq^[k] (π.bind (pathLaw hK hp)) where
  toMeasurePreserving := MeasurePreserving.iterate ⟨measurable_tail, map_tail_stationary hK hp hst⟩ k
  aeconst_set A hA hT := by
    obtain ⟨c, hcc⟩ := pathLaw_const_iterate hK hp hDm hD hc hk hA hT
    have h1 : π.bind (pathLaw hK hp) A = c := by
      rw [Measure.bind_apply hA (measurable_pathLaw hK hp).aemeasurable]
      simp [hcc]
    have hpr : IsProbabilityMeasure (π.bind (pathLaw hK hp)) :=
      isProbabilityMeasure_bind (measurable_pathLaw hK hp).aemeasurable
        (ae_of_all _ (isProbabilityMeasure_pathLaw hK hp))
    rw [eventuallyConst_set']
    rcases pathLaw_zero_one_iterate hK hp hk hA hT hcc θ with h0 | h0
    · left
      rw [ae_eq_empty, h1, h0]
    · right
      rw [ae_eq_univ, prob_compl_eq_zero_iff hA, h1, h0]

/-- **Strong law for functions of the whole later run**, at every `k`-th value. -/
theorem ae_tendsto_average_path {D : Set Θ} (hDm : MeasurableSet D)
    (hD : ∀ θ, ∀ᵐ x ∂K θ, x ∈ D) {π : Measure Θ} [IsProbabilityMeasure π]
    (hc : ConvergesFrom D π K) (hst : π.bind K = π) {k : ℕ} (hk : 0 < k) {G : (ℕ → Θ) → ℝ} (hG : Measurable G)
    (hi : Integrable G (π.bind (pathLaw hK hp))) (θ : Θ) : ∀ᵐ s ∂pathLaw hK hp θ,
      Tendsto (fun n : ℕ => (∑ i ∈ Finset.range n, G (tailSeq^[k * i] s)) / n) atTop
        (𝓝 (∫ s, G s ∂π.bind (pathLaw hK hp))) := by
  have hprb : IsProbabilityMeasure (π.bind (pathLaw hK hp)) :=
    isProbabilityMeasure_bind (measurable_pathLaw hK hp).aemeasurable
      (ae_of_all _ (isProbabilityMeasure_pathLaw hK hp))
  let E : Set (ℕ → Θ) := {s | Tendsto (fun n : ℕ => (∑ i ∈ Finset.range n, G (tailSeq^[k * i] s)) / n) atTop
    (𝓝 (∫ s, G s ∂π.bind (pathLaw hK hp)))}
  have hEm : MeasurableSet E := measurableSet_tendsto _ fun n =>
    (Finset.measurable_sum _ fun i _ => hG.comp (measurable_tail_iterate _)).div_const _
  have hET : tailSeq^[k] ⁻¹' E = E := by
    ext s
    have h := tendsto_average_tail (fun i => G (tailSeq^[k * i] s)) (∫ s, G s ∂π.bind (pathLaw hK hp))
    simp only [Nat.mul_succ, Function.iterate_add_apply] at h
    exact h
  have hE1 : ∀ᵐ s ∂π.bind (pathLaw hK hp), s ∈ E := by
    filter_upwards [ae_tendsto_birkhoffSum_div (ergodic_tail_iterate hK hp hDm hD hc hst hk θ) hG hi] with s hs
    simp only [birkhoffSum, ← Function.iterate_mul] at hs
    exact hs
  obtain ⟨c, hcc⟩ := pathLaw_const_iterate hK hp hDm hD hc hk hEm hET
  have h1 : c = 1 := by
    have h2 : π.bind (pathLaw hK hp) E = 1 := (mem_ae_iff_prob_eq_one hEm).1 hE1
    rw [Measure.bind_apply hEm (measurable_pathLaw hK hp).aemeasurable] at h2
    simpa [hcc] using h2
  have hpr := isProbabilityMeasure_pathLaw hK hp θ
  have h3 : pathLaw hK hp θ E = 1 := by rw [hcc, h1]
  exact mem_ae_iff_prob_eq_one hEm |>.2 h3

/-! ### Pairs -/

include hK hp in
theorem measurable_lagKernel (l : ℕ) : Measurable fun θ => (calls K l θ).map (Prod.mk θ) := by
  refine Measure.measurable_of_measurable_coe _ fun S hS => ?_
  let κ : Kernel Θ Θ := ⟨calls K l, (calls_succ' hK l).1⟩
  have : IsMarkovKernel κ := ⟨fun y => prob_calls hK hp l y⟩
  have h : Measurable fun a => κ a (Prod.mk a ⁻¹' S) := Kernel.measurable_kernel_prodMk_left hS
  have e : (fun θ => (calls K l θ).map (Prod.mk θ) S) = fun a => κ a (Prod.mk a ⁻¹' S) := by
    funext θ
    rw [Measure.map_apply measurable_prodMk_left hS]
    rfl
  rw [e]
  exact h

theorem map_pair_pathLaw (l : ℕ) (θ : Θ) : (pathLaw hK hp θ).map (fun s => (s 0, s l)) =
    (K θ).bind fun y => (calls K l y).map (Prod.mk y) := by
  have hm : Measurable fun s : ℕ → Θ => (s 0, s l) := (measurable_pi_apply 0).prodMk (measurable_pi_apply l)
  rw [pathLaw_first hK hp θ, map_bind (measurable_pathLaw_cons hK hp).aemeasurable hm]
  congr 1
  funext y
  have hpr := isProbabilityMeasure_pathLaw hK hp y
  rw [Measure.map_map hm (measurable_consSeq_right y)]
  cases l with
  | zero =>
    have e : (fun s : ℕ → Θ => (s 0, s 0)) ∘ consSeq y = fun _ => (y, y) := rfl
    rw [e, Measure.map_const, measure_univ, one_smul, calls, Measure.map_dirac' measurable_prodMk_left]
  | succ l =>
    have e : (fun s : ℕ → Θ => (s 0, s (l + 1))) ∘ consSeq y = Prod.mk y ∘ fun s => s l := rfl
    have e2 : (pathLaw hK hp y).map (Prod.mk y ∘ fun s => s l) =
        ((pathLaw hK hp y).map fun s => s l).map (Prod.mk y) :=
      (Measure.map_map measurable_prodMk_left (measurable_pi_apply l)).symm
    rw [e, e2, (isRun_pathLaw hK hp y).law hK l]

theorem map_pair_stationary {π : Measure Θ} (hst : π.bind K = π) (m l : ℕ) :
    (π.bind (pathLaw hK hp)).map (fun s => (s m, s (m + l))) = atLag π K l := by
  have hm : Measurable fun s : ℕ → Θ => (s 0, s l) := (measurable_pi_apply 0).prodMk (measurable_pi_apply l)
  have e : (fun s : ℕ → Θ => (s m, s (m + l))) = (fun s => (s 0, s l)) ∘ tailSeq^[m] := by
    funext s
    simp only [Function.comp_apply, tailSeq_iterate, zero_add]
    rw [add_comm m l]
  have ht : (π.bind (pathLaw hK hp)).map tailSeq^[m] = π.bind (pathLaw hK hp) :=
    (MeasurePreserving.iterate ⟨measurable_tail, map_tail_stationary hK hp hst⟩ m).map_eq
  rw [e, ← Measure.map_map hm (measurable_tail_iterate m), ht,
    map_bind (measurable_pathLaw hK hp).aemeasurable hm]
  simp only [map_pair_pathLaw]
  rw [← Measure.bind_bind hK.aemeasurable (measurable_lagKernel hK hp l).aemeasurable, hst]
  rfl

include hK hp in
theorem atLag_marginals {π : Measure Θ} (hst : π.bind K = π) (l : ℕ) :
    (atLag π K l).map Prod.fst = π ∧ (atLag π K l).map Prod.snd = π := by
  have h0 : ∀ m, (π.bind (pathLaw hK hp)).map (fun s => s m) = π := by
    intro m
    have ht : (π.bind (pathLaw hK hp)).map tailSeq^[m] = π.bind (pathLaw hK hp) :=
      (MeasurePreserving.iterate ⟨measurable_tail, map_tail_stationary hK hp hst⟩ m).map_eq
    have e : (fun s : ℕ → Θ => s m) = (fun s => s 0) ∘ tailSeq^[m] := by
      funext s
      simp only [Function.comp_apply, tailSeq_iterate, zero_add]
    rw [e, ← Measure.map_map (measurable_pi_apply 0) (measurable_tail_iterate m), ht,
      map_bind (measurable_pathLaw hK hp).aemeasurable (measurable_pi_apply 0)]
    simp only [(isRun_pathLaw hK hp _).first]
    exact hst
  have hm : Measurable fun s : ℕ → Θ => (s 0, s (0 + l)) :=
    (measurable_pi_apply 0).prodMk (measurable_pi_apply _)
  rw [← map_pair_stationary hK hp hst 0 l, Measure.map_map measurable_fst hm, Measure.map_map measurable_snd hm]
  exact ⟨h0 0, h0 (0 + l)⟩

end

/-! ### Runs of a step -/

variable {Θ : Type} [MeasurableSpace Θ] {D : Set Θ} {K K' : Θ → Measure Θ}

/-- The law that repeated calls converge to is concentrated on `D`. -/
theorem Runs.ae_mem_of_converges (r : Runs D K K') {π : Measure Θ} (hst : π.bind K' = π) : ∀ᵐ x ∂π, x ∈ D := by
  rw [← hst]
  exact ae_bind r.meas.aemeasurable r.measD (ae_of_all _ r.stays)

theorem Runs.lagAverages (r : Runs D K K') {π : Measure Θ} [IsProbabilityMeasure π] (hc : ConvergesFrom D π K) :
    LagAverages D π K := by
  intro θ hθ Ω _ P X hP hrun m k l hk g hg hi
  have hc' : ConvergesFrom D π K' := by
    intro x hx S hS
    simpa only [r.calls_eq hx] using hc x hx S hS
  have hst : π.bind K' = π := (stationary_of_tendsto r.meas r.prob (hc' θ hθ)).2
  rw [r.atLag_eq (r.ae_mem_of_converges hst)] at hi ⊢
  have hmp : Measurable fun s : ℕ → Θ => (s m, s (m + l)) := (measurable_pi_apply _).prodMk (measurable_pi_apply _)
  rw [← map_pair_stationary r.meas r.prob hst m l] at hi ⊢
  rw [integral_map hmp.aemeasurable hg.aestronglyMeasurable]
  have h := ae_tendsto_average_path r.meas r.prob r.measD r.stays hc' hst hk (hg.comp hmp)
    (hi.comp_measurable hmp) θ
  have hm : Measurable fun ω n => X n ω := measurable_pi_lambda _ hrun.meas
  rw [← pathLaw_eq r.meas r.prob ((r.isRun_iff hθ).1 hrun)] at h
  have h2 := ae_of_ae_map hm.aemeasurable h
  filter_upwards [h2] with ω hω
  refine hω.congr fun n => ?_
  congr 1
  refine Finset.sum_congr rfl fun i _ => ?_
  simp only [Function.comp_apply, tailSeq_iterate]
  rw [add_right_comm m l]

/-- Averages over single values are a special case. -/
theorem LagAverages.thinned {π : Measure Θ} (h : LagAverages D π K) (m : ℕ) {k : ℕ} (hk : 0 < k) :
    ThinnedAverages m k D π K := by
  intro θ hθ Ω _ P X hP hrun f hf hi
  have e : atLag π K 0 = π.map fun x => (x, x) := by
    have hd : (fun θ : Θ => (calls K 0 θ).map (Prod.mk θ)) = fun θ => Measure.dirac (θ, θ) := by
      funext θ
      rw [calls, Measure.map_dirac' measurable_prodMk_left]
    rw [atLag, hd]
    exact Measure.bind_dirac_eq_map π (measurable_id.prodMk measurable_id)
  have hm : Measurable fun x : Θ => (x, x) := measurable_id.prodMk measurable_id
  have hg : Measurable fun q : Θ × Θ => f q.1 := hf.comp measurable_fst
  have h1 := h θ hθ Ω P X hP hrun m k 0 hk (fun q => f q.1) hg (by
    rw [e, integrable_map_measure hg.aestronglyMeasurable hm.aemeasurable]
    exact hi)
  rw [e, integral_map hm.aemeasurable hg.aestronglyMeasurable] at h1
  exact h1

theorem ThinnedAverages.strong {π : Measure Θ} (h : ThinnedAverages 0 1 D π K) : StrongAverages D π K := by
  intro θ hθ Ω _ P X hP hrun f hf hi
  simpa only [zero_add, one_mul] using h θ hθ Ω P X hP hrun f hf hi

theorem ThinnedAverages.mono {m k : ℕ} {D' : Set Θ} {π : Measure Θ} (h : ThinnedAverages m k D π K) (hD : D' ⊆ D) :
    ThinnedAverages m k D' π K := fun θ hθ => h θ (hD hθ)

/-- For a step whose laws converge, thinned averages from one start identify the limit. -/
theorem Runs.thinned_iff (r : Runs D K K') {θ : Θ} (hθ : θ ∈ D) {π π' : Measure Θ} [IsProbabilityMeasure π]
    [IsProbabilityMeasure π'] (hc : ConvergesFrom D π K) (m : ℕ) {k : ℕ} (hk : 0 < k) :
    ThinnedAverages m k {θ} π' K ↔ π' = π := by
  have h1 : ThinnedAverages m k {θ} π K := ((r.lagAverages hc).thinned m hk).mono (Set.singleton_subset_iff.2 hθ)
  refine ⟨fun h => ?_, fun h => h ▸ h1⟩
  obtain ⟨Ω, _, P, X, hP, hr⟩ := r.exists_run hθ
  refine Measure.ext fun S hS => ?_
  have hm : Measurable (S.indicator fun _ => (1 : ℝ)) := measurable_const.indicator hS
  have hi : ∀ (μ : Measure Θ) [IsProbabilityMeasure μ], Integrable (S.indicator fun _ => (1 : ℝ)) μ := fun μ _ =>
    (integrable_const _).indicator hS
  obtain ⟨ω, ha, hb⟩ := ((h θ rfl Ω P X hP hr _ hm (hi π')).and (h1 θ rfl Ω P X hP hr _ hm (hi π))).exists
  have e := tendsto_nhds_unique ha hb
  have e1 : ∀ (μ : Measure Θ) [IsProbabilityMeasure μ], ∫ x, S.indicator (fun _ => (1 : ℝ)) x ∂μ = μ.real S :=
    fun μ _ => integral_indicator_one hS
  rw [e1, e1] at e
  exact (measureReal_eq_measureReal_iff).1 e

/-! ### Autocovariances -/

theorem tendsto_sampleMean_shift {a : ℕ → ℝ} {μ : ℝ} (h : Tendsto (sampleMean a) atTop (𝓝 μ)) (l : ℕ) :
    Tendsto (fun n : ℕ => (∑ i ∈ Finset.range n, a (i + l)) / n) atTop (𝓝 μ) := by
  induction l with
  | zero => exact h
  | succ l ih =>
    have := (tendsto_average_tail (fun i => a (i + l)) μ).2 ih
    refine this.congr fun n => ?_
    congr 1
    refine Finset.sum_congr rfl fun i _ => ?_
    rw [add_right_comm, add_assoc]

theorem tendsto_sampleAutocov {a : ℕ → ℝ} {μ v : ℝ} {l : ℕ} (h : Tendsto (sampleMean a) atTop (𝓝 μ))
    (h2 : Tendsto (fun n : ℕ => (∑ i ∈ Finset.range n, a i * a (i + l)) / n) atTop (𝓝 v)) :
    Tendsto (sampleAutocov a l) atTop (𝓝 (v - μ * μ)) := by
  rw [← tendsto_add_atTop_iff_nat l]
  have hM : Tendsto (fun n => sampleMean a (n + l)) atTop (𝓝 μ) := (tendsto_add_atTop_iff_nat l).2 h
  have hr : Tendsto (fun n : ℕ => (n : ℝ) / ((n : ℝ) + l)) atTop (𝓝 1) := tendsto_natCast_div_add_atTop (l : ℝ)
  have h3 := tendsto_sampleMean_shift h l
  have hlim := (((h2.sub (hM.mul h)).sub (hM.mul h3)).add (hM.mul hM)).mul hr
  have e : (v - μ * μ - μ * μ + μ * μ) * 1 = v - μ * μ := by ring
  rw [e] at hlim
  refine hlim.congr' ?_
  filter_upwards [eventually_gt_atTop 0] with n hn
  have hn' : (n : ℝ) ≠ 0 := by exact_mod_cast hn.ne'
  have hnl : (n : ℝ) + l ≠ 0 := by positivity
  rw [sampleAutocov, Nat.add_sub_cancel]
  have hs : ∑ i ∈ Finset.range n, (a i - sampleMean a (n + l)) * (a (i + l) - sampleMean a (n + l)) =
      ∑ i ∈ Finset.range n, a i * a (i + l) - sampleMean a (n + l) * ∑ i ∈ Finset.range n, a i -
        sampleMean a (n + l) * ∑ i ∈ Finset.range n, a (i + l) + n * (sampleMean a (n + l) * sampleMean a (n + l)) := by
    have e1 : ∀ i, (a i - sampleMean a (n + l)) * (a (i + l) - sampleMean a (n + l)) =
        a i * a (i + l) - sampleMean a (n + l) * a i - sampleMean a (n + l) * a (i + l) +
          sampleMean a (n + l) * sampleMean a (n + l) := fun i => by ring
    simp only [e1, Finset.sum_add_distrib, Finset.sum_sub_distrib, Finset.sum_const, Finset.card_range, nsmul_eq_mul,
      ← Finset.mul_sum]
  rw [hs]
  have hsm : sampleMean a n = (∑ i ∈ Finset.range n, a i) / n := rfl
  rw [hsm]
  generalize sampleMean a (n + l) = M
  push_cast
  field_simp

theorem Runs.autocovConverges (r : Runs D K K') {π : Measure Θ} [IsProbabilityMeasure π]
    (hc : ConvergesFrom D π K) : AutocovConverges D π K := by
  intro θ hθ Ω _ P X hP hrun f hf hf2 l
  have hc' : ConvergesFrom D π K' := by
    intro x hx S hS
    simpa only [r.calls_eq hx] using hc x hx S hS
  have hst : π.bind K' = π := (stationary_of_tendsto r.meas r.prob (hc' θ hθ)).2
  have hlag := r.atLag_eq (r.ae_mem_of_converges hst)
  obtain ⟨hm1, hm2⟩ := atLag_marginals r.meas r.prob hst l
  have hpr : IsProbabilityMeasure (atLag π K' l) := by
    have : IsProbabilityMeasure ((atLag π K' l).map Prod.fst) := by rwa [hm1]
    exact Measure.isProbabilityMeasure_of_map Prod.fst
  have hL1 : MemLp (fun q : Θ × Θ => f q.1) 2 (atLag π K' l) := by
    have h' : MemLp f 2 ((atLag π K' l).map Prod.fst) := by rwa [hm1]
    exact h'.comp_of_map measurable_fst.aemeasurable
  have hL2 : MemLp (fun q : Θ × Θ => f q.2) 2 (atLag π K' l) := by
    have h' : MemLp f 2 ((atLag π K' l).map Prod.snd) := by rwa [hm2]
    exact h'.comp_of_map measurable_snd.aemeasurable
  have hI1 : ∫ q, f q.1 ∂atLag π K' l = ∫ x, f x ∂π := by
    conv_rhs => rw [← hm1]
    rw [integral_map measurable_fst.aemeasurable hf.aestronglyMeasurable]
  have hI2 : ∫ q, f q.2 ∂atLag π K' l = ∫ x, f x ∂π := by
    conv_rhs => rw [← hm2]
    rw [integral_map measurable_snd.aemeasurable hf.aestronglyMeasurable]
  have hcov : autocov π K f l = ∫ q, f q.1 * f q.2 ∂atLag π K l - (∫ x, f x ∂π) * ∫ x, f x ∂π := by
    rw [autocov, hlag, covariance_eq_sub hL1 hL2, hI1, hI2]
    rfl
  have ha := r.strongAverages hc θ hθ Ω P X hP hrun f hf (hf2.integrable one_le_two)
  have hb := r.lagAverages hc θ hθ Ω P X hP hrun 0 1 l one_pos (fun q => f q.1 * f q.2)
    ((hf.comp measurable_fst).mul (hf.comp measurable_snd)) (by rw [hlag]; exact hL1.integrable_mul hL2)
  filter_upwards [ha, hb] with ω h1 h2
  rw [hcov]
  refine tendsto_sampleAutocov h1 ?_
  simpa only [zero_add, one_mul] using h2

end Verif
