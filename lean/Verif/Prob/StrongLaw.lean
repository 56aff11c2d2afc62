import Verif.Prob.Paths
import Verif.Prob.Birkhoff
import Verif.Prob.AveragesConv

/-!
# The strong law for the values a step returns

If the laws of repeated calls converge event by event to `π` from every start, the averages of every
`π`-integrable function over the returned values converge almost surely to its expectation.
-/

open MeasureTheory ProbabilityTheory Filter
open scoped ENNReal Topology

namespace Verif

variable {Θ : Type*} [MeasurableSpace Θ]

/-- The sequence without its first value. -/
def tailSeq (s : ℕ → Θ) (n : ℕ) : Θ := s (n + 1)

theorem measurable_tail : Measurable (tailSeq (Θ := Θ)) := measurable_tailSeq

section

variable {K : Θ → Measure Θ} (hK : Measurable K) (hp : ∀ θ, IsProbabilityMeasure (K θ))

theorem pathLaw_invariant {A : Set (ℕ → Θ)} (hA : MeasurableSet A) (hT : tailSeq ⁻¹' A = A) (θ : Θ) :
    pathLaw hK hp θ A = ∫⁻ y, pathLaw hK hp y A ∂K θ := by
  conv_lhs => rw [pathLaw_first hK hp θ]
  rw [Measure.bind_apply hA (measurable_pathLaw_cons hK hp).aemeasurable]
  refine lintegral_congr fun y => ?_
  rw [Measure.map_apply (measurable_consSeq_right y) hA]
  congr 1
  conv_lhs => rw [← hT]
  rfl

theorem pathLaw_invariant_calls {A : Set (ℕ → Θ)} (hA : MeasurableSet A) (hT : tailSeq ⁻¹' A = A) (θ : Θ)
    (k : ℕ) : pathLaw hK hp θ A = ∫⁻ y, pathLaw hK hp y A ∂calls K k θ := by
  have hm : Measurable fun y => pathLaw hK hp y A :=
    (Measure.measurable_coe hA).comp (measurable_pathLaw hK hp)
  induction k with
  | zero => rw [calls, lintegral_dirac' _ hm]
  | succ k ih =>
    rw [calls, Measure.lintegral_bind hK.aemeasurable hm.aemeasurable, ih]
    exact lintegral_congr fun y => pathLaw_invariant hK hp hA hT y

/-- Events that do not depend on the first values have the same probability from every start. -/
theorem pathLaw_const {D : Set Θ} (hD : ∀ θ, ∀ᵐ x ∂K θ, x ∈ D) {π : Measure Θ} [IsProbabilityMeasure π]
    (hc : ConvergesFrom D π K) {A : Set (ℕ → Θ)} (hA : MeasurableSet A) (hT : tailSeq ⁻¹' A = A) :
    ∃ c : ℝ≥0∞, ∀ θ, pathLaw hK hp θ A = c := by
  have hpr := isProbabilityMeasure_pathLaw hK hp
  have hm : Measurable fun y => pathLaw hK hp y A :=
    (Measure.measurable_coe hA).comp (measurable_pathLaw hK hp)
  have hD1 : ∀ θ ∈ D, (pathLaw hK hp θ A).toReal = ∫ y, (pathLaw hK hp y A).toReal ∂π := by
    intro θ hθ
    have h1 := tendsto_integral_of_events (fun k => prob_calls hK hp k θ) (hc θ hθ) (g := fun y =>
      (pathLaw hK hp y A).toReal) hm.ennreal_toReal (B := 1) (fun y => by
        rw [abs_of_nonneg ENNReal.toReal_nonneg]
        exact ENNReal.toReal_le_of_le_ofReal zero_le_one (by simpa using prob_le_one))
    have h2 : ∀ k, ∫ y, (pathLaw hK hp y A).toReal ∂calls K k θ = (pathLaw hK hp θ A).toReal := by
      intro k
      rw [integral_toReal hm.aemeasurable (ae_of_all _ fun y => measure_lt_top _ _),
        ← pathLaw_invariant_calls hK hp hA hT]
    simp only [h2] at h1
    exact tendsto_nhds_unique tendsto_const_nhds h1
  have hD2 : ∀ θ ∈ D, pathLaw hK hp θ A = ENNReal.ofReal (∫ y, (pathLaw hK hp y A).toReal ∂π) := by
    intro θ hθ
    rw [← hD1 θ hθ, ENNReal.ofReal_toReal (measure_ne_top _ _)]
  refine ⟨ENNReal.ofReal (∫ y, (pathLaw hK hp y A).toReal ∂π), fun θ => ?_⟩
  rw [pathLaw_invariant hK hp hA hT θ, lintegral_congr_ae (g := fun _ =>
    ENNReal.ofReal (∫ y, (pathLaw hK hp y A).toReal ∂π)) ((hD θ).mono fun y hy => hD2 y hy)]
  have := hp θ
  rw [lintegral_const, measure_univ, mul_one]

/-- … and are independent of the first values. -/
theorem pathLaw_indep {A : Set (ℕ → Θ)} (hA : MeasurableSet A) (hT : tailSeq ⁻¹' A = A) {c : ℝ≥0∞}
    (hc : ∀ θ, pathLaw hK hp θ A = c) (n : ℕ) {S : ℕ → Set Θ} (hS : ∀ i, MeasurableSet (S i)) (θ : Θ) :
    pathLaw hK hp θ ({s | ∀ i ≤ n, s i ∈ S i} ∩ A) = c * pathLaw hK hp θ {s | ∀ i ≤ n, s i ∈ S i} := by
  have hcA : ∀ y s, consSeq y s ∈ A ↔ s ∈ A := by
    intro y s
    conv_lhs => rw [← hT]
    rfl
  induction n generalizing S θ with
  | zero =>
    have hm := measurableSet_hist (X := fun n (s : ℕ → Θ) => s n) (fun n => measurable_pi_apply n) hS 0
    rw [pathLaw_first hK hp θ, Measure.bind_apply (hm.inter hA) (measurable_pathLaw_cons hK hp).aemeasurable,
      Measure.bind_apply hm (measurable_pathLaw_cons hK hp).aemeasurable,
      ← lintegral_const_mul (f := fun y => (pathLaw hK hp y).map (consSeq y) _) _
        ((Measure.measurable_coe hm).comp (measurable_pathLaw_cons hK hp))]
    refine lintegral_congr fun y => ?_
    have hpr := isProbabilityMeasure_pathLaw hK hp y
    rw [Measure.map_apply (measurable_consSeq_right y) (hm.inter hA),
      Measure.map_apply (measurable_consSeq_right y) hm]
    by_cases hy : y ∈ S 0
    · have e1 : consSeq y ⁻¹' ({s | ∀ i ≤ 0, s i ∈ S i} ∩ A) = A := by
        ext s
        constructor
        · exact fun h => (hcA y s).1 h.2
        · refine fun h => ⟨fun i hi => ?_, (hcA y s).2 h⟩
          obtain rfl : i = 0 := by omega
          exact hy
      have e2 : consSeq y ⁻¹' {s | ∀ i ≤ 0, s i ∈ S i} = Set.univ := by
        refine Set.eq_univ_of_forall fun s i hi => ?_
        obtain rfl : i = 0 := by omega
        exact hy
      rw [e1, e2, measure_univ, mul_one, hc]
    · have e2 : consSeq y ⁻¹' {s | ∀ i ≤ 0, s i ∈ S i} = ∅ :=
        Set.eq_empty_of_forall_notMem fun s hs => hy (hs 0 le_rfl)
      rw [Set.preimage_inter, e2, Set.empty_inter, measure_empty, mul_zero]
  | succ n ih =>
    have hm := measurableSet_hist (X := fun n (s : ℕ → Θ) => s n) (fun n => measurable_pi_apply n) hS (n + 1)
    rw [pathLaw_first hK hp θ, Measure.bind_apply (hm.inter hA) (measurable_pathLaw_cons hK hp).aemeasurable,
      Measure.bind_apply hm (measurable_pathLaw_cons hK hp).aemeasurable,
      ← lintegral_const_mul (f := fun y => (pathLaw hK hp y).map (consSeq y) _) _
        ((Measure.measurable_coe hm).comp (measurable_pathLaw_cons hK hp))]
    refine lintegral_congr fun y => ?_
    rw [Measure.map_apply (measurable_consSeq_right y) (hm.inter hA),
      Measure.map_apply (measurable_consSeq_right y) hm]
    by_cases hy : y ∈ S 0
    · have e2 : consSeq y ⁻¹' {s | ∀ i ≤ n + 1, s i ∈ S i} = {s | ∀ i ≤ n, s i ∈ S (i + 1)} := by
        ext s
        constructor
        · exact fun h i hi => h (i + 1) (by omega)
        · intro h i hi
          cases i with
          | zero => exact hy
          | succ i => exact h i (by omega)
      have e3 : consSeq y ⁻¹' A = A := by
        ext s
        exact hcA y s
      rw [Set.preimage_inter, e2, e3]
      exact ih (S := fun i => S (i + 1)) (fun i => hS _) y
    · have e2 : consSeq y ⁻¹' {s | ∀ i ≤ n + 1, s i ∈ S i} = ∅ :=
        Set.eq_empty_of_forall_notMem fun s hs => hy (hs 0 (Nat.zero_le _))
      rw [Set.preimage_inter, e2, Set.empty_inter, measure_empty, mul_zero]

/-- … so they have probability zero or one. -/
theorem pathLaw_zero_one {A : Set (ℕ → Θ)} (hA : MeasurableSet A) (hT : tailSeq ⁻¹' A = A) {c : ℝ≥0∞}
    (hc : ∀ θ, pathLaw hK hp θ A = c) [Nonempty Θ] : c = 0 ∨ c = 1 := by
  obtain ⟨θ⟩ := ‹Nonempty Θ›
  have hpr := isProbabilityMeasure_pathLaw hK hp θ
  have h : (pathLaw hK hp θ).restrict A = c • pathLaw hK hp θ := by
    refine seq_ext fun n S hS => ?_
    have hm := measurableSet_hist (X := fun n (s : ℕ → Θ) => s n) (fun n => measurable_pi_apply n) hS n
    rw [Measure.restrict_apply hm, pathLaw_indep hK hp hA hT hc n hS θ]
    rfl
  have h1 := congrArg (fun m => m A) h
  simp only [Measure.restrict_apply_self, Measure.smul_apply, smul_eq_mul, hc] at h1
  have hfin : c ≠ ∞ := by rw [← hc θ]; exact measure_ne_top _ _
  by_cases h0 : c = 0
  · exact Or.inl h0
  · right
    have h2 : c * 1 = c * c := by rw [mul_one]; exact h1
    exact ((ENNReal.mul_right_inj h0 hfin).1 h2).symm

/-! ### The stationary run -/

theorem pathLaw_tail (θ : Θ) : (pathLaw hK hp θ).map tailSeq = (K θ).bind (pathLaw hK hp) := by
  conv_lhs => rw [pathLaw_first hK hp θ]
  rw [map_bind (measurable_pathLaw_cons hK hp).aemeasurable measurable_tail]
  congr 1
  funext y
  rw [Measure.map_map measurable_tail (measurable_consSeq_right y)]
  exact Measure.map_id

theorem ergodic_tail {D : Set Θ} (hD : ∀ θ, ∀ᵐ x ∂K θ, x ∈ D) {π : Measure Θ} [IsProbabilityMeasure π]
    (hc : ConvergesFrom D π K) (hst : π.bind K = π) [Nonempty Θ] :
    Ergodic tailSeq (π.bind (pathLaw hK hp)) where
  measurable := measurable_tail
  map_eq := by
    rw [map_bind (measurable_pathLaw hK hp).aemeasurable measurable_tail]
    simp only [pathLaw_tail]
    rw [← Measure.bind_bind hK.aemeasurable (measurable_pathLaw hK hp).aemeasurable, hst]
  aeconst_set A hA hT := by
    obtain ⟨c, hcc⟩ := pathLaw_const hK hp hD hc hA hT
    have h1 : π.bind (pathLaw hK hp) A = c := by
      rw [Measure.bind_apply hA (measurable_pathLaw hK hp).aemeasurable]
      simp [hcc]
    have hpr : IsProbabilityMeasure (π.bind (pathLaw hK hp)) :=
      isProbabilityMeasure_bind (measurable_pathLaw hK hp).aemeasurable
        (ae_of_all _ (isProbabilityMeasure_pathLaw hK hp))
    rw [eventuallyConst_set']
    rcases pathLaw_zero_one hK hp hA hT hcc with h0 | h0
    · left
      rw [ae_eq_empty, h1, h0]
    · right
      rw [ae_eq_univ, prob_compl_eq_zero_iff hA, h1, h0]

omit [MeasurableSpace Θ] in
theorem tailSeq_iterate (s : ℕ → Θ) (i n : ℕ) : tailSeq^[i] s n = s (n + i) := by
  induction i generalizing s with
  | zero => rfl
  | succ i ih =>
    rw [Function.iterate_succ_apply, ih]
    simp only [tailSeq]
    congr 1

theorem tendsto_average_tail (a : ℕ → ℝ) (m : ℝ) :
    Tendsto (fun n : ℕ => (∑ i ∈ Finset.range n, a (i + 1)) / n) atTop (𝓝 m) ↔
      Tendsto (fun n : ℕ => (∑ i ∈ Finset.range n, a i) / n) atTop (𝓝 m) := by
  have h0 : Tendsto (fun n : ℕ => a 0 / ((n : ℝ) + 1)) atTop (𝓝 0) := by
    have := (tendsto_one_div_add_atTop_nhds_zero_nat (𝕜 := ℝ)).const_mul (a 0)
    simpa [div_eq_mul_inv] using this
  have h1 : Tendsto (fun n : ℕ => (n : ℝ) / ((n : ℝ) + 1)) atTop (𝓝 1) := tendsto_natCast_div_add_atTop 1
  rw [← tendsto_add_atTop_iff_nat (f := fun n : ℕ => (∑ i ∈ Finset.range n, a i) / n) 1]
  constructor
  · intro h
    have h2 := (h.mul h1).add h0
    rw [mul_one, add_zero] at h2
    refine h2.congr' ?_
    filter_upwards [eventually_gt_atTop 0] with n hn
    have : (0 : ℝ) < n := by exact_mod_cast hn
    rw [Finset.sum_range_succ']
    push_cast
    field_simp
  · intro h
    have h2 := (h.sub h0).div h1 one_ne_zero
    rw [sub_zero, div_one] at h2
    refine h2.congr' ?_
    filter_upwards [eventually_gt_atTop 0] with n hn
    have : (0 : ℝ) < n := by exact_mod_cast hn
    rw [Pi.div_apply]
    rw [Finset.sum_range_succ']
    push_cast
    field_simp
    ring

/-- **Strong law.** -/
theorem ae_tendsto_average {D : Set Θ} (hD : ∀ θ, ∀ᵐ x ∂K θ, x ∈ D) {π : Measure Θ} [IsProbabilityMeasure π]
    (hc : ConvergesFrom D π K) (hst : π.bind K = π) {f : Θ → ℝ} (hf : Measurable f) (hi : Integrable f π)
    (θ : Θ) : ∀ᵐ s ∂pathLaw hK hp θ,
      Tendsto (fun n : ℕ => (∑ i ∈ Finset.range n, f (s i)) / n) atTop (𝓝 (∫ x, f x ∂π)) := by
  have : Nonempty Θ := ⟨θ⟩
  have hprb : IsProbabilityMeasure (π.bind (pathLaw hK hp)) :=
    isProbabilityMeasure_bind (measurable_pathLaw hK hp).aemeasurable
      (ae_of_all _ (isProbabilityMeasure_pathLaw hK hp))
  set E : Set (ℕ → Θ) := {s | Tendsto (fun n : ℕ => (∑ i ∈ Finset.range n, f (s i)) / n) atTop
    (𝓝 (∫ x, f x ∂π))} with hE
  have hEm : MeasurableSet E := measurableSet_tendsto _ fun n =>
    (Finset.measurable_sum _ fun i _ => hf.comp (measurable_pi_apply i)).div_const _
  have hET : tailSeq ⁻¹' E = E := by
    ext s
    exact tendsto_average_tail (fun i => f (s i)) _
  have hlaw : (π.bind (pathLaw hK hp)).map (fun s => s 0) = π := by
    rw [map_bind (measurable_pathLaw hK hp).aemeasurable (measurable_pi_apply 0)]
    simp only [(isRun_pathLaw hK hp _).first]
    exact hst
  have hm0 : Measurable fun s : ℕ → Θ => s 0 := measurable_pi_apply 0
  have hfi : Integrable (fun s : ℕ → Θ => f (s 0)) (π.bind (pathLaw hK hp)) := by
    have : Integrable f ((π.bind (pathLaw hK hp)).map fun s => s 0) := by rwa [hlaw]
    exact this.comp_measurable hm0
  have hint : ∫ s, f (s 0) ∂π.bind (pathLaw hK hp) = ∫ x, f x ∂π := by
    rw [← hlaw, integral_map hm0.aemeasurable hf.aestronglyMeasurable, hlaw]
  have hB := ae_tendsto_birkhoffSum_div (ergodic_tail hK hp hD hc hst) (hf.comp hm0) hfi
  have hE1 : ∀ᵐ s ∂π.bind (pathLaw hK hp), s ∈ E := by
    filter_upwards [hB] with s hs
    have e : ∀ n, birkhoffSum tailSeq (f ∘ fun s : ℕ → Θ => s 0) n s = ∑ i ∈ Finset.range n, f (s i) := by
      intro n
      simp [birkhoffSum, tailSeq_iterate]
    simp only [e] at hs
    have e2 : ∫ s, (f ∘ fun s : ℕ → Θ => s 0) s ∂π.bind (pathLaw hK hp) = ∫ x, f x ∂π := hint
    rw [e2] at hs
    exact hs
  obtain ⟨c, hcc⟩ := pathLaw_const hK hp hD hc hEm hET
  have h1 : c = 1 := by
    have h2 : π.bind (pathLaw hK hp) E = 1 := (mem_ae_iff_prob_eq_one hEm).1 hE1
    rw [Measure.bind_apply hEm (measurable_pathLaw hK hp).aemeasurable] at h2
    simpa [hcc] using h2
  have hpr := isProbabilityMeasure_pathLaw hK hp θ
  have h3 : pathLaw hK hp θ E = 1 := by rw [hcc, h1]
  exact mem_ae_iff_prob_eq_one hEm |>.2 h3

end

end Verif
