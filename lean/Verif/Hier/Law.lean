import Verif.Prob.Doeblin

/-!
# A step whose first coordinate moves on its own
-/

open MeasureTheory ProbabilityTheory Filter
open scoped ENNReal Topology

namespace Verif.Hier

variable {Θ Φ : Type*} [MeasurableSpace Θ] [MeasurableSpace Φ]

/-- A law that is kept by a step which converges to `π` from almost every start is `π`. -/
theorem eq_of_converges {D : Set Θ} {π ν : Measure Θ} [IsProbabilityMeasure ν] {N : Θ → Measure Θ}
    (hN : Measurable N) (hp : ∀ t, IsProbabilityMeasure (N t)) (hν : ν.bind N = ν)
    (hD : ∀ᵐ t ∂ν, t ∈ D) (hc : ConvergesFrom D π N) : ν = π := by
  ext S hS
  have h1 : ∀ k, ∫⁻ t, calls N k t S ∂ν = ν S := fun k => by
    rw [← Measure.bind_apply hS (calls_succ' hN k).1.aemeasurable, bind_calls hN hν]
  have h2 : Tendsto (fun k => ∫⁻ t, calls N k t S ∂ν) atTop (𝓝 (∫⁻ _, π S ∂ν)) := by
    refine tendsto_lintegral_of_dominated_convergence (fun _ => 1)
      (fun k => (Measure.measurable_coe hS).comp (calls_succ' hN k).1) (fun k => ae_of_all _ fun t => ?_)
      (by simp) ?_
    · have := prob_calls hN hp k t
      exact prob_le_one
    · filter_upwards [hD] with t ht
      exact hc t ht S hS
  simp only [h1, lintegral_const, measure_univ, mul_one] at h2
  exact tendsto_nhds_unique tendsto_const_nhds h2

variable {K : Θ × Φ → Measure (Θ × Φ)} {N : Θ → Measure Θ} {G : Set (Θ × Φ)}

theorem map_fst_bind (hK : Measurable K) (hN : Measurable N) (hKN : ∀ q ∈ G, (K q).map Prod.fst = N q.1)
    {ν : Measure (Θ × Φ)} (hν : ∀ᵐ q ∂ν, q ∈ G) :
    (ν.bind K).map Prod.fst = (ν.map Prod.fst).bind N := by
  ext S hS
  rw [Measure.map_apply measurable_fst hS, Measure.bind_apply (measurable_fst hS) hK.aemeasurable,
    Measure.bind_apply hS hN.aemeasurable,
    lintegral_map (f := fun t => N t S) ((Measure.measurable_coe hS).comp hN) measurable_fst]
  refine lintegral_congr_ae ?_
  filter_upwards [hν] with q hq
  rw [← hKN q hq, Measure.map_apply measurable_fst hS]

/-- The first coordinate after `k` calls. -/
theorem map_fst_calls (hK : Measurable K) (hN : Measurable N)
    (hKN : ∀ q ∈ G, (K q).map Prod.fst = N q.1) (hGm : MeasurableSet G)
    (hG : ∀ q ∈ G, ∀ᵐ q' ∂K q, q' ∈ G) {q : Θ × Φ} (hq : q ∈ G) (k : ℕ) :
    (calls K k q).map Prod.fst = calls N k q.1 ∧ ∀ᵐ q' ∂calls K k q, q' ∈ G := by
  induction k with
  | zero =>
    refine ⟨Measure.map_dirac' measurable_fst _, ?_⟩
    exact (ae_dirac_iff (p := fun q' => q' ∈ G) hGm).2 hq
  | succ k ih =>
    refine ⟨?_, ?_⟩
    · rw [calls, calls, map_fst_bind hK hN hKN ih.2, ih.1]
    · have hm : Measurable fun q' => K q' Gᶜ := (Measure.measurable_coe hGm.compl).comp hK
      change ((calls K k q).bind K) Gᶜ = 0
      rw [Measure.bind_apply hGm.compl hK.aemeasurable, lintegral_eq_zero_iff hm]
      filter_upwards [ih.2] with q' hq'
      exact hG q' hq'

/-- The first coordinate converges to `π`. -/
theorem fst_converges (hK : Measurable K) (hN : Measurable N)
    (hKN : ∀ q ∈ G, (K q).map Prod.fst = N q.1) (hGm : MeasurableSet G)
    (hG : ∀ q ∈ G, ∀ᵐ q' ∂K q, q' ∈ G) {D : Set Θ} (hGD : ∀ q ∈ G, q.1 ∈ D) {π : Measure Θ}
    (hc : ConvergesFrom D π N) {q : Θ × Φ} (hq : q ∈ G) {S : Set Θ} (hS : MeasurableSet S) :
    Tendsto (fun k => calls K k q (Prod.fst ⁻¹' S)) atTop (𝓝 (π S)) := by
  refine (hc q.1 (hGD q hq) S hS).congr fun k => ?_
  rw [← (map_fst_calls hK hN hKN hGm hG hq k).1, Measure.map_apply measurable_fst hS]

/-- No joint law whose first marginal is not `π` is kept or reached. -/
theorem never_joint (hK : Measurable K) (hN : Measurable N) (hp : ∀ t, IsProbabilityMeasure (N t))
    (hKN : ∀ q ∈ G, (K q).map Prod.fst = N q.1) (hGm : MeasurableSet G)
    (hG : ∀ q ∈ G, ∀ᵐ q' ∂K q, q' ∈ G) {D : Set Θ} (hDm : MeasurableSet D)
    (hGD : ∀ q ∈ G, q.1 ∈ D) {π : Measure Θ} (hc : ConvergesFrom D π N) {ν : Measure (Θ × Φ)} [IsProbabilityMeasure ν] (hν : ∀ᵐ q ∂ν, q ∈ G)
    (hne : ν.map Prod.fst ≠ π) : ν.bind K ≠ ν ∧ ∀ q ∈ G, ¬ ConvergesFrom {q} ν K := by
  constructor
  · intro h
    have : IsProbabilityMeasure (ν.map Prod.fst) := Measure.isProbabilityMeasure_map measurable_fst.aemeasurable
    refine hne (eq_of_converges hN hp ?_ ?_ hc)
    · rw [← map_fst_bind hK hN hKN hν, h]
    · refine (ae_map_iff (p := fun t => t ∈ D) measurable_fst.aemeasurable hDm).2 ?_
      filter_upwards [hν] with q hq
      exact hGD q hq
  · intro q hq h
    refine hne (Measure.ext fun S hS => ?_)
    rw [Measure.map_apply measurable_fst hS]
    exact tendsto_nhds_unique (h q rfl _ (measurable_fst hS)) (fst_converges hK hN hKN hGm hG hGD hc hq hS)

end Verif.Hier
