import Verif.Prob.Doeblin
import Mathlib.MeasureTheory.Integral.Layercake
import Mathlib.Probability.Kernel.Composition.Prod

/-!
# Two chains that run side by side
-/

open MeasureTheory ProbabilityTheory Filter
open scoped ENNReal Topology

namespace Verif.Parts

variable {Θ Φ : Type*} [MeasurableSpace Θ] [MeasurableSpace Φ]

/-- Convergence of the probabilities of all events. -/
def Setwise (μ : ℕ → Measure Θ) (π : Measure Θ) : Prop :=
  ∀ S, MeasurableSet S → Tendsto (fun k => μ k S) atTop (𝓝 (π S))

/-- Convergence of the integrals of one bounded function. -/
theorem Setwise.lintegral {μ : ℕ → Measure Θ} {π : Measure Θ} [∀ k, IsProbabilityMeasure (μ k)]
    [IsProbabilityMeasure π] (h : Setwise μ π) {f : Θ → ℝ≥0∞} (hf : Measurable f) (h1 : ∀ x, f x ≤ 1) :
    Tendsto (fun k => ∫⁻ x, f x ∂μ k) atTop (𝓝 (∫⁻ x, f x ∂π)) := by
  have hr : Measurable fun x => (f x).toReal := hf.ennreal_toReal
  have key : ∀ ν : Measure Θ, ∫⁻ x, f x ∂ν = ∫⁻ t in Set.Ioi (0 : ℝ), ν {x | t < (f x).toReal} := by
    intro ν
    rw [← lintegral_eq_lintegral_meas_lt ν (ae_of_all _ fun x => ENNReal.toReal_nonneg) hr.aemeasurable]
    refine lintegral_congr fun x => ?_
    rw [ENNReal.ofReal_toReal (ne_top_of_le_ne_top ENNReal.one_ne_top (h1 x))]
  simp only [key]
  refine tendsto_lintegral_of_dominated_convergence (Set.indicator (Set.Iio (1 : ℝ)) 1) (fun k => ?_) (fun k => ?_)
    ?_ (ae_of_all _ fun t => h _ (measurableSet_lt measurable_const hr))
  · exact Antitone.measurable fun s t hst => measure_mono fun x (hx : t < _) => lt_of_le_of_lt hst hx
  · refine ae_of_all _ fun t => ?_
    by_cases ht : t < 1
    · rw [Set.indicator_of_mem (show t ∈ Set.Iio (1 : ℝ) from ht)]
      exact prob_le_one
    · have : {x | t < (f x).toReal} = ∅ := by
        rw [Set.eq_empty_iff_forall_notMem]
        intro x (hx : t < _)
        have := ENNReal.toReal_mono ENNReal.one_ne_top (h1 x)
        rw [ENNReal.toReal_one] at this
        exact ht (lt_of_lt_of_le hx this)
      change μ k {x | t < (f x).toReal} ≤ _
      rw [this, measure_empty]
      exact zero_le
  · rw [lintegral_indicator measurableSet_Iio]
    simp only [Pi.one_apply, lintegral_const, one_mul, Measure.restrict_apply_univ]
    rw [Measure.restrict_apply measurableSet_Iio, Set.inter_comm, Set.Ioi_inter_Iio]
    simp

/-- The same for functions that converge. -/
theorem Setwise.lintegral_seq {μ : ℕ → Measure Θ} {π : Measure Θ} [∀ k, IsProbabilityMeasure (μ k)]
    [IsProbabilityMeasure π] (h : Setwise μ π) {f : ℕ → Θ → ℝ≥0∞} {F : Θ → ℝ≥0∞} (hf : ∀ k, Measurable (f k))
    (h1 : ∀ k x, f k x ≤ 1) (hF : ∀ x, Tendsto (fun k => f k x) atTop (𝓝 (F x))) :
    Tendsto (fun k => ∫⁻ x, f k x ∂μ k) atTop (𝓝 (∫⁻ x, F x ∂π)) := by
  have hlo : ∀ m, Measurable fun x => ⨅ k ≥ m, f k x := fun m =>
    Measurable.biInf _ (Set.to_countable _) fun k _ => hf k
  have hhi : ∀ m, Measurable fun x => ⨆ k ≥ m, f k x := fun m =>
    Measurable.biSup _ (Set.to_countable _) fun k _ => hf k
  have b1 : ∀ m, ∫⁻ x, ⨅ k ≥ m, f k x ∂π ≤ liminf (fun k => ∫⁻ x, f k x ∂μ k) atTop := by
    intro m
    have ht := (h.lintegral (hlo m) fun x => (iInf₂_le m le_rfl).trans (h1 m x)).liminf_eq
    rw [← ht]
    refine liminf_le_liminf ?_
    filter_upwards [eventually_ge_atTop m] with k hk
    exact lintegral_mono fun x => iInf₂_le k hk
  have b2 : ∀ m, limsup (fun k => ∫⁻ x, f k x ∂μ k) atTop ≤ ∫⁻ x, ⨆ k ≥ m, f k x ∂π := by
    intro m
    have ht := (h.lintegral (hhi m) fun x => iSup₂_le fun k _ => h1 k x).limsup_eq
    rw [← ht]
    refine limsup_le_limsup ?_
    filter_upwards [eventually_ge_atTop m] with k hk
    exact lintegral_mono fun x => le_iSup₂ (f := fun k (_ : k ≥ m) => f k x) k hk
  have t1 : Tendsto (fun m => ∫⁻ x, ⨅ k ≥ m, f k x ∂π) atTop (𝓝 (∫⁻ x, F x ∂π)) := by
    refine tendsto_lintegral_of_dominated_convergence (fun _ => 1) hlo
      (fun m => ae_of_all _ fun x => (iInf₂_le m le_rfl).trans (h1 m x)) (by simp) (ae_of_all _ fun x => ?_)
    rw [← (hF x).liminf_eq, liminf_eq_iSup_iInf_of_nat]
    exact tendsto_atTop_iSup fun a b hab => le_iInf₂ fun k hk => iInf₂_le k (hab.trans hk)
  have t2 : Tendsto (fun m => ∫⁻ x, ⨆ k ≥ m, f k x ∂π) atTop (𝓝 (∫⁻ x, F x ∂π)) := by
    refine tendsto_lintegral_of_dominated_convergence (fun _ => 1) hhi
      (fun m => ae_of_all _ fun x => iSup₂_le fun k _ => h1 k x) (by simp) (ae_of_all _ fun x => ?_)
    rw [← (hF x).limsup_eq, limsup_eq_iInf_iSup_of_nat]
    exact tendsto_atTop_iInf fun a b hab => iSup₂_le fun k hk =>
      le_iSup₂ (f := fun k (_ : k ≥ a) => f k x) k (hab.trans hk)
  exact tendsto_of_le_liminf_of_limsup_le (le_of_tendsto' t1 b1) (ge_of_tendsto' t2 b2)

theorem Setwise.prod {μ : ℕ → Measure Θ} {π : Measure Θ} {ν : ℕ → Measure Φ} {ρ : Measure Φ}
    [∀ k, IsProbabilityMeasure (μ k)] [IsProbabilityMeasure π] [∀ k, IsProbabilityMeasure (ν k)]
    [IsProbabilityMeasure ρ] (h : Setwise μ π) (h' : Setwise ν ρ) :
    Setwise (fun k => (μ k).prod (ν k)) (π.prod ρ) := by
  intro S hS
  simp only [Measure.prod_apply hS]
  exact h.lintegral_seq (fun k => measurable_measure_prodMk_left hS) (fun k x => prob_le_one)
    fun x => h' _ (measurable_prodMk_left hS)

/-! ## Kernels -/

/-- Two steps side by side, with independent random numbers. -/
noncomputable def pairStep (K : Θ → Measure Θ) (L : Φ → Measure Φ) (q : Θ × Φ) : Measure (Θ × Φ) :=
  (K q.1).prod (L q.2)

variable {K : Θ → Measure Θ} {L : Φ → Measure Φ}

theorem measurable_pairStep (hK : Measurable K) (hL : Measurable L) (hKp : ∀ t, IsProbabilityMeasure (K t))
    (hLp : ∀ t, IsProbabilityMeasure (L t)) : Measurable (pairStep K L) := by
  let κ : Kernel (Θ × Φ) Θ := ⟨fun q => K q.1, hK.comp measurable_fst⟩
  let η : Kernel (Θ × Φ) Φ := ⟨fun q => L q.2, hL.comp measurable_snd⟩
  have : IsMarkovKernel κ := ⟨fun q => hKp q.1⟩
  have : IsMarkovKernel η := ⟨fun q => hLp q.2⟩
  have e : pairStep K L = fun q => (κ ×ₖ η) q := by
    funext q
    rw [Kernel.prod_apply]
    rfl
  rw [e]
  exact (κ ×ₖ η).measurable

theorem bind_pairStep (hK : Measurable K) (hL : Measurable L) (hKp : ∀ t, IsProbabilityMeasure (K t))
    (hLp : ∀ t, IsProbabilityMeasure (L t)) (μ : Measure Θ) (ν : Measure Φ) [IsProbabilityMeasure μ]
    [IsProbabilityMeasure ν] : (μ.prod ν).bind (pairStep K L) = (μ.bind K).prod (ν.bind L) := by
  have : IsProbabilityMeasure (μ.bind K) := isProbabilityMeasure_bind hK.aemeasurable (ae_of_all _ hKp)
  have : IsProbabilityMeasure (ν.bind L) := isProbabilityMeasure_bind hL.aemeasurable (ae_of_all _ hLp)
  refine (Measure.prod_eq fun s t hs ht => ?_).symm
  rw [Measure.bind_apply (hs.prod ht) (measurable_pairStep hK hL hKp hLp).aemeasurable,
    Measure.bind_apply hs hK.aemeasurable, Measure.bind_apply ht hL.aemeasurable,
    ← lintegral_prod_mul (f := fun x => K x s) (g := fun x => L x t)
      ((Measure.measurable_coe hs).comp hK).aemeasurable ((Measure.measurable_coe ht).comp hL).aemeasurable]
  refine lintegral_congr fun q => ?_
  rw [pairStep, Measure.prod_prod]

theorem calls_pairStep (hK : Measurable K) (hL : Measurable L) (hKp : ∀ t, IsProbabilityMeasure (K t))
    (hLp : ∀ t, IsProbabilityMeasure (L t)) (k : ℕ) (q : Θ × Φ) :
    calls (pairStep K L) k q = (calls K k q.1).prod (calls L k q.2) := by
  induction k with
  | zero => exact (Measure.dirac_prod_dirac).symm
  | succ k ih =>
    have := prob_calls hK hKp k q.1
    have := prob_calls hL hLp k q.2
    rw [calls, ih, bind_pairStep hK hL hKp hLp]
    rfl

theorem map_fst_prod' {μ : Measure Θ} {ν : Measure Φ} [IsProbabilityMeasure ν] [SFinite μ] : (μ.prod ν).map Prod.fst = μ := by
  rw [Measure.map_fst_prod, measure_univ, one_smul]

theorem map_snd_prod' {μ : Measure Θ} {ν : Measure Φ} [IsProbabilityMeasure μ] [SFinite ν] : (μ.prod ν).map Prod.snd = ν := by
  rw [Measure.map_snd_prod, measure_univ, one_smul]

/-- Two steps side by side keep the product law iff each keeps its factor. -/
theorem stationary_pairStep (hK : Measurable K) (hL : Measurable L) (hKp : ∀ t, IsProbabilityMeasure (K t))
    (hLp : ∀ t, IsProbabilityMeasure (L t)) (μ : Measure Θ) (ν : Measure Φ) [IsProbabilityMeasure μ]
    [IsProbabilityMeasure ν] :
    Stationary (μ.prod ν) (pairStep K L) ↔ Stationary μ K ∧ Stationary ν L := by
  have : IsProbabilityMeasure (μ.bind K) := isProbabilityMeasure_bind hK.aemeasurable (ae_of_all _ hKp)
  have : IsProbabilityMeasure (ν.bind L) := isProbabilityMeasure_bind hL.aemeasurable (ae_of_all _ hLp)
  constructor
  · intro h
    have h2 := h.2
    rw [bind_pairStep hK hL hKp hLp] at h2
    refine ⟨⟨hK.aemeasurable, ?_⟩, ⟨hL.aemeasurable, ?_⟩⟩
    · rw [← map_fst_prod' (μ := μ.bind K) (ν := ν.bind L), h2, map_fst_prod']
    · rw [← map_snd_prod' (μ := μ.bind K) (ν := ν.bind L), h2, map_snd_prod']
  · rintro ⟨h1, h2⟩
    exact ⟨(measurable_pairStep hK hL hKp hLp).aemeasurable, by
      rw [bind_pairStep hK hL hKp hLp, h1.2, h2.2]⟩

/-- Two steps side by side converge to the product law iff each converges to its factor. -/
theorem converges_pairStep (hK : Measurable K) (hL : Measurable L) (hKp : ∀ t, IsProbabilityMeasure (K t))
    (hLp : ∀ t, IsProbabilityMeasure (L t)) (μ : Measure Θ) (ν : Measure Φ) [IsProbabilityMeasure μ]
    [IsProbabilityMeasure ν] {D : Set Θ} {E : Set Φ} (hD : D.Nonempty) (hE : E.Nonempty) :
    ConvergesFrom (D ×ˢ E) (μ.prod ν) (pairStep K L) ↔ ConvergesFrom D μ K ∧ ConvergesFrom E ν L := by
  have hc := calls_pairStep hK hL hKp hLp
  constructor
  · intro h
    refine ⟨fun θ hθ S hS => ?_, fun φ hφ S hS => ?_⟩
    · obtain ⟨φ, hφ⟩ := hE
      refine ((h (θ, φ) ⟨hθ, hφ⟩ (S ×ˢ Set.univ) (hS.prod .univ)).congr fun k => ?_).trans ?_
      · have := prob_calls hL hLp k φ
        rw [hc, Measure.prod_prod, measure_univ, mul_one]
      · rw [Measure.prod_prod, measure_univ, mul_one]
    · obtain ⟨θ, hθ⟩ := hD
      refine ((h (θ, φ) ⟨hθ, hφ⟩ (Set.univ ×ˢ S) (MeasurableSet.univ.prod hS)).congr fun k => ?_).trans ?_
      · have := prob_calls hK hKp k θ
        have := prob_calls hL hLp k φ
        rw [hc]
        change ((calls K k θ).prod (calls L k φ)) _ = _
        rw [Measure.prod_prod, measure_univ, one_mul]
      · rw [Measure.prod_prod, measure_univ, one_mul]
  · rintro ⟨h1, h2⟩ ⟨θ, φ⟩ ⟨hθ, hφ⟩ S hS
    have := prob_calls hK hKp
    have := prob_calls hL hLp
    simp only [hc]
    exact Setwise.prod (μ := fun k => calls K k θ) (ν := fun k => calls L k φ) (h1 θ hθ) (h2 φ hφ) S hS

end Verif.Parts
