import Verif.Prob.ThreeBlock
import Verif.Prob.HalfLine
import Mathlib.Probability.Kernel.CompProdEqIff

/-!
# Steps that update one coordinate of a pair

A step that redraws the second coordinate of a pair, given both, keeps a joint law with a density if and
only if it keeps the conditional law of the second coordinate for almost every value of the first.
-/

open MeasureTheory ProbabilityTheory
open scoped ENNReal

namespace Verif

variable {A B : Type*} [MeasurableSpace A] [MeasurableSpace B]

/-- The step on pairs that keeps the first coordinate and redraws the second with `K`. -/
noncomputable def onSecond (K : A × B → Measure B) (q : A × B) : Measure (A × B) :=
  (K q).map fun b => (q.1, b)

/-- The step on pairs that keeps the second coordinate and redraws the first with `K`. -/
noncomputable def onFirst (K : A × B → Measure A) (q : A × B) : Measure (A × B) :=
  (K q).map fun a => (a, q.2)

theorem bayes_le_one (β : Measure B) (l : B → ℝ≥0∞) : bayes β l Set.univ ≤ 1 := by
  rw [bayes, Measure.smul_apply, withDensity_apply _ MeasurableSet.univ, Measure.restrict_univ,
    smul_eq_mul]
  exact ENNReal.inv_mul_le_one _

theorem onSecond_apply {K : A × B → Measure B} (q : A × B) {S : Set (A × B)} (hS : MeasurableSet S) :
    onSecond K q S = K q (Prod.mk q.1 ⁻¹' S) :=
  Measure.map_apply measurable_prodMk_left hS

theorem measurable_apply_slice {C : Type*} [MeasurableSpace C] {κ : C → Measure B} (hκ : Measurable κ)
    (hf : ∀ c, κ c Set.univ ≤ 1) {g : C → A} (hg : Measurable g) {S : Set (A × B)}
    (hS : MeasurableSet S) : Measurable fun c => κ c (Prod.mk (g c) ⁻¹' S) := by
  let k : Kernel C B := ⟨κ, hκ⟩
  have : IsFiniteKernel k := ⟨1, ENNReal.one_lt_top, hf⟩
  have hm : MeasurableSet {r : C × B | (g r.1, r.2) ∈ S} :=
    ((hg.comp measurable_fst).prodMk measurable_snd) hS
  exact Kernel.measurable_kernel_prodMk_left (κ := k) hm

theorem measurable_onSecond {K : A × B → Measure B} (hK : Measurable K)
    (hp : ∀ q, IsProbabilityMeasure (K q)) : Measurable (onSecond K) := by
  refine Measure.measurable_of_measurable_coe _ fun S hS => ?_
  simp only [onSecond_apply _ hS]
  exact measurable_apply_slice hK (fun q => by rw [measure_univ]) measurable_fst hS

variable {α : Measure A} {β : Measure B} [SFinite β] {L : A × B → ℝ≥0∞}

/-- A joint law with a density is the marginal of the first coordinate followed by the conditional law
of the second. -/
theorem lintegral_bayes_prod (hL : Measurable L) (hd : BayesDefined (α.prod β) L)
    {f : A × B → ℝ≥0∞} (hf : Measurable f) :
    ∫⁻ q, f q ∂bayes (α.prod β) L =
      ∫⁻ a, ∫⁻ b, f (a, b) ∂bayes β (fun b => L (a, b)) ∂bayes α (fun a => ∫⁻ b, L (a, b) ∂β) := by
  have hm : Measurable fun a => ∫⁻ b, L (a, b) ∂β := hL.lintegral_prod_right'
  have hZ : ∫⁻ q, L q ∂α.prod β = ∫⁻ a, ∫⁻ b, L (a, b) ∂β ∂α := lintegral_prod _ hL.aemeasurable
  have hLa : ∀ a, Measurable fun b => L (a, b) := fun a => hL.comp measurable_prodMk_left
  have hfa : ∀ a, Measurable fun b => f (a, b) := fun a => hf.comp measurable_prodMk_left
  have hg : Measurable fun a => ∫⁻ b, f (a, b) ∂bayes β (fun b => L (a, b)) := by
    have e : ∀ a, ∫⁻ b, f (a, b) ∂bayes β (fun b => L (a, b)) =
        (∫⁻ b, L (a, b) ∂β)⁻¹ * ∫⁻ b, L (a, b) * f (a, b) ∂β := fun a => lintegral_bayes (hLa a) (hfa a)
    simp only [e]
    exact hm.inv.mul (hL.mul hf).lintegral_prod_right'
  have hp := lintegral_prod (μ := α) (ν := β) (fun q => L q * f q) (hL.mul hf).aemeasurable
  rw [lintegral_bayes hL hf, lintegral_bayes hm hg, hZ, hp]
  congr 1
  have hfin : ∀ᵐ a ∂α, ∫⁻ b, L (a, b) ∂β < ∞ := ae_lt_top hm (hZ ▸ hd.2)
  refine lintegral_congr_ae (hfin.mono fun a ha => ?_)
  change ∫⁻ b, L (a, b) * f (a, b) ∂β = (∫⁻ b, L (a, b) ∂β) * _
  rw [lintegral_bayes (hLa a) (hfa a), ← mul_assoc]
  by_cases h0 : ∫⁻ b, L (a, b) ∂β = 0
  · rw [h0, zero_mul, zero_mul]
    rw [lintegral_eq_zero_iff (hLa a)] at h0
    refine (lintegral_eq_zero_iff ((hLa a).mul (hfa a))).2 (h0.mono fun b hb => ?_)
    change L (a, b) * f (a, b) = 0
    rw [show L (a, b) = 0 from hb, zero_mul]
  · rw [ENNReal.mul_inv_cancel h0 ha.ne, one_mul]

/-- **Redrawing one coordinate.**  The step keeps the joint law if and only if, for almost every value
of the coordinate it keeps, it keeps the conditional law of the other. -/
theorem stationary_onSecond_iff [MeasurableSpace.CountableOrCountablyGenerated A B]
    (hL : Measurable L) (hd : BayesDefined (α.prod β) L) {K : A × B → Measure B} (hK : Measurable K)
    (hp : ∀ q, IsProbabilityMeasure (K q)) :
    Stationary (bayes (α.prod β) L) (onSecond K) ↔
      ∀ᵐ a ∂α, Stationary (bayes β fun b => L (a, b)) fun b => K (a, b) := by
  have hm : Measurable fun a => ∫⁻ b, L (a, b) ∂β := hL.lintegral_prod_right'
  have hKa : ∀ a, Measurable fun b => K (a, b) := fun a => hK.comp measurable_prodMk_left
  have hZ : ∫⁻ q, L q ∂α.prod β = ∫⁻ a, ∫⁻ b, L (a, b) ∂β ∂α := lintegral_prod _ hL.aemeasurable
  have hκ : Measurable fun a => bayes β fun b => L (a, b) := measurable_bayes (f := fun a b => L (a, b)) hL
  let κ : Kernel A B := ⟨fun a => bayes β fun b => L (a, b), hκ⟩
  have hκf : IsFiniteKernel κ := ⟨1, ENNReal.one_lt_top, fun a => bayes_le_one _ _⟩
  have hκ'm : Measurable fun a => (bayes β fun b => L (a, b)).bind fun b => K (a, b) := by
    refine Measure.measurable_of_measurable_coe _ fun S hS => ?_
    have e : ∀ a, ((bayes β fun b => L (a, b)).bind fun b => K (a, b)) S =
        ∫⁻ b, K (a, b) S ∂κ a := fun a => Measure.bind_apply hS (hKa a).aemeasurable
    simp only [e]
    exact Measurable.lintegral_kernel_prod_right' (κ := κ) (f := fun q => K q S)
      ((Measure.measurable_coe hS).comp hK)
  let κ' : Kernel A B := ⟨fun a => (bayes β fun b => L (a, b)).bind fun b => K (a, b), hκ'm⟩
  have hκ'1 : ∀ a, κ' a Set.univ ≤ 1 := fun a => by
    change ((bayes β fun b => L (a, b)).bind fun b => K (a, b)) Set.univ ≤ 1
    rw [Measure.bind_apply MeasurableSet.univ (hKa a).aemeasurable]
    simp only [measure_univ, lintegral_const, one_mul]
    exact bayes_le_one _ _
  have hκ'f : IsFiniteKernel κ' := ⟨1, ENNReal.one_lt_top, hκ'1⟩
  let ν : Measure A := bayes α fun a => ∫⁻ b, L (a, b) ∂β
  have hν : IsFiniteMeasure ν := ⟨(bayes_le_one _ _).trans_lt ENNReal.one_lt_top⟩
  have e1 : bayes (α.prod β) L = ν ⊗ₘ κ := by
    ext S hS
    rw [Measure.compProd_apply hS, ← lintegral_indicator_one hS,
      lintegral_bayes_prod hL hd (measurable_one.indicator hS)]
    refine lintegral_congr fun a => ?_
    rw [← lintegral_indicator_one (measurable_prodMk_left hS)]
    rfl
  have hmS := measurable_onSecond hK hp
  have e2 : (bayes (α.prod β) L).bind (onSecond K) = ν ⊗ₘ κ' := by
    ext S hS
    rw [Measure.compProd_apply hS, Measure.bind_apply hS hmS.aemeasurable,
      lintegral_bayes_prod hL hd (f := fun q => onSecond K q S) ((Measure.measurable_coe hS).comp hmS)]
    refine lintegral_congr fun a => ?_
    change _ = ((bayes β fun b => L (a, b)).bind fun b => K (a, b)) (Prod.mk a ⁻¹' S)
    rw [Measure.bind_apply (measurable_prodMk_left hS) (hKa a).aemeasurable]
    exact lintegral_congr fun b => onSecond_apply _ hS
  have e3 : Stationary (bayes (α.prod β) L) (onSecond K) ↔ ν ⊗ₘ κ' = ν ⊗ₘ κ := by
    rw [← e2, ← e1]
    exact ⟨fun h => h.2, fun h => ⟨hmS.aemeasurable, h⟩⟩
  have e4 : (ν ⊗ₘ κ' = ν ⊗ₘ κ) ↔ κ' =ᵐ[ν] κ := ⟨Kernel.ae_eq_of_compProd_eq, Measure.compProd_congr⟩
  rw [e3, e4]
  have hc0 : (∫⁻ a, ∫⁻ b, L (a, b) ∂β ∂α)⁻¹ ≠ 0 := ENNReal.inv_ne_zero.2 (hZ ▸ hd.2)
  have e5 : κ' =ᵐ[ν] κ ↔ ∀ᵐ a ∂α, ∫⁻ b, L (a, b) ∂β ≠ 0 → κ' a = κ a := by
    change (∀ᵐ a ∂(_ • α.withDensity _), _) ↔ _
    rw [Measure.ae_ennreal_smul_measure_iff hc0, ae_withDensity_iff hm]
  rw [e5]
  refine Filter.eventually_congr (Filter.Eventually.of_forall fun a => ?_)
  constructor
  · intro h
    refine ⟨(hKa a).aemeasurable, ?_⟩
    by_cases h0 : ∫⁻ b, L (a, b) ∂β = 0
    · have hz : bayes β (fun b => L (a, b)) = 0 := by
        have h1 : β.withDensity (fun b => L (a, b)) = 0 := by
          have hLa : Measurable fun b => L (a, b) := hL.comp measurable_prodMk_left
          exact (withDensity_eq_zero_iff hLa.aemeasurable).2 ((lintegral_eq_zero_iff hLa).1 h0)
        rw [bayes, h1, smul_zero]
      rw [hz, Measure.bind_zero_left]
    · exact h h0
  · exact fun h _ => h.2

theorem Stationary.swap {π : Measure (A × B)} {K : A × B → Measure (A × B)} (h : Stationary π K) :
    Stationary (π.map Prod.swap) fun q => (K q.swap).map Prod.swap := by
  refine Stationary.conj (P := K) measurable_swap measurable_swap (by simp) ?_
  rw [Measure.map_map measurable_swap measurable_swap, Prod.swap_swap_eq, Measure.map_id]
  exact h

theorem Stationary.swap_iff {π : Measure (A × B)} {K : A × B → Measure (A × B)} :
    Stationary π K ↔ Stationary (π.map Prod.swap) fun q => (K q.swap).map Prod.swap := by
  refine ⟨Stationary.swap, fun h => ?_⟩
  have := h.swap
  simpa only [Measure.map_map measurable_swap measurable_swap, Prod.swap_swap_eq, Measure.map_id,
    Prod.swap_swap] using this

theorem map_swap_bayes [SFinite α] (hL : Measurable L) :
    (bayes (α.prod β) L).map Prod.swap = bayes (β.prod α) fun q => L q.swap := by
  have := bayes_map (μ := α.prod β) measurable_swap (l := fun q : B × A => L q.swap)
    (hL.comp measurable_swap)
  rw [Measure.prod_swap] at this
  exact this

/-- The same for the first coordinate. -/
theorem stationary_onFirst_iff [SFinite α] [MeasurableSpace.CountableOrCountablyGenerated B A]
    (hL : Measurable L) (hd : BayesDefined (α.prod β) L) {K : A × B → Measure A} (hK : Measurable K)
    (hp : ∀ q, IsProbabilityMeasure (K q)) :
    Stationary (bayes (α.prod β) L) (onFirst K) ↔
      ∀ᵐ b ∂β, Stationary (bayes α fun a => L (a, b)) fun a => K (a, b) := by
  have hs : (fun q : B × A => (onFirst K q.swap).map Prod.swap) = onSecond fun q : B × A => K q.swap := by
    funext q
    rw [onFirst, Measure.map_map measurable_swap measurable_prodMk_right]
    rfl
  have hd' : BayesDefined (β.prod α) fun q => L q.swap := by
    unfold BayesDefined
    have : ∫⁻ q, L q.swap ∂β.prod α = ∫⁻ q, L q ∂α.prod β := by
      have hc : Measurable fun q : B × A => L q.swap := hL.comp measurable_swap
      rw [← Measure.prod_swap (μ := α) (ν := β), lintegral_map hc measurable_swap]
      rfl
    rw [this]
    exact hd
  rw [Stationary.swap_iff, hs, map_swap_bayes hL]
  exact stationary_onSecond_iff (hL.comp measurable_swap) hd' (hK.comp measurable_swap) fun q => hp _

theorem measurable_onFirst {K : A × B → Measure A} (hK : Measurable K)
    (hp : ∀ q, IsProbabilityMeasure (K q)) : Measurable (onFirst K) := by
  refine Measure.measurable_of_measurable_coe _ fun S hS => ?_
  have e : ∀ q, onFirst K q S = K q (Prod.mk q.2 ⁻¹' (Prod.swap ⁻¹' S)) := fun q =>
    Measure.map_apply measurable_prodMk_right hS
  simp only [e]
  exact measurable_apply_slice hK (fun q => by rw [measure_univ]) measurable_snd (measurable_swap hS)

/-- A step for the first coordinate, then one for the second given the new first coordinate. -/
theorem onFirst_bind_onSecond {K : A × B → Measure A} {K' : A × B → Measure B}
    (hK' : Measurable K') (hp : ∀ q, IsProbabilityMeasure (K' q)) (q : A × B) :
    (onFirst K q).bind (onSecond K') = (K q).bind fun a => (K' (a, q.2)).map fun b => (a, b) := by
  have hm := measurable_onSecond hK' hp
  have hm2 : Measurable fun a => onSecond K' (a, q.2) := hm.comp measurable_prodMk_right
  refine Measure.ext fun S hS => ?_
  rw [Measure.bind_apply hS hm.aemeasurable, onFirst,
    lintegral_map (f := fun r => onSecond K' r S) ((Measure.measurable_coe hS).comp hm)
      measurable_prodMk_right]
  exact (Measure.bind_apply hS hm2.aemeasurable).symm

/-- After a step that keeps the law, the pair of steps keeps it if and only if the second does. -/
theorem stationary_comp_iff {Θ : Type*} [MeasurableSpace Θ] {π : Measure Θ} {K₁ K₂ : Θ → Measure Θ}
    (h₁ : Stationary π K₁) (hK₁ : Measurable K₁) (hK₂ : Measurable K₂) :
    Stationary π (fun θ => (K₁ θ).bind K₂) ↔ Stationary π K₂ := by
  have e : π.bind (fun θ => (K₁ θ).bind K₂) = π.bind K₂ := by
    rw [← Measure.bind_bind hK₁.aemeasurable hK₂.aemeasurable, h₁.2]
  have hm : Measurable fun θ => (K₁ θ).bind K₂ := (Measure.measurable_bind' hK₂).comp hK₁
  exact ⟨fun h => ⟨hK₂.aemeasurable, e ▸ h.2⟩, fun h => ⟨hm.aemeasurable, e.trans h.2⟩⟩

end Verif
