import Verif.Prob.Bayes
import Verif.Prob.ChangeVar
import Mathlib.Probability.Independence.Basic

/-!
# Posteriors of arrays of independent latents

Helper lemmas.  `φ i` is the entry of the latent array read by entry `i` of the observed array.
-/

open MeasureTheory ProbabilityTheory
open scoped ENNReal

namespace Verif

variable {k m : ℕ}

/-- Reading an injective selection of the coordinates of a product gives the product. -/
theorem map_comp_pi (μ : Fin k → Measure ℝ) [∀ j, IsProbabilityMeasure (μ j)] {φ : Fin m → Fin k}
    (hφ : Function.Injective φ) :
    (Measure.pi μ).map (fun θ i => θ (φ i)) = Measure.pi fun i => μ (φ i) := by
  classical
  have hmeas : Measurable fun (θ : Fin k → ℝ) (i : Fin m) => θ (φ i) :=
    measurable_pi_lambda _ fun i => measurable_pi_apply _
  symm
  apply Measure.pi_eq
  intro s hs
  rw [Measure.map_apply hmeas (MeasurableSet.univ_pi hs)]
  have hpre : (fun (θ : Fin k → ℝ) (i : Fin m) => θ (φ i)) ⁻¹' Set.univ.pi s =
      Set.univ.pi fun j => if h : ∃ i, φ i = j then s h.choose else Set.univ := by
    ext θ
    simp only [Set.mem_preimage, Set.mem_pi, Set.mem_univ, true_imp_iff]
    constructor
    · intro h j
      by_cases hj : ∃ i, φ i = j
      · rw [dif_pos hj]
        have := h hj.choose
        rwa [hj.choose_spec] at this
      · rw [dif_neg hj]
        trivial
    · intro h i
      have hi : ∃ i', φ i' = φ i := ⟨i, rfl⟩
      have h1 := h (φ i)
      rw [dif_pos hi] at h1
      rwa [hφ hi.choose_spec] at h1
  rw [hpre, Measure.pi_pi]
  rw [← Finset.prod_subset (Finset.subset_univ (Finset.univ.image φ)), Finset.prod_image
    (fun a _ b _ h => hφ h)]
  · refine Finset.prod_congr rfl fun i _ => ?_
    have hi : ∃ i', φ i' = φ i := ⟨i, rfl⟩
    rw [dif_pos hi, hφ hi.choose_spec]
  · intro j _ hj
    have : ¬ ∃ i, φ i = j := by
      rintro ⟨i, rfl⟩
      exact hj (Finset.mem_image_of_mem _ (Finset.mem_univ _))
    rw [dif_neg this, measure_univ]

/-- Independent draws without atoms are different. -/
theorem pi_diag_null (ν : Fin m → Measure ℝ) [∀ i, IsProbabilityMeasure (ν i)] {i i' : Fin m}
    (hne : i ≠ i') (hat : ∀ x, ν i' {x} = 0) :
    Measure.pi ν {x | x i = x i'} = 0 := by
  have hind : IndepFun (fun x : Fin m → ℝ => x i) (fun x => x i') (Measure.pi ν) :=
    (iIndepFun_pi (μ := ν) (X := fun _ => id) fun _ => aemeasurable_id).indepFun hne
  have hmap := (indepFun_iff_map_prod_eq_prod_map_map (measurable_pi_apply i).aemeasurable
    (measurable_pi_apply i').aemeasurable).1 hind
  have hev : ∀ l, (Measure.pi ν).map (fun x => x l) = ν l := fun l =>
    (measurePreserving_eval ν l).map_eq
  rw [hev, hev] at hmap
  have hD : MeasurableSet {p : ℝ × ℝ | p.1 = p.2} := measurableSet_eq_fun measurable_fst measurable_snd
  have h1 : ((ν i).prod (ν i')) {p : ℝ × ℝ | p.1 = p.2} = 0 := by
    rw [Measure.measure_prod_null hD]
    refine Filter.Eventually.of_forall fun x => ?_
    have : Prod.mk x ⁻¹' {p : ℝ × ℝ | p.1 = p.2} = {x} := by
      ext y
      simp [eq_comm]
    show ν i' (Prod.mk x ⁻¹' {p : ℝ × ℝ | p.1 = p.2}) = 0
    rw [this]
    exact hat x
  rw [← hmap, Measure.map_apply ((measurable_pi_apply i).prodMk (measurable_pi_apply i')) hD] at h1
  exact h1

/-- The posterior of independent latents, each with its own likelihood, is the product of the
posteriors. -/
theorem bayes_pi (μ : Fin k → Measure ℝ) [∀ j, IsProbabilityMeasure (μ j)] {l : Fin k → ℝ → ℝ≥0∞}
    (hl : ∀ j, Measurable (l j)) (hd : ∀ j, BayesDefined (μ j) (l j)) :
    BayesDefined (Measure.pi μ) (fun θ => ∏ j, l j (θ j)) ∧
      bayes (Measure.pi μ) (fun θ => ∏ j, l j (θ j)) = Measure.pi fun j => bayes (μ j) (l j) := by
  have hev : ∫⁻ θ, ∏ j, l j (θ j) ∂Measure.pi μ = ∏ j, ∫⁻ x, l j x ∂μ j := lintegral_fin_prod μ hl
  have hfin : ∀ j, IsFiniteMeasure ((μ j).withDensity (l j)) := fun j =>
    isFiniteMeasure_withDensity (hd j).2
  refine ⟨⟨?_, ?_⟩, ?_⟩
  · rw [hev, Finset.prod_ne_zero_iff]
    exact fun j _ => (hd j).1
  · rw [hev]
    exact ENNReal.prod_ne_top fun j _ => (hd j).2
  · have hp : ∀ j, IsProbabilityMeasure (bayes (μ j) (l j)) := fun j =>
      isProbabilityMeasure_bayes (hd j)
    symm
    apply Measure.pi_eq
    intro s hs
    rw [bayes, ← pi_withDensity μ hl, Measure.smul_apply, Measure.pi_pi, hev, smul_eq_mul]
    simp only [bayes, Measure.smul_apply, smul_eq_mul]
    rw [Finset.prod_mul_distrib]
    congr 1
    exact ENNReal.prod_inv_distrib fun i _ j _ _ => Or.inl (hd i).1

/-- Several observations of one latent array: the likelihood is a product over the latent entries of
the likelihoods of the observations reading that entry. -/
theorem prod_fibre {M : Type*} [CommMonoid M] (φ : Fin m → Fin k) (f : Fin m → M) :
    ∏ i, f i = ∏ j, ∏ i with φ i = j, f i :=
  (Finset.prod_fiberwise Finset.univ φ f).symm

/-- The draws `ν`, one for each observed entry, are jointly distributed as the latent entries read by
the observations under the posterior, iff no latent entry is read twice and each draw has the
posterior law for its own observation. -/
theorem array_law_iff (μ : Fin k → Measure ℝ) [∀ j, IsProbabilityMeasure (μ j)] (φ : Fin m → Fin k)
    {l : Fin m → ℝ → ℝ≥0∞} (hl : ∀ i, Measurable (l i)) (hd : ∀ i, BayesDefined (μ (φ i)) (l i))
    (ν : Fin m → Measure ℝ) [∀ i, IsProbabilityMeasure (ν i)] (hat : ∀ i x, ν i {x} = 0) :
    Measure.pi ν = (bayes (Measure.pi μ) fun θ => ∏ i, l i (θ (φ i))).map (fun θ i => θ (φ i)) ↔
      Function.Injective φ ∧ ∀ i, ν i = bayes (μ (φ i)) (l i) := by
  have hmeas : Measurable fun (θ : Fin k → ℝ) (i : Fin m) => θ (φ i) :=
    measurable_pi_lambda _ fun i => measurable_pi_apply _
  by_cases hφ : Function.Injective φ
  · simp only [hφ, true_and]
    have hml : ∀ j, Measurable fun x => ∏ i with φ i = j, l i x := fun j =>
      Finset.measurable_prod _ fun i _ => hl i
    have hlik : (fun θ : Fin k → ℝ => ∏ i, l i (θ (φ i))) =
        fun θ => ∏ j, (fun x => ∏ i with φ i = j, l i x) (θ j) := by
      funext θ
      rw [prod_fibre φ]
      refine Finset.prod_congr rfl fun j _ => Finset.prod_congr rfl fun i hi => ?_
      rw [(Finset.mem_filter.1 hi).2]
    have hone : ∀ i, (fun x => ∏ i' with φ i' = φ i, l i' x) = l i := by
      intro i
      funext x
      have : (Finset.univ.filter fun i' => φ i' = φ i) = {i} := by
        ext i'
        simp [hφ.eq_iff]
      rw [this, Finset.prod_singleton]
    have hdj : ∀ j, BayesDefined (μ j) fun x => ∏ i with φ i = j, l i x := by
      intro j
      by_cases hj : ∃ i, φ i = j
      · obtain ⟨i, rfl⟩ := hj
        rw [hone]
        exact hd i
      · have : (Finset.univ.filter fun i' => φ i' = j) = ∅ := by
          ext i'
          simp only [Finset.mem_filter, Finset.mem_univ, true_and, Finset.notMem_empty, iff_false]
          exact fun h => hj ⟨i', h⟩
        simp [this, BayesDefined]
    rw [hlik, (bayes_pi μ hml hdj).2]
    have hp : ∀ j, IsProbabilityMeasure (bayes (μ j) fun x => ∏ i with φ i = j, l i x) := fun j =>
      isProbabilityMeasure_bayes (hdj j)
    rw [map_comp_pi _ hφ]
    have h2 : (fun i => bayes (μ (φ i)) fun x => ∏ i' with φ i' = φ i, l i' x) =
        fun i => bayes (μ (φ i)) (l i) := by
      funext i
      rw [hone]
    rw [h2]
    have hp' : ∀ i, IsProbabilityMeasure (bayes (μ (φ i)) (l i)) := fun i =>
      isProbabilityMeasure_bayes (hd i)
    constructor
    · intro h i
      rw [← (measurePreserving_eval ν i).map_eq, h,
        (measurePreserving_eval (fun i => bayes (μ (φ i)) (l i)) i).map_eq]
    · intro h
      rw [funext h]
  · simp only [hφ, false_and, iff_false]
    intro h
    simp only [Function.Injective, not_forall] at hφ
    obtain ⟨i, i', he, hne⟩ := hφ
    have h0 := pi_diag_null ν hne (hat i')
    have hD : MeasurableSet {x : Fin m → ℝ | x i = x i'} :=
      measurableSet_eq_fun (measurable_pi_apply i) (measurable_pi_apply i')
    have h1 : Measure.pi ν {x : Fin m → ℝ | x i = x i'}ᶜ = 0 := by
      rw [h, Measure.map_apply hmeas hD.compl]
      have : (fun (θ : Fin k → ℝ) (i : Fin m) => θ (φ i)) ⁻¹' {x | x i = x i'}ᶜ = ∅ := by
        ext θ
        simp [he]
      rw [this, measure_empty]
    have h2 : Measure.pi ν Set.univ ≤ 0 := by
      rw [← Set.union_compl_self {x : Fin m → ℝ | x i = x i'}]
      exact (measure_union_le _ _).trans (by rw [h0, h1, add_zero])
    rw [measure_univ] at h2
    simp at h2

end Verif
