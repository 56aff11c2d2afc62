import Verif.PG.Order

/-!
# Property C87 for the Bernoulli regression
-/

open MeasureTheory ProbabilityTheory Matrix
open scoped ENNReal

namespace Verif

variable {p n : ℕ}

/-- The two observation vectors as the code's pseudo-responses. -/
theorem kappa_update (y : Fin n → Bool) (i : Fin n) :
    (fun k => boolVal (Function.update y i true k) - 0.5) i =
      (fun k => boolVal (Function.update y i false k) - 0.5) i + 1 := by
  simp only [Function.update_self, boolVal]
  norm_num

theorem kappa_update_ne (y : Fin n → Bool) (i : Fin n) (k : Fin n) (hk : k ≠ i) :
    (fun k => boolVal (Function.update y i true k) - 0.5) k =
      (fun k => boolVal (Function.update y i false k) - 0.5) k := by
  simp only [Function.update_of_ne hk]

/-- **C87.** `bern_normal_posterior` under its documented model, success probability
`1/(1+exp(-X β))`: turning one outcome from failure to success raises the drawn linear predictor of that
observation, hence its drawn success probability, from every current value of the coefficients; and the
posterior moves the same way.  If the row of that observation is not zero, the probability of drawing
a positive predictor strictly rises.  All designs, standard deviations and outcomes. -/
theorem C87_bern_outcome {la : LinAlg} (hla : la.Sound) {std : Fin p → ℝ} (hs : ∀ j, 0 < std j)
    (X : Matrix (Fin n) (Fin p) ℝ) (y : Fin n → Bool) (i : Fin n) (β : Fin p → ℝ) :
    StochLE
      ((bernNormalPosterior la std X (Function.update y i false) β).map fun β => (X *ᵥ β) i)
      ((bernNormalPosterior la std X (Function.update y i true) β).map fun β => (X *ᵥ β) i) ∧
    StochLE
      ((bernNormalPosterior la std X (Function.update y i false) β).map
        fun β => sigmoid ((X *ᵥ β) i))
      ((bernNormalPosterior la std X (Function.update y i true) β).map
        fun β => sigmoid ((X *ᵥ β) i)) ∧
    StochLE
      ((bayes (normalPrior std) (bernRegLik sigmoid X (Function.update y i false))).map
        fun β => (X *ᵥ β) i)
      ((bayes (normalPrior std) (bernRegLik sigmoid X (Function.update y i true))).map
        fun β => (X *ᵥ β) i) ∧
    (X i ≠ 0 →
      bernNormalPosterior la std X (Function.update y i false) β {β | 0 < (X *ᵥ β) i} <
        bernNormalPosterior la std X (Function.update y i true) β {β | 0 < (X *ᵥ β) i}) := by
  have h1 := pgStep_mono hla (fun j => inv_pos.2 (hs j)) X (fun _ => one_pos)
    (κ := fun k => boolVal (Function.update y i false k) - 0.5)
    (κ' := fun k => boolVal (Function.update y i true k) - 0.5) (kappa_update y i)
    (kappa_update_ne y i) β
  rw [← bernNormalPosterior_eq, ← bernNormalPosterior_eq] at h1
  have hp : IsProbabilityMeasure (normalPrior std) := by unfold normalPrior; infer_instance
  have hmono : Monotone sigmoid := fun x z hxz => by
    unfold sigmoid
    have := Real.exp_le_exp.2 (neg_le_neg hxz)
    gcongr
  refine ⟨h1, ?_, bern_posterior_mono X y i _, fun hX => ?_⟩
  · have h2 := h1.map hmono.measurable hmono
    rwa [Measure.map_map hmono.measurable (measurable_pred X i),
      Measure.map_map hmono.measurable (measurable_pred X i)] at h2
  · have h := pgStep_strict hla (fun j => inv_pos.2 (hs j)) X (fun _ => one_pos) hX
      (κ := fun k => boolVal (Function.update y i false k) - 0.5)
      (κ' := fun k => boolVal (Function.update y i true k) - 0.5) (kappa_update y i)
      (kappa_update_ne y i) β
    rwa [← bernNormalPosterior_eq, ← bernNormalPosterior_eq] at h

/-- Two observations, three coefficients; the second outcome becomes a success. -/
example (β : Fin 3 → ℝ) : StochLE
    ((bernNormalPosterior stdLinAlg (fun _ => 2) !![1, 0, 2; -1, 3, 0] ![true, false] β).map
      fun β => (!![1, 0, 2; -1, 3, 0] *ᵥ β) 1)
    ((bernNormalPosterior stdLinAlg (fun _ => 2) !![1, 0, 2; -1, 3, 0] ![true, true] β).map
      fun β => (!![1, 0, 2; -1, 3, 0] *ᵥ β) 1) := by
  have := (C87_bern_outcome stdLinAlg_sound (fun _ => two_pos) !![1, 0, 2; -1, 3, 0]
    ![true, false] 1 β).1
  have e1 : Function.update ![true, false] 1 false = ![true, false] := by decide
  have e2 : Function.update ![true, false] 1 true = ![true, true] := by decide
  rwa [e1, e2] at this

/-- **C87 is violated** for the model the Bernoulli finder matches, success probability
`1/(1+exp(X β))`.  For every design, every observation with a nonzero row and every current value of
the coefficients, turning the outcome of that observation from failure to success moves the posterior
of its linear predictor down (success becomes more probable), but moves the draws of the sampler up
(success becomes less probable), strictly so. -/
theorem C87_bern_finder_violated {la : LinAlg} (hla : la.Sound) {std : Fin p → ℝ}
    (hs : ∀ j, 0 < std j) (X : Matrix (Fin n) (Fin p) ℝ) (y : Fin n → Bool) {i : Fin n}
    (hX : X i ≠ 0) (β : Fin p → ℝ) :
    StochLE
      ((bayes (normalPrior std) (bernRegLik (fun ψ => sigmoid (-ψ)) X
        (Function.update y i true))).map fun β => (X *ᵥ β) i)
      ((bayes (normalPrior std) (bernRegLik (fun ψ => sigmoid (-ψ)) X
        (Function.update y i false))).map fun β => (X *ᵥ β) i) ∧
    StochLE
      ((bernNormalPosterior la std X (Function.update y i false) β).map fun β => (X *ᵥ β) i)
      ((bernNormalPosterior la std X (Function.update y i true) β).map fun β => (X *ᵥ β) i) ∧
    bernNormalPosterior la std X (Function.update y i true) β {β | sigmoid (-(X *ᵥ β) i) ≥ 1 / 2} <
      bernNormalPosterior la std X (Function.update y i false) β {β | sigmoid (-(X *ᵥ β) i) ≥ 1 / 2} := by
  have hp : IsProbabilityMeasure (normalPrior std) := by unfold normalPrior; infer_instance
  refine ⟨?_, (C87_bern_outcome hla hs X y i β).1, ?_⟩
  · rw [funext (bernRegLik_neg X _), funext (bernRegLik_neg X _)]
    have h := bern_posterior_mono (-X) y i (normalPrior std)
    have i1 := isProbabilityMeasure_bayes
      (bayesDefined_bernRegLik (-X) (Function.update y i false) (normalPrior std))
    have i2 := isProbabilityMeasure_bayes
      (bayesDefined_bernRegLik (-X) (Function.update y i true) (normalPrior std))
    have j1 := Measure.isProbabilityMeasure_map (measurable_pred (-X) i).aemeasurable
      (μ := bayes (normalPrior std) (bernRegLik sigmoid (-X) (Function.update y i false)))
    have j2 := Measure.isProbabilityMeasure_map (measurable_pred (-X) i).aemeasurable
      (μ := bayes (normalPrior std) (bernRegLik sigmoid (-X) (Function.update y i true)))
    have h2 := h.map_antitone (f := fun x : ℝ => -x) measurable_neg fun _ _ h => neg_le_neg h
    rw [Measure.map_map measurable_neg (measurable_pred (-X) i),
      Measure.map_map measurable_neg (measurable_pred (-X) i)] at h2
    have e : ((fun x : ℝ => -x) ∘ fun β : Fin p → ℝ => ((-X) *ᵥ β) i) = fun β => (X *ᵥ β) i := by
      funext β
      simp [neg_mulVec]
    rwa [e] at h2
  · have h := pgStep_strict hla (fun j => inv_pos.2 (hs j)) X (fun _ => one_pos) hX
      (κ := fun k => boolVal (Function.update y i false k) - 0.5)
      (κ' := fun k => boolVal (Function.update y i true k) - 0.5) (kappa_update y i)
      (kappa_update_ne y i) β
    rw [← bernNormalPosterior_eq, ← bernNormalPosterior_eq] at h
    have hB : MeasurableSet {β : Fin p → ℝ | 0 < (X *ᵥ β) i} :=
      measurableSet_lt measurable_const (measurable_pred X i)
    have e : {β : Fin p → ℝ | sigmoid (-(X *ᵥ β) i) ≥ 1 / 2} = {β | 0 < (X *ᵥ β) i}ᶜ := by
      ext β
      simp only [Set.mem_compl_iff, Set.mem_ofPred_eq, not_lt, sigmoid, neg_neg, ge_iff_le]
      rw [one_div_le_one_div two_pos (by positivity)]
      constructor
      · intro h
        exact Real.exp_le_one_iff.1 (by linarith)
      · intro h
        have := Real.exp_le_one_iff.2 h
        linarith
    have i1 := (pgStep_minor hla (fun j => inv_pos.2 (hs j)) X (b := fun _ => 1)
      (fun k => boolVal (Function.update y i false k) - 0.5) fun _ => one_pos).2.1 β
    have i2 := (pgStep_minor hla (fun j => inv_pos.2 (hs j)) X (b := fun _ => 1)
      (fun k => boolVal (Function.update y i true k) - 0.5) fun _ => one_pos).2.1 β
    rw [← bernNormalPosterior_eq] at i1 i2
    rw [e, prob_compl_eq_one_sub hB, prob_compl_eq_one_sub hB]
    exact ENNReal.sub_lt_of_sub_lt prob_le_one (Or.inl ENNReal.one_ne_top)
      (by rwa [ENNReal.sub_sub_cancel ENNReal.one_ne_top prob_le_one])

/-- One observation: the probability that the drawn chance of success is at least one half is smaller
after a success than after a failure. -/
example (β : Fin 1 → ℝ) :
    bernNormalPosterior stdLinAlg (fun _ => 1) !![3] ![true] β
        {β | sigmoid (-(!![3] *ᵥ β) 0) ≥ 1 / 2} <
      bernNormalPosterior stdLinAlg (fun _ => 1) !![3] ![false] β
        {β | sigmoid (-(!![3] *ᵥ β) 0) ≥ 1 / 2} := by
  have := (C87_bern_finder_violated stdLinAlg_sound (fun _ => one_pos) !![3] ![true] (i := 0)
    (fun h => by simpa using congrFun h 0) β).2.2
  have e1 : Function.update ![true] 0 false = ![false] := by decide
  have e2 : Function.update ![true] 0 true = ![true] := by decide
  rwa [e1, e2] at this

end Verif
