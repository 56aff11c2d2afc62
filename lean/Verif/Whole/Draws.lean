import Verif.Prob.HalfLine
import Verif.Prob.DataAug
import Verif.Graph.Regression
import Mathlib.Probability.Kernel.Representation

/-!
# Random draws as functions of random numbers

The values in a graph are not laws: a sampling node computes a value from its inputs and a stream of random
numbers.  `Draws` says that these values have the law `K`.
-/

open MeasureTheory ProbabilityTheory

namespace Verif.Whole

/-- Spec: a measurable function of the inputs `a` and of random numbers `u` whose value has the law `K a`, for
the inputs in `good`. -/
structure Draws {A B : Type} [MeasurableSpace A] [MeasurableSpace B] (K : A → Measure B) (good : Set A) where
  U : Type
  mU : MeasurableSpace U
  P : Measure U
  prob : IsProbabilityMeasure P
  draw : A × U → B
  meas : Measurable draw
  law : ∀ a ∈ good, P.map (fun u => draw (a, u)) = K a

attribute [instance] Draws.mU Draws.prob

/-- Such functions exist when `K` is the restriction of a measurable family of probability laws. -/
theorem Draws.exists {A B : Type} [MeasurableSpace A] [MeasurableSpace B] [StandardBorelSpace B] [Nonempty B]
    {K K' : A → Measure B} {good : Set A} (hm : Measurable K') (hp : ∀ a, IsProbabilityMeasure (K' a))
    (h : ∀ a ∈ good, K a = K' a) : Nonempty (Draws K good) := by
  let κ : Kernel A B := ⟨K', hm⟩
  have : IsMarkovKernel κ := ⟨hp⟩
  obtain ⟨f, hf, hκ⟩ := κ.exists_measurable_map_eq_unitInterval
  exact ⟨⟨unitInterval, inferInstance, volume, inferInstance, Function.uncurry f, hf,
    fun a ha => by rw [h a ha]; exact hκ a⟩⟩

/-- Two independent draws, the second of which uses the result of the first. -/
theorem map_prod_eq_bind {U V B C : Type*} [MeasurableSpace U] [MeasurableSpace V] [MeasurableSpace B]
    [MeasurableSpace C] {P : Measure U} {Q : Measure V} [IsProbabilityMeasure Q] {f : U → B}
    (hf : Measurable f) {F : B × V → C} (hF : Measurable F) :
    (P.prod Q).map (fun w => F (f w.1, w.2)) = (P.map f).bind fun b => Q.map fun v => F (b, v) := by
  have hK : Measurable fun b : B => Q.map fun v => F (b, v) :=
    measurable_map_param (K := fun _ : B => Q) measurable_const (fun _ => inferInstance) hF
  have hF' : Measurable fun w : U × V => F (f w.1, w.2) := hF.comp (by fun_prop)
  ext S hS
  rw [Measure.map_apply hF' hS, Measure.bind_apply hS hK.aemeasurable,
    lintegral_map (f := fun b => Q.map (fun v => F (b, v)) S) ((Measure.measurable_coe hS).comp hK) hf,
    Measure.prod_apply (hF' hS)]
  refine lintegral_congr fun u => ?_
  rw [Measure.map_apply (f := fun v => F (f u, v)) (hF.comp measurable_prodMk_left) hS]
  rfl

/-- Three independent draws, the third of which uses the result of the second. -/
theorem map_three {U₁ U₂ U₃ S B H : Type*} [MeasurableSpace U₁] [MeasurableSpace U₂] [MeasurableSpace U₃]
    [MeasurableSpace S] [MeasurableSpace B] [MeasurableSpace H] {P₁ : Measure U₁} {P₂ : Measure U₂}
    {P₃ : Measure U₃} [IsProbabilityMeasure P₂] [IsProbabilityMeasure P₃] {f₁ : U₁ → S} {f₂ : U₂ → B}
    {f₃ : B × U₃ → H} (h₁ : Measurable f₁) (h₂ : Measurable f₂) (h₃ : Measurable f₃) :
    (P₁.prod (P₂.prod P₃)).map (fun ω => ((f₂ ω.2.1, f₁ ω.1), f₃ (f₂ ω.2.1, ω.2.2))) =
      (P₁.map f₁).bind fun s => (P₂.map f₂).bind fun β => (P₃.map fun u => f₃ (β, u)).map
        fun h => ((β, s), h) := by
  have hF : Measurable fun w : S × (U₂ × U₃) => ((f₂ w.2.1, w.1), f₃ (f₂ w.2.1, w.2.2)) := by fun_prop
  refine (map_prod_eq_bind h₁ hF).trans (Measure.bind_congr_right (ae_of_all _ fun s => ?_))
  have hF2 : Measurable fun w : B × U₃ => ((w.1, s), f₃ (w.1, w.2)) := by fun_prop
  refine (map_prod_eq_bind h₂ hF2).trans (Measure.bind_congr_right (ae_of_all _ fun β => ?_))
  exact (Measure.map_map (g := fun h : H => ((β, s), h)) (f := fun u => f₃ (β, u)) (by fun_prop)
    (by fun_prop)).symm

/-- Two independent draws that do not use each other. -/
theorem map_two {U₁ U₂ S B : Type*} [MeasurableSpace U₁] [MeasurableSpace U₂] [MeasurableSpace S]
    [MeasurableSpace B] {P₁ : Measure U₁} {P₂ : Measure U₂} [IsProbabilityMeasure P₂] {f₁ : U₁ → S} {f₂ : U₂ → B}
    (h₁ : Measurable f₁) (h₂ : Measurable f₂) :
    (P₁.prod P₂).map (fun ω => (f₂ ω.2, f₁ ω.1)) =
      (P₁.map f₁).bind fun s => (P₂.map f₂).map fun β => (β, s) := by
  have hF : Measurable fun w : S × U₂ => (f₂ w.2, w.1) := by fun_prop
  refine (map_prod_eq_bind h₁ hF).trans (Measure.bind_congr_right (ae_of_all _ fun s => ?_))
  exact (Measure.map_map (g := fun β : B => (β, s)) (f := f₂) (by fun_prop) h₂).symm

/-- Spec: numbers and vectors as values in a graph. -/
structure Enc (Val : Type) where
  num : ℝ → Val
  vec : {p : ℕ} → (Fin p → ℝ) → Val
  num_inj : Function.Injective num
  vec_inj : ∀ p, Function.Injective (vec (p := p))

/-- The values a step returns are unique. -/
theorem returns_unique {Val : Type} {own : Graph.Owner} {sem : Graph.Node → Nat → List Val → Val}
    {given : Graph.Var → Option Val} {out : Graph.SamplerOut} {r : Graph.Var} {x y : Val}
    (h : Graph.Returns own sem given out r x) (h' : Graph.Returns own sem given out r y) : x = y := by
  obtain ⟨v, h1, h2⟩ := h
  obtain ⟨w, h3, h4⟩ := h'
  obtain rfl : v = w := Option.some.inj (h1.symm.trans h3)
  exact h2.det h4

end Verif.Whole
