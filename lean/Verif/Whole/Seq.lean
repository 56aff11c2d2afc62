import Verif.Whole.SeqSpec
import Verif.Whole.Order

/-!
# Lemmas on steps run one after the other
-/

open MeasureTheory ProbabilityTheory Matrix Filter
open scoped ENNReal Topology

namespace Verif.Whole

section

variable {Θ : Type*} [MeasurableSpace Θ]

/-- On `D` the step `K` is the measurable family `K'` of probability laws, and ends in `D`. -/
structure StepOn (D : Set Θ) (K K' : Θ → Measure Θ) : Prop where
  meas : Measurable K'
  prob : ∀ q, IsProbabilityMeasure (K' q)
  eq : ∀ q ∈ D, K q = K' q
  stays : ∀ q ∈ D, ∀ᵐ x ∂K' q, x ∈ D

theorem measurable_runAll : ∀ {l : List (Θ → Measure Θ)}, (∀ K ∈ l, Measurable K) → Measurable (runAll l)
  | [], _ => Measure.measurable_dirac
  | _ :: _, h => (Measure.measurable_bind' (measurable_runAll fun K hK => h K (List.mem_cons_of_mem _ hK))).comp
      (h _ List.mem_cons_self)

theorem prob_runAll : ∀ {l : List (Θ → Measure Θ)}, (∀ K ∈ l, Measurable K) →
    (∀ K ∈ l, ∀ q, IsProbabilityMeasure (K q)) → ∀ q, IsProbabilityMeasure (runAll l q)
  | [], _, _, _ => Measure.dirac.isProbabilityMeasure
  | _ :: _, h, h', q => by
      have := h' _ List.mem_cons_self q
      exact isProbabilityMeasure_bind
        (measurable_runAll fun K hK => h K (List.mem_cons_of_mem _ hK)).aemeasurable
        (ae_of_all _ (prob_runAll (fun K hK => h K (List.mem_cons_of_mem _ hK))
          fun K hK => h' K (List.mem_cons_of_mem _ hK)))

theorem runAll_eq {D : Set Θ} {l l' : List (Θ → Measure Θ)} (h : List.Forall₂ (StepOn D) l l') :
    ∀ q ∈ D, runAll l q = runAll l' q := by
  induction h with
  | nil => exact fun _ _ => rfl
  | cons hK _ ih =>
    intro q hq
    simp only [runAll]
    rw [hK.eq q hq]
    exact Measure.bind_congr_right ((hK.stays q hq).mono ih)

theorem runAll_prob {D : Set Θ} {l l' : List (Θ → Measure Θ)} (h : List.Forall₂ (StepOn D) l l')
    {q : Θ} (hq : q ∈ D) : IsProbabilityMeasure (runAll l q) := by
  rw [runAll_eq h q hq]
  have hm : ∀ {l l' : List (Θ → Measure Θ)}, List.Forall₂ (StepOn D) l l' → ∀ K ∈ l', Measurable K ∧
      ∀ q, IsProbabilityMeasure (K q) := by
    intro l l' h
    induction h with
    | nil => exact fun _ h => absurd h List.not_mem_nil
    | cons hK _ ih =>
      intro K hmem
      rcases List.mem_cons.1 hmem with rfl | h
      · exact ⟨hK.meas, hK.prob⟩
      · exact ih K h
  exact prob_runAll (fun K hK => (hm h K hK).1) (fun K hK => (hm h K hK).2) q

theorem runAll_cons_apply {K : Θ → Measure Θ} {l : List (Θ → Measure Θ)} (hl : ∀ K ∈ l, Measurable K) (q : Θ)
    {E : Set Θ} (hE : MeasurableSet E) :
    runAll (K :: l) q E = ∫⁻ x, runAll l x E ∂K q :=
  Measure.bind_apply hE (measurable_runAll hl).aemeasurable

/-- A step that redraws a part `c` of the state. -/
theorem runAll_cons_map {C : Type*} [MeasurableSpace C] {k : Θ → Measure C} {put : Θ → C → Θ}
    (hput : ∀ q, Measurable (put q)) {l : List (Θ → Measure Θ)} (hl : ∀ K ∈ l, Measurable K) (q : Θ) {E : Set Θ}
    (hE : MeasurableSet E) :
    runAll ((fun q => (k q).map (put q)) :: l) q E = ∫⁻ c, runAll l (put q c) E ∂k q := by
  rw [runAll_cons_apply hl q hE,
    lintegral_map (f := fun x => runAll l x E) ((Measure.measurable_coe hE).comp (measurable_runAll hl)) (hput q)]

theorem runAll_nil_apply (q : Θ) {E : Set Θ} (hE : MeasurableSet E) :
    runAll [] q E = E.indicator 1 q := Measure.dirac_apply' q hE

end

theorem perm_three {α : Type*} {a b c : α} {l : List α} (h : l.Perm [a, b, c]) :
    l = [a, b, c] ∨ l = [a, c, b] ∨ l = [b, a, c] ∨ l = [b, c, a] ∨ l = [c, a, b] ∨ l = [c, b, a] := by
  have h1 := List.mem_permutations.2 h
  simp [List.permutations, List.permutationsAux, List.permutationsAux.rec, List.permutationsAux2] at h1
  tauto

theorem lintegral_rect {B S : Type*} [MeasurableSpace B] [MeasurableSpace S] (ν : Measure B)
    (κ : B → Measure S) {A : Set B} {C : Set S} (hA : MeasurableSet A) (hC : MeasurableSet C) :
    ∫⁻ β, ∫⁻ s, A.indicator 1 β * C.indicator 1 s ∂κ β ∂ν = ∫⁻ β in A, κ β C ∂ν := by
  rw [← lintegral_indicator hA]
  refine lintegral_congr fun β => ?_
  rw [lintegral_const_mul _ (measurable_one.indicator hC), lintegral_indicator_one hC]
  by_cases h : β ∈ A <;> simp [h]

/-! ## Three blocks -/

section

variable {B S H : Type*} [MeasurableSpace B] [MeasurableSpace S] [MeasurableSpace H]

/-- Redraw the second block given the first two. -/
noncomputable def stepS (ks : B × S → Measure S) (r : (B × S) × H) : Measure ((B × S) × H) :=
  (ks r.1).map fun s => ((r.1.1, s), r.2)

/-- Redraw the first block. -/
noncomputable def stepC (kc : (B × S) × H → Measure B) (r : (B × S) × H) : Measure ((B × S) × H) :=
  (kc r).map fun β => ((β, r.1.2), r.2)

/-- Redraw the third block given the first and the third. -/
noncomputable def stepD (kd : B × H → Measure H) (r : (B × S) × H) : Measure ((B × S) × H) :=
  (kd (r.1.1, r.2)).map fun h => (r.1, h)

/-- The states with the first block in `A` and the second in `C`. -/
def rect (A : Set B) (C : Set S) : Set ((B × S) × H) := {r | r.1.1 ∈ A ∧ r.1.2 ∈ C}

theorem measurableSet_rect {A : Set B} {C : Set S} (hA : MeasurableSet A)
    (hC : MeasurableSet C) : MeasurableSet (rect (H := H) A C) :=
  ((measurable_fst.comp measurable_fst) hA).inter ((measurable_snd.comp measurable_fst) hC)

omit [MeasurableSpace B] [MeasurableSpace S] [MeasurableSpace H] in
theorem indicator_rect (A : Set B) (C : Set S) (β : B) (s : S) (h : H) :
    (rect A C).indicator (1 : (B × S) × H → ℝ≥0∞) ((β, s), h) = A.indicator 1 β * C.indicator 1 s := by
  by_cases ha : β ∈ A <;> by_cases hc : s ∈ C <;> simp [rect, ha, hc]

variable {ks : B × S → Measure S} {kc : (B × S) × H → Measure B} {kd : B × H → Measure H}

theorem measurable_stepS (hs : Measurable ks) (hs' : ∀ q, IsProbabilityMeasure (ks q)) :
    Measurable (stepS (H := H) ks) :=
  measurable_map_param (hs.comp measurable_fst) (fun _ => hs' _)
    (g := fun v : ((B × S) × H) × S => ((v.1.1.1, v.2), v.1.2)) (by fun_prop)

theorem measurable_stepC (hc : Measurable kc) (hc' : ∀ q, IsProbabilityMeasure (kc q)) :
    Measurable (stepC kc) :=
  measurable_map_param hc hc' (g := fun v : ((B × S) × H) × B => ((v.2, v.1.1.2), v.1.2)) (by fun_prop)

theorem measurable_stepD (hd : Measurable kd) (hd' : ∀ q, IsProbabilityMeasure (kd q)) :
    Measurable (stepD (S := S) kd) :=
  measurable_map_param (hd.comp (f := fun r : (B × S) × H => (r.1.1, r.2)) (by fun_prop)) (fun _ => hd' _)
    (g := fun v : ((B × S) × H) × H => (v.1.1, v.2)) (by fun_prop)

variable (hs : Measurable ks) (hs' : ∀ q, IsProbabilityMeasure (ks q)) (hc : Measurable kc)
  (hc' : ∀ q, IsProbabilityMeasure (kc q)) (hd : Measurable kd) (hd' : ∀ q, IsProbabilityMeasure (kd q))
  {A : Set B} {C : Set S} (hA : MeasurableSet A) (hC : MeasurableSet C) (r : (B × S) × H)

include hA hC

theorem lastS (β : B) (s : S) (h : H) :
    runAll [stepS ks] ((β, s), h) (rect A C) = A.indicator 1 β * ks (β, s) C := by
  have hE := measurableSet_rect (H := H) hA hC
  unfold stepS
  rw [runAll_cons_map (by fun_prop) (by simp) _ hE]
  simp only [runAll_nil_apply _ hE, indicator_rect]
  rw [lintegral_const_mul _ (measurable_one.indicator hC), lintegral_indicator_one hC]

theorem lastC (β : B) (s : S) (h : H) :
    runAll [stepC kc] ((β, s), h) (rect A C) = C.indicator 1 s * kc ((β, s), h) A := by
  have hE := measurableSet_rect (H := H) hA hC
  unfold stepC
  rw [runAll_cons_map (by fun_prop) (by simp) _ hE]
  simp only [runAll_nil_apply _ hE, indicator_rect]
  rw [lintegral_mul_const _ (measurable_one.indicator hA), lintegral_indicator_one hA, mul_comm]

include hd' in
theorem lastD (β : B) (s : S) (h : H) :
    runAll [stepD kd] ((β, s), h) (rect A C) = A.indicator 1 β * C.indicator 1 s := by
  have hE := measurableSet_rect (H := H) hA hC
  have := hd' (β, h)
  unfold stepD
  rw [runAll_cons_map (by fun_prop) (by simp) _ hE]
  simp only [runAll_nil_apply _ hE, indicator_rect]
  simp

include hd hd' in
theorem lastSD (β : B) (s : S) (h : H) :
    runAll [stepS ks, stepD kd] ((β, s), h) (rect A C) = A.indicator 1 β * ks (β, s) C := by
  have hE := measurableSet_rect (H := H) hA hC
  unfold stepS
  rw [runAll_cons_map (by fun_prop) (by simpa using measurable_stepD hd hd') _ hE]
  simp only [lastD hd' hA hC]
  rw [lintegral_const_mul _ (measurable_one.indicator hC), lintegral_indicator_one hC]

include hd hd' in
theorem lastCD (β : B) (s : S) (h : H) :
    runAll [stepC kc, stepD kd] ((β, s), h) (rect A C) = C.indicator 1 s * kc ((β, s), h) A := by
  have hE := measurableSet_rect (H := H) hA hC
  unfold stepC
  rw [runAll_cons_map (by fun_prop) (by simpa using measurable_stepD hd hd') _ hE]
  simp only [lastD hd' hA hC]
  rw [lintegral_mul_const _ (measurable_one.indicator hA), lintegral_indicator_one hA, mul_comm]

omit hA [MeasurableSpace B] [MeasurableSpace H] in
theorem ind_mul {f : S → ℝ≥0∞} {μ : Measure S} : ∫⁻ s, C.indicator 1 s * f s ∂μ = ∫⁻ s in C, f s ∂μ := by
  rw [← lintegral_indicator hC]
  refine lintegral_congr fun s => ?_
  by_cases h : s ∈ C <;> simp [h]

include hc hc' hd hd' in
theorem rect_scd : runAll [stepS ks, stepC kc, stepD kd] r (rect A C) =
    ∫⁻ s' in C, kc ((r.1.1, s'), r.2) A ∂ks r.1 := by
  have hE := measurableSet_rect (H := H) hA hC
  unfold stepS
  rw [runAll_cons_map (by fun_prop) (by simpa using ⟨measurable_stepC hc hc', measurable_stepD hd hd'⟩) _ hE]
  simp only [lastCD hd hd' hA hC]
  exact ind_mul hC

omit hC in
include hc in
/-- The coefficients given a random third block. -/
theorem bind_apply_third (D : Measure H) (q : B × S) :
    (D.bind fun h' => kc (q, h')) A = ∫⁻ h', kc (q, h') A ∂D :=
  Measure.bind_apply hA (hc.comp measurable_prodMk_left).aemeasurable

include hc hc' in
theorem lastDC (β : B) (s : S) (h : H) :
    runAll [stepD kd, stepC kc] ((β, s), h) (rect A C) =
      C.indicator 1 s * ((kd (β, h)).bind fun h' => kc ((β, s), h')) A := by
  have hE := measurableSet_rect (H := H) hA hC
  have hm : Measurable fun h' => kc ((β, s), h') A :=
    (Measure.measurable_coe hA).comp (hc.comp measurable_prodMk_left)
  unfold stepD
  rw [runAll_cons_map (by fun_prop) (by simpa using measurable_stepC hc hc') _ hE]
  simp only [lastC hA hC]
  rw [lintegral_const_mul _ hm, bind_apply_third hc hA]

include hc hc' hd hd' in
theorem rect_sdc : runAll [stepS ks, stepD kd, stepC kc] r (rect A C) =
    ∫⁻ s' in C, ((kd (r.1.1, r.2)).bind fun h' => kc ((r.1.1, s'), h')) A ∂ks r.1 := by
  have hE := measurableSet_rect (H := H) hA hC
  unfold stepS
  rw [runAll_cons_map (by fun_prop) (by simpa using ⟨measurable_stepD hd hd', measurable_stepC hc hc'⟩) _ hE]
  simp only [lastDC hc hc' hA hC]
  exact ind_mul hC

include hs hs' hd hd' in
theorem rect_csd : runAll [stepC kc, stepS ks, stepD kd] r (rect A C) =
    ∫⁻ β' in A, ks (β', r.1.2) C ∂kc r := by
  have hE := measurableSet_rect (H := H) hA hC
  unfold stepC
  rw [runAll_cons_map (by fun_prop) (by simpa using ⟨measurable_stepS hs hs', measurable_stepD hd hd'⟩) _ hE]
  simp only [lastSD hd hd' hA hC]
  exact ind_mul hA

include hs hs' hd hd' in
theorem rect_cds : runAll [stepC kc, stepD kd, stepS ks] r (rect A C) =
    ∫⁻ β' in A, ks (β', r.1.2) C ∂kc r := by
  have hE := measurableSet_rect (H := H) hA hC
  have e : ∀ (β : B) (s : S) (h : H), runAll [stepD kd, stepS ks] ((β, s), h) (rect A C) =
      A.indicator 1 β * ks (β, s) C := by
    intro β s h
    have := hd' (β, h)
    unfold stepD
    rw [runAll_cons_map (by fun_prop) (by simpa using measurable_stepS hs hs') _ hE]
    simp only [lastS hA hC]
    simp
  unfold stepC
  rw [runAll_cons_map (by fun_prop) (by simpa using ⟨measurable_stepD hd hd', measurable_stepS hs hs'⟩) _ hE]
  simp only [e]
  exact ind_mul hA

include hs hs' hc hc' hd' in
theorem rect_dsc : runAll [stepD kd, stepS ks, stepC kc] r (rect A C) =
    ∫⁻ s' in C, ((kd (r.1.1, r.2)).bind fun h' => kc ((r.1.1, s'), h')) A ∂ks r.1 := by
  have hE := measurableSet_rect (H := H) hA hC
  have e : ∀ (β : B) (s : S) (h : H), runAll [stepS ks, stepC kc] ((β, s), h) (rect A C) =
      ∫⁻ s', C.indicator 1 s' * kc ((β, s'), h) A ∂ks (β, s) := by
    intro β s h
    unfold stepS
    rw [runAll_cons_map (by fun_prop) (by simpa using measurable_stepC hc hc') _ hE]
    simp only [lastC hA hC]
  have h1 := hd' (r.1.1, r.2)
  have h2 := hs' r.1
  have hm : Measurable fun u : H × S => C.indicator (1 : S → ℝ≥0∞) u.2 * kc ((r.1.1, u.2), u.1) A :=
    ((measurable_one.indicator hC).comp measurable_snd).mul
      ((Measure.measurable_coe hA).comp (hc.comp (by fun_prop)))
  have hm2 : ∀ s', Measurable fun h' => kc ((r.1.1, s'), h') A := fun s' =>
    (Measure.measurable_coe hA).comp (hc.comp measurable_prodMk_left)
  rw [← ind_mul hC]
  unfold stepD
  rw [runAll_cons_map (by fun_prop) (by simpa using ⟨measurable_stepS hs hs', measurable_stepC hc hc'⟩) _ hE]
  simp only [e]
  rw [lintegral_lintegral_swap (f := fun h' s' => C.indicator 1 s' * kc ((r.1.1, s'), h') A) hm.aemeasurable]
  refine lintegral_congr fun s' => ?_
  rw [lintegral_const_mul _ (hm2 s'), bind_apply_third hc hA]

include hs hs' hc hc' in
theorem rect_dcs : runAll [stepD kd, stepC kc, stepS ks] r (rect A C) =
    ∫⁻ β' in A, ks (β', r.1.2) C ∂(kd (r.1.1, r.2)).bind fun h' => kc (r.1, h') := by
  have hE := measurableSet_rect (H := H) hA hC
  have e : ∀ (β : B) (s : S) (h : H), runAll [stepC kc, stepS ks] ((β, s), h) (rect A C) =
      ∫⁻ β', A.indicator 1 β' * ks (β', s) C ∂kc ((β, s), h) := by
    intro β s h
    unfold stepC
    rw [runAll_cons_map (by fun_prop) (by simpa using measurable_stepS hs hs') _ hE]
    simp only [lastS hA hC]
  have hm : Measurable fun β' => A.indicator (1 : B → ℝ≥0∞) β' * ks (β', r.1.2) C :=
    (measurable_one.indicator hA).mul ((Measure.measurable_coe hC).comp (hs.comp measurable_prodMk_right))
  rw [← ind_mul hA, Measure.lintegral_bind (m := kd (r.1.1, r.2)) (μ := fun h' => kc (r.1, h'))
    (hc.comp measurable_prodMk_left).aemeasurable hm.aemeasurable]
  unfold stepD
  rw [runAll_cons_map (by fun_prop) (by simpa using ⟨measurable_stepC hc hc', measurable_stepS hs hs'⟩) _ hE]
  exact lintegral_congr fun h' => e _ _ _

end

end Verif.Whole
