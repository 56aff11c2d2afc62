import Verif.Whole.Seq

/-!
# The call of a horseshoe regression against the single steps in every order
-/

open MeasureTheory ProbabilityTheory Matrix Filter
open scoped ENNReal Topology

namespace Verif.Whole

open HsReg (shrinkK coefK measurable_shrinkK prob_shrinkK measurable_coefK prob_coefK)

variable {p n : ℕ}

/-! ## Known dispersion -/

section Two

variable {X : Matrix (Fin n) (Fin p) ℝ} {b κ : Fin n → ℝ} {lik : (Fin p → ℝ) → ℝ≥0∞}

/-- The states the samplers are meant for. -/
def good (p : ℕ) : Set ((Fin p → ℝ) × ((Fin p → ℝ) × ℝ)) := {q | Horseshoe.AllPos q.2}

theorem shrink_on (conv : Horseshoe.ExpArg) :
    StepOn (good p) (HsReg.shrinkStep conv) fun q => (shrinkK conv q).map fun s => (q.1, s) where
  meas := measurable_onSecond (measurable_shrinkK conv) (prob_shrinkK conv)
  prob q := by
    have := prob_shrinkK conv q
    exact Measure.isProbabilityMeasure_map (by fun_prop)
  eq q hq := by rw [HsReg.shrinkStep, HsReg.shrinkK_eq conv q.1 hq]
  stays q _ := by
    have hm : MeasurableSet (good p) := measurable_snd Horseshoe.measurableSet_allPos
    refine (ae_map_iff (p := fun q => q ∈ good p) (by fun_prop) hm).2 ?_
    exact Shared.ae_shrinkK_pos conv q

/-- A step of the coefficients with a Polya-Gamma likelihood. -/
theorem coef_on (F : HsReg.PGForm X b κ lik) {la : LinAlg} (hla : la.Sound) :
    StepOn (good p) (fun q => (pgStep la (fun j => (q.2.1 j * q.2.2)⁻¹) X b κ q.1).map fun β => (β, q.2))
      fun q => (coefK X b κ q).map fun β => (β, q.2) where
  meas := measurable_onFirst (measurable_coefK X b κ) (prob_coefK X b κ)
  prob q := by
    have := prob_coefK X b κ q
    exact Measure.isProbabilityMeasure_map (by fun_prop)
  eq q hq := by rw [HsReg.coefK_eq hla X F.hb κ hq]
  stays q hq := by
    have hm : MeasurableSet (good p) := measurable_snd Horseshoe.measurableSet_allPos
    refine (ae_map_iff (p := fun q => q ∈ good p) (by fun_prop) hm).2 ?_
    exact ae_of_all _ fun _ => hq

theorem coefK_ac (X : Matrix (Fin n) (Fin p) ℝ) (b κ : Fin n → ℝ) (q : (Fin p → ℝ) × ((Fin p → ℝ) × ℝ)) :
    volume ≪ coefK X b κ q ∧ coefK X b κ q ≪ volume := by
  have e := coefK_eq_mixK X b κ q.1 q.2
  have hd : ∀ j, 0 < HsReg.precOf q.2 j := fun j => posOr1_pos _
  constructor
  · refine Measure.AbsolutelyContinuous.mk fun T hT h => ?_
    rw [← mixK_null X b κ q.1 hd hT, ← e]
    exact h
  · refine Measure.AbsolutelyContinuous.mk fun T hT h => ?_
    rw [← mixK_null X b κ q.1 hd hT, ← e] at h
    exact h

theorem coefK_concentrates (X : Matrix (Fin n) (Fin p) ℝ) (b κ : Fin n → ℝ) (β : Fin p → ℝ) (j : Fin p) :
    Concentrates (fun s => coefK X b κ (β, s)) j := by
  intro s hs h0 e he
  simp only [coefK_eq_mixK]
  exact mixK_far_tendsto X b κ β (fun k i => posOr1_pos _)
    (fun i => prec_tendsto (fun k => mul_pos ((hs k).1 i) (hs k).2) (h0 i)) he j

/-- From no state is the call the two steps one after the other, in either order. -/
theorem two_differ (F : HsReg.PGForm X b κ lik) {la : LinAlg} (hla : la.Sound) (conv : Horseshoe.ExpArg)
    (hp : 0 < p) {q : (Fin p → ℝ) × ((Fin p → ℝ) × ℝ)} (hq : q ∈ good p)
    {l : List ((Fin p → ℝ) × ((Fin p → ℝ) × ℝ) → Measure ((Fin p → ℝ) × ((Fin p → ℝ) × ℝ)))}
    (hl : l.Perm [HsReg.shrinkStep conv,
      fun q => (pgStep la (fun j => (q.2.1 j * q.2.2)⁻¹) X b κ q.1).map fun β => (β, q.2)]) :
    IsProbabilityMeasure (runAll l q) ∧
      HsReg.readK conv ⟨false, false⟩ (coefK X b κ) q ≠ runAll l q := by
  have h1 := shrink_on (p := p) conv
  have h2 := coef_on F hla
  have hcm := measurable_coefK X b κ
  have hL : ∀ A C, MeasurableSet A → MeasurableSet C →
      HsReg.readK conv ⟨false, false⟩ (coefK X b κ) q (A ×ˢ C) = coefK X b κ q A * shrinkK conv q C := by
    intro A C hA hC
    rw [← lintegral_indicator_one (hA.prod hC), HsReg.lintegral_readK conv _ hcm (prob_coefK X b κ) q
      (measurable_one.indicator (hA.prod hC))]
    have e : ∀ (s' : (Fin p → ℝ) × ℝ) (β : Fin p → ℝ), (A ×ˢ C).indicator (1 : (Fin p → ℝ) × ((Fin p → ℝ) × ℝ) → ℝ≥0∞) (β, s') =
        C.indicator 1 s' * A.indicator 1 β := by
      intro s' β
      by_cases ha : β ∈ A <;> by_cases hc : s' ∈ C <;> simp [ha, hc]
    simp only [e]
    have e2 := lintegral_rect (shrinkK conv q) (fun _ => coefK X b κ q) hC hA
    rw [setLIntegral_const] at e2
    exact e2
  rcases List.perm_pair.1 hl with rfl | rfl
  · refine ⟨runAll_prob (.cons h1 (.cons h2 .nil)) hq, fun hLR => ?_⟩
    rw [runAll_eq (.cons h1 (.cons h2 .nil)) q hq] at hLR
    refine shrink_first_differs conv ⟨0, hp⟩ q (M := fun s => coefK X b κ (q.1, s))
      (hcm.comp measurable_prodMk_left) (coefK_concentrates X b κ q.1 _) (ν := coefK X b κ q)
      (coefK_ac X b κ q).2 (prob_coefK X b κ q).ne_zero fun A C hA hC => ?_
    rw [← hL A C hA hC, hLR, runAll_cons_map (by fun_prop) (by simpa using h2.meas) q (hA.prod hC),
      ← lintegral_rect _ _ hC hA]
    refine lintegral_congr fun s' => ?_
    rw [runAll_cons_map (by fun_prop) (by simp) _ (hA.prod hC)]
    refine lintegral_congr fun β => ?_
    rw [runAll_nil_apply _ (hA.prod hC)]
    by_cases ha : β ∈ A <;> by_cases hc : s' ∈ C <;> simp [ha, hc]
  · refine ⟨runAll_prob (.cons h2 (.cons h1 .nil)) hq, fun hLR => ?_⟩
    rw [runAll_eq (.cons h2 (.cons h1 .nil)) q hq] at hLR
    have := prob_coefK X b κ q
    refine coef_first_differs conv ⟨0, hp⟩ q.1 (s := q.2) hq (coefK_ac X b κ q).1
      (ν' := coefK X b κ q) fun A C hA hC => ?_
    change _ = coefK X b κ q A * shrinkK conv q C
    rw [← hL A C hA hC, hLR, runAll_cons_map (by fun_prop) (by simpa using h1.meas) q (hA.prod hC),
      ← lintegral_rect _ _ hA hC]
    refine lintegral_congr fun β => ?_
    rw [runAll_cons_map (by fun_prop) (by simp) _ (hA.prod hC)]
    refine lintegral_congr fun s' => ?_
    rw [runAll_nil_apply _ (hA.prod hC)]
    by_cases ha : β ∈ A <;> by_cases hc : s' ∈ C <;> simp [ha, hc]

end Two

/-! ## Unknown dispersion -/

section Three

variable (X : Matrix (Fin n) (Fin p) ℝ) (y : Fin n → ℕ)

open HsDisp (State Good coefP measurable_coefP prob_coefP)

/-- Law of the new coefficients given the whole state. -/
noncomputable def coefR (r : State p) : Measure (Fin p → ℝ) :=
  coefP X y (fun j => (r.1.2.1 j * r.1.2.2)⁻¹, (r.1.1, r.2))

theorem measurable_coefR : Measurable (coefR X y) := by
  unfold coefR
  exact (measurable_coefP X y).comp (by fun_prop)

theorem prob_coefR (r : State p) : IsProbabilityMeasure (coefR X y r) := prob_coefP X y _

theorem coefR_ac (r : State p) : volume ≪ coefR X y r ∧ coefR X y r ≪ volume := by
  have hd : ∀ j, 0 < posOr1 ((r.1.2.1 j * r.1.2.2)⁻¹) := fun j => posOr1_pos _
  constructor
  · refine Measure.AbsolutelyContinuous.mk fun T hT h => ?_
    rw [coefR, coefP_eq_mixK] at h
    exact (mixK_null X _ _ r.1.1 hd hT).1 h
  · refine Measure.AbsolutelyContinuous.mk fun T hT h => ?_
    rw [coefR, coefP_eq_mixK]
    exact (mixK_null X _ _ r.1.1 hd hT).2 h

theorem coefR_concentrates (β : Fin p → ℝ) (h : ℝ) (j : Fin p) :
    Concentrates (fun s => coefR X y ((β, s), h)) j := by
  intro s hs h0 e he
  simp only [coefR, coefP_eq_mixK]
  exact mixK_far_tendsto X _ _ β (fun k i => posOr1_pos _)
    (fun i => prec_tendsto (fun k => mul_pos ((hs k).1 i) (hs k).2) (h0 i)) he j

/-- The same if the coefficients are drawn given a random dispersion. -/
theorem bind_concentrates {D : Measure ℝ} [IsProbabilityMeasure D] (β : Fin p → ℝ) (j : Fin p) :
    Concentrates (fun s => D.bind fun h => coefR X y ((β, s), h)) j := by
  intro s hs h0 e he
  have hA := measurableSet_far e j
  have hm : ∀ s, Measurable fun h => coefR X y ((β, s), h) :=
    fun s => (measurable_coefR X y).comp (by fun_prop)
  have e1 : ∀ k, (D.bind fun h => coefR X y ((β, s k), h)) (far e j) =
      ∫⁻ h, coefR X y ((β, s k), h) (far e j) ∂D := fun k =>
    Measure.bind_apply hA (hm (s k)).aemeasurable
  simp only [e1]
  have key := tendsto_lintegral_of_dominated_convergence (μ := D)
    (F := fun k h => coefR X y ((β, s k), h) (far e j)) (f := fun _ => 0) (fun _ => 1)
    (fun k => (Measure.measurable_coe hA).comp (hm (s k)))
    (fun k => ae_of_all _ fun h => by
      have := prob_coefR X y ((β, s k), h)
      exact prob_le_one) (by simp)
    (ae_of_all _ fun h => coefR_concentrates X y β h j s hs h0 e he)
  simpa using key

variable {X y}

theorem shrink3_on (conv : Horseshoe.ExpArg) : StepOn {r : State p | Good r} (HsDisp.shrinkStep conv)
    (stepS (shrinkK conv)) where
  meas := measurable_stepS (measurable_shrinkK conv) (prob_shrinkK conv)
  prob r := by
    have := prob_shrinkK conv r.1
    exact Measure.isProbabilityMeasure_map (by fun_prop)
  eq r hr := by
    rw [HsDisp.shrinkStep, HsReg.shrinkStep, HsReg.shrinkK_eq conv r.1.1 hr.1,
      Measure.map_map (by fun_prop) (by fun_prop)]
    rfl
  stays r hr := by
    refine (ae_map_iff (p := fun r => r ∈ {r : State p | Good r}) (by fun_prop)
      HsDisp.measurableSet_good).2 ?_
    filter_upwards [Shared.ae_shrinkK_pos conv r.1] with s hs using ⟨hs, hr.2⟩

theorem coef3_on {la : LinAlg} (hla : la.Sound) : StepOn {r : State p | Good r} (HsDisp.coefStep la X y)
    (stepC (coefR X y)) where
  meas := measurable_stepC (measurable_coefR X y) (prob_coefR X y)
  prob r := by
    have := prob_coefR X y r
    exact Measure.isProbabilityMeasure_map (by fun_prop)
  eq r hr := by
    have hd : ∀ j, 0 < r.1.2.1 j * r.1.2.2 := fun j => mul_pos (hr.1.1 j) hr.1.2
    rw [HsDisp.coefStep, HsReg.nbCoefStep, NbReg.coefK_eq hla hd X y hr.2,
      Measure.map_map (by fun_prop) (by fun_prop), stepC, coefR, coefP]
    simp only [posOr1_of_pos (inv_pos.2 (hd _))]
    rfl
  stays r hr := by
    refine (ae_map_iff (p := fun r => r ∈ {r : State p | Good r}) (by fun_prop)
      HsDisp.measurableSet_good).2 ?_
    exact ae_of_all _ fun _ => ⟨hr.1, hr.2⟩

theorem disp3_on {a b : ℝ} (ha : 0 < a) (hb : 0 < b) :
    StepOn {r : State p | Good r} (HsDisp.dispStep X a b y)
      (stepD (NbReg.dispK X a b y)) where
  meas := measurable_stepD (NbReg.measurable_dispK X a b y) (NbReg.prob_dispK X ha hb y)
  prob r := by
    have := NbReg.prob_dispK X ha hb y (r.1.1, r.2)
    exact Measure.isProbabilityMeasure_map (by fun_prop)
  eq r hr := by rw [HsDisp.dispStep, NbReg.dispK_eq X a b y hr.2, stepD]
  stays r hr := by
    refine (ae_map_iff (p := fun r => r ∈ {r : State p | Good r}) (by fun_prop)
      HsDisp.measurableSet_good).2 ?_
    have hpos : ∀ᵐ h ∂NbReg.dispK X a b y (r.1.1, r.2), 0 < h := by
      rw [ae_iff]
      have : {h : ℝ | ¬ 0 < h} = Set.Iic 0 := by
        ext h
        simp
      rw [NbReg.dispK_null ha hb, this]
      rw [volPos, Measure.restrict_apply measurableSet_Iic, Set.Iic_inter_Ioi, Set.Ioc_self,
        measure_empty]
    filter_upwards [hpos] with h hh using ⟨hr.1, hh⟩

theorem callK_rect (conv : Horseshoe.ExpArg) {a b : ℝ} (ha : 0 < a) (hb : 0 < b) (r : State p)
    {A : Set (Fin p → ℝ)} {C : Set ((Fin p → ℝ) × ℝ)} (hA : MeasurableSet A) (hC : MeasurableSet C) :
    HsDisp.callK conv ⟨false, false⟩ X a b y r (rect A C) = coefR X y r A * shrinkK conv r.1 C := by
  have hm : Measurable ((rect A C).indicator (1 : State p → ℝ≥0∞)) :=
    measurable_one.indicator (measurableSet_rect hA hC)
  rw [← lintegral_indicator_one (measurableSet_rect hA hC), HsDisp.lintegral_callK conv _ X ha hb y r hm]
  simp only [HsDisp.lintegral_midK _ X ha hb y _ hm, indicator_rect]
  have e2 := lintegral_rect (shrinkK conv r.1) (fun _ => coefR X y r) hC hA
  rw [setLIntegral_const] at e2
  rw [← e2]
  refine lintegral_congr fun s => lintegral_congr fun β => ?_
  have := NbReg.prob_dispK X ha hb y (β, r.2)
  simp [mul_comm]

/-- Shrinkage parameters drawn before the coefficients. -/
theorem three_first (conv : Horseshoe.ExpArg) (hp : 0 < p) {a b : ℝ} (ha : 0 < a) (hb : 0 < b) (r : State p)
    {M : (Fin p → ℝ) × ℝ → Measure (Fin p → ℝ)} (hM : Measurable M) (hc : Concentrates M ⟨0, hp⟩)
    {R : Measure (State p)} (hR : ∀ A C, MeasurableSet A → MeasurableSet C →
      R (rect A C) = ∫⁻ s' in C, M s' A ∂shrinkK conv r.1) :
    HsDisp.callK conv ⟨false, false⟩ X a b y r ≠ R := by
  intro h
  refine shrink_first_differs conv ⟨0, hp⟩ r.1 hM hc (coefR_ac X y r).2 (prob_coefR X y r).ne_zero
    fun A C hA hC => ?_
  rw [← callK_rect conv ha hb r hA hC, h, hR A C hA hC]

/-- Coefficients drawn before the shrinkage parameters. -/
theorem three_second (conv : Horseshoe.ExpArg) (hp : 0 < p) {a b : ℝ} (ha : 0 < a) (hb : 0 < b) {r : State p}
    (hr : Good r) {ν : Measure (Fin p → ℝ)} [IsProbabilityMeasure ν] (hν : volume ≪ ν)
    {R : Measure (State p)} (hR : ∀ A C, MeasurableSet A → MeasurableSet C →
      R (rect A C) = ∫⁻ β' in A, shrinkK conv (β', r.1.2) C ∂ν) :
    HsDisp.callK conv ⟨false, false⟩ X a b y r ≠ R := by
  intro h
  refine coef_first_differs conv ⟨0, hp⟩ r.1.1 (s := r.1.2) hr.1 hν (ν' := coefR X y r)
    fun A C hA hC => ?_
  change _ = coefR X y r A * shrinkK conv r.1 C
  rw [← callK_rect conv ha hb r hA hC, h, hR A C hA hC]

theorem bind_ac {D : Measure ℝ} [IsProbabilityMeasure D] (q : (Fin p → ℝ) × ((Fin p → ℝ) × ℝ)) :
    IsProbabilityMeasure (D.bind fun h => coefR X y (q, h)) ∧ volume ≪ D.bind fun h => coefR X y (q, h) := by
  have hm : Measurable fun h => coefR X y (q, h) := (measurable_coefR X y).comp measurable_prodMk_left
  refine ⟨isProbabilityMeasure_bind hm.aemeasurable (ae_of_all _ fun h => prob_coefR X y _),
    Measure.AbsolutelyContinuous.mk fun T hT h0 => ?_⟩
  have h1 : ∫⁻ h, coefR X y (q, h) T ∂D = 0 := by
    rw [← Measure.bind_apply (f := fun h => coefR X y (q, h)) hT hm.aemeasurable]
    exact h0
  rw [lintegral_eq_zero_iff (f := fun h => coefR X y (q, h) T) ((Measure.measurable_coe hT).comp hm)] at h1
  obtain ⟨h, hh⟩ := h1.exists
  exact (coefR_ac X y _).1 hh

theorem measurable_bindR {D : Measure ℝ} (hD : IsProbabilityMeasure D) (β : Fin p → ℝ) :
    Measurable fun s : (Fin p → ℝ) × ℝ => D.bind fun h => coefR X y ((β, s), h) :=
  measurable_bind_param (K := fun _ : (Fin p → ℝ) × ℝ => D) measurable_const (fun _ => hD)
    (F := fun u : ((Fin p → ℝ) × ℝ) × ℝ => coefR X y ((β, u.1), u.2))
    ((measurable_coefR X y).comp (by fun_prop))

/-- The totalised steps, in any order. -/
theorem order_differ (conv : Horseshoe.ExpArg) (hp : 0 < p) {a b : ℝ} (ha : 0 < a) (hb : 0 < b) {r : State p}
    (hr : Good r) {l : List (State p → Measure (State p))}
    (hl : l.Perm [stepS (shrinkK conv), stepC (coefR X y), stepD (NbReg.dispK X a b y)]) :
    HsDisp.callK conv ⟨false, false⟩ X a b y r ≠ runAll l r := by
  have hs := measurable_shrinkK (p := p) conv
  have hs' := prob_shrinkK (p := p) conv
  have hc := measurable_coefR X y
  have hc' := prob_coefR X y
  have hd := NbReg.measurable_dispK X a b y
  have hd' := NbReg.prob_dispK X ha hb y
  have hD := hd' (r.1.1, r.2)
  have hcr := hc' r
  have hac := bind_ac (X := X) (y := y) (D := NbReg.dispK X a b y (r.1.1, r.2)) r.1
  have hpb := hac.1
  rcases perm_three hl with rfl | rfl | rfl | rfl | rfl | rfl
  · exact three_first conv hp ha hb r (M := fun s => coefR X y ((r.1.1, s), r.2)) (hc.comp (by fun_prop))
      (coefR_concentrates X y r.1.1 r.2 _) fun A C hA hC => rect_scd hc hc' hd hd' hA hC r
  · exact three_first conv hp ha hb r (measurable_bindR hD r.1.1) (bind_concentrates X y r.1.1 _)
      fun A C hA hC => rect_sdc hc hc' hd hd' hA hC r
  · exact three_second conv hp ha hb hr (coefR_ac X y r).1
      fun A C hA hC => rect_csd hs hs' hd hd' hA hC r
  · exact three_second conv hp ha hb hr (coefR_ac X y r).1
      fun A C hA hC => rect_cds hs hs' hd hd' hA hC r
  · exact three_first conv hp ha hb r (measurable_bindR hD r.1.1) (bind_concentrates X y r.1.1 _)
      fun A C hA hC => rect_dsc hs hs' hc hc' hd' hA hC r
  · exact three_second conv hp ha hb hr hac.2
      fun A C hA hC => rect_dcs hs hs' hc hc' hA hC r

/-- From no state is the call the three steps one after the other, in any order. -/
theorem three_differ {la : LinAlg} (hla : la.Sound) (conv : Horseshoe.ExpArg) (hp : 0 < p) {a b : ℝ}
    (ha : 0 < a) (hb : 0 < b) {r : State p} (hr : Good r) {l : List (State p → Measure (State p))}
    (hl : l.Perm [HsDisp.shrinkStep conv, HsDisp.coefStep la X y, HsDisp.dispStep X a b y]) :
    IsProbabilityMeasure (runAll l r) ∧
      HsDisp.callK conv ⟨false, false⟩ X a b y r ≠ runAll l r := by
  have h1 := shrink3_on (p := p) conv
  have h2 := coef3_on (X := X) (y := y) hla
  have h3 := disp3_on (p := p) (X := X) (y := y) ha hb
  rcases perm_three hl with rfl | rfl | rfl | rfl | rfl | rfl
  · refine ⟨runAll_prob (.cons h1 (.cons h2 (.cons h3 .nil))) hr, ?_⟩
    rw [runAll_eq (.cons h1 (.cons h2 (.cons h3 .nil))) r hr]
    exact order_differ conv hp ha hb hr (.refl _)
  · refine ⟨runAll_prob (.cons h1 (.cons h3 (.cons h2 .nil))) hr, ?_⟩
    rw [runAll_eq (.cons h1 (.cons h3 (.cons h2 .nil))) r hr]
    exact order_differ conv hp ha hb hr (.cons _ (.swap _ _ _))
  · refine ⟨runAll_prob (.cons h2 (.cons h1 (.cons h3 .nil))) hr, ?_⟩
    rw [runAll_eq (.cons h2 (.cons h1 (.cons h3 .nil))) r hr]
    exact order_differ conv hp ha hb hr (.swap _ _ _)
  · refine ⟨runAll_prob (.cons h2 (.cons h3 (.cons h1 .nil))) hr, ?_⟩
    rw [runAll_eq (.cons h2 (.cons h3 (.cons h1 .nil))) r hr]
    exact order_differ conv hp ha hb hr (.trans (.cons _ (.swap _ _ _)) (.swap _ _ _))
  · refine ⟨runAll_prob (.cons h3 (.cons h1 (.cons h2 .nil))) hr, ?_⟩
    rw [runAll_eq (.cons h3 (.cons h1 (.cons h2 .nil))) r hr]
    exact order_differ conv hp ha hb hr (.trans (.swap _ _ _) (.cons _ (.swap _ _ _)))
  · refine ⟨runAll_prob (.cons h3 (.cons h2 (.cons h1 .nil))) hr, ?_⟩
    rw [runAll_eq (.cons h3 (.cons h2 (.cons h1 .nil))) r hr]
    exact order_differ conv hp ha hb hr (.trans (.swap _ _ _) (.trans (.cons _ (.swap _ _ _)) (.swap _ _ _)))

end Three

end Verif.Whole
