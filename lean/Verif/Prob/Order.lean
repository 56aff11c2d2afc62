import Mathlib.Probability.Distributions.Beta
import Mathlib.Probability.Distributions.Gamma
import Mathlib.MeasureTheory.Measure.GiryMonad
import Mathlib.MeasureTheory.Constructions.Pi
import Mathlib.MeasureTheory.Integral.Layercake
import Mathlib.Order.UpperLower.Basic

/-!
# Larger draws: the usual stochastic order
-/

open MeasureTheory ProbabilityTheory
open scoped ENNReal

namespace Verif

/-- Spec.  Draws from `ν` are larger than draws from `μ`: every event that larger values keep (such as
exceeding a given number) is at least as probable. -/
def StochLE {α : Type*} [MeasurableSpace α] [Preorder α] (μ ν : Measure α) : Prop :=
  ∀ A : Set α, MeasurableSet A → IsUpperSet A → μ A ≤ ν A

section General

variable {α β γ : Type*} [MeasurableSpace α] [Preorder α] [MeasurableSpace β] [Preorder β]

theorem StochLE.refl (μ : Measure α) : StochLE μ μ := fun _ _ _ => le_rfl

theorem StochLE.trans {μ ν ξ : Measure α} (h : StochLE μ ν) (h' : StochLE ν ξ) : StochLE μ ξ :=
  fun A hA hU => (h A hA hU).trans (h' A hA hU)

/-- Increasing functions of larger draws are larger. -/
theorem StochLE.map {μ ν : Measure α} (h : StochLE μ ν) {f : α → β} (hf : Measurable f)
    (hm : Monotone f) : StochLE (μ.map f) (ν.map f) := by
  intro A hA hU
  rw [Measure.map_apply hf hA, Measure.map_apply hf hA]
  exact h _ (hf hA) (hU.preimage hm)

/-- Decreasing functions of larger draws are smaller. -/
theorem StochLE.map_antitone {μ ν : Measure α} [IsProbabilityMeasure μ] [IsProbabilityMeasure ν]
    (h : StochLE μ ν) {f : α → β} (hf : Measurable f) (hm : Antitone f) :
    StochLE (ν.map f) (μ.map f) := by
  intro A hA hU
  rw [Measure.map_apply hf hA, Measure.map_apply hf hA]
  have h1 := h (f ⁻¹' A)ᶜ (hf hA).compl fun x y hxy hx hy => hx (hU (hm hxy) hy)
  rw [prob_compl_eq_one_sub (hf hA), prob_compl_eq_one_sub (hf hA)] at h1
  have := tsub_le_tsub_left h1 (1 : ℝ≥0∞)
  rwa [ENNReal.sub_sub_cancel ENNReal.one_ne_top prob_le_one,
    ENNReal.sub_sub_cancel ENNReal.one_ne_top prob_le_one] at this

/-- Expectations of bounded increasing functions. -/
theorem StochLE.lintegral {μ ν : Measure α} (h : StochLE μ ν) {φ : α → ℝ≥0∞} (hφ : Measurable φ)
    (hm : Monotone φ) (hb : ∀ x, φ x ≤ 1) : ∫⁻ x, φ x ∂μ ≤ ∫⁻ x, φ x ∂ν := by
  have e : ∀ ξ : Measure α, ∫⁻ x, φ x ∂ξ = ∫⁻ t in Set.Ioi (0 : ℝ), ξ {x | t < (φ x).toReal} := by
    intro ξ
    rw [← lintegral_eq_lintegral_meas_lt ξ (f := fun x => (φ x).toReal)
      (Filter.Eventually.of_forall fun x => ENNReal.toReal_nonneg) hφ.ennreal_toReal.aemeasurable]
    refine lintegral_congr fun x => ?_
    rw [ENNReal.ofReal_toReal ((hb x).trans_lt ENNReal.one_lt_top).ne]
  rw [e, e]
  refine lintegral_mono fun t => h _ (measurableSet_lt measurable_const hφ.ennreal_toReal)
    fun x y hxy hx => ?_
  exact lt_of_lt_of_le hx (ENNReal.toReal_mono ((hb y).trans_lt ENNReal.one_lt_top).ne (hm hxy))

/-- Two draws, the second from a law that rises with the first. -/
theorem StochLE.bind {μ ν : Measure α} (h : StochLE μ ν) {K L : α → Measure β} (hK : Measurable K)
    (hL : Measurable L) [∀ x, IsProbabilityMeasure (L x)]
    (hmono : ∀ x y, x ≤ y → StochLE (L x) (L y)) (hKL : ∀ x, StochLE (K x) (L x)) :
    StochLE (μ.bind K) (ν.bind L) := by
  intro A hA hU
  rw [Measure.bind_apply hA hK.aemeasurable, Measure.bind_apply hA hL.aemeasurable]
  refine (lintegral_mono fun x => hKL x A hA hU).trans ?_
  exact h.lintegral (Measure.measurable_measure.1 hL A hA) (fun x y hxy => hmono x y hxy A hA hU)
    fun x => prob_le_one

/-- A mixture over one common draw. -/
theorem stochLE_bind {δ : Type*} [MeasurableSpace δ] {μ : Measure δ} {K L : δ → Measure β}
    (hK : Measurable K) (hL : Measurable L) (h : ∀ x, StochLE (K x) (L x)) :
    StochLE (μ.bind K) (μ.bind L) := by
  intro A hA hU
  rw [Measure.bind_apply hA hK.aemeasurable, Measure.bind_apply hA hL.aemeasurable]
  exact lintegral_mono fun x => h x A hA hU

/-- Independent draws. -/
theorem StochLE.prod {μ ν : Measure α} {μ' ν' : Measure β} [SFinite μ] [SFinite ν]
    [IsProbabilityMeasure μ'] [IsProbabilityMeasure ν'] (h : StochLE μ ν) (h' : StochLE μ' ν') :
    StochLE (μ.prod μ') (ν.prod ν') := by
  intro A hA hU
  rw [Measure.prod_apply hA, Measure.prod_apply hA]
  refine (lintegral_mono fun x => h' _ (measurable_prodMk_left hA)
    fun y z hyz hy => hU (Prod.mk_le_mk.2 ⟨le_rfl, hyz⟩) hy).trans ?_
  exact h.lintegral (measurable_measure_prodMk_left hA)
    (fun x y hxy => measure_mono fun z hz => hU (Prod.mk_le_mk.2 ⟨hxy, le_rfl⟩) hz) fun x => prob_le_one

end General

/-- Vectors of independent draws. -/
theorem stochLE_pi : ∀ {n : ℕ} {μ ν : Fin n → Measure ℝ} [∀ i, IsProbabilityMeasure (μ i)]
    [∀ i, IsProbabilityMeasure (ν i)], (∀ i, StochLE (μ i) (ν i)) →
    StochLE (Measure.pi μ) (Measure.pi ν)
  | 0, μ, ν, _, _, _ => by
    intro A hA hU
    rw [Measure.pi_of_empty μ, Measure.pi_of_empty ν]
  | n + 1, μ, ν, _, _, h => by
    have e : ∀ (ξ : Fin (n + 1) → Measure ℝ) [∀ i, IsProbabilityMeasure (ξ i)],
        Measure.pi ξ = ((ξ 0).prod (Measure.pi fun i => ξ (Fin.succ i))).map
          fun q => Fin.cons (α := fun _ => ℝ) q.1 q.2 := by
      intro ξ _
      have := (measurePreserving_piFinSuccAbove ξ 0).symm
      rw [← this.map_eq]
      simp only [Fin.succAbove_zero]
      congr 1
      funext q i
      refine Fin.cases ?_ (fun i => ?_) i <;> simp [MeasurableEquiv.piFinSuccAbove]
    rw [e μ, e ν]
    refine StochLE.map ((h 0).prod (stochLE_pi fun i => h (Fin.succ i))) ?_ ?_
    · refine measurable_pi_iff.2 fun i => ?_
      refine Fin.cases ?_ (fun i => ?_) i
      · simpa using measurable_fst
      · simpa using (measurable_pi_iff.1 measurable_snd i)
    · intro q r hqr i
      refine Fin.cases ?_ (fun i => ?_) i
      · exact hqr.1
      · exact hqr.2 i

section Ratio

variable {base : Measure ℝ} {f g : ℝ → ℝ≥0∞}

/-- Densities whose ratio rises. -/
theorem stochLE_of_ratio (hf : Measurable f) (hg : Measurable g)
    (hμ : IsProbabilityMeasure (base.withDensity f)) (hν : IsProbabilityMeasure (base.withDensity g))
    (h : ∀ᵐ x ∂base, ∀ᵐ x' ∂base, x < x' → f x' * g x ≤ f x * g x') :
    StochLE (base.withDensity f) (base.withDensity g) := by
  intro A hA hU
  have key : base.withDensity f A * base.withDensity g Aᶜ ≤
      base.withDensity f Aᶜ * base.withDensity g A := by
    rw [withDensity_apply _ hA, withDensity_apply _ hA.compl, withDensity_apply _ hA,
      withDensity_apply _ hA.compl, ← lintegral_const_mul _ hg, ← lintegral_mul_const _ hf]
    refine lintegral_mono_ae ?_
    filter_upwards [ae_restrict_of_ae h, ae_restrict_mem hA.compl] with x hx hxA
    rw [← lintegral_mul_const _ hf, ← lintegral_const_mul _ hg]
    refine lintegral_mono_ae ?_
    filter_upwards [ae_restrict_of_ae hx, ae_restrict_mem hA] with x' hx' hxA'
    refine hx' (lt_of_not_ge fun hle => hxA (hU hle hxA'))
  have h1 : base.withDensity f A + base.withDensity f Aᶜ = 1 := prob_add_prob_compl hA
  have h2 : base.withDensity g A + base.withDensity g Aᶜ = 1 := prob_add_prob_compl hA
  calc base.withDensity f A
      = base.withDensity f A * (base.withDensity g A + base.withDensity g Aᶜ) := by rw [h2, mul_one]
    _ ≤ base.withDensity f A * base.withDensity g A + base.withDensity f Aᶜ * base.withDensity g A := by
        rw [mul_add]
        gcongr
    _ = base.withDensity g A := by rw [← add_mul, h1, one_mul]

end Ratio

/-- Beta laws: more weight on the first parameter and less on the second. -/
theorem stochLE_beta {a b a' b' : ℝ} (ha : 0 < a) (hb' : 0 < b') (haa : a ≤ a') (hbb : b' ≤ b) :
    StochLE (betaMeasure a b) (betaMeasure a' b') := by
  have ha' := ha.trans_le haa
  have hb := hb'.trans_le hbb
  have i1 := isProbabilityMeasureBeta ha hb
  have i2 := isProbabilityMeasureBeta ha' hb'
  unfold betaMeasure at i1 i2 ⊢
  refine stochLE_of_ratio (measurable_betaPDFReal a b).ennreal_ofReal
    (measurable_betaPDFReal a' b').ennreal_ofReal i1 i2 ?_
  refine Filter.Eventually.of_forall fun x => Filter.Eventually.of_forall fun x' hxx => ?_
  by_cases hx : 0 < x
  · by_cases hx' : x' < 1
    · have h1 : x < 1 := hxx.trans hx'
      have h2 : 0 < x' := hx.trans hxx
      have p1 : 0 < 1 - x := by linarith
      have p2 : 0 < 1 - x' := by linarith
      rw [betaPDF_of_pos_lt_one hx h1, betaPDF_of_pos_lt_one h2 hx', betaPDF_of_pos_lt_one hx h1,
        betaPDF_of_pos_lt_one h2 hx']
      have q1 := beta_pos ha hb
      have q2 := beta_pos ha' hb'
      rw [← ENNReal.ofReal_mul (by positivity), ← ENNReal.ofReal_mul (by positivity)]
      refine ENNReal.ofReal_le_ofReal ?_
      have r1 : x ^ (a' - 1) = x ^ (a - 1) * x ^ (a' - a) := by
        rw [← Real.rpow_add hx]; congr 1; ring
      have r2 : x' ^ (a' - 1) = x' ^ (a - 1) * x' ^ (a' - a) := by
        rw [← Real.rpow_add h2]; congr 1; ring
      have r3 : (1 - x) ^ (b - 1) = (1 - x) ^ (b' - 1) * (1 - x) ^ (b - b') := by
        rw [← Real.rpow_add p1]; congr 1; ring
      have r4 : (1 - x') ^ (b - 1) = (1 - x') ^ (b' - 1) * (1 - x') ^ (b - b') := by
        rw [← Real.rpow_add p2]; congr 1; ring
      have s1 : x ^ (a' - a) ≤ x' ^ (a' - a) :=
        Real.rpow_le_rpow hx.le hxx.le (by linarith)
      have s2 : (1 - x') ^ (b - b') ≤ (1 - x) ^ (b - b') :=
        Real.rpow_le_rpow p2.le (by linarith) (by linarith)
      rw [r1, r2, r3, r4]
      have t1 : 0 ≤ 1 / beta a b * (1 / beta a' b') * (x ^ (a - 1) * x' ^ (a - 1)) *
          ((1 - x) ^ (b' - 1) * (1 - x') ^ (b' - 1)) := by positivity
      have t2 : x ^ (a' - a) * (1 - x') ^ (b - b') ≤ x' ^ (a' - a) * (1 - x) ^ (b - b') := by
        gcongr
      calc _ = (1 / beta a b * (1 / beta a' b') * (x ^ (a - 1) * x' ^ (a - 1)) *
          ((1 - x) ^ (b' - 1) * (1 - x') ^ (b' - 1))) * (x ^ (a' - a) * (1 - x') ^ (b - b')) := by ring
        _ ≤ (1 / beta a b * (1 / beta a' b') * (x ^ (a - 1) * x' ^ (a - 1)) *
          ((1 - x) ^ (b' - 1) * (1 - x') ^ (b' - 1))) * (x' ^ (a' - a) * (1 - x) ^ (b - b')) :=
            mul_le_mul_of_nonneg_left t2 t1
        _ = _ := by ring
    · rw [betaPDF_eq_zero_of_one_le (not_lt.1 hx'), zero_mul]
      exact zero_le
  · rw [betaPDF_eq_zero_of_nonpos (not_lt.1 hx), mul_zero]
    exact zero_le

/-- Gamma laws: a larger shape and a smaller rate. -/
theorem stochLE_gamma {a r a' r' : ℝ} (ha : 0 < a) (hr' : 0 < r') (haa : a ≤ a') (hrr : r' ≤ r) :
    StochLE (gammaMeasure a r) (gammaMeasure a' r') := by
  have ha' := ha.trans_le haa
  have hr := hr'.trans_le hrr
  have i1 := isProbabilityMeasure_gammaMeasure ha hr
  have i2 := isProbabilityMeasure_gammaMeasure ha' hr'
  unfold gammaMeasure at i1 i2 ⊢
  refine stochLE_of_ratio (measurable_gammaPDFReal a r).ennreal_ofReal
    (measurable_gammaPDFReal a' r').ennreal_ofReal i1 i2 ?_
  have hne : ∀ᵐ x : ℝ, x ≠ 0 := by
    rw [ae_iff]
    simp
  filter_upwards [hne] with x hx0
  refine Filter.Eventually.of_forall fun x' hxx => ?_
  rcases lt_or_gt_of_ne hx0 with hx | hx
  · rw [gammaPDF_of_neg (a := a') hx, mul_zero]
    exact zero_le
  · have h2 : 0 < x' := hx.trans hxx
    rw [gammaPDF_of_nonneg hx.le, gammaPDF_of_nonneg hx.le, gammaPDF_of_nonneg h2.le,
      gammaPDF_of_nonneg h2.le]
    have q1 := Real.Gamma_pos_of_pos ha
    have q2 := Real.Gamma_pos_of_pos ha'
    rw [← ENNReal.ofReal_mul (by positivity), ← ENNReal.ofReal_mul (by positivity)]
    refine ENNReal.ofReal_le_ofReal ?_
    have r1 : x ^ (a' - 1) = x ^ (a - 1) * x ^ (a' - a) := by
      rw [← Real.rpow_add hx]; congr 1; ring
    have r2 : x' ^ (a' - 1) = x' ^ (a - 1) * x' ^ (a' - a) := by
      rw [← Real.rpow_add h2]; congr 1; ring
    have r3 : Real.exp (-(r * x')) * Real.exp (-(r' * x)) ≤ Real.exp (-(r * x)) * Real.exp (-(r' * x')) := by
      rw [← Real.exp_add, ← Real.exp_add]
      exact Real.exp_le_exp.2 (by nlinarith)
    have s1 : x ^ (a' - a) ≤ x' ^ (a' - a) := Real.rpow_le_rpow hx.le hxx.le (by linarith)
    rw [r1, r2]
    have t1 : 0 ≤ r ^ a / Real.Gamma a * (r' ^ a' / Real.Gamma a') * (x ^ (a - 1) * x' ^ (a - 1)) := by
      positivity
    have t2 : x ^ (a' - a) * (Real.exp (-(r * x')) * Real.exp (-(r' * x))) ≤
        x' ^ (a' - a) * (Real.exp (-(r * x)) * Real.exp (-(r' * x'))) := by
      gcongr
    calc _ = (r ^ a / Real.Gamma a * (r' ^ a' / Real.Gamma a') * (x ^ (a - 1) * x' ^ (a - 1))) *
          (x ^ (a' - a) * (Real.exp (-(r * x')) * Real.exp (-(r' * x)))) := by ring
      _ ≤ (r ^ a / Real.Gamma a * (r' ^ a' / Real.Gamma a') * (x ^ (a - 1) * x' ^ (a - 1))) *
          (x' ^ (a' - a) * (Real.exp (-(r * x)) * Real.exp (-(r' * x')))) :=
            mul_le_mul_of_nonneg_left t2 t1
      _ = _ := by ring

end Verif
