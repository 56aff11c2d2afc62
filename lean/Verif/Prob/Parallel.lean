import Verif.Prob.JointStep
import Mathlib.MeasureTheory.Function.L2Space

/-!
# Two exact conditional draws made at the same time

If each of two conditional draws keeps `π` when made alone, and making both of them from the *old* values keeps
`π` too, then the conditional law of the first coordinate does not depend on the second.
-/

open MeasureTheory
open scoped ENNReal

namespace Verif

variable {A B : Type*} [MeasurableSpace A] [MeasurableSpace B]

/-- Square integrable functions with equal norms, whose product has the same integral, are equal. -/
theorem ae_eq_of_lintegral_mul {Ω : Type*} [MeasurableSpace Ω] {π : Measure Ω} [IsFiniteMeasure π]
    {f g : Ω → ℝ≥0∞} (hf : Measurable f) (hg : Measurable g) (hf1 : ∀ x, f x ≤ 1) (hg1 : ∀ x, g x ≤ 1)
    (h1 : ∫⁻ x, f x * f x ∂π = ∫⁻ x, f x * g x ∂π) (h2 : ∫⁻ x, f x * g x ∂π = ∫⁻ x, g x * g x ∂π) :
    f =ᵐ[π] g := by
  have hft : ∀ x, f x ≠ ∞ := fun x => ne_top_of_le_ne_top ENNReal.one_ne_top (hf1 x)
  have hgt : ∀ x, g x ≠ ∞ := fun x => ne_top_of_le_ne_top ENNReal.one_ne_top (hg1 x)
  have conv : ∀ {a b : Ω → ℝ≥0∞}, Measurable a → Measurable b → (∀ x, a x ≤ 1) → (∀ x, b x ≤ 1) →
      Integrable (fun x => (a x).toReal * (b x).toReal) π ∧
        ∫ x, (a x).toReal * (b x).toReal ∂π = (∫⁻ x, a x * b x ∂π).toReal := by
    intro a b ha hb ha1 hb1
    have hab : ∀ x, a x * b x ≤ 1 := fun x => mul_le_one' (ha1 x) (hb1 x)
    have hfin : ∫⁻ x, a x * b x ∂π ≠ ∞ := by
      refine ne_top_of_le_ne_top (measure_ne_top π Set.univ) ?_
      calc ∫⁻ x, a x * b x ∂π ≤ ∫⁻ _, 1 ∂π := lintegral_mono hab
        _ = π Set.univ := by simp
    have hi := integrable_toReal_of_lintegral_ne_top (ha.mul hb).aemeasurable hfin
    have he := integral_toReal (μ := π) (ha.mul hb).aemeasurable
      (ae_of_all _ fun x => (hab x).trans_lt ENNReal.one_lt_top)
    simp only [Pi.mul_apply, ENNReal.toReal_mul] at hi he
    exact ⟨hi, he⟩
  have c1 := conv hf hf hf1 hf1
  have c2 := conv hf hg hf1 hg1
  have c3 := conv hg hg hg1 hg1
  have e : ∀ x, ((f x).toReal - (g x).toReal) ^ 2 = (f x).toReal * (f x).toReal
      - 2 * ((f x).toReal * (g x).toReal) + (g x).toReal * (g x).toReal := fun x => by ring
  have hi : Integrable (fun x => ((f x).toReal - (g x).toReal) ^ 2) π := by
    simp only [e]
    exact (c1.1.sub (c2.1.const_mul 2)).add c3.1
  have hz : ∫ x, ((f x).toReal - (g x).toReal) ^ 2 ∂π = 0 := by
    simp only [e]
    have i1 := integral_add (c1.1.sub (c2.1.const_mul 2)) c3.1
    have i2 := integral_sub c1.1 (c2.1.const_mul 2)
    rw [integral_const_mul, c1.2, c2.2, h1] at i2
    simp only [Pi.sub_apply] at i1
    rw [i1, i2, c3.2, h2]
    ring
  rw [integral_eq_zero_iff_of_nonneg (fun x => sq_nonneg _) hi] at hz
  filter_upwards [hz] with x hx
  have h3 : (f x).toReal = (g x).toReal := by
    have : ((f x).toReal - (g x).toReal) ^ 2 = 0 := hx
    nlinarith
  exact (ENNReal.toReal_eq_toReal_iff' (hft x) (hgt x)).1 h3

/-- The step that draws both coordinates from the old values of the other. -/
noncomputable def parallel (kA : B → Measure A) (kB : A → Measure B) (q : A × B) : Measure (A × B) :=
  (kA q.2).prod (kB q.1)

/-- If two draws, each of which does not depend on the coordinate it replaces, keep `π` alone and together,
then the law of the first draw depends on the other coordinate through nothing but `π`. -/
theorem parallel_const {π : Measure (A × B)} [IsFiniteMeasure π] {kA : B → Measure A} {kB : A → Measure B}
    (hA : Measurable kA) (hB : Measurable kB) (pA : ∀ b, IsProbabilityMeasure (kA b))
    (pB : ∀ a, IsProbabilityMeasure (kB a)) (h1 : Stationary π (onFirst fun q => kA q.2))
    (h2 : Stationary π (onSecond fun q => kB q.1)) (h12 : Stationary π (parallel kA kB)) {F : Set A}
    (hF : MeasurableSet F) : ∀ᵐ q ∂π, kA q.2 F = ∫⁻ b, kA b F ∂kB q.1 := by
  have hu : Measurable fun b => kA b F := (Measure.measurable_coe hF).comp hA
  have hv : Measurable fun a => ∫⁻ b, kA b F ∂kB a := (Measure.measurable_lintegral hu).comp hB
  have hu1 : ∀ b, kA b F ≤ 1 := fun b => prob_le_one
  have hv1 : ∀ a, ∫⁻ b, kA b F ∂kB a ≤ 1 := fun a =>
    (lintegral_mono hu1).trans (by simp)
  have hi : Measurable (F.indicator fun _ => (1 : ℝ≥0∞)) := measurable_one.indicator hF
  have hfu : Measurable fun q : A × B => F.indicator (fun _ => (1 : ℝ≥0∞)) q.1 * kA q.2 F :=
    (hi.comp measurable_fst).mul (hu.comp measurable_snd)
  have e1 : ∫⁻ q, F.indicator (fun _ => (1 : ℝ≥0∞)) q.1 * kA q.2 F ∂π = ∫⁻ q, kA q.2 F * kA q.2 F ∂π := by
    conv_lhs => rw [← h1.2, Measure.lintegral_bind h1.1 hfu.aemeasurable]
    refine lintegral_congr fun q => ?_
    rw [onFirst, lintegral_map hfu measurable_prodMk_right]
    refine (lintegral_mul_const (kA q.2 F) hi).trans ?_
    rw [lintegral_indicator hF]
    simp
  have e2 : ∫⁻ q, F.indicator (fun _ => (1 : ℝ≥0∞)) q.1 * kA q.2 F ∂π =
      ∫⁻ q, kA q.2 F * ∫⁻ b, kA b F ∂kB q.1 ∂π := by
    conv_lhs => rw [← h12.2, Measure.lintegral_bind h12.1 hfu.aemeasurable]
    refine lintegral_congr fun q => ?_
    rw [parallel, lintegral_prod_mul hi.aemeasurable hu.aemeasurable, lintegral_indicator hF]
    simp
  have hwv : Measurable fun q : A × B => kA q.2 F * ∫⁻ b, kA b F ∂kB q.1 :=
    (hu.comp measurable_snd).mul (hv.comp measurable_fst)
  have e3 : ∫⁻ q, kA q.2 F * ∫⁻ b, kA b F ∂kB q.1 ∂π =
      ∫⁻ q, (∫⁻ b, kA b F ∂kB q.1) * ∫⁻ b, kA b F ∂kB q.1 ∂π := by
    conv_lhs => rw [← h2.2, Measure.lintegral_bind h2.1 hwv.aemeasurable]
    refine lintegral_congr fun q => ?_
    rw [onSecond, lintegral_map hwv measurable_prodMk_left]
    exact lintegral_mul_const (∫⁻ b, kA b F ∂kB q.1) hu
  exact ae_eq_of_lintegral_mul (hu.comp measurable_snd) (hv.comp measurable_fst) (fun q => hu1 q.2)
    (fun q => hv1 q.1) (e1.symm.trans e2) e3

end Verif
