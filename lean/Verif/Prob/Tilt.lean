import Verif.Prob.Order
import Verif.Prob.Bayes
import Verif.Prob.DataAug

/-!
# Lemmas: evidence that favours larger values raises the posterior
-/

open MeasureTheory ProbabilityTheory
open scoped ENNReal

namespace Verif

variable {Θ : Type*} [MeasurableSpace Θ] {μ : Measure Θ} {l g : Θ → ℝ≥0∞}

theorem bayes_apply {S : Set Θ} (hS : MeasurableSet S) :
    bayes μ l S = (∫⁻ θ, l θ ∂μ)⁻¹ * ∫⁻ θ in S, l θ ∂μ := by
  rw [bayes, Measure.smul_apply, withDensity_apply _ hS, smul_eq_mul]

theorem ratio_le {a b a' b' : ℝ≥0∞} (h0' : a' + b' ≠ 0)
    (h : a + b ≠ ∞) (h' : a' + b' ≠ ∞) (hc : a * b' ≤ a' * b) :
    (a + b)⁻¹ * a ≤ (a' + b')⁻¹ * a' := by
  rw [mul_comm, ← div_eq_mul_inv, mul_comm, ← div_eq_mul_inv]
  by_cases ha : a = 0
  · rw [ha, ENNReal.zero_div]; exact zero_le
  have h0 : a + b ≠ 0 := fun e => ha (by simpa using (add_eq_zero.1 e).1)
  rw [ENNReal.div_le_iff h0 h, ← ENNReal.mul_div_right_comm,
    ENNReal.le_div_iff_mul_le (Or.inl h0') (Or.inl h'), mul_add, mul_add, mul_comm a a']
  gcongr

theorem ratio_lt {a b a' b' : ℝ≥0∞} (ha : a ≠ 0) (h0' : a' + b' ≠ 0)
    (h : a + b ≠ ∞) (h' : a' + b' ≠ ∞) (hc : a * b' < a' * b) :
    (a + b)⁻¹ * a < (a' + b')⁻¹ * a' := by
  have ha' : a ≠ ∞ := fun e => h (by simp [e])
  have ha'' : a' ≠ ∞ := fun e => h' (by simp [e])
  rw [mul_comm, ← div_eq_mul_inv, mul_comm, ← div_eq_mul_inv]
  have h0 : a + b ≠ 0 := fun e => ha (by simpa using (add_eq_zero.1 e).1)
  rw [ENNReal.div_lt_iff (Or.inl h0) (Or.inl h), ← ENNReal.mul_div_right_comm,
    ENNReal.lt_div_iff_mul_lt (Or.inl h0') (Or.inl h'), mul_add, mul_add, mul_comm a a']
  exact ENNReal.add_lt_add_left (ENNReal.mul_ne_top ha'' ha') hc

/-- Evidence that is stronger on an event than off it raises the probability of the event. -/
theorem bayes_tilt_le (hl : Measurable l) (hg : Measurable g) (hd : BayesDefined μ l)
    (hd' : BayesDefined μ fun θ => l θ * g θ) {B : Set Θ} (hB : MeasurableSet B)
    (h : ∀ x ∈ B, ∀ y ∉ B, g y ≤ g x) : bayes μ l B ≤ bayes μ (fun θ => l θ * g θ) B := by
  rw [bayes_apply hB, bayes_apply hB]
  have e1 := lintegral_add_compl l hB (μ := μ)
  have e2 := lintegral_add_compl (fun θ => l θ * g θ) hB (μ := μ)
  rw [← e1, ← e2]
  refine ratio_le (by rw [e2]; exact hd'.1) (by rw [e1]; exact hd.2)
    (by rw [e2]; exact hd'.2) ?_
  obtain ⟨c, h1, h2⟩ : ∃ c, (∀ x ∈ B, c ≤ g x) ∧ ∀ y ∉ B, g y ≤ c :=
    ⟨⨅ x ∈ B, g x, fun x hx => iInf₂_le x hx, fun y hy => le_iInf₂ fun x hx => h x hx y hy⟩
  have i1 : ∫⁻ θ in Bᶜ, l θ * g θ ∂μ ≤ (∫⁻ θ in Bᶜ, l θ ∂μ) * c := by
    rw [← lintegral_mul_const _ hl]
    exact setLIntegral_mono (hl.mul_const c) fun y hy => by have := h2 y hy; gcongr
  have i2 : (∫⁻ θ in B, l θ ∂μ) * c ≤ ∫⁻ θ in B, l θ * g θ ∂μ := by
    rw [← lintegral_mul_const _ hl]
    exact setLIntegral_mono (hl.mul hg) fun x hx => by have := h1 x hx; gcongr
  calc (∫⁻ θ in B, l θ ∂μ) * ∫⁻ θ in Bᶜ, l θ * g θ ∂μ
      ≤ (∫⁻ θ in B, l θ ∂μ) * ((∫⁻ θ in Bᶜ, l θ ∂μ) * c) := by gcongr
    _ = ((∫⁻ θ in B, l θ ∂μ) * c) * ∫⁻ θ in Bᶜ, l θ ∂μ := by ring
    _ ≤ _ := by gcongr

/-- Strictly, when neither the event nor its complement is negligible. -/
theorem bayes_tilt_lt (hl : Measurable l) (hg : Measurable g) (hd : BayesDefined μ l)
    (hd' : BayesDefined μ fun θ => l θ * g θ) {B : Set Θ} (hB : MeasurableSet B) {c : ℝ≥0∞}
    (hc : c ≠ ∞) (h1 : ∀ x ∈ B, c < g x) (h2 : ∀ y ∉ B, g y ≤ c) (hlp : ∀ θ, l θ ≠ 0)
    (hlt : ∀ θ, l θ ≠ ∞) (hB0 : μ B ≠ 0) (hB1 : μ Bᶜ ≠ 0) :
    bayes μ l B < bayes μ (fun θ => l θ * g θ) B := by
  rw [bayes_apply hB, bayes_apply hB]
  have e1 := lintegral_add_compl l hB (μ := μ)
  have e2 := lintegral_add_compl (fun θ => l θ * g θ) hB (μ := μ)
  have p1 : ∀ {S : Set Θ}, MeasurableSet S → μ S ≠ 0 → ∫⁻ θ in S, l θ ∂μ ≠ 0 := by
    intro S hS h0 h
    rw [setLIntegral_eq_zero_iff hS hl] at h
    exact h0 (measure_mono_null (fun x hx => show ¬ (x ∈ S → l x = 0) from fun h => hlp x (h hx)) h)
  have i1 : ∫⁻ θ in Bᶜ, l θ * g θ ∂μ ≤ (∫⁻ θ in Bᶜ, l θ ∂μ) * c := by
    rw [← lintegral_mul_const _ hl]
    exact setLIntegral_mono (hl.mul_const c) fun y hy => by have := h2 y hy; gcongr
  have i2 : (∫⁻ θ in B, l θ ∂μ) * c < ∫⁻ θ in B, l θ * g θ ∂μ := by
    rw [← lintegral_mul_const _ hl]
    refine setLIntegral_strict_mono hB hB0 (hl.mul hg) ?_ (ae_of_all _ fun x hx => ?_)
    · rw [lintegral_mul_const _ hl]
      refine ENNReal.mul_ne_top (ne_top_of_le_ne_top hd.2 (setLIntegral_le_lintegral _ _)) hc
    · exact ENNReal.mul_lt_mul_right (hlp x) (hlt x) (h1 x hx)
  have hbn : ∫⁻ θ in Bᶜ, l θ ∂μ ≠ ∞ := ne_top_of_le_ne_top hd.2 (setLIntegral_le_lintegral _ _)
  rw [← e1, ← e2]
  refine ratio_lt (p1 hB hB0) (by rw [e2]; exact hd'.1) (by rw [e1]; exact hd.2)
    (by rw [e2]; exact hd'.2) ?_
  calc (∫⁻ θ in B, l θ ∂μ) * ∫⁻ θ in Bᶜ, l θ * g θ ∂μ
      ≤ (∫⁻ θ in B, l θ ∂μ) * ((∫⁻ θ in Bᶜ, l θ ∂μ) * c) := by gcongr
    _ = ((∫⁻ θ in B, l θ ∂μ) * c) * ∫⁻ θ in Bᶜ, l θ ∂μ := by ring
    _ < _ := ENNReal.mul_lt_mul_left (p1 hB.compl hB1) hbn i2

/-- The quantity the evidence rises with. -/
theorem stochLE_tilt (hl : Measurable l) {f : Θ → ℝ} (hf : Measurable f) {g : ℝ → ℝ≥0∞}
    (hg : Monotone g) (hd : BayesDefined μ l) (hd' : BayesDefined μ fun θ => l θ * g (f θ)) :
    StochLE ((bayes μ l).map f) ((bayes μ fun θ => l θ * g (f θ)).map f) := by
  intro A hA hU
  rw [Measure.map_apply hf hA, Measure.map_apply hf hA]
  refine bayes_tilt_le hl (hg.measurable.comp hf) hd hd' (hf hA) fun x hx y hy => hg ?_
  by_contra hxy
  exact hy (hU (le_of_not_ge hxy) hx)

end Verif
