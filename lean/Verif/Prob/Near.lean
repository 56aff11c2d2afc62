import Verif.Prob.Doeblin
import Verif.Prob.Bayes

/-!
# Lemmas: laws that depend continuously on a parameter
-/

open MeasureTheory ProbabilityTheory Filter
open scoped ENNReal Topology

namespace Verif

variable {Θ Ω : Type*} [MeasurableSpace Θ] [MeasurableSpace Ω]

/-- Expectations of quantities between 0 and 1 under `μ` exceed those under `μ'` by at most `e`. -/
def Near (e : ℝ≥0∞) (μ μ' : Measure Θ) : Prop :=
  ∀ g : Θ → ℝ≥0∞, Measurable g → (∀ x, g x ≤ 1) → ∫⁻ x, g x ∂μ ≤ ∫⁻ x, g x ∂μ' + e

theorem Near.mono {e e' : ℝ≥0∞} {μ μ' : Measure Θ} (h : Near e μ μ') (he : e ≤ e') : Near e' μ μ' :=
  fun g hg h1 => (h g hg h1).trans (by gcongr)

theorem Near.symm {e : ℝ≥0∞} {μ μ' : Measure Θ} [IsProbabilityMeasure μ] [IsProbabilityMeasure μ']
    (h : Near e μ μ') : Near e μ' μ := by
  intro g hg h1
  have h2 := h (fun x => 1 - g x) (measurable_const.sub hg) fun x => tsub_le_self
  have e1 : ∀ ν : Measure Θ, IsProbabilityMeasure ν →
      ∫⁻ x, (1 - g x) ∂ν + ∫⁻ x, g x ∂ν = 1 := fun ν _ => by
    rw [← lintegral_add_right _ hg]
    simp [tsub_add_cancel_of_le (h1 _)]
  have t : ∀ ν : Measure Θ, IsProbabilityMeasure ν → ∫⁻ x, (1 - g x) ∂ν ≠ ∞ := fun ν hν hh => by
    have := e1 ν hν
    rw [hh] at this
    simp at this
  have a := e1 μ inferInstance
  have b := e1 μ' inferInstance
  have : ∫⁻ x, (1 - g x) ∂μ' + ∫⁻ x, g x ∂μ' ≤ ∫⁻ x, (1 - g x) ∂μ' + (∫⁻ x, g x ∂μ + e) := by
    refine (b.trans a.symm).le.trans ?_
    calc _ ≤ (∫⁻ x, (1 - g x) ∂μ' + e) + ∫⁻ x, g x ∂μ := by gcongr
      _ = _ := by ring
  exact (ENNReal.add_le_add_iff_left (t μ' inferInstance)).1 this

theorem Near.real {e : ℝ} (he : 0 ≤ e) {μ μ' : Measure Θ} [IsProbabilityMeasure μ] [IsProbabilityMeasure μ']
    (h : Near (ENNReal.ofReal e) μ μ') {A : Set Θ} (hA : MeasurableSet A) : |μ.real A - μ'.real A| ≤ e := by
  have key : ∀ ν ν' : Measure Θ, IsProbabilityMeasure ν → IsProbabilityMeasure ν' →
      Near (ENNReal.ofReal e) ν ν' → ν.real A ≤ ν'.real A + e := fun ν ν' _ _ h => by
    have := h (A.indicator 1) (measurable_one.indicator hA) fun x => by
      by_cases hx : x ∈ A <;> simp [hx]
    rw [lintegral_indicator_one hA, lintegral_indicator_one hA] at this
    have := ENNReal.toReal_mono (by finiteness) this
    rwa [ENNReal.toReal_add (by finiteness) (by finiteness), ENNReal.toReal_ofReal he] at this
  have a := key μ μ' inferInstance inferInstance h
  have b := key μ' μ inferInstance inferInstance h.symm
  exact abs_le.2 ⟨by linarith, by linarith⟩

theorem Near.bind {e : ℝ≥0∞} {μ μ' : Measure Θ} (h : Near e μ μ') {κ : Θ → Measure Ω} (hκ : Measurable κ)
    (hp : ∀ x, κ x Set.univ ≤ 1) : Near e (μ.bind κ) (μ'.bind κ) := by
  intro g hg h1
  rw [Measure.lintegral_bind hκ.aemeasurable hg.aemeasurable,
    Measure.lintegral_bind hκ.aemeasurable hg.aemeasurable]
  refine h _ ?_ fun x => ?_
  · exact (Measure.measurable_lintegral hg).comp hκ
  · calc ∫⁻ y, g y ∂κ x ≤ ∫⁻ _, 1 ∂κ x := lintegral_mono h1
      _ ≤ 1 := by simpa using hp x

theorem Near.map {e : ℝ≥0∞} {μ μ' : Measure Θ} (h : Near e μ μ') {f : Θ → Ω} (hf : Measurable f) :
    Near e (μ.map f) (μ'.map f) := by
  intro g hg h1
  rw [lintegral_map hg hf, lintegral_map hg hf]
  exact h _ (hg.comp hf) fun x => h1 _

/-- Later calls do not increase the distance. -/
theorem near_calls {e : ℝ≥0∞} {K : Θ → Measure Θ} (hK : Measurable K) (hp : ∀ x, IsProbabilityMeasure (K x))
    {x x' : Θ} (h : Near e (K x) (K x')) (k : ℕ) : Near e (calls K (k + 1) x) (calls K (k + 1) x') := by
  rw [(calls_succ' hK k).2, (calls_succ' hK k).2]
  exact h.bind (calls_succ' hK k).1 fun y => by
    have := prob_calls hK hp k y
    exact measure_univ.le

theorem near_real_calls {e : ℝ} (he : 0 ≤ e) {K : Θ → Measure Θ} (hK : Measurable K)
    (hp : ∀ x, IsProbabilityMeasure (K x)) {x x' : Θ} (h : Near (ENNReal.ofReal e) (K x) (K x')) (k : ℕ)
    {A : Set Θ} (hA : MeasurableSet A) :
    |(calls K (k + 1) x).real A - (calls K (k + 1) x').real A| ≤ e := by
  have := prob_calls hK hp (k + 1) x
  have := prob_calls hK hp (k + 1) x'
  exact (near_calls hK hp h k).real he hA

theorem Near.trans {e e' : ℝ≥0∞} {μ μ' μ'' : Measure Θ} (h : Near e μ μ') (h' : Near e' μ' μ'') :
    Near (e + e') μ μ'' := by
  intro g hg h1
  calc ∫⁻ x, g x ∂μ ≤ ∫⁻ x, g x ∂μ' + e := h g hg h1
    _ ≤ (∫⁻ x, g x ∂μ'' + e') + e := by gcongr; exact h' g hg h1
    _ = _ := by ring

/-- Kernels that are close everywhere. -/
theorem Near.bind_right {e : ℝ≥0∞} {μ : Measure Θ} [IsProbabilityMeasure μ] {κ κ' : Θ → Measure Ω}
    (hκ : Measurable κ) (hκ' : Measurable κ') (h : ∀ᵐ x ∂μ, Near e (κ x) (κ' x)) :
    Near e (μ.bind κ) (μ.bind κ') := by
  intro g hg h1
  rw [Measure.lintegral_bind hκ.aemeasurable hg.aemeasurable,
    Measure.lintegral_bind hκ'.aemeasurable hg.aemeasurable]
  calc ∫⁻ x, ∫⁻ y, g y ∂κ x ∂μ ≤ ∫⁻ x, (∫⁻ y, g y ∂κ' x + e) ∂μ :=
        lintegral_mono_ae (h.mono fun x hx => hx g hg h1)
    _ = _ := by rw [lintegral_add_right _ measurable_const]; simp

theorem Near.prod {e e' : ℝ≥0∞} {μ μ' : Measure Θ} {ν ν' : Measure Ω} [IsProbabilityMeasure μ]
    [IsProbabilityMeasure μ'] [IsProbabilityMeasure ν] [IsProbabilityMeasure ν'] (h : Near e μ μ')
    (h' : Near e' ν ν') : Near (e + e') (μ.prod ν) (μ'.prod ν') := by
  intro g hg h1
  rw [lintegral_prod _ hg.aemeasurable, lintegral_prod _ hg.aemeasurable]
  have hm : ∀ ν : Measure Ω, IsProbabilityMeasure ν → Measurable fun x => ∫⁻ y, g (x, y) ∂ν :=
    fun ν _ => hg.lintegral_prod_right'
  calc ∫⁻ x, ∫⁻ y, g (x, y) ∂ν ∂μ ≤ ∫⁻ x, ∫⁻ y, g (x, y) ∂ν ∂μ' + e := by
        refine h _ (hm ν inferInstance) fun x => ?_
        calc ∫⁻ y, g (x, y) ∂ν ≤ ∫⁻ _, 1 ∂ν := lintegral_mono fun y => h1 _
          _ = 1 := by simp
    _ ≤ ∫⁻ x, (∫⁻ y, g (x, y) ∂ν' + e') ∂μ' + e := by
        gcongr with x
        exact h' _ (hg.comp measurable_prodMk_left) fun y => h1 _
    _ = _ := by rw [lintegral_add_right _ measurable_const]; simp; ring

theorem Near.pi : ∀ {n : ℕ} {Θ : Type} [MeasurableSpace Θ] {e : Fin n → ℝ≥0∞} {μ μ' : Fin n → Measure Θ}
    (_ : ∀ i, IsProbabilityMeasure (μ i)) (_ : ∀ i, IsProbabilityMeasure (μ' i))
    (_ : ∀ i, Near (e i) (μ i) (μ' i)), Near (∑ i, e i) (Measure.pi μ) (Measure.pi μ')
  | 0, Θ, _, e, μ, μ', _, _, _ => by
    have : μ = μ' := funext fun i => i.elim0
    subst this
    intro g _ _
    simp
  | n + 1, Θ, _, e, μ, μ', hp, hp', h => by
    have e1 := (measurePreserving_piFinSuccAbove μ 0).symm.map_eq
    have e2 := (measurePreserving_piFinSuccAbove μ' 0).symm.map_eq
    rw [← e1, ← e2, Fin.sum_univ_succ]
    refine Near.map ?_ (MeasurableEquiv.measurable _)
    exact (h 0).prod (Near.pi (fun i => hp i.succ) (fun i => hp' i.succ) fun i => h i.succ)

/-- A law that dominates most of another. -/
theorem near_of_le {x : ℝ} {μ μ' : Measure Θ} [IsProbabilityMeasure μ] (hx : 0 ≤ x)
    (h : ENNReal.ofReal (Real.exp (-x)) • μ ≤ μ') : Near (ENNReal.ofReal x) μ μ' := by
  intro g hg h1
  have hle : Real.exp (-x) ≤ 1 := Real.exp_le_one_iff.2 (by linarith)
  have hg1 : ∫⁻ y, g y ∂μ ≤ 1 := by
    calc ∫⁻ y, g y ∂μ ≤ ∫⁻ _, 1 ∂μ := lintegral_mono h1
      _ = 1 := by simp
  have h2 : ENNReal.ofReal (Real.exp (-x)) * ∫⁻ y, g y ∂μ ≤ ∫⁻ y, g y ∂μ' := by
    rw [← smul_eq_mul, ← lintegral_smul_measure]
    exact lintegral_mono' h le_rfl
  have h3 : ENNReal.ofReal (Real.exp (-x)) + ENNReal.ofReal (1 - Real.exp (-x)) = 1 := by
    rw [← ENNReal.ofReal_add (Real.exp_pos _).le (by linarith)]
    simp
  calc ∫⁻ y, g y ∂μ = ENNReal.ofReal (Real.exp (-x)) * ∫⁻ y, g y ∂μ +
        ENNReal.ofReal (1 - Real.exp (-x)) * ∫⁻ y, g y ∂μ := by rw [← add_mul, h3, one_mul]
    _ ≤ ∫⁻ y, g y ∂μ' + ENNReal.ofReal (1 - Real.exp (-x)) * 1 := by gcongr
    _ ≤ _ := by
      rw [mul_one]
      gcongr
      have := Real.add_one_le_exp (-x)
      linarith

theorem near_withDensity {x : ℝ} {ν : Measure Θ} {f f' : Θ → ℝ} (hf : Measurable f)
    [IsProbabilityMeasure (ν.withDensity fun t => ENNReal.ofReal (f t))] (hx : 0 ≤ x)
    (h : ∀ᵐ t ∂ν, Real.exp (-x) * f t ≤ f' t) :
    Near (ENNReal.ofReal x) (ν.withDensity fun t => ENNReal.ofReal (f t))
      (ν.withDensity fun t => ENNReal.ofReal (f' t)) := by
  refine near_of_le hx ?_
  rw [← withDensity_smul _ hf.ennreal_ofReal]
  refine withDensity_mono (h.mono fun t ht => ?_)
  rw [Pi.smul_apply, smul_eq_mul, ← ENNReal.ofReal_mul (Real.exp_pos _).le]
  exact ENNReal.ofReal_le_ofReal ht

theorem near_gamma {a r r' : ℝ} (ha : 0 < a) (hr : 0 < r) (hr' : 0 < r') :
    Near (ENNReal.ofReal (a * |Real.log r - Real.log r'|)) (gammaMeasure a r) (gammaMeasure a r') := by
  have key : ∀ {r r' : ℝ}, 0 < r → 0 < r' → r' ≤ r →
      Near (ENNReal.ofReal (a * |Real.log r - Real.log r'|)) (gammaMeasure a r) (gammaMeasure a r') := by
    intro r r' hr hr' hle
    have hl : Real.log r' ≤ Real.log r := Real.log_le_log hr' hle
    rw [abs_of_nonneg (by linarith)]
    have : IsProbabilityMeasure ((volume : Measure ℝ).withDensity fun t => ENNReal.ofReal (gammaPDFReal a r t)) :=
      isProbabilityMeasure_gammaMeasure ha hr
    refine near_withDensity (f := gammaPDFReal a r) (f' := gammaPDFReal a r') (measurable_gammaPDFReal a r)
      (mul_nonneg ha.le (by linarith)) (Eventually.of_forall fun t => ?_)
    unfold gammaPDFReal
    split_ifs with ht
    · have e1 : Real.exp (-(a * (Real.log r - Real.log r'))) * r ^ a = r' ^ a := by
        rw [Real.rpow_def_of_pos hr, Real.rpow_def_of_pos hr', ← Real.exp_add]
        ring_nf
      have e2 : Real.exp (-(r * t)) ≤ Real.exp (-(r' * t)) := by
        apply Real.exp_le_exp.2
        nlinarith
      have hG := Real.Gamma_pos_of_pos ha
      have ht' : 0 ≤ t ^ (a - 1) := Real.rpow_nonneg ht _
      have hrr : 0 ≤ r' ^ a := Real.rpow_nonneg hr'.le _
      calc Real.exp (-(a * (Real.log r - Real.log r'))) *
            (r ^ a / Real.Gamma a * t ^ (a - 1) * Real.exp (-(r * t)))
          = r' ^ a / Real.Gamma a * t ^ (a - 1) * Real.exp (-(r * t)) := by rw [← e1]; ring
        _ ≤ _ := by gcongr
    · simp
  rcases le_total r' r with h | h
  · exact key hr hr' h
  · have := isProbabilityMeasure_gammaMeasure ha hr
    have := isProbabilityMeasure_gammaMeasure ha hr'
    rw [abs_sub_comm]
    exact (key hr' hr h).symm

end Verif
