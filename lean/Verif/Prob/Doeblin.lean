import Verif.Prob.DataAug
import Mathlib.MeasureTheory.Measure.Sub
import Mathlib.MeasureTheory.Measure.ProbabilityMeasure

/-!
# Repeated calls of a step

`calls K k θ` is the specification of the law of the value after `k` calls when every call starts from
the value the previous one returned.  If all results of the step share a piece `m` of positive mass, the
law after `k` calls is within `(1 - m univ) ^ k` of the stationary law, whatever the start.
-/

open MeasureTheory ProbabilityTheory Filter
open scoped ENNReal Topology

namespace Verif

variable {Θ : Type*} [MeasurableSpace Θ]

/-- Spec.  Law of the value after `k` calls of the step `K`, starting from `θ`. -/
noncomputable def calls (K : Θ → Measure Θ) : ℕ → Θ → Measure Θ
  | 0, θ => Measure.dirac θ
  | k + 1, θ => (calls K k θ).bind K

/-- Spec.  From every start in `D`, the probability of every event after `k` calls tends to its
probability under `π`. -/
def ConvergesFrom (D : Set Θ) (π : Measure Θ) (K : Θ → Measure Θ) : Prop :=
  ∀ θ ∈ D, ∀ S, MeasurableSet S → Tendsto (fun k => calls K k θ S) atTop (𝓝 (π S))

/-- Spec.  The same with a geometric rate `ρ` for all starts and all events at once. -/
def ConvergesGeom (D : Set Θ) (π : Measure Θ) (K : Θ → Measure Θ) : Prop :=
  ∃ ρ : ℝ, 0 ≤ ρ ∧ ρ < 1 ∧ ∀ θ ∈ D, ∀ k S, MeasurableSet S →
    |(calls K k θ).real S - π.real S| ≤ ρ ^ k

theorem ConvergesFrom.unique {D : Set Θ} (hD : D.Nonempty) {π π' : Measure Θ} {K : Θ → Measure Θ}
    (h : ConvergesFrom D π K) (h' : ConvergesFrom D π' K) : π = π' := by
  obtain ⟨θ, hθ⟩ := hD
  exact Measure.ext fun S hS => tendsto_nhds_unique (h θ hθ S hS) (h' θ hθ S hS)

theorem calls_succ' {K : Θ → Measure Θ} (hK : Measurable K) (k : ℕ) :
    Measurable (calls K k) ∧ ∀ θ, calls K (k + 1) θ = (K θ).bind (calls K k) := by
  induction k with
  | zero =>
    refine ⟨Measure.measurable_dirac, fun θ => ?_⟩
    rw [calls, show calls K 0 = Measure.dirac from rfl, Measure.dirac_bind hK, Measure.bind_dirac]
  | succ k ih =>
    have hm : Measurable (calls K (k + 1)) := by
      have e : calls K (k + 1) = fun θ => (calls K k θ).bind K := rfl
      rw [e]
      exact (Measure.measurable_bind' hK).comp ih.1
    refine ⟨hm, fun θ => ?_⟩
    have e : calls K (k + 1) = fun θ => (calls K k θ).bind K := rfl
    rw [calls, ih.2, Measure.bind_bind ih.1.aemeasurable hK.aemeasurable, e]

theorem prob_calls {K : Θ → Measure Θ} (hK : Measurable K) (hp : ∀ θ, IsProbabilityMeasure (K θ))
    (k : ℕ) (θ : Θ) : IsProbabilityMeasure (calls K k θ) := by
  induction k with
  | zero => exact Measure.dirac.isProbabilityMeasure
  | succ k ih => exact isProbabilityMeasure_bind hK.aemeasurable (ae_of_all _ hp)

/-- A stationary law is kept by any number of calls. -/
theorem bind_calls {K : Θ → Measure Θ} (hK : Measurable K) {π : Measure Θ} (h : π.bind K = π) (k : ℕ) :
    π.bind (calls K k) = π := by
  induction k with
  | zero => exact Measure.bind_dirac
  | succ k ih =>
    have e : calls K (k + 1) = fun θ => (calls K k θ).bind K := rfl
    rw [e, ← Measure.bind_bind (calls_succ' hK k).1.aemeasurable hK.aemeasurable, ih, h]

/-- The probabilities of an event after `k` calls, from all starts, lie within one short interval. -/
theorem calls_osc {K : Θ → Measure Θ} (hK : Measurable K) (hp : ∀ θ, IsProbabilityMeasure (K θ))
    {m : Measure Θ} (hm : ∀ θ, m ≤ K θ) [IsFiniteMeasure m] {S : Set Θ} (hS : MeasurableSet S) (k : ℕ) :
    ∃ c : ℝ≥0∞, c ≠ ∞ ∧ ∀ θ, c ≤ calls K k θ S ∧ calls K k θ S ≤ c + (1 - m Set.univ) ^ k := by
  induction k with
  | zero =>
    refine ⟨0, ENNReal.zero_ne_top, fun θ => ⟨zero_le, ?_⟩⟩
    have := prob_calls hK hp 0 θ
    rw [pow_zero, zero_add]
    exact prob_le_one
  | succ k ih =>
    obtain ⟨c, hc, hcb⟩ := ih
    have hf : Measurable fun θ => calls K k θ S :=
      (Measure.measurable_coe hS).comp (calls_succ' hK k).1
    have hval : ∀ θ, calls K (k + 1) θ S = ∫⁻ x, calls K k x S ∂m + ∫⁻ x, calls K k x S ∂(K θ - m) := by
      intro θ
      have := hp θ
      rw [(calls_succ' hK k).2, Measure.bind_apply hS (calls_succ' hK k).1.aemeasurable]
      conv_lhs => rw [← Measure.sub_add_cancel_of_le (hm θ)]
      rw [lintegral_add_measure, add_comm]
    have hmass : ∀ θ, (K θ - m) Set.univ = 1 - m Set.univ := by
      intro θ
      have := hp θ
      rw [Measure.sub_apply MeasurableSet.univ (hm θ), measure_univ]
    refine ⟨(1 - m Set.univ) * c + ∫⁻ x, calls K k x S ∂m, ?_, fun θ => ?_⟩
    · refine ENNReal.add_ne_top.2 ⟨ENNReal.mul_ne_top (ENNReal.sub_ne_top ENNReal.one_ne_top) hc, ?_⟩
      refine ne_top_of_le_ne_top (b := ∫⁻ _x, 1 ∂m) (by simp) (lintegral_mono fun x => ?_)
      have := prob_calls hK hp k x
      exact prob_le_one
    · rw [hval θ]
      constructor
      · rw [add_comm]
        gcongr
        calc (1 - m Set.univ) * c = ∫⁻ _x, c ∂(K θ - m) := by rw [lintegral_const, hmass, mul_comm]
          _ ≤ _ := lintegral_mono fun x => (hcb x).1
      · have hu : ∫⁻ x, calls K k x S ∂(K θ - m) ≤
            (1 - m Set.univ) * c + (1 - m Set.univ) ^ (k + 1) := by
          calc ∫⁻ x, calls K k x S ∂(K θ - m)
              ≤ ∫⁻ _x, (c + (1 - m Set.univ) ^ k) ∂(K θ - m) := lintegral_mono fun x => (hcb x).2
            _ = _ := by rw [lintegral_const, hmass, add_mul, pow_succ, mul_comm c]
        calc _ ≤ ∫⁻ x, calls K k x S ∂m + ((1 - m Set.univ) * c + (1 - m Set.univ) ^ (k + 1)) := by
              gcongr
          _ = _ := by ring

/-- Doeblin's theorem. -/
theorem convergesGeom_of_minorised {K : Θ → Measure Θ} (hK : Measurable K)
    (hp : ∀ θ, IsProbabilityMeasure (K θ)) {m : Measure Θ} (hm : ∀ θ, m ≤ K θ) (hm0 : m ≠ 0)
    {π : Measure Θ} [IsProbabilityMeasure π] (hπ : π.bind K = π) :
    ConvergesGeom Set.univ π K := by
  have hne : Nonempty Θ := (π.nonempty_of_neZero)
  obtain ⟨θ₀⟩ := hne
  have hle1 : m Set.univ ≤ 1 := by
    have := hp θ₀
    exact (hm θ₀ Set.univ).trans prob_le_one
  have hfm : IsFiniteMeasure m := ⟨hle1.trans_lt ENNReal.one_lt_top⟩
  have hr : (1 - m Set.univ).toReal = 1 - m.real Set.univ := by
    rw [ENNReal.toReal_sub_of_le hle1 ENNReal.one_ne_top, ENNReal.toReal_one]
    rfl
  have hpos : 0 < m.real Set.univ := by
    refine ENNReal.toReal_pos ?_ (measure_ne_top _ _)
    rwa [Ne, Measure.measure_univ_eq_zero]
  refine ⟨(1 - m Set.univ).toReal, ENNReal.toReal_nonneg, by rw [hr]; linarith, fun θ _ k S hS => ?_⟩
  obtain ⟨c, hc, hcb⟩ := calls_osc hK hp hm hS k
  have hpow : (1 - m Set.univ) ^ k ≠ ∞ :=
    ENNReal.pow_ne_top (ENNReal.sub_ne_top ENNReal.one_ne_top)
  have hb1 : c ≤ π S ∧ π S ≤ c + (1 - m Set.univ) ^ k := by
    have e : π S = ∫⁻ x, calls K k x S ∂π := by
      rw [← Measure.bind_apply hS (calls_succ' hK k).1.aemeasurable, bind_calls hK hπ]
    rw [e]
    constructor
    · calc c = ∫⁻ _x, c ∂π := by simp
        _ ≤ _ := lintegral_mono fun x => (hcb x).1
    · calc _ ≤ ∫⁻ _x, (c + (1 - m Set.univ) ^ k) ∂π := lintegral_mono fun x => (hcb x).2
        _ = _ := by simp
  have conv : ∀ x : ℝ≥0∞, c ≤ x → x ≤ c + (1 - m Set.univ) ^ k →
      c.toReal ≤ x.toReal ∧ x.toReal ≤ c.toReal + (1 - m Set.univ).toReal ^ k := by
    intro x h1 h2
    have hx : x ≠ ∞ := ne_top_of_le_ne_top (ENNReal.add_ne_top.2 ⟨hc, hpow⟩) h2
    refine ⟨ENNReal.toReal_mono hx h1, ?_⟩
    rw [← ENNReal.toReal_pow, ← ENNReal.toReal_add hc hpow]
    exact ENNReal.toReal_mono (ENNReal.add_ne_top.2 ⟨hc, hpow⟩) h2
  have h1 := conv _ (hcb θ).1 (hcb θ).2
  have h2 := conv _ hb1.1 hb1.2
  rw [Measure.real, Measure.real, abs_le]
  constructor <;> linarith [h1.1, h1.2, h2.1, h2.2]

theorem ConvergesGeom.converges {D : Set Θ} {K : Θ → Measure Θ} {π : Measure Θ}
    [IsFiniteMeasure π] (hp : ∀ θ ∈ D, ∀ k, IsFiniteMeasure (calls K k θ)) (h : ConvergesGeom D π K) :
    ConvergesFrom D π K := by
  obtain ⟨ρ, h0, h1, hb⟩ := h
  intro θ hθ S hS
  have := hp θ hθ
  rw [← ENNReal.tendsto_toReal_iff (fun k => measure_ne_top _ _) (measure_ne_top _ _)]
  rw [tendsto_iff_dist_tendsto_zero]
  refine squeeze_zero (fun k => dist_nonneg) (fun k => ?_) (tendsto_pow_atTop_nhds_zero_of_lt_one h0 h1)
  exact hb θ hθ k S hS

/-- Steps that agree on `D` and never leave it have the same repeated calls. -/
theorem calls_congr {D : Set Θ} {K K' : Θ → Measure Θ} (hK' : Measurable K')
    (h : ∀ θ ∈ D, K θ = K' θ)
    (hD : ∀ θ, ∀ᵐ x ∂K' θ, x ∈ D) (hDm : MeasurableSet D) {θ : Θ} (hθ : θ ∈ D) (k : ℕ) :
    calls K k θ = calls K' k θ := by
  have hin : ∀ k, ∀ᵐ x ∂calls K' k θ, x ∈ D := by
    intro k
    cases k with
    | zero =>
      exact (ae_dirac_iff (p := fun x => x ∈ D) hDm).2 hθ
    | succ k =>
      rw [calls, ae_iff, show {x | x ∉ D} = Dᶜ from rfl, Measure.bind_apply hDm.compl hK'.aemeasurable]
      refine (lintegral_eq_zero_iff ((Measure.measurable_coe hDm.compl).comp hK')).2
        (ae_of_all _ fun x => ?_)
      exact hD x
  induction k with
  | zero => rfl
  | succ k ih =>
    rw [calls, calls, ih]
    refine Measure.bind_congr_right ?_
    filter_upwards [hin k] with x hx
    exact h x hx

end Verif
