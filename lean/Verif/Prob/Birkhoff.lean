import Mathlib.Dynamics.Ergodic.Ergodic
import Mathlib.Dynamics.BirkhoffSum.Average
import Mathlib.MeasureTheory.Integral.DominatedConvergence
import Mathlib.MeasureTheory.Integral.Lebesgue.Map

/-!
# Birkhoff's ergodic theorem

For an ergodic map of a probability space the averages of an integrable function along almost every orbit
converge to its integral.
-/

open MeasureTheory Filter
open scoped Topology

namespace Verif

variable {Ω : Type*} [MeasurableSpace Ω]

/-- The largest of the first `n + 1` partial sums of `f` along the orbit. -/
noncomputable def orbitMax (T : Ω → Ω) (f : Ω → ℝ) : ℕ → Ω → ℝ
  | 0, x => f x
  | n + 1, x => f x + max 0 (orbitMax T f n (T x))

variable {T : Ω → Ω} {f : Ω → ℝ}

omit [MeasurableSpace Ω] in
theorem orbitMax_succ_le : ∀ (n : ℕ) (x : Ω), orbitMax T f n x ≤ orbitMax T f (n + 1) x
  | 0, x => by simp [orbitMax]
  | n + 1, x => by
    have := orbitMax_succ_le n (T x)
    change f x + max 0 _ ≤ f x + max 0 _
    gcongr

omit [MeasurableSpace Ω] in
theorem orbitMax_mono (x : Ω) : Monotone fun n => orbitMax T f n x :=
  monotone_nat_of_le_succ fun n => orbitMax_succ_le n x

omit [MeasurableSpace Ω] in
theorem birkhoffSum_le_orbitMax : ∀ (n : ℕ) (x : Ω), birkhoffSum T f (n + 1) x ≤ orbitMax T f n x
  | 0, x => by simp [orbitMax, birkhoffSum]
  | n + 1, x => by
    rw [birkhoffSum_succ']
    have := birkhoffSum_le_orbitMax n (T x)
    change _ ≤ f x + max 0 _
    gcongr
    exact this.trans (le_max_right _ _)

theorem measurable_orbitMax (hT : Measurable T) (hf : Measurable f) : ∀ n, Measurable (orbitMax T f n)
  | 0 => hf
  | n + 1 => hf.add (measurable_const.max ((measurable_orbitMax hT hf n).comp hT))

theorem integrable_orbitMax {μ : Measure Ω} [IsFiniteMeasure μ] (hT : MeasurePreserving T μ μ)
    (hf : Integrable f μ) : ∀ n, Integrable (orbitMax T f n) μ
  | 0 => hf
  | n + 1 => hf.add ((integrable_const (0 : ℝ)).sup
      (hT.integrable_comp_of_integrable (integrable_orbitMax hT hf n)))

/-- If the integral is negative the partial sums are bounded along almost every orbit. -/
theorem ae_bddAbove_birkhoffSum {μ : Measure Ω} [IsProbabilityMeasure μ] (hT : Ergodic T μ)
    (hf : Measurable f) (hi : Integrable f μ) (hneg : ∫ x, f x ∂μ < 0) :
    ∀ᵐ x ∂μ, ∃ C : ℝ, ∀ n, birkhoffSum T f n x ≤ C := by
  set A : Set Ω := {x | ∀ N : ℕ, ∃ n, (N : ℝ) < orbitMax T f n x} with hA
  have hTm := hT.toMeasurePreserving.measurable
  have hAm : MeasurableSet A := by
    have : A = ⋂ N : ℕ, ⋃ n, {x | (N : ℝ) < orbitMax T f n x} := by ext x; simp [hA]
    rw [this]
    exact MeasurableSet.iInter fun N => MeasurableSet.iUnion fun n =>
      measurableSet_lt measurable_const (measurable_orbitMax hTm hf n)
  have hTA : ∀ x, T x ∈ A ↔ x ∈ A := by
    intro x
    constructor
    · intro h N
      obtain ⟨N', hN'⟩ := exists_nat_gt ((N : ℝ) - f x)
      obtain ⟨n, hn⟩ := h N'
      refine ⟨n + 1, ?_⟩
      change _ < f x + max 0 _
      have := le_max_right 0 (orbitMax T f n (T x))
      linarith
    · intro h N
      obtain ⟨N', hN'⟩ := exists_nat_gt ((N : ℝ) + |f x|)
      obtain ⟨n, hn⟩ := h N'
      have hn' := hn.trans_le (orbitMax_succ_le n x)
      refine ⟨n, ?_⟩
      have h3 : (N' : ℝ) < f x + max 0 (orbitMax T f n (T x)) := hn'
      have h4 := le_abs_self (f x)
      have h5 : (0 : ℝ) ≤ N := Nat.cast_nonneg N
      rcases max_cases 0 (orbitMax T f n (T x)) with ⟨h6, _⟩ | ⟨h6, _⟩ <;> rw [h6] at h3 <;> linarith
  rcases hT.toPreErgodic.measure_self_or_compl_eq_zero hAm (by ext x; exact hTA x) with h0 | h1
  · have : ∀ᵐ x ∂μ, x ∉ A := measure_eq_zero_iff_ae_notMem.1 h0
    filter_upwards [this] with x hx
    have hx' : ∃ N : ℕ, ∀ n, orbitMax T f n x ≤ N := by
      simpa [hA] using hx
    obtain ⟨N, hN⟩ := hx'
    refine ⟨N, fun n => ?_⟩
    cases n with
    | zero => simp [birkhoffSum]
    | succ n => exact (birkhoffSum_le_orbitMax n x).trans (hN n)
  · exfalso
    have hae : ∀ᵐ x ∂μ, x ∈ A := by
      have := measure_eq_zero_iff_ae_notMem.1 h1
      filter_upwards [this] with x hx using not_not.1 hx
    have hTp := hT.toMeasurePreserving
    have hlim : Tendsto (fun n => ∫ x, (orbitMax T f (n + 1) x - orbitMax T f n (T x)) ∂μ) atTop
        (𝓝 (∫ x, f x ∂μ)) := by
      refine tendsto_integral_of_dominated_convergence (fun x => |f x| + |f (T x)|)
        (fun n => ?_) ?_ (fun n => ?_) ?_
      · exact ((measurable_orbitMax hTm hf (n + 1)).sub
          ((measurable_orbitMax hTm hf n).comp hTm)).aestronglyMeasurable
      · exact hi.abs.add (hTp.integrable_comp_of_integrable hi.abs)
      · refine ae_of_all _ fun x => ?_
        have e : orbitMax T f (n + 1) x = f x + max 0 (orbitMax T f n (T x)) := rfl
        have h2 : f (T x) ≤ orbitMax T f n (T x) := orbitMax_mono (T x) (Nat.zero_le n)
        rw [e, Real.norm_eq_abs, abs_le]
        have := abs_le.1 (le_refl |f x|)
        have := abs_le.1 (le_refl |f (T x)|)
        rcases max_cases 0 (orbitMax T f n (T x)) with ⟨h6, h7⟩ | ⟨h6, h7⟩ <;> rw [h6] <;> constructor <;>
          linarith
      · filter_upwards [hae] with x hx
        obtain ⟨n₀, hn₀⟩ := ((hTA x).2 hx) 0
        refine tendsto_const_nhds.congr' ?_
        filter_upwards [eventually_ge_atTop n₀] with n hn
        have h8 : (0 : ℝ) < orbitMax T f n (T x) := by
          have h9 : orbitMax T f n₀ (T x) ≤ orbitMax T f n (T x) := orbitMax_mono (T x) hn
          have : ((0 : ℕ) : ℝ) = 0 := Nat.cast_zero
          linarith
        have e : orbitMax T f (n + 1) x = f x + max 0 (orbitMax T f n (T x)) := rfl
        rw [e, max_eq_right h8.le]
        ring
    have hpos : ∀ n, 0 ≤ ∫ x, (orbitMax T f (n + 1) x - orbitMax T f n (T x)) ∂μ := by
      intro n
      have h8 : ∫ x, (orbitMax T f (n + 1) x - orbitMax T f n (T x)) ∂μ =
          ∫ x, orbitMax T f (n + 1) x ∂μ - ∫ x, orbitMax T f n (T x) ∂μ :=
        integral_sub (integrable_orbitMax hTp hi (n + 1))
          (hTp.integrable_comp_of_integrable (integrable_orbitMax hTp hi n))
      rw [h8]
      have h9 : ∫ x, orbitMax T f n (T x) ∂μ = ∫ x, orbitMax T f n x ∂μ := by
        have h10 := integral_map (μ := μ) hTm.aemeasurable (f := orbitMax T f n)
          (measurable_orbitMax hTm hf n).aestronglyMeasurable
        rw [hTp.map_eq] at h10
        exact h10.symm
      rw [h9, sub_nonneg]
      exact integral_mono (integrable_orbitMax hTp hi n) (integrable_orbitMax hTp hi (n + 1))
        fun x => orbitMax_succ_le n x
    exact absurd (ge_of_tendsto' hlim hpos) (not_le.2 hneg)

omit [MeasurableSpace Ω] in
theorem birkhoffSum_sub_const (T : Ω → Ω) (f : Ω → ℝ) (c : ℝ) (n : ℕ) (x : Ω) :
    birkhoffSum T (fun x => f x - c) n x = birkhoffSum T f n x - n * c := by
  simp [birkhoffSum, Finset.sum_sub_distrib]

theorem ae_birkhoffSum_le {μ : Measure Ω} [IsProbabilityMeasure μ] (hT : Ergodic T μ)
    (hf : Measurable f) (hi : Integrable f μ) :
    ∀ᵐ x ∂μ, ∀ k : ℕ, ∃ C : ℝ, ∀ n : ℕ,
      birkhoffSum T f n x ≤ n * (∫ x, f x ∂μ) + n * (1 / ((k : ℝ) + 1)) + C := by
  rw [ae_all_iff]
  intro k
  have hk : (0 : ℝ) < 1 / ((k : ℝ) + 1) := by positivity
  have h := ae_bddAbove_birkhoffSum hT (f := fun x => f x - (∫ x, f x ∂μ + 1 / ((k : ℝ) + 1)))
    (hf.sub_const _) (hi.sub (integrable_const _)) (by
      rw [integral_sub hi (integrable_const _), integral_const, probReal_univ, one_smul]
      linarith)
  filter_upwards [h] with x hx
  obtain ⟨C, hC⟩ := hx
  refine ⟨C, fun n => ?_⟩
  have := hC n
  rw [birkhoffSum_sub_const] at this
  linarith

/-- **Birkhoff's theorem** for ergodic maps. -/
theorem ae_tendsto_birkhoffSum_div {μ : Measure Ω} [IsProbabilityMeasure μ] (hT : Ergodic T μ)
    (hf : Measurable f) (hi : Integrable f μ) :
    ∀ᵐ x ∂μ, Tendsto (fun n : ℕ => birkhoffSum T f n x / n) atTop (𝓝 (∫ x, f x ∂μ)) := by
  filter_upwards [ae_birkhoffSum_le hT hf hi, ae_birkhoffSum_le hT hf.neg hi.neg] with x h1 h2
  rw [Metric.tendsto_atTop]
  intro ε hε
  obtain ⟨k, hk⟩ := exists_nat_one_div_lt (half_pos hε)
  obtain ⟨C, hC⟩ := h1 k
  obtain ⟨C', hC'⟩ := h2 k
  obtain ⟨N, hN⟩ := exists_nat_gt (2 * (|C| + |C'|) / ε)
  refine ⟨N + 1, fun n hn => ?_⟩
  have hn0 : (0 : ℝ) < n := by
    have : 0 < n := by omega
    exact_mod_cast this
  have hnN : 2 * (|C| + |C'|) / ε < n := hN.trans_le (by exact_mod_cast (by omega : N ≤ n))
  rw [div_lt_iff₀ hε] at hnN
  have h3 := hC n
  have h4 := hC' n
  have h5 : birkhoffSum T (-f) n x = - birkhoffSum T f n x := by simp [birkhoffSum]
  have h6 : ∫ x, (-f) x ∂μ = - ∫ x, f x ∂μ := integral_neg _
  rw [h5, h6] at h4
  have h7 := mul_lt_mul_of_pos_left hk hn0
  have hc1 := le_abs_self C
  have hc2 := le_abs_self C'
  have hc3 := abs_nonneg C
  have hc4 := abs_nonneg C'
  rw [Real.dist_eq, abs_lt, lt_sub_iff_add_lt, sub_lt_iff_lt_add, lt_div_iff₀ hn0, div_lt_iff₀ hn0]
  constructor <;> nlinarith

end Verif
