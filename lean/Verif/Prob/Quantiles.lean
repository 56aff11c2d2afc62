import Verif.Prob.StrongRuns
import Mathlib.Probability.CDF

/-!
# Quantiles computed from the values a step returns

If the averages along runs converge with probability one, so do the sample quantiles of every quantity whose
limit law leaves no gap, to the one quantile of that law.
-/

open MeasureTheory ProbabilityTheory Filter
open scoped ENNReal Topology

namespace Verif

/-- Spec.  `q` is an `α`-quantile of the law `μ`. -/
def IsQuantile (μ : Measure ℝ) (α q : ℝ) : Prop := μ.real (Set.Iio q) ≤ α ∧ α ≤ μ.real (Set.Iic q)

/-- Spec.  `q` is an `α`-quantile of the first `n` entries of `x`: at most the share `α` of them lies below `q` and
at least the share `α` is at most `q`. -/
def IsSampleQuantile (α : ℝ) (x : ℕ → ℝ) (n : ℕ) (q : ℝ) : Prop :=
  ∑ i ∈ Finset.range n, (if x i < q then (1 : ℝ) else 0) ≤ α * n ∧
    α * n ≤ ∑ i ∈ Finset.range n, if x i ≤ q then (1 : ℝ) else 0

/-- Spec.  No interval without mass has mass on both of its sides. -/
def NoGap (μ : Measure ℝ) : Prop :=
  ∀ a b, a < b → μ (Set.Ioo a b) = 0 → μ (Set.Iic a) = 0 ∨ μ (Set.Ici b) = 0

/-- Spec.  For every `α` strictly between 0 and 1, the law of `f` under `π` has exactly one `α`-quantile, and from
every start in `D`, in every run of the step `K`, however sample `α`-quantiles of `f` over the first `n` returned
values are chosen, they converge to it with probability one. -/
def QuantilesConverge {Θ : Type} [MeasurableSpace Θ] (D : Set Θ) (π : Measure Θ) (K : Θ → Measure Θ)
    (f : Θ → ℝ) : Prop :=
  ∀ α, 0 < α → α < 1 → ∃ q, IsQuantile (π.map f) α q ∧ (∀ q', IsQuantile (π.map f) α q' → q' = q) ∧
    ∀ θ ∈ D, ∀ (Ω : Type) [MeasurableSpace Ω] (P : Measure Ω) (X : ℕ → Ω → Θ), IsProbabilityMeasure P →
      IsRun K θ P X → ∀ᵐ ω ∂P, ∀ s : ℕ → ℝ,
        (∀ n, 0 < n → IsSampleQuantile α (fun i => f (X i ω)) n (s n)) → Tendsto s atTop (𝓝 q)

/-! ### Existence -/

theorem exists_quantile (μ : Measure ℝ) [IsProbabilityMeasure μ] {α : ℝ} (h0 : 0 < α) (h1 : α < 1) :
    ∃ q, IsQuantile μ α q := by
  let S : Set ℝ := {x | α ≤ cdf μ x}
  have hne : S.Nonempty := by
    obtain ⟨x, hx⟩ := ((tendsto_cdf_atTop μ).eventually (eventually_gt_nhds h1)).exists
    exact ⟨x, le_of_lt hx⟩
  obtain ⟨x0, hx0⟩ := ((tendsto_cdf_atBot μ).eventually (eventually_lt_nhds h0)).exists
  have hbd : BddBelow S := ⟨x0, fun y hy => by
    by_contra hlt
    exact absurd (lt_of_lt_of_le hx0 (le_refl _)) (not_lt.2 (le_trans hy (monotone_cdf μ (not_le.1 hlt).le)))⟩
  refine ⟨sInf S, ?_, ?_⟩
  · have hU : Set.Iio (sInf S) = ⋃ n : ℕ, Set.Iic (sInf S - 1 / ((n : ℝ) + 1)) := by
      ext x
      simp only [Set.mem_Iio, Set.mem_iUnion, Set.mem_Iic]
      constructor
      · intro hx
        obtain ⟨n, hn⟩ := exists_nat_one_div_lt (sub_pos.2 hx)
        exact ⟨n, by linarith⟩
      · rintro ⟨n, hn⟩
        have : (0 : ℝ) < 1 / ((n : ℝ) + 1) := by positivity
        linarith
    have hm : Monotone fun n : ℕ => Set.Iic (sInf S - 1 / ((n : ℝ) + 1)) := fun m n hmn =>
      Set.Iic_subset_Iic.2 (sub_le_sub_left (one_div_le_one_div_of_le (by positivity) (by
        have : (m : ℝ) ≤ n := by exact_mod_cast hmn
        linarith)) _)
    have ht := tendsto_measure_iUnion_atTop (μ := μ) hm
    rw [← hU] at ht
    have ht' := (ENNReal.tendsto_toReal (measure_ne_top μ (Set.Iio (sInf S)))).comp ht
    refine le_of_tendsto ht' (Eventually.of_forall fun n => ?_)
    have hlt : sInf S - 1 / ((n : ℝ) + 1) < sInf S := by
      have : (0 : ℝ) < 1 / ((n : ℝ) + 1) := by positivity
      linarith
    have hn : sInf S - 1 / ((n : ℝ) + 1) ∉ S := fun h => absurd (csInf_le hbd h) (not_le.2 hlt)
    have hn' : cdf μ (sInf S - 1 / ((n : ℝ) + 1)) ≤ α := (not_le.1 fun h => hn h).le
    rw [cdf_eq_real] at hn'
    exact hn'
  · rw [← cdf_eq_real]
    have hr := (cdf μ).right_continuous (sInf S)
    refine ge_of_tendsto (hr.mono_left (nhdsWithin_mono _ Set.Ioi_subset_Ici_self)) ?_
    filter_upwards [self_mem_nhdsWithin] with x hx
    obtain ⟨s, hs, hsx⟩ := (csInf_lt_iff hbd hne).1 hx
    exact le_trans hs (monotone_cdf μ hsx.le)

theorem exists_sampleQuantile {α : ℝ} (h0 : 0 < α) (h1 : α < 1) (x : ℕ → ℝ) {n : ℕ} (hn : 0 < n) :
    ∃ q, IsSampleQuantile α x n q := by
  classical
  let μ : Measure ℝ := (n : ℝ≥0∞)⁻¹ • ∑ i ∈ Finset.range n, Measure.dirac (x i)
  have hn0 : (n : ℝ≥0∞) ≠ 0 := by exact_mod_cast hn.ne'
  have hv : ∀ S : Set ℝ, MeasurableSet S → μ.real S = (∑ i ∈ Finset.range n, S.indicator (fun _ => (1 : ℝ)) (x i)) / n := by
    intro S hS
    rw [Measure.real, Measure.smul_apply, Measure.finsetSum_apply, smul_eq_mul, ENNReal.toReal_mul,
      ENNReal.toReal_inv, ENNReal.toReal_natCast, ENNReal.toReal_sum, div_eq_inv_mul]
    · congr 1
      refine Finset.sum_congr rfl fun i _ => ?_
      rw [Measure.dirac_apply' _ hS]
      by_cases h : x i ∈ S <;> simp [h]
    · intro i _
      exact measure_ne_top _ _
  have hp : IsProbabilityMeasure μ := ⟨by
    simp only [μ, Measure.smul_apply, Measure.finsetSum_apply, measure_univ, Finset.sum_const, Finset.card_range,
      smul_eq_mul, nsmul_eq_mul, mul_one]
    exact ENNReal.inv_mul_cancel hn0 (ENNReal.natCast_ne_top n)⟩
  obtain ⟨q, hq1, hq2⟩ := exists_quantile μ h0 h1
  have hnr : (0 : ℝ) < n := by exact_mod_cast hn
  rw [hv _ measurableSet_Iio, div_le_iff₀ hnr] at hq1
  rw [hv _ measurableSet_Iic, le_div_iff₀ hnr] at hq2
  simp only [Set.indicator_apply, Set.mem_Iio, Set.mem_Iic] at hq1 hq2
  exact ⟨q, hq1, hq2⟩

/-! ### Uniqueness -/

theorem NoGap.below {μ : Measure ℝ} [IsProbabilityMeasure μ] (hg : NoGap μ) {α q : ℝ} (h0 : 0 < α) (h1 : α < 1)
    (hq : IsQuantile μ α q) {x : ℝ} (hx : x < q) : μ.real (Set.Iic x) < α := by
  by_cases hz : μ (Set.Ioo x q) = 0
  · rcases hg x q hx hz with h | h
    · rw [Measure.real, h]
      exact h0
    · have e : Set.Iio q = (Set.Ici q)ᶜ := Set.compl_Ici.symm
      have h2 := hq.1
      rw [e, probReal_compl_eq_one_sub measurableSet_Ici, Measure.real, h] at h2
      simp at h2
      linarith
  · have hd : Disjoint (Set.Iic x) (Set.Ioo x q) := Set.disjoint_left.2 fun y hy hy' => not_lt.2 hy hy'.1
    have hu := measureReal_union (μ := μ) hd measurableSet_Ioo
    have hs : Set.Iic x ∪ Set.Ioo x q ⊆ Set.Iio q := by
      rintro y (hy | hy)
      · exact lt_of_le_of_lt hy hx
      · exact hy.2
    have h2 := measureReal_mono (μ := μ) hs
    have h3 : 0 < μ.real (Set.Ioo x q) := ENNReal.toReal_pos hz (measure_ne_top _ _)
    linarith [hq.1]

theorem NoGap.above {μ : Measure ℝ} [IsProbabilityMeasure μ] (hg : NoGap μ) {α q : ℝ} (h0 : 0 < α) (h1 : α < 1)
    (hq : IsQuantile μ α q) {x : ℝ} (hx : q < x) : α < μ.real (Set.Iio x) := by
  by_cases hz : μ (Set.Ioo q x) = 0
  · rcases hg q x hx hz with h | h
    · have h2 := hq.2
      rw [Measure.real, h] at h2
      simp at h2
      linarith
    · have e : Set.Iio x = (Set.Ici x)ᶜ := Set.compl_Ici.symm
      rw [e, probReal_compl_eq_one_sub measurableSet_Ici, Measure.real, h]
      simpa using h1
  · have hd : Disjoint (Set.Iic q) (Set.Ioo q x) := Set.disjoint_left.2 fun y hy hy' => not_lt.2 hy hy'.1
    have hu := measureReal_union (μ := μ) hd measurableSet_Ioo
    have hs : Set.Iic q ∪ Set.Ioo q x ⊆ Set.Iio x := by
      rintro y (hy | hy)
      · exact lt_of_le_of_lt hy hx
      · exact hy.2
    have h2 := measureReal_mono (μ := μ) hs
    have h3 : 0 < μ.real (Set.Ioo q x) := ENNReal.toReal_pos hz (measure_ne_top _ _)
    linarith [hq.2]

theorem NoGap.unique {μ : Measure ℝ} [IsProbabilityMeasure μ] (hg : NoGap μ) {α q q' : ℝ} (h0 : 0 < α) (h1 : α < 1)
    (hq : IsQuantile μ α q) (hq' : IsQuantile μ α q') : q' = q := by
  rcases lt_trichotomy q' q with h | h | h
  · exact absurd hq'.2 (not_le.2 (hg.below h0 h1 hq h))
  · exact h
  · exact absurd hq'.1 (not_le.2 (hg.above h0 h1 hq h))

/-- A law is determined by its quantiles. -/
theorem eq_of_quantiles {μ ν : Measure ℝ} [IsProbabilityMeasure μ] [IsProbabilityMeasure ν]
    (h : ∀ α, 0 < α → α < 1 → ∃ q, IsQuantile μ α q ∧ IsQuantile ν α q) : μ = ν := by
  have key : ∀ μ ν : Measure ℝ, IsProbabilityMeasure μ → IsProbabilityMeasure ν →
      (∀ α, 0 < α → α < 1 → ∃ q, IsQuantile μ α q ∧ IsQuantile ν α q) → ∀ x, ν.real (Set.Iic x) ≤ μ.real (Set.Iic x) := by
    intro μ ν _ _ h x
    by_contra hlt
    rw [not_le] at hlt
    obtain ⟨α, hα1, hα2⟩ := exists_between hlt
    have h0 : 0 < α := lt_of_le_of_lt measureReal_nonneg hα1
    have h1 : α < 1 := lt_of_lt_of_le hα2 measureReal_le_one
    obtain ⟨q, hq, hq'⟩ := h α h0 h1
    have hqx : x < q := by
      by_contra hle
      have := measureReal_mono (μ := μ) (Set.Iic_subset_Iic.2 (not_lt.1 hle))
      linarith [hq.2]
    have : Set.Iic x ⊆ Set.Iio q := fun y hy => lt_of_le_of_lt hy hqx
    have := measureReal_mono (μ := ν) this
    linarith [hq'.1]
  refine Measure.ext_of_Iic μ ν fun x => ?_
  have e := le_antisymm (key ν μ ‹_› ‹_› (fun α h0 h1 => let ⟨q, a, b⟩ := h α h0 h1; ⟨q, b, a⟩) x)
    (key μ ν ‹_› ‹_› h x)
  exact (ENNReal.toReal_eq_toReal_iff' (measure_ne_top _ _) (measure_ne_top _ _)).1 e

/-! ### Convergence -/

variable {Θ : Type} [MeasurableSpace Θ]

theorem StrongAverages.quantiles {D : Set Θ} {π : Measure Θ} [IsProbabilityMeasure π] {K : Θ → Measure Θ}
    (h : StrongAverages D π K) {f : Θ → ℝ} (hf : Measurable f) (hg : NoGap (π.map f)) :
    QuantilesConverge D π K f := by
  intro α h0 h1
  have hp : IsProbabilityMeasure (π.map f) := Measure.isProbabilityMeasure_map hf.aemeasurable
  obtain ⟨q, hq⟩ := exists_quantile (π.map f) h0 h1
  refine ⟨q, hq, fun q' hq' => hg.unique h0 h1 hq hq', fun θ hθ Ω _ P X hP hX => ?_⟩
  have hle : ∀ r : ℚ, ∀ᵐ ω ∂P, Tendsto (fun n : ℕ => (∑ i ∈ Finset.range n,
      if f (X i ω) ≤ r then (1 : ℝ) else 0) / n) atTop (𝓝 ((π.map f).real (Set.Iic (r : ℝ)))) := by
    intro r
    have hS : MeasurableSet {x | f x ≤ r} := measurableSet_le hf measurable_const
    have := h θ hθ Ω P X hP hX ({x | f x ≤ r}.indicator fun _ => 1) (measurable_const.indicator hS)
      ((integrable_const 1).indicator hS)
    have e : ∫ x, {x | f x ≤ r}.indicator (fun _ => (1 : ℝ)) x ∂π = π.real {x | f x ≤ r} :=
      integral_indicator_one hS
    rw [e] at this
    rw [map_measureReal_apply hf measurableSet_Iic]
    exact this
  have hlt : ∀ r : ℚ, ∀ᵐ ω ∂P, Tendsto (fun n : ℕ => (∑ i ∈ Finset.range n,
      if f (X i ω) < r then (1 : ℝ) else 0) / n) atTop (𝓝 ((π.map f).real (Set.Iio (r : ℝ)))) := by
    intro r
    have hS : MeasurableSet {x | f x < r} := measurableSet_lt hf measurable_const
    have := h θ hθ Ω P X hP hX ({x | f x < r}.indicator fun _ => 1) (measurable_const.indicator hS)
      ((integrable_const 1).indicator hS)
    have e : ∫ x, {x | f x < r}.indicator (fun _ => (1 : ℝ)) x ∂π = π.real {x | f x < r} :=
      integral_indicator_one hS
    rw [e] at this
    rw [map_measureReal_apply hf measurableSet_Iio]
    exact this
  filter_upwards [ae_all_iff.2 hle, ae_all_iff.2 hlt] with ω ha hb s hs
  refine tendsto_order.2 ⟨fun a haq => ?_, fun b hbq => ?_⟩
  · obtain ⟨r, hr1, hr2⟩ := exists_rat_btwn haq
    filter_upwards [(ha r).eventually_lt_const (hg.below h0 h1 hq hr2), eventually_gt_atTop 0] with n hn hn0
    have hnr : (0 : ℝ) < n := by exact_mod_cast hn0
    rw [div_lt_iff₀ hnr] at hn
    by_contra hle
    have hsr : s n ≤ r := (not_lt.1 hle).trans hr1.le
    have hmono : ∑ i ∈ Finset.range n, (if f (X i ω) ≤ s n then (1 : ℝ) else 0) ≤
        ∑ i ∈ Finset.range n, if f (X i ω) ≤ r then (1 : ℝ) else 0 := by
      refine Finset.sum_le_sum fun i _ => ?_
      split_ifs with h1 h2
      · exact le_rfl
      · exact absurd (h1.trans hsr) h2
      · exact zero_le_one
      · exact le_rfl
    exact absurd ((hs n hn0).2.trans hmono) (not_le.2 hn)
  · obtain ⟨r, hr1, hr2⟩ := exists_rat_btwn hbq
    filter_upwards [(hb r).eventually_const_lt (hg.above h0 h1 hq hr1), eventually_gt_atTop 0] with n hn hn0
    have hnr : (0 : ℝ) < n := by exact_mod_cast hn0
    rw [lt_div_iff₀ hnr] at hn
    by_contra hle
    have hsr : r ≤ s n := hr2.le.trans (not_lt.1 hle)
    have hmono : ∑ i ∈ Finset.range n, (if f (X i ω) < r then (1 : ℝ) else 0) ≤
        ∑ i ∈ Finset.range n, if f (X i ω) < s n then (1 : ℝ) else 0 := by
      refine Finset.sum_le_sum fun i _ => ?_
      split_ifs with h1 h2
      · exact le_rfl
      · exact absurd (h1.trans_le hsr) h2
      · exact zero_le_one
      · exact le_rfl
    exact absurd (hmono.trans (hs n hn0).1) (not_le.2 hn)

/-- Sample quantiles have one limit: two laws with converging quantiles agree. -/
theorem Runs.quantiles_unique {D D' : Set Θ} {K K' : Θ → Measure Θ} (r : Runs D K K') {θ : Θ} (hθ : θ ∈ D)
    (hθ' : θ ∈ D') {π π' : Measure Θ} [IsProbabilityMeasure π] [IsProbabilityMeasure π'] {f : Θ → ℝ}
    (hf : Measurable f) (h : QuantilesConverge D π K f) (h' : QuantilesConverge D' π' K f) :
    π.map f = π'.map f := by
  have : IsProbabilityMeasure (π.map f) := Measure.isProbabilityMeasure_map hf.aemeasurable
  have : IsProbabilityMeasure (π'.map f) := Measure.isProbabilityMeasure_map hf.aemeasurable
  refine eq_of_quantiles fun α h0 h1 => ?_
  obtain ⟨q, hq, -, hc⟩ := h α h0 h1
  obtain ⟨q', hq', -, hc'⟩ := h' α h0 h1
  obtain ⟨Ω, _, P, X, hP, hX⟩ := r.exists_run hθ
  obtain ⟨ω, hω, hω'⟩ := ((hc θ hθ Ω P X hP hX).and (hc' θ hθ' Ω P X hP hX)).exists
  choose! s hs using fun (n : ℕ) (hn : 0 < n) => exists_sampleQuantile h0 h1 (fun i => f (X i ω)) hn
  have e := tendsto_nhds_unique (hω s hs) (hω' s hs)
  exact ⟨q, hq, e ▸ hq'⟩

/-! ### Laws without gaps -/

/-- Open sets meeting `D` have mass. -/
def PosOn {Θ : Type} [MeasurableSpace Θ] [TopologicalSpace Θ] (D : Set Θ) (π : Measure Θ) : Prop :=
  ∀ U, IsOpen U → (U ∩ D).Nonempty → π U ≠ 0

section
variable [TopologicalSpace Θ]

/-- A quantity continuous on a connected open set that has all the mass, spread over it, leaves no gap. -/
theorem PosOn.noGap {D : Set Θ} {π : Measure Θ} (h : PosOn D π) (hD : IsOpen D) (hc : IsPreconnected D)
    (hπ : ∀ᵐ x ∂π, x ∈ D) {f : Θ → ℝ} (hf : Measurable f) (hfc : ContinuousOn f D) : NoGap (π.map f) := by
  intro a b hab hz
  by_contra hn
  rw [not_or] at hn
  rw [Measure.map_apply hf measurableSet_Ioo] at hz
  rw [Measure.map_apply hf measurableSet_Iic, Measure.map_apply hf measurableSet_Ici] at hn
  have hex : ∀ S : Set Θ, π S ≠ 0 → ∃ x ∈ S, x ∈ D := by
    intro S hS
    by_contra hno
    refine hS (measure_mono_null (fun x hx => ?_) hπ)
    exact fun hxI => hno ⟨x, hx, hxI⟩
  obtain ⟨x, hx, hxI⟩ := hex _ hn.1
  obtain ⟨y, hy, hyI⟩ := hex _ hn.2
  have hxa : f x ≤ a := hx
  have hyb : b ≤ f y := hy
  have hm : (a + b) / 2 ∈ f '' D :=
    hc.intermediate_value hxI hyI hfc ⟨by linarith, by linarith⟩
  obtain ⟨z, hzD, hz'⟩ := hm
  refine h (D ∩ f ⁻¹' Set.Ioo a b) (hfc.isOpen_inter_preimage hD isOpen_Ioo) ⟨z, ⟨hzD, ?_⟩, hzD⟩
    (measure_mono_null Set.inter_subset_right hz)
  rw [Set.mem_preimage, hz']
  exact ⟨by linarith, by linarith⟩

theorem PosOn.withDensity [OpensMeasurableSpace Θ] {D : Set Θ} {μ : Measure Θ} (h : PosOn D μ) (hD : IsOpen D) {f : Θ → ℝ≥0∞}
    (hf : Measurable f) (hp : ∀ x ∈ D, f x ≠ 0) : PosOn D (μ.withDensity f) := by
  intro U hU hne hz
  have hm : MeasurableSet (U ∩ D) := (hU.inter hD).measurableSet
  have h0 := measure_mono_null (Set.inter_subset_left (s := U) (t := D)) hz
  rw [withDensity_apply _ hm, lintegral_eq_zero_iff hf, Filter.EventuallyEq, ae_restrict_iff' hm] at h0
  refine h (U ∩ D) (hU.inter hD) (by rwa [Set.inter_assoc, Set.inter_self]) ?_
  refine measure_mono_null (fun x hx => ?_) h0
  exact fun hh => hp x hx.2 (hh hx)

theorem PosOn.bayes [OpensMeasurableSpace Θ] {D : Set Θ} {μ : Measure Θ} (h : PosOn D μ) (hD : IsOpen D) {f : Θ → ℝ≥0∞}
    (hf : Measurable f) (hp : ∀ x ∈ D, f x ≠ 0) (hd : BayesDefined μ f) : PosOn D (bayes μ f) := by
  intro U hU hne hz
  rw [Verif.bayes, Measure.smul_apply, smul_eq_mul, mul_eq_zero] at hz
  exact hz.elim (fun h0 => ENNReal.inv_ne_zero.2 hd.2 h0) (h.withDensity hD hf hp U hU hne)

theorem posOn_of_openPos (D : Set Θ) (μ : Measure Θ) [μ.IsOpenPosMeasure] : PosOn D μ :=
  fun _ hU hne => hU.measure_ne_zero μ (hne.mono Set.inter_subset_left)

theorem posOn_pi {p : ℕ} {D : Fin p → Set ℝ} {μ : Fin p → Measure ℝ} [∀ j, SigmaFinite (μ j)]
    (h : ∀ j, PosOn (D j) (μ j)) : PosOn {x | ∀ j, x j ∈ D j} (Measure.pi μ) := by
  rintro U hU ⟨x, hx, hxD⟩ hz
  obtain ⟨u, hu, hsub⟩ := isOpen_pi_iff'.1 hU x hx
  have h0 := measure_mono_null hsub hz
  rw [Measure.pi_pi, Finset.prod_eq_zero_iff] at h0
  obtain ⟨j, -, hj⟩ := h0
  exact h j (u j) (hu j).1 ⟨x j, (hu j).2, hxD j⟩ hj

theorem posOn_prod {Θ' : Type} [MeasurableSpace Θ'] [TopologicalSpace Θ'] {D : Set Θ} {D' : Set Θ'} {μ : Measure Θ} {μ' : Measure Θ'}
    [SFinite μ'] (h : PosOn D μ) (h' : PosOn D' μ') : PosOn (D ×ˢ D') (μ.prod μ') := by
  rintro U hU ⟨⟨x, x'⟩, hx, hxD⟩ hz
  obtain ⟨u, v, hu, hv, hxu, hxv, hsub⟩ := isOpen_prod_iff.1 hU x x' hx
  have h0 := measure_mono_null hsub hz
  rw [Measure.prod_prod, mul_eq_zero] at h0
  exact h0.elim (h u hu ⟨x, hxu, hxD.1⟩) (h' v hv ⟨x', hxv, hxD.2⟩)

end

end Verif
