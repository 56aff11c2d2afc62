import Verif.Prob.Averages

/-!
# What averages can converge to

If the averages of all bounded functions converge to their expectations under `π`, the step keeps `π`.
-/

open MeasureTheory ProbabilityTheory Filter
open scoped ENNReal Topology

namespace Verif

variable {Θ : Type*} [MeasurableSpace Θ]

/-- Spec.  From every start in `D` the averages of every bounded function converge to its expectation
under `π`; for the indicator of an event this is the fraction of returned values in the event. -/
def AveragesConverge (D : Set Θ) (π : Measure Θ) (K : Θ → Measure Θ) : Prop :=
  ∀ f : Θ → ℝ, Measurable f → (∃ B, ∀ x, |f x| ≤ B) → AverageConverges D K f (∫ x, f x ∂π)

theorem AverageConverges.mono {D D' : Set Θ} {K : Θ → Measure Θ} {f : Θ → ℝ} {m : ℝ}
    (h : AverageConverges D K f m) (hD : D' ⊆ D) : AverageConverges D' K f m := fun θ hθ => h θ (hD hθ)

theorem AveragesConverge.mono {D D' : Set Θ} {K : Θ → Measure Θ} {π : Measure Θ}
    (h : AveragesConverge D π K) (hD : D' ⊆ D) : AveragesConverge D' π K :=
  fun f hf hB => (h f hf hB).mono hD

theorem lintegral_sq_le_of_bdd {ν : Measure Θ} [IsProbabilityMeasure ν] {f : Θ → ℝ} {B : ℝ}
    (hB : ∀ x, |f x| ≤ B) : ∫⁻ y, ENNReal.ofReal (f y ^ 2) ∂ν ≤ ENNReal.ofReal (B ^ 2) := by
  calc _ ≤ ∫⁻ _y, ENNReal.ofReal (B ^ 2) ∂ν := lintegral_mono fun y =>
        ENNReal.ofReal_le_ofReal ((le_abs_self _).trans (sq_abs_le (hB y)))
    _ = _ := by rw [lintegral_const, measure_univ, mul_one]

/-- If the laws of repeated calls converge to `π`, so do the averages. -/
theorem Runs.averagesConverge {D : Set Θ} {K K' : Θ → Measure Θ} (r : Runs D K K') {π : Measure Θ}
    [IsProbabilityMeasure π] (hc : ConvergesFrom D π K) : AveragesConverge D π K := by
  rintro f hf ⟨B, hB⟩
  refine r.averageConverges hc hf (C := ENNReal.ofReal (B ^ 2)) ENNReal.ofReal_ne_top fun x hx => ?_
  rw [r.eq x hx]
  have := r.prob x
  exact lintegral_sq_le_of_bdd hB

/-- Expectation of the running total. -/
theorem integral_total {K : Θ → Measure Θ} (hK : Measurable K) (hp : ∀ θ, IsProbabilityMeasure (K θ))
    {f : Θ → ℝ} (hf : Measurable f) {B : ℝ} (hB : ∀ x, |f x| ≤ B) (θ : Θ) (k : ℕ) :
    ∫ q, q.2 ∂calls (tally K f) k (θ, 0) = ∑ i ∈ Finset.range k, ∫ x, f x ∂calls K (i + 1) θ := by
  have h2 : ∀ x, ∫⁻ y, ENNReal.ofReal (f y ^ 2) ∂K x ≤ ENNReal.ofReal (B ^ 2) := fun x => by
    have := hp x
    exact lintegral_sq_le_of_bdd hB
  have key : ∀ k, cross K f θ k (fun _ => 1) = ∑ i ∈ Finset.range k, ∫ x, f x ∂calls K (i + 1) θ := by
    intro k
    induction k with
    | zero => rw [cross_zero θ measurable_const]; rfl
    | succ k ih =>
      have e : (fun x => ∫ _y, (1 : ℝ) ∂K x) = fun _ => 1 := by
        funext x
        have := hp x
        simp
      rw [cross_succ hK hp hf ENNReal.ofReal_ne_top h2 θ (g := fun _ => (1 : ℝ)) measurable_const
        (B := 1) (by simp) k, e, ih, Finset.sum_range_succ]
      simp only [mul_one]
  rw [← key k, cross]
  simp only [mul_one]

/-- The running total of a bounded function is bounded. -/
theorem ae_total_le {K : Θ → Measure Θ} (hK : Measurable K) (hp : ∀ θ, IsProbabilityMeasure (K θ))
    {f : Θ → ℝ} (hf : Measurable f) {B : ℝ} (hB : ∀ x, |f x| ≤ B) (θ : Θ) (k : ℕ) :
    ∀ᵐ q ∂calls (tally K f) k (θ, 0), |q.2| ≤ k * B := by
  have hm : ∀ k : ℕ, MeasurableSet {q : Θ × ℝ | |q.2| ≤ k * B} := fun k =>
    measurableSet_le (by fun_prop) measurable_const
  induction k with
  | zero =>
    rw [calls]
    exact (ae_dirac_iff (hm 0)).2 (by simp)
  | succ k ih =>
    rw [calls]
    refine ae_bind (measurable_tally hK hp hf).aemeasurable (hm (k + 1)) ?_
    filter_upwards [ih] with q hq
    rw [tally]
    refine (ae_map_iff (measurable_pair hf _).aemeasurable (hm (k + 1))).2 (ae_of_all _ fun x => ?_)
    have h1 := abs_add_le q.2 (f x)
    have h2 := hB x
    push_cast
    linarith

/-- Convergence of the averages of a bounded function gives convergence of their expectations. -/
theorem tendsto_mean_of_average {K : Θ → Measure Θ} (hK : Measurable K)
    (hp : ∀ θ, IsProbabilityMeasure (K θ)) {f : Θ → ℝ} (hf : Measurable f) {B : ℝ} (hB : ∀ x, |f x| ≤ B)
    {θ : Θ} {m : ℝ} (h : AverageConverges {θ} K f m) :
    Tendsto (fun k : ℕ => (∑ i ∈ Finset.range k, ∫ x, f x ∂calls K (i + 1) θ) / k) atTop (𝓝 m) := by
  rw [Metric.tendsto_atTop]
  intro ε hε
  have hB0 : 0 ≤ B := (abs_nonneg _).trans (hB θ)
  have h1 := h θ rfl (ε / 2) (by positivity)
  have hT := measurable_tally hK hp hf
  have hpk : ∀ k, IsProbabilityMeasure (calls (tally K f) k (θ, 0)) :=
    fun k => prob_calls hT (prob_tally hp hf) k (θ, 0)
  have hm : Measurable fun q : Θ × ℝ => q.2 := measurable_snd
  have hreal : Tendsto (fun k => (averageLaw K f k θ {a | ε / 2 ≤ |a - m|}).toReal) atTop (𝓝 0) := by
    have := (ENNReal.tendsto_toReal ENNReal.zero_ne_top).comp h1
    rw [ENNReal.toReal_zero] at this
    exact this
  obtain ⟨N, hN⟩ := Metric.tendsto_atTop.1 hreal (ε / 2 / (B + |m| + 1)) (by positivity)
  refine ⟨N + 1, fun k hk => ?_⟩
  have hk0 : (0 : ℝ) < k := by
    have : 0 < k := by omega
    exact_mod_cast this
  have := hpk k
  have hb := ae_total_le hK hp hf hB θ k
  have hdiv : Measurable fun q : Θ × ℝ => q.2 / (k : ℝ) := by fun_prop
  set A : Set (Θ × ℝ) := {q | ε / 2 ≤ |q.2 / k - m|} with hA
  have hAm : MeasurableSet A := measurableSet_le measurable_const (by fun_prop)
  have hAr : (calls (tally K f) k (θ, 0)).real A < ε / 2 / (B + |m| + 1) := by
    have h3 := hN k (by omega)
    rw [Real.dist_eq, sub_zero, abs_of_nonneg ENNReal.toReal_nonneg, averageLaw,
      Measure.map_apply hdiv (measurableSet_le measurable_const (by fun_prop))] at h3
    exact h3
  have hi : Integrable (fun q : Θ × ℝ => q.2) (calls (tally K f) k (θ, 0)) :=
    Integrable.of_bound hm.aestronglyMeasurable (k * B) hb
  have e : (∑ i ∈ Finset.range k, ∫ x, f x ∂calls K (i + 1) θ) / k - m =
      ∫ q, (q.2 / k - m) ∂calls (tally K f) k (θ, 0) := by
    rw [← integral_total hK hp hf hB, integral_sub (hi.div_const _) (integrable_const _), integral_div]
    simp
  rw [Real.dist_eq, e]
  have hbound : ∀ᵐ q ∂calls (tally K f) k (θ, 0),
      ‖q.2 / k - m‖ ≤ ε / 2 + A.indicator (fun _ => B + |m|) q := by
    filter_upwards [hb] with q hq
    rw [Real.norm_eq_abs]
    by_cases hqA : q ∈ A
    · rw [Set.indicator_of_mem hqA]
      have h4 : |q.2 / k| ≤ B := by
        rw [abs_div, abs_of_pos hk0, div_le_iff₀ hk0]
        linarith
      have h5 := abs_sub (q.2 / k) m
      linarith
    · rw [Set.indicator_of_notMem hqA, add_zero]
      exact (not_le.1 hqA).le
  have h6 := norm_integral_le_of_norm_le ((integrable_const (ε / 2)).add
    ((integrable_const (B + |m|)).indicator hAm)) hbound
  have h7 : ∫ q, (ε / 2 + A.indicator (fun _ => B + |m|) q) ∂calls (tally K f) k (θ, 0) =
      ε / 2 + (calls (tally K f) k (θ, 0)).real A * (B + |m|) := by
    rw [integral_add (integrable_const _) ((integrable_const _).indicator hAm),
      integral_indicator hAm]
    simp
  have h8 : (calls (tally K f) k (θ, 0)).real A * (B + |m|) < ε / 2 := by
    have h9 : (calls (tally K f) k (θ, 0)).real A * (B + |m|) ≤
        (calls (tally K f) k (θ, 0)).real A * (B + |m| + 1) :=
      mul_le_mul_of_nonneg_left (by linarith) measureReal_nonneg
    rw [lt_div_iff₀ (by positivity)] at hAr
    linarith
  have h10 := h6.trans_eq h7
  rw [Real.norm_eq_abs] at h10
  linarith

/-- If from one start the averages of the expectations of all bounded functions converge to their
expectations under `π`, the step keeps `π`. -/
theorem stationary_of_cesaro {K : Θ → Measure Θ} (hK : Measurable K)
    (hp : ∀ θ, IsProbabilityMeasure (K θ)) {π : Measure Θ} [IsProbabilityMeasure π] {θ : Θ}
    (h : ∀ (f : Θ → ℝ) (B : ℝ), Measurable f → (∀ x, |f x| ≤ B) →
      Tendsto (fun k : ℕ => (∑ i ∈ Finset.range k, ∫ x, f x ∂calls K (i + 1) θ) / k) atTop
        (𝓝 (∫ x, f x ∂π))) : π.bind K = π := by
  have hpb : IsProbabilityMeasure (π.bind K) := isProbabilityMeasure_bind hK.aemeasurable (ae_of_all _ hp)
  refine Measure.ext fun S hS => ?_
  let f : Θ → ℝ := S.indicator fun _ => 1
  have hf : Measurable f := measurable_const.indicator hS
  have hB : ∀ x, |f x| ≤ 1 := fun x => by
    by_cases hx : x ∈ S <;> simp [f, hx]
  have hg : Measurable fun x => ∫ y, f y ∂K x := measurable_mean hK hf
  have hgB : ∀ x, |∫ y, f y ∂K x| ≤ 1 := mean_le hp hB
  have h1 := h f 1 hf hB
  have h2 := h _ 1 hg hgB
  have hshift : ∀ i, ∫ x, ∫ y, f y ∂K x ∂calls K i θ = ∫ x, f x ∂calls K (i + 1) θ := by
    intro i
    rw [calls, integral_bind_of_integrable hK]
    exact integrable_bdd hK hp hf hB (i + 1) θ
  have hdiff : Tendsto (fun k : ℕ => (∑ i ∈ Finset.range k, ∫ x, ∫ y, f y ∂K x ∂calls K (i + 1) θ) / k -
      (∑ i ∈ Finset.range k, ∫ x, f x ∂calls K (i + 1) θ) / k) atTop (𝓝 0) := by
    have e : ∀ k : ℕ, (∑ i ∈ Finset.range k, ∫ x, ∫ y, f y ∂K x ∂calls K (i + 1) θ) / (k : ℝ) -
        (∑ i ∈ Finset.range k, ∫ x, f x ∂calls K (i + 1) θ) / k =
        ((∫ x, f x ∂calls K (k + 1) θ) - ∫ x, f x ∂calls K 1 θ) / k := by
      intro k
      rw [← sub_div, ← Finset.sum_sub_distrib]
      simp only [hshift]
      rw [Finset.sum_range_sub (fun i => ∫ x, f x ∂calls K (i + 1) θ)]
    simp only [e]
    refine squeeze_zero_norm (a := fun k : ℕ => 2 / (k : ℝ)) (fun k => ?_)
      (tendsto_const_nhds.div_atTop tendsto_natCast_atTop_atTop)
    rw [Real.norm_eq_abs, abs_div, Nat.abs_cast]
    gcongr
    have b1 := ahead_le hK hp hB (k + 1) θ
    have b2 := ahead_le hK hp hB 1 θ
    rw [ahead] at b1 b2
    exact (abs_sub _ _).trans (by linarith)
  have h3 := tendsto_nhds_unique hdiff (h2.sub h1)
  have hi : Integrable f (π.bind K) := Integrable.of_bound hf.aestronglyMeasurable 1 (ae_of_all _ hB)
  rw [← integral_bind_of_integrable hK hi] at h3
  have e : ∀ ν : Measure Θ, ∫ x, f x ∂ν = ν.real S := fun ν => by
    rw [integral_indicator hS]
    simp
  rw [e, e] at h3
  rw [← ENNReal.toReal_eq_toReal_iff' (measure_ne_top _ _) (measure_ne_top _ _)]
  exact (sub_eq_zero.1 h3.symm)

/-- If from one start the averages of all bounded functions converge to their expectations under `π`, the
step keeps `π`. -/
theorem stationary_of_averages {K : Θ → Measure Θ} (hK : Measurable K)
    (hp : ∀ θ, IsProbabilityMeasure (K θ)) {π : Measure Θ} [IsProbabilityMeasure π] {θ : Θ}
    (h : AveragesConverge {θ} π K) : π.bind K = π :=
  stationary_of_cesaro hK hp fun f B hf hB => tendsto_mean_of_average hK hp hf hB (h f hf ⟨B, hB⟩)

/-- On good states: averages from one start converging to `π` mean that the step keeps `π`. -/
theorem Runs.stationary_of_averages {D : Set Θ} {K K' : Θ → Measure Θ} (r : Runs D K K') {θ : Θ}
    (hθ : θ ∈ D) {π : Measure Θ} [IsProbabilityMeasure π] (h : AveragesConverge {θ} π K) :
    Stationary π K := by
  have h' : AveragesConverge {θ} π K' := by
    rintro f hf hB x rfl ε hε
    have h1 := h f hf hB x rfl ε hε
    have hq : (x, (0 : ℝ)) ∈ Prod.fst ⁻¹' D := hθ
    simpa only [averageLaw, (r.tally hf).calls_eq hq] using h1
  have hst := Verif.stationary_of_averages r.meas r.prob h'
  have hD : ∀ᵐ x ∂π, x ∈ D := by
    rw [← hst]
    exact ae_bind r.meas.aemeasurable r.measD (ae_of_all _ r.stays)
  have hs : Stationary π K' := ⟨r.meas.aemeasurable, hst⟩
  exact hs.congr_ae (by filter_upwards [hD] with x hx using (r.eq x hx).symm)

/-- Averages have at most one limit. -/
theorem Runs.average_unique {D : Set Θ} {K K' : Θ → Measure Θ} (r : Runs D K K') {θ : Θ} (hθ : θ ∈ D)
    {f : Θ → ℝ} (hf : Measurable f) {m m' : ℝ} (h : AverageConverges {θ} K f m)
    (h' : AverageConverges {θ} K f m') : m = m' := by
  by_contra hne
  have hε : 0 < |m - m'| / 2 := by
    have := abs_pos.2 (sub_ne_zero.2 hne)
    positivity
  have hsum := (h θ rfl _ hε).add (h' θ rfl _ hε)
  rw [add_zero] at hsum
  have hq : (θ, (0 : ℝ)) ∈ Prod.fst ⁻¹' D := hθ
  have hge : ∀ k, 1 ≤ averageLaw K f k θ {a | |m - m'| / 2 ≤ |a - m|} +
      averageLaw K f k θ {a | |m - m'| / 2 ≤ |a - m'|} := by
    intro k
    have hp : IsProbabilityMeasure (averageLaw K f k θ) := by
      rw [averageLaw, (r.tally hf).calls_eq hq]
      have := prob_calls (r.tally hf).meas (r.tally hf).prob k (θ, 0)
      exact Measure.isProbabilityMeasure_map (by fun_prop)
    refine le_trans ?_ (measure_union_le _ _)
    have e : {a : ℝ | |m - m'| / 2 ≤ |a - m|} ∪ {a | |m - m'| / 2 ≤ |a - m'|} = Set.univ := by
      ext a
      simp only [Set.mem_union, Set.mem_ofPred_eq, Set.mem_univ, iff_true]
      by_contra hc
      push Not at hc
      have h1 : |m - m'| ≤ |a - m| + |a - m'| := by
        have e : m - m' = (a - m') - (a - m) := by ring
        rw [e]
        exact (abs_sub _ _).trans (by linarith)
      linarith
    rw [e, measure_univ]
  exact absurd (ge_of_tendsto' hsum hge) (by simp)

end Verif
