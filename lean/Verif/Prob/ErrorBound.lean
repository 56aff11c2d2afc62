import Verif.Prob.AveragesConv
import Mathlib.Probability.Moments.SubGaussian

/-!
# How far an average over the returned values can be off

If the laws of repeated calls converge geometrically, uniformly in the start, then the probability that the
average of a bounded function misses its expectation by `ε` falls exponentially with the
number of calls.  The proof writes the running total as a martingale with bounded differences plus a bounded
rest, with finite sums of expectations ahead in the place of a solution of Poisson's equation.
-/

open MeasureTheory ProbabilityTheory Filter
open scoped ENNReal Topology

namespace Verif

variable {Θ : Type*} [MeasurableSpace Θ]

/-- Spec.  There is one constant such that for all bounded functions, all starts in `D`, all numbers of
calls and all `ε`, the average over the returned values is off by at least `ε` with a probability
that is exponentially small in the number of calls. -/
def ErrorBound (D : Set Θ) (π : Measure Θ) (K : Θ → Measure Θ) : Prop :=
  ∃ H > 0, ∀ (f : Θ → ℝ) (B : ℝ), Measurable f → 0 < B → (∀ x, |f x| ≤ B) → ∀ θ ∈ D, ∀ k : ℕ, 0 < k → ∀ ε > 0,
    averageLaw K f k θ {a | ε ≤ |a - ∫ x, f x ∂π|} ≤
      ENNReal.ofReal (2 * Real.exp (ε / (B * H) - k * ε ^ 2 / (2 * (B * H) ^ 2)))

/-- Close probabilities of all events give close expectations. -/
theorem abs_integral_sub_le {μ π : Measure Θ} [IsProbabilityMeasure μ] [IsProbabilityMeasure π] {r : ℝ}
    (h : ∀ S, MeasurableSet S → |μ.real S - π.real S| ≤ r) {f : Θ → ℝ} (hf : Measurable f)
    {B : ℝ} (hB0 : 0 ≤ B) (hB : ∀ x, |f x| ≤ B) : |∫ x, f x ∂μ - ∫ x, f x ∂π| ≤ 2 * B * r := by
  have hint : ∀ ν : Measure Θ, IsProbabilityMeasure ν → Integrable f ν := fun ν _ =>
    Integrable.of_bound hf.aestronglyMeasurable B (ae_of_all _ hB)
  have key : ∀ ν : Measure Θ, IsProbabilityMeasure ν →
      ∫ x, f x ∂ν = (∫ t in Set.Ioc 0 (2 * B), ν.real {x | t ≤ f x + B}) - B := by
    intro ν hν
    have h1 : ∫ x, (f x + B) ∂ν = ∫ t in Set.Ioc 0 (2 * B), ν.real {x | t ≤ f x + B} :=
      Integrable.integral_eq_integral_Ioc_meas_le ((hint ν hν).add (integrable_const B))
        (ae_of_all _ fun x => by have := (abs_le.1 (hB x)).1; simp only [Pi.zero_apply]; linarith)
        (ae_of_all _ fun x => by have := (abs_le.1 (hB x)).2; linarith)
    rw [← h1, integral_add (hint ν hν) (integrable_const B)]
    simp
  have hi : ∀ ν : Measure Θ, IsProbabilityMeasure ν →
      IntegrableOn (fun t : ℝ => ν.real {x | t ≤ f x + B}) (Set.Ioc 0 (2 * B)) := by
    intro ν hν
    have hanti : Antitone fun t : ℝ => ν.real {x | t ≤ f x + B} := fun s t hst =>
      measureReal_mono fun x hx => le_trans hst hx
    refine Integrable.of_bound hanti.measurable.aestronglyMeasurable 1 (ae_of_all _ fun t => ?_)
    rw [Real.norm_eq_abs, abs_of_nonneg measureReal_nonneg]
    exact measureReal_le_one
  rw [key μ inferInstance, key π inferInstance, sub_sub_sub_cancel_right,
    ← integral_sub (hi μ inferInstance) (hi π inferInstance)]
  have hn := norm_setIntegral_le_of_norm_le_const (μ := volume) (s := Set.Ioc (0 : ℝ) (2 * B)) (C := r)
    (f := fun t => μ.real {x | t ≤ f x + B} - π.real {x | t ≤ f x + B}) measure_Ioc_lt_top
    (fun t _ => h _ (measurableSet_le measurable_const (hf.add_const B)))
  have e : volume.real (Set.Ioc (0 : ℝ) (2 * B)) = 2 * B := by
    rw [Real.volume_real_Ioc_of_le (by linarith), sub_zero]
  rw [e] at hn
  rw [mul_comm (2 * B) r]
  exact hn

/-- Hoeffding's lemma with `lintegral`. -/
theorem lintegral_exp_le {ν : Measure Θ} [IsProbabilityMeasure ν] {X : Θ → ℝ} (hX : Measurable X) {H : ℝ}
    (hH : 0 ≤ H) (hb : ∀ᵐ x ∂ν, |X x| ≤ H) (t : ℝ) :
    ∫⁻ x, ENNReal.ofReal (Real.exp (t * X x)) ∂ν ≤
      ENNReal.ofReal (Real.exp (t * (∫ x, X x ∂ν) + t ^ 2 * H ^ 2 / 2)) := by
  have hIcc : ∀ᵐ x ∂ν, X x ∈ Set.Icc (-H) H := by
    filter_upwards [hb] with x hx using abs_le.1 hx
  have hs := hasSubgaussianMGF_of_mem_Icc (μ := ν) hX.aemeasurable hIcc
  have hi : Integrable (fun x => Real.exp (t * X x)) ν := integrable_exp_mul_of_mem_Icc hX.aemeasurable hIcc
  rw [← ofReal_integral_eq_lintegral_ofReal hi (ae_of_all _ fun x => (Real.exp_pos _).le)]
  refine ENNReal.ofReal_le_ofReal ?_
  have h1 := hs.mgf_le t
  have e1 : mgf (fun x => X x - ∫ y, X y ∂ν) ν t = Real.exp (-(t * ∫ y, X y ∂ν)) * ∫ x, Real.exp (t * X x) ∂ν := by
    rw [mgf, ← integral_const_mul]
    refine integral_congr_ae (ae_of_all _ fun x => ?_)
    simp only
    rw [← Real.exp_add]
    congr 1
    ring
  have e2 : (((‖H - -H‖₊ / 2) ^ 2 : NNReal) : ℝ) = H ^ 2 := by
    push_cast
    rw [Real.norm_eq_abs, abs_of_nonneg (by linarith)]
    ring
  rw [e1, e2] at h1
  have h2 := mul_le_mul_of_nonneg_left h1 (Real.exp_pos (t * ∫ y, X y ∂ν)).le
  rw [← mul_assoc, ← Real.exp_add, add_neg_cancel, Real.exp_zero, one_mul, ← Real.exp_add] at h2
  refine h2.trans (le_of_eq ?_)
  congr 1
  ring

section Martingale

variable {K : Θ → Measure Θ} (hK : Measurable K) (hp : ∀ θ, IsProbabilityMeasure (K θ)) {g : Θ → ℝ}
  (hg : Measurable g) {B : ℝ} (hB : ∀ x, |g x| ≤ B)

/-- Sum of the expectations of `g` now and in the next `j - 1` calls. -/
noncomputable def aheadSum (K : Θ → Measure Θ) (g : Θ → ℝ) (j : ℕ) (x : Θ) : ℝ :=
  ∑ i ∈ Finset.range j, ahead K g i x

include hK hg in
theorem measurable_aheadSum (j : ℕ) : Measurable (aheadSum K g j) :=
  Finset.measurable_sum _ fun i _ => measurable_ahead hK hg i

include hK hp hg hB in
theorem aheadSum_succ (j : ℕ) (x : Θ) : aheadSum K g (j + 1) x = g x + ∫ y, aheadSum K g j y ∂K x := by
  have hi : ∀ i, Integrable (ahead K g i) (K x) := fun i => by
    have := hp x
    exact Integrable.of_bound (measurable_ahead hK hg i).aestronglyMeasurable B
      (ae_of_all _ fun y => ahead_le hK hp hB i y)
  unfold aheadSum
  rw [Finset.sum_range_succ', ahead_zero hg, integral_finsetSum _ fun i _ => hi i, add_comm]
  congr 1
  exact Finset.sum_congr rfl fun i _ => ahead_succ hK hp hg hB i x

include hK hp hg hB in
/-- The exponential moments of the running total. -/
theorem lintegral_exp_total {H : ℝ} (hH : 0 ≤ H) (hb : ∀ j x, ∀ᵐ y ∂K x, |aheadSum K g j y| ≤ H) (t : ℝ) (θ : Θ)
    (k : ℕ) : ∀ j, ∫⁻ q, ENNReal.ofReal (Real.exp (t * (q.2 + ∫ y, aheadSum K g j y ∂K q.1)))
        ∂calls (tally K g) k (θ, 0) ≤
      ENNReal.ofReal (Real.exp (t * (∫ y, aheadSum K g (j + k) y ∂K θ) + k * (t ^ 2 * H ^ 2 / 2))) := by
  have hmean : ∀ j, Measurable fun x => ∫ y, aheadSum K g j y ∂K x := fun j => by
    exact ((measurable_aheadSum hK hg j).stronglyMeasurable.integral_kernel (κ := (⟨K, hK⟩ : Kernel Θ Θ))).measurable
  have hG : ∀ j, Measurable fun q : Θ × ℝ =>
      ENNReal.ofReal (Real.exp (t * (q.2 + ∫ y, aheadSum K g j y ∂K q.1))) := fun j =>
    ENNReal.measurable_ofReal.comp (Real.measurable_exp.comp
      ((measurable_snd.add ((hmean j).comp measurable_fst)).const_mul t))
  induction k with
  | zero =>
    intro j
    rw [calls, lintegral_dirac' _ (hG j)]
    simp
  | succ k ih =>
    intro j
    rw [calls, Measure.lintegral_bind (measurable_tally hK hp hg).aemeasurable (hG j).aemeasurable]
    have step : ∀ q : Θ × ℝ, ∫⁻ r, ENNReal.ofReal (Real.exp (t * (r.2 + ∫ y, aheadSum K g j y ∂K r.1)))
        ∂tally K g q ≤ ENNReal.ofReal (Real.exp (t ^ 2 * H ^ 2 / 2)) *
          ENNReal.ofReal (Real.exp (t * (q.2 + ∫ y, aheadSum K g (j + 1) y ∂K q.1))) := by
      intro q
      have := hp q.1
      rw [tally, lintegral_map (hG j) (measurable_pair hg _)]
      have e : ∀ x, ENNReal.ofReal (Real.exp (t * (q.2 + g x + ∫ y, aheadSum K g j y ∂K x))) =
          ENNReal.ofReal (Real.exp (t * q.2)) * ENNReal.ofReal (Real.exp (t * aheadSum K g (j + 1) x)) := by
        intro x
        rw [aheadSum_succ hK hp hg hB, ← ENNReal.ofReal_mul (Real.exp_pos _).le, ← Real.exp_add]
        congr 2
        ring
      have hme : Measurable fun x => ENNReal.ofReal (Real.exp (t * aheadSum K g (j + 1) x)) :=
        ENNReal.measurable_ofReal.comp (Real.measurable_exp.comp
          ((measurable_aheadSum hK hg (j + 1)).const_mul t))
      simp only [e]
      rw [lintegral_const_mul _ hme]
      refine (mul_le_mul_right (lintegral_exp_le (measurable_aheadSum hK hg (j + 1)) hH (hb (j + 1) q.1) t) _).trans
        (le_of_eq ?_)
      rw [← ENNReal.ofReal_mul (Real.exp_pos _).le, ← ENNReal.ofReal_mul (Real.exp_pos _).le, ← Real.exp_add,
        ← Real.exp_add]
      congr 2
      ring
    refine (lintegral_mono step).trans ?_
    rw [lintegral_const_mul _ (hG (j + 1))]
    refine (mul_le_mul_right (ih (j + 1)) _).trans (le_of_eq ?_)
    rw [← ENNReal.ofReal_mul (Real.exp_pos _).le, ← Real.exp_add, show j + 1 + k = j + (k + 1) by ring]
    congr 2
    push_cast
    ring

include hK hp hg hB in
theorem total_tail {H : ℝ} (hH : 0 < H) (hb : ∀ j x, ∀ᵐ y ∂K x, |aheadSum K g j y| ≤ H) (θ : Θ) (k : ℕ) {ε : ℝ}
    (hε : 0 < ε) (σ : ℝ) (hσ : |σ| = 1) :
    calls (tally K g) k (θ, 0) {q | k * ε ≤ σ * q.2} ≤
      ENNReal.ofReal (Real.exp (ε / H - k * ε ^ 2 / (2 * H ^ 2))) := by
  have hσ2 : σ ^ 2 = 1 := by rw [← sq_abs, hσ, one_pow]
  have hm := lintegral_exp_total hK hp hg hB hH.le hb (σ * (ε / H ^ 2)) θ k 0
  have e0 : ∀ x, ∫ y, aheadSum K g 0 y ∂K x = 0 := fun x => by simp [aheadSum]
  simp only [e0, add_zero, zero_add] at hm
  have hmk := mul_meas_ge_le_lintegral (μ := calls (tally K g) k (θ, 0))
    (f := fun q : Θ × ℝ => ENNReal.ofReal (Real.exp (σ * (ε / H ^ 2) * q.2))) (by fun_prop)
    (ENNReal.ofReal (Real.exp (k * ε ^ 2 / H ^ 2)))
  have hset : {q : Θ × ℝ | k * ε ≤ σ * q.2} ⊆ {q | ENNReal.ofReal (Real.exp (k * ε ^ 2 / H ^ 2)) ≤
      ENNReal.ofReal (Real.exp (σ * (ε / H ^ 2) * q.2))} := by
    intro q hq
    refine ENNReal.ofReal_le_ofReal (Real.exp_le_exp.2 ?_)
    have h1 : (k * ε) * (ε / H ^ 2) ≤ σ * q.2 * (ε / H ^ 2) := mul_le_mul_of_nonneg_right hq (by positivity)
    calc k * ε ^ 2 / H ^ 2 = (k * ε) * (ε / H ^ 2) := by ring
      _ ≤ _ := h1
      _ = _ := by ring
  have hmean : |∫ y, aheadSum K g k y ∂K θ| ≤ H := by
    have := hp θ
    have h := norm_integral_le_of_norm_le_const (μ := K θ) (f := aheadSum K g k) (hb k θ)
    rwa [probReal_univ, mul_one] at h
  have hfin : ENNReal.ofReal (Real.exp (k * ε ^ 2 / H ^ 2)) * calls (tally K g) k (θ, 0) {q | k * ε ≤ σ * q.2} ≤
      ENNReal.ofReal (Real.exp (ε / H + k * ε ^ 2 / (2 * H ^ 2))) := by
    refine ((mul_le_mul_right (measure_mono hset) _).trans hmk).trans (hm.trans (ENNReal.ofReal_le_ofReal
      (Real.exp_le_exp.2 ?_)))
    have h1 : σ * (ε / H ^ 2) * ∫ y, aheadSum K g k y ∂K θ ≤ ε / H := by
      refine (le_abs_self _).trans ?_
      rw [abs_mul, abs_mul, hσ, one_mul, abs_of_pos (by positivity)]
      calc ε / H ^ 2 * |∫ y, aheadSum K g k y ∂K θ| ≤ ε / H ^ 2 * H := by gcongr
        _ = ε / H := by field_simp
    have h2 : (k : ℝ) * ((σ * (ε / H ^ 2)) ^ 2 * H ^ 2 / 2) = k * ε ^ 2 / (2 * H ^ 2) := by
      rw [mul_pow, hσ2, one_mul]
      field_simp
    rw [h2]
    linarith
  have hpos : (0 : ℝ) < Real.exp (k * ε ^ 2 / H ^ 2) := Real.exp_pos _
  rw [mul_comm, ← ENNReal.le_div_iff_mul_le (Or.inl (ENNReal.ofReal_pos.2 hpos).ne')
    (Or.inl ENNReal.ofReal_ne_top), ← ENNReal.ofReal_div_of_pos hpos, ← Real.exp_sub] at hfin
  refine hfin.trans (le_of_eq ?_)
  congr 2
  field_simp
  ring

end Martingale

/-- Geometric convergence, uniform in the start, gives the bound. -/
theorem Runs.errorBound {D : Set Θ} {K K' : Θ → Measure Θ} (r : Runs D K K') {π : Measure Θ}
    [IsProbabilityMeasure π] (hc : ConvergesGeom D π K) : ErrorBound D π K := by
  obtain ⟨ρ, h0, h1, hρ⟩ := hc
  have hH0 : 0 < 2 / (1 - ρ) := div_pos two_pos (by linarith)
  refine ⟨2 / (1 - ρ), hH0, fun f B hf hB0 hB θ hθ k hk ε hε => ?_⟩
  have hH : 0 < B * (2 / (1 - ρ)) := mul_pos hB0 hH0
  have hm1 : |∫ x, f x ∂π| ≤ B := by
    have h := norm_integral_le_of_norm_le_const (μ := π) (f := f) (ae_of_all _ hB)
    rwa [probReal_univ, mul_one] at h
  generalize hm : ∫ x, f x ∂π = m at hm1 ⊢
  have hf' : Measurable fun x => f x - m := hf.sub_const m
  have hB' : ∀ x, |f x - m| ≤ 2 * B := fun x => (abs_sub _ _).trans (by linarith [hB x])
  have hah : ∀ i, ∀ x ∈ D, |ahead K' (fun x => f x - m) i x| ≤ 2 * B * ρ ^ i := by
    intro i x hx
    have := prob_calls r.meas r.prob i x
    have hi : Integrable f (calls K' i x) := integrable_bdd r.meas r.prob hf hB i x
    rw [ahead, integral_sub hi (integrable_const m), integral_const, probReal_univ, one_smul, ← hm]
    refine abs_integral_sub_le (fun S hS => ?_) hf hB0.le hB
    rw [← r.calls_eq hx]
    exact hρ x hx i S hS
  have hb : ∀ j x, ∀ᵐ y ∂K' x, |aheadSum K' (fun x => f x - m) j y| ≤ B * (2 / (1 - ρ)) := by
    intro j x
    filter_upwards [r.stays x] with y hy
    refine (Finset.abs_sum_le_sum_abs _ _).trans ((Finset.sum_le_sum fun i _ => hah i y hy).trans ?_)
    rw [← Finset.mul_sum, div_eq_mul_inv, ← tsum_geometric_of_lt_one h0 h1, ← mul_assoc, mul_comm B 2]
    gcongr
    exact (summable_geometric_of_lt_one h0 h1).sum_le_tsum _ fun i _ => pow_nonneg h0 i
  have hk0 : (0 : ℝ) < k := by exact_mod_cast hk
  have hmeas : MeasurableSet {a : ℝ | ε ≤ |a - m|} := measurableSet_le measurable_const (by fun_prop)
  have hdiv : Measurable fun q : Θ × ℝ => q.2 / (k : ℝ) := by fun_prop
  have hsub : Measurable fun q : Θ × ℝ => (q.1, q.2 - k * m) := by fun_prop
  have hset : MeasurableSet {q : Θ × ℝ | k * ε ≤ |q.2|} := measurableSet_le measurable_const (by fun_prop)
  have e1 : averageLaw K f k θ {a | ε ≤ |a - m|} =
      calls (Verif.tally K' fun x => f x - m) k (θ, 0) {q | k * ε ≤ |q.2|} := by
    rw [averageLaw, (r.tally hf).calls_eq hθ k, calls_tally_sub r.meas r.prob hf,
      Measure.map_apply hdiv hmeas, Measure.map_apply hsub hset]
    congr 1
    ext q
    simp only [Set.mem_preimage, Set.mem_ofPred_eq]
    have e : q.2 - k * m = (q.2 / k - m) * k := by field_simp
    rw [e, abs_mul, abs_of_pos hk0, mul_comm, mul_le_mul_iff_left₀ hk0]
  rw [e1]
  have hcov : {q : Θ × ℝ | k * ε ≤ |q.2|} ⊆ {q | k * ε ≤ 1 * q.2} ∪ {q | k * ε ≤ -1 * q.2} := by
    intro q hq
    have hq' : k * ε ≤ |q.2| := hq
    rcases le_abs.1 hq' with h | h
    · exact Or.inl (by rwa [Set.mem_ofPred_eq, one_mul])
    · exact Or.inr (by rwa [Set.mem_ofPred_eq, neg_one_mul])
  refine (measure_mono hcov).trans ((measure_union_le _ _).trans ?_)
  refine (add_le_add (total_tail r.meas r.prob hf' hB' hH hb θ k hε 1 (by simp))
    (total_tail r.meas r.prob hf' hB' hH hb θ k hε (-1) (by simp))).trans (le_of_eq ?_)
  rw [← ENNReal.ofReal_add (Real.exp_pos _).le (Real.exp_pos _).le, two_mul (Real.exp _)]

theorem ErrorBound.mono {D D' : Set Θ} {K : Θ → Measure Θ} {π : Measure Θ} (h : ErrorBound D π K)
    (hD : D' ⊆ D) : ErrorBound D' π K := by
  obtain ⟨H, hH, h⟩ := h
  exact ⟨H, hH, fun f B hf h0 hB θ hθ => h f B hf h0 hB θ (hD hθ)⟩

theorem tendsto_bound {H ε : ℝ} (hH : 0 < H) (hε : 0 < ε) :
    Tendsto (fun k : ℕ => ENNReal.ofReal (2 * Real.exp (ε / H - k * ε ^ 2 / (2 * H ^ 2)))) atTop (𝓝 0) := by
  have h1 : Tendsto (fun k : ℕ => ε / H - (k : ℝ) * (ε ^ 2 / (2 * H ^ 2))) atTop atBot :=
    tendsto_atBot_add_const_left _ _ (tendsto_neg_atTop_atBot.comp
      (tendsto_natCast_atTop_atTop.atTop_mul_const (by positivity)))
  have h2 := (Real.tendsto_exp_atBot.comp h1).const_mul 2
  have h3 := ENNReal.tendsto_ofReal h2
  simp only [mul_zero, ENNReal.ofReal_zero] at h3
  refine h3.congr fun k => ?_
  simp only [Function.comp_apply]
  congr 4
  ring

/-- Enough calls for any accuracy and confidence: the number depends neither on the start nor on the function. -/
theorem ErrorBound.enough {D : Set Θ} {K : Θ → Measure Θ} {π : Measure Θ} (h : ErrorBound D π K) {B : ℝ}
    (hB : 0 < B) {ε : ℝ} (hε : 0 < ε) {δ : ℝ≥0∞} (hδ : 0 < δ) : ∃ N : ℕ, ∀ k ≥ N, ∀ f : Θ → ℝ, Measurable f →
      (∀ x, |f x| ≤ B) → ∀ θ ∈ D, averageLaw K f k θ {a | ε ≤ |a - ∫ x, f x ∂π|} ≤ δ := by
  obtain ⟨H, hH, h⟩ := h
  obtain ⟨N, hN⟩ := eventually_atTop.1 ((tendsto_bound (mul_pos hB hH) hε).eventually_le_const hδ)
  exact ⟨N + 1, fun k hk f hf hf' θ hθ =>
    (h f B hf hB hf' θ hθ k (Nat.lt_of_lt_of_le N.succ_pos hk) ε hε).trans (hN k (le_trans N.le_succ hk))⟩

theorem ErrorBound.averagesConverge {D : Set Θ} {K : Θ → Measure Θ} {π : Measure Θ} (h : ErrorBound D π K) :
    AveragesConverge D π K := by
  rintro f hf ⟨B, hB⟩ θ hθ ε hε
  have hB' : ∀ x, |f x| ≤ |B| + 1 := fun x => (hB x).trans (by linarith [le_abs_self B])
  refine ENNReal.tendsto_nhds_zero.2 fun δ hδ => ?_
  obtain ⟨N, hN⟩ := h.enough (B := |B| + 1) (by positivity) hε hδ
  exact eventually_atTop.2 ⟨N, fun k hk => hN k hk f hf hB' θ hθ⟩

end Verif
