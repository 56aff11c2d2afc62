import Verif.Iter.Runs
import Mathlib.MeasureTheory.Integral.Layercake
import Mathlib.Probability.Kernel.Composition.IntegralCompProd

/-!
# Averages over the values a step returns

`tally K f` is the step `K` that also adds `f` of the new value to a running total.  If the laws of
repeated calls converge event by event, the average of `f` over the first `k` returned values converges in
mean square to the expectation of `f` under the limit, whenever `f` has a second moment after one call
that is bounded over the states.
-/

open MeasureTheory ProbabilityTheory Filter
open scoped ENNReal Topology

namespace Verif

variable {Θ : Type*} [MeasurableSpace Θ]

/-- Spec.  One call of the step `K` from the value `q.1`, adding `f` of the returned value to the running
total `q.2`. -/
noncomputable def tally (K : Θ → Measure Θ) (f : Θ → ℝ) (q : Θ × ℝ) : Measure (Θ × ℝ) :=
  (K q.1).map fun x => (x, q.2 + f x)

/-- Spec.  Law of the average of `f` over the values returned by the first `k` calls from `θ`. -/
noncomputable def averageLaw (K : Θ → Measure Θ) (f : Θ → ℝ) (k : ℕ) (θ : Θ) : Measure ℝ :=
  (calls (tally K f) k (θ, 0)).map fun q => q.2 / k

/-- Spec.  From every start in `D`, the average of `f` over the returned values converges in probability
to `m`. -/
def AverageConverges (D : Set Θ) (K : Θ → Measure Θ) (f : Θ → ℝ) (m : ℝ) : Prop :=
  ∀ θ ∈ D, ∀ ε > 0, Tendsto (fun k => averageLaw K f k θ {a | ε ≤ |a - m|}) atTop (𝓝 0)

/-! ### Integrals -/

theorem integral_bind_of_integrable {α β : Type*} [MeasurableSpace α] [MeasurableSpace β]
    {L : α → Measure β} (hL : Measurable L) {μ : Measure α} {g : β → ℝ} (hg : Integrable g (μ.bind L)) :
    ∫ y, g y ∂μ.bind L = ∫ x, ∫ y, g y ∂L x ∂μ := by
  let κ : Kernel α β := ⟨L, hL⟩
  have e : (κ ∘ₖ Kernel.const Unit μ) () = μ.bind L := by
    rw [Kernel.comp_apply, Kernel.const_apply]
    rfl
  have h := Kernel.integral_comp (κ := Kernel.const Unit μ) (η := κ) (a := ()) (f := g)
    (by rw [e]; exact hg)
  rw [e] at h
  exact h

/-- Event-by-event convergence gives convergence of the expectations of bounded functions. -/
theorem tendsto_integral_of_events {μ : ℕ → Measure Θ} (hμ : ∀ k, IsProbabilityMeasure (μ k))
    {π : Measure Θ} [IsProbabilityMeasure π]
    (h : ∀ S, MeasurableSet S → Tendsto (fun k => μ k S) atTop (𝓝 (π S))) {g : Θ → ℝ}
    (hg : Measurable g) {B : ℝ} (hB : ∀ x, |g x| ≤ B) :
    Tendsto (fun k => ∫ x, g x ∂μ k) atTop (𝓝 (∫ x, g x ∂π)) := by
  have hint : ∀ ν : Measure Θ, IsProbabilityMeasure ν → Integrable g ν := fun ν _ =>
    Integrable.of_bound hg.aestronglyMeasurable B (ae_of_all _ hB)
  have key : ∀ ν : Measure Θ, IsProbabilityMeasure ν →
      ∫ x, g x ∂ν = (∫ t in Set.Ioc 0 (2 * B), ν.real {x | t ≤ g x + B}) - B := by
    intro ν hν
    have h1 : ∫ x, (g x + B) ∂ν = ∫ t in Set.Ioc 0 (2 * B), ν.real {x | t ≤ g x + B} :=
      Integrable.integral_eq_integral_Ioc_meas_le ((hint ν hν).add (integrable_const B))
        (ae_of_all _ fun x => by have := (abs_le.1 (hB x)).1; simp only [Pi.zero_apply]; linarith)
        (ae_of_all _ fun x => by have := (abs_le.1 (hB x)).2; linarith)
    rw [← h1, integral_add (hint ν hν) (integrable_const B)]
    simp
  rw [key π inferInstance]
  simp only [fun k => key (μ k) (hμ k)]
  refine Tendsto.sub_const ?_ B
  refine tendsto_integral_of_dominated_convergence (fun _ => (1 : ℝ)) (fun k => ?_) ?_ (fun k => ?_) ?_
  · have hanti : Antitone fun t : ℝ => (μ k).real {x | t ≤ g x + B} := fun s t hst => by
      have := hμ k
      exact measureReal_mono fun x hx => le_trans hst hx
    exact hanti.measurable.aestronglyMeasurable
  · exact integrable_const _
  · refine ae_of_all _ fun t => ?_
    have := hμ k
    rw [Real.norm_eq_abs, abs_of_nonneg measureReal_nonneg]
    exact measureReal_le_one
  · refine ae_of_all _ fun t => ?_
    have hm : MeasurableSet {x | t ≤ g x + B} := measurableSet_le measurable_const (hg.add_const B)
    exact (ENNReal.tendsto_toReal (measure_ne_top π _)).comp (h _ hm)

/-! ### The running total -/

theorem measurable_pair {f : Θ → ℝ} (hf : Measurable f) (s : ℝ) :
    Measurable fun x : Θ => (x, s + f x) := by fun_prop

theorem measurable_tally {K : Θ → Measure Θ} (hK : Measurable K) (hp : ∀ θ, IsProbabilityMeasure (K θ))
    {f : Θ → ℝ} (hf : Measurable f) : Measurable (tally K f) := by
  refine Measure.measurable_of_measurable_coe _ fun S hS => ?_
  let κ : Kernel (Θ × ℝ) Θ := ⟨fun q => K q.1, hK.comp measurable_fst⟩
  have : IsMarkovKernel κ := ⟨fun q => hp q.1⟩
  have hg : Measurable fun r : (Θ × ℝ) × Θ => (r.2, r.1.2 + f r.2) := by fun_prop
  have h := Kernel.measurable_kernel_prodMk_left (κ := κ) (hg hS)
  have e : (fun q => tally K f q S) =
      fun q => κ q (Prod.mk q ⁻¹' ((fun r : (Θ × ℝ) × Θ => (r.2, r.1.2 + f r.2)) ⁻¹' S)) := by
    funext q
    rw [tally, Measure.map_apply (measurable_pair hf _) hS]
    rfl
  rw [e]
  exact h

theorem prob_tally {K : Θ → Measure Θ} (hp : ∀ θ, IsProbabilityMeasure (K θ))
    {f : Θ → ℝ} (hf : Measurable f) (q : Θ × ℝ) : IsProbabilityMeasure (tally K f q) := by
  have := hp q.1
  exact Measure.isProbabilityMeasure_map (measurable_pair hf _).aemeasurable

section Total

variable {K : Θ → Measure Θ} (hK : Measurable K) (hp : ∀ θ, IsProbabilityMeasure (K θ)) {f : Θ → ℝ}
  (hf : Measurable f) (θ : Θ)
include hK hp hf

/-- The value component of the running total is the plain chain. -/
theorem calls_tally_fst (k : ℕ) : (calls (tally K f) k (θ, 0)).map Prod.fst = calls K k θ := by
  induction k with
  | zero => rw [calls, calls, Measure.map_dirac' measurable_fst]
  | succ k ih =>
    rw [calls, calls, ← ih, map_bind (measurable_tally hK hp hf).aemeasurable measurable_fst]
    have e : (fun q : Θ × ℝ => (tally K f q).map Prod.fst) = fun q => K q.1 := by
      funext q
      rw [tally, Measure.map_map measurable_fst (measurable_pair hf _)]
      exact Measure.map_id
    rw [e, Measure.bind, Measure.bind, Measure.map_map hK measurable_fst]
    rfl

theorem integral_tally {k : ℕ} {G : Θ × ℝ → ℝ} (hG : Measurable G)
    (hi : Integrable G (calls (tally K f) (k + 1) (θ, 0))) :
    ∫ q, G q ∂calls (tally K f) (k + 1) (θ, 0) =
      ∫ q, ∫ x, G (x, q.2 + f x) ∂K q.1 ∂calls (tally K f) k (θ, 0) := by
  rw [calls, integral_bind_of_integrable (measurable_tally hK hp hf) hi]
  refine integral_congr_ae (ae_of_all _ fun q => ?_)
  exact integral_map (measurable_pair hf _).aemeasurable hG.aestronglyMeasurable

theorem integral_fst (k : ℕ) {g : Θ → ℝ} (hg : Measurable g) :
    ∫ q, g q.1 ∂calls (tally K f) k (θ, 0) = ∫ x, g x ∂calls K k θ := by
  rw [← calls_tally_fst hK hp hf θ k, integral_map measurable_fst.aemeasurable
    hg.aestronglyMeasurable]

/-- The running total has a second moment. -/
theorem lintegral_total_sq {C : ℝ≥0∞} (hC : C ≠ ∞) (h2 : ∀ x, ∫⁻ y, ENNReal.ofReal (f y ^ 2) ∂K x ≤ C)
    (k : ℕ) : ∫⁻ q, ENNReal.ofReal (q.2 ^ 2) ∂calls (tally K f) k (θ, 0) ≠ ∞ := by
  have hm : Measurable fun q : Θ × ℝ => ENNReal.ofReal (q.2 ^ 2) := by fun_prop
  induction k with
  | zero =>
    rw [calls, lintegral_dirac' _ hm]
    exact ENNReal.ofReal_ne_top
  | succ k ih =>
    have hpk := prob_calls (measurable_tally hK hp hf) (prob_tally hp hf) k (θ, 0)
    rw [calls, Measure.lintegral_bind (measurable_tally hK hp hf).aemeasurable hm.aemeasurable]
    refine ne_top_of_le_ne_top (b := ∫⁻ q : Θ × ℝ, (2 * ENNReal.ofReal (q.2 ^ 2) + 2 * C)
      ∂calls (tally K f) k (θ, 0)) ?_ (lintegral_mono fun q => ?_)
    · rw [lintegral_add_right _ measurable_const, lintegral_const_mul _ hm, lintegral_const,
        measure_univ, mul_one]
      exact ENNReal.add_ne_top.2 ⟨ENNReal.mul_ne_top (by simp) ih, ENNReal.mul_ne_top (by simp) hC⟩
    · rw [tally, lintegral_map hm (measurable_pair hf _)]
      have := hp q.1
      calc ∫⁻ x, ENNReal.ofReal ((q.2 + f x) ^ 2) ∂K q.1
          ≤ ∫⁻ x, (2 * ENNReal.ofReal (q.2 ^ 2) + 2 * ENNReal.ofReal (f x ^ 2)) ∂K q.1 := by
            refine lintegral_mono fun x => ?_
            rw [← ENNReal.ofReal_ofNat, ← ENNReal.ofReal_mul (by norm_num),
              ← ENNReal.ofReal_mul (by norm_num), ← ENNReal.ofReal_add (by positivity) (by positivity)]
            exact ENNReal.ofReal_le_ofReal (by nlinarith [sq_nonneg (q.2 - f x)])
        _ = 2 * ENNReal.ofReal (q.2 ^ 2) + 2 * ∫⁻ x, ENNReal.ofReal (f x ^ 2) ∂K q.1 := by
            rw [lintegral_add_left measurable_const, lintegral_const, measure_univ, mul_one,
              lintegral_const_mul _ (by fun_prop)]
        _ ≤ _ := by gcongr; exact h2 q.1

end Total

/-! ### Mean square convergence -/

section MeanSquare

variable {K : Θ → Measure Θ} (hK : Measurable K) (hp : ∀ θ, IsProbabilityMeasure (K θ))

/-- Expectation of `g` after `j` calls, as a function of the start. -/
noncomputable def ahead (K : Θ → Measure Θ) (g : Θ → ℝ) (j : ℕ) (x : Θ) : ℝ := ∫ y, g y ∂calls K j x

include hK in
theorem measurable_ahead {g : Θ → ℝ} (hg : Measurable g) (j : ℕ) : Measurable (ahead K g j) := by
  let κ : Kernel Θ Θ := ⟨calls K j, (calls_succ' hK j).1⟩
  exact (hg.stronglyMeasurable.integral_kernel (κ := κ)).measurable

include hK hp in
theorem ahead_le {g : Θ → ℝ} {B : ℝ} (hB : ∀ x, |g x| ≤ B) (j : ℕ) (x : Θ) : |ahead K g j x| ≤ B := by
  have := prob_calls hK hp j x
  have h := norm_integral_le_of_norm_le_const (μ := calls K j x) (f := g) (ae_of_all _ hB)
  rwa [probReal_univ, mul_one] at h

theorem ahead_zero {g : Θ → ℝ} (hg : Measurable g) : ahead K g 0 = g := by
  funext x
  exact integral_dirac' _ _ hg.stronglyMeasurable

include hK hp in
theorem integrable_bdd {g : Θ → ℝ} (hg : Measurable g) {B : ℝ} (hB : ∀ x, |g x| ≤ B) (k : ℕ) (x : Θ) :
    Integrable g (calls K k x) := by
  have := prob_calls hK hp k x
  exact Integrable.of_bound hg.aestronglyMeasurable B (ae_of_all _ hB)

include hK hp in
theorem ahead_succ {g : Θ → ℝ} (hg : Measurable g) {B : ℝ} (hB : ∀ x, |g x| ≤ B) (j : ℕ) (x : Θ) :
    ahead K g (j + 1) x = ∫ y, ahead K g j y ∂K x := by
  have hi := integrable_bdd hK hp hg hB (j + 1) x
  rw [ahead]
  rw [(calls_succ' hK j).2] at hi ⊢
  exact integral_bind_of_integrable (calls_succ' hK j).1 hi

/-- Mean square of the expectation `j` calls ahead, after `k` calls. -/
noncomputable def spread (K : Θ → Measure Θ) (g : Θ → ℝ) (θ : Θ) (k j : ℕ) : ℝ :=
  ∫ x, ahead K g j x ^ 2 ∂calls K k θ

theorem sq_abs_le {a B : ℝ} (h : |a| ≤ B) : |a ^ 2| ≤ B ^ 2 := by
  rw [abs_pow]
  exact pow_le_pow_left₀ (abs_nonneg _) h 2

theorem sq_integral_le {ν : Measure Θ} [IsProbabilityMeasure ν] {g : Θ → ℝ} (hg : Integrable g ν)
    (hg2 : Integrable (fun x => g x ^ 2) ν) : (∫ x, g x ∂ν) ^ 2 ≤ ∫ x, g x ^ 2 ∂ν := by
  have h : 0 ≤ ∫ x, (g x - ∫ z, g z ∂ν) ^ 2 ∂ν := integral_nonneg fun x => sq_nonneg _
  have e : ∫ x, (g x - ∫ z, g z ∂ν) ^ 2 ∂ν = (∫ x, g x ^ 2 ∂ν) - (∫ x, g x ∂ν) ^ 2 := by
    have h1 : ∀ x, (g x - ∫ z, g z ∂ν) ^ 2 =
        g x ^ 2 - 2 * (∫ z, g z ∂ν) * g x + (∫ z, g z ∂ν) ^ 2 := fun x => by ring
    simp only [h1]
    rw [integral_add (f := fun x => g x ^ 2 - 2 * (∫ z, g z ∂ν) * g x) (hg2.sub (hg.const_mul _))
      (integrable_const _), integral_sub hg2 (hg.const_mul _),
      integral_const_mul, integral_const, probReal_univ, one_smul]
    ring
  linarith

include hK hp in
theorem spread_succ {g : Θ → ℝ} (hg : Measurable g) {B : ℝ} (hB : ∀ x, |g x| ≤ B) (θ : Θ) (k j : ℕ) :
    spread K g θ k (j + 1) ≤ spread K g θ (k + 1) j := by
  have hm := measurable_ahead hK hg
  have hb := ahead_le hK hp hB
  have hsq : Measurable fun x => ahead K g j x ^ 2 := (hm j).pow_const 2
  have hi := integrable_bdd hK hp hsq (fun x => sq_abs_le (hb j x)) (k + 1) θ
  rw [spread, spread]
  rw [calls] at hi ⊢
  rw [integral_bind_of_integrable hK hi]
  refine integral_mono_of_nonneg (ae_of_all _ fun x => sq_nonneg _) ?_ (ae_of_all _ fun x => ?_)
  · let κ : Kernel Θ Θ := ⟨K, hK⟩
    have hmm : Measurable fun x => ∫ y, ahead K g j y ^ 2 ∂K x :=
      (hsq.stronglyMeasurable.integral_kernel (κ := κ)).measurable
    refine integrable_bdd hK hp hmm (B := B ^ 2) (fun x => ?_) k θ
    have := hp x
    have h := norm_integral_le_of_norm_le_const (μ := K x) (f := fun y => ahead K g j y ^ 2)
      (ae_of_all _ fun y => sq_abs_le (hb j y))
    rwa [probReal_univ, mul_one] at h
  · have := hp x
    simp only
    rw [ahead_succ hK hp hg hB]
    exact sq_integral_le (Integrable.of_bound (hm j).aestronglyMeasurable B (ae_of_all _ (hb j)))
      (Integrable.of_bound hsq.aestronglyMeasurable (B ^ 2) (ae_of_all _ fun y => sq_abs_le (hb j y)))

include hK hp in
theorem spread_add {g : Θ → ℝ} (hg : Measurable g) {B : ℝ} (hB : ∀ x, |g x| ≤ B) (θ : Θ) (k j i : ℕ) :
    spread K g θ k (j + i) ≤ spread K g θ (k + i) j := by
  induction i generalizing k with
  | zero => exact le_rfl
  | succ i ih =>
    rw [← add_assoc]
    refine (spread_succ hK hp hg hB θ k (j + i)).trans ((ih (k + 1)).trans_eq ?_)
    rw [add_right_comm, add_assoc]

/-! The running total `S` and products of it with functions of the last value. -/

variable {f : Θ → ℝ} (hf : Measurable f) {C : ℝ≥0∞} (hC : C ≠ ∞)
  (h2 : ∀ x, ∫⁻ y, ENNReal.ofReal (f y ^ 2) ∂K x ≤ C) (θ : Θ)

include hf hC h2 in
theorem integrable_sq (x : Θ) : Integrable (fun y => f y ^ 2) (K x) :=
  ⟨(hf.pow_const 2).aestronglyMeasurable, (hasFiniteIntegral_iff_ofReal
    (ae_of_all _ fun y => sq_nonneg (f y))).2 ((h2 x).trans_lt hC.lt_top)⟩

include hf hC h2 in
theorem integral_sq_le (x : Θ) : ∫ y, f y ^ 2 ∂K x ≤ C.toReal := by
  rw [integral_eq_lintegral_of_nonneg_ae (ae_of_all _ fun y => sq_nonneg (f y))
    (hf.pow_const 2).aestronglyMeasurable]
  exact ENNReal.toReal_mono hC (h2 x)

theorem integrable_of_sq {ν : Measure Θ} [IsFiniteMeasure ν] {f : Θ → ℝ} (hf : Measurable f)
    (h : Integrable (fun y => f y ^ 2) ν) : Integrable f ν := by
  refine (h.add (integrable_const 1)).mono' hf.aestronglyMeasurable (ae_of_all _ fun y => ?_)
  simp only [Pi.add_apply]
  rw [Real.norm_eq_abs, ← sq_abs]
  nlinarith [sq_nonneg (|f y| - 1), abs_nonneg (f y)]

include hK hp hf hC h2 in
theorem integrable_sq_calls (k : ℕ) : Integrable (fun y => f y ^ 2) (calls K (k + 1) θ) := by
  refine ⟨(hf.pow_const 2).aestronglyMeasurable, (hasFiniteIntegral_iff_ofReal
    (ae_of_all _ fun y => sq_nonneg (f y))).2 ?_⟩
  have := prob_calls hK hp k θ
  rw [calls, Measure.lintegral_bind hK.aemeasurable (by fun_prop)]
  refine (lintegral_mono h2).trans_lt ?_
  rw [lintegral_const, measure_univ, mul_one]
  exact hC.lt_top

include hK hp hf hC h2 in
theorem integral_sq_calls_le (k : ℕ) : ∫ y, f y ^ 2 ∂calls K (k + 1) θ ≤ C.toReal := by
  have := prob_calls hK hp k θ
  have hi := integrable_sq_calls hK hp hf hC h2 θ k
  rw [calls] at hi ⊢
  rw [integral_bind_of_integrable hK hi]
  have h := integral_mono_of_nonneg (μ := calls K k θ) (f := fun x => ∫ y, f y ^ 2 ∂K x)
    (g := fun _ => C.toReal) (ae_of_all _ fun x => integral_nonneg fun y => sq_nonneg _)
    (integrable_const _) (ae_of_all _ fun x => integral_sq_le hf hC h2 x)
  rwa [integral_const, probReal_univ, one_smul] at h

theorem abs_mul_le_split (a b : ℝ) {t : ℝ} (ht : 0 < t) : ‖a * b‖ ≤ t * a ^ 2 + b ^ 2 / t := by
  rw [Real.norm_eq_abs, abs_mul, ← sq_abs a, ← sq_abs b]
  have e : t * |a| ^ 2 + |b| ^ 2 / t - |a| * |b| =
      ((t * |a| - |b| / 2) ^ 2 + 3 / 4 * |b| ^ 2) / t := by field_simp; ring
  have : 0 ≤ t * |a| ^ 2 + |b| ^ 2 / t - |a| * |b| := by rw [e]; positivity
  linarith

theorem abs_integral_mul_le_split {ν : Measure Θ} {f g : Θ → ℝ} (hi : Integrable (fun y => f y ^ 2) ν)
    (hj : Integrable (fun y => g y ^ 2) ν) {t : ℝ} (ht : 0 < t) :
    |∫ y, f y * g y ∂ν| ≤ t * (∫ y, f y ^ 2 ∂ν) + (∫ y, g y ^ 2 ∂ν) / t := by
  have h := norm_integral_le_of_norm_le (μ := ν) (f := fun y => f y * g y)
    (g := fun y => t * f y ^ 2 + g y ^ 2 / t) ((hi.const_mul t).add (hj.div_const t))
    (ae_of_all _ fun y => abs_mul_le_split (f y) (g y) ht)
  rwa [integral_add (hi.const_mul t) (hj.div_const t), integral_const_mul, integral_div] at h

include hK hp hf hC h2 in
theorem abs_integral_mul_le {g : Θ → ℝ} (hg : Measurable g) {B : ℝ} (hB : ∀ x, |g x| ≤ B) (k : ℕ)
    {t : ℝ} (ht : 0 < t) : |∫ y, f y * g y ∂calls K (k + 1) θ| ≤
      t * C.toReal + (∫ y, g y ^ 2 ∂calls K (k + 1) θ) / t := by
  refine (abs_integral_mul_le_split (integrable_sq_calls hK hp hf hC h2 θ k)
    (integrable_bdd hK hp (hg.pow_const 2) (fun x => sq_abs_le (hB x)) (k + 1) θ) ht).trans ?_
  gcongr
  exact integral_sq_calls_le hK hp hf hC h2 θ k

include hK hp hf hC h2 in
theorem integrable_total_sq (k : ℕ) :
    Integrable (fun q : Θ × ℝ => q.2 ^ 2) (calls (tally K f) k (θ, 0)) :=
  ⟨(measurable_snd.pow_const 2).aestronglyMeasurable, (hasFiniteIntegral_iff_ofReal
    (ae_of_all _ fun q : Θ × ℝ => sq_nonneg q.2)).2 (lintegral_total_sq hK hp hf θ hC h2 k).lt_top⟩

include hK hp hf hC h2 in
theorem integrable_total_mul {g : Θ → ℝ} (hg : Measurable g) {B : ℝ} (hB : ∀ x, |g x| ≤ B) (k : ℕ) :
    Integrable (fun q : Θ × ℝ => q.2 * g q.1) (calls (tally K f) k (θ, 0)) := by
  have := prob_calls (measurable_tally hK hp hf) (prob_tally hp hf) k (θ, 0)
  refine Integrable.mul_bdd (c := B) (integrable_of_sq measurable_snd
    (integrable_total_sq hK hp hf hC h2 θ k)) (hg.comp measurable_fst).aestronglyMeasurable
    (ae_of_all _ fun q => hB q.1)

/-- Expectation of the running total times a function of the last value. -/
noncomputable def cross (K : Θ → Measure Θ) (f : Θ → ℝ) (θ : Θ) (k : ℕ) (g : Θ → ℝ) : ℝ :=
  ∫ q, q.2 * g q.1 ∂calls (tally K f) k (θ, 0)

include hp hf hC h2 in
theorem integral_add_mul {g : Θ → ℝ} (hg : Measurable g) {B : ℝ} (hB : ∀ x, |g x| ≤ B) (x : Θ) (s : ℝ) :
    ∫ y, (s + f y) * g y ∂K x = s * (∫ y, g y ∂K x) + ∫ y, f y * g y ∂K x := by
  have := hp x
  have hg1 : Integrable g (K x) := Integrable.of_bound hg.aestronglyMeasurable B (ae_of_all _ hB)
  have hfg : Integrable (fun y => f y * g y) (K x) := Integrable.mul_bdd (c := B)
    (integrable_of_sq hf (integrable_sq hf hC h2 x)) hg.aestronglyMeasurable (ae_of_all _ hB)
  simp only [add_mul]
  rw [integral_add (hg1.const_mul s) hfg, integral_const_mul]

include hp hf hC h2 in
theorem abs_integral_mul_bdd {g : Θ → ℝ} (hg : Measurable g) {B : ℝ} (hB : ∀ x, |g x| ≤ B) (x : Θ) :
    |∫ y, f y * g y ∂K x| ≤ C.toReal + B ^ 2 := by
  have := hp x
  have hj : Integrable (fun y => g y ^ 2) (K x) :=
    Integrable.of_bound (hg.pow_const 2).aestronglyMeasurable (B ^ 2)
      (ae_of_all _ fun y => sq_abs_le (hB y))
  refine (abs_integral_mul_le_split (integrable_sq hf hC h2 x) hj one_pos).trans ?_
  rw [one_mul, div_one]
  refine add_le_add (integral_sq_le hf hC h2 x) ?_
  have h := norm_integral_le_of_norm_le_const (μ := K x) (f := fun y => g y ^ 2)
    (ae_of_all _ fun y => sq_abs_le (hB y))
  rw [probReal_univ, mul_one] at h
  exact (le_abs_self _).trans h

include hK in
theorem measurable_mean {g : Θ → ℝ} (hg : Measurable g) : Measurable fun x => ∫ y, g y ∂K x := by
  let κ : Kernel Θ Θ := ⟨K, hK⟩
  exact (hg.stronglyMeasurable.integral_kernel (κ := κ)).measurable

include hp in
theorem mean_le {g : Θ → ℝ} {B : ℝ} (hB : ∀ x, |g x| ≤ B) (x : Θ) : |∫ y, g y ∂K x| ≤ B := by
  have := hp x
  have h := norm_integral_le_of_norm_le_const (μ := K x) (f := g) (ae_of_all _ hB)
  rwa [probReal_univ, mul_one] at h

include hK hp hf hC h2 in
theorem cross_succ {g : Θ → ℝ} (hg : Measurable g) {B : ℝ} (hB : ∀ x, |g x| ≤ B) (k : ℕ) :
    cross K f θ (k + 1) g = cross K f θ k (fun x => ∫ y, g y ∂K x) +
      ∫ y, f y * g y ∂calls K (k + 1) θ := by
  have hfg : Measurable fun x => ∫ y, f y * g y ∂K x := measurable_mean hK (hf.mul hg)
  have hi1 := integrable_total_mul hK hp hf hC h2 θ (measurable_mean hK hg) (mean_le hp hB) k
  have hi2 : Integrable (fun q : Θ × ℝ => ∫ y, f y * g y ∂K q.1) (calls (tally K f) k (θ, 0)) := by
    have := prob_calls (measurable_tally hK hp hf) (prob_tally hp hf) k (θ, 0)
    exact Integrable.of_bound (hfg.comp measurable_fst).aestronglyMeasurable _
      (ae_of_all _ fun q => abs_integral_mul_bdd hp hf hC h2 hg hB q.1)
  have hi3 : Integrable (fun y => f y * g y) (calls K (k + 1) θ) := by
    have := prob_calls hK hp (k + 1) θ
    exact Integrable.mul_bdd (c := B) (integrable_of_sq hf (integrable_sq_calls hK hp hf hC h2 θ k))
      hg.aestronglyMeasurable (ae_of_all _ hB)
  have hG : Measurable fun q : Θ × ℝ => q.2 * g q.1 := by fun_prop
  rw [cross, integral_tally hK hp hf θ hG (integrable_total_mul hK hp hf hC h2 θ hg hB (k + 1))]
  simp only [integral_add_mul hp hf hC h2 hg hB]
  rw [integral_add hi1 hi2, integral_fst hK hp hf θ k hfg, cross]
  congr 1
  rw [calls] at hi3 ⊢
  rw [integral_bind_of_integrable hK hi3]

/-- Second moment of the running total. -/
noncomputable def totalSq (K : Θ → Measure Θ) (f : Θ → ℝ) (θ : Θ) (k : ℕ) : ℝ :=
  ∫ q, q.2 ^ 2 ∂calls (tally K f) k (θ, 0)

include hp hf hC h2 in
theorem mean_abs_le (x : Θ) : |∫ y, f y ∂K x| ≤ C.toReal + 1 := by
  have h := abs_integral_mul_bdd hp hf hC h2 (g := fun _ => 1) measurable_const (B := 1) (by simp) x
  simpa using h

include hK hp hf hC h2 in
theorem totalSq_succ (k : ℕ) : totalSq K f θ (k + 1) =
    totalSq K f θ k + 2 * cross K f θ k (fun x => ∫ y, f y ∂K x) + ∫ y, f y ^ 2 ∂calls K (k + 1) θ := by
  have hg := measurable_mean hK hf
  have hB := mean_abs_le hp hf hC h2
  have hsq : Measurable fun x => ∫ y, f y ^ 2 ∂K x := measurable_mean hK (hf.pow_const 2)
  have hi0 := integrable_total_sq hK hp hf hC h2 θ k
  have hi1 := integrable_total_mul hK hp hf hC h2 θ hg hB k
  have hi2 : Integrable (fun q : Θ × ℝ => ∫ y, f y ^ 2 ∂K q.1) (calls (tally K f) k (θ, 0)) := by
    have := prob_calls (measurable_tally hK hp hf) (prob_tally hp hf) k (θ, 0)
    refine Integrable.of_bound (hsq.comp measurable_fst).aestronglyMeasurable C.toReal
      (ae_of_all _ fun q => ?_)
    rw [Real.norm_eq_abs, abs_of_nonneg (integral_nonneg fun y => sq_nonneg _)]
    exact integral_sq_le hf hC h2 q.1
  have hi3 := integrable_sq_calls hK hp hf hC h2 θ k
  have hG : Measurable fun q : Θ × ℝ => q.2 ^ 2 := by fun_prop
  have hin : ∀ q : Θ × ℝ, ∫ x, (q.2 + f x) ^ 2 ∂K q.1 =
      q.2 ^ 2 + 2 * (q.2 * ∫ y, f y ∂K q.1) + ∫ y, f y ^ 2 ∂K q.1 := by
    intro q
    have := hp q.1
    have j2 := integrable_sq hf hC h2 q.1
    have j1 := integrable_of_sq hf j2
    have e : ∀ x, (q.2 + f x) ^ 2 = q.2 ^ 2 + 2 * q.2 * f x + f x ^ 2 := fun x => by ring
    simp only [e]
    rw [integral_add (f := fun x => q.2 ^ 2 + 2 * q.2 * f x) ((integrable_const _).add (j1.const_mul _))
      j2, integral_add (integrable_const _) (j1.const_mul _), integral_const_mul, integral_const,
      probReal_univ, one_smul]
    ring
  rw [totalSq, integral_tally hK hp hf θ hG (integrable_total_sq hK hp hf hC h2 θ (k + 1))]
  simp only [hin]
  rw [integral_add (f := fun q : Θ × ℝ => q.2 ^ 2 + 2 * (q.2 * ∫ y, f y ∂K q.1))
    (hi0.add (hi1.const_mul 2)) hi2, integral_add hi0 (hi1.const_mul 2), integral_const_mul,
    integral_fst hK hp hf θ k hsq, cross, totalSq]
  congr 1
  rw [calls] at hi3 ⊢
  rw [integral_bind_of_integrable hK hi3]

include hK hp hf hC h2 in
theorem cross_ahead_succ {g : Θ → ℝ} (hg : Measurable g) {B : ℝ} (hB : ∀ x, |g x| ≤ B) (k j : ℕ) {t : ℝ}
    (ht : 0 < t) : |cross K f θ (k + 1) (ahead K g j)| ≤ |cross K f θ k (ahead K g (j + 1))| +
      (t * C.toReal + spread K g θ (k + 1) j / t) := by
  have e : (fun x => ∫ y, ahead K g j y ∂K x) = ahead K g (j + 1) :=
    funext fun x => (ahead_succ hK hp hg hB j x).symm
  rw [cross_succ hK hp hf hC h2 θ (measurable_ahead hK hg j) (ahead_le hK hp hB j) k, e]
  refine (abs_add_le _ _).trans (add_le_add le_rfl ?_)
  exact abs_integral_mul_le hK hp hf hC h2 θ (measurable_ahead hK hg j) (ahead_le hK hp hB j) k ht

omit hK hp in
theorem cross_zero {g : Θ → ℝ} (hg : Measurable g) : cross K f θ 0 g = 0 := by
  have hG : Measurable fun q : Θ × ℝ => q.2 * g q.1 := by fun_prop
  rw [cross, calls, integral_dirac' _ _ hG.stronglyMeasurable, zero_mul]

include hK hp hf hC h2 in
theorem cross_bound {g : Θ → ℝ} (hg : Measurable g) {B : ℝ} (hB : ∀ x, |g x| ≤ B) {t : ℝ} (ht : 0 < t)
    (k j i : ℕ) : |cross K f θ k (ahead K g (j + i))| ≤
      k * (t * C.toReal + spread K g θ (k + i) j / t) := by
  induction k generalizing i with
  | zero => rw [cross_zero θ (measurable_ahead hK hg _)]; simp
  | succ k ih =>
    refine (cross_ahead_succ hK hp hf hC h2 θ hg hB k (j + i) ht).trans ?_
    have h1 := ih (i + 1)
    have h3 := spread_add hK hp hg hB θ (k + 1) j i
    have e : k + (i + 1) = k + 1 + i := by omega
    rw [e, ← add_assoc] at h1
    have h4 : spread K g θ (k + 1) (j + i) / t ≤ spread K g θ (k + 1 + i) j / t := by gcongr
    push_cast
    linarith

include hK hp hf hC h2 in
theorem cross_bound' {g : Θ → ℝ} (hg : Measurable g) {B : ℝ} (hB : ∀ x, |g x| ≤ B) (k j i : ℕ) :
    |cross K f θ (k + i) (ahead K g j)| ≤
      |cross K f θ k (ahead K g (j + i))| + i * (C.toReal + B ^ 2) := by
  induction i generalizing j with
  | zero => simp
  | succ i ih =>
    rw [← add_assoc]
    refine (cross_ahead_succ hK hp hf hC h2 θ hg hB (k + i) j one_pos).trans ?_
    have h1 := ih (j + 1)
    have e : j + 1 + i = j + (i + 1) := by omega
    rw [e] at h1
    have h3 : spread K g θ (k + i + 1) j ≤ B ^ 2 := by
      have := prob_calls hK hp (k + i + 1) θ
      have h := norm_integral_le_of_norm_le_const (μ := calls K (k + i + 1) θ)
        (f := fun y => ahead K g j y ^ 2) (ae_of_all _ fun y => sq_abs_le (ahead_le hK hp hB j y))
      rw [probReal_univ, mul_one] at h
      exact (le_abs_self _).trans h
    push_cast
    rw [one_mul, div_one]
    linarith

/-- A sequence whose increments are eventually below every multiple of the index is `o(k²)`. -/
theorem tendsto_div_sq {m : ℕ → ℝ} (h0 : ∀ k, 0 ≤ m k)
    (h : ∀ ε > 0, ∃ N, ∀ k ≥ N, m (k + 1) ≤ m k + ε * (k + 1)) :
    Tendsto (fun k : ℕ => m k / (k : ℝ) ^ 2) atTop (𝓝 0) := by
  rw [Metric.tendsto_atTop]
  intro ε hε
  obtain ⟨N, hN⟩ := h (ε / 2) (by positivity)
  have hb : ∀ k, m (N + k) ≤ m N + ε / 2 * ((N + k : ℕ) : ℝ) ^ 2 := by
    intro k
    induction k with
    | zero => have : 0 ≤ ε / 2 * ((N + 0 : ℕ) : ℝ) ^ 2 := by positivity
              simpa using this
    | succ k ih =>
      have h1 := hN (N + k) (by omega)
      rw [← add_assoc]
      push_cast at *
      have h3 : (0 : ℝ) ≤ N + k := by positivity
      nlinarith
  have hc : Tendsto (fun k : ℕ => m N / (k : ℝ) ^ 2) atTop (𝓝 0) :=
    tendsto_const_nhds.div_atTop ((tendsto_pow_atTop two_ne_zero).comp tendsto_natCast_atTop_atTop)
  obtain ⟨M, hM⟩ := Metric.tendsto_atTop.1 hc (ε / 2) (by positivity)
  refine ⟨max (max N M) 1, fun k hk => ?_⟩
  have hkN : N ≤ k := le_trans (le_trans (le_max_left _ _) (le_max_left _ _)) hk
  have hkM : M ≤ k := le_trans (le_trans (le_max_right _ _) (le_max_left _ _)) hk
  have hk1 : (1 : ℝ) ≤ k := by exact_mod_cast le_trans (le_max_right _ _) hk
  have h1 := hb (k - N)
  rw [Nat.add_sub_cancel' hkN] at h1
  have h4 := hM k hkM
  rw [Real.dist_eq, sub_zero] at h4 ⊢
  rw [abs_of_nonneg (div_nonneg (h0 k) (by positivity))]
  have h5 : m k / (k : ℝ) ^ 2 ≤ m N / (k : ℝ) ^ 2 + ε / 2 := by
    rw [div_add' _ _ _ (by positivity)]
    gcongr
  linarith [le_abs_self (m N / (k : ℝ) ^ 2)]

include hK hp hf hC h2 in
/-- Mean square convergence for a function with expectation 0 under the limit. -/
theorem totalSq_div_tendsto {π : Measure Θ} [IsProbabilityMeasure π]
    (hθ : ∀ S, MeasurableSet S → Tendsto (fun k => calls K k θ S) atTop (𝓝 (π S)))
    (hae : ∀ᵐ x ∂π, ∀ S, MeasurableSet S → Tendsto (fun k => calls K k x S) atTop (𝓝 (π S)))
    (hf0 : ∫ x, ∫ y, f y ∂K x ∂π = 0) :
    Tendsto (fun k : ℕ => totalSq K f θ k / (k : ℝ) ^ 2) atTop (𝓝 0) := by
  have hg := measurable_mean hK hf
  have hB := mean_abs_le hp hf hC h2
  set g : Θ → ℝ := fun x => ∫ y, f y ∂K x with hgdef
  set B : ℝ := C.toReal + 1 with hBdef
  have hC0 : 0 ≤ C.toReal := ENNReal.toReal_nonneg
  -- the mean squares under the limit vanish
  have hlim : Tendsto (fun j => ∫ x, ahead K g j x ^ 2 ∂π) atTop (𝓝 0) := by
    have h := tendsto_integral_of_dominated_convergence (μ := π) (F := fun j x => ahead K g j x ^ 2)
      (f := fun _ => (0 : ℝ)) (fun _ => B ^ 2)
      (fun j => ((measurable_ahead hK hg j).pow_const 2).aestronglyMeasurable) (integrable_const _)
      (fun j => ae_of_all _ fun x => sq_abs_le (ahead_le hK hp hB j x)) (by
        filter_upwards [hae] with x hx
        have h := tendsto_integral_of_events (fun k => prob_calls hK hp k x) hx hg hB
        rw [hf0] at h
        have h3 := h.pow 2
        rw [zero_pow two_ne_zero] at h3
        exact h3)
    simpa using h
  refine tendsto_div_sq (fun k => integral_nonneg fun q => sq_nonneg _) fun ε hε => ?_
  obtain ⟨t, ht, htC⟩ : ∃ t : ℝ, 0 < t ∧ t * C.toReal ≤ ε / 8 := by
    refine ⟨ε / 8 / (C.toReal + 1), by positivity, ?_⟩
    rw [div_mul_eq_mul_div, div_le_iff₀ (by positivity)]
    have : 0 ≤ ε / 8 := by positivity
    nlinarith
  obtain ⟨j, hj⟩ := (hlim.eventually (gt_mem_nhds (show (0 : ℝ) < ε * t / 16 by positivity))).exists
  have hsp : Tendsto (fun k => spread K g θ k j) atTop (𝓝 (∫ x, ahead K g j x ^ 2 ∂π)) :=
    tendsto_integral_of_events (fun k => prob_calls hK hp k θ) hθ
      ((measurable_ahead hK hg j).pow_const 2) (fun x => sq_abs_le (ahead_le hK hp hB j x))
  obtain ⟨N, hN⟩ := eventually_atTop.1 (hsp.eventually (gt_mem_nhds
    (show ∫ x, ahead K g j x ^ 2 ∂π < ε * t / 8 by
      have : 0 < ε * t := by positivity
      linarith)))
  obtain ⟨M, hM⟩ := exists_nat_gt ((2 * (j * (C.toReal + B ^ 2)) + C.toReal) / (ε / 2))
  rw [div_lt_iff₀ (by positivity)] at hM
  refine ⟨N + M + j, fun k hk => ?_⟩
  obtain ⟨l, rfl⟩ : ∃ l, k = l + j := ⟨k - j, by omega⟩
  have hlN : N ≤ l := by omega
  have hlM : M ≤ l + j := by omega
  rw [totalSq_succ hK hp hf hC h2 θ]
  have e0 : (fun x => ∫ y, f y ∂K x) = ahead K g 0 := (ahead_zero hg).symm
  rw [e0]
  have b1 := cross_bound' hK hp hf hC h2 θ hg hB l 0 j
  have b2 := cross_bound hK hp hf hC h2 θ hg hB ht l j 0
  rw [zero_add] at b1
  rw [add_zero, add_zero] at b2
  have b3 : spread K g θ l j / t ≤ ε / 8 := by
    rw [div_le_iff₀ ht]
    have := (hN l hlN).le
    linarith
  have b4 := integral_sq_calls_le hK hp hf hC h2 θ (l + j)
  have b5 : (l : ℝ) * (t * C.toReal + spread K g θ l j / t) ≤ l * (ε / 4) := by
    gcongr
    linarith
  have b6 := le_abs_self (cross K f θ (l + j) (ahead K g 0))
  have b7 : (M : ℝ) ≤ ((l + j : ℕ) : ℝ) := by exact_mod_cast hlM
  have b8 : (M : ℝ) * (ε / 2) ≤ ((l + j : ℕ) : ℝ) * (ε / 2) := by gcongr
  push_cast at *
  have hj0 : (0 : ℝ) ≤ j * ε := by positivity
  linarith

end MeanSquare

/-! ### Convergence in probability -/

theorem calls_tally_sub {K : Θ → Measure Θ} (hK : Measurable K) (hp : ∀ θ, IsProbabilityMeasure (K θ))
    {f : Θ → ℝ} (hf : Measurable f) (m : ℝ) (θ : Θ) (k : ℕ) :
    calls (tally K fun x => f x - m) k (θ, 0) =
      (calls (tally K f) k (θ, 0)).map fun q => (q.1, q.2 - k * m) := by
  have hm : ∀ k : ℕ, Measurable fun q : Θ × ℝ => (q.1, q.2 - k * m) := fun k => by fun_prop
  have hT := measurable_tally hK hp hf
  have hT' := measurable_tally hK hp (f := fun x => f x - m) (hf.sub_const m)
  induction k with
  | zero => rw [calls, calls, Measure.map_dirac' (hm 0)]; simp
  | succ k ih =>
    rw [calls, calls, map_bind hT.aemeasurable (hm (k + 1)), ih, Measure.bind, Measure.bind,
      Measure.map_map hT' (hm k)]
    congr 2
    funext q
    rw [Function.comp_apply, tally, tally, Measure.map_map (hm (k + 1)) (measurable_pair hf _)]
    congr 1
    funext x
    simp only [Function.comp_apply, Prod.mk.injEq, true_and]
    push_cast
    ring

theorem Runs.tally {D : Set Θ} {K K' : Θ → Measure Θ} (r : Runs D K K') {f : Θ → ℝ} (hf : Measurable f) :
    Runs (Prod.fst ⁻¹' D) (tally K f) (tally K' f) where
  meas := measurable_tally r.meas r.prob hf
  prob := prob_tally r.prob hf
  eq q hq := by rw [Verif.tally, Verif.tally, r.eq q.1 hq]
  stays q := by
    rw [Verif.tally]
    exact (ae_map_iff (measurable_pair hf _).aemeasurable (measurable_fst r.measD)).2 (r.stays q.1)
  measD := measurable_fst r.measD

/-- The measurable family can be chosen constant outside the good states. -/
theorem Runs.outside {D : Set Θ} {K K' : Θ → Measure Θ} (r : Runs D K K') (θ : Θ) [DecidablePred (· ∈ D)] :
    Runs D K fun x => if x ∈ D then K' x else K' θ where
  meas := Measurable.ite r.measD r.meas measurable_const
  prob x := by
    split_ifs
    exacts [r.prob _, r.prob _]
  eq x hx := by rw [if_pos hx, r.eq x hx]
  stays x := by
    split_ifs
    exacts [r.stays _, r.stays _]
  measD := r.measD

theorem sub_sq_lintegral {ν : Measure Θ} [IsProbabilityMeasure ν] {f : Θ → ℝ} (hf : Measurable f) {C : ℝ≥0∞}
    (h : ∫⁻ y, ENNReal.ofReal (f y ^ 2) ∂ν ≤ C) (m : ℝ) :
    ∫⁻ y, ENNReal.ofReal ((f y - m) ^ 2) ∂ν ≤ 2 * C + 2 * ENNReal.ofReal (m ^ 2) := by
  calc ∫⁻ y, ENNReal.ofReal ((f y - m) ^ 2) ∂ν
      ≤ ∫⁻ y, (2 * ENNReal.ofReal (f y ^ 2) + 2 * ENNReal.ofReal (m ^ 2)) ∂ν := by
        refine lintegral_mono fun y => ?_
        rw [← ENNReal.ofReal_ofNat, ← ENNReal.ofReal_mul (by norm_num),
          ← ENNReal.ofReal_mul (by norm_num), ← ENNReal.ofReal_add (by positivity) (by positivity)]
        exact ENNReal.ofReal_le_ofReal (by nlinarith [sq_nonneg (f y + m)])
    _ = 2 * (∫⁻ y, ENNReal.ofReal (f y ^ 2) ∂ν) + 2 * ENNReal.ofReal (m ^ 2) := by
        rw [lintegral_add_right _ measurable_const, lintegral_const, measure_univ, mul_one,
          lintegral_const_mul _ (by fun_prop)]
    _ ≤ _ := by gcongr

/-- If the laws of repeated calls converge to `π`, the averages of a function with bounded second moment
after one call converge to its expectation under `π`. -/
theorem Runs.averageConverges {D : Set Θ} {K K' : Θ → Measure Θ} (r : Runs D K K') {π : Measure Θ}
    [IsProbabilityMeasure π] (hc : ConvergesFrom D π K) {f : Θ → ℝ} (hf : Measurable f) {C : ℝ≥0∞}
    (hC : C ≠ ∞) (h2 : ∀ x ∈ D, ∫⁻ y, ENNReal.ofReal (f y ^ 2) ∂K x ≤ C) :
    AverageConverges D K f (∫ x, f x ∂π) := by
  classical
  intro θ hθ ε hε
  have r2 := r.outside θ
  set L : Θ → Measure Θ := fun x => if x ∈ D then K' x else K' θ with hL
  have hLC : ∀ x, ∫⁻ y, ENNReal.ofReal (f y ^ 2) ∂L x ≤ C := by
    intro x
    by_cases hx : x ∈ D
    · rw [← r2.eq x hx]
      exact h2 x hx
    · have e : L x = K θ := by rw [hL, r.eq θ hθ]; exact if_neg hx
      rw [e]
      exact h2 θ hθ
  have hcL : ∀ x ∈ D, ∀ S, MeasurableSet S → Tendsto (fun k => calls L k x S) atTop (𝓝 (π S)) := by
    intro x hx S hS
    simpa only [r2.calls_eq hx] using hc x hx S hS
  have hst : π.bind L = π := (stationary_of_tendsto r2.meas r2.prob (hcL θ hθ)).2
  have hD : ∀ᵐ x ∂π, x ∈ D := by
    rw [← hst]
    exact ae_bind r2.meas.aemeasurable r2.measD (ae_of_all _ r2.stays)
  set m := ∫ x, f x ∂π with hm
  have hf' : Measurable fun x => f x - m := hf.sub_const m
  have hCf : ∀ x, ∫⁻ y, ENNReal.ofReal ((f y - m) ^ 2) ∂L x ≤ 2 * C + 2 * ENNReal.ofReal (m ^ 2) :=
    fun x => by
      have := r2.prob x
      exact sub_sq_lintegral hf (hLC x) m
  have hC' : 2 * C + 2 * ENNReal.ofReal (m ^ 2) ≠ ∞ :=
    ENNReal.add_ne_top.2 ⟨ENNReal.mul_ne_top (by simp) hC, ENNReal.mul_ne_top (by simp) (by simp)⟩
  have hif : Integrable f π := by
    refine integrable_of_sq hf ⟨(hf.pow_const 2).aestronglyMeasurable, (hasFiniteIntegral_iff_ofReal
      (ae_of_all _ fun y => sq_nonneg (f y))).2 ?_⟩
    rw [← hst, Measure.lintegral_bind r2.meas.aemeasurable (by fun_prop)]
    refine (lintegral_mono hLC).trans_lt ?_
    rw [lintegral_const, measure_univ, mul_one]
    exact hC.lt_top
  have hf0 : ∫ x, ∫ y, (f y - m) ∂L x ∂π = 0 := by
    rw [← integral_bind_of_integrable r2.meas (g := fun y => f y - m)
      (by rw [hst]; exact hif.sub (integrable_const m)), hst, integral_sub hif (integrable_const m)]
    simp [hm]
  have hms := totalSq_div_tendsto r2.meas r2.prob hf' hC' hCf θ (hcL θ hθ)
    (by filter_upwards [hD] with x hx using hcL x hx) hf0
  have hle : ∀ k : ℕ, averageLaw K f k θ {a | ε ≤ |a - m|} ≤
      ENNReal.ofReal (totalSq L (fun x => f x - m) θ k / (k : ℝ) ^ 2 / ε ^ 2) ∨ k = 0 := by
    intro k
    rcases Nat.eq_zero_or_pos k with rfl | hk
    · exact Or.inr rfl
    refine Or.inl ?_
    have hk0 : (0 : ℝ) < k := by exact_mod_cast hk
    have hmeas : MeasurableSet {a : ℝ | ε ≤ |a - m|} :=
      measurableSet_le measurable_const (by fun_prop)
    have hdiv : Measurable fun q : Θ × ℝ => q.2 / (k : ℝ) := by fun_prop
    have hsub : Measurable fun q : Θ × ℝ => (q.1, q.2 - k * m) := by fun_prop
    have hset : MeasurableSet {q : Θ × ℝ | (ε * k) ^ 2 ≤ q.2 ^ 2} :=
      measurableSet_le measurable_const (by fun_prop)
    have e1 : averageLaw K f k θ {a | ε ≤ |a - m|} =
        calls (Verif.tally L fun x => f x - m) k (θ, 0) {q | (ε * k) ^ 2 ≤ q.2 ^ 2} := by
      rw [averageLaw, (r2.tally hf).calls_eq hθ k, calls_tally_sub r2.meas r2.prob hf,
        Measure.map_apply hdiv hmeas, Measure.map_apply hsub hset]
      congr 1
      ext q
      simp only [Set.mem_preimage, Set.mem_ofPred_eq]
      rw [← sq_abs (q.2 - k * m), sq_le_sq₀ (by positivity) (abs_nonneg _)]
      have e : q.2 - k * m = (q.2 / k - m) * k := by field_simp
      rw [e, abs_mul, abs_of_pos hk0, mul_le_mul_iff_left₀ hk0]
    rw [e1]
    have hch := mul_meas_ge_le_lintegral (μ := calls (Verif.tally L fun x => f x - m) k (θ, 0))
      (f := fun q : Θ × ℝ => ENNReal.ofReal (q.2 ^ 2)) (by fun_prop) (ENNReal.ofReal ((ε * k) ^ 2))
    rw [← ofReal_integral_eq_lintegral_ofReal (integrable_total_sq r2.meas r2.prob hf' hC' hCf θ k)
      (ae_of_all _ fun q => sq_nonneg q.2)] at hch
    have e2 : {q : Θ × ℝ | ENNReal.ofReal ((ε * k) ^ 2) ≤ ENNReal.ofReal (q.2 ^ 2)} =
        {q : Θ × ℝ | (ε * k) ^ 2 ≤ q.2 ^ 2} := by
      ext q
      exact ENNReal.ofReal_le_ofReal_iff (sq_nonneg _)
    rw [e2, mul_comm, ← ENNReal.le_div_iff_mul_le (Or.inl (ENNReal.ofReal_pos.2 (by positivity)).ne')
      (Or.inl ENNReal.ofReal_ne_top),
      ← ENNReal.ofReal_div_of_pos (by positivity)] at hch
    refine hch.trans (ENNReal.ofReal_le_ofReal (le_of_eq ?_))
    rw [totalSq]
    field_simp
  have ht : Tendsto (fun k : ℕ => ENNReal.ofReal
      (totalSq L (fun x => f x - m) θ k / (k : ℝ) ^ 2 / ε ^ 2)) atTop (𝓝 0) := by
    have := ENNReal.tendsto_ofReal (hms.div_const (ε ^ 2))
    simpa using this
  refine tendsto_of_tendsto_of_tendsto_of_le_of_le' tendsto_const_nhds ht
    (Eventually.of_forall fun k => zero_le) ?_
  filter_upwards [eventually_ge_atTop 1] with k hk
  exact (hle k).resolve_right (by omega)

end Verif
