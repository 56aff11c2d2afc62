import Verif.Rev.Mean

/-!
# Thinned and longer runs in equilibrium
-/

open MeasureTheory ProbabilityTheory
open scoped ENNReal

namespace Verif

variable {Θ : Type*} [MeasurableSpace Θ]

/-- Spec.  Of `k N` successive draws, the mean of all is at least as precise as the mean of every `k`-th. -/
def ThinningNeverHelps (π : Measure Θ) (K : Θ → Measure Θ) : Prop :=
  ∀ (Ω : Type) [MeasurableSpace Ω] (P : Measure Ω) (Z : ℕ → Ω → Θ), IsProbabilityMeasure P →
    IsEquilibriumRun π K P Z → ∀ f : Θ → ℝ, MemLp f 2 π → ∀ k N : ℕ, 0 < k → 0 < N →
      variance (fun ω => (∑ i ∈ Finset.range (k * N), f (Z i ω)) / (k * N : ℕ)) P ≤
        variance (fun ω => (∑ i ∈ Finset.range N, f (Z (k * i) ω)) / N) P

/-- Spec.  The mean of more successive draws is at least as precise as the mean of fewer. -/
def MoreDrawsHelp (π : Measure Θ) (K : Θ → Measure Θ) : Prop :=
  ∀ (Ω : Type) [MeasurableSpace Ω] (P : Measure Ω) (Z : ℕ → Ω → Θ), IsProbabilityMeasure P →
    IsEquilibriumRun π K P Z → ∀ f : Θ → ℝ, MemLp f 2 π → ∀ N N' : ℕ, 0 < N → N ≤ N' →
      variance (fun ω => (∑ i ∈ Finset.range N', f (Z i ω)) / N') P ≤
        variance (fun ω => (∑ i ∈ Finset.range N, f (Z i ω)) / N) P

variable {Ω : Type*} [MeasurableSpace Ω] {π : Measure Θ} {K K' : Θ → Measure Θ} {P : Measure Ω}
  {Z : ℕ → Ω → Θ}

/-- The pairs of values at a given distance have the same law everywhere in the run. -/
theorem IsEquilibriumRun.pair_shift [IsProbabilityMeasure P] (h : IsEquilibriumRun π K P Z)
    (hst : Stationary π K) (i k : ℕ) :
    P.map (fun ω => (Z i ω, Z (i + k) ω)) = P.map (fun ω => (Z 0 ω, Z (0 + k) ω)) := by
  have h' := h.congr hst hst.1.ae_eq_mk
  have hst' := hst.congr_ae hst.1.ae_eq_mk
  have hm : ∀ i, Measurable fun ω => (Z i ω, Z (i + k) ω) := fun i => (h.meas i).prodMk (h.meas _)
  have := fun i => Measure.isProbabilityMeasure_map (μ := P) (hm i).aemeasurable
  refine Measure.ext_prod fun {S T} hS hT => ?_
  have key : ∀ i, P.map (fun ω => (Z i ω, Z (i + k) ω)) (S ×ˢ T) =
      ∫⁻ θ in S, ∫⁻ x, T.indicator 1 x ∂calls (hst.1.mk K) k θ ∂π := by
    intro i
    have h1 := h'.lintegral_lag hst.1.measurable_mk hst' i k hS (g := T.indicator 1)
      (measurable_one.indicator hT)
    have e : (fun ω => T.indicator (1 : Θ → ℝ≥0∞) (Z (i + k) ω)) = (Z (i + k) ⁻¹' T).indicator 1 := by
      funext ω
      rfl
    rw [e, lintegral_indicator_one (h.meas _ hT), Measure.restrict_apply (h.meas _ hT)] at h1
    rw [Measure.map_apply (hm i) (hS.prod hT), ← h1, Set.inter_comm]
    rfl
  rw [key i, key 0]

theorem IsEquilibriumRun.cov_shift [IsProbabilityMeasure P] (h : IsEquilibriumRun π K P Z)
    (hst : Stationary π K) {f : Θ → ℝ} (hf : MemLp f 2 π) (i j d : ℕ) :
    cov[fun ω => f (Z (i + d) ω), fun ω => f (Z (j + d) ω); P] =
      cov[fun ω => f (Z i ω), fun ω => f (Z j ω); P] := by
  have hm : ∀ i k, Measurable fun ω => (Z i ω, Z (i + k) ω) := fun i k => (h.meas i).prodMk (h.meas _)
  have key : ∀ i k, cov[fun ω => f (Z i ω), fun ω => f (Z (i + k) ω); P] =
      cov[fun q => f q.1, fun q => f q.2; P.map fun ω => (Z i ω, Z (i + k) ω)] := by
    intro i k
    have h1 : AEStronglyMeasurable (fun q : Θ × Θ => f q.1) (P.map fun ω => (Z i ω, Z (i + k) ω)) := by
      refine AEStronglyMeasurable.comp_measurable (g := f) ?_ measurable_fst
      rw [Measure.map_map measurable_fst (hm i k)]
      exact (h.law hst i).symm ▸ hf.aestronglyMeasurable
    have h2 : AEStronglyMeasurable (fun q : Θ × Θ => f q.2) (P.map fun ω => (Z i ω, Z (i + k) ω)) := by
      refine AEStronglyMeasurable.comp_measurable (g := f) ?_ measurable_snd
      rw [Measure.map_map measurable_snd (hm i k)]
      exact (h.law hst (i + k)).symm ▸ hf.aestronglyMeasurable
    rw [covariance_map_fun h1 h2 (hm i k).aemeasurable]
  have shift : ∀ i k, cov[fun ω => f (Z i ω), fun ω => f (Z (i + k) ω); P] =
      cov[fun ω => f (Z 0 ω), fun ω => f (Z (0 + k) ω); P] := fun i k => by
    rw [key i k, key 0 k, h.pair_shift hst i k]
  rcases le_total i j with hij | hij
  · obtain ⟨k, rfl⟩ := Nat.exists_eq_add_of_le hij
    rw [shift i k, ← shift (i + d) k, add_right_comm]
  · obtain ⟨k, rfl⟩ := Nat.exists_eq_add_of_le hij
    rw [covariance_comm, add_right_comm, shift (j + d) k, ← shift j k, covariance_comm]

theorem cov_le_half [IsProbabilityMeasure P] {X Y : Ω → ℝ} (hX : MemLp X 2 P) (hY : MemLp Y 2 P) :
    cov[X, Y; P] ≤ (variance X P + variance Y P) / 2 := by
  have h1 := variance_nonneg (X - Y) P
  rw [variance_sub hX hY] at h1
  linarith

theorem sum_range_strides (g : ℕ → ℝ) (k N : ℕ) :
    ∑ i ∈ Finset.range (k * N), g i = ∑ j ∈ Finset.range k, ∑ i ∈ Finset.range N, g (k * i + j) := by
  induction N with
  | zero => simp
  | succ N ih =>
    rw [mul_add, mul_one, Finset.sum_range_add, ih, ← Finset.sum_add_distrib]
    exact Finset.sum_congr rfl fun j _ => (Finset.sum_range_succ _ _).symm

/-- Thinning never helps, whatever the step. -/
theorem thinningNeverHelps (hst : Stationary π K) : ThinningNeverHelps π K := by
  intro Ω _ P Z hP h f hf k N hk hN
  have hk' : (0 : ℝ) < k := by exact_mod_cast hk
  have hN' : (0 : ℝ) < N := by exact_mod_cast hN
  have hL : ∀ i, MemLp (fun ω => f (Z i ω)) 2 P := fun i => h.memLp hst hf i
  let T : ℕ → Ω → ℝ := fun j ω => (∑ i ∈ Finset.range N, f (Z (k * i + j) ω)) / N
  have hT : ∀ j, MemLp (T j) 2 P := fun j => by
    have := (memLp_finsetSum (Finset.range N) fun i _ => hL (k * i + j)).mul_const (N : ℝ)⁻¹
    simpa only [T, div_eq_mul_inv] using this
  have hv : ∀ j, variance (T j) P = variance (T 0) P := fun j => by
    simp only [T, div_eq_mul_inv]
    rw [variance_mul_const, variance_mul_const, variance_fun_sum' fun i _ => hL _,
      variance_fun_sum' fun i _ => hL _]
    congr 1
    refine Finset.sum_congr rfl fun a _ => Finset.sum_congr rfl fun b _ => ?_
    have := h.cov_shift hst hf (k * a) (k * b) j
    simpa using this
  have e : (fun ω => (∑ i ∈ Finset.range (k * N), f (Z i ω)) / (k * N : ℕ)) =
      fun ω => (∑ j ∈ Finset.range k, T j ω) * (k : ℝ)⁻¹ := by
    funext ω
    simp only [T]
    rw [sum_range_strides, ← Finset.sum_div, Nat.cast_mul, mul_comm (k : ℝ), div_mul_eq_div_div, ← div_eq_mul_inv]
  rw [e, variance_mul_const, variance_fun_sum' fun j _ => hT j]
  have hle : ∑ i ∈ Finset.range k, ∑ j ∈ Finset.range k, cov[T i, T j; P] ≤
      ∑ i ∈ Finset.range k, ∑ j ∈ Finset.range k, variance (T 0) P :=
    Finset.sum_le_sum fun i _ => Finset.sum_le_sum fun j _ => by
      have := cov_le_half (hT i) (hT j)
      rw [hv i, hv j] at this
      linarith
  have e0 : (fun ω => (∑ i ∈ Finset.range N, f (Z (k * i) ω)) / N) = T 0 := rfl
  rw [e0]
  calc _ ≤ (∑ i ∈ Finset.range k, ∑ j ∈ Finset.range k, variance (T 0) P) * ((k : ℝ)⁻¹) ^ 2 :=
        mul_le_mul_of_nonneg_right hle (sq_nonneg _)
    _ = variance (T 0) P := by
      simp only [Finset.sum_const, Finset.card_range, nsmul_eq_mul]
      field_simp

/-- The sum of the entries of the covariance matrix of `N + 1` values from that of `N` values. -/
theorem square_succ (c : ℕ → ℝ) (N : ℕ) :
    ∑ i ∈ Finset.range (N + 1), ∑ j ∈ Finset.range (N + 1), c (max i j - min i j) =
      (∑ i ∈ Finset.range N, ∑ j ∈ Finset.range N, c (max i j - min i j)) +
        (c 0 + 2 * ∑ d ∈ Finset.range N, c (d + 1)) := by
  have h1 : ∑ i ∈ Finset.range N, c (max i N - min i N) = ∑ d ∈ Finset.range N, c (d + 1) := by
    rw [← Finset.sum_range_reflect fun d => c (d + 1)]
    refine Finset.sum_congr rfl fun i hi => ?_
    have := Finset.mem_range.1 hi
    congr 1
    omega
  have h2 : ∑ i ∈ Finset.range N, c (max N i - min N i) = ∑ d ∈ Finset.range N, c (d + 1) := by
    rw [← h1]
    exact Finset.sum_congr rfl fun i _ => by rw [max_comm, min_comm]
  rw [Finset.sum_range_succ, Finset.sum_congr rfl fun i _ => Finset.sum_range_succ _ N,
    Finset.sum_add_distrib, Finset.sum_range_succ, h1, h2]
  simp only [max_self, min_self, Nat.sub_self]
  ring

/-- A nonincreasing sequence of covariances makes longer means more precise. -/
theorem square_mono {c : ℕ → ℝ} (hc : Antitone c) (N : ℕ) :
    (N : ℝ) ^ 2 * (∑ i ∈ Finset.range (N + 1), ∑ j ∈ Finset.range (N + 1), c (max i j - min i j)) ≤
      ((N : ℝ) + 1) ^ 2 * ∑ i ∈ Finset.range N, ∑ j ∈ Finset.range N, c (max i j - min i j) := by
  have hR : ∀ m : ℕ, (2 * m + 1 : ℝ) * c m ≤ c 0 + 2 * ∑ d ∈ Finset.range m, c (d + 1) := by
    intro m
    have h1 : (m : ℝ) * c m ≤ ∑ d ∈ Finset.range m, c (d + 1) := by
      have := Finset.card_nsmul_le_sum (Finset.range m) (fun d => c (d + 1)) (c m)
        fun d hd => hc (Finset.mem_range.1 hd)
      rwa [Finset.card_range, nsmul_eq_mul] at this
    have h2 : c m ≤ c 0 := hc (Nat.zero_le m)
    linarith
  have key : ∀ N : ℕ, (N : ℝ) ^ 2 * (c 0 + 2 * ∑ d ∈ Finset.range N, c (d + 1)) ≤
      (2 * N + 1) * ∑ i ∈ Finset.range N, ∑ j ∈ Finset.range N, c (max i j - min i j) := by
    intro N
    induction N with
    | zero => simp
    | succ N ih =>
      rw [square_succ, Finset.sum_range_succ]
      have h1 := hR N
      have h2 : c (N + 1) ≤ c N := hc (Nat.le_succ N)
      generalize (∑ i ∈ Finset.range N, ∑ j ∈ Finset.range N, c (max i j - min i j)) = A at *
      generalize (∑ d ∈ Finset.range N, c (d + 1)) = S at *
      push_cast
      have hN : (0 : ℝ) ≤ N := Nat.cast_nonneg N
      have h3 : (2 * N + 1 : ℝ) * c (N + 1) ≤ c 0 + 2 * S :=
        (mul_le_mul_of_nonneg_left h2 (by positivity)).trans h1
      refine le_of_mul_le_mul_left ?_ (show (0 : ℝ) < 2 * N + 1 by positivity)
      have h4 := mul_le_mul_of_nonneg_left ih (show (0 : ℝ) ≤ 2 * N + 3 by positivity)
      have h5 := mul_le_mul_of_nonneg_left h3 (show (0 : ℝ) ≤ 2 * ((N : ℝ) + 1) ^ 2 by positivity)
      nlinarith [h4, h5]
  rw [square_succ]
  have := key N
  nlinarith [this]

theorem moreDrawsHelp [IsProbabilityMeasure π] (hK : Measurable K) (hp : ∀ θ, IsProbabilityMeasure (K θ))
    (hst : Stationary π K) (hf : FadingCovariances π K) : MoreDrawsHelp π K := by
  intro Ω _ P Z hP h f hf2 N N' hN hNN
  obtain ⟨-, -, hanti, -⟩ := hf f hf2
  have hc : ∀ i j, cov[fun ω => f (Z i ω), fun ω => f (Z j ω); P] = autocov π K f (max i j - min i j) := by
    intro i j
    rcases le_total i j with hij | hij
    · have := h.cov_pair hK hp hst hf2 i (j - i)
      rw [Nat.add_sub_cancel' hij] at this
      rw [this, max_eq_right hij, min_eq_left hij]
    · have := h.cov_pair hK hp hst hf2 j (i - j)
      rw [Nat.add_sub_cancel' hij] at this
      rw [covariance_comm, this, max_eq_left hij, min_eq_right hij]
  have hv : ∀ N : ℕ, variance (fun ω => (∑ i ∈ Finset.range N, f (Z i ω)) / N) P =
      (∑ i ∈ Finset.range N, ∑ j ∈ Finset.range N, autocov π K f (max i j - min i j)) * ((N : ℝ)⁻¹) ^ 2 := by
    intro N
    simp only [div_eq_mul_inv]
    rw [variance_mul_const, variance_fun_sum' fun i _ => h.memLp hst hf2 i]
    simp only [hc]
  induction N', hNN using Nat.le_induction with
  | base => exact le_rfl
  | succ M hM ih =>
    refine le_trans ?_ ih
    rw [hv, hv]
    have hM' : (0 : ℝ) < M := by exact_mod_cast hN.trans_le hM
    have h1 := square_mono hanti M
    rw [inv_pow, inv_pow, ← div_eq_mul_inv, ← div_eq_mul_inv, div_le_div_iff₀ (by positivity) (by positivity)]
    push_cast
    linarith

theorem Runs.moreDrawsHelp {D : Set Θ} (r : Runs D K K') [IsProbabilityMeasure π] (hD : ∀ᵐ θ ∂π, θ ∈ D)
    (hst : Stationary π K) (hf : FadingCovariances π K') : MoreDrawsHelp π K := by
  have e : K =ᵐ[π] K' := by filter_upwards [hD] with θ hθ using r.eq θ hθ
  intro Ω _ P Z hP h
  exact Verif.moreDrawsHelp r.meas r.prob (hst.congr_ae e) hf Ω P Z hP (h.congr hst e)

end Verif
