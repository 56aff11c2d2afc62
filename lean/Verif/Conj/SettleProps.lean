import Verif.Conj.OrderProps
import Verif.Prob.Settle

/-!
# C98 for the conjugate samplers: with more data the draws settle on the true value
-/

open MeasureTheory ProbabilityTheory Filter
open scoped ENNReal Topology

namespace Verif.Conj

open Verif.Expr

/-- **C98, proportions.** Data from a binomial law with any number of trials `n` and any true success
probability `θ₀`: averaged over the data, the beta-binomial step draws a value at distance `ε` or more from
`θ₀` with probability at most `(a + b + 1/2) / ((a + b + n) ε²)`, which vanishes as `n` grows. -/
theorem C98_beta_binomial_settles {rng Y latent post : Expr}
    (h : betaBinomialFinder rng Y = some [(latent, post)])
    {sh : SShape} {rY sY dY nE pE : Expr} (hY : Y = .app (.rv .binomial) sh [rY, sY, dY, nE, pE])
    {n : ℕ} {ρ : ℕ → Env} (hn : ∀ y ≤ n, evalE (ρ y) nE = some (n : ℝ)) (hy : ∀ y ≤ n, ρ y Y = y) {a b : ℝ}
    (ha : 0 < a) (hb : 0 < b) (hprior : ∀ y ≤ n, lawAt (ρ y) latent = some (betaMeasure a b)) :
    ∃ law : ℕ → Measure ℝ, (∀ y ≤ n, lawAt (ρ y) post = some (law y)) ∧
      ∀ θ₀ : ℝ, 0 ≤ θ₀ → θ₀ ≤ 1 → ∀ ε : ℝ, 0 < ε →
        ∑ y ∈ Finset.range (n + 1), (n.choose y * θ₀ ^ y * (1 - θ₀) ^ (n - y)) *
            (law y).real {θ | ε ≤ |θ - θ₀|} ≤ (a + b + 1 / 2) / ((a + b + n) * ε ^ 2) := by
  refine ⟨fun y => betaMeasure (a + y) (b + n - y),
    fun y hyn => beta_binomial_step_law h hY (ρ y) (hn y hyn) (hy y hyn) hyn ha hb (hprior y hyn),
    fun θ₀ h0 h1 ε hε => ?_⟩
  have hs := binomial_mean_spread ha hb h0 h1 n
  rw [← div_div, le_div_iff₀ (by positivity), Finset.sum_mul]
  refine le_trans (Finset.sum_le_sum fun y hyr => ?_) hs
  have hyn : (y : ℝ) ≤ n := by exact_mod_cast Nat.lt_succ_iff.1 (Finset.mem_range.1 hyr)
  have hf := beta_far_le (a := a + y) (b := b + n - y) (by positivity) (by linarith) θ₀ hε
  have e : a + (y : ℝ) + (b + n - y) = a + b + n := by ring
  rw [e, le_div_iff₀ (by positivity)] at hf
  rw [mul_assoc]
  exact mul_le_mul_of_nonneg_left hf (mul_nonneg (mul_nonneg (Nat.cast_nonneg _) (pow_nonneg h0 _))
    (pow_nonneg (by linarith) _))

/-- Any number of trials with a prior that favours large probabilities. -/
example (n : ℕ) : ∃ (post : Expr) (law : ℕ → Measure ℝ),
    (∀ y ≤ n, lawAt (fun _ => (y : ℝ)) post = some (law y)) ∧
      ∀ θ₀ : ℝ, 0 ≤ θ₀ → θ₀ ≤ 1 → ∀ ε : ℝ, 0 < ε →
        ∑ y ∈ Finset.range (n + 1), (n.choose y * θ₀ ^ y * (1 - θ₀) ^ (n - y)) *
            (law y).real {θ | ε ≤ |θ - θ₀|} ≤ (2 + 1 + 1 / 2) / ((2 + 1 + n) * ε ^ 2) := by
  obtain ⟨law, h1, h2⟩ := C98_beta_binomial_settles (rng := exRng 0) (Y := exBinomial n (exBeta 2 1))
    (latent := exBeta 2 1) rfl rfl (n := n) (ρ := fun y _ => (y : ℝ)) (fun y _ => by simp [exNum, evalE])
    (fun y _ => rfl) two_pos one_pos (fun y _ => by simp [exBeta, lawAt, exNum, evalE, rvLaw])
  exact ⟨_, law, h1, h2⟩

/-- The beta laws of the negative-binomial step along a series of growing data. -/
theorem beta_settles {a b p₀ : ℝ} (ha : 0 < a) (hb : 0 < b) (hp : 0 < p₀) {n : ℕ → ℝ}
    {y : ℕ → ℕ} (hn0 : ∀ k, 0 < n k) (hn : Tendsto n atTop atTop)
    (hyn : Tendsto (fun k => (y k : ℝ) / n k) atTop (𝓝 ((1 - p₀) / p₀))) {ε : ℝ} (hε : 0 < ε) :
    Tendsto (fun k => (betaMeasure (a + y k) (b + n k)).real {x | ε ≤ |x - (1 - p₀)|}) atTop (𝓝 0) := by
  have hinv : Tendsto (fun k => (n k)⁻¹) atTop (𝓝 0) := tendsto_inv_atTop_zero.comp hn
  have hsum : Tendsto (fun k => (a + y k) / n k + (b + n k) / n k) atTop (𝓝 (1 / p₀)) := by
    have e : ∀ k, (a + y k) / n k + (b + n k) / n k = (a + b) * (n k)⁻¹ + (y k : ℝ) / n k + 1 := fun k => by
      have := (hn0 k).ne'
      field_simp
      ring
    have h1 := ((hinv.const_mul (a + b)).add hyn).add_const 1
    rw [mul_zero, zero_add, show (1 - p₀) / p₀ + 1 = 1 / p₀ by field_simp; ring] at h1
    exact h1.congr fun k => (e k).symm
  have hmean : Tendsto (fun k => (a + y k) / (a + y k + (b + n k))) atTop (𝓝 (1 - p₀)) := by
    have h1 : Tendsto (fun k => (a + y k) / n k) atTop (𝓝 ((1 - p₀) / p₀)) := by
      have e : ∀ k, (a + y k) / n k = a * (n k)⁻¹ + (y k : ℝ) / n k := fun k => by
        rw [add_div, div_eq_mul_inv a]
      have h1 := (hinv.const_mul a).add hyn
      rw [mul_zero, zero_add] at h1
      exact h1.congr fun k => (e k).symm
    have h2 := h1.div hsum (by positivity)
    rw [show (1 - p₀) / p₀ / (1 / p₀) = 1 - p₀ by field_simp] at h2
    refine h2.congr fun k => ?_
    have := (hn0 k).ne'
    rw [Pi.div_apply]
    field_simp
  have hvar : Tendsto (fun k => 1 / (4 * (a + y k + (b + n k)))) atTop (𝓝 0) := by
    have h1 := hinv.mul (hsum.inv₀ (by positivity))
    rw [zero_mul] at h1
    have h2 := h1.const_mul (1 / 4)
    rw [mul_zero] at h2
    refine h2.congr fun k => ?_
    have := hn0 k
    have : (0 : ℝ) ≤ y k := Nat.cast_nonneg _
    field_simp
  have hb' : Tendsto (fun k => (1 / (4 * (a + y k + (b + n k))) +
      ((a + y k) / (a + y k + (b + n k)) - (1 - p₀)) ^ 2) / ε ^ 2) atTop (𝓝 0) := by
    have h1 := (hvar.add ((hmean.sub_const (1 - p₀)).pow 2)).div_const (ε ^ 2)
    rwa [sub_self, zero_pow two_ne_zero, add_zero, zero_div] at h1
  refine squeeze_zero (fun k => measureReal_nonneg) (fun k => ?_) hb'
  have := hn0 k
  exact beta_far_le (by positivity) (by positivity) _ hε

/-- **C98 (partial), negative-binomial counts.** When the observed counts behave like those of a
negative-binomial law with true success probability `p₀` and a growing number of successes (`y / n` tends
to `(1 - p₀) / p₀`), the draws settle, but on `1 - p₀`; so they settle on the truth exactly when it is one
half. -/
theorem C98_beta_nbinom_settles_iff_partial {rng latent : Expr} {Y post : ℕ → Expr}
    (h : ∀ k, betaNegBinomialFinder rng (Y k) = some [(latent, post k)])
    {shY : ℕ → SShape} {rY sY dY nE pE : ℕ → Expr}
    (hY : ∀ k, Y k = .app (.rv .nbinom) (shY k) [rY k, sY k, dY k, nE k, pE k])
    {ρ : ℕ → Env} {n : ℕ → ℝ} (hn : ∀ k, evalE (ρ k) (nE k) = some (n k)) (hn0 : ∀ k, 0 < n k)
    (hread : ∀ k, ¬ Reads latent (nE k)) {y : ℕ → ℕ} (hy : ∀ k, ρ k (Y k) = y k) {prior : Measure ℝ}
    (hprior : ∀ k, lawAt (ρ k) latent = some prior) (hgrow : Tendsto n atTop atTop) {p₀ : ℝ} (hp : 0 < p₀)
    (hdata : Tendsto (fun k => (y k : ℝ) / n k) atTop (𝓝 ((1 - p₀) / p₀))) :
    ∃ law : ℕ → Measure ℝ, (∀ k, lawAt (ρ k) (post k) = some (law k)) ∧
      (∀ ε : ℝ, 0 < ε → Tendsto (fun k => (law k).real {x | ε ≤ |x - (1 - p₀)|}) atTop (𝓝 0)) ∧
      ((∀ ε : ℝ, 0 < ε → Tendsto (fun k => (law k).real {x | ε ≤ |x - p₀|}) atTop (𝓝 0)) ↔ p₀ = 1 / 2) := by
  obtain ⟨a, b, ha, hb, rfl, -⟩ := C14_beta_nbinom_exact_iff_partial (h 0) (hY 0) (ρ 0) (hn 0) (hn0 0)
    (hread 0) (hy 0) (hprior 0)
  have hlaw : ∀ k, lawAt (ρ k) (post k) = some (betaMeasure (a + y k) (b + n k)) := fun k => by
    obtain ⟨a', b', ha', hb', he, -, hl, -⟩ := C14_beta_nbinom_exact_iff_partial (h k) (hY k) (ρ k) (hn k)
      (hn0 k) (hread k) (hy k) (hprior k)
    obtain ⟨rfl, rfl⟩ := betaMeasure_inj ha hb ha' hb' he
    exact hl
  have hset := fun (ε : ℝ) (hε : 0 < ε) => beta_settles ha hb hp hn0 hgrow hdata hε
  refine ⟨_, hlaw, hset, fun hall => ?_, fun he ε hε => ?_⟩
  · by_contra hne
    have hd : 0 < |1 - 2 * p₀| / 2 := by
      have : 1 - 2 * p₀ ≠ 0 := fun h0 => hne (by linarith)
      positivity
    have h1 := (hall _ hd).add (hset _ hd)
    rw [add_zero] at h1
    refine absurd (ge_of_tendsto' h1 fun k => (?_ : (1 : ℝ) ≤ _)) (by norm_num)
    have hk := hn0 k
    have := isProbabilityMeasureBeta (α := a + y k) (β := b + n k) (by positivity) (by positivity)
    refine le_trans probReal_univ.ge (le_trans (measureReal_mono (μ := betaMeasure (a + y k) (b + n k)) (s₂ := {x | |1 - 2 * p₀| / 2 ≤ |x - p₀|} ∪
      {x | |1 - 2 * p₀| / 2 ≤ |x - (1 - p₀)|}) fun x _ => ?_) (measureReal_union_le _ _))
    by_contra hx
    have hx1 : ¬ |1 - 2 * p₀| / 2 ≤ |x - p₀| := fun h0 => hx (.inl h0)
    have hx2 : ¬ |1 - 2 * p₀| / 2 ≤ |x - (1 - p₀)| := fun h0 => hx (.inr h0)
    have h3 := abs_sub (x - p₀) (x - (1 - p₀))
    rw [show x - p₀ - (x - (1 - p₀)) = 1 - 2 * p₀ by ring] at h3
    linarith
  · have : p₀ = 1 - p₀ := by linarith
    rw [this]
    have := hset ε hε
    rw [he] at this
    rw [he]
    norm_num at this ⊢
    exact this

/-- Three failures per success: the true probability is a quarter, the draws settle on three quarters. -/
theorem C98_beta_nbinom_settles_violated (rng : Expr) : ∃ post : ℕ → Expr,
    (∀ k : ℕ, betaNegBinomialFinder rng (exNbinom (k + 1 : ℕ) (exBeta 1 1)) = some [(exBeta 1 1, post k)]) ∧
      ∃ law : ℕ → Measure ℝ, (∀ k, lawAt (fun _ => ((3 * (k + 1) : ℕ) : ℝ)) (post k) = some (law k)) ∧
        (∀ ε : ℝ, 0 < ε → Tendsto (fun k => (law k).real {x | ε ≤ |x - 3 / 4|}) atTop (𝓝 0)) ∧
        ¬ ∀ ε : ℝ, 0 < ε → Tendsto (fun k => (law k).real {x | ε ≤ |x - 1 / 4|}) atTop (𝓝 0) := by
  refine ⟨_, fun k => rfl, ?_⟩
  obtain ⟨law, h1, h2, h3⟩ := C98_beta_nbinom_settles_iff_partial (rng := rng) (latent := exBeta 1 1)
    (Y := fun k => exNbinom (k + 1 : ℕ) (exBeta 1 1)) (post := _) (fun k => rfl) (fun k => rfl)
    (ρ := fun k _ => ((3 * (k + 1) : ℕ) : ℝ)) (n := fun k => ((k + 1 : ℕ) : ℝ))
    (fun k => by simp [exNum, evalE]) (fun k => by positivity) (fun k h => by cases h)
    (y := fun k => 3 * (k + 1)) (fun k => rfl) (prior := betaMeasure 1 1)
    (fun k => by simp [exBeta, lawAt, exNum, evalE, rvLaw])
    (tendsto_natCast_atTop_atTop.comp (tendsto_add_atTop_nat 1)) (p₀ := 1 / 4) (by norm_num)
    (tendsto_const_nhds.congr fun k => by
      have : ((k : ℝ) + 1) ≠ 0 := by positivity
      push_cast
      field_simp
      norm_num)
  refine ⟨law, h1, fun ε hε => ?_, fun hall => ?_⟩
  · have := h2 ε hε
    norm_num at this ⊢
    exact this
  · have := h3.1 hall
    norm_num at this

end Verif.Conj
