import Verif.Prob.GammaBeta
import Verif.Prob.PGParam

/-!
# The posterior of a beta-binomial model with a random parameter of the prior

Spec and lemmas: the marginal of the parameter in the joint posterior is not its prior.
-/

open MeasureTheory ProbabilityTheory Filter Set
open scoped ENNReal

namespace Verif.Hier

/-- Spec.  The probability of `y` successes in `n` trials. -/
noncomputable def binomLik (n y : ℕ) (p : ℝ) : ℝ≥0∞ :=
  ENNReal.ofReal (n.choose y * p ^ y * (1 - p) ^ (n - y))

/-- Spec.  A density of a law on the positive numbers that is positive there. -/
structure PosDensity (h : ℝ → ℝ≥0∞) : Prop where
  meas : Measurable h
  one : ∫⁻ t, h t = 1
  zero : ∀ t, t ≤ 0 → h t = 0
  pos : ∀ t, 0 < t → h t ≠ 0

/-- Spec.  The joint density of `theta`, with density `h`, of `p ~ Beta(theta, b)` and of `y` successes in `n`
trials with probability `p`, at the pair `q = (theta, p)`. -/
noncomputable def jointDensity (h : ℝ → ℝ≥0∞) (b : ℝ) (n y : ℕ) (q : ℝ × ℝ) : ℝ≥0∞ :=
  h q.1 * betaPDF q.1 b q.2 * binomLik n y q.2

/-- Spec.  The posterior of `theta` and `p`. -/
noncomputable def posterior (h : ℝ → ℝ≥0∞) (b : ℝ) (n y : ℕ) : Measure (ℝ × ℝ) :=
  bayes volume (jointDensity h b n y)

/-- The probability of the observation given `theta`. -/
noncomputable def marg (b : ℝ) (n y : ℕ) (t : ℝ) : ℝ :=
  n.choose y * beta (t + y) (b + (n - y : ℕ)) / beta t b

theorem measurable_binomLik (n y : ℕ) : Measurable (binomLik n y) := by
  unfold binomLik
  fun_prop

theorem binomLik_pos {n y : ℕ} (hy : y ≤ n) {p : ℝ} (h0 : 0 < p) (h1 : p < 1) : binomLik n y p ≠ 0 := by
  have : 0 < (n.choose y : ℝ) := by exact_mod_cast Nat.choose_pos hy
  have : 0 < 1 - p := by linarith
  rw [binomLik, ne_eq, ENNReal.ofReal_eq_zero, not_le]
  positivity

theorem betaPDF_pos {a b p : ℝ} (ha : 0 < a) (hb : 0 < b) (h0 : 0 < p) (h1 : p < 1) : betaPDF a b p ≠ 0 := by
  have : 0 < 1 - p := by linarith
  have := beta_pos ha hb
  rw [betaPDF_eq, if_pos ⟨h0, h1⟩, ne_eq, ENNReal.ofReal_eq_zero, not_le]
  positivity

theorem marg_pos {b : ℝ} {n y : ℕ} (hb : 0 < b) (hy : y ≤ n) {t : ℝ} (ht : 0 < t) : 0 < marg b n y t := by
  have h1 : 0 < (n.choose y : ℝ) := by exact_mod_cast Nat.choose_pos hy
  have h2 := beta_pos ht hb
  have h3 : 0 < beta (t + y) (b + (n - y : ℕ)) := beta_pos (by positivity) (by positivity)
  unfold marg
  positivity

theorem beta_mul_lik {b : ℝ} {n y : ℕ} (hb : 0 < b) (hy : y ≤ n) {t : ℝ} (ht : 0 < t) (p : ℝ) :
    betaPDF t b p * binomLik n y p =
      ENNReal.ofReal (marg b n y t) * betaPDF (t + y) (b + (n - y : ℕ)) p := by
  rw [betaPDF_eq, betaPDF_eq]
  by_cases hp : 0 < p ∧ p < 1
  · have hq : 0 < 1 - p := by linarith [hp.2]
    have hp0 := hp.1
    have h2 := beta_pos ht hb
    have h3 : 0 < beta (t + y) (b + (n - y : ℕ)) := beta_pos (by positivity) (by positivity)
    rw [if_pos hp, if_pos hp, binomLik, ← ENNReal.ofReal_mul (by positivity),
      ← ENNReal.ofReal_mul (marg_pos hb hy ht).le]
    congr 1
    have e1 : p ^ (t + y - 1) = p ^ (t - 1) * p ^ y := by
      rw [← Real.rpow_natCast p y, ← Real.rpow_add hp0]
      congr 1
      ring
    have e2 : (1 - p) ^ (b + (n - y : ℕ) - 1) = (1 - p) ^ (b - 1) * (1 - p) ^ (n - y) := by
      rw [← Real.rpow_natCast (1 - p) (n - y), ← Real.rpow_add hq]
      congr 1
      ring
    rw [e1, e2, marg]
    field_simp
  · simp [hp]

theorem lintegral_beta_lik {b : ℝ} {n y : ℕ} (hb : 0 < b) (hy : y ≤ n) {t : ℝ} (ht : 0 < t) :
    ∫⁻ p, betaPDF t b p * binomLik n y p = ENNReal.ofReal (marg b n y t) := by
  have h1 : 0 < t + y := by positivity
  have h2 : 0 < b + (n - y : ℕ) := by positivity
  simp only [beta_mul_lik hb hy ht]
  rw [lintegral_const_mul _ (measurable_betaPDF _ _), lintegral_betaPDF_eq_one h1 h2, mul_one]

variable {h : ℝ → ℝ≥0∞} {b : ℝ} {n y : ℕ}

theorem jointDensity_eq (hh : PosDensity h) (q : ℝ × ℝ) : jointDensity h b n y q =
    h q.1 * betaPDF (posOr1 q.1) b q.2 * binomLik n y q.2 := by
  unfold jointDensity
  rcases le_or_gt q.1 0 with hq | hq
  · simp only [hh.zero _ hq, zero_mul]
  · rw [posOr1, if_pos hq]

theorem measurable_betaPDF_param :
    Measurable fun q : (ℝ × ℝ) × ℝ => betaPDF (posOr1 q.1.1) (posOr1 q.1.2) q.2 := by
  have h1 : Measurable fun q : (ℝ × ℝ) × ℝ => posOr1 q.1.1 :=
    measurable_posOr1.comp (measurable_fst.comp measurable_fst)
  have h2 : Measurable fun q : (ℝ × ℝ) × ℝ => posOr1 q.1.2 :=
    measurable_posOr1.comp (measurable_snd.comp measurable_fst)
  have h3 : Measurable fun q : (ℝ × ℝ) × ℝ => Real.Gamma (posOr1 q.1.1) :=
    measurable_Gamma_posOr1.comp (measurable_fst.comp measurable_fst)
  have h4 : Measurable fun q : (ℝ × ℝ) × ℝ => Real.Gamma (posOr1 q.1.2) :=
    measurable_Gamma_posOr1.comp (measurable_snd.comp measurable_fst)
  have h5 : Measurable fun q : (ℝ × ℝ) × ℝ => Real.Gamma (posOr1 q.1.1 + posOr1 q.1.2) := by
    have e : (fun q : (ℝ × ℝ) × ℝ => Real.Gamma (posOr1 q.1.1 + posOr1 q.1.2)) =
        fun q => Real.Gamma (posOr1 (posOr1 q.1.1 + posOr1 q.1.2)) := funext fun q => by
      rw [posOr1_of_pos (add_pos (posOr1_pos q.1.1) (posOr1_pos q.1.2))]
    rw [e]
    exact measurable_Gamma_posOr1.comp (h1.add h2)
  refine Measurable.ennreal_ofReal (Measurable.ite ?_ ?_ measurable_const)
  · exact (measurableSet_lt measurable_const measurable_snd).inter
      (measurableSet_lt measurable_snd measurable_const)
  · unfold beta
    fun_prop

theorem measurable_jointDensity (hh : PosDensity h) (hb : 0 < b) : Measurable (jointDensity h b n y) := by
  have e : jointDensity h b n y = fun q => h q.1 * betaPDF (posOr1 q.1) b q.2 * binomLik n y q.2 :=
    funext (jointDensity_eq hh)
  rw [e]
  have hm : Measurable fun q : ℝ × ℝ => betaPDF (posOr1 q.1) b q.2 := by
    have := measurable_betaPDF_param.comp
      (show Measurable fun q : ℝ × ℝ => ((q.1, b), q.2) by fun_prop)
    simpa only [Function.comp_def, posOr1_of_pos hb] using this
  exact ((hh.meas.comp measurable_fst).mul hm).mul
    ((measurable_binomLik n y).comp measurable_snd)

theorem lintegral_jointDensity (hh : PosDensity h) (hb : 0 < b) (hy : y ≤ n) (t : ℝ) :
    ∫⁻ p, jointDensity h b n y (t, p) = h t * ENNReal.ofReal (marg b n y t) := by
  unfold jointDensity
  rcases le_or_gt t 0 with ht | ht
  · simp [hh.zero _ ht]
  · simp only [mul_assoc]
    rw [lintegral_const_mul _ (f := fun p => betaPDF t b p * binomLik n y p)
      ((measurable_betaPDF t b).mul (measurable_binomLik n y)),
      lintegral_beta_lik hb hy ht]

/-- Every binomial probability is at most one. -/
theorem binomLik_le_one (hy : y ≤ n) {p : ℝ} (h0 : 0 < p) (h1 : p < 1) : binomLik n y p ≤ 1 := by
  have hq : 0 < 1 - p := by linarith
  rw [binomLik, ENNReal.ofReal_le_one]
  have hs : ∑ m ∈ Finset.range (n + 1), p ^ m * (1 - p) ^ (n - m) * (n.choose m : ℝ) = 1 := by
    rw [← add_pow, add_sub_cancel, one_pow]
  calc (n.choose y : ℝ) * p ^ y * (1 - p) ^ (n - y) = p ^ y * (1 - p) ^ (n - y) * n.choose y := by ring
    _ ≤ ∑ m ∈ Finset.range (n + 1), p ^ m * (1 - p) ^ (n - m) * (n.choose m : ℝ) :=
      Finset.single_le_sum (f := fun m => p ^ m * (1 - p) ^ (n - m) * (n.choose m : ℝ))
        (fun m _ => by positivity) (Finset.mem_range.2 (Nat.lt_succ_of_le hy))
    _ = 1 := hs

theorem marg_le_one (hb : 0 < b) (hy : y ≤ n) {t : ℝ} (ht : 0 < t) : ENNReal.ofReal (marg b n y t) ≤ 1 := by
  rw [← lintegral_beta_lik hb hy ht, ← lintegral_betaPDF_eq_one ht hb]
  refine lintegral_mono fun p => ?_
  by_cases hp : 0 < p ∧ p < 1
  · exact mul_le_of_le_one_right' (binomLik_le_one hy hp.1 hp.2)
  · simp [betaPDF_eq, hp]

theorem evidence (hh : PosDensity h) (hb : 0 < b) (hy : y ≤ n) :
    ∫⁻ q, jointDensity h b n y q = ∫⁻ t, h t * ENNReal.ofReal (marg b n y t) := by
  rw [Measure.volume_eq_prod, lintegral_prod _ (measurable_jointDensity hh hb).aemeasurable]
  exact lintegral_congr fun t => lintegral_jointDensity hh hb hy t

theorem measurable_mul_marg (hh : PosDensity h) (hb : 0 < b) (hy : y ≤ n) :
    Measurable fun t => h t * ENNReal.ofReal (marg b n y t) := by
  have := (measurable_jointDensity (n := n) (y := y) hh hb).lintegral_prod_right' (ν := volume)
  simpa only [lintegral_jointDensity hh hb hy] using this

/-- The posterior is well defined. -/
theorem posterior_defined (hh : PosDensity h) (hb : 0 < b) (hy : y ≤ n) :
    BayesDefined volume (jointDensity h b n y) := by
  rw [BayesDefined, evidence hh hb hy]
  constructor
  · intro h0
    rw [lintegral_eq_zero_iff (measurable_mul_marg hh hb hy)] at h0
    have : ∫⁻ t, h t = 0 := by
      rw [lintegral_eq_zero_iff hh.meas]
      filter_upwards [h0] with t ht
      rcases le_or_gt t 0 with h1 | h1
      · exact hh.zero t h1
      · rcases mul_eq_zero.1 ht with h2 | h2
        · exact h2
        · exact absurd (ENNReal.ofReal_eq_zero.1 h2) (not_le.2 (marg_pos hb hy h1))
    rw [hh.one] at this
    exact one_ne_zero this
  · refine ne_top_of_le_ne_top ENNReal.one_ne_top ?_
    rw [← hh.one]
    refine lintegral_mono fun t => ?_
    rcases le_or_gt t 0 with h1 | h1
    · simp [hh.zero t h1]
    · exact mul_le_of_le_one_right' (marg_le_one hb hy h1)

/-- The posterior law of `theta`. -/
theorem map_fst_posterior (hh : PosDensity h) (hb : 0 < b) (hy : y ≤ n) :
    (posterior h b n y).map Prod.fst = volume.withDensity fun t =>
      (∫⁻ q, jointDensity h b n y q)⁻¹ * (h t * ENNReal.ofReal (marg b n y t)) := by
  ext S hS
  rw [Measure.map_apply measurable_fst hS, posterior, bayes, Measure.smul_apply,
    withDensity_apply _ (measurable_fst hS), withDensity_apply _ hS,
    lintegral_const_mul _ (measurable_mul_marg hh hb hy), smul_eq_mul]
  congr 1
  rw [show (Prod.fst ⁻¹' S : Set (ℝ × ℝ)) = S ×ˢ univ from by ext; simp, Measure.volume_eq_prod,
    ← Measure.prod_restrict, lintegral_prod _ (measurable_jointDensity hh hb).aemeasurable,
    Measure.restrict_univ]
  exact lintegral_congr fun t => lintegral_jointDensity hh hb hy t

/-- The posterior gives probability one to positive `theta` and `p` between zero and one. -/
theorem ae_posterior (hh : PosDensity h) (hb : 0 < b) :
    ∀ᵐ q ∂posterior h b n y, 0 < q.1 ∧ 0 < q.2 ∧ q.2 < 1 := by
  refine Measure.ae_smul_measure ?_ _
  rw [ae_withDensity_iff (measurable_jointDensity hh hb)]
  refine ae_of_all _ fun q hq => ?_
  unfold jointDensity at hq
  refine ⟨?_, ?_⟩
  · by_contra hn
    exact hq (by simp [hh.zero _ (not_lt.1 hn)])
  · by_contra hn
    exact hq (by simp [betaPDF_eq, hn])

theorem beta_succ {a c : ℝ} (ha : 0 < a) (hc : 0 < c) : beta (a + 1) c = beta a c * (a / (a + c)) := by
  have h1 := Real.Gamma_pos_of_pos (add_pos ha hc)
  unfold beta
  rw [Real.Gamma_add_one ha.ne', show a + 1 + c = a + c + 1 by ring,
    Real.Gamma_add_one (add_pos ha hc).ne']
  have := (add_pos ha hc).ne'
  field_simp

theorem marg_succ (hb : 0 < b) (hy : y ≤ n) {t : ℝ} (ht : 0 < t) (e : marg b n y (t + 1) = marg b n y t) :
    y * b = t * (n - y : ℕ) := by
  have h1 : 0 < (n.choose y : ℝ) := by exact_mod_cast Nat.choose_pos hy
  have h2 := beta_pos ht hb
  have h3 : 0 < b + (n - y : ℕ) := by positivity
  have h4 : 0 < t + y := by positivity
  have h5 := beta_pos h4 h3
  unfold marg at e
  rw [show t + 1 + (y : ℝ) = t + y + 1 by ring, beta_succ h4 h3, beta_succ ht hb] at e
  have h6 : t + y + (b + (n - y : ℕ)) ≠ 0 := by positivity
  have h7 : t + b ≠ 0 := by positivity
  field_simp at e
  linarith

/-- The posterior law of `theta` is not its prior. -/
theorem map_fst_posterior_ne (hh : PosDensity h) (hb : 0 < b) (hy : y ≤ n) (hn : 0 < n) :
    (posterior h b n y).map Prod.fst ≠ volume.withDensity h := by
  intro e
  have hd := posterior_defined (n := n) (y := y) hh hb hy
  rw [map_fst_posterior hh hb hy, withDensity_eq_iff_of_sigmaFinite
    ((measurable_mul_marg hh hb hy).const_mul _).aemeasurable hh.meas.aemeasurable] at e
  have hfin : ∀ᵐ t, h t < ∞ := ae_lt_top hh.meas (by rw [hh.one]; exact ENNReal.one_ne_top)
  have h1 : ∀ᵐ t : ℝ, 0 < t → ENNReal.ofReal (marg b n y t) = ∫⁻ q, jointDensity h b n y q := by
    filter_upwards [e, hfin] with t h1 h2 h3
    have h4 := hh.pos t h3
    have h5 : h t * ((∫⁻ q, jointDensity h b n y q)⁻¹ * ENNReal.ofReal (marg b n y t)) = h t * 1 := by
      rw [mul_one, ← mul_assoc, mul_comm (h t), mul_assoc]
      exact h1
    have h6 := (ENNReal.mul_right_inj h4 h2.ne).1 h5
    rw [mul_comm, ← div_eq_mul_inv, ENNReal.div_eq_one_iff hd.1 hd.2] at h6
    exact h6
  have h2 : ∀ᵐ t : ℝ, 0 < t + 1 → ENNReal.ofReal (marg b n y (t + 1)) = ∫⁻ q, jointDensity h b n y q :=
    (measurePreserving_add_right volume (1 : ℝ)).quasiMeasurePreserving.ae h1
  have h3 : ∀ᵐ t : ℝ, 0 < t → y * b = t * (n - y : ℕ) := by
    filter_upwards [h1, h2] with t h1 h2 ht
    refine marg_succ hb hy ht ?_
    have h4 := (h2 (by linarith)).trans (h1 ht).symm
    rwa [ENNReal.ofReal_eq_ofReal_iff (marg_pos hb hy (by linarith)).le (marg_pos hb hy ht).le] at h4
  have pick : ∀ a c : ℝ, 0 ≤ a → a < c → ∃ t, a < t ∧ t < c ∧ y * b = t * (n - y : ℕ) := by
    intro a c ha hac
    by_contra hne
    push Not at hne
    have h4 : volume (Ioo a c) = 0 := by
      refine measure_mono_null (fun t ht => ?_) (ae_iff.1 h3)
      simp only [mem_ofPred_eq, Classical.not_imp]
      exact ⟨lt_of_le_of_lt ha ht.1, hne t ht.1 ht.2⟩
    rw [Real.volume_Ioo, ENNReal.ofReal_eq_zero] at h4
    linarith
  obtain ⟨t, -, ht, e1⟩ := pick 0 1 le_rfl one_pos
  obtain ⟨s, hs, -, e2⟩ := pick 1 2 zero_le_one one_lt_two
  have h5 : (s - t) * (n - y : ℕ) = 0 := by linarith
  rcases mul_eq_zero.1 h5 with h6 | h6
  · linarith
  · rw [h6, mul_zero] at e1
    rcases mul_eq_zero.1 e1 with h7 | h7
    · have h8 : y = 0 := by exact_mod_cast h7
      have h9 : n - y = 0 := by exact_mod_cast h6
      omega
    · exact hb.ne' h7

end Verif.Hier
