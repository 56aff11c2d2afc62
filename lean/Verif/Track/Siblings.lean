import Verif.Track.Children
import Mathlib.MeasureTheory.Measure.WithDensityFinite

/-!
# C05: a latent with one conjugate child and other observed children
-/

open MeasureTheory ProbabilityTheory
open scoped ENNReal NNReal

namespace Verif.Track

open Verif Verif.Conj

/-- A law is its own posterior iff the likelihood is constant. -/
theorem bayes_eq_self_iff {Θ : Type*} [MeasurableSpace Θ] {μ : Measure Θ} [IsProbabilityMeasure μ]
    {L : Θ → ℝ≥0∞} (hL : Measurable L) (hd : BayesDefined μ L) :
    bayes μ L = μ ↔ ∃ k, L =ᵐ[μ] fun _ => k := by
  constructor
  · intro h
    refine ⟨∫⁻ θ, L θ ∂μ, ?_⟩
    have hw : μ.withDensity L = μ.withDensity fun _ => ∫⁻ θ, L θ ∂μ := by
      have h' : (∫⁻ θ, L θ ∂μ) • bayes μ L = (∫⁻ θ, L θ ∂μ) • μ := by rw [h]
      rw [withDensity_const, ← h', bayes, smul_smul, ENNReal.mul_inv_cancel hd.1 hd.2, one_smul]
    exact (withDensity_eq_iff hL.aemeasurable aemeasurable_const hd.2).1 hw
  · rintro ⟨k, hk⟩
    have hi : ∫⁻ θ, L θ ∂μ = k := by rw [lintegral_congr_ae hk]; simp
    rw [bayes, withDensity_congr_ae hk, withDensity_const, smul_smul, hi,
      ENNReal.inv_mul_cancel (hi ▸ hd.1) (hi ▸ hd.2), one_smul]

theorem firsts_append_cons {α σ : Type} [DecidableEq α] {v : Visit α σ} (hv : v.steps ≠ []) :
    ∀ {h₁ h₂ : List (Visit α σ)}, (∀ u ∈ h₁, u.key ≠ v.key) →
      ∃ a b, firsts (h₁ ++ v :: h₂) = a ++ v :: b ∧ a ⊆ h₁ ∧ b ⊆ h₂
  | [], h₂, _ => by
    refine ⟨[], (firsts h₂).filter fun u => u.key ≠ v.key, ?_, by simp, ?_⟩
    · rw [List.nil_append, firsts, if_neg hv]
      rfl
    · exact fun u hu => (firsts_sublist h₂).subset (List.mem_filter.1 hu).1
  | w :: h₁, h₂, hk => by
    obtain ⟨a, b, e, ha, hb⟩ := firsts_append_cons hv (h₁ := h₁) (h₂ := h₂)
      fun u hu => hk u (by simp [hu])
    rw [List.cons_append, firsts]
    split_ifs with hw
    · exact ⟨a, b, e, fun u hu => by simp [ha hu], hb⟩
    · have hwv : v.key ≠ w.key := fun h => hk w (by simp) h.symm
      refine ⟨w :: a.filter fun u => u.key ≠ w.key, b.filter fun u => u.key ≠ w.key, ?_, ?_, ?_⟩
      · rw [e, List.filter_append, List.filter_cons, if_pos (by simpa using hwv)]
        rfl
      · intro u hu
        rcases List.mem_cons.1 hu with rfl | hu
        · simp
        · exact List.mem_cons_of_mem _ (ha (List.mem_filter.1 hu).1)
      · exact fun u hu => hb (List.mem_filter.1 hu).1

/-- If exactly one call of a finder returns a step for `rv`, that step is taken. -/
theorem pick_single {α σ : Type} [DecidableEq α] {v : Visit α σ} {rv : α} {p : Nat × σ}
    (hv : stepsFor rv v = [p]) {h₁ h₂ : List (Visit α σ)} (hk : ∀ u ∈ h₁, u.key ≠ v.key)
    (hn : ∀ u ∈ h₁ ++ h₂, stepsFor rv u = []) :
    pick (run Tracker.empty (h₁ ++ v :: h₂)) rv = some p := by
  have hne : v.steps ≠ [] := by
    intro h
    simp [stepsFor, h] at hv
  obtain ⟨a, b, e, ha, hb⟩ := firsts_append_cons hne (h₂ := h₂) hk
  have h1 : a.flatMap (stepsFor rv) = [] := by
    rw [List.flatMap_eq_nil_iff]
    exact fun u hu => hn u (by simp [ha hu])
  have h2 : b.flatMap (stepsFor rv) = [] := by
    rw [List.flatMap_eq_nil_iff]
    exact fun u hu => hn u (by simp [hb hu])
  rw [C04_pick, e, List.flatMap_append, List.flatMap_cons, h1, h2, hv]
  rfl

/-- **C05, other children.** A latent with a beta prior has one child `c` on which the beta-binomial
finder fires; no other finder call of the search, in whatever order, returns a step for the latent.
Let `L` be the likelihood of everything else observed that depends on the latent.  The step taken has the
conditional law of the latent given *all* observations if and only if `L` does not depend on the latent
(is constant, almost everywhere under the prior).  Missing for the full property: every other model, where
the code is wrong (`C05_sibling_violated`). -/
theorem C05_sibling_iff_partial {ρ : Env} {latent : Expr} {c : Child} (hc : IsChild ρ latent c)
    {h₁ h₂ : List (Visit Expr Expr)} (hk : ∀ u ∈ h₁, u.key ≠ (0, c.Y))
    (hn : ∀ u ∈ h₁ ++ h₂, stepsFor latent u = [])
    {prior : Measure ℝ} (hprior : lawAt ρ latent = some prior) {L : ℝ → ℝ≥0∞} (hL : Measurable L)
    (hd : BayesDefined prior fun θ => likAt ρ latent c.Y c.y θ * L θ) :
    ∃ post, pick (run Tracker.empty (h₁ ++ ⟨0, c.Y, betaBinomialFinder c.rng c.Y⟩ :: h₂)) latent =
        some (0, post) ∧
      (lawAt ρ post = some (bayes prior fun θ => likAt ρ latent c.Y c.y θ * L θ) ↔
        ∃ k, L =ᵐ[prior] fun _ => k) := by
  obtain ⟨post, hp⟩ := hc.fires
  refine ⟨post, pick_single (by simp [stepsFor, Visit.steps, hp]) hk hn, ?_⟩
  obtain ⟨shY, rY, sY, dY, pE, hY⟩ := hc.shape
  obtain ⟨hdef, hlaw⟩ := C12_beta_binomial_exact hp hY ρ hc.trials hc.indep hc.obs hc.le hprior
  have hL' : ∃ sh r sz t aE bE, latent = .app (.rv .beta) sh [r, sz, t, aE, bE] := by
    have hp' := hp
    unfold betaBinomialFinder finder at hp'
    cases hq : betaBinomialPosterior c.rng c.Y with
    | none => simp [hq] at hp'
    | some q =>
      obtain ⟨_, _, _, _, _, _, _, _, _, _, _, hY', -⟩ := betaBinomialPosterior_some hq
      rw [hq, hY'] at hp'
      simp only [Expr.args?, Option.bind_some, List.getLast?, List.getLast_cons_cons,
        List.getLast_singleton, Option.some.injEq, List.cons.injEq, Prod.mk.injEq, and_true] at hp'
      exact ⟨_, _, _, _, _, _, hp'.1.symm⟩
  obtain ⟨sh, r, sz, t, aE, bE, hL'⟩ := hL'
  obtain ⟨a, b, ha, hb, ha0, hb0, rfl⟩ : ∃ a b, evalE ρ aE = some a ∧ evalE ρ bE = some b ∧ 0 < a ∧
      0 < b ∧ prior = betaMeasure a b := by
    rw [hL'] at hprior
    obtain ⟨x, z, h1, h2, h3, h4, h5⟩ := lawAt_beta_inv hprior
    exact ⟨x, z, h1, h2, h3, h4, h5⟩
  obtain ⟨-, hm, hform⟩ := child_law hc hL' ha hb ha0 hb0 hp
  -- the likelihood of the matched child vanishes nowhere on the support of the prior
  have hpos : ∀ᵐ θ ∂betaMeasure a b, likAt ρ latent c.Y c.y θ ≠ 0 := by
    filter_upwards [ae_mem_betaMeasure] with θ hθ
    rw [hform θ hθ.1 hθ.2, Ne, ENNReal.ofReal_eq_zero, not_le]
    have h1 : 0 < 1 - θ := by linarith [hθ.2]
    have hch : 0 < ((c.n.choose c.y : ℕ) : ℝ) := by exact_mod_cast Nat.choose_pos hc.le
    have := hθ.1
    positivity
  have hprob := isProbabilityMeasure_bayes hdef
  have hev : BayesDefined (bayes (betaMeasure a b) (likAt ρ latent c.Y c.y)) L := by
    have h1 : ∫⁻ θ, L θ ∂bayes (betaMeasure a b) (likAt ρ latent c.Y c.y) =
        (∫⁻ θ, likAt ρ latent c.Y c.y θ ∂betaMeasure a b)⁻¹ *
          ∫⁻ θ, likAt ρ latent c.Y c.y θ * L θ ∂betaMeasure a b := by
      rw [bayes, lintegral_smul_measure, smul_eq_mul, lintegral_withDensity_eq_lintegral_mul _ hm hL]
      rfl
    rw [BayesDefined, h1]
    exact ⟨mul_ne_zero (ENNReal.inv_ne_zero.2 hdef.2) hd.1,
      ENNReal.mul_ne_top (ENNReal.inv_ne_top.2 hdef.1) hd.2⟩
  rw [hlaw, Option.some.injEq, ← bayes_bayes hm hL hdef, eq_comm, bayes_eq_self_iff hL hev]
  have hae : ∀ P : ℝ → Prop, (∀ᵐ θ ∂bayes (betaMeasure a b) (likAt ρ latent c.Y c.y), P θ) ↔
      ∀ᵐ θ ∂betaMeasure a b, P θ := by
    intro P
    rw [bayes, Measure.ae_ennreal_smul_measure_iff (ENNReal.inv_ne_zero.2 hdef.2), ae_withDensity_iff hm]
    constructor
    · intro h
      filter_upwards [h, hpos] with θ h1 h2 using h1 h2
    · intro h
      filter_upwards [h] with θ h1 _ using h1
  constructor
  · rintro ⟨k, hk⟩
    exact ⟨k, (hae _).1 hk⟩
  · rintro ⟨k, hk⟩
    exact ⟨k, (hae _).2 hk⟩

/-! ## A violating model -/

/-- `poisson(p)` for the bias `p` of `exBeta`: a second child, for which there is no finder. -/
def exSibling : Expr := exPoisson (exBeta 2 1)

theorem lik_sibling (ρ : Env) (z : ℕ) : likAt ρ (exBeta 2 1) exSibling z =
    fun θ => massOf (rvLaw .poisson [θ]) (z : ℝ) := by
  funext θ
  rw [likAt, exSibling, exPoisson]
  have : evalE (Function.update ρ (exBeta 2 1) θ) (exBeta 2 1) = some θ := by
    conv_lhs => arg 2; rw [exBeta]
    rw [evalE, ← exBeta, Function.update_self]
  simp only [lawAt, List.mapM_cons, this, List.mapM_nil, Option.pure_def, Option.bind_eq_bind,
    Option.bind_some]

theorem lik_sibling_pos (ρ : Env) (z : ℕ) {θ : ℝ} (h : 0 < θ) :
    likAt ρ (exBeta 2 1) exSibling z θ =
      ENNReal.ofReal (1 / (Nat.factorial z) * θ ^ (z : ℝ) * Real.exp (-(1 * θ))) := by
  rw [lik_sibling]
  obtain ⟨μ, h1, h2⟩ := rvLaw_poisson h z
  simp only [h1, massOf, h2]

/-- The likelihood of a Poisson observation depends on the mean. -/
theorem lik_sibling_not_const (ρ : Env) (z : ℕ) :
    ¬ ∃ k, likAt ρ (exBeta 2 1) exSibling z =ᵐ[betaMeasure 2 1] fun _ => k := by
  rintro ⟨k, hk⟩
  have hae : ∀ᵐ θ ∂(volume.restrict (Set.Ioo (0 : ℝ) 1)),
      ENNReal.ofReal (1 / (Nat.factorial z) * θ ^ (z : ℝ) * Real.exp (-(1 * θ))) = k := by
    rw [betaMeasure, Filter.EventuallyEq, ae_withDensity_iff (measurable_betaPDF 2 1)] at hk
    rw [ae_restrict_iff' measurableSet_Ioo]
    filter_upwards [hk] with θ h hθ
    rw [← lik_sibling_pos ρ z hθ.1]
    apply h
    rw [betaPDF_of_pos_lt_one hθ.1 hθ.2, Ne, ENNReal.ofReal_eq_zero, not_le]
    have h1 : 0 < 1 - θ := by linarith [hθ.2]
    have := hθ.1
    have := beta_pos (α := 2) (β := 1) (by norm_num) (by norm_num)
    positivity
  have hcont : ContinuousOn (fun θ : ℝ =>
      ENNReal.ofReal (1 / (Nat.factorial z) * θ ^ (z : ℝ) * Real.exp (-(1 * θ)))) (Set.Ioo 0 1) := by
    refine (ENNReal.continuous_ofReal.comp ?_).continuousOn
    simp only [Real.rpow_natCast]
    fun_prop
  have heq := Measure.eqOn_open_of_ae_eq hae isOpen_Ioo hcont continuousOn_const
  have hz : (0 : ℝ) < 1 / (Nat.factorial z) := by positivity
  have step : ∀ x : ℝ, 0 < x → 2 * x < 1 → Real.exp x = 2 ^ z := by
    intro x hx hx2
    have h1 := (heq (show x ∈ Set.Ioo (0 : ℝ) 1 from ⟨hx, by linarith⟩)).trans
      (heq (show 2 * x ∈ Set.Ioo (0 : ℝ) 1 from ⟨by linarith, hx2⟩)).symm
    simp only [Real.rpow_natCast] at h1
    rw [ENNReal.ofReal_eq_ofReal_iff (by positivity) (by positivity)] at h1
    have h2 : Real.exp (-(1 * x)) = Real.exp x * Real.exp (-(1 * (2 * x))) := by
      rw [← Real.exp_add]
      ring_nf
    rw [h2, mul_pow] at h1
    have hp : 0 < 1 / (Nat.factorial z : ℝ) * x ^ z * Real.exp (-(1 * (2 * x))) := by positivity
    have h3 : (1 / (Nat.factorial z : ℝ) * x ^ z * Real.exp (-(1 * (2 * x)))) * Real.exp x =
        (1 / (Nat.factorial z : ℝ) * x ^ z * Real.exp (-(1 * (2 * x)))) * 2 ^ z := by
      linear_combination h1
    exact mul_left_cancel₀ hp.ne' h3
  have h1 := (step (1 / 4) (by norm_num) (by norm_num)).trans
    (step (1 / 8) (by norm_num) (by norm_num)).symm
  have := Real.exp_injective h1
  norm_num at this

/-- **C05 is violated by a second child without a finder.** `p ~ Beta(2, 1)`,
`Y ~ Binomial(3, p)`, `Z ~ Poisson(p)`, both observed: whatever was observed, and whichever of `Y` and
`Z` the search visits first, the step taken for `p` ignores `Z` and does not have the conditional law of
`p` given both. -/
theorem C05_sibling_violated {ρ : Env} {y z : ℕ} (hy : y ≤ 3) (oY : ρ (exChild 0 3 y).Y = y) :
    let vY : Visit Expr Expr := ⟨0, (exChild 0 3 y).Y, betaBinomialFinder (exRng 0) (exChild 0 3 y).Y⟩
    let vZ : List (Visit Expr Expr) := [⟨0, exSibling, betaBinomialFinder (exRng 1) exSibling⟩,
      ⟨1, exSibling, gammaPoissonFinder (exRng 2) exSibling⟩,
      ⟨2, exSibling, betaNegBinomialFinder (exRng 3) exSibling⟩]
    ∀ h, h = vY :: vZ ∨ h = vZ ++ [vY] →
      ∃ post prior, pick (run Tracker.empty h) (exBeta 2 1) = some (0, post) ∧
        lawAt ρ (exBeta 2 1) = some prior ∧
        BayesDefined prior (fun θ => likAt ρ (exBeta 2 1) (exChild 0 3 y).Y y θ *
          likAt ρ (exBeta 2 1) exSibling z θ) ∧
        lawAt ρ post ≠ some (bayes prior fun θ => likAt ρ (exBeta 2 1) (exChild 0 3 y).Y y θ *
          likAt ρ (exBeta 2 1) exSibling z θ) := by
  intro vY vZ h hh
  have hpr : lawAt ρ (exBeta 2 1) = some (betaMeasure 2 1) := by
    simp [exBeta, lawAt, exNum, evalE, rvLaw]
  have hc := isChild_ex oY hy
  obtain ⟨post₀, hp₀⟩ := hc.fires
  have hz : ∀ u ∈ vZ, stepsFor (exBeta 2 1) u = [] := by
    intro u hu
    simp only [vZ, List.mem_cons, List.not_mem_nil, or_false] at hu
    rcases hu with rfl | rfl | rfl <;> rfl
  have hkey : ∀ u ∈ vZ, u.key ≠ (0, (exChild 0 3 y).Y) := by
    intro u hu
    simp only [vZ, List.mem_cons, List.not_mem_nil, or_false] at hu
    rcases hu with rfl | rfl | rfl <;> simp [Visit.key, exSibling, exPoisson, exChild]
  have hmL : Measurable (likAt ρ (exBeta 2 1) exSibling z) := by
    rw [lik_sibling]
    exact measurable_lik_poisson z
  obtain ⟨-, hm, hform⟩ := child_law hc (sh := []) (a := 2) (b := 1) rfl (by simp [exNum, evalE])
    (by simp [exNum, evalE]) two_pos one_pos hp₀
  have hd : BayesDefined (betaMeasure 2 1) fun θ => likAt ρ (exBeta 2 1) (exChild 0 3 y).Y y θ *
      likAt ρ (exBeta 2 1) exSibling z θ := by
    have hprob : IsProbabilityMeasure (betaMeasure 2 1) :=
      isProbabilityMeasureBeta (by norm_num) (by norm_num)
    constructor
    · intro h0
      have h0' := (lintegral_eq_zero_iff (hm.mul hmL)).1 h0
      obtain ⟨θ, hθ, h1⟩ := (ae_mem_betaMeasure.and h0').exists
      have hθ0 := hθ.1
      have hθ1 : 0 < 1 - θ := by linarith [hθ.2]
      have e1 := hform θ hθ.1 hθ.2
      have e2 := lik_sibling_pos ρ z hθ.1
      have hch : 0 < (((exChild 0 3 y).n.choose (exChild 0 3 y).y : ℕ) : ℝ) := by
        exact_mod_cast Nat.choose_pos hc.le
      rw [Pi.zero_apply, Pi.mul_apply, mul_eq_zero] at h1
      rcases h1 with h1 | h1
      · rw [e1, ENNReal.ofReal_eq_zero] at h1
        exact absurd h1 (not_le.2 (by positivity))
      · rw [e2, ENNReal.ofReal_eq_zero] at h1
        exact absurd h1 (not_le.2 (by positivity))
    · have hb : ∀ᵐ θ ∂betaMeasure 2 1, likAt ρ (exBeta 2 1) (exChild 0 3 y).Y y θ *
          likAt ρ (exBeta 2 1) exSibling z θ ≤
            ENNReal.ofReal (((exChild 0 3 y).n.choose (exChild 0 3 y).y : ℕ)) *
              ENNReal.ofReal (1 / (Nat.factorial z)) := by
        filter_upwards [ae_mem_betaMeasure] with θ hθ
        have hθ0 := hθ.1
        have hθ1 : 0 < 1 - θ := by linarith [hθ.2]
        have hn : (0 : ℝ) ≤ ((exChild 0 3 y).n : ℝ) - (exChild 0 3 y).y := by
          have : ((exChild 0 3 y).y : ℝ) ≤ (exChild 0 3 y).n := by exact_mod_cast hc.le
          linarith
        refine mul_le_mul' ?_ ?_
        · refine (hform θ hθ.1 hθ.2).trans_le (ENNReal.ofReal_le_ofReal ?_)
          have h1 := Real.rpow_le_one hθ0.le hθ.2.le (show (0 : ℝ) ≤ (exChild 0 3 y).y by positivity)
          have h2 := Real.rpow_le_one hθ1.le (by linarith) hn
          have h3 : (0 : ℝ) ≤ ((exChild 0 3 y).n.choose (exChild 0 3 y).y : ℕ) := by positivity
          calc _ ≤ (((exChild 0 3 y).n.choose (exChild 0 3 y).y : ℕ) : ℝ) * 1 * 1 := by gcongr
            _ = _ := by ring
        · refine (lik_sibling_pos ρ z hθ.1).trans_le (ENNReal.ofReal_le_ofReal ?_)
          have h1 := Real.rpow_le_one hθ0.le hθ.2.le (show (0 : ℝ) ≤ z by positivity)
          have h2 : Real.exp (-(1 * θ)) ≤ 1 := Real.exp_le_one_iff.2 (by linarith)
          calc _ ≤ 1 / (Nat.factorial z : ℝ) * 1 * 1 := by gcongr
            _ = _ := by ring
      refine ne_top_of_le_ne_top ?_ (lintegral_mono_ae hb)
      rw [lintegral_const, measure_univ, mul_one]
      exact ENNReal.mul_ne_top ENNReal.ofReal_ne_top ENNReal.ofReal_ne_top
  rcases hh with rfl | rfl
  · obtain ⟨post, h1, h2⟩ := C05_sibling_iff_partial hc (h₁ := []) (h₂ := vZ) (by simp) hz hpr hmL hd
    exact ⟨post, _, h1, hpr, hd, fun he => lik_sibling_not_const ρ z (h2.1 he)⟩
  · obtain ⟨post, h1, h2⟩ := C05_sibling_iff_partial hc (h₁ := vZ) (h₂ := []) hkey
      (by simpa using hz) hpr hmL hd
    exact ⟨post, _, h1, hpr, hd, fun he => lik_sibling_not_const ρ z (h2.1 he)⟩

/-- The observation can be made. -/
example : ∃ ρ : Env, ρ (exChild 0 3 2).Y = (2 : ℕ) := ⟨fun _ => (2 : ℕ), rfl⟩

end Verif.Track
