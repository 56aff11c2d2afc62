import Verif.Calib.Props
import Verif.Conj.ArrayLemmas

/-!
# Checks of the conjugate steps against simulated data (C78)
-/

open MeasureTheory ProbabilityTheory
open scoped ENNReal

namespace Verif

open Conj

/-- Spec.  Law of the count `Y` when `latent` has the value `θ`. -/
noncomputable def countLaw (ρ : Env) (latent Y : Expr) (θ : ℝ) : Measure ℕ :=
  ((lawAt (Function.update ρ latent θ) Y).getD 0).comap fun k : ℕ => (k : ℝ)

/-- Spec.  Law of the value the step `post` returns when `Y` has the value `y`. -/
noncomputable def stepLaw (ρ : Env) (Y post : Expr) (y : ℕ) (_ : ℝ) : Measure ℝ :=
  (lawAt (Function.update ρ Y (y : ℝ)) post).getD 0

theorem sizeOf_le_of_reads {a b : Expr} (h : Reads a b) : sizeOf a ≤ sizeOf b := by
  induction h with
  | self => exact le_rfl
  | @arg o sh as e _ hm _ ih =>
    have := List.sizeOf_lt_of_mem hm
    have e1 : sizeOf (Expr.app o sh as) = 1 + sizeOf o + sizeOf sh + sizeOf as := by simp
    omega

theorem lawAt_update_self {ρ : Env} {Y : Expr} {v : ℝ} {e : Expr} (h : sizeOf e ≤ sizeOf Y) :
    lawAt (Function.update ρ Y v) e = lawAt ρ e := by
  have key : ∀ ps : List Expr, (∀ x ∈ ps, sizeOf x < sizeOf Y) →
      ps.mapM (evalE (Function.update ρ Y v)) = ps.mapM (evalE ρ) := by
    intro ps
    induction ps with
    | nil => intro _; rfl
    | cons x xs ih =>
      intro hx
      have h1 : ¬ Reads Y x := fun hr => by
        have := sizeOf_le_of_reads hr
        have := hx x List.mem_cons_self
        omega
      rw [List.mapM_cons, List.mapM_cons, evalE_update h1, ih fun z hz => hx z (List.mem_cons_of_mem _ hz)]
  unfold lawAt
  split
  · rename_i d sh r s dt ps
    rw [key ps fun x hx => ?_]
    have := List.sizeOf_lt_of_mem hx
    simp at h
    omega
  · rfl

theorem countLaw_singleton (ρ : Env) (latent Y : Expr) (θ : ℝ) (y : ℕ) :
    countLaw ρ latent Y θ {y} = likAt ρ latent Y y θ := by
  rw [countLaw, MeasurableEmbedding.natCast.comap_apply, Set.image_singleton, likAt]
  cases lawAt (Function.update ρ latent θ) Y with
  | none => simp [massOf]
  | some μ => rfl

theorem countLaw_prob {ρ : Env} {latent Y : Expr} {θ : ℝ} {μ : Measure ℕ} [IsProbabilityMeasure μ]
    (h : lawAt (Function.update ρ latent θ) Y = some (μ.map fun k : ℕ => (k : ℝ))) :
    IsProbabilityMeasure (countLaw ρ latent Y θ) := by
  rw [countLaw, h, Option.getD_some, MeasurableEmbedding.natCast.comap_map]
  infer_instance

theorem stationary_const_iff {Θ : Type*} [MeasurableSpace Θ] {π law : Measure Θ} [IsProbabilityMeasure π] :
    Stationary π (fun _ => law) ↔ law = π := by
  have e : π.bind (fun _ => law) = law :=
    (Measure.bind_const (m := π) (ν := law)).trans (by rw [measure_univ, one_smul])
  exact ⟨fun h => e.symm.trans h.2, fun h => ⟨aemeasurable_const, e.trans h⟩⟩

/-- The check for a step that draws afresh. -/
theorem conj_calibrated_iff {ρ : Env} {latent Y post : Expr} {prior : Measure ℝ} [IsFiniteMeasure prior]
    (hm : ∀ y : ℕ, Measurable (likAt ρ latent Y y))
    (hp : ∀ᵐ θ ∂prior, IsProbabilityMeasure (countLaw ρ latent Y θ)) :
    Calibrated prior (countLaw ρ latent Y) (stepLaw ρ Y post) ↔
      ∀ y : ℕ, ∫⁻ θ, likAt ρ latent Y y θ ∂prior ≠ 0 →
        stepLaw ρ Y post y 0 = bayes prior (likAt ρ latent Y y) := by
  have hl : ∀ y, (fun θ => countLaw ρ latent Y θ {y}) = likAt ρ latent Y y := fun y =>
    funext fun θ => countLaw_singleton ρ latent Y θ y
  rw [calibrated_iff (K := stepLaw ρ Y post) (aemeasurable_of_singleton fun y => by
      rw [hl]; exact (hm y).aemeasurable) hp
    fun y => aemeasurable_const]
  refine forall_congr' fun y => ?_
  rw [hl]
  refine imp_congr_right fun hy => ?_
  have hfin : ∫⁻ θ, likAt ρ latent Y y θ ∂prior ≠ ∞ := by
    rw [← hl]
    exact ((lintegral_mono_ae (g := fun _ => 1) (hp.mono fun θ _ => prob_le_one)).trans_lt (by
      rw [lintegral_one]; exact measure_lt_top _ _)).ne
  have := isProbabilityMeasure_bayes (prior := prior) (lik := likAt ρ latent Y y) ⟨hy, hfin⟩
  exact stationary_const_iff

/-! ### The three models -/

theorem lawAt_two {d pr : Dist} {Y latent : Expr} (hm : IsConjugateModel d pr 1 Y latent)
    {sh : SShape} {rY sY dY nE pE : Expr} (hY : Y = .app (.rv d) sh [rY, sY, dY, nE, pE])
    {ρ : Env} {n : ℝ} (hn : evalE ρ nE = some n) (hread : ¬ Reads latent nE) (θ : ℝ) :
    lawAt (Function.update ρ latent θ) Y = rvLaw d [n, θ] := by
  obtain ⟨⟨sh', r', s', d', ps, hps, hY'⟩, ⟨shL, rL, sL, dL, a, b, hL⟩⟩ := hm
  obtain ⟨n', rfl⟩ := List.length_eq_one_iff.1 hps
  have hYY := hY'.symm.trans hY
  simp only [List.cons_append, List.nil_append, Expr.app.injEq, List.cons.injEq, and_true,
    true_and] at hYY
  obtain ⟨rfl, rfl, rfl, rfl, rfl, rfl⟩ := hYY
  have hl : evalE (Function.update ρ latent θ) latent = some θ := by
    conv_lhs => rw [hL, evalE_rv]
    rw [← hL, Function.update_self]
  rw [hY]
  simp only [lawAt, List.mapM_cons, evalE_update hread, hn, hl,
    List.mapM_nil, Option.pure_def, Option.bind_eq_bind, Option.bind_some]

theorem lawAt_one {d pr : Dist} {Y latent : Expr} (hm : IsConjugateModel d pr 0 Y latent) (ρ : Env) (θ : ℝ) :
    lawAt (Function.update ρ latent θ) Y = rvLaw d [θ] := by
  obtain ⟨⟨sh', r', s', d', ps, hps, hY'⟩, ⟨shL, rL, sL, dL, a, b, hL⟩⟩ := hm
  obtain rfl := List.length_eq_zero_iff.1 hps
  have hl : evalE (Function.update ρ latent θ) latent = some θ := by
    conv_lhs => rw [hL, evalE_rv]
    rw [← hL, Function.update_self]
  rw [hY']
  simp only [List.cons_append, List.nil_append, lawAt, List.mapM_cons, hl,
    List.mapM_nil, Option.pure_def, Option.bind_eq_bind, Option.bind_some]

/-- What the step reads does not include the variable itself. -/
theorem sizeOf_latent {d pr : Dist} {k : ℕ} {Y latent : Expr} (hm : IsConjugateModel d pr k Y latent) :
    sizeOf latent ≤ sizeOf Y := by
  obtain ⟨⟨sh', r', s', d', ps, hps, rfl⟩, -⟩ := hm
  have : latent ∈ [r', s', d'] ++ ps ++ [latent] := by simp
  have := List.sizeOf_lt_of_mem this
  simp at this ⊢
  omega

theorem evalE_update_param {d : Dist} {sh : SShape} {rY sY dY nE pE : Expr} (ρ : Env) (v : ℝ) :
    evalE (Function.update ρ (.app (.rv d) sh [rY, sY, dY, nE, pE]) v) nE = evalE ρ nE := by
  refine evalE_update fun hr => ?_
  have := sizeOf_le_of_reads hr
  simp at this
  omega

theorem ae_mem_beta_prior {d : Dist} {Y latent : Expr} {k : ℕ} (hm : IsConjugateModel d .beta k Y latent)
    {ρ : Env} {prior : Measure ℝ} (hprior : lawAt ρ latent = some prior) :
    IsProbabilityMeasure prior ∧ ∀ᵐ θ ∂prior, 0 < θ ∧ θ < 1 := by
  obtain ⟨-, ⟨shL, rL, sL, dL, a, b, rfl⟩⟩ := hm
  obtain ⟨x, z, -, -, hx, hz, rfl⟩ := lawAt_beta_inv hprior
  exact ⟨isProbabilityMeasureBeta hx hz, ae_mem_betaMeasure⟩

/-- **C78 (partial).** Beta-binomial models: the step the library builds passes the check. -/
theorem C78_beta_binomial_partial {rng Y latent post : Expr}
    (h : betaBinomialFinder rng Y = some [(latent, post)])
    {sh : SShape} {rY sY dY nE pE : Expr} (hY : Y = .app (.rv .binomial) sh [rY, sY, dY, nE, pE])
    (ρ : Env) {n : ℕ} (hn : evalE ρ nE = some (n : ℝ)) (hread : ¬ Reads latent nE)
    {prior : Measure ℝ} (hprior : lawAt ρ latent = some prior) :
    Calibrated prior (countLaw ρ latent Y) (stepLaw ρ Y post) := by
  have hm : IsConjugateModel .binomial .beta 1 Y latent := (C15_beta_binomial_fires_iff rng Y latent).1 ⟨post, h⟩
  obtain ⟨hpr, hae⟩ := ae_mem_beta_prior hm hprior
  have hl : ∀ θ, lawAt (Function.update ρ latent θ) Y = rvLaw .binomial [(n : ℝ), θ] :=
    lawAt_two hm hY hn hread
  rw [conj_calibrated_iff fun y => (measurable_likAt_binomial hm hY hn hread y).1]
  · intro y hy
    by_cases hyn : y ≤ n
    · have hn' : evalE (Function.update ρ Y (y : ℝ)) nE = some (n : ℝ) := by
        rw [hY, evalE_update_param, hn]
      have h1 := (C12_beta_binomial_exact h hY (Function.update ρ Y (y : ℝ)) hn' hread
        (Function.update_self _ _ _) hyn ((lawAt_update_self (sizeOf_latent hm)).trans hprior)).2
      rw [stepLaw, h1, Option.getD_some]
      congr 1
      funext θ
      rw [likAt, likAt, hl, lawAt_two hm hY hn' hread]
    · refine absurd ?_ hy
      rw [lintegral_congr_ae (g := fun _ => 0), lintegral_zero]
      filter_upwards [hae] with θ hθ
      have hp : (∃ m : ℕ, (m : ℝ) = n) ∧ θ ∈ Set.Icc (0 : ℝ) 1 := ⟨⟨n, rfl⟩, hθ.1.le, hθ.2.le⟩
      have hc : Classical.choose hp.1 = n := by
        have := Classical.choose_spec hp.1
        exact_mod_cast this
      rw [likAt, hl]
      simp only [massOf, rvLaw, dif_pos hp, map_cast_singleton, binomial_singleton, hc]
      rw [Nat.choose_eq_zero_of_lt (by omega)]
      simp
  · filter_upwards [hae] with θ hθ
    have hp : (∃ m : ℕ, (m : ℝ) = n) ∧ θ ∈ Set.Icc (0 : ℝ) 1 := ⟨⟨n, rfl⟩, hθ.1.le, hθ.2.le⟩
    exact countLaw_prob ((hl θ).trans (by simp only [rvLaw]; rw [dif_pos hp]))

/-- Five trials, prior `Beta(2, 1)`. -/
example : ∃ (ρ : Env) (post : Expr),
    betaBinomialFinder (exRng 0) (exBinomial 5 (exBeta 2 1)) = some [(exBeta 2 1, post)] ∧
    Calibrated (betaMeasure 2 1) (countLaw ρ (exBeta 2 1) (exBinomial 5 (exBeta 2 1)))
      (stepLaw ρ (exBinomial 5 (exBeta 2 1)) post) :=
  ⟨fun _ => 0, _, rfl, C78_beta_binomial_partial (rng := exRng 0) rfl rfl _ (n := 5)
    (by simp [exNum, evalE]) (by intro h; cases h) (by simp [exBeta, lawAt, exNum, evalE, rvLaw])⟩

/-- **C78 (partial).** Gamma-Poisson models: the step passes the check exactly when the rate of the prior
is 1. -/
theorem C78_gamma_poisson_iff_partial {rng Y latent post : Expr}
    (h : gammaPoissonFinder rng Y = some [(latent, post)]) (ρ : Env)
    {sh : SShape} {r sz d aE bE : Expr} (hL : latent = .app (.rv .gamma) sh [r, sz, d, aE, bE])
    {a b : ℝ} (ha : evalE ρ aE = some a) (hb : evalE ρ bE = some (1 / b)) (ha0 : 0 < a) (hb0 : 0 < b) :
    lawAt ρ latent = some (gammaMeasure a b) ∧
    (Calibrated (gammaMeasure a b) (countLaw ρ latent Y) (stepLaw ρ Y post) ↔ b = 1) := by
  have hm : IsConjugateModel .poisson .gamma 0 Y latent := (C15_gamma_poisson_fires_iff rng Y latent).1 ⟨post, h⟩
  have hpr := isProbabilityMeasure_gammaMeasure ha0 hb0
  have hpos : ∀ᵐ θ ∂gammaMeasure a b, 0 < θ := ae_pos_gammaMeasure
  have hsz := sizeOf_latent hm
  have hargs : ∀ e, e ∈ [r, sz, d, aE, bE] → ∀ v : ℝ, evalE (Function.update ρ Y v) e = evalE ρ e := by
    intro e he v
    refine evalE_update fun hr => ?_
    have h1 := sizeOf_le_of_reads hr
    have h2 := List.sizeOf_lt_of_mem he
    rw [hL] at hsz
    simp at hsz h2
    omega
  have key : ∀ y : ℕ, lawAt ρ latent = some (gammaMeasure a b) ∧
      BayesDefined (gammaMeasure a b) (likAt ρ latent Y y) ∧
      (stepLaw ρ Y post y 0 = bayes (gammaMeasure a b) (likAt ρ latent Y y) ↔ b = 1) := by
    intro y
    have h1 : evalE (Function.update ρ Y (y : ℝ)) aE = some a := by rw [hargs aE (by simp), ha]
    have h2 : evalE (Function.update ρ Y (y : ℝ)) bE = some (1 / b) := by rw [hargs bE (by simp), hb]
    obtain ⟨prior, h3, rfl, h5, h6⟩ := C13_gamma_poisson_exact_iff_partial h (Function.update ρ Y (y : ℝ))
      (Function.update_self _ _ _) hL h1 h2 ha0 hb0
    have e : likAt (Function.update ρ Y (y : ℝ)) latent Y y = likAt ρ latent Y y := by
      funext θ
      rw [likAt, likAt, lawAt_one hm, lawAt_one hm]
    rw [e] at h5 h6
    rw [lawAt_update_self hsz] at h3
    refine ⟨h3, h5, ?_⟩
    obtain ⟨-, h7, -⟩ := gamma_poisson_step_law h (Function.update ρ Y (y : ℝ))
      (Function.update_self _ _ _) hL h1 h2 ha0 (by positivity)
    rw [← h6, stepLaw, h7, Option.getD_some, Option.some.injEq]
  refine ⟨(key 0).1, ?_⟩
  rw [conj_calibrated_iff fun y => measurable_likAt_poisson hm ρ y]
  · exact ⟨fun h1 => (key 0).2.2.1 (h1 0 (key 0).2.1.1), fun h1 y _ => (key y).2.2.2 h1⟩
  · filter_upwards [hpos] with θ hθ
    exact countLaw_prob ((lawAt_one hm ρ θ).trans (by simp only [rvLaw]; rw [if_pos hθ.le]))

example : ∃ (ρ : Env) (post post' : Expr),
    gammaPoissonFinder (exRng 0) (exPoisson (exGamma 3 1)) = some [(exGamma 3 1, post)] ∧
    Calibrated (gammaMeasure 3 1) (countLaw ρ (exGamma 3 1) (exPoisson (exGamma 3 1)))
      (stepLaw ρ (exPoisson (exGamma 3 1)) post) ∧
    gammaPoissonFinder (exRng 0) (exPoisson (exGamma 1 (1 / 2))) = some [(exGamma 1 (1 / 2), post')] ∧
    ¬ Calibrated (gammaMeasure 1 2) (countLaw ρ (exGamma 1 (1 / 2)) (exPoisson (exGamma 1 (1 / 2))))
      (stepLaw ρ (exPoisson (exGamma 1 (1 / 2))) post') := by
  refine ⟨fun _ => 0, _, _, rfl, (C78_gamma_poisson_iff_partial (rng := exRng 0)
    (Y := exPoisson (exGamma 3 1)) rfl _ (latent := exGamma 3 1) rfl (a := 3) (b := 1)
    (by simp [exNum, evalE]) (by simp [exNum, evalE]) (by norm_num) (by norm_num)).2.2 rfl, rfl, ?_⟩
  rw [(C78_gamma_poisson_iff_partial (rng := exRng 0)
    (Y := exPoisson (exGamma 1 (1 / 2))) rfl _ (latent := exGamma 1 (1 / 2)) rfl (a := 1) (b := 2)
    (by simp [exNum, evalE]) (by simp [exNum, evalE]) (by norm_num) (by norm_num)).2]
  norm_num

/-- **C78 is violated** by every beta-negative-binomial model the library matches. -/
theorem C78_beta_nbinom_violated {rng Y latent post : Expr}
    (h : betaNegBinomialFinder rng Y = some [(latent, post)])
    {sh : SShape} {rY sY dY nE pE : Expr} (hY : Y = .app (.rv .nbinom) sh [rY, sY, dY, nE, pE])
    (ρ : Env) {n : ℝ} (hn : evalE ρ nE = some n) (hn0 : 0 < n) (hread : ¬ Reads latent nE)
    {prior : Measure ℝ} (hprior : lawAt ρ latent = some prior) :
    ¬ Calibrated prior (countLaw ρ latent Y) (stepLaw ρ Y post) := by
  have hm : IsConjugateModel .nbinom .beta 1 Y latent :=
    (C15_beta_nbinom_fires_iff rng Y latent).1 ⟨post, h⟩
  obtain ⟨hpr, hae⟩ := ae_mem_beta_prior hm hprior
  have hl : ∀ θ, lawAt (Function.update ρ latent θ) Y = rvLaw .nbinom [n, θ] :=
    lawAt_two hm hY hn hread
  rw [conj_calibrated_iff fun y => measurable_likAt_nbinom hm hY hn hread y]
  · intro hc
    have hn' : evalE (Function.update ρ Y ((0 : ℕ) : ℝ)) nE = some n := by
      rw [hY, evalE_update_param, hn]
    obtain ⟨a, b, -, -, -, hd, hst, -, hiff⟩ := C14_beta_nbinom_exact_iff_partial h hY
      (Function.update ρ Y ((0 : ℕ) : ℝ)) hn' hn0 hread (Function.update_self _ _ _)
      ((lawAt_update_self (sizeOf_latent hm)).trans hprior)
    have e : likAt (Function.update ρ Y ((0 : ℕ) : ℝ)) latent Y ((0 : ℕ) : ℝ) =
        likAt ρ latent Y ((0 : ℕ) : ℝ) := by
      funext θ
      rw [likAt, likAt, hl, lawAt_two hm hY hn' hread]
    rw [e] at hd hiff
    have h1 := hc 0 hd.1
    rw [stepLaw, hst, Option.getD_some] at h1
    have h2 := hiff.1 (hst.trans (congrArg some h1))
    simp at h2
    linarith
  · filter_upwards [hae] with θ hθ
    have := isProbabilityMeasure_nb hn0 hθ.1 hθ.2.le
    exact countLaw_prob ((hl θ).trans (by simp only [rvLaw]; rw [if_pos ⟨hn0, hθ.1, hθ.2.le⟩]))

example : ∃ (ρ : Env) (post : Expr),
    betaNegBinomialFinder (exRng 0) (exNbinom 10 (exBeta 1 1)) = some [(exBeta 1 1, post)] ∧
    ¬ Calibrated (betaMeasure 1 1) (countLaw ρ (exBeta 1 1) (exNbinom 10 (exBeta 1 1)))
      (stepLaw ρ (exNbinom 10 (exBeta 1 1)) post) :=
  ⟨fun _ => 0, _, rfl, C78_beta_nbinom_violated (rng := exRng 0) rfl rfl _ (n := 10)
    (by simp [exNum, evalE]) (by norm_num) (by intro h; cases h)
    (by simp [exBeta, lawAt, exNum, evalE, rvLaw])⟩

end Verif
