import Verif.Conj.Props
import Verif.Prob.Order
import Verif.Track.Families

/-!
# Property C87 for the conjugate samplers
-/

open MeasureTheory ProbabilityTheory
open scoped ENNReal

namespace Verif.Conj

open Verif.Expr

/-- The law of the beta-binomial step. -/
theorem beta_binomial_step_law {rng Y latent post : Expr}
    (h : betaBinomialFinder rng Y = some [(latent, post)])
    {sh : SShape} {rY sY dY nE pE : Expr} (hY : Y = .app (.rv .binomial) sh [rY, sY, dY, nE, pE])
    (ρ : Env) {n y : ℕ} (hn : evalE ρ nE = some (n : ℝ))
    (hy : ρ Y = y) (hyn : y ≤ n) {a b : ℝ} (ha : 0 < a) (hb : 0 < b)
    (hprior : lawAt ρ latent = some (betaMeasure a b)) :
    lawAt ρ post = some (betaMeasure (a + y) (b + n - y)) := by
  unfold betaBinomialFinder finder at h
  cases hp : betaBinomialPosterior rng Y with
  | none => simp [hp] at h
  | some q =>
    obtain ⟨shY, rY', sY', dY', n', shL, rL, size, dtype, alpha, beta, hY', hq⟩ :=
      betaBinomialPosterior_some hp
    rw [hY'] at hY
    simp only [Expr.app.injEq, List.cons.injEq, and_true, true_and] at hY
    obtain ⟨rfl, rfl, rfl, rfl, rfl, rfl⟩ := hY
    rw [hp, hY'] at h
    simp only [Expr.args?, Option.bind_some, List.getLast?, List.getLast_cons_cons,
      List.getLast_singleton, Option.some.injEq, List.cons.injEq, Prod.mk.injEq, and_true] at h
    obtain ⟨rfl, rfl⟩ := h
    obtain ⟨x, z, hx, hz, hx0, hz0, hxz⟩ := lawAt_beta_inv hprior
    obtain ⟨rfl, rfl⟩ := betaMeasure_inj ha hb hx0 hz0 hxz
    have hk : (y : ℝ) ≤ n := by exact_mod_cast hyn
    have hYe : evalE ρ Y = some (y : ℝ) := by rw [hY', evalE_rv, ← hY', hy]
    rw [hq, lawAt_genBeta ρ (evalE_addE ρ hx hYe) (evalE_subE ρ (evalE_addE ρ hz hn) hYe)
      (by positivity) (by linarith)]

/-- **C87.** Beta-binomial: more successes out of the same number of trials, a larger first prior
parameter and a smaller second one raise the draws, strictly if one of the changes is.  `ρ` and `ρ'` are any two assignments of values to
the same model. -/
theorem C87_beta_binomial {rng Y latent post : Expr}
    (h : betaBinomialFinder rng Y = some [(latent, post)])
    {sh : SShape} {rY sY dY nE pE : Expr} (hY : Y = .app (.rv .binomial) sh [rY, sY, dY, nE, pE])
    {ρ ρ' : Env} {n y y' : ℕ} (hn : evalE ρ nE = some (n : ℝ)) (hn' : evalE ρ' nE = some (n : ℝ))
    (hy : ρ Y = y) (hy' : ρ' Y = y') (hyy : y ≤ y') (hyn : y' ≤ n) {a b a' b' : ℝ} (ha : 0 < a)
    (haa : a ≤ a') (hb' : 0 < b') (hbb : b' ≤ b)
    (hprior : lawAt ρ latent = some (betaMeasure a b))
    (hprior' : lawAt ρ' latent = some (betaMeasure a' b')) :
    ∃ μ μ', lawAt ρ post = some μ ∧ lawAt ρ' post = some μ' ∧ StochLE μ μ' ∧
      (y < y' ∨ a < a' ∨ b' < b → μ ≠ μ') := by
  refine ⟨_, _, beta_binomial_step_law h hY ρ hn hy (hyy.trans hyn) ha (hb'.trans_le hbb) hprior,
    beta_binomial_step_law h hY ρ' hn' hy' hyn (ha.trans_le haa) hb' hprior', ?_⟩
  have h1 : (y : ℝ) ≤ y' := by exact_mod_cast hyy
  have h2 : (y' : ℝ) ≤ n := by exact_mod_cast hyn
  refine ⟨stochLE_beta (by positivity) (by linarith) (by linarith) (by linarith), fun hs he => ?_⟩
  obtain ⟨e1, e2⟩ := betaMeasure_inj (by positivity) (by linarith) (by linarith) (by linarith) he
  rcases hs with hs | hs | hs
  · have : (y : ℝ) < y' := by exact_mod_cast hs
    linarith
  · linarith
  · linarith

/-- Two and three successes out of five. -/
example : ∃ (ρ ρ' : Env) (post : Expr) (μ μ' : Measure ℝ),
    betaBinomialFinder (exRng 0) (exBinomial 5 (exBeta 2 1)) = some [(exBeta 2 1, post)] ∧
    ρ (exBinomial 5 (exBeta 2 1)) = ((2 : ℕ) : ℝ) ∧ ρ' (exBinomial 5 (exBeta 2 1)) = ((3 : ℕ) : ℝ) ∧
    lawAt ρ post = some μ ∧ lawAt ρ' post = some μ' ∧ StochLE μ μ' := by
  have hp : ∀ ρ : Env, lawAt ρ (exBeta 2 1) = some (betaMeasure 2 1) := fun ρ => by
    simp [exBeta, lawAt, exNum, evalE, rvLaw]
  obtain ⟨μ, μ', h1, h2, h3, -⟩ := C87_beta_binomial (rng := exRng 0) (Y := exBinomial 5 (exBeta 2 1))
    (latent := exBeta 2 1) rfl rfl (ρ := fun _ => 2) (ρ' := fun _ => 3) (n := 5) (y := 2) (y' := 3)
    (by simp [exNum, evalE]) (by simp [exNum, evalE]) (by norm_num) (by norm_num) (by norm_num)
    (by norm_num) two_pos le_rfl one_pos le_rfl (hp _) (hp _)
  exact ⟨fun _ => 2, fun _ => 3, _, μ, μ', rfl, by norm_num, by norm_num, h1, h2, h3⟩

/-- **C87 (partial).** Gamma-Poisson: larger counts and a larger prior shape raise the draws (strictly if
one of the changes is strict), the
prior scale being the same.  Missing for the full property: the direction in the prior scale, which is
wrong (`C87_gamma_poisson_violated`). -/
theorem C87_gamma_poisson_partial {rng Y latent post : Expr}
    (h : gammaPoissonFinder rng Y = some [(latent, post)]) {ρ ρ' : Env} {y y' : ℕ} (hy : ρ Y = y)
    (hy' : ρ' Y = y') (hyy : y ≤ y')
    {sh : SShape} {r sz d aE bE : Expr} (hL : latent = .app (.rv .gamma) sh [r, sz, d, aE, bE])
    {a a' c : ℝ} (ha : evalE ρ aE = some a) (ha' : evalE ρ' aE = some a') (hc : evalE ρ bE = some c)
    (hc' : evalE ρ' bE = some c) (ha0 : 0 < a) (haa : a ≤ a') (hc0 : 0 < c) :
    ∃ μ μ', lawAt ρ post = some μ ∧ lawAt ρ' post = some μ' ∧ StochLE μ μ' ∧
      (y < y' ∨ a < a' → μ ≠ μ') := by
  have h1 : (y : ℝ) ≤ y' := by exact_mod_cast hyy
  exact ⟨_, _, (gamma_poisson_step_law h ρ hy hL ha hc ha0 hc0).2.1,
    (gamma_poisson_step_law h ρ' hy' hL ha' hc' (ha0.trans_le haa) hc0).2.1,
    stochLE_gamma (by positivity) (by linarith) (by linarith) le_rfl, fun hs he => by
      have e := (Track.gammaMeasure_inj (by positivity) (by linarith) (by linarith) (by linarith) he).1
      rcases hs with hs | hs
      · have : (y : ℝ) < y' := by exact_mod_cast hs
        linarith
      · linarith⟩

/-- Counts of two and three. -/
example : ∃ (ρ ρ' : Env) (post : Expr) (μ μ' : Measure ℝ),
    gammaPoissonFinder (exRng 0) (exPoisson (exGamma 2 3)) = some [(exGamma 2 3, post)] ∧
    lawAt ρ post = some μ ∧ lawAt ρ' post = some μ' ∧ StochLE μ μ' := by
  obtain ⟨μ, μ', h1, h2, h3, -⟩ := C87_gamma_poisson_partial (rng := exRng 0)
    (Y := exPoisson (exGamma 2 3)) (latent := exGamma 2 3) rfl (ρ := fun _ => 2) (ρ' := fun _ => 3)
    (y := 2) (y' := 3) (by norm_num) (by norm_num) (by norm_num) rfl (a := 2) (a' := 2) (c := 3)
    (by simp [exNum, evalE]) (by simp [exNum, evalE]) (by simp [exNum, evalE])
    (by simp [exNum, evalE]) two_pos le_rfl (by norm_num)
  exact ⟨fun _ => 2, fun _ => 3, _, μ, μ', rfl, h1, h2, h3⟩

/-- **C87 is violated** for the gamma-Poisson sampler: for every count and every prior, a larger prior
scale raises the posterior but lowers the draws, strictly. -/
theorem C87_gamma_poisson_violated {rng Y latent post : Expr}
    (h : gammaPoissonFinder rng Y = some [(latent, post)]) {ρ ρ' : Env} {y : ℕ} (hy : ρ Y = y)
    (hy' : ρ' Y = y)
    {sh : SShape} {r sz d aE bE : Expr} (hL : latent = .app (.rv .gamma) sh [r, sz, d, aE, bE])
    {a c c' : ℝ} (ha : evalE ρ aE = some a) (ha' : evalE ρ' aE = some a) (hc : evalE ρ bE = some c)
    (hc' : evalE ρ' bE = some c') (ha0 : 0 < a) (hc0 : 0 < c) (hcc : c < c') :
    ∃ prior prior' μ μ', lawAt ρ latent = some prior ∧ lawAt ρ' latent = some prior' ∧
      lawAt ρ post = some μ ∧ lawAt ρ' post = some μ' ∧
      StochLE (bayes prior (likAt ρ latent Y y)) (bayes prior' (likAt ρ' latent Y y)) ∧
      StochLE μ' μ ∧ μ ≠ μ' := by
  have hc0' := hc0.trans hcc
  obtain ⟨p1, s1, -, b1⟩ := gamma_poisson_step_law h ρ hy hL ha hc ha0 hc0
  obtain ⟨p2, s2, -, b2⟩ := gamma_poisson_step_law h ρ' hy' hL ha' hc' ha0 hc0'
  have hay : 0 < a + (y : ℝ) := by positivity
  refine ⟨_, _, _, _, p1, p2, s1, s2, ?_, stochLE_gamma hay (by linarith) le_rfl (by linarith),
    fun he => ?_⟩
  · rw [b1, b2]
    have := inv_strictAnti₀ hc0 hcc
    have := inv_pos.2 hc0'
    exact stochLE_gamma hay (by linarith) le_rfl (by linarith)
  · have := gammaMeasure_rate_inj hay (by linarith) (by linarith) he
    linarith

/-- A gamma prior whose scale is an input of the model, given the values 3 and 4. -/
example : ∃ (ρ ρ' : Env) (latent post : Expr) (μ μ' : Measure ℝ),
    gammaPoissonFinder (exRng 0) (exPoisson latent) = some [(latent, post)] ∧
    lawAt ρ post = some μ ∧ lawAt ρ' post = some μ' ∧ StochLE μ' μ ∧ μ ≠ μ' := by
  obtain ⟨-, -, μ, μ', -, -, h1, h2, -, h3, h4⟩ := C87_gamma_poisson_violated (rng := exRng 0)
    (Y := exPoisson (.app (.rv .gamma) [] [exRng 100, exSize, exDtype, exNum 2, .input 7 []]))
    (latent := .app (.rv .gamma) [] [exRng 100, exSize, exDtype, exNum 2, .input 7 []]) rfl
    (ρ := fun _ => 3) (ρ' := fun e => if e = .input 7 [] then 4 else 3)
    (y := 3) (by norm_num) (by simp [exPoisson]) rfl (a := 2) (c := 3) (c' := 4)
    (by simp [exNum, evalE]) (by simp [exNum, evalE]) (by simp [evalE])
    (by simp [evalE]) two_pos (by norm_num) (by norm_num)
  exact ⟨fun _ => 3, fun e => if e = .input 7 [] then 4 else 3,
    .app (.rv .gamma) [] [exRng 100, exSize, exDtype, exNum 2, .input 7 []], _, μ, μ', rfl, h1, h2, h3,
    h4⟩

/-- **C87 (partial).** Beta-negative-binomial: a larger first prior parameter and a smaller second one
raise the draws, the observation and the number of successes waited for being the same.  Missing for
the full property: the direction in the observation, which is wrong (`C87_beta_nbinom_violated`). -/
theorem C87_beta_nbinom_partial {rng Y latent post : Expr}
    (h : betaNegBinomialFinder rng Y = some [(latent, post)])
    {shY : SShape} {rY sY dY nE pE : Expr} (hY : Y = .app (.rv .nbinom) shY [rY, sY, dY, nE, pE])
    {ρ ρ' : Env} {n : ℝ} (hn : evalE ρ nE = some n) (hn' : evalE ρ' nE = some n) (hn0 : 0 < n)
    (hread : ¬ Reads latent nE) {y : ℕ} (hy : ρ Y = y) (hy' : ρ' Y = y) {a b a' b' : ℝ} (ha : 0 < a)
    (haa : a ≤ a') (hb' : 0 < b') (hbb : b' ≤ b)
    (hprior : lawAt ρ latent = some (betaMeasure a b))
    (hprior' : lawAt ρ' latent = some (betaMeasure a' b')) :
    ∃ μ μ', lawAt ρ post = some μ ∧ lawAt ρ' post = some μ' ∧ StochLE μ μ' ∧
      (a < a' ∨ b' < b → μ ≠ μ') := by
  obtain ⟨x, z, hx, hz, e, -, s, -, -⟩ :=
    C14_beta_nbinom_exact_iff_partial h hY ρ hn hn0 hread hy hprior
  obtain ⟨x', z', hx', hz', e', -, s', -, -⟩ :=
    C14_beta_nbinom_exact_iff_partial h hY ρ' hn' hn0 hread hy' hprior'
  obtain ⟨rfl, rfl⟩ := betaMeasure_inj ha (hb'.trans_le hbb) hx hz e
  obtain ⟨rfl, rfl⟩ := betaMeasure_inj (ha.trans_le haa) hb' hx' hz' e'
  refine ⟨_, _, s, s', stochLE_beta (by positivity) (by linarith) (by linarith) (by linarith),
    fun hs he => ?_⟩
  have hy0 : (0 : ℝ) ≤ y := by positivity
  obtain ⟨e1, e2⟩ := betaMeasure_inj (by linarith) (by linarith) (by linarith) (by linarith) he
  rcases hs with hs | hs <;> linarith

/-- A beta prior whose first parameter is an input of the model, given the values 3 and 4. -/
example : ∃ (ρ ρ' : Env) (latent post : Expr) (μ μ' : Measure ℝ),
    betaNegBinomialFinder (exRng 0) (exNbinom 4 latent) = some [(latent, post)] ∧
    lawAt ρ post = some μ ∧ lawAt ρ' post = some μ' ∧ StochLE μ μ' := by
  obtain ⟨μ, μ', h1, h2, h3, -⟩ := C87_beta_nbinom_partial (rng := exRng 0)
    (Y := exNbinom 4 (.app (.rv .beta) [] [exRng 100, exSize, exDtype, .input 7 [], exNum 1]))
    (latent := .app (.rv .beta) [] [exRng 100, exSize, exDtype, .input 7 [], exNum 1]) rfl rfl
    (ρ := fun _ => 3) (ρ' := fun e => if e = .input 7 [] then 4 else 3) (n := 4)
    (by simp [exNum, evalE]) (by simp [exNum, evalE]) (by norm_num) (by intro h; cases h)
    (y := 3) (by norm_num) (by simp [exNbinom]) (a := 3) (a' := 4) (b := 1) (b' := 1)
    (by norm_num) (by norm_num) one_pos le_rfl
    (by simp [lawAt, exNum, evalE, rvLaw]) (by simp [lawAt, exNum, evalE, rvLaw])
  exact ⟨fun _ => 3, fun e => if e = .input 7 [] then 4 else 3,
    .app (.rv .beta) [] [exRng 100, exSize, exDtype, .input 7 [], exNum 1], _, μ, μ', rfl, h1, h2, h3⟩

/-- **C87 is violated** for the beta-negative-binomial sampler: for all priors and observations, more
failures before the same number of successes (`y < y'`), or fewer successes waited for, lower the
posterior of the success probability but raise its draws, strictly. -/
theorem C87_beta_nbinom_violated {rng Y latent post : Expr}
    (h : betaNegBinomialFinder rng Y = some [(latent, post)])
    {shY : SShape} {rY sY dY nE pE : Expr} (hY : Y = .app (.rv .nbinom) shY [rY, sY, dY, nE, pE])
    {ρ ρ' : Env} {n n' : ℝ} (hn : evalE ρ nE = some n) (hn' : evalE ρ' nE = some n') (hn0 : 0 < n')
    (hnn : n' ≤ n) (hread : ¬ Reads latent nE) {y y' : ℕ} (hy : ρ Y = y) (hy' : ρ' Y = y')
    (hyy : y < y') {prior : Measure ℝ} (hprior : lawAt ρ latent = some prior)
    (hprior' : lawAt ρ' latent = some prior) :
    ∃ μ μ', lawAt ρ post = some μ ∧ lawAt ρ' post = some μ' ∧
      StochLE (bayes prior (likAt ρ' latent Y y')) (bayes prior (likAt ρ latent Y y)) ∧
      StochLE μ μ' ∧ μ ≠ μ' := by
  have hn1 := hn0.trans_le hnn
  obtain ⟨x, z, hx, hz, e, -, s, b, -⟩ :=
    C14_beta_nbinom_exact_iff_partial h hY ρ hn hn1 hread hy hprior
  obtain ⟨x', z', hx', hz', e', -, s', b', -⟩ :=
    C14_beta_nbinom_exact_iff_partial h hY ρ' hn' hn0 hread hy' hprior'
  obtain ⟨rfl, rfl⟩ := betaMeasure_inj hx hz hx' hz' (e.symm.trans e')
  have h1 : (y : ℝ) < y' := by exact_mod_cast hyy
  have hy0 : (0 : ℝ) ≤ y := by positivity
  refine ⟨_, _, s, s', ?_, stochLE_beta (by linarith) (by linarith) (by linarith) (by linarith),
    fun he => ?_⟩
  · rw [b, b']
    exact stochLE_beta (by linarith) (by linarith) (by linarith) (by linarith)
  · have := (betaMeasure_inj (by linarith) (by linarith) (by linarith) (by linarith) he).1
    linarith

/-- Two and three failures before the fourth success. -/
example : ∃ (ρ ρ' : Env) (post : Expr) (μ μ' : Measure ℝ),
    betaNegBinomialFinder (exRng 0) (exNbinom 4 (exBeta 3 1)) = some [(exBeta 3 1, post)] ∧
    lawAt ρ post = some μ ∧ lawAt ρ' post = some μ' ∧ StochLE μ μ' ∧ μ ≠ μ' := by
  have hp : ∀ ρ : Env, lawAt ρ (exBeta 3 1) = some (betaMeasure 3 1) := fun ρ => by
    simp [exBeta, lawAt, exNum, evalE, rvLaw]
  obtain ⟨μ, μ', h1, h2, -, h3, h4⟩ := C87_beta_nbinom_violated (rng := exRng 0)
    (Y := exNbinom 4 (exBeta 3 1)) (latent := exBeta 3 1) rfl rfl (ρ := fun _ => 2)
    (ρ' := fun _ => 3) (n := 4) (n' := 4) (y := 2) (y' := 3) (by simp [exNum, evalE])
    (by simp [exNum, evalE]) (by norm_num) le_rfl (by intro h; cases h) (by norm_num) (by norm_num)
    (by norm_num) (hp _) (hp _)
  exact ⟨fun _ => 2, fun _ => 3, _, μ, μ', rfl, h1, h2, h3, h4⟩

end Verif.Conj
