import Verif.Conj.Lemmas

/-!
# Properties C12 - C15: conjugate finders
-/

open MeasureTheory ProbabilityTheory
open scoped ENNReal NNReal

namespace Verif.Conj

open Verif

/-! ## C15: the finders fire exactly on their model shape -/

/-- Spec.  `Y` is an application of the likelihood `lik` with `k` further parameters, whose last
parameter is `latent`, and `latent` is directly distributed as `prior` with two parameters. -/
def IsConjugateModel (lik prior : Dist) (k : Nat) (Y latent : Expr) : Prop :=
  (∃ sh rng size dtype ps, ps.length = k ∧
    Y = .app (.rv lik) sh ([rng, size, dtype] ++ ps ++ [latent])) ∧
  (∃ sh rng size dtype a b, latent = .app (.rv prior) sh [rng, size, dtype, a, b])

/-- C15, gamma-Poisson: a step is produced for `latent` iff the graph has the model shape. -/
theorem C15_gamma_poisson_fires_iff (rng Y latent : Expr) :
    (∃ post, gammaPoissonFinder rng Y = some [(latent, post)]) ↔
      IsConjugateModel .poisson .gamma 0 Y latent := by
  constructor
  · rintro ⟨post, h⟩
    unfold gammaPoissonFinder finder at h
    cases hp : gammaPoissonPosterior rng Y with
    | none => simp [hp] at h
    | some q =>
      obtain ⟨shY, rY, sY, dY, shL, rL, size, dtype, alpha, beta, hY, -⟩ :=
        gammaPoissonPosterior_some hp
      subst hY
      simp only [hp, Expr.args?, Option.bind_some, List.getLast?, List.getLast_cons_cons,
        List.getLast_singleton, Option.some.injEq, List.cons.injEq, Prod.mk.injEq, and_true] at h
      rw [← h.1]
      exact ⟨⟨shY, rY, sY, dY, [], rfl, rfl⟩, ⟨shL, rL, size, dtype, alpha, beta, rfl⟩⟩
  · rintro ⟨⟨shY, rY, sY, dY, ps, hps, hY⟩, ⟨shL, rL, size, dtype, alpha, beta, hL⟩⟩
    obtain rfl : ps = [] := List.length_eq_zero_iff.1 hps
    subst hY hL
    exact ⟨_, rfl⟩

/-- C15, gamma-Poisson: whatever is returned is one step, and nothing is returned otherwise. -/
theorem C15_gamma_poisson_none_iff (rng Y : Expr) :
    gammaPoissonFinder rng Y = none ↔ ¬ ∃ latent, IsConjugateModel .poisson .gamma 0 Y latent := by
  constructor
  · rintro h ⟨latent, hm⟩
    obtain ⟨post, hp⟩ := (C15_gamma_poisson_fires_iff rng Y latent).2 hm
    rw [h] at hp; cases hp
  · intro h
    by_contra hne
    unfold gammaPoissonFinder finder at hne
    cases hp : gammaPoissonPosterior rng Y with
    | none => simp [hp] at hne
    | some q =>
      obtain ⟨shY, rY, sY, dY, shL, rL, size, dtype, alpha, beta, hY, -⟩ :=
        gammaPoissonPosterior_some hp
      exact h ⟨_, ⟨shY, rY, sY, dY, [], rfl, hY⟩, ⟨shL, rL, size, dtype, alpha, beta, rfl⟩⟩

/-- C15, beta-binomial. -/
theorem C15_beta_binomial_fires_iff (rng Y latent : Expr) :
    (∃ post, betaBinomialFinder rng Y = some [(latent, post)]) ↔
      IsConjugateModel .binomial .beta 1 Y latent := by
  constructor
  · rintro ⟨post, h⟩
    unfold betaBinomialFinder finder at h
    cases hp : betaBinomialPosterior rng Y with
    | none => simp [hp] at h
    | some q =>
      obtain ⟨shY, rY, sY, dY, n, shL, rL, size, dtype, alpha, beta, hY, -⟩ :=
        betaBinomialPosterior_some hp
      subst hY
      simp only [hp, Expr.args?, Option.bind_some, List.getLast?, List.getLast_cons_cons,
        List.getLast_singleton, Option.some.injEq, List.cons.injEq, Prod.mk.injEq, and_true] at h
      rw [← h.1]
      exact ⟨⟨shY, rY, sY, dY, [n], rfl, rfl⟩, ⟨shL, rL, size, dtype, alpha, beta, rfl⟩⟩
  · rintro ⟨⟨shY, rY, sY, dY, ps, hps, hY⟩, ⟨shL, rL, size, dtype, alpha, beta, hL⟩⟩
    obtain ⟨n, rfl⟩ := List.length_eq_one_iff.1 hps
    subst hY hL
    exact ⟨_, rfl⟩

/-- C15, beta-binomial: nothing is returned on any other graph. -/
theorem C15_beta_binomial_none_iff (rng Y : Expr) :
    betaBinomialFinder rng Y = none ↔ ¬ ∃ latent, IsConjugateModel .binomial .beta 1 Y latent := by
  constructor
  · rintro h ⟨latent, hm⟩
    obtain ⟨post, hp⟩ := (C15_beta_binomial_fires_iff rng Y latent).2 hm
    rw [h] at hp; cases hp
  · intro h
    by_contra hne
    unfold betaBinomialFinder finder at hne
    cases hp : betaBinomialPosterior rng Y with
    | none => simp [hp] at hne
    | some q =>
      obtain ⟨shY, rY, sY, dY, n, shL, rL, size, dtype, alpha, beta, hY, -⟩ :=
        betaBinomialPosterior_some hp
      exact h ⟨_, ⟨shY, rY, sY, dY, [n], rfl, hY⟩, ⟨shL, rL, size, dtype, alpha, beta, rfl⟩⟩

/-- C15, beta-negative-binomial. -/
theorem C15_beta_nbinom_fires_iff (rng Y latent : Expr) :
    (∃ post, betaNegBinomialFinder rng Y = some [(latent, post)]) ↔
      IsConjugateModel .nbinom .beta 1 Y latent := by
  constructor
  · rintro ⟨post, h⟩
    unfold betaNegBinomialFinder finder at h
    cases hp : betaNegBinomialPosterior rng Y with
    | none => simp [hp] at h
    | some q =>
      obtain ⟨shY, rY, sY, dY, n, shL, rL, size, dtype, alpha, beta, hY, -⟩ :=
        betaNegBinomialPosterior_some hp
      subst hY
      simp only [hp, Expr.args?, Option.bind_some, List.getLast?, List.getLast_cons_cons,
        List.getLast_singleton, Option.some.injEq, List.cons.injEq, Prod.mk.injEq, and_true] at h
      rw [← h.1]
      exact ⟨⟨shY, rY, sY, dY, [n], rfl, rfl⟩, ⟨shL, rL, size, dtype, alpha, beta, rfl⟩⟩
  · rintro ⟨⟨shY, rY, sY, dY, ps, hps, hY⟩, ⟨shL, rL, size, dtype, alpha, beta, hL⟩⟩
    obtain ⟨n, rfl⟩ := List.length_eq_one_iff.1 hps
    subst hY hL
    exact ⟨_, rfl⟩

/-- C15, beta-negative-binomial: nothing is returned on any other graph. -/
theorem C15_beta_nbinom_none_iff (rng Y : Expr) :
    betaNegBinomialFinder rng Y = none ↔ ¬ ∃ latent, IsConjugateModel .nbinom .beta 1 Y latent := by
  constructor
  · rintro h ⟨latent, hm⟩
    obtain ⟨post, hp⟩ := (C15_beta_nbinom_fires_iff rng Y latent).2 hm
    rw [h] at hp; cases hp
  · intro h
    by_contra hne
    unfold betaNegBinomialFinder finder at hne
    cases hp : betaNegBinomialPosterior rng Y with
    | none => simp [hp] at hne
    | some q =>
      obtain ⟨shY, rY, sY, dY, n, shL, rL, size, dtype, alpha, beta, hY, -⟩ :=
        betaNegBinomialPosterior_some hp
      exact h ⟨_, ⟨shY, rY, sY, dY, [n], rfl, hY⟩, ⟨shL, rL, size, dtype, alpha, beta, rfl⟩⟩

/-! ## Example models, used to show that hypotheses are satisfiable -/

/-- leaves for RNG, size and dtype -/
def exRng (i : Nat) : Expr := .input i []
/-- Example size argument `()`. -/
def exSize : Expr := .const [] [some 0]
/-- Example dtype argument. -/
def exDtype : Expr := .const [0] []
/-- a scalar number -/
def exNum (q : Rat) : Expr := .const [q] []
/-- `gamma(a, rate = 1/s)` -/
def exGamma (a s : Rat) : Expr := .app (.rv .gamma) [] [exRng 100, exSize, exDtype, exNum a, exNum s]
/-- `beta(a, b)` -/
def exBeta (a b : Rat) : Expr := .app (.rv .beta) [] [exRng 100, exSize, exDtype, exNum a, exNum b]
/-- `poisson(l)` -/
def exPoisson (l : Expr) : Expr := .app (.rv .poisson) [] [exRng 101, exSize, exDtype, l]
/-- `binomial(n, p)` -/
def exBinomial (n : Rat) (p : Expr) : Expr :=
  .app (.rv .binomial) [] [exRng 101, exSize, exDtype, exNum n, p]
/-- `nbinom(n, p)` -/
def exNbinom (n : Rat) (p : Expr) : Expr :=
  .app (.rv .nbinom) [] [exRng 101, exSize, exDtype, exNum n, p]

example : IsConjugateModel .poisson .gamma 0 (exPoisson (exGamma 2 1)) (exGamma 2 1) :=
  ⟨⟨_, _, _, _, [], rfl, rfl⟩, ⟨_, _, _, _, _, _, rfl⟩⟩
example : IsConjugateModel .binomial .beta 1 (exBinomial 5 (exBeta 2 1)) (exBeta 2 1) :=
  ⟨⟨_, _, _, _, [_], rfl, rfl⟩, ⟨_, _, _, _, _, _, rfl⟩⟩
example : IsConjugateModel .nbinom .beta 1 (exNbinom 5 (exBeta 2 1)) (exBeta 2 1) :=
  ⟨⟨_, _, _, _, [_], rfl, rfl⟩, ⟨_, _, _, _, _, _, rfl⟩⟩
example : ¬ ∃ l, IsConjugateModel .poisson .gamma 0 (exPoisson (exBeta 2 1)) l := by
  rw [← C15_gamma_poisson_none_iff (exRng 0)]; rfl

/-! ## C12: beta-binomial -/

/-- C12.  Whenever the beta-binomial finder produces a step for `latent`, the number of trials does
not depend on `latent`, and the observed count is at most the number of trials, the step is
distributed as the Bayes posterior of `latent` given the observation. -/
theorem C12_beta_binomial_exact {rng Y latent post : Expr}
    (h : betaBinomialFinder rng Y = some [(latent, post)])
    {sh : SShape} {rY sY dY nE pE : Expr} (hY : Y = .app (.rv .binomial) sh [rY, sY, dY, nE, pE])
    (ρ : Env) {n y : ℕ} (hn : evalE ρ nE = some (n : ℝ)) (hread : ¬ Reads latent nE)
    (hy : ρ Y = y) (hyn : y ≤ n) {prior : Measure ℝ} (hprior : lawAt ρ latent = some prior) :
    BayesDefined prior (likAt ρ latent Y y) ∧
      lawAt ρ post = some (bayes prior (likAt ρ latent Y y)) := by
  have hm : (∃ q, betaBinomialFinder rng Y = some [(latent, q)]) := ⟨post, h⟩
  unfold betaBinomialFinder finder at h
  cases hp : betaBinomialPosterior rng Y with
  | none => simp [hp] at h
  | some q =>
    obtain ⟨shY, rY', sY', dY', n', shL, rL, size, dtype, alpha, beta, hY', hq⟩ :=
      betaBinomialPosterior_some hp
    rw [hY'] at hY
    simp only [Expr.app.injEq, List.cons.injEq, and_true, true_and] at hY
    obtain ⟨rfl, rfl, rfl, rfl, rfl, rfl⟩ := hY
    rw [hp, hY'] at h
    simp only [Expr.args?, Option.bind_some, List.getLast?, List.getLast_cons_cons,
      List.getLast_singleton, Option.some.injEq, List.cons.injEq, Prod.mk.injEq, and_true] at h
    obtain ⟨rfl, rfl⟩ := h
    obtain ⟨x, z, hx, hz, hx0, hz0, rfl⟩ := lawAt_beta_inv hprior
    have hlik : ∀ θ, likAt ρ (.app (.rv .beta) shL [rL, size, dtype, alpha, beta]) Y y θ =
        massOf (rvLaw .binomial [(n : ℝ), θ]) (y : ℝ) := by
      intro θ
      rw [likAt, hY']
      simp only [lawAt, List.mapM_cons, evalE_update hread, hn, evalE_rv, Function.update_self,
        List.mapM_nil, Option.pure_def, Option.bind_eq_bind, Option.bind_some]
    have hmeas : Measurable (likAt ρ (.app (.rv .beta) shL [rL, size, dtype, alpha, beta]) Y y) := by
      rw [funext hlik]; exact measurable_lik_binomial n y
    have hk : (y : ℝ) ≤ n := by exact_mod_cast hyn
    have hchoose : 0 < ((n.choose y : ℕ) : ℝ) := by exact_mod_cast Nat.choose_pos hyn
    have hb := bayes_beta (s := y) (t := (n : ℝ) - y) (k := (n.choose y : ℕ)) hx0 hz0
      (by positivity) (by linarith) hchoose hmeas (fun θ h0 h1 => by
        rw [hlik]
        obtain ⟨μ, h2, h3⟩ := rvLaw_binomial h0 h1 hyn
        simp only [h2, massOf, h3])
    refine ⟨hb.1, ?_⟩
    rw [hb.2, hq]
    have hYe : evalE ρ Y = some (y : ℝ) := by rw [hY', evalE_rv, ← hY', hy]
    rw [lawAt_genBeta ρ (evalE_addE ρ hx hYe) (evalE_subE ρ (evalE_addE ρ hz hn) hYe)
      (by positivity) (by linarith)]
    congr 2
    ring

/-- A concrete model meets the hypotheses of C12. -/
example : ∃ (ρ : Env) (post : Expr) (prior : Measure ℝ),
    betaBinomialFinder (exRng 0) (exBinomial 5 (exBeta 2 1)) = some [(exBeta 2 1, post)] ∧
    evalE ρ (exNum 5) = some ((5 : ℕ) : ℝ) ∧ ¬ Reads (exBeta 2 1) (exNum 5) ∧
    ρ (exBinomial 5 (exBeta 2 1)) = ((3 : ℕ) : ℝ) ∧ lawAt ρ (exBeta 2 1) = some prior := by
  refine ⟨fun _ => 3, _, betaMeasure 2 1, rfl, ?_, ?_, ?_, ?_⟩
  · simp [exNum, evalE]
  · intro h; cases h
  · norm_num
  · simp [exBeta, lawAt, exNum, evalE, rvLaw]

/-! ## C13: gamma-Poisson -/

/-- Law of the gamma-Poisson step.  When the prior node stores shape `a` and scale `c` (the user
wrote rate `1 / c`), the step is `Gamma(a + y, rate c + 1)`; the posterior is
`Gamma(a + y, rate 1 / c + 1)`. -/
theorem gamma_poisson_step_law {rng Y latent post : Expr}
    (h : gammaPoissonFinder rng Y = some [(latent, post)]) (ρ : Env) {y : ℕ} (hy : ρ Y = y)
    {sh : SShape} {r sz d aE bE : Expr} (hL : latent = .app (.rv .gamma) sh [r, sz, d, aE, bE])
    {a c : ℝ} (ha : evalE ρ aE = some a) (hc : evalE ρ bE = some c) (ha0 : 0 < a) (hc0 : 0 < c) :
    lawAt ρ latent = some (gammaMeasure a c⁻¹) ∧
      lawAt ρ post = some (gammaMeasure (a + y) (c + 1)) ∧
      BayesDefined (gammaMeasure a c⁻¹) (likAt ρ latent Y y) ∧
      bayes (gammaMeasure a c⁻¹) (likAt ρ latent Y y) = gammaMeasure (a + y) (c⁻¹ + 1) := by
  unfold gammaPoissonFinder finder at h
  cases hp : gammaPoissonPosterior rng Y with
  | none => simp [hp] at h
  | some q =>
    obtain ⟨shY, rY, sY, dY, shL, rL, size, dtype, alpha, beta, hY', hq⟩ :=
      gammaPoissonPosterior_some hp
    rw [hp, hY'] at h
    simp only [Expr.args?, Option.bind_some, List.getLast?, List.getLast_cons_cons,
      List.getLast_singleton, Option.some.injEq, List.cons.injEq, Prod.mk.injEq, and_true] at h
    obtain ⟨rfl, rfl⟩ := h
    simp only [Expr.app.injEq, List.cons.injEq, and_true, true_and] at hL
    obtain ⟨rfl, rfl, rfl, rfl, rfl, rfl⟩ := hL
    have hlik : ∀ θ, likAt ρ (.app (.rv .gamma) shL [rL, size, dtype, alpha, beta]) Y y θ =
        massOf (rvLaw .poisson [θ]) (y : ℝ) := by
      intro θ
      rw [likAt, hY']
      simp only [lawAt, List.mapM_cons, evalE_rv, Function.update_self,
        List.mapM_nil, Option.pure_def, Option.bind_eq_bind, Option.bind_some]
    have hmeas : Measurable (likAt ρ (.app (.rv .gamma) shL [rL, size, dtype, alpha, beta]) Y y) := by
      rw [funext hlik]; exact measurable_lik_poisson y
    have hb := bayes_gamma (s := y) (t := 1) (k := 1 / (Nat.factorial y)) ha0 (inv_pos.2 hc0)
      (by positivity) (by positivity) (by positivity) hmeas (fun θ h0 => by
        rw [hlik]
        obtain ⟨μ, h2, h3⟩ := rvLaw_poisson h0 y
        simp only [h2, massOf, h3])
    have hYe : evalE ρ Y = some (y : ℝ) := by rw [hY', evalE_rv, ← hY', hy]
    refine ⟨by simp [lawAt, ha, hc, rvLaw, ha0, hc0], ?_, hb.1, hb.2⟩
    rw [hq, lawAt_genGamma ρ (evalE_addE ρ ha hYe) (evalE_addE ρ hc (evalE_oneE ρ))
      (by positivity) (by positivity)]

/-- C13, exact condition.  For a prior `Gamma(a, rate b)` (the node stores `1 / b`) the step has the
posterior law if and only if `b = 1`.  Missing for the full property: every other rate, where the
code is wrong (`C13_gamma_poisson_violated`). -/
theorem C13_gamma_poisson_exact_iff_partial {rng Y latent post : Expr}
    (h : gammaPoissonFinder rng Y = some [(latent, post)]) (ρ : Env) {y : ℕ} (hy : ρ Y = y)
    {sh : SShape} {r sz d aE bE : Expr} (hL : latent = .app (.rv .gamma) sh [r, sz, d, aE, bE])
    {a b : ℝ} (ha : evalE ρ aE = some a) (hb : evalE ρ bE = some (1 / b)) (ha0 : 0 < a)
    (hb0 : 0 < b) :
    ∃ prior, lawAt ρ latent = some prior ∧ prior = gammaMeasure a b ∧
      BayesDefined prior (likAt ρ latent Y y) ∧
      (lawAt ρ post = some (bayes prior (likAt ρ latent Y y)) ↔ b = 1) := by
  have hs : 0 < 1 / b := by positivity
  obtain ⟨h1, h2, h3, h4⟩ := gamma_poisson_step_law h ρ hy hL ha hb ha0 hs
  have hinv : (1 / b)⁻¹ = b := by simp
  rw [hinv] at h1 h3 h4
  refine ⟨_, h1, rfl, h3, ?_⟩
  rw [h2, h4, Option.some.injEq]
  constructor
  · intro he
    have h5 := gammaMeasure_rate_inj (by positivity) (by positivity) (by positivity) he
    have h6 : 1 / b = b := by linarith
    have h7 : b * b = 1 := by rw [div_eq_iff hb0.ne'] at h6; linarith
    nlinarith
  · rintro rfl
    norm_num

/-- C13 is violated: for the model `l ~ Gamma(1, rate 2)`, `Y ~ Poisson(l)` and any observed count
the step does not have the posterior law. -/
theorem C13_gamma_poisson_violated (rng : Expr) (y : ℕ) :
    ∃ post, gammaPoissonFinder rng (exPoisson (exGamma 1 (1 / 2))) =
        some [(exGamma 1 (1 / 2), post)] ∧
      ∀ ρ : Env, ρ (exPoisson (exGamma 1 (1 / 2))) = y →
        ∃ prior, lawAt ρ (exGamma 1 (1 / 2)) = some prior ∧ prior = gammaMeasure 1 2 ∧
          BayesDefined prior (likAt ρ (exGamma 1 (1 / 2)) (exPoisson (exGamma 1 (1 / 2))) y) ∧
          lawAt ρ post ≠
            some (bayes prior (likAt ρ (exGamma 1 (1 / 2)) (exPoisson (exGamma 1 (1 / 2))) y)) := by
  refine ⟨_, rfl, fun ρ hy => ?_⟩
  obtain ⟨prior, h1, h2, h3, h4⟩ := C13_gamma_poisson_exact_iff_partial (rng := rng)
    (Y := exPoisson (exGamma 1 (1 / 2))) rfl ρ hy (latent := exGamma 1 (1 / 2)) rfl
    (a := 1) (b := 2) (by simp [exNum, evalE]) (by simp [exNum, evalE]) (by norm_num) (by norm_num)
  refine ⟨prior, h1, h2, h3, fun he => ?_⟩
  have := h4.1 he
  norm_num at this

/-- A concrete model meets the hypotheses of `C13_gamma_poisson_exact_iff_partial`. -/
example : ∃ (ρ : Env) (post : Expr),
    gammaPoissonFinder (exRng 0) (exPoisson (exGamma 3 1)) = some [(exGamma 3 1, post)] ∧
    evalE ρ (exNum 3) = some 3 ∧ evalE ρ (exNum 1) = some (1 / 1) ∧
    ρ (exPoisson (exGamma 3 1)) = ((4 : ℕ) : ℝ) :=
  ⟨fun _ => 4, _, rfl, by simp [exNum, evalE], by simp [exNum, evalE], by norm_num⟩

/-! ## C14: beta-negative-binomial -/

/-- C14, exact condition.  For `p ~ Beta(a, b)`, `Y ~ NegBinomial(n, p)` the step is
`Beta(a + y, b + n)`, the posterior is `Beta(a + n, b + y)`; they agree if and only if `y = n`.
Missing for the full property: every other observation, where the code is wrong
(`C14_beta_nbinom_violated`). -/
theorem C14_beta_nbinom_exact_iff_partial {rng Y latent post : Expr}
    (h : betaNegBinomialFinder rng Y = some [(latent, post)])
    {shY : SShape} {rY sY dY nE pE : Expr} (hY : Y = .app (.rv .nbinom) shY [rY, sY, dY, nE, pE])
    (ρ : Env) {n : ℝ} (hn : evalE ρ nE = some n) (hn0 : 0 < n) (hread : ¬ Reads latent nE)
    {y : ℕ} (hy : ρ Y = y) {prior : Measure ℝ} (hprior : lawAt ρ latent = some prior) :
    ∃ a b, 0 < a ∧ 0 < b ∧ prior = betaMeasure a b ∧
      BayesDefined prior (likAt ρ latent Y y) ∧
      lawAt ρ post = some (betaMeasure (a + y) (b + n)) ∧
      bayes prior (likAt ρ latent Y y) = betaMeasure (a + n) (b + y) ∧
      (lawAt ρ post = some (bayes prior (likAt ρ latent Y y)) ↔ (y : ℝ) = n) := by
  unfold betaNegBinomialFinder finder at h
  cases hp : betaNegBinomialPosterior rng Y with
  | none => simp [hp] at h
  | some q =>
    obtain ⟨shY', rY', sY', dY', n', shL, rL, size, dtype, alpha, beta, hY', hq⟩ :=
      betaNegBinomialPosterior_some hp
    rw [hY'] at hY
    simp only [Expr.app.injEq, List.cons.injEq, and_true, true_and] at hY
    obtain ⟨rfl, rfl, rfl, rfl, rfl, rfl⟩ := hY
    rw [hp, hY'] at h
    simp only [Expr.args?, Option.bind_some, List.getLast?, List.getLast_cons_cons,
      List.getLast_singleton, Option.some.injEq, List.cons.injEq, Prod.mk.injEq, and_true] at h
    obtain ⟨rfl, rfl⟩ := h
    obtain ⟨x, z, hx, hz, hx0, hz0, rfl⟩ := lawAt_beta_inv hprior
    have hlik : ∀ θ, likAt ρ (.app (.rv .beta) shL [rL, size, dtype, alpha, beta]) Y y θ =
        massOf (rvLaw .nbinom [n, θ]) (y : ℝ) := by
      intro θ
      rw [likAt, hY']
      simp only [lawAt, List.mapM_cons, evalE_update hread, hn, evalE_rv, Function.update_self,
        List.mapM_nil, Option.pure_def, Option.bind_eq_bind, Option.bind_some]
    have hmeas : Measurable (likAt ρ (.app (.rv .beta) shL [rL, size, dtype, alpha, beta]) Y y) := by
      rw [funext hlik]; exact measurable_lik_nbinom n y
    have hk : 0 < Real.Gamma (y + n) / (Real.Gamma n * (Nat.factorial y)) := by
      have h1 := Real.Gamma_pos_of_pos hn0
      have h2 : 0 < Real.Gamma (y + n) := Real.Gamma_pos_of_pos (by positivity)
      positivity
    have hb := bayes_beta (s := n) (t := y) hx0 hz0 (by positivity) (by positivity) hk hmeas
      (fun θ h0 h1 => by
        rw [hlik]
        obtain ⟨μ, h2, h3⟩ := rvLaw_nbinom hn0 h0 h1 y
        simp only [h2, massOf, h3])
    have hYe : evalE ρ Y = some (y : ℝ) := by rw [hY', evalE_rv, ← hY', hy]
    have hlaw : lawAt ρ q = some (betaMeasure (x + y) (z + n)) := by
      rw [hq, lawAt_genBeta ρ (evalE_addE ρ hx hYe) (evalE_addE ρ hz hn)
        (by positivity) (by positivity)]
    refine ⟨x, z, hx0, hz0, rfl, hb.1, hlaw, hb.2, ?_⟩
    rw [hlaw, hb.2, Option.some.injEq]
    constructor
    · intro he
      have := (betaMeasure_inj (by positivity) (by positivity) (by positivity) (by positivity) he).1
      linarith
    · intro he
      rw [he]

/-- C14 is violated: with a uniform prior, `n = 10` and no failure observed, the step does not have
the posterior law. -/
theorem C14_beta_nbinom_violated (rng : Expr) :
    ∃ post, betaNegBinomialFinder rng (exNbinom 10 (exBeta 1 1)) = some [(exBeta 1 1, post)] ∧
      ∀ ρ : Env, ρ (exNbinom 10 (exBeta 1 1)) = (0 : ℕ) →
        ∃ prior, lawAt ρ (exBeta 1 1) = some prior ∧
          BayesDefined prior (likAt ρ (exBeta 1 1) (exNbinom 10 (exBeta 1 1)) (0 : ℕ)) ∧
          lawAt ρ post ≠
            some (bayes prior (likAt ρ (exBeta 1 1) (exNbinom 10 (exBeta 1 1)) (0 : ℕ))) := by
  refine ⟨_, rfl, fun ρ hy => ?_⟩
  have hpr : lawAt ρ (exBeta 1 1) = some (betaMeasure 1 1) := by
    simp [exBeta, lawAt, exNum, evalE, rvLaw]
  obtain ⟨a, b, ha, hb, hab, hbd, -, -, hiff⟩ := C14_beta_nbinom_exact_iff_partial (rng := rng)
    (Y := exNbinom 10 (exBeta 1 1)) (latent := exBeta 1 1) rfl rfl ρ (n := 10)
    (by simp [exNum, evalE]) (by norm_num) (by intro h; cases h) hy hpr
  refine ⟨_, hpr, hbd, fun he => ?_⟩
  have := hiff.1 he
  norm_num at this

/-- A concrete model meets the hypotheses of `C14_beta_nbinom_exact_iff_partial`. -/
example : ∃ (ρ : Env) (post : Expr),
    betaNegBinomialFinder (exRng 0) (exNbinom 4 (exBeta 3 1)) = some [(exBeta 3 1, post)] ∧
    evalE ρ (exNum 4) = some 4 ∧ ¬ Reads (exBeta 3 1) (exNum 4) ∧
    ρ (exNbinom 4 (exBeta 3 1)) = ((4 : ℕ) : ℝ) ∧
    lawAt ρ (exBeta 3 1) = some (betaMeasure 3 1) :=
  ⟨fun _ => 4, _, rfl, by simp [exNum, evalE], (by intro h; cases h), by norm_num,
    by simp [exBeta, lawAt, exNum, evalE, rvLaw]⟩

end Verif.Conj
