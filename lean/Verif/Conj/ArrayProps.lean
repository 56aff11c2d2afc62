import Verif.Conj.ArrayLemmas

/-!
# Property C57: conjugate steps on arrays

The observed array has `m` entries and the latent array `k` entries, flattened; entry `i` of the
observed array reads entry `φ i` of the latent array (elementwise broadcasting).  `ρ i` gives the
values read for entry `i` of the observed array.
-/

open MeasureTheory ProbabilityTheory
open scoped ENNReal NNReal

namespace Verif.Conj

open Verif

variable {k m : ℕ}

/-- Spec.  The posterior of a latent array with independent entries of laws `priors`, given the
whole observed array `y`. -/
noncomputable def arrayPosterior (ρ : Fin m → Env) (latent Y : Expr) (priors : Fin k → Measure ℝ)
    (φ : Fin m → Fin k) (y : Fin m → ℕ) : Measure (Fin k → ℝ) :=
  bayes (Measure.pi priors) fun θ => ∏ i, likAt (ρ i) latent Y (y i) (θ (φ i))

/-- Spec.  The draws of the step `post`, one for each entry of the observed array and independent of
each other, have together the law of the latent entries these entries read, under the posterior. -/
def ArrayStepExact (ρ : Fin m → Env) (latent Y post : Expr) (priors : Fin k → Measure ℝ)
    (φ : Fin m → Fin k) (y : Fin m → ℕ) : Prop :=
  ∃ laws : Fin m → Measure ℝ, (∀ i, lawAt (ρ i) post = some (laws i)) ∧
    Measure.pi laws = (arrayPosterior ρ latent Y priors φ y).map fun θ i => θ (φ i)

theorem arrayStepExact_iff {ρ : Fin m → Env} {latent Y post : Expr} {priors : Fin k → Measure ℝ}
    {φ : Fin m → Fin k} {y : Fin m → ℕ} {laws : Fin m → Measure ℝ}
    (h : ∀ i, lawAt (ρ i) post = some (laws i)) :
    ArrayStepExact ρ latent Y post priors φ y ↔
      Measure.pi laws = (arrayPosterior ρ latent Y priors φ y).map fun θ i => θ (φ i) := by
  constructor
  · rintro ⟨laws', h', he⟩
    have : laws' = laws := funext fun i => Option.some.inj ((h' i).symm.trans (h i))
    rwa [this] at he
  · exact fun he => ⟨laws, h, he⟩

/-- C57, beta-binomial.  For arrays of any size the step draws from the joint posterior if and only
if no latent entry is read by two observed entries.  Missing for the full property: several
observations of one latent entry, where the code is wrong (`C57_repeated_violated`). -/
theorem C57_beta_binomial_array_iff_partial {rng Y latent post : Expr}
    (h : betaBinomialFinder rng Y = some [(latent, post)])
    {sh : SShape} {rY sY dY nE pE : Expr} (hY : Y = .app (.rv .binomial) sh [rY, sY, dY, nE, pE])
    (ρ : Fin m → Env) {n y : Fin m → ℕ} (hn : ∀ i, evalE (ρ i) nE = some (n i : ℝ))
    (hread : ¬ Reads latent nE) (hy : ∀ i, ρ i Y = y i) (hyn : ∀ i, y i ≤ n i)
    {priors : Fin k → Measure ℝ} [∀ j, IsProbabilityMeasure (priors j)] {φ : Fin m → Fin k}
    (hprior : ∀ i, lawAt (ρ i) latent = some (priors (φ i))) :
    ArrayStepExact ρ latent Y post priors φ y ↔ Function.Injective φ := by
  have hm := (C15_beta_binomial_fires_iff rng Y latent).1 ⟨post, h⟩
  have hex := fun i => C12_beta_binomial_exact h hY (ρ i) (hn i) hread (hy i) (hyn i) (hprior i)
  have hp : ∀ i, IsProbabilityMeasure (bayes (priors (φ i)) (likAt (ρ i) latent Y (y i))) := fun i =>
    isProbabilityMeasure_bayes (hex i).1
  rw [arrayStepExact_iff fun i => (hex i).2, arrayPosterior,
    array_law_iff priors φ (fun i => (measurable_likAt_binomial hm hY (hn i) hread (y i)).1)
      (fun i => (hex i).1) (fun i => bayes (priors (φ i)) (likAt (ρ i) latent Y (y i)))]
  · simp
  · intro i x
    obtain ⟨-, ⟨shL, rL, sL, dL, a, b, hL⟩⟩ := hm
    have h1 := hprior i
    rw [hL] at h1
    obtain ⟨a', b', -, -, -, -, hpr⟩ := lawAt_beta_inv h1
    rw [bayes, Measure.smul_apply, withDensity_absolutelyContinuous _ _ (hpr ▸ betaMeasure_atom _ _ _),
      smul_zero]

/-- C57, gamma-Poisson.  For arrays of any size the step draws from the joint posterior if and only
if no latent entry is read by two observed entries and every rate is one.  Missing for the full
property: all other models, where the code is wrong. -/
theorem C57_gamma_poisson_array_iff_partial {rng Y latent post : Expr}
    (h : gammaPoissonFinder rng Y = some [(latent, post)]) (ρ : Fin m → Env) {y : Fin m → ℕ}
    (hy : ∀ i, ρ i Y = y i)
    {sh : SShape} {r sz d aE bE : Expr} (hL : latent = .app (.rv .gamma) sh [r, sz, d, aE, bE])
    {a b : Fin m → ℝ} (ha : ∀ i, evalE (ρ i) aE = some (a i))
    (hb : ∀ i, evalE (ρ i) bE = some (1 / b i)) (ha0 : ∀ i, 0 < a i) (hb0 : ∀ i, 0 < b i)
    {priors : Fin k → Measure ℝ} [∀ j, IsProbabilityMeasure (priors j)] {φ : Fin m → Fin k}
    (hprior : ∀ i, lawAt (ρ i) latent = some (priors (φ i))) :
    ArrayStepExact ρ latent Y post priors φ y ↔ Function.Injective φ ∧ ∀ i, b i = 1 := by
  have hm := (C15_gamma_poisson_fires_iff rng Y latent).1 ⟨post, h⟩
  have hstep := fun i => gamma_poisson_step_law h (ρ i) (hy i) hL (ha i) (hb i) (ha0 i)
    (one_div_pos.2 (hb0 i))
  have hex := fun i => C13_gamma_poisson_exact_iff_partial h (ρ i) (hy i) hL (ha i) (hb i) (ha0 i) (hb0 i)
  have hp : ∀ i, IsProbabilityMeasure (gammaMeasure (a i + y i) (1 / b i + 1)) := fun i =>
    isProbabilityMeasure_gammaMeasure (add_pos_of_pos_of_nonneg (ha0 i) (Nat.cast_nonneg _))
      (by have := hb0 i; positivity)
  have hd : ∀ i, BayesDefined (priors (φ i)) (likAt (ρ i) latent Y (y i)) ∧
      (lawAt (ρ i) post = some (bayes (priors (φ i)) (likAt (ρ i) latent Y (y i))) ↔ b i = 1) := by
    intro i
    obtain ⟨prior, h1, -, h3, h4⟩ := hex i
    rw [hprior i, Option.some.injEq] at h1
    subst h1
    exact ⟨h3, h4⟩
  rw [arrayStepExact_iff fun i => (hstep i).2.1, arrayPosterior,
    array_law_iff priors φ (fun i => measurable_likAt_poisson hm (ρ i) (y i)) (fun i => (hd i).1)
      (fun i => gammaMeasure (a i + y i) (1 / b i + 1)) fun i x => gammaMeasure_atom _ _ _]
  refine and_congr_right fun _ => forall_congr' fun i => ?_
  rw [← (hd i).2, (hstep i).2.1, Option.some.injEq]

/-- C57, beta-negative-binomial.  For arrays of any size the step draws from the joint posterior if
and only if no latent entry is read by two observed entries and every observation equals its number
of successes.  Missing for the full property: all other models, where the code is wrong. -/
theorem C57_beta_nbinom_array_iff_partial {rng Y latent post : Expr}
    (h : betaNegBinomialFinder rng Y = some [(latent, post)])
    {shY : SShape} {rY sY dY nE pE : Expr} (hY : Y = .app (.rv .nbinom) shY [rY, sY, dY, nE, pE])
    (ρ : Fin m → Env) {n : Fin m → ℝ} (hn : ∀ i, evalE (ρ i) nE = some (n i)) (hn0 : ∀ i, 0 < n i)
    (hread : ¬ Reads latent nE) {y : Fin m → ℕ} (hy : ∀ i, ρ i Y = y i)
    {priors : Fin k → Measure ℝ} [∀ j, IsProbabilityMeasure (priors j)] {φ : Fin m → Fin k}
    (hprior : ∀ i, lawAt (ρ i) latent = some (priors (φ i))) :
    ArrayStepExact ρ latent Y post priors φ y ↔
      Function.Injective φ ∧ ∀ i, (y i : ℝ) = n i := by
  have hm := (C15_beta_nbinom_fires_iff rng Y latent).1 ⟨post, h⟩
  choose a b ha hb hpr hd hlaw hpost hiff using fun i =>
    C14_beta_nbinom_exact_iff_partial h hY (ρ i) (hn i) (hn0 i) hread (hy i) (hprior i)
  have hp : ∀ i, IsProbabilityMeasure (betaMeasure (a i + y i) (b i + n i)) := fun i =>
    isProbabilityMeasureBeta (add_pos_of_pos_of_nonneg (ha i) (Nat.cast_nonneg _))
      (add_pos (hb i) (hn0 i))
  rw [arrayStepExact_iff hlaw, arrayPosterior,
    array_law_iff priors φ (fun i => measurable_likAt_nbinom hm hY (hn i) hread (y i)) hd
      (fun i => betaMeasure (a i + y i) (b i + n i)) fun i x => betaMeasure_atom _ _ _]
  refine and_congr_right fun _ => forall_congr' fun i => ?_
  rw [← hiff i, hlaw i, Option.some.injEq]

/-- C57, one entry.  The draw for observed entry `i` alone has the posterior law of the latent entry
it reads, given the whole observed array, if and only if every other observed entry reading the same
latent entry has no trials.  Missing for the full property: several informative observations. -/
theorem C57_beta_binomial_entry_iff_partial {rng Y latent post : Expr}
    (h : betaBinomialFinder rng Y = some [(latent, post)])
    {sh : SShape} {rY sY dY nE pE : Expr} (hY : Y = .app (.rv .binomial) sh [rY, sY, dY, nE, pE])
    (ρ : Fin m → Env) {n y : Fin m → ℕ} (hn : ∀ i, evalE (ρ i) nE = some (n i : ℝ))
    (hread : ¬ Reads latent nE) (hy : ∀ i, ρ i Y = y i) (hyn : ∀ i, y i ≤ n i)
    {priors : Fin k → Measure ℝ} [∀ j, IsProbabilityMeasure (priors j)] {φ : Fin m → Fin k}
    (hprior : ∀ i, lawAt (ρ i) latent = some (priors (φ i))) (i : Fin m) :
    lawAt (ρ i) post = some ((arrayPosterior ρ latent Y priors φ y).map fun θ => θ (φ i)) ↔
      ∀ i', i' ≠ i → φ i' = φ i → n i' = 0 := by
  have hm := (C15_beta_binomial_fires_iff rng Y latent).1 ⟨post, h⟩
  have hl := fun i => measurable_likAt_binomial hm hY (hn i) hread (y i)
  have hbeta : ∀ i, ∃ a b, 0 < a ∧ 0 < b ∧ priors (φ i) = betaMeasure a b := by
    intro i
    obtain ⟨-, ⟨shL, rL, sL, dL, a, b, hL⟩⟩ := hm
    have h1 := hprior i
    rw [hL] at h1
    obtain ⟨a', b', -, -, ha, hb, hpr⟩ := lawAt_beta_inv h1
    exact ⟨a', b', ha, hb, hpr⟩
  -- the posterior of one latent entry given the observations reading it
  have hfib : ∀ i a b, 0 < a → 0 < b → priors (φ i) = betaMeasure a b → ∀ S : Finset (Fin m),
      BayesDefined (priors (φ i)) (fun x => ∏ i' ∈ S, likAt (ρ i') latent Y (y i') x) ∧
      bayes (priors (φ i)) (fun x => ∏ i' ∈ S, likAt (ρ i') latent Y (y i') x) =
        betaMeasure (a + ∑ i' ∈ S, (y i' : ℝ)) (b + ∑ i' ∈ S, ((n i' : ℝ) - y i')) := by
    intro i a b ha hb hpr S
    obtain ⟨c, hc, hprod⟩ := prod_binomial S (fun i' _ => hyn i') fun i' _ => (hl i').2 (hyn i')
    have h1 : 0 ≤ ∑ i' ∈ S, (y i' : ℝ) := Finset.sum_nonneg fun _ _ => Nat.cast_nonneg _
    have h2 : 0 ≤ ∑ i' ∈ S, ((n i' : ℝ) - y i') := Finset.sum_nonneg fun i' _ => by
      have : (y i' : ℝ) ≤ n i' := by exact_mod_cast hyn i'
      linarith
    rw [hpr]
    exact bayes_beta ha hb (by linarith) (by linarith) hc
      (Finset.measurable_prod _ fun i' _ => (hl i').1) hprod
  have hml : ∀ j, Measurable fun x => ∏ i' with φ i' = j, likAt (ρ i') latent Y (y i') x := fun j =>
    Finset.measurable_prod _ fun i' _ => (hl i').1
  have hdj : ∀ j, BayesDefined (priors j) fun x => ∏ i' with φ i' = j, likAt (ρ i') latent Y (y i') x := by
    intro j
    by_cases hj : ∃ i, φ i = j
    · obtain ⟨i, rfl⟩ := hj
      obtain ⟨a, b, ha, hb, hpr⟩ := hbeta i
      exact (hfib i a b ha hb hpr _).1
    · have : (Finset.univ.filter fun i' => φ i' = j) = ∅ := by
        ext i'
        simp only [Finset.mem_filter, Finset.mem_univ, true_and, Finset.notMem_empty, iff_false]
        exact fun h => hj ⟨i', h⟩
      simp [this, BayesDefined]
  have hlik : (fun θ : Fin k → ℝ => ∏ i, likAt (ρ i) latent Y (y i) (θ (φ i))) =
      fun θ => ∏ j, (fun x => ∏ i' with φ i' = j, likAt (ρ i') latent Y (y i') x) (θ j) := by
    funext θ
    rw [prod_fibre φ]
    refine Finset.prod_congr rfl fun j _ => Finset.prod_congr rfl fun i hi => ?_
    rw [(Finset.mem_filter.1 hi).2]
  have hp : ∀ j, IsProbabilityMeasure
      (bayes (priors j) fun x => ∏ i' with φ i' = j, likAt (ρ i') latent Y (y i') x) := fun j =>
    isProbabilityMeasure_bayes (hdj j)
  obtain ⟨a, b, ha, hb, hpr⟩ := hbeta i
  have hmarg : (arrayPosterior ρ latent Y priors φ y).map (fun θ => θ (φ i)) =
      betaMeasure (a + ∑ i' with φ i' = φ i, (y i' : ℝ))
        (b + ∑ i' with φ i' = φ i, ((n i' : ℝ) - y i')) := by
    rw [arrayPosterior, hlik, (bayes_pi priors hml hdj).2, (measurePreserving_eval _ (φ i)).map_eq]
    exact (hfib i a b ha hb hpr _).2
  have hstep : lawAt (ρ i) post = some (betaMeasure (a + y i) (b + ((n i : ℝ) - y i))) := by
    rw [(C12_beta_binomial_exact h hY (ρ i) (hn i) hread (hy i) (hyn i) (hprior i)).2]
    have := (hfib i a b ha hb hpr {i}).2
    simpa using this
  have hi : i ∈ Finset.univ.filter fun i' => φ i' = φ i := by simp
  have hsub : ∀ i', (0 : ℝ) ≤ (n i' : ℝ) - y i' := fun i' => by
    have : (y i' : ℝ) ≤ n i' := by exact_mod_cast hyn i'
    linarith
  have hs1 : ∑ i' with φ i' = φ i, (y i' : ℝ) =
      y i + ∑ i' ∈ (Finset.univ.filter fun i' => φ i' = φ i).erase i, (y i' : ℝ) :=
    (Finset.add_sum_erase _ _ hi).symm
  have hs2 : ∑ i' with φ i' = φ i, ((n i' : ℝ) - y i') = ((n i : ℝ) - y i) +
      ∑ i' ∈ (Finset.univ.filter fun i' => φ i' = φ i).erase i, ((n i' : ℝ) - y i') :=
    (Finset.add_sum_erase _ (fun i' => (n i' : ℝ) - y i') hi).symm
  have hz1 : 0 ≤ ∑ i' ∈ (Finset.univ.filter fun i' => φ i' = φ i).erase i, (y i' : ℝ) :=
    Finset.sum_nonneg fun _ _ => Nat.cast_nonneg _
  have hz2 : 0 ≤ ∑ i' ∈ (Finset.univ.filter fun i' => φ i' = φ i).erase i, ((n i' : ℝ) - y i') :=
    Finset.sum_nonneg fun i' _ => hsub i'
  have hyi : (0 : ℝ) ≤ y i := Nat.cast_nonneg _
  rw [hstep, hmarg, Option.some.injEq, hs1, hs2]
  constructor
  · intro he i' hne hφ
    obtain ⟨e1, e2⟩ := betaMeasure_inj (by linarith) (by linarith [hsub i]) (by linarith)
      (by linarith [hsub i]) he
    have hi' : i' ∈ (Finset.univ.filter fun i' => φ i' = φ i).erase i := by simp [hne, hφ]
    have e1' := (Finset.sum_eq_zero_iff_of_nonneg fun _ _ => Nat.cast_nonneg _).1
      (show ∑ i' ∈ (Finset.univ.filter fun i' => φ i' = φ i).erase i, (y i' : ℝ) = 0 by linarith) i' hi'
    have e2' := (Finset.sum_eq_zero_iff_of_nonneg fun i' _ => hsub i').1
      (show ∑ i' ∈ (Finset.univ.filter fun i' => φ i' = φ i).erase i, ((n i' : ℝ) - y i') = 0 by
        linarith) i' hi'
    have : (n i' : ℝ) = 0 := by linarith
    exact_mod_cast this
  · intro h0
    have hzero : ∀ i' ∈ (Finset.univ.filter fun i' => φ i' = φ i).erase i,
        n i' = 0 ∧ y i' = 0 := by
      intro i' hi'
      rw [Finset.mem_erase, Finset.mem_filter] at hi'
      have := h0 i' hi'.1 hi'.2.2
      exact ⟨this, by have := hyn i'; omega⟩
    rw [Finset.sum_eq_zero fun i' hi' => by simp [(hzero i' hi').2],
      Finset.sum_eq_zero fun i' hi' => by simp [(hzero i' hi').1, (hzero i' hi').2]]
    simp

/-- `beta(a, b, size=(k,))` -/
def exBetaArr (k : Nat) (a b : Rat) : Expr :=
  .app (.rv .beta) [some k] [exRng 100, .const [(k : Rat)] [some 1], exDtype, exNum a, exNum b]
/-- `binomial(n, p, size=(k,))` -/
def exBinomialArr (k : Nat) (n : Rat) (p : Expr) : Expr :=
  .app (.rv .binomial) [some k] [exRng 101, .const [(k : Rat)] [some 1], exDtype, exNum n, p]

/-- C57 is violated: one probability with a uniform prior and two observed coin tosses.  The step is
built from the joint model, and neither its two draws together nor one of them alone has the
posterior law, whatever was observed. -/
theorem C57_repeated_violated (rng : Expr) (y : Fin 2 → ℕ) (hy1 : ∀ i, y i ≤ 1) (ρ : Fin 2 → Env)
    (hy : ∀ i, ρ i (exBinomialArr 2 1 (exBeta 1 1)) = y i) :
    ∃ post, betaBinomialFinder rng (exBinomialArr 2 1 (exBeta 1 1)) = some [(exBeta 1 1, post)] ∧
      (∀ i, lawAt (ρ i) (exBeta 1 1) = some (betaMeasure 1 1)) ∧
      ¬ ArrayStepExact ρ (exBeta 1 1) (exBinomialArr 2 1 (exBeta 1 1)) post
        (fun _ : Fin 1 => betaMeasure 1 1) (fun _ => 0) y ∧
      ∀ i, lawAt (ρ i) post ≠ some ((arrayPosterior ρ (exBeta 1 1) (exBinomialArr 2 1 (exBeta 1 1))
        (fun _ : Fin 1 => betaMeasure 1 1) (fun _ => 0) y).map fun θ => θ 0) := by
  have hp : IsProbabilityMeasure (betaMeasure 1 1) := isProbabilityMeasureBeta one_pos one_pos
  have hprior : ∀ i, lawAt (ρ i) (exBeta 1 1) = some (betaMeasure 1 1) := fun i => by
    simp [exBeta, lawAt, exNum, evalE, rvLaw]
  have hn : ∀ i, evalE (ρ i) (exNum 1) = some (((fun _ => 1 : Fin 2 → ℕ) i : ℕ) : ℝ) := fun i => by
    simp [exNum, evalE]
  have hread : ¬ Reads (exBeta 1 1) (exNum 1) := by intro h; cases h
  refine ⟨_, rfl, hprior, ?_, ?_⟩
  · rw [C57_beta_binomial_array_iff_partial (rng := rng)
      (latent := exBeta 1 1) (Y := exBinomialArr 2 1 (exBeta 1 1)) rfl rfl ρ hn hread hy hy1
      (priors := fun _ : Fin 1 => betaMeasure 1 1) (φ := fun _ => 0) hprior]
    intro h
    exact absurd (h (a₁ := 0) (a₂ := 1) rfl) (by decide)
  · intro i
    rw [Ne, C57_beta_binomial_entry_iff_partial (rng := rng)
      (latent := exBeta 1 1) (Y := exBinomialArr 2 1 (exBeta 1 1)) rfl rfl ρ hn hread hy hy1
      (priors := fun _ : Fin 1 => betaMeasure 1 1) (φ := fun _ => 0) hprior i]
    intro h
    have h1 : i + 1 ≠ i := by fin_cases i <;> decide
    exact absurd (h (i + 1) h1 rfl) (by norm_num)

/-- Three probabilities with one observation each: the hypotheses hold and the step is exact. -/
example : ∃ (ρ : Fin 3 → Env) (post : Expr),
    betaBinomialFinder (exRng 0) (exBinomialArr 3 5 (exBetaArr 3 2 1)) = some [(exBetaArr 3 2 1, post)] ∧
    ArrayStepExact ρ (exBetaArr 3 2 1) (exBinomialArr 3 5 (exBetaArr 3 2 1)) post
      (fun _ : Fin 3 => betaMeasure 2 1) id ![0, 3, 5] := by
  have hp : IsProbabilityMeasure (betaMeasure 2 1) := isProbabilityMeasureBeta two_pos one_pos
  refine ⟨fun i _ => ((![0, 3, 5] : Fin 3 → ℕ) i : ℝ), _, rfl, ?_⟩
  exact (C57_beta_binomial_array_iff_partial (rng := exRng 0) (latent := exBetaArr 3 2 1)
    (Y := exBinomialArr 3 5 (exBetaArr 3 2 1)) rfl rfl _ (n := fun _ => 5)
    (fun i => by simp [exNum, evalE]) (by intro h; cases h) (fun i => rfl)
    (fun i => by fin_cases i <;> simp) (φ := id)
    (fun i => by simp [exBetaArr, lawAt, exNum, evalE, rvLaw])).2 Function.injective_id

/-- Two Poisson rates, one count each, unit prior rate: exact. -/
example : ∃ (ρ : Fin 2 → Env) (post : Expr),
    gammaPoissonFinder (exRng 0) (exPoisson (exGamma 3 1)) = some [(exGamma 3 1, post)] ∧
    ArrayStepExact ρ (exGamma 3 1) (exPoisson (exGamma 3 1)) post
      (fun _ : Fin 2 => gammaMeasure 3 1) id ![4, 0] := by
  have hp : IsProbabilityMeasure (gammaMeasure 3 1) := isProbabilityMeasure_gammaMeasure three_pos one_pos
  refine ⟨fun i _ => ((![4, 0] : Fin 2 → ℕ) i : ℝ), _, rfl, ?_⟩
  exact (C57_gamma_poisson_array_iff_partial (rng := exRng 0) (latent := exGamma 3 1)
    (Y := exPoisson (exGamma 3 1)) rfl _ (fun i => rfl) rfl (a := fun _ => 3) (b := fun _ => 1)
    (fun i => by simp [exNum, evalE]) (fun i => by simp [exNum, evalE]) (fun _ => three_pos)
    (fun _ => one_pos) (φ := id) (fun i => by simp [exGamma, lawAt, exNum, evalE, rvLaw])).2
    ⟨Function.injective_id, fun _ => rfl⟩

/-- Two negative binomial observations equal to their number of successes: exact. -/
example : ∃ (ρ : Fin 2 → Env) (post : Expr),
    betaNegBinomialFinder (exRng 0) (exNbinom 4 (exBeta 3 1)) = some [(exBeta 3 1, post)] ∧
    ArrayStepExact ρ (exBeta 3 1) (exNbinom 4 (exBeta 3 1)) post
      (fun _ : Fin 2 => betaMeasure 3 1) id (fun _ => 4) := by
  have hp : IsProbabilityMeasure (betaMeasure 3 1) := isProbabilityMeasureBeta three_pos one_pos
  refine ⟨fun _ _ => 4, _, rfl, ?_⟩
  exact (C57_beta_nbinom_array_iff_partial (rng := exRng 0) (latent := exBeta 3 1)
    (Y := exNbinom 4 (exBeta 3 1)) rfl rfl _ (n := fun _ => 4)
    (fun i => by simp [exNum, evalE]) (fun _ => four_pos) (by intro h; cases h) (fun i => by simp)
    (φ := id) (fun i => by simp [exBeta, lawAt, exNum, evalE, rvLaw])).2
    ⟨Function.injective_id, fun _ => by norm_num⟩

end Verif.Conj
