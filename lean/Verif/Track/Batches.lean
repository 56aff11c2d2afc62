import Verif.Track.Families

/-!
# C76: data that arrive in batches
-/

open MeasureTheory ProbabilityTheory
open scoped ENNReal

namespace Verif.Track

open Verif Verif.Conj

/-! ## Beta priors -/

/-- Spec.  The posterior step built from one batch is the prior of the model for the next batch: from the
prior `L`, through the batches (each listed with the variable that stands for the probability in its
model), to the last step. -/
inductive BetaBatches (ρ : Env) : Expr → List (Expr × MixChild) → Expr → Prop
  | nil (L : Expr) : BetaBatches ρ L [] L
  | cons {L post L' : Expr} {d : MixChild} {ds : List (Expr × MixChild)} (h : IsMixChild ρ L d)
      (hp : d.kind.finder d.rng d.Y = some [(L, post)]) (hs : BetaBatches ρ post ds L') :
      BetaBatches ρ L ((L, d) :: ds) L'

/-- Spec.  The likelihood of all batches together. -/
noncomputable def batchLik (ρ : Env) (ds : List (Expr × MixChild)) (θ : ℝ) : ℝ≥0∞ :=
  (ds.map fun p => likAt ρ p.1 p.2.Y p.2.y θ).prod

/-- What the step for a batch adds to the second parameter of the beta law. -/
noncomputable def MixChild.added (d : MixChild) : ℝ :=
  match d.kind with
  | .binomial => d.n - d.y
  | .nbinom => d.n

theorem mixChild_added_nonneg {ρ : Env} {latent : Expr} {d : MixChild} (h : IsMixChild ρ latent d) :
    0 ≤ d.added := by
  have h1 := mixChild_nonneg h
  unfold MixChild.added
  unfold MixChild.succ MixChild.fail at h1
  cases hk : d.kind <;> rw [hk] at h1 <;> simp only at h1 ⊢
  · exact h1.2
  · exact h1.1

theorem beta_batches {ρ : Env} {L L' : Expr} {ds : List (Expr × MixChild)} (h : BetaBatches ρ L ds L') :
    ∀ {a b : ℝ}, 0 < a → 0 < b → lawAt ρ L = some (betaMeasure a b) →
      (lawAt ρ L' = some (betaMeasure (a + (ds.map fun p => (p.2.y : ℝ)).sum)
        (b + (ds.map fun p => p.2.added).sum))) ∧
      (0 ≤ (ds.map fun p => (p.2.y : ℝ)).sum ∧ 0 ≤ (ds.map fun p => p.2.added).sum) ∧
      (0 ≤ (ds.map fun p => p.2.succ).sum ∧ 0 ≤ (ds.map fun p => p.2.fail).sum) ∧
      Measurable (batchLik ρ ds) ∧ ∃ k, 0 < k ∧ ∀ θ, 0 < θ → θ < 1 →
        batchLik ρ ds θ = ENNReal.ofReal (k * θ ^ ((ds.map fun p => p.2.succ).sum) *
          (1 - θ) ^ ((ds.map fun p => p.2.fail).sum)) := by
  induction h with
  | nil L =>
    intro a b _ _ hl
    refine ⟨by simpa using hl, by simp, by simp, by unfold batchLik; simp, 1, one_pos, fun θ _ _ => ?_⟩
    simp [batchLik]
  | @cons L post L' d ds hd hp hs ih =>
    intro a b ha hb hl
    obtain ⟨sh, r, sz, t, aE, bE, hL, hlaw⟩ := mixChild_law hd
    obtain ⟨x, z, hx, hz, hx0, hz0, hxz⟩ := lawAt_beta_inv (hL ▸ hl)
    obtain ⟨rfl, rfl⟩ := betaMeasure_inj ha hb hx0 hz0 hxz
    obtain ⟨hpost, hm, k, hk, hlik⟩ := hlaw hx hz ha hb hp
    have hadd := mixChild_added_nonneg hd
    have hsf := mixChild_nonneg hd
    have hy : (0 : ℝ) ≤ d.y := by positivity
    have hpost' : lawAt ρ post = some (betaMeasure (a + d.y) (b + d.added)) := hpost
    obtain ⟨h1, ⟨h2, h2'⟩, ⟨h3, h3'⟩, h4, k', hk', h5⟩ := ih (by linarith) (by linarith) hpost'
    have heq : batchLik ρ ((L, d) :: ds) = fun θ => likAt ρ L d.Y d.y θ * batchLik ρ ds θ := by
      funext θ
      simp [batchLik]
    simp only [List.map_cons, List.sum_cons]
    refine ⟨by rw [h1, add_assoc, add_assoc], ⟨by linarith, by linarith⟩,
      ⟨by linarith [hsf.1], by linarith [hsf.2]⟩, heq ▸ hm.mul h4, k * k', by positivity,
      fun θ h0 h1 => ?_⟩
    have h1' : 0 < 1 - θ := by linarith
    rw [heq]
    simp only [hlik θ h0 h1, h5 θ h0 h1]
    rw [← ENNReal.ofReal_mul (by positivity), Real.rpow_add h0, Real.rpow_add h1']
    congr 1
    ring

/-- What the negative-binomial batches contribute: their counts, or their parameters. -/
noncomputable def nbPart (f : MixChild → ℝ) (ds : List (Expr × MixChild)) : ℝ :=
  (ds.map fun p => if p.2.kind = .nbinom then f p.2 else 0).sum

theorem sum_gap (ds : List (Expr × MixChild)) :
    (ds.map fun p => (p.2.y : ℝ)).sum - (ds.map fun p => p.2.succ).sum =
      nbPart (fun d => d.y) ds - nbPart MixChild.n ds ∧
    (ds.map fun p => p.2.added).sum - (ds.map fun p => p.2.fail).sum =
      nbPart MixChild.n ds - nbPart (fun d => d.y) ds := by
  induction ds with
  | nil => simp [nbPart]
  | cons p ds ih =>
    obtain ⟨i1, i2⟩ := ih
    unfold nbPart at *
    simp only [List.map_cons, List.sum_cons]
    cases hk : p.2.kind with
    | binomial =>
      have e1 : p.2.succ = p.2.y := by simp [MixChild.succ, hk]
      have e2 : p.2.fail = p.2.added := by simp [MixChild.fail, MixChild.added, hk]
      rw [e1, e2]
      simp only [reduceCtorEq, if_false]
      constructor <;> linarith
    | nbinom =>
      have e1 : p.2.succ = p.2.n := by simp [MixChild.succ, hk]
      have e2 : p.2.fail = p.2.y := by simp [MixChild.fail, hk]
      have e3 : p.2.added = p.2.n := by simp [MixChild.added, hk]
      rw [e1, e2, e3]
      simp only [if_true]
      constructor <;> linarith

/-- **C76 (partial), beta priors.** Binomial and negative-binomial observations arrive in batches, in any
number and order; after each batch the step built for it becomes the prior of the model for the next.
The law of the last step is the posterior given *all* batches if and only if the negative-binomial
batches have counts that add up to the sum of their parameters.  In particular it always is when all
batches are binomial (`C76_beta_binomial_batches`).  The full property has no condition. -/
theorem C76_beta_batches_iff_partial {ρ : Env} {L L' : Expr} {ds : List (Expr × MixChild)}
    (h : BetaBatches ρ L ds L') {sh : SShape} {r s t aE bE : Expr}
    (hL : L = .app (.rv .beta) sh [r, s, t, aE, bE]) {prior : Measure ℝ}
    (hprior : lawAt ρ L = some prior) :
    BayesDefined prior (batchLik ρ ds) ∧
      (lawAt ρ L' = some (bayes prior (batchLik ρ ds)) ↔
        nbPart (fun d => d.y) ds = nbPart MixChild.n ds) := by
  obtain ⟨a, b, -, -, ha, hb, rfl⟩ := lawAt_beta_inv (hL ▸ hprior)
  obtain ⟨h1, ⟨h2, h2'⟩, ⟨h3, h3'⟩, hm, k, hk, h5⟩ := beta_batches h ha hb hprior
  have hall := bayes_beta ha hb (by linarith) (by linarith) hk hm h5
  refine ⟨hall.1, ?_⟩
  rw [h1, hall.2, Option.some.injEq]
  obtain ⟨g1, g2⟩ := sum_gap ds
  constructor
  · intro he
    obtain ⟨e1, e2⟩ := betaMeasure_inj (by linarith) (by linarith) (by linarith) (by linarith) he
    linarith
  · intro he
    rw [he, sub_self] at g1 g2
    rw [sub_eq_zero.1 g1, sub_eq_zero.1 g2]

/-- **C76, binomial batches.** With binomial batches the last step always has the posterior law given all of
them. -/
theorem C76_beta_binomial_batches {ρ : Env} {L L' : Expr} {ds : List (Expr × MixChild)}
    (h : BetaBatches ρ L ds L') (hk : ∀ p ∈ ds, p.2.kind = .binomial) {sh : SShape}
    {r s t aE bE : Expr} (hL : L = .app (.rv .beta) sh [r, s, t, aE, bE]) {prior : Measure ℝ}
    (hprior : lawAt ρ L = some prior) :
    BayesDefined prior (batchLik ρ ds) ∧ lawAt ρ L' = some (bayes prior (batchLik ρ ds)) := by
  obtain ⟨h1, h2⟩ := C76_beta_batches_iff_partial h hL hprior
  refine ⟨h1, h2.2 ?_⟩
  have : ∀ f : MixChild → ℝ, nbPart f ds = 0 := fun f => by
    refine List.sum_eq_zero fun x hx => ?_
    obtain ⟨p, hp, rfl⟩ := List.mem_map.1 hx
    simp [hk p hp]
  rw [this, this]

/-- A binomial batch with prior `L`. -/
def exBatchB (L : Expr) (i k y : ℕ) : MixChild where
  kind := .binomial
  rng := exRng i
  Y := .app (.rv .binomial) [] [exRng (101 + i), exSize, exDtype, exNum k, L]
  nE := exNum k
  n := k
  y := y

/-- A negative-binomial batch with prior `L`. -/
def exBatchN (L : Expr) (i k y : ℕ) : MixChild where
  kind := .nbinom
  rng := exRng i
  Y := .app (.rv .nbinom) [] [exRng (101 + i), exSize, exDtype, exNum k, L]
  nE := exNum k
  n := k
  y := y

theorem isMixChild_batchB {ρ : Env} {sh : SShape} {r s t aE bE : Expr} {i k y : ℕ}
    (ho : ρ (exBatchB (.app (.rv .beta) sh [r, s, t, aE, bE]) i k y).Y = y) (hy : y ≤ k) :
    IsMixChild ρ (.app (.rv .beta) sh [r, s, t, aE, bE])
      (exBatchB (.app (.rv .beta) sh [r, s, t, aE, bE]) i k y) where
  fires := ⟨_, rfl⟩
  shape := ⟨[], exRng (101 + i), exSize, exDtype, _, rfl⟩
  param := by simp [exBatchB, exNum, evalE]
  indep := by intro h; cases h
  obs := ho
  ok := ⟨k, rfl, hy⟩

theorem isMixChild_batchN {ρ : Env} {sh : SShape} {r s t aE bE : Expr} {i k y : ℕ}
    (ho : ρ (exBatchN (.app (.rv .beta) sh [r, s, t, aE, bE]) i k y).Y = y) (hk : 0 < k) :
    IsMixChild ρ (.app (.rv .beta) sh [r, s, t, aE, bE])
      (exBatchN (.app (.rv .beta) sh [r, s, t, aE, bE]) i k y) where
  fires := ⟨_, rfl⟩
  shape := ⟨[], exRng (101 + i), exSize, exDtype, _, rfl⟩
  param := by simp [exBatchN, exNum, evalE]
  indep := by intro h; cases h
  obs := ho
  ok := by change (0 : ℝ) < (k : ℕ); exact_mod_cast hk

/-- Two successes in each of two batches of three trials. -/
example : ∃ (ρ : Env) (ds : List (Expr × MixChild)) (L' : Expr), ds.length = 2 ∧
    lawAt ρ (exBeta 2 1) = some (betaMeasure 2 1) ∧
    lawAt ρ L' = some (bayes (betaMeasure 2 1) (batchLik ρ ds)) := by
  have hpr : lawAt (fun _ => ((2 : ℕ) : ℝ)) (exBeta 2 1) = some (betaMeasure 2 1) := by
    simp [exBeta, lawAt, exNum, evalE, rvLaw]
  have hc : BetaBatches (fun _ => ((2 : ℕ) : ℝ)) (exBeta 2 1) _ _ :=
    .cons (d := exBatchB (exBeta 2 1) 0 3 2) (isMixChild_batchB rfl (by norm_num)) rfl
      (.cons (d := exBatchB _ 1 3 2) (isMixChild_batchB rfl (by norm_num)) rfl (.nil _))
  exact ⟨_, _, _, rfl, hpr, (C76_beta_binomial_batches hc (by simp [exBatchB]) (sh := []) rfl hpr).2⟩

/-- **C76 is violated** by two negative-binomial batches, with a uniform prior, parameters 10 and no failures:
the last step does not have the posterior law. -/
theorem C76_beta_nbinom_violated : ∃ (ρ : Env) (ds : List (Expr × MixChild)) (L' : Expr),
    BetaBatches ρ (exBeta 1 1) ds L' ∧ ds.length = 2 ∧ (∀ p ∈ ds, p.2.n = 10 ∧ p.2.y = 0) ∧
    lawAt ρ (exBeta 1 1) = some (betaMeasure 1 1) ∧ BayesDefined (betaMeasure 1 1) (batchLik ρ ds) ∧
    lawAt ρ L' ≠ some (bayes (betaMeasure 1 1) (batchLik ρ ds)) := by
  have hpr : lawAt (fun _ => ((0 : ℕ) : ℝ)) (exBeta 1 1) = some (betaMeasure 1 1) := by
    simp [exBeta, lawAt, exNum, evalE, rvLaw]
  have hc : BetaBatches (fun _ => ((0 : ℕ) : ℝ)) (exBeta 1 1) _ _ :=
    .cons (d := exBatchN (exBeta 1 1) 0 10 0) (isMixChild_batchN rfl (by norm_num)) rfl
      (.cons (d := exBatchN _ 1 10 0) (isMixChild_batchN rfl (by norm_num)) rfl (.nil _))
  obtain ⟨h1, h2⟩ := C76_beta_batches_iff_partial hc (sh := []) rfl hpr
  refine ⟨_, _, _, hc, rfl, by simp [exBatchN], hpr, h1, fun h => ?_⟩
  have := h2.1 h
  norm_num [nbPart, exBatchN] at this

/-! ## Gamma priors -/

/-- Spec.  The same for Poisson counts with a gamma prior. -/
inductive GammaBatches (ρ : Env) : Expr → List (Expr × PoisChild) → Expr → Prop
  | nil (L : Expr) : GammaBatches ρ L [] L
  | cons {L post L' : Expr} {d : PoisChild} {ds : List (Expr × PoisChild)} (h : ρ d.Y = d.y)
      (hp : gammaPoissonFinder d.rng d.Y = some [(L, post)]) (hs : GammaBatches ρ post ds L') :
      GammaBatches ρ L ((L, d) :: ds) L'

/-- Spec.  The likelihood of all batches together. -/
noncomputable def poisBatchLik (ρ : Env) (ds : List (Expr × PoisChild)) (θ : ℝ) : ℝ≥0∞ :=
  (ds.map fun p => likAt ρ p.1 p.2.Y p.2.y θ).prod

theorem gammaPoisson_node {rng Y L post : Expr} (h : gammaPoissonFinder rng Y = some [(L, post)]) :
    ∃ sh r s t aE bE sh' r' s' t' bE', L = .app (.rv .gamma) sh [r, s, t, aE, bE] ∧
      post = .app (.rv .gamma) sh' [r', s', t', addE aE Y, bE'] ∧
      bE' = .app (.elem .trueDiv) [] [oneE, addE bE oneE] ∧
      ∃ shY rY sY dY, Y = .app (.rv .poisson) shY [rY, sY, dY, L] := by
  unfold gammaPoissonFinder finder at h
  cases hp : gammaPoissonPosterior rng Y with
  | none => simp [hp] at h
  | some q =>
    obtain ⟨shY, rY, sY, dY, shL, rL, size, dtype, alpha, beta, hY', hq⟩ :=
      gammaPoissonPosterior_some hp
    rw [hp] at h
    nth_rewrite 1 [hY'] at h
    simp only [Expr.args?, Option.bind_some, List.getLast?, List.getLast_cons_cons,
      List.getLast_singleton, Option.some.injEq, List.cons.injEq, Prod.mk.injEq, and_true] at h
    obtain ⟨rfl, rfl⟩ := h
    exact ⟨_, _, _, _, _, _, _, _, _, _, _, rfl, hq, rfl, _, _, _, _, hY'⟩

/-- The scale the node stores after `k` batches, when it stored `c` at first. -/
noncomputable def scaleAfter : ℝ → ℕ → ℝ
  | c, 0 => c
  | c, k + 1 => scaleAfter (1 / (c + 1)) k

theorem scaleAfter_pos : ∀ (k : ℕ) {c : ℝ}, 0 < c → 0 < scaleAfter c k
  | 0, _, h => h
  | k + 1, c, h => scaleAfter_pos k (c := 1 / (c + 1)) (by positivity)

theorem half_lt_scaleAfter : ∀ (k : ℕ) {c : ℝ}, 0 < c → c < 1 → 1 / 2 < scaleAfter c (k + 1)
  | 0, c, h, h1 => by
    change 1 / 2 < 1 / (c + 1)
    exact one_div_lt_one_div_of_lt (by positivity) (by linarith)
  | k + 1, c, h, h1 =>
    half_lt_scaleAfter k (c := 1 / (c + 1)) (by positivity) (by
      rw [div_lt_one (by positivity)]; linarith)

theorem scaleAfter_eq_iff {b : ℝ} (hb : 0 < b) (k : ℕ) :
    (scaleAfter (1 / b) k)⁻¹ = b + k ↔ k = 0 ∨ k = 1 ∧ b = 1 := by
  match k with
  | 0 => simp [scaleAfter]
  | 1 =>
    simp only [scaleAfter, one_div, inv_inv, Nat.cast_one, add_left_inj, one_ne_zero, true_and,
      false_or]
    constructor
    · intro h
      rw [inv_eq_iff_eq_inv] at h
      have h7 : b * b = 1 := by nth_rewrite 1 [h]; exact inv_mul_cancel₀ hb.ne'
      nlinarith
    · rintro rfl
      norm_num
  | k + 2 =>
    have h1 : 1 / (1 / b + 1) < 1 := by
      rw [div_lt_one (by positivity)]
      have : 0 < 1 / b := by positivity
      linarith
    have h2 : 1 / 2 < scaleAfter (1 / b) (k + 2) :=
      half_lt_scaleAfter k (c := 1 / (1 / b + 1)) (by positivity) h1
    have h3 : (scaleAfter (1 / b) (k + 2))⁻¹ < 2 := by
      rw [inv_lt_comm₀ (by linarith) two_pos]
      linarith
    constructor
    · intro h
      rw [h] at h3
      have : (0 : ℝ) ≤ k := by positivity
      push_cast at h3
      linarith
    · rintro (h | ⟨h, -⟩) <;> omega

theorem gamma_batches {ρ : Env} {L L' : Expr} {ds : List (Expr × PoisChild)}
    (h : GammaBatches ρ L ds L') :
    ∀ {a c : ℝ} {sh : SShape} {r s t aE bE : Expr}, L = .app (.rv .gamma) sh [r, s, t, aE, bE] →
      evalE ρ aE = some a → evalE ρ bE = some c → 0 < a → 0 < c →
      lawAt ρ L' = some (gammaMeasure (a + (ds.map fun p => (p.2.y : ℝ)).sum)
        (scaleAfter c ds.length)⁻¹) ∧
      0 ≤ (ds.map fun p => (p.2.y : ℝ)).sum ∧
      Measurable (poisBatchLik ρ ds) ∧ ∃ k, 0 < k ∧ ∀ θ, 0 < θ →
        poisBatchLik ρ ds θ = ENNReal.ofReal (k * θ ^ ((ds.map fun p => (p.2.y : ℝ)).sum) *
          Real.exp (-((ds.length : ℝ) * θ))) := by
  induction h with
  | nil L =>
    intro a c sh r s t aE bE hL ha hc ha0 hc0
    refine ⟨?_, by simp, by unfold poisBatchLik; simp, 1, one_pos, fun θ _ => by simp [poisBatchLik]⟩
    simp [hL, lawAt, ha, hc, rvLaw, ha0, hc0, scaleAfter]
  | @cons L post L' d ds hd hp hs ih =>
    intro a c sh r s t aE bE hL ha hc ha0 hc0
    obtain ⟨sh₁, r₁, s₁, t₁, aE₁, bE₁, sh', r', s', t', bE', hL', hpost, rfl, shY, rY, sY, dY, hY⟩ :=
      gammaPoisson_node hp
    have hLL := hL.symm.trans hL'
    simp only [Expr.app.injEq, List.cons.injEq, and_true, true_and] at hLL
    obtain ⟨rfl, rfl, rfl, rfl, rfl, rfl⟩ := hLL
    have hYe : evalE ρ d.Y = some (d.y : ℝ) := by rw [hY, evalE_rv, ← hY, hd]
    have hdiv : evalE ρ (.app (.elem .trueDiv) [] [oneE, addE bE oneE]) = some (1 / (c + 1)) := by
      have h1 := evalE_addE ρ hc (evalE_oneE ρ)
      simp [evalE, h1, evalE_oneE ρ, evalE.bin]
    have hy : (0 : ℝ) ≤ d.y := by positivity
    obtain ⟨h1, h2, h3, k', hk', h5⟩ := ih hpost (evalE_addE ρ ha hYe) hdiv (by positivity)
      (by positivity)
    obtain ⟨hm, k, hk, hlik⟩ := pois_lik (latent := L) (d := d) ⟨⟨post, hp⟩, hd⟩
    have heq : poisBatchLik ρ ((L, d) :: ds) =
        fun θ => likAt ρ L d.Y d.y θ * poisBatchLik ρ ds θ := by
      funext θ
      simp [poisBatchLik]
    simp only [List.map_cons, List.sum_cons, List.length_cons]
    refine ⟨by rw [h1, add_assoc]; rfl, by linarith, heq ▸ hm.mul h3, k * k', by positivity,
      fun θ h0 => ?_⟩
    rw [heq]
    simp only [hlik θ h0, h5 θ h0]
    rw [← ENNReal.ofReal_mul (by positivity), Real.rpow_add h0]
    congr 1
    push_cast
    rw [show -(((ds.length : ℝ) + 1) * θ) = -(1 * θ) + -((ds.length : ℝ) * θ) by ring, Real.exp_add]
    ring

/-- **C76 (partial), gamma priors.** Poisson counts arrive in batches and the prior of the first is
`Gamma(a, rate b)`.  The law of the last step is the posterior given all batches if and only if there was
no batch, or one batch and `b = 1` (the condition of C13).  With two or more batches it *never* is,
whatever the prior and the counts.  The full property has no condition. -/
theorem C76_gamma_batches_iff_partial {ρ : Env} {L L' : Expr} {ds : List (Expr × PoisChild)}
    (h : GammaBatches ρ L ds L') {sh : SShape} {r s t aE bE : Expr}
    (hL : L = .app (.rv .gamma) sh [r, s, t, aE, bE]) {a b : ℝ} (ha : evalE ρ aE = some a)
    (hb : evalE ρ bE = some (1 / b)) (ha0 : 0 < a) (hb0 : 0 < b) :
    lawAt ρ L = some (gammaMeasure a b) ∧ BayesDefined (gammaMeasure a b) (poisBatchLik ρ ds) ∧
      (lawAt ρ L' = some (bayes (gammaMeasure a b) (poisBatchLik ρ ds)) ↔
        ds.length = 0 ∨ ds.length = 1 ∧ b = 1) := by
  obtain ⟨h1, h2, hm, k, hk, h5⟩ := gamma_batches h hL ha hb ha0 (by positivity)
  have hall := bayes_gamma ha0 hb0 (by linarith) (by positivity) hk hm h5
  refine ⟨by simp [hL, lawAt, ha, hb, rvLaw, ha0, hb0], hall.1, ?_⟩
  rw [h1, hall.2, Option.some.injEq, ← scaleAfter_eq_iff hb0]
  have hs := scaleAfter_pos ds.length (c := 1 / b) (by positivity)
  constructor
  · intro he
    exact (gammaMeasure_inj (by linarith) (by positivity) (by linarith) (by positivity) he).2
  · intro he
    rw [he]

/-- A Poisson batch with prior `L`. -/
def exBatchP (L : Expr) (i y : ℕ) : PoisChild where
  rng := exRng i
  Y := .app (.rv .poisson) [] [exRng (101 + i), exSize, exDtype, L]
  y := y

/-- One batch with rate 1 is handled correctly: the condition holds. -/
example (y : ℕ) : lawAt (fun _ => (y : ℝ)) (genGamma (exRng 0)
      (addE (exNum 3) (exBatchP (exGamma 3 1) 0 y).Y) (addE (exNum 1) oneE) exSize exDtype) =
    some (bayes (gammaMeasure 3 1)
      (poisBatchLik (fun _ => (y : ℝ)) [(exGamma 3 1, exBatchP (exGamma 3 1) 0 y)])) :=
  (C76_gamma_batches_iff_partial (ρ := fun _ => (y : ℝ)) (L := exGamma 3 1)
    (ds := [(exGamma 3 1, exBatchP (exGamma 3 1) 0 y)]) (.cons rfl rfl (.nil _)) (sh := []) rfl (a := 3) (b := 1)
    (by simp [exNum, evalE]) (by simp [exNum, evalE]) (by norm_num) (by norm_num)).2.2.2 (by simp)

/-- Two Poisson batches with counts `y₁` and `y₂`, and the last step. -/
def twoPois (y₁ y₂ : ℕ) : List (Expr × PoisChild) × Expr :=
  let d₁ := exBatchP (exGamma 3 1) 0 y₁
  let p₁ := genGamma d₁.rng (addE (exNum 3) d₁.Y) (addE (exNum 1) oneE) exSize exDtype
  let d₂ := exBatchP p₁ 1 y₂
  ([(exGamma 3 1, d₁), (p₁, d₂)],
    genGamma d₂.rng (addE (addE (exNum 3) d₁.Y) d₂.Y)
      (addE (.app (.elem .trueDiv) [] [oneE, addE (exNum 1) oneE]) oneE) exSize exDtype)

theorem twoPois_batches {ρ : Env} {y₁ y₂ : ℕ} (h : ∀ p ∈ (twoPois y₁ y₂).1, ρ p.2.Y = p.2.y) :
    GammaBatches ρ (exGamma 3 1) (twoPois y₁ y₂).1 (twoPois y₁ y₂).2 :=
  .cons (h _ (List.mem_cons_self ..)) rfl (.cons (h _ (List.mem_cons_of_mem _ (List.mem_cons_self ..))) rfl (.nil _))

/-- **C76 is violated** by any two Poisson batches, even with rate 1 where one batch is handled correctly. -/
theorem C76_gamma_violated {ρ : Env} {y₁ y₂ : ℕ} (h : ∀ p ∈ (twoPois y₁ y₂).1, ρ p.2.Y = p.2.y) :
    GammaBatches ρ (exGamma 3 1) (twoPois y₁ y₂).1 (twoPois y₁ y₂).2 ∧
      lawAt ρ (exGamma 3 1) = some (gammaMeasure 3 1) ∧
      BayesDefined (gammaMeasure 3 1) (poisBatchLik ρ (twoPois y₁ y₂).1) ∧
      lawAt ρ (twoPois y₁ y₂).2 ≠ some (bayes (gammaMeasure 3 1) (poisBatchLik ρ (twoPois y₁ y₂).1)) := by
  obtain ⟨h1, h2, h3⟩ := C76_gamma_batches_iff_partial (twoPois_batches h) (sh := []) rfl (a := 3) (b := 1)
    (by simp [exNum, evalE]) (by simp [exNum, evalE]) (by norm_num) (by norm_num)
  refine ⟨twoPois_batches h, h1, h2, fun he => ?_⟩
  have := h3.1 he
  simp [twoPois] at this

/-- Two batches with count 4. -/
example : ∀ p ∈ (twoPois 4 4).1, (fun _ => ((4 : ℕ) : ℝ) : Env) p.2.Y = p.2.y := by
  simp [twoPois, exBatchP]

end Verif.Track
