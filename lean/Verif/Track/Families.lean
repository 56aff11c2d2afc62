import Verif.Track.Children
import Verif.Horseshoe.Tail

/-!
# C05: several observed children of one latent, the other conjugate families
-/

open MeasureTheory ProbabilityTheory
open scoped ENNReal

namespace Verif.Track

open Verif Verif.Conj

/-- Each of the visited variables has an answer for `latent` alone: the step taken is the last one. -/
theorem pick_last {latent : Expr} {vs : List (Visit Expr Expr)} {v : Visit Expr Expr}
    (hnd : ((vs ++ [v]).map Visit.rv).Nodup)
    (hfire : ∀ u ∈ vs ++ [v], ∃ post, u.answer = some [(latent, post)]) {post : Expr}
    (hp : v.answer = some [(latent, post)]) :
    pick (run Tracker.empty (vs ++ [v])) latent = some (v.name, post) := by
  rw [C04_pick, firsts_of_nodup]
  · rw [List.flatMap_append, List.flatMap_singleton]
    have : stepsFor latent v = [(v.name, post)] := by simp [stepsFor, Visit.steps, hp]
    rw [this]
    simp
  · refine List.Nodup.of_map Prod.snd ?_
    rw [List.map_map]
    exact hnd
  · intro u hu
    obtain ⟨q, hq⟩ := hfire u hu
    simp [Visit.steps, hq]

/-! ## A beta latent with binomial and negative-binomial children -/

/-- Spec.  Which kind of observed child a beta latent has. -/
inductive Kind
  | binomial | nbinom
deriving DecidableEq

/-- Spec.  The distribution of a child. -/
def Kind.dist : Kind → Dist
  | .binomial => .binomial
  | .nbinom => .nbinom

/-- The finder that answers for a child of this kind, and a name for it. -/
def Kind.finder : Kind → Expr → Expr → Option (List (Expr × Expr))
  | .binomial => betaBinomialFinder
  | .nbinom => betaNegBinomialFinder

/-- Names of the two finders. -/
def Kind.name : Kind → Nat
  | .binomial => 0
  | .nbinom => 1

/-- Spec.  An observed child of a beta latent: its kind, the RNG its step would use, the variable, its
number of trials or of successes to wait for (expression and value) and the observed count. -/
structure MixChild where
  kind : Kind
  rng : Expr
  Y : Expr
  nE : Expr
  n : ℝ
  y : ℕ

/-- Spec.  `d` is an observed child of `latent` on which the finder for its kind fires; its first
parameter has an admissible value that does not depend on the latent. -/
structure IsMixChild (ρ : Env) (latent : Expr) (d : MixChild) : Prop where
  fires : ∃ post, d.kind.finder d.rng d.Y = some [(latent, post)]
  shape : ∃ sh rY sY dY pE, d.Y = .app (.rv d.kind.dist) sh [rY, sY, dY, d.nE, pE]
  param : evalE ρ d.nE = some d.n
  indep : ¬ Reads latent d.nE
  obs : ρ d.Y = d.y
  ok : match d.kind with
    | .binomial => ∃ k : ℕ, d.n = k ∧ d.y ≤ k
    | .nbinom => 0 < d.n

/-- Spec.  Successes seen: the exponent of `θ` in the likelihood of the child. -/
noncomputable def MixChild.succ (d : MixChild) : ℝ :=
  match d.kind with
  | .binomial => d.y
  | .nbinom => d.n

/-- Spec.  Failures seen: the exponent of `1 - θ` in the likelihood of the child. -/
noncomputable def MixChild.fail (d : MixChild) : ℝ :=
  match d.kind with
  | .binomial => d.n - d.y
  | .nbinom => d.y

/-- The search calls the finder of its kind once on every child, in this order. -/
def mixHistory (cs : List MixChild) : List (Visit Expr Expr) :=
  cs.map fun d => ⟨d.kind.name, d.Y, d.kind.finder d.rng d.Y⟩

/-- Spec.  The likelihood of all children together. -/
noncomputable def mixLik (ρ : Env) (latent : Expr) (cs : List MixChild) (θ : ℝ) : ℝ≥0∞ :=
  (cs.map fun d => likAt ρ latent d.Y d.y θ).prod

theorem mixChild_nonneg {ρ : Env} {latent : Expr} {d : MixChild} (h : IsMixChild ρ latent d) :
    0 ≤ d.succ ∧ 0 ≤ d.fail := by
  have hok := h.ok
  unfold MixChild.succ MixChild.fail
  cases hk : d.kind with
  | binomial =>
    rw [hk] at hok
    obtain ⟨k, h1, h2⟩ := hok
    have : (d.y : ℝ) ≤ k := by exact_mod_cast h2
    exact ⟨by positivity, by simp only [h1]; linarith⟩
  | nbinom =>
    rw [hk] at hok
    exact ⟨le_of_lt hok, by positivity⟩

theorem mixChild_law {ρ : Env} {latent : Expr} {d : MixChild} (h : IsMixChild ρ latent d) :
    ∃ sh r sz t aE bE, latent = .app (.rv .beta) sh [r, sz, t, aE, bE] ∧
      ∀ {a b : ℝ}, evalE ρ aE = some a → evalE ρ bE = some b → 0 < a → 0 < b → ∀ {post : Expr},
        d.kind.finder d.rng d.Y = some [(latent, post)] →
        lawAt ρ post = some (betaMeasure (a + d.y)
            (b + match d.kind with | .binomial => d.n - d.y | .nbinom => d.n)) ∧
        Measurable (likAt ρ latent d.Y d.y) ∧ ∃ k, 0 < k ∧
          ∀ θ, 0 < θ → θ < 1 → likAt ρ latent d.Y d.y θ =
            ENNReal.ofReal (k * θ ^ d.succ * (1 - θ) ^ d.fail) := by
  obtain ⟨⟨post₀, hf⟩, ⟨shY, rY, sY, dY, pE, hY⟩, hn, hread, hy, hok⟩ := h
  obtain ⟨kind, rng, Y, nE, n, y⟩ := d
  cases kind with
  | binomial =>
    simp only [Kind.finder, Kind.dist, MixChild.succ, MixChild.fail] at *
    obtain ⟨k, rfl, hk⟩ := hok
    have hc : IsChild ρ latent ⟨rng, Y, nE, k, y⟩ :=
      ⟨⟨post₀, hf⟩, ⟨shY, rY, sY, dY, pE, hY⟩, hn, hread, hy, hk⟩
    have hf' := hf
    unfold betaBinomialFinder finder at hf'
    cases hq : betaBinomialPosterior rng Y with
    | none => simp [hq] at hf'
    | some q =>
      obtain ⟨_, _, _, _, _, sh, r, sz, t, aE, bE, hY', -⟩ := betaBinomialPosterior_some hq
      rw [hq, hY'] at hf'
      simp only [Expr.args?, Option.bind_some, List.getLast?, List.getLast_cons_cons,
        List.getLast_singleton, Option.some.injEq, List.cons.injEq, Prod.mk.injEq, and_true] at hf'
      refine ⟨sh, r, sz, t, aE, bE, hf'.1.symm, fun {a b} ha hb ha0 hb0 {post} hp => ?_⟩
      obtain ⟨h1, h2, h3⟩ := child_law hc hf'.1.symm ha hb ha0 hb0 hp
      exact ⟨h1, h2, _, by exact_mod_cast Nat.choose_pos hk, h3⟩
  | nbinom =>
    simp only [Kind.finder, Kind.dist, MixChild.succ, MixChild.fail] at *
    unfold betaNegBinomialFinder finder at hf ⊢
    cases hq : betaNegBinomialPosterior rng Y with
    | none => simp [hq] at hf
    | some q =>
      obtain ⟨shY', rY', sY', dY', n', shL, rL, size, dtype, alpha, beta, hY', hq'⟩ :=
        betaNegBinomialPosterior_some hq
      have hYY := hY'.symm.trans hY
      simp only [Expr.app.injEq, List.cons.injEq, and_true, true_and] at hYY
      obtain ⟨rfl, rfl, rfl, rfl, rfl, rfl⟩ := hYY
      rw [hq, hY'] at hf
      simp only [Expr.args?, Option.bind_some, List.getLast?, List.getLast_cons_cons,
        List.getLast_singleton, Option.some.injEq, List.cons.injEq, Prod.mk.injEq, and_true] at hf
      obtain ⟨rfl, rfl⟩ := hf
      refine ⟨_, _, _, _, _, _, rfl, fun {a b} ha hb ha0 hb0 {post} hp => ?_⟩
      rw [hY'] at hp
      simp only [Expr.args?, Option.bind_some, List.getLast?, List.getLast_cons_cons,
        List.getLast_singleton, Option.some.injEq, List.cons.injEq, Prod.mk.injEq, and_true,
        true_and] at hp
      subst hp
      have hlik : ∀ θ, likAt ρ (.app (.rv .beta) shL [rL, size, dtype, alpha, beta]) Y y θ =
          massOf (rvLaw .nbinom [n, θ]) (y : ℝ) := by
        intro θ
        rw [likAt, hY']
        simp only [lawAt, List.mapM_cons, evalE_update hread, hn, evalE_rv, Function.update_self,
          List.mapM_nil, Option.pure_def, Option.bind_eq_bind, Option.bind_some]
      have hYe : evalE ρ Y = some (y : ℝ) := by rw [hY', evalE_rv, ← hY', hy]
      refine ⟨?_, ?_, Real.Gamma (y + n) / (Real.Gamma n * (Nat.factorial y)), ?_, fun θ h0 h1 => ?_⟩
      · rw [hq', lawAt_genBeta ρ (evalE_addE ρ ha hYe) (evalE_addE ρ hb hn) (by positivity)
          (by positivity)]
      · rw [funext hlik]
        exact measurable_lik_nbinom n y
      · have h1 := Real.Gamma_pos_of_pos hok
        have h2 : 0 < Real.Gamma (y + n) := Real.Gamma_pos_of_pos (by positivity)
        positivity
      · rw [hlik]
        obtain ⟨μ, h2, h3⟩ := rvLaw_nbinom hok h0 h1 y
        simp only [h2, massOf, h3]

theorem mix_joint {ρ : Env} {latent : Expr} {sh : SShape}
    {r sz t aE bE : Expr} (hL : latent = .app (.rv .beta) sh [r, sz, t, aE, bE]) {a b : ℝ}
    (ha : evalE ρ aE = some a) (hb : evalE ρ bE = some b) (ha0 : 0 < a) (hb0 : 0 < b) :
    ∀ cs : List MixChild, (∀ d ∈ cs, IsMixChild ρ latent d) →
    Measurable (mixLik ρ latent cs) ∧ ∃ k, 0 < k ∧ ∀ θ, 0 < θ → θ < 1 →
      mixLik ρ latent cs θ = ENNReal.ofReal (k * θ ^ ((cs.map MixChild.succ).sum) *
        (1 - θ) ^ ((cs.map MixChild.fail).sum))
  | [], _ => ⟨by unfold mixLik; simp, 1, one_pos, fun θ _ _ => by simp [mixLik]⟩
  | d :: cs, h => by
    obtain ⟨hm, k, hk, hj⟩ := mix_joint hL ha hb ha0 hb0 cs fun e he => h e (by simp [he])
    have hd := h d (by simp)
    obtain ⟨post, hp⟩ := hd.fires
    obtain ⟨sh', r', sz', t', aE', bE', hL', hlaw⟩ := mixChild_law hd
    have hLL := hL.symm.trans hL'
    simp only [Expr.app.injEq, List.cons.injEq, and_true, true_and] at hLL
    obtain ⟨rfl, rfl, rfl, rfl, rfl, rfl⟩ := hLL
    obtain ⟨-, hm', k', hk', hl⟩ := hlaw ha hb ha0 hb0 hp
    have heq : mixLik ρ latent (d :: cs) =
        fun θ => likAt ρ latent d.Y d.y θ * mixLik ρ latent cs θ := by
      funext θ
      simp [mixLik]
    refine ⟨heq ▸ hm'.mul hm, k' * k, by positivity, fun θ h0 h1 => ?_⟩
    have h1' : 0 < 1 - θ := by linarith
    rw [heq]
    simp only [hl θ h0 h1, hj θ h0 h1, List.map_cons, List.sum_cons]
    rw [← ENNReal.ofReal_mul (by positivity), Real.rpow_add h0, Real.rpow_add h1']
    congr 1
    ring

/-- **C05, exact condition, any mixture of binomial and negative-binomial children.** A latent with a
beta prior and children `cs ++ [c]` of either kind, visited in this order by the search: the step taken
is the one built for the last child alone, and it has the conditional law of the latent given *all*
children if and only if every other child is a binomial of zero trials (no information) and the last
child, if negative binomial, has its count equal to its parameter (the condition of C14).  Missing for
the full property: every other model, where the code is wrong (`C05_mixed_violated`). -/
theorem C05_beta_mixed_iff_partial {ρ : Env} {latent : Expr} {cs : List MixChild} {c : MixChild}
    (hnd : ((cs ++ [c]).map MixChild.Y).Nodup) (hc : ∀ d ∈ cs ++ [c], IsMixChild ρ latent d)
    {prior : Measure ℝ} (hprior : lawAt ρ latent = some prior) :
    ∃ post, pick (run Tracker.empty (mixHistory (cs ++ [c]))) latent = some (c.kind.name, post) ∧
      BayesDefined prior (mixLik ρ latent (cs ++ [c])) ∧
      (lawAt ρ post = some (bayes prior (mixLik ρ latent (cs ++ [c]))) ↔
        (∀ d ∈ cs, d.kind = .binomial ∧ d.n = 0) ∧ (c.kind = .nbinom → (c.y : ℝ) = c.n)) := by
  have hcc := hc c (by simp)
  obtain ⟨post, hp⟩ := hcc.fires
  obtain ⟨sh, r, sz, t, aE, bE, hL, hlaw⟩ := mixChild_law hcc
  obtain ⟨a, b, ha, hb, ha0, hb0, rfl⟩ : ∃ a b, evalE ρ aE = some a ∧ evalE ρ bE = some b ∧ 0 < a ∧
      0 < b ∧ prior = betaMeasure a b := by
    rw [hL] at hprior
    obtain ⟨x, z, h1, h2, h3, h4, h5⟩ := lawAt_beta_inv hprior
    exact ⟨x, z, h1, h2, h3, h4, h5⟩
  obtain ⟨hpost, -, -⟩ := hlaw ha hb ha0 hb0 hp
  have hsum : ∀ ds : List MixChild, (∀ d ∈ ds, IsMixChild ρ latent d) →
      (∀ x ∈ ds.map MixChild.succ, 0 ≤ x) ∧ (∀ x ∈ ds.map MixChild.fail, 0 ≤ x) := by
    intro ds hds
    constructor <;> intro x hx <;> obtain ⟨d, hd, rfl⟩ := List.mem_map.1 hx
    · exact (mixChild_nonneg (hds d hd)).1
    · exact (mixChild_nonneg (hds d hd)).2
  obtain ⟨hs1, hs2⟩ := hsum _ hc
  obtain ⟨f1, f2⟩ := hsum cs fun d hd => hc d (by simp [hd])
  have g1 := List.sum_nonneg f1
  have g2 := List.sum_nonneg f2
  obtain ⟨c1, c2⟩ := mixChild_nonneg hcc
  obtain ⟨hm, k, hk, hj⟩ := mix_joint hL ha hb ha0 hb0 _ hc
  have hsa := List.sum_nonneg hs1
  have hsb := List.sum_nonneg hs2
  have hall := bayes_beta ha0 hb0 (by linarith) (by linarith) hk hm hj
  refine ⟨post, ?_, hall.1, ?_⟩
  · unfold mixHistory
    rw [List.map_append, List.map_singleton]
    refine pick_last ?_ ?_ hp
    · rw [← List.map_singleton (f := fun d : MixChild => (⟨d.kind.name, d.Y, d.kind.finder d.rng d.Y⟩ :
        Visit Expr Expr)), ← List.map_append, List.map_map]
      exact hnd
    · intro u hu
      rw [← List.map_singleton (f := fun d : MixChild => (⟨d.kind.name, d.Y, d.kind.finder d.rng d.Y⟩ :
        Visit Expr Expr)), ← List.map_append] at hu
      obtain ⟨d, hd, rfl⟩ := List.mem_map.1 hu
      exact (hc d hd).fires
  · rw [hall.2, hpost, Option.some.injEq, List.map_append, List.map_append, List.sum_append,
      List.sum_append]
    simp only [List.map_cons, List.map_nil, List.sum_cons, List.sum_nil, add_zero]
    -- what the other children say
    have hinfo : ((cs.map MixChild.succ).sum = 0 ∧ (cs.map MixChild.fail).sum = 0) ↔
        ∀ d ∈ cs, d.kind = .binomial ∧ d.n = 0 := by
      constructor
      · rintro ⟨z1, z2⟩ d hd
        have y1 := eq_zero_of_sum_eq_zero f1 z1 _ (List.mem_map.2 ⟨d, hd, rfl⟩)
        have y2 := eq_zero_of_sum_eq_zero f2 z2 _ (List.mem_map.2 ⟨d, hd, rfl⟩)
        have hok := (hc d (by simp [hd])).ok
        unfold MixChild.succ at y1
        unfold MixChild.fail at y2
        cases hkd : d.kind with
        | binomial =>
          rw [hkd] at y1 y2
          simp only at y1 y2
          exact ⟨rfl, by linarith⟩
        | nbinom =>
          rw [hkd] at y1 hok
          simp only at y1 hok
          exact absurd y1 hok.ne'
      · intro hz
        constructor
        · refine List.sum_eq_zero fun x hx => ?_
          obtain ⟨d, hd, rfl⟩ := List.mem_map.1 hx
          obtain ⟨e1, e2⟩ := hz d hd
          have hok := (hc d (by simp [hd])).ok
          rw [e1] at hok
          obtain ⟨k, h1, h2⟩ := hok
          have hk0 : k = 0 := by rw [e2] at h1; exact_mod_cast h1.symm
          rw [hk0] at h2
          simp [MixChild.succ, e1, Nat.le_zero.1 h2]
        · refine List.sum_eq_zero fun x hx => ?_
          obtain ⟨d, hd, rfl⟩ := List.mem_map.1 hx
          obtain ⟨e1, e2⟩ := hz d hd
          have hok := (hc d (by simp [hd])).ok
          rw [e1] at hok
          obtain ⟨k, h1, h2⟩ := hok
          have hk0 : k = 0 := by rw [e2] at h1; exact_mod_cast h1.symm
          rw [hk0] at h2
          simp [MixChild.fail, e1, e2, Nat.le_zero.1 h2]
    rw [← hinfo]
    have hy0 : (0 : ℝ) ≤ c.y := by positivity
    have hok := hcc.ok
    unfold MixChild.succ at c1
    unfold MixChild.fail at c2
    cases hkc : c.kind with
    | binomial =>
      rw [hkc] at c1 c2
      simp only at c1 c2
      simp only [MixChild.succ, MixChild.fail, hkc, reduceCtorEq, false_imp_iff, and_true]
      constructor
      · intro he
        obtain ⟨e1, e2⟩ := betaMeasure_inj (by linarith) (by linarith) (by linarith) (by linarith) he
        constructor <;> linarith
      · rintro ⟨z1, z2⟩
        rw [z1, z2, zero_add, zero_add]
    | nbinom =>
      rw [hkc] at c1 c2
      simp only at c1 c2
      simp only [MixChild.succ, MixChild.fail, hkc, true_imp_iff]
      constructor
      · intro he
        obtain ⟨e1, e2⟩ := betaMeasure_inj (by linarith) (by linarith) (by linarith) (by linarith) he
        refine ⟨⟨?_, ?_⟩, ?_⟩ <;> linarith
      · rintro ⟨⟨z1, z2⟩, hyn⟩
        rw [z1, z2, zero_add, zero_add, hyn]

/-- A negative-binomial child. -/
def exMixN (i k y : ℕ) : MixChild where
  kind := .nbinom
  rng := exRng i
  Y := .app (.rv .nbinom) [] [exRng (101 + i), exSize, exDtype, exNum k, exBeta 2 1]
  nE := exNum k
  n := k
  y := y

/-- A binomial child. -/
def exMixB (i k y : ℕ) : MixChild where
  kind := .binomial
  rng := exRng i
  Y := .app (.rv .binomial) [] [exRng (101 + i), exSize, exDtype, exNum k, exBeta 2 1]
  nE := exNum k
  n := k
  y := y

theorem isMixChild_exN {ρ : Env} {i k y : ℕ} (hy : ρ (exMixN i k y).Y = y) (h : 0 < k) :
    IsMixChild ρ (exBeta 2 1) (exMixN i k y) where
  fires := ⟨_, rfl⟩
  shape := ⟨_, _, _, _, _, rfl⟩
  param := by simp [exMixN, exNum, evalE]
  indep := by intro h; cases h
  obs := hy
  ok := by simpa [exMixN] using h

theorem isMixChild_exB {ρ : Env} {i k y : ℕ} (hy : ρ (exMixB i k y).Y = y) (h : y ≤ k) :
    IsMixChild ρ (exBeta 2 1) (exMixB i k y) where
  fires := ⟨_, rfl⟩
  shape := ⟨_, _, _, _, _, rfl⟩
  param := by simp [exMixB, exNum, evalE]
  indep := by intro h; cases h
  obs := hy
  ok := by simpa [exMixB] using h

/-- **C05 is violated** by a binomial and a negative-binomial child of one latent, for any observations
and whichever way round the search visits them. -/
theorem C05_mixed_violated {ρ : Env} {y₁ y₂ : ℕ} (h₁ : y₁ ≤ 3)
    (o₁ : ρ (exMixB 0 3 y₁).Y = y₁) (o₂ : ρ (exMixN 1 4 y₂).Y = y₂) :
    ∀ cs, cs = [exMixB 0 3 y₁, exMixN 1 4 y₂] ∨ cs = [exMixN 1 4 y₂, exMixB 0 3 y₁] →
      ∃ nm post prior, pick (run Tracker.empty (mixHistory cs)) (exBeta 2 1) = some (nm, post) ∧
        lawAt ρ (exBeta 2 1) = some prior ∧ BayesDefined prior (mixLik ρ (exBeta 2 1) cs) ∧
        lawAt ρ post ≠ some (bayes prior (mixLik ρ (exBeta 2 1) cs)) := by
  have hpr : lawAt ρ (exBeta 2 1) = some (betaMeasure 2 1) := by
    simp [exBeta, lawAt, exNum, evalE, rvLaw]
  have c₁ := isMixChild_exB o₁ h₁
  have c₂ := isMixChild_exN o₂ (by norm_num)
  have hne : (exMixB 0 3 y₁).Y ≠ (exMixN 1 4 y₂).Y := by
    simp [exMixB, exMixN]
  rintro cs (rfl | rfl)
  · obtain ⟨post, e1, e2, e3⟩ := C05_beta_mixed_iff_partial (cs := [exMixB 0 3 y₁])
      (c := exMixN 1 4 y₂) (by simpa using hne) (by simp [c₁, c₂]) hpr
    refine ⟨_, post, _, e1, hpr, e2, fun he => ?_⟩
    have := ((e3.1 he).1 _ (List.mem_singleton.2 rfl)).2
    norm_num [exMixB] at this
  · obtain ⟨post, e1, e2, e3⟩ := C05_beta_mixed_iff_partial (cs := [exMixN 1 4 y₂])
      (c := exMixB 0 3 y₁) (by simpa using hne.symm) (by simp [c₁, c₂]) hpr
    refine ⟨_, post, _, e1, hpr, e2, fun he => ?_⟩
    have := ((e3.1 he).1 _ (List.mem_singleton.2 rfl)).1
    cases this

/-- The observations can be made. -/
example : ∃ ρ : Env, ρ (exMixB 0 3 1).Y = (1 : ℕ) ∧ ρ (exMixN 1 4 2).Y = (2 : ℕ) := by
  have hne : (exMixB 0 3 1).Y ≠ (exMixN 1 4 2).Y := by simp [exMixB, exMixN]
  refine ⟨Function.update (fun _ => (2 : ℕ)) (exMixB 0 3 1).Y (1 : ℕ), ?_, ?_⟩
  · simp
  · rw [Function.update_of_ne hne.symm]

/-! ## A gamma latent with Poisson children -/

/-- Shape and rate are determined by a gamma law: the first two moments determine them. -/
theorem gammaMeasure_inj {a r a' r' : ℝ} (ha : 0 < a) (hr : 0 < r) (ha' : 0 < a') (hr' : 0 < r')
    (h : gammaMeasure a r = gammaMeasure a' r') : a = a' ∧ r = r' := by
  have mom : ∀ {a r : ℝ}, 0 < a → 0 < r →
      ∫⁻ t, ENNReal.ofReal (t ^ (1 : ℝ)) ∂gammaMeasure a r = ENNReal.ofReal (a / r) ∧
      ∫⁻ t, ENNReal.ofReal (t ^ (2 : ℝ)) ∂gammaMeasure a r = ENNReal.ofReal (a / r * ((a + 1) / r)) := by
    intro a r ha hr
    have hG := (Real.Gamma_pos_of_pos ha).ne'
    constructor
    · rw [Horseshoe.lintegral_rpow_gamma ha one_pos hr, Real.Gamma_add_one ha.ne', Real.rpow_neg_one]
      congr 1
      field_simp
    · rw [Horseshoe.lintegral_rpow_gamma ha two_pos hr, show a + 2 = a + 1 + 1 by ring,
        Real.Gamma_add_one (by positivity), Real.Gamma_add_one ha.ne', Real.rpow_neg hr.le]
      congr 1
      rw [Real.rpow_two]
      field_simp
  have h1 := (mom ha hr).1
  have h2 := (mom ha hr).2
  rw [h, (mom ha' hr').1, ENNReal.ofReal_eq_ofReal_iff (by positivity) (by positivity)] at h1
  rw [h, (mom ha' hr').2, ENNReal.ofReal_eq_ofReal_iff (by positivity) (by positivity), h1] at h2
  have h3 : (a' + 1) / r' = (a + 1) / r := mul_left_cancel₀ (by positivity) h2
  rw [add_div, add_div, h1] at h3
  have h4 : r' = r := by
    have : 1 / r' = 1 / r := by linarith
    rwa [one_div, one_div, inv_inj] at this
  subst h4
  rw [div_left_inj' hr.ne'] at h1
  exact ⟨h1.symm, rfl⟩

/-- Spec.  An observed Poisson child of a gamma latent: the RNG its step would use, the variable and the
observed count. -/
structure PoisChild where
  rng : Expr
  Y : Expr
  y : ℕ

/-- Spec.  `d` is an observed Poisson child of `latent` on which the gamma-Poisson finder fires. -/
structure IsPoisChild (ρ : Env) (latent : Expr) (d : PoisChild) : Prop where
  fires : ∃ post, gammaPoissonFinder d.rng d.Y = some [(latent, post)]
  obs : ρ d.Y = d.y

/-- The search calls the finder once on every child, in this order. -/
def poisHistory (cs : List PoisChild) : List (Visit Expr Expr) :=
  cs.map fun d => ⟨0, d.Y, gammaPoissonFinder d.rng d.Y⟩

/-- Spec.  The likelihood of all children together. -/
noncomputable def poisLik (ρ : Env) (latent : Expr) (cs : List PoisChild) (θ : ℝ) : ℝ≥0∞ :=
  (cs.map fun d => likAt ρ latent d.Y d.y θ).prod

theorem pois_lik {ρ : Env} {latent : Expr} {d : PoisChild} (h : IsPoisChild ρ latent d) :
    Measurable (likAt ρ latent d.Y d.y) ∧ ∃ k, 0 < k ∧ ∀ θ, 0 < θ →
      likAt ρ latent d.Y d.y θ = ENNReal.ofReal (k * θ ^ (d.y : ℝ) * Real.exp (-(1 * θ))) := by
  obtain ⟨post, hp⟩ := h.fires
  unfold gammaPoissonFinder finder at hp
  cases hq : gammaPoissonPosterior d.rng d.Y with
  | none => simp [hq] at hp
  | some q =>
    obtain ⟨shY, rY, sY, dY, shL, rL, size, dtype, alpha, beta, hY', -⟩ :=
      gammaPoissonPosterior_some hq
    rw [hq, hY'] at hp
    simp only [Expr.args?, Option.bind_some, List.getLast?, List.getLast_cons_cons,
      List.getLast_singleton, Option.some.injEq, List.cons.injEq, Prod.mk.injEq, and_true] at hp
    obtain ⟨rfl, -⟩ := hp
    have hlik : ∀ θ, likAt ρ (.app (.rv .gamma) shL [rL, size, dtype, alpha, beta]) d.Y d.y θ =
        massOf (rvLaw .poisson [θ]) (d.y : ℝ) := by
      intro θ
      rw [likAt, hY']
      simp only [lawAt, List.mapM_cons, evalE_rv, Function.update_self,
        List.mapM_nil, Option.pure_def, Option.bind_eq_bind, Option.bind_some]
    refine ⟨by rw [funext hlik]; exact measurable_lik_poisson d.y, 1 / (Nat.factorial d.y),
      by positivity, fun θ h0 => ?_⟩
    rw [hlik]
    obtain ⟨μ, h2, h3⟩ := rvLaw_poisson h0 d.y
    simp only [h2, massOf, h3]

theorem pois_joint {ρ : Env} {latent : Expr} :
    ∀ cs : List PoisChild, (∀ d ∈ cs, IsPoisChild ρ latent d) →
    Measurable (poisLik ρ latent cs) ∧ ∃ k, 0 < k ∧ ∀ θ, 0 < θ →
      poisLik ρ latent cs θ = ENNReal.ofReal (k * θ ^ ((cs.map fun d => (d.y : ℝ)).sum) *
        Real.exp (-((cs.length : ℝ) * θ)))
  | [], _ => ⟨by unfold poisLik; simp, 1, one_pos, fun θ _ => by simp [poisLik]⟩
  | d :: cs, h => by
    obtain ⟨hm, k, hk, hj⟩ := pois_joint cs fun e he => h e (by simp [he])
    obtain ⟨hm', k', hk', hl⟩ := pois_lik (h d (by simp))
    have heq : poisLik ρ latent (d :: cs) =
        fun θ => likAt ρ latent d.Y d.y θ * poisLik ρ latent cs θ := by
      funext θ
      simp [poisLik]
    refine ⟨heq ▸ hm'.mul hm, k' * k, by positivity, fun θ h0 => ?_⟩
    rw [heq]
    simp only [hl θ h0, hj θ h0, List.map_cons, List.sum_cons, List.length_cons]
    rw [← ENNReal.ofReal_mul (by positivity), Real.rpow_add h0]
    congr 1
    push_cast
    rw [show -(((cs.length : ℝ) + 1) * θ) = -(1 * θ) + -((cs.length : ℝ) * θ) by ring, Real.exp_add]
    ring

/-- **C05, exact condition, Poisson children of a gamma latent.** The latent has prior `Gamma(a, rate b)`
(the node stores `1 / b`) and Poisson children `cs ++ [c]`, visited in this order by the search.  The
step taken is the one built for the last child alone, and it has the conditional law of the latent given
*all* children if and only if every other count is zero and the wrong rate `1/b + 1` it uses (C13)
happens to be `b` plus the number of children. -/
theorem C05_gamma_poisson_iff_partial {ρ : Env} {latent : Expr} {cs : List PoisChild} {c : PoisChild}
    (hnd : ((cs ++ [c]).map PoisChild.Y).Nodup) (hc : ∀ d ∈ cs ++ [c], IsPoisChild ρ latent d)
    {sh : SShape} {r sz t aE bE : Expr} (hL : latent = .app (.rv .gamma) sh [r, sz, t, aE, bE])
    {a b : ℝ} (ha : evalE ρ aE = some a) (hb : evalE ρ bE = some (1 / b)) (ha0 : 0 < a)
    (hb0 : 0 < b) :
    ∃ post prior, pick (run Tracker.empty (poisHistory (cs ++ [c]))) latent = some (0, post) ∧
      lawAt ρ latent = some prior ∧ prior = gammaMeasure a b ∧
      BayesDefined prior (poisLik ρ latent (cs ++ [c])) ∧
      (lawAt ρ post = some (bayes prior (poisLik ρ latent (cs ++ [c]))) ↔
        (∀ d ∈ cs, d.y = 0) ∧ b + (cs.length + 1) = 1 / b + 1) := by
  have hcc := hc c (by simp)
  obtain ⟨post, hp⟩ := hcc.fires
  obtain ⟨h1, h2, -, -⟩ := gamma_poisson_step_law hp ρ hcc.obs hL ha hb ha0 (by positivity)
  rw [one_div, inv_inv] at h1
  obtain ⟨hm, k, hk, hj⟩ := pois_joint _ hc
  have hnn : ∀ x ∈ cs.map fun d => (d.y : ℝ), 0 ≤ x := fun x hx => by
    obtain ⟨d, -, rfl⟩ := List.mem_map.1 hx
    positivity
  have hnn' : 0 ≤ ((cs ++ [c]).map fun d => (d.y : ℝ)).sum := List.sum_nonneg fun x hx => by
    obtain ⟨d, -, rfl⟩ := List.mem_map.1 hx
    positivity
  have hall := bayes_gamma ha0 hb0 (by linarith) (by positivity) hk hm hj
  refine ⟨post, _, ?_, h1, rfl, hall.1, ?_⟩
  · unfold poisHistory
    rw [List.map_append, List.map_singleton]
    refine pick_last (v := ⟨0, c.Y, gammaPoissonFinder c.rng c.Y⟩) ?_ ?_ hp
    · rw [← List.map_singleton (f := fun d : PoisChild => (⟨0, d.Y, gammaPoissonFinder d.rng d.Y⟩ :
        Visit Expr Expr)), ← List.map_append, List.map_map]
      exact hnd
    · intro u hu
      rw [← List.map_singleton (f := fun d : PoisChild => (⟨0, d.Y, gammaPoissonFinder d.rng d.Y⟩ :
        Visit Expr Expr)), ← List.map_append] at hu
      obtain ⟨d, hd, rfl⟩ := List.mem_map.1 hu
      exact (hc d hd).fires
  · rw [h2, hall.2, Option.some.injEq, List.map_append, List.sum_append, List.length_append]
    simp only [List.map_cons, List.map_nil, List.sum_cons, List.sum_nil, add_zero, List.length_singleton]
    push_cast
    have hg := List.sum_nonneg hnn
    have hy0 : (0 : ℝ) ≤ c.y := by positivity
    have hz : (cs.map fun d => (d.y : ℝ)).sum = 0 ↔ ∀ d ∈ cs, d.y = 0 := by
      constructor
      · intro h d hd
        have := eq_zero_of_sum_eq_zero hnn h _ (List.mem_map.2 ⟨d, hd, rfl⟩)
        exact_mod_cast this
      · intro h
        refine List.sum_eq_zero fun x hx => ?_
        obtain ⟨d, hd, rfl⟩ := List.mem_map.1 hx
        simp [h d hd]
    rw [← hz]
    constructor
    · intro he
      obtain ⟨e1, e2⟩ := gammaMeasure_inj (by positivity) (by positivity) (by positivity) (by positivity) he
      exact ⟨by linarith, by linarith⟩
    · rintro ⟨z1, z2⟩
      rw [z1, zero_add, z2]

/-- A Poisson child of a gamma latent whose node stores scale 1. -/
def exPois (i y : ℕ) : PoisChild where
  rng := exRng i
  Y := .app (.rv .poisson) [] [exRng (101 + i), exSize, exDtype, exGamma 3 1]
  y := y

/-- **C05 is violated** by two Poisson children of one gamma latent even when the rate is 1, where C13
holds for one child: for any two counts, whichever the search visits last. -/
theorem C05_poisson_violated {ρ : Env} {y₁ y₂ : ℕ} (o₁ : ρ (exPois 0 y₁).Y = y₁)
    (o₂ : ρ (exPois 1 y₂).Y = y₂) :
    ∃ post prior, pick (run Tracker.empty (poisHistory [exPois 0 y₁, exPois 1 y₂])) (exGamma 3 1) =
        some (0, post) ∧ lawAt ρ (exGamma 3 1) = some prior ∧ prior = gammaMeasure 3 1 ∧
      BayesDefined prior (poisLik ρ (exGamma 3 1) [exPois 0 y₁, exPois 1 y₂]) ∧
      lawAt ρ post ≠ some (bayes prior (poisLik ρ (exGamma 3 1) [exPois 0 y₁, exPois 1 y₂])) := by
  have hne : (exPois 0 y₁).Y ≠ (exPois 1 y₂).Y := by simp [exPois, exRng]
  obtain ⟨post, prior, e1, e2, e3, e4, e5⟩ := C05_gamma_poisson_iff_partial (ρ := ρ)
    (latent := exGamma 3 1) (cs := [exPois 0 y₁]) (c := exPois 1 y₂) (by simpa using hne)
    (by
      intro d hd
      simp only [List.cons_append, List.nil_append, List.mem_cons, List.not_mem_nil, or_false] at hd
      rcases hd with rfl | rfl
      · exact ⟨⟨_, rfl⟩, o₁⟩
      · exact ⟨⟨_, rfl⟩, o₂⟩) (sh := []) rfl (a := 3) (b := 1) (by simp [exNum, evalE])
    (by simp [exNum, evalE]) (by norm_num) (by norm_num)
  refine ⟨post, prior, e1, e2, e3, e4, fun he => ?_⟩
  have := (e5.1 he).2
  norm_num at this

/-- The observations can be made. -/
example : ∃ ρ : Env, ρ (exPois 0 1).Y = (1 : ℕ) ∧ ρ (exPois 1 2).Y = (2 : ℕ) := by
  have hne : (exPois 0 1).Y ≠ (exPois 1 2).Y := by simp [exPois, exRng]
  refine ⟨Function.update (fun _ => (2 : ℕ)) (exPois 0 1).Y (1 : ℕ), ?_, ?_⟩
  · simp
  · rw [Function.update_of_ne hne.symm]

end Verif.Track
