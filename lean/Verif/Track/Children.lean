import Verif.Track.Props
import Verif.Conj.Props

/-!
# C05: several observed children of one latent
-/

open MeasureTheory ProbabilityTheory
open scoped ENNReal

namespace Verif.Track

open Verif Verif.Conj

/-- Spec.  A binomial child of the latent: the RNG its step would use, the variable, its number of
trials (expression and value) and the observed count. -/
structure Child where
  rng : Expr
  Y : Expr
  nE : Expr
  n : ℕ
  y : ℕ

/-- Spec.  `d` is an observed binomial child of `latent` on which the beta-binomial finder fires; the
number of trials has a value that does not depend on the latent. -/
structure IsChild (ρ : Env) (latent : Expr) (d : Child) : Prop where
  fires : ∃ post, betaBinomialFinder d.rng d.Y = some [(latent, post)]
  shape : ∃ sh rY sY dY pE, d.Y = .app (.rv .binomial) sh [rY, sY, dY, d.nE, pE]
  trials : evalE ρ d.nE = some (d.n : ℝ)
  indep : ¬ Reads latent d.nE
  obs : ρ d.Y = d.y
  le : d.y ≤ d.n

/-- The search calls the finder once on every child, in this order. -/
def history (cs : List Child) : List (Visit Expr Expr) :=
  cs.map fun d => ⟨0, d.Y, betaBinomialFinder d.rng d.Y⟩

/-- Spec.  The likelihood of all children together. -/
noncomputable def jointLik (ρ : Env) (latent : Expr) (cs : List Child) (θ : ℝ) : ℝ≥0∞ :=
  (cs.map fun d => likAt ρ latent d.Y d.y θ).prod

theorem eq_zero_of_sum_eq_zero : ∀ {l : List ℝ}, (∀ x ∈ l, 0 ≤ x) → l.sum = 0 → ∀ x ∈ l, x = 0
  | a :: l, h, hs, x, hx => by
    have h1 : 0 ≤ l.sum := List.sum_nonneg fun y hy => h y (by simp [hy])
    have h2 := h a (by simp)
    rw [List.sum_cons] at hs
    rcases List.mem_cons.1 hx with rfl | hx
    · linarith
    · exact eq_zero_of_sum_eq_zero (fun y hy => h y (by simp [hy])) (by linarith) x hx

theorem child_law {ρ : Env} {latent : Expr} {d : Child} (h : IsChild ρ latent d) {sh : SShape}
    {r sz t aE bE : Expr} (hL : latent = .app (.rv .beta) sh [r, sz, t, aE, bE]) {a b : ℝ}
    (ha : evalE ρ aE = some a) (hb : evalE ρ bE = some b) (ha0 : 0 < a) (hb0 : 0 < b) {post : Expr}
    (hp : betaBinomialFinder d.rng d.Y = some [(latent, post)]) :
    lawAt ρ post = some (betaMeasure (a + d.y) (b + (d.n - d.y))) ∧
      Measurable (likAt ρ latent d.Y d.y) ∧
      ∀ θ, 0 < θ → θ < 1 → likAt ρ latent d.Y d.y θ =
        ENNReal.ofReal ((d.n.choose d.y : ℕ) * θ ^ (d.y : ℝ) * (1 - θ) ^ ((d.n : ℝ) - d.y)) := by
  obtain ⟨-, ⟨shY, rY, sY, dY, pE, hY⟩, hn, hread, hy, hyn⟩ := h
  unfold betaBinomialFinder finder at hp
  cases hq : betaBinomialPosterior d.rng d.Y with
  | none => simp [hq] at hp
  | some q =>
    obtain ⟨shY', rY', sY', dY', n', shL, rL, size, dtype, alpha, beta, hY', hq'⟩ :=
      betaBinomialPosterior_some hq
    have hYY := hY'.symm.trans hY
    simp only [Expr.app.injEq, List.cons.injEq, and_true, true_and] at hYY
    obtain ⟨rfl, rfl, rfl, rfl, rfl, rfl⟩ := hYY
    rw [hq, hY'] at hp
    simp only [Expr.args?, Option.bind_some, List.getLast?, List.getLast_cons_cons,
      List.getLast_singleton, Option.some.injEq, List.cons.injEq, Prod.mk.injEq, and_true] at hp
    obtain ⟨rfl, rfl⟩ := hp
    simp only [Expr.app.injEq, List.cons.injEq, and_true, true_and] at hL
    obtain ⟨rfl, rfl, rfl, rfl, rfl, rfl⟩ := hL
    have hlik : ∀ θ, likAt ρ (.app (.rv .beta) shL [rL, size, dtype, alpha, beta]) d.Y d.y θ =
        massOf (rvLaw .binomial [(d.n : ℝ), θ]) (d.y : ℝ) := by
      intro θ
      rw [likAt, hY']
      simp only [lawAt, List.mapM_cons, evalE_update hread, hn, evalE_rv, Function.update_self,
        List.mapM_nil, Option.pure_def, Option.bind_eq_bind, Option.bind_some]
    have hk : (d.y : ℝ) ≤ d.n := by exact_mod_cast hyn
    refine ⟨?_, ?_, fun θ h0 h1 => ?_⟩
    · have hYe : evalE ρ d.Y = some (d.y : ℝ) := by rw [hY', evalE_rv, ← hY', hy]
      rw [hq', lawAt_genBeta ρ (evalE_addE ρ ha hYe) (evalE_subE ρ (evalE_addE ρ hb hn) hYe)
        (by positivity) (by linarith)]
      congr 2
      ring
    · rw [funext hlik]
      exact measurable_lik_binomial d.n d.y
    · rw [hlik]
      obtain ⟨μ, h2, h3⟩ := rvLaw_binomial h0 h1 hyn
      simp only [h2, massOf, h3]

theorem joint_law {ρ : Env} {latent : Expr} {sh : SShape}
    {r sz t aE bE : Expr} (hL : latent = .app (.rv .beta) sh [r, sz, t, aE, bE]) {a b : ℝ}
    (ha : evalE ρ aE = some a) (hb : evalE ρ bE = some b) (ha0 : 0 < a) (hb0 : 0 < b) :
    ∀ cs : List Child, (∀ d ∈ cs, IsChild ρ latent d) →
    Measurable (jointLik ρ latent cs) ∧ ∃ k, 0 < k ∧ ∀ θ, 0 < θ → θ < 1 →
      jointLik ρ latent cs θ = ENNReal.ofReal (k * θ ^ ((cs.map fun d => (d.y : ℝ)).sum) *
        (1 - θ) ^ ((cs.map fun d => (d.n : ℝ) - d.y).sum))
  | [], _ => ⟨by unfold jointLik; simp, 1, one_pos, fun θ _ _ => by simp [jointLik]⟩
  | d :: cs, h => by
    obtain ⟨hm, k, hk, hj⟩ := joint_law hL ha hb ha0 hb0 cs fun e he => h e (by simp [he])
    have hd := h d (by simp)
    obtain ⟨post, hp⟩ := hd.fires
    obtain ⟨-, hm', hl⟩ := child_law hd hL ha hb ha0 hb0 hp
    have hc : 0 < ((d.n.choose d.y : ℕ) : ℝ) := by exact_mod_cast Nat.choose_pos hd.le
    have heq : jointLik ρ latent (d :: cs) =
        fun θ => likAt ρ latent d.Y d.y θ * jointLik ρ latent cs θ := by
      funext θ
      simp [jointLik]
    refine ⟨heq ▸ hm'.mul hm, (d.n.choose d.y : ℕ) * k, by positivity, fun θ h0 h1 => ?_⟩
    have h1' : 0 < 1 - θ := by linarith
    rw [heq]
    simp only [hl θ h0 h1, hj θ h0 h1, List.map_cons, List.sum_cons]
    rw [← ENNReal.ofReal_mul (by positivity), Real.rpow_add h0, Real.rpow_add h1']
    congr 1
    ring

theorem firsts_of_nodup {α σ : Type} [DecidableEq α] : ∀ {h : List (Visit α σ)},
    (h.map Visit.key).Nodup → (∀ v ∈ h, v.steps ≠ []) → firsts h = h
  | [], _, _ => rfl
  | v :: h, hn, hs => by
    rw [List.map_cons, List.nodup_cons] at hn
    unfold firsts
    rw [if_neg (hs v (by simp)), firsts_of_nodup hn.2 fun u hu => hs u (by simp [hu]),
      List.filter_eq_self.2]
    intro u hu
    have : u.key ≠ v.key := fun e => hn.1 (List.mem_map.2 ⟨u, hu, e⟩)
    simpa using this

/-- **C05, exact condition.** A latent with a beta prior and binomial children `cs ++ [c]`, visited
in this order by the search: the step taken is the one built for the last child alone, and it has the
conditional law of the latent given *all* children if and only if every other child has zero trials
(no information).  Missing for the full property: every other model, where the code is wrong
(`C05_violated`). -/
theorem C05_beta_binomial_iff_partial {ρ : Env} {latent : Expr} {cs : List Child} {c : Child}
    (hnd : ((cs ++ [c]).map Child.Y).Nodup) (hc : ∀ d ∈ cs ++ [c], IsChild ρ latent d)
    {prior : Measure ℝ} (hprior : lawAt ρ latent = some prior) :
    ∃ post, pick (run Tracker.empty (history (cs ++ [c]))) latent = some (0, post) ∧
      BayesDefined prior (jointLik ρ latent (cs ++ [c])) ∧
      lawAt ρ post = some (bayes prior (jointLik ρ latent [c])) ∧
      (lawAt ρ post = some (bayes prior (jointLik ρ latent (cs ++ [c]))) ↔ ∀ d ∈ cs, d.n = 0) := by
  have hcc := hc c (by simp)
  obtain ⟨post, hp⟩ := hcc.fires
  have hL : ∃ sh r sz t aE bE, latent = .app (.rv .beta) sh [r, sz, t, aE, bE] := by
    have hp' := hp
    unfold betaBinomialFinder finder at hp'
    cases hq : betaBinomialPosterior c.rng c.Y with
    | none => simp [hq] at hp'
    | some q =>
      obtain ⟨_, _, _, _, _, _, _, _, _, _, _, hY', -⟩ := betaBinomialPosterior_some hq
      rw [hq, hY'] at hp'
      simp only [Expr.args?, Option.bind_some, List.getLast?, List.getLast_cons_cons,
        List.getLast_singleton, Option.some.injEq, List.cons.injEq, Prod.mk.injEq, and_true] at hp'
      exact ⟨_, _, _, _, _, _, hp'.1.symm⟩
  obtain ⟨sh, r, sz, t, aE, bE, hL⟩ := hL
  obtain ⟨a, b, ha, hb, ha0, hb0, rfl⟩ : ∃ a b, evalE ρ aE = some a ∧ evalE ρ bE = some b ∧ 0 < a ∧
      0 < b ∧ prior = betaMeasure a b := by
    rw [hL] at hprior
    obtain ⟨x, z, h1, h2, h3, h4, h5⟩ := lawAt_beta_inv hprior
    exact ⟨x, z, h1, h2, h3, h4, h5⟩
  have hlaw := (child_law hcc hL ha hb ha0 hb0 hp).1
  have key : ∀ ds : List Child, (∀ d ∈ ds, IsChild ρ latent d) →
      0 ≤ (ds.map fun d => (d.y : ℝ)).sum ∧ 0 ≤ (ds.map fun d => (d.n : ℝ) - d.y).sum ∧
      BayesDefined (betaMeasure a b) (jointLik ρ latent ds) ∧
      bayes (betaMeasure a b) (jointLik ρ latent ds) =
        betaMeasure (a + (ds.map fun d => (d.y : ℝ)).sum)
          (b + (ds.map fun d => (d.n : ℝ) - d.y).sum) := by
    intro ds hds
    obtain ⟨hm, k, hk, hj⟩ := joint_law hL ha hb ha0 hb0 ds hds
    have h1 : 0 ≤ (ds.map fun d => (d.y : ℝ)).sum := List.sum_nonneg (by
      intro x hx
      obtain ⟨d, -, rfl⟩ := List.mem_map.1 hx
      positivity)
    have h2 : 0 ≤ (ds.map fun d => (d.n : ℝ) - d.y).sum := List.sum_nonneg (by
      intro x hx
      obtain ⟨d, hd, rfl⟩ := List.mem_map.1 hx
      have : (d.y : ℝ) ≤ d.n := by exact_mod_cast (hds d hd).le
      linarith)
    have := bayes_beta ha0 hb0 (by linarith) (by linarith) hk hm hj
    exact ⟨h1, h2, this⟩
  obtain ⟨hs1, hs2, hdef, hall⟩ := key _ hc
  obtain ⟨g1, g2, -, hone⟩ := key [c] (fun d hd => by
    rw [List.mem_singleton] at hd
    subst hd
    exact hcc)
  obtain ⟨f1, f2, -, -⟩ := key cs fun d hd => hc d (by simp [hd])
  refine ⟨post, ?_, hdef, ?_, ?_⟩
  · rw [C04_pick, firsts_of_nodup]
    · unfold history
      rw [List.map_append, List.flatMap_append, List.map_singleton, List.flatMap_singleton]
      have : stepsFor latent (⟨0, c.Y, betaBinomialFinder c.rng c.Y⟩ : Visit Expr Expr) =
          [(0, post)] := by
        simp [stepsFor, Visit.steps, hp]
      rw [this]
      simp
    · unfold history
      rw [List.map_map]
      have : (Visit.key ∘ fun d : Child => (⟨0, d.Y, betaBinomialFinder d.rng d.Y⟩ : Visit Expr Expr)) =
          (fun Y => ((0 : ℕ), Y)) ∘ Child.Y := rfl
      rw [this, ← List.map_map]
      exact hnd.map fun x y e => (Prod.mk.inj e).2
    · intro v hv
      obtain ⟨d, hd, rfl⟩ := List.mem_map.1 hv
      obtain ⟨q, hq⟩ := (hc d hd).fires
      simp [Visit.steps, hq]
  · rw [hone, hlaw]
    simp
  · rw [hall, hlaw, Option.some.injEq, List.map_append, List.map_append, List.sum_append,
      List.sum_append]
    simp only [List.map_cons, List.map_nil, List.sum_cons, List.sum_nil, add_zero]
    have hy0 : (0 : ℝ) ≤ c.y := by positivity
    have hn0 : (0 : ℝ) ≤ (c.n : ℝ) - c.y := by
      have : (c.y : ℝ) ≤ c.n := by exact_mod_cast hcc.le
      linarith
    constructor
    · intro he
      obtain ⟨e1, e2⟩ := betaMeasure_inj (by linarith) (by linarith) (by linarith) (by linarith) he
      have z1 : (cs.map fun d => (d.y : ℝ)).sum = 0 := by linarith
      have z2 : (cs.map fun d => (d.n : ℝ) - d.y).sum = 0 := by linarith
      intro d hd
      have y1 := eq_zero_of_sum_eq_zero (by
        intro x hx
        obtain ⟨e, -, rfl⟩ := List.mem_map.1 hx
        positivity) z1 _ (List.mem_map.2 ⟨d, hd, rfl⟩)
      have y2 := eq_zero_of_sum_eq_zero (by
        intro x hx
        obtain ⟨e, he, rfl⟩ := List.mem_map.1 hx
        have : (e.y : ℝ) ≤ e.n := by exact_mod_cast (hc e (by simp [he])).le
        linarith) z2 _ (List.mem_map.2 ⟨d, hd, rfl⟩)
      have : (d.n : ℝ) = 0 := by linarith
      exact_mod_cast this
    · intro hz
      have z1 : (cs.map fun d => (d.y : ℝ)).sum = 0 := by
        apply List.sum_eq_zero
        intro x hx
        obtain ⟨d, hd, rfl⟩ := List.mem_map.1 hx
        have := (hc d (by simp [hd])).le
        rw [hz d hd] at this
        simpa using this
      have z2 : (cs.map fun d => (d.n : ℝ) - d.y).sum = 0 := by
        apply List.sum_eq_zero
        intro x hx
        obtain ⟨d, hd, rfl⟩ := List.mem_map.1 hx
        have := (hc d (by simp [hd])).le
        rw [hz d hd] at this
        simp only [Nat.le_zero] at this
        simp [this, hz d hd]
      rw [z1, z2, zero_add, zero_add]

/-- Two coins with the same unknown bias: a child with one trial and a child with `k` trials. -/
def exChild (i k y : ℕ) : Child where
  rng := exRng i
  Y := .app (.rv .binomial) [] [exRng (101 + i), exSize, exDtype, exNum k, exBeta 2 1]
  nE := exNum k
  n := k
  y := y

theorem isChild_ex {ρ : Env} {i k y : ℕ} (hy : ρ (exChild i k y).Y = y) (h : y ≤ k) :
    IsChild ρ (exBeta 2 1) (exChild i k y) where
  fires := ⟨_, rfl⟩
  shape := ⟨_, _, _, _, _, rfl⟩
  trials := by simp [exChild, exNum, evalE]
  indep := by intro h; cases h
  obs := hy
  le := h

/-- **C05 is violated.** `p ~ Beta(2, 1)`, two binomial children with one and three trials, both
observed: for any observations and whichever way round the search visits them, the step taken does
not have the conditional law of `p` given both. -/
theorem C05_violated {ρ : Env} {y₁ y₂ : ℕ} (h₁ : y₁ ≤ 1) (h₂ : y₂ ≤ 3)
    (o₁ : ρ (exChild 0 1 y₁).Y = y₁) (o₂ : ρ (exChild 1 3 y₂).Y = y₂) :
    ∀ cs, cs = [exChild 0 1 y₁, exChild 1 3 y₂] ∨ cs = [exChild 1 3 y₂, exChild 0 1 y₁] →
      ∃ post prior, pick (run Tracker.empty (history cs)) (exBeta 2 1) = some (0, post) ∧
        lawAt ρ (exBeta 2 1) = some prior ∧ BayesDefined prior (jointLik ρ (exBeta 2 1) cs) ∧
        lawAt ρ post ≠ some (bayes prior (jointLik ρ (exBeta 2 1) cs)) := by
  have hpr : lawAt ρ (exBeta 2 1) = some (betaMeasure 2 1) := by
    simp [exBeta, lawAt, exNum, evalE, rvLaw]
  have c₁ := isChild_ex o₁ h₁
  have c₂ := isChild_ex o₂ h₂
  have hne : (exChild 0 1 y₁).Y ≠ (exChild 1 3 y₂).Y := by
    simp [exChild, exRng]
  rintro cs (rfl | rfl)
  · obtain ⟨post, e1, e2, -, e3⟩ := C05_beta_binomial_iff_partial (cs := [exChild 0 1 y₁])
      (c := exChild 1 3 y₂) (by simpa using hne) (by simp [c₁, c₂]) hpr
    refine ⟨post, _, e1, hpr, e2, fun he => ?_⟩
    have := e3.1 he _ (List.mem_singleton.2 rfl)
    cases this
  · obtain ⟨post, e1, e2, -, e3⟩ := C05_beta_binomial_iff_partial (cs := [exChild 1 3 y₂])
      (c := exChild 0 1 y₁) (by simpa using hne.symm) (by simp [c₁, c₂]) hpr
    refine ⟨post, _, e1, hpr, e2, fun he => ?_⟩
    have := e3.1 he _ (List.mem_singleton.2 rfl)
    cases this

/-- The observations can be made. -/
example : ∃ ρ : Env, ρ (exChild 0 1 1).Y = (1 : ℕ) ∧ ρ (exChild 1 3 2).Y = (2 : ℕ) := by
  have hne : (exChild 0 1 1).Y ≠ (exChild 1 3 2).Y := by simp [exChild, exRng]
  refine ⟨Function.update (fun _ => (2 : ℕ)) (exChild 0 1 1).Y (1 : ℕ), ?_, ?_⟩
  · simp
  · rw [Function.update_of_ne hne.symm]

end Verif.Track
