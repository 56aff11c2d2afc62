import Verif.Track.Batches
import Mathlib.Data.List.Permutation

/-!
# C84: the order in which the observations are listed
-/

open MeasureTheory ProbabilityTheory
open scoped ENNReal

namespace Verif.Track

open Verif Verif.Conj

section

variable {α σ : Type} [DecidableEq α]

theorem steps_nil_stepsFor {v : Visit α σ} (h : v.steps = []) (rv : α) : stepsFor rv v = [] := by
  simp [stepsFor, h]

/-- When no finder is asked twice about the same variable, every answer counts. -/
theorem flatMap_firsts : ∀ {h : List (Visit α σ)}, (h.map Visit.key).Nodup → ∀ rv,
    (firsts h).flatMap (stepsFor rv) = h.flatMap (stepsFor rv)
  | [], _, _ => rfl
  | v :: h, hnd, rv => by
    rw [List.map_cons, List.nodup_cons] at hnd
    unfold firsts
    split
    · rename_i hv
      rw [flatMap_firsts hnd.2, List.flatMap_cons, steps_nil_stepsFor hv, List.nil_append]
    · rw [List.filter_eq_self.2, List.flatMap_cons, List.flatMap_cons, flatMap_firsts hnd.2]
      intro u hu
      have hm := (firsts_sublist h).subset hu
      simp only [ne_eq, decide_not, Bool.not_eq_eq_eq_not, Bool.not_true, decide_eq_false_iff_not]
      intro he
      exact hnd.1 (he ▸ List.mem_map.2 ⟨u, hm, rfl⟩)

theorem pick_of_nodup {h : List (Visit α σ)} (hnd : (h.map Visit.key).Nodup) (rv : α) :
    pick (run Tracker.empty h) rv = (h.flatMap (stepsFor rv)).getLast? := by
  rw [C04_pick, flatMap_firsts hnd]

/-- The last of several lists of steps, when those that are not empty end alike. -/
theorem getLast_flatMap_of_const {β γ : Type} {f : β → List γ} {c : γ} : ∀ {l : List β},
    (∀ x ∈ l, f x ≠ [] → (f x).getLast? = some c) → (∃ x ∈ l, f x ≠ []) → (l.flatMap f).getLast? = some c
  | [], _, h => by simp at h
  | x :: l, hc, h => by
    rw [List.flatMap_cons, List.getLast?_append]
    by_cases hl : ∃ y ∈ l, f y ≠ []
    · rw [getLast_flatMap_of_const (fun y hy => hc y (by simp [hy])) hl]
      rfl
    · have hx : f x ≠ [] := by
        obtain ⟨y, hy, hne⟩ := h
        rcases List.mem_cons.1 hy with rfl | hy
        · exact hne
        · exact absurd ⟨y, hy, hne⟩ hl
      have : l.flatMap f = [] := by
        rw [List.flatMap_eq_nil_iff]
        intro y hy
        by_contra hne
        exact hl ⟨y, hy, hne⟩
      rw [this, hc x (by simp) hx]
      rfl

/-- **C84, exact condition (partial).** The search calls no finder twice on the same variable.  Then the
step that is taken for `rv` does not depend on the order of the calls *exactly when* all calls that answer
for `rv` end with the same step.  The full property asks for the left-hand side for all models; a variable
for which two calls answer with different steps is left out. -/
theorem C84_step_iff_partial {h : List (Visit α σ)} (hnd : (h.map Visit.key).Nodup) (rv : α) :
    (∀ h', h'.Perm h → pick (run Tracker.empty h') rv = pick (run Tracker.empty h) rv) ↔
      ∀ v ∈ h, ∀ v' ∈ h, stepsFor rv v ≠ [] → stepsFor rv v' ≠ [] →
        (stepsFor rv v).getLast? = (stepsFor rv v').getLast? := by
  constructor
  · intro hall
    -- each call can come last
    have key : ∀ v ∈ h, stepsFor rv v ≠ [] →
        (stepsFor rv v).getLast? = pick (run Tracker.empty h) rv := by
      intro v hv hne
      obtain ⟨s, t, rfl⟩ := List.append_of_mem hv
      have hp : (s ++ t ++ [v]).Perm (s ++ v :: t) := by
        rw [List.append_assoc]
        exact List.Perm.append_left s (List.perm_append_singleton v t)
      have hnd' : ((s ++ t ++ [v]).map Visit.key).Nodup := (hp.map _).nodup_iff.2 hnd
      rw [← hall _ hp, pick_of_nodup hnd', List.flatMap_append, List.flatMap_singleton,
        List.getLast?_append]
      cases hl : (stepsFor rv v).getLast? with
      | none => exact absurd (List.getLast?_eq_none_iff.1 hl) hne
      | some x => rfl
    intro v hv v' hv' hne hne'
    rw [key v hv hne, key v' hv' hne']
  · intro hc h' hp
    have hnd' : (h'.map Visit.key).Nodup := (hp.map _).nodup_iff.2 hnd
    rw [pick_of_nodup hnd', pick_of_nodup hnd]
    by_cases hex : ∃ v ∈ h, stepsFor rv v ≠ []
    · obtain ⟨v, hv, hne⟩ := hex
      obtain ⟨c, hcl⟩ : ∃ c, (stepsFor rv v).getLast? = some c := by
        cases hl : (stepsFor rv v).getLast? with
        | none => exact absurd (List.getLast?_eq_none_iff.1 hl) hne
        | some x => exact ⟨x, rfl⟩
      rw [getLast_flatMap_of_const (c := c) (fun u hu hu' => (hc u (hp.mem_iff.1 hu) v hv hu' hne).trans hcl)
          ⟨v, hp.mem_iff.2 hv, hne⟩,
        getLast_flatMap_of_const (c := c) (fun u hu hu' => (hc u hu v hv hu' hne).trans hcl) ⟨v, hv, hne⟩]
    · push Not at hex
      rw [List.flatMap_eq_nil_iff.2 hex,
        List.flatMap_eq_nil_iff.2 fun u hu => hex u (hp.mem_iff.1 hu)]

/-- Variable 5 has one step, variable 6 two different ones. -/
example : let h : List (Visit Nat String) := [⟨0, 7, some [(5, "a"), (6, "b")]⟩, ⟨1, 8, some [(6, "c")]⟩]
    (∀ h', h'.Perm h → pick (run Tracker.empty h') 5 = pick (run Tracker.empty h) 5) ∧
      ¬ ∀ h', h'.Perm h → pick (run Tracker.empty h') 6 = pick (run Tracker.empty h) 6 := by
  intro h
  have hnd : (h.map Visit.key).Nodup := by decide
  rw [C84_step_iff_partial hnd, C84_step_iff_partial hnd]
  constructor
  · decide
  · decide

end

/-! ## Laws -/

/-- Spec.  The law of the step taken for `latent` after a history. -/
noncomputable def takenLaw (ρ : Env) (latent : Expr) (h : List (Visit Expr Expr)) : Option (Measure ℝ) :=
  (pick (run Tracker.empty h) latent).bind fun p => lawAt ρ p.2

/-- Any member of a list can be moved to its end. -/
theorem exists_perm_last {β : Type} {l : List β} {x : β} (h : x ∈ l) : ∃ s, (s ++ [x]).Perm l := by
  obtain ⟨s, t, rfl⟩ := List.append_of_mem h
  exact ⟨s ++ t, by rw [List.append_assoc]; exact List.Perm.append_left s (List.perm_append_singleton x t)⟩

/-- A law that depends on the last member of a list only is the same for all orders exactly when it is the
same for all members. -/
theorem perm_last_iff {β γ : Type} {f : List β → γ} {g : β → γ} {l : List β}
    (hf : ∀ s x, (s ++ [x]).Perm l → f (s ++ [x]) = g x) :
    (∀ l', l'.Perm l → f l' = f l) ↔ ∀ x ∈ l, ∀ y ∈ l, g x = g y := by
  constructor
  · intro h x hx y hy
    obtain ⟨s, hs⟩ := exists_perm_last hx
    obtain ⟨t, ht⟩ := exists_perm_last hy
    rw [← hf s x hs, ← hf t y ht, h _ hs, h _ ht]
  · intro h l' hl'
    rcases List.eq_nil_or_concat l with rfl | ⟨s, x, hs⟩
    · rw [List.perm_nil.1 hl']
    · rcases List.eq_nil_or_concat l' with rfl | ⟨t, y, ht⟩
      · rw [List.nil_perm.1 hl']
      · rw [List.concat_eq_append] at hs ht
        subst ht
        subst hs
        rw [hf t y hl', hf s x (List.Perm.refl _)]
        exact h y (hl'.mem_iff.1 (by simp)) x (by simp)

/-- **C84, a beta latent (partial).** The law of the step that is taken for a latent with a beta prior and
observed binomial and negative binomial children does not depend on the order in which the search visits
the children *exactly when* all children add the same to the two parameters of the prior.  The law it
should have, that of the latent given all children, never depends on the order. -/
theorem C84_beta_iff_partial {ρ : Env} {latent : Expr} {cs : List MixChild}
    (hnd : (cs.map MixChild.Y).Nodup) (hc : ∀ d ∈ cs, IsMixChild ρ latent d)
    {prior : Measure ℝ} (hprior : lawAt ρ latent = some prior) :
    ((∀ cs', cs'.Perm cs → takenLaw ρ latent (mixHistory cs') = takenLaw ρ latent (mixHistory cs)) ↔
        ∀ c ∈ cs, ∀ d ∈ cs, c.y = d.y ∧ c.added = d.added) ∧
      ∀ cs', cs'.Perm cs → bayes prior (mixLik ρ latent cs') = bayes prior (mixLik ρ latent cs) := by
  refine ⟨?_, fun cs' hp => ?_⟩
  swap
  · congr 1
    funext θ
    exact (hp.map _).prod_eq
  rcases cs.eq_nil_or_concat with rfl | ⟨cs₀, c₀, h₀⟩
  · simp
  have hc₀ := hc c₀ (by rw [h₀]; simp)
  obtain ⟨sh, r, sz, t, aE, bE, hL, -⟩ := mixChild_law hc₀
  obtain ⟨a, b, ha, hb, ha0, hb0, rfl⟩ : ∃ a b, evalE ρ aE = some a ∧ evalE ρ bE = some b ∧ 0 < a ∧
      0 < b ∧ prior = betaMeasure a b := by
    rw [hL] at hprior
    obtain ⟨x, z, h1, h2, h3, h4, h5⟩ := lawAt_beta_inv hprior
    exact ⟨x, z, h1, h2, h3, h4, h5⟩
  have hlast : ∀ (s : List MixChild) (c : MixChild), (s ++ [c]).Perm cs →
      takenLaw ρ latent (mixHistory (s ++ [c])) = some (betaMeasure (a + c.y) (b + c.added)) := by
    intro s c hp
    have hcc := hc c (hp.mem_iff.1 (by simp))
    obtain ⟨post, hpost⟩ := hcc.fires
    obtain ⟨sh', r', sz', t', aE', bE', hL', hlaw⟩ := mixChild_law hcc
    rw [hL] at hL'
    simp only [Expr.app.injEq, List.cons.injEq, and_true, true_and] at hL'
    obtain ⟨-, -, -, -, rfl, rfl⟩ := hL'
    have hpick : pick (run Tracker.empty (mixHistory (s ++ [c]))) latent = some (c.kind.name, post) := by
      unfold mixHistory
      rw [List.map_append, List.map_singleton]
      refine pick_last ?_ ?_ hpost
      · rw [← List.map_singleton (f := fun d : MixChild => (⟨d.kind.name, d.Y, d.kind.finder d.rng d.Y⟩ :
          Visit Expr Expr)), ← List.map_append, List.map_map]
        exact (hp.map _).nodup_iff.2 hnd
      · intro u hu
        rw [← List.map_singleton (f := fun d : MixChild => (⟨d.kind.name, d.Y, d.kind.finder d.rng d.Y⟩ :
          Visit Expr Expr)), ← List.map_append] at hu
        obtain ⟨d, hd, rfl⟩ := List.mem_map.1 hu
        exact (hc d (hp.mem_iff.1 hd)).fires
    rw [takenLaw, hpick, Option.bind_some]
    exact (hlaw ha hb ha0 hb0 hpost).1
  rw [perm_last_iff (f := fun cs => takenLaw ρ latent (mixHistory cs)) hlast]
  have hadd : ∀ d ∈ cs, 0 ≤ d.added := fun d hd => mixChild_added_nonneg (hc d hd)
  refine forall₂_congr fun c hcm => forall₂_congr fun d hdm => ?_
  have e1 := hadd c hcm
  have e2 := hadd d hdm
  rw [Option.some.injEq]
  constructor
  · intro h
    obtain ⟨h1, h2⟩ := betaMeasure_inj (by positivity) (by positivity) (by positivity) (by positivity) h
    exact ⟨by exact_mod_cast add_left_cancel h1, add_left_cancel h2⟩
  · rintro ⟨h1, h2⟩
    rw [h1, h2]

/-- Two binomial children with the same number of trials: the order matters exactly when the counts
differ. -/
example {ρ : Env} {y₁ y₂ : ℕ} (h₁ : y₁ ≤ 3) (h₂ : y₂ ≤ 3) (o₁ : ρ (exMixB 0 3 y₁).Y = y₁)
    (o₂ : ρ (exMixB 1 3 y₂).Y = y₂) :
    takenLaw ρ (exBeta 2 1) (mixHistory [exMixB 1 3 y₂, exMixB 0 3 y₁]) =
      takenLaw ρ (exBeta 2 1) (mixHistory [exMixB 0 3 y₁, exMixB 1 3 y₂]) ↔ y₁ = y₂ := by
  have hne : (exMixB 0 3 y₁).Y ≠ (exMixB 1 3 y₂).Y := by simp [exMixB, exRng]
  have hpr : lawAt ρ (exBeta 2 1) = some (betaMeasure 2 1) := by
    simp [exBeta, lawAt, exNum, evalE, rvLaw]
  have h := (C84_beta_iff_partial (ρ := ρ) (latent := exBeta 2 1) (cs := [exMixB 0 3 y₁, exMixB 1 3 y₂])
    (by simpa using hne) (by simp [isMixChild_exB o₁ h₁, isMixChild_exB o₂ h₂]) hpr).1
  constructor
  · intro he
    refine (h.1 (fun cs' hp => ?_) (exMixB 0 3 y₁) (by simp) (exMixB 1 3 y₂) (by simp)).1
    rcases List.perm_pair.1 hp with rfl | rfl
    · rfl
    · exact he
  · rintro rfl
    refine h.2 (fun c hc d hd => ?_) _ (List.Perm.swap _ _ _)
    simp only [List.mem_cons, List.not_mem_nil, or_false] at hc hd
    rcases hc with rfl | rfl <;> rcases hd with rfl | rfl <;> exact ⟨rfl, rfl⟩

/-- **C84, a gamma latent (partial).** The law of the step that is taken for a latent with a gamma prior
and observed Poisson children does not depend on the order in which the search visits the children
*exactly when* all counts are equal. -/
theorem C84_gamma_iff_partial {ρ : Env} {latent : Expr} {cs : List PoisChild}
    (hnd : (cs.map PoisChild.Y).Nodup) (hc : ∀ d ∈ cs, IsPoisChild ρ latent d)
    {sh : SShape} {r sz t aE bE : Expr} (hL : latent = .app (.rv .gamma) sh [r, sz, t, aE, bE])
    {a b : ℝ} (ha : evalE ρ aE = some a) (hb : evalE ρ bE = some b) (ha0 : 0 < a) (hb0 : 0 < b) :
    ((∀ cs', cs'.Perm cs → takenLaw ρ latent (poisHistory cs') = takenLaw ρ latent (poisHistory cs)) ↔
        ∀ c ∈ cs, ∀ d ∈ cs, c.y = d.y) ∧
      ∀ (prior : Measure ℝ) cs', cs'.Perm cs →
        bayes prior (poisLik ρ latent cs') = bayes prior (poisLik ρ latent cs) := by
  refine ⟨?_, fun prior cs' hp => ?_⟩
  swap
  · congr 1
    funext θ
    exact (hp.map _).prod_eq
  have hlast : ∀ (s : List PoisChild) (c : PoisChild), (s ++ [c]).Perm cs →
      takenLaw ρ latent (poisHistory (s ++ [c])) = some (gammaMeasure (a + c.y) (b + 1)) := by
    intro s c hp
    have hcc := hc c (hp.mem_iff.1 (by simp))
    obtain ⟨post, hpost⟩ := hcc.fires
    have hpick : pick (run Tracker.empty (poisHistory (s ++ [c]))) latent = some (0, post) := by
      unfold poisHistory
      rw [List.map_append, List.map_singleton]
      refine pick_last (v := ⟨0, c.Y, gammaPoissonFinder c.rng c.Y⟩) ?_ ?_ hpost
      · rw [← List.map_singleton (f := fun d : PoisChild => (⟨0, d.Y, gammaPoissonFinder d.rng d.Y⟩ :
          Visit Expr Expr)), ← List.map_append, List.map_map]
        exact (hp.map _).nodup_iff.2 hnd
      · intro u hu
        rw [← List.map_singleton (f := fun d : PoisChild => (⟨0, d.Y, gammaPoissonFinder d.rng d.Y⟩ :
          Visit Expr Expr)), ← List.map_append] at hu
        obtain ⟨d, hd, rfl⟩ := List.mem_map.1 hu
        exact (hc d (hp.mem_iff.1 hd)).fires
    rw [takenLaw, hpick, Option.bind_some]
    exact (gamma_poisson_step_law hpost ρ hcc.obs hL ha hb ha0 hb0).2.1
  rw [perm_last_iff (f := fun cs => takenLaw ρ latent (poisHistory cs)) hlast]
  refine forall₂_congr fun c hcm => forall₂_congr fun d hdm => ?_
  rw [Option.some.injEq]
  constructor
  · intro h
    obtain ⟨h1, -⟩ := gammaMeasure_inj (by positivity) (by positivity) (by positivity) (by positivity) h
    exact_mod_cast add_left_cancel h1
  · intro h
    rw [h]

/-- Two Poisson children with the same count: the order does not matter. -/
example {ρ : Env} {y : ℕ} (o₁ : ρ (exPois 0 y).Y = y) (o₂ : ρ (exPois 1 y).Y = y) :
    takenLaw ρ (exGamma 3 1) (poisHistory [exPois 1 y, exPois 0 y]) =
      takenLaw ρ (exGamma 3 1) (poisHistory [exPois 0 y, exPois 1 y]) := by
  have hne : (exPois 0 y).Y ≠ (exPois 1 y).Y := by simp [exPois, exRng]
  refine (C84_gamma_iff_partial (ρ := ρ) (latent := exGamma 3 1) (cs := [exPois 0 y, exPois 1 y])
    (by simpa using hne) (by
      intro d hd
      simp only [List.mem_cons, List.not_mem_nil, or_false] at hd
      rcases hd with rfl | rfl
      · exact ⟨⟨_, rfl⟩, o₁⟩
      · exact ⟨⟨_, rfl⟩, o₂⟩) (sh := []) rfl (a := 3) (b := 1) (by simp [exNum, evalE])
    (by simp [exNum, evalE]) (by norm_num) (by norm_num)).1.2 (fun c hc d hd => ?_) _ (List.Perm.swap _ _ _)
  simp only [List.mem_cons, List.not_mem_nil, or_false] at hc hd
  rcases hc with rfl | rfl <;> rcases hd with rfl | rfl <;> rfl

/-- **C84 is violated**: for a gamma latent with two Poisson children the search that visits the first
child last builds a step with another law than the search that visits the second child last, whenever the
two counts differ. -/
theorem C84_order_violated {ρ : Env} {y₁ y₂ : ℕ} (hy : y₁ ≠ y₂) (o₁ : ρ (exPois 0 y₁).Y = y₁)
    (o₂ : ρ (exPois 1 y₂).Y = y₂) :
    takenLaw ρ (exGamma 3 1) (poisHistory [exPois 1 y₂, exPois 0 y₁]) ≠
      takenLaw ρ (exGamma 3 1) (poisHistory [exPois 0 y₁, exPois 1 y₂]) := by
  have hne : (exPois 0 y₁).Y ≠ (exPois 1 y₂).Y := by simp [exPois, exRng]
  have h := (C84_gamma_iff_partial (ρ := ρ) (latent := exGamma 3 1) (cs := [exPois 0 y₁, exPois 1 y₂])
    (by simpa using hne) (by
      intro d hd
      simp only [List.mem_cons, List.not_mem_nil, or_false] at hd
      rcases hd with rfl | rfl
      · exact ⟨⟨_, rfl⟩, o₁⟩
      · exact ⟨⟨_, rfl⟩, o₂⟩) (sh := []) rfl (a := 3) (b := 1) (by simp [exNum, evalE])
    (by simp [exNum, evalE]) (by norm_num) (by norm_num)).1
  intro he
  refine hy (h.1 (fun cs' hp => ?_) (exPois 0 y₁) (by simp) (exPois 1 y₂) (by simp))
  rcases List.perm_pair.1 hp with rfl | rfl
  · rfl
  · exact he

/-- The observations can be made. -/
example : ∃ ρ : Env, ρ (exPois 0 1).Y = (1 : ℕ) ∧ ρ (exPois 1 2).Y = (2 : ℕ) := by
  have hne : (exPois 0 1).Y ≠ (exPois 1 2).Y := by simp [exPois, exRng]
  refine ⟨Function.update (fun _ => (2 : ℕ)) (exPois 0 1).Y (1 : ℕ), ?_, ?_⟩
  · simp
  · rw [Function.update_of_ne hne.symm]

end Verif.Track
