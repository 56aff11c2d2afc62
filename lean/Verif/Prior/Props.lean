import Verif.Prior.Lemmas

/-!
# C46–C47: RNG updates and prior sampling
-/

namespace Verif.Prior

open Verif.Py Verif.Graph

/-! ## C46 -/

/-- C46.  `get_rv_updates` fails iff some shared or RNG ancestor has no `default_update` attribute or has
two different updates; otherwise the result maps exactly the shared or RNG ancestors that have an update
to that update, the default one if there is one.  Missing for the full property: the first kind of
failure (`C46_nonshared_violated`). -/
theorem C46_exact_partial (a : Attrs) (l : List (Var × Var)) {own : Owner} {ins : Ins}
    {rvs anc : List Var} (hanc : IsAnc own ins rvs anc) :
    ((∃ e, getRvUpdates a l anc = .error e) ↔ ∃ r ∈ rvs, ∃ v, Reach own ins r v ∧ Relevant a v ∧
      (a.default v = none ∨ Conflict a l v)) ∧
    ∀ d, getRvUpdates a l anc = .ok d → ∀ v u, d.get? v = some u ↔
      (∃ r ∈ rvs, Reach own ins r v) ∧ Relevant a v ∧ HasUpdate a l v u := by
  constructor
  · constructor
    · rintro ⟨e, he⟩
      obtain ⟨v, hv, hr, h⟩ := updateLoop_error he
      obtain ⟨r, hr', hreach⟩ := (hanc v).1 hv
      refine ⟨r, hr', v, hreach, hr, ?_⟩
      rcases h with ⟨h, -⟩ | ⟨h, -⟩
      · exact Or.inl h
      · exact Or.inr h
    · rintro ⟨r, hr, v, hreach, hrel, h⟩
      cases hg : getRvUpdates a l anc with
      | error e => exact ⟨e, rfl⟩
      | ok d =>
        have := (updateLoop_ok hg).1 v ((hanc v).2 ⟨r, hr, hreach⟩) hrel
        rcases h with h | h
        · exact absurd h this.1
        · exact absurd h this.2
  · intro d hd v u
    rw [(updateLoop_ok hd).2]
    simp only [Dict.get?, hanc v]
    simp

/-- C46, when all RNG ancestors are shared variables (which have the attribute): failure iff two
different updates exist. -/
theorem C46_shared_partial (a : Attrs) (l : List (Var × Var)) {own : Owner} {ins : Ins}
    {rvs anc : List Var} (hanc : IsAnc own ins rvs anc) (hs : ∀ v, a.shared v = true → a.default v ≠ none)
    (hr : ∀ r ∈ rvs, ∀ v, Reach own ins r v → a.random v = true → a.shared v = true) :
    (∃ e, getRvUpdates a l anc = .error e) ↔
      ∃ r ∈ rvs, ∃ v, Reach own ins r v ∧ Relevant a v ∧ Conflict a l v := by
  rw [(C46_exact_partial a l hanc).1]
  constructor
  · rintro ⟨r, hr', v, hreach, hrel, h | h⟩
    · exfalso
      refine hs v ?_ h
      rcases hrel with h' | h'
      · exact h'
      · exact hr r hr' v hreach h'
    · exact ⟨r, hr', v, hreach, hrel, h⟩
  · rintro ⟨r, hr', v, hreach, hrel, h⟩
    exact ⟨r, hr', v, hreach, hrel, Or.inr h⟩

/-- The example graph: generators `0` and `1` (shared), `3 = normal(rng = 0)` with new state `2`, and
`5 = normal(rng = 1, mean = 3)` with new state `4`; `6` is the generator of an unrelated variable. -/
def exOwn : Owner
  | 2 => some (0, 0)
  | 3 => some (0, 1)
  | 4 => some (1, 0)
  | 5 => some (1, 1)
  | 7 => some (2, 0)
  | _ => none

/-- The inputs of its nodes. -/
def exIns : Ins
  | 0 => [0]
  | 1 => [1, 3]
  | 2 => [6]
  | _ => []

/-- Its generators are shared; `0` has a default update, `1` and `6` only recorded ones. -/
def exAttrs : Attrs where
  shared v := v == 0 || v == 1 || v == 6
  random v := v == 0 || v == 1 || v == 2 || v == 4 || v == 6 || v == 7
  default v := if v = 0 then some (some 2) else if v = 1 ∨ v = 6 then some none else none

/-- What the stream has recorded. -/
def exUpdates : List (Var × Var) := [(0, 2), (1, 4), (6, 7)]

theorem exAnc : IsAnc exOwn exIns [5] [5, 1, 3, 0] := by
  have e5 : ∀ v, Edge exOwn exIns 5 v → v = 1 ∨ v = 3 := by
    rintro v ⟨n, i, h, hv⟩
    simp only [exOwn, Option.some.injEq, Prod.mk.injEq] at h
    rw [← h.1] at hv
    simpa [exIns] using hv
  have e3 : ∀ v, Edge exOwn exIns 3 v → v = 0 := by
    rintro v ⟨n, i, h, hv⟩
    simp only [exOwn, Option.some.injEq, Prod.mk.injEq] at h
    rw [← h.1] at hv
    simpa [exIns] using hv
  have e1 : ∀ v, ¬ Edge exOwn exIns 1 v := by
    rintro v ⟨n, i, h, -⟩
    simp [exOwn] at h
  have e0 : ∀ v, ¬ Edge exOwn exIns 0 v := by
    rintro v ⟨n, i, h, -⟩
    simp [exOwn] at h
  intro v
  constructor
  · intro h
    have d51 : Edge exOwn exIns 5 1 := ⟨1, 1, rfl, by simp [exIns]⟩
    have d53 : Edge exOwn exIns 5 3 := ⟨1, 1, rfl, by simp [exIns]⟩
    have d30 : Edge exOwn exIns 3 0 := ⟨0, 1, rfl, by simp [exIns]⟩
    refine ⟨5, by simp, ?_⟩
    simp only [List.mem_cons, List.not_mem_nil, or_false] at h
    rcases h with rfl | rfl | rfl | rfl
    · exact .refl
    · exact .single d51
    · exact .single d53
    · exact .tail (.single d53) d30
  · rintro ⟨r, hr, h⟩
    simp only [List.mem_singleton] at hr
    subst hr
    induction h with
    | refl => simp
    | tail _ he ih =>
      simp only [List.mem_cons, List.not_mem_nil, or_false] at ih ⊢
      rcases ih with rfl | rfl | rfl | rfl
      · rcases e5 _ he with rfl | rfl <;> simp
      · exact absurd he (e1 _)
      · simp [e3 _ he]
      · exact absurd he (e0 _)

example : getRvUpdates exAttrs exUpdates [5, 1, 3, 0] = .ok [(1, 4), (0, 2)] := by decide

/-- With shared generators, two recorded updates for one of them are the only way to fail. -/
example : (∃ e, getRvUpdates exAttrs ((0, 4) :: exUpdates) [5, 1, 3, 0] = .error e) ↔
    ∃ r ∈ [5], ∃ v, Reach exOwn exIns r v ∧ Relevant exAttrs v ∧ Conflict exAttrs ((0, 4) :: exUpdates) v := by
  refine C46_shared_partial exAttrs _ exAnc (fun v hv => ?_) fun r hr v hreach hv => ?_
  · simp only [exAttrs, Bool.or_eq_true, beq_iff_eq] at hv
    rcases hv with (rfl | rfl) | rfl <;> simp [exAttrs]
  · have := (exAnc v).2 ⟨r, hr, hreach⟩
    simp only [List.mem_cons, List.not_mem_nil, or_false] at this
    rcases this with rfl | rfl | rfl | rfl <;> simp_all [exAttrs]

example (d : Dict Var Var) (h : getRvUpdates exAttrs exUpdates [5, 1, 3, 0] = .ok d) : d.get? 6 = none := by
  rw [Option.eq_none_iff_forall_ne_some]
  intro u hu
  obtain ⟨⟨r, hr, hreach⟩, -⟩ := ((C46_exact_partial exAttrs exUpdates exAnc).2 d h 6 u).1 hu
  exact absurd ((exAnc 6).2 ⟨r, hr, hreach⟩) (by simp)

/-- The graph of `C46_nonshared_violated`: `5` uses the new state `2` of the node of `3` as its
generator. -/
def chainIns : Ins
  | 0 => [0]
  | 1 => [2, 3]
  | _ => []

/-- C46 fails for models in which one draw uses the generator state left by another: that state is an RNG
ancestor without `default_update`, and there are no two different updates, but the call fails. -/
theorem C46_nonshared_violated :
    IsAnc exOwn chainIns [5] [5, 2, 3, 0] ∧
    (∀ v, ¬ Conflict exAttrs exUpdates v) ∧
    getRvUpdates exAttrs exUpdates [5, 2, 3, 0] = .error (.attributeError 2) := by
  refine ⟨?_, ?_, by decide⟩
  · have e5 : ∀ v, Edge exOwn chainIns 5 v → v = 2 ∨ v = 3 := by
      rintro v ⟨n, i, h, hv⟩
      simp only [exOwn, Option.some.injEq, Prod.mk.injEq] at h
      rw [← h.1] at hv
      simpa [chainIns] using hv
    have e3 : ∀ v, Edge exOwn chainIns 3 v → v = 0 := by
      rintro v ⟨n, i, h, hv⟩
      simp only [exOwn, Option.some.injEq, Prod.mk.injEq] at h
      rw [← h.1] at hv
      simpa [chainIns] using hv
    have e2 : ∀ v, Edge exOwn chainIns 2 v → v = 0 := by
      rintro v ⟨n, i, h, hv⟩
      simp only [exOwn, Option.some.injEq, Prod.mk.injEq] at h
      rw [← h.1] at hv
      simpa [chainIns] using hv
    have e0 : ∀ v, ¬ Edge exOwn chainIns 0 v := by
      rintro v ⟨n, i, h, -⟩
      simp [exOwn] at h
    intro v
    constructor
    · intro h
      have d52 : Edge exOwn chainIns 5 2 := ⟨1, 1, rfl, by simp [chainIns]⟩
      have d53 : Edge exOwn chainIns 5 3 := ⟨1, 1, rfl, by simp [chainIns]⟩
      have d30 : Edge exOwn chainIns 3 0 := ⟨0, 1, rfl, by simp [chainIns]⟩
      refine ⟨5, by simp, ?_⟩
      simp only [List.mem_cons, List.not_mem_nil, or_false] at h
      rcases h with rfl | rfl | rfl | rfl
      · exact .refl
      · exact .single d52
      · exact .single d53
      · exact .tail (.single d53) d30
    · rintro ⟨r, hr, h⟩
      simp only [List.mem_singleton] at hr
      subst hr
      induction h with
      | refl => simp
      | tail _ he ih =>
        simp only [List.mem_cons, List.not_mem_nil, or_false] at ih ⊢
        rcases ih with rfl | rfl | rfl | rfl
        · rcases e5 _ he with rfl | rfl <;> simp
        · simp [e2 _ he]
        · simp [e3 _ he]
        · exact absurd he (e0 _)
  · rintro v ⟨u, u', hd, hr, hne⟩
    rw [recorded_iff] at hr
    have hv : v = 0 := by
      by_contra hv
      simp only [exAttrs, if_neg hv] at hd
      split at hd <;> simp at hd
    subst hv
    have h1 : (Dict.update [] exUpdates).get? 0 = some 2 := by decide
    rw [h1] at hr
    simp only [exAttrs, if_true, Option.some.injEq] at hd hr
    exact hne (hd.symm.trans hr)

/-! ## C47 -/

section
variable {Val : Type} {sem : Node → Nat → List Val → Val}

/-- C47.  If `sample_prior` succeeds, there is a sequence of states of the shared variables, beginning
with the given one, such that sample `i` is the value of the variables in state `i`; from each state to the
next, every ancestor that has an update gets that update's value, computed from the earlier state, and
nothing else changes; and the final state is the one after `n` steps. -/
theorem C47_samples_partial {a : Attrs} {l : List (Var × Var)} {own : Owner} {ins : Ins}
    (hac : Acyclic own ins) {rvs anc : List Var} (hanc : IsAnc own ins rvs anc) (n : Nat) (σ : Var → Val)
    {samples : List (List Val)} {final : Var → Val}
    (h : samplePrior own ins sem a l anc n rvs σ = .ok (samples, final)) :
    ∃ st : Nat → Var → Val, st 0 = σ ∧ final = st n ∧ samples.length = n ∧
      (∀ i, i < n → ∃ xs, samples[i]? = some xs ∧ EvL own sem (leaves own (st i)) ins rvs xs) ∧
      ∀ i v, (∀ r ∈ rvs, Reach own ins r v → ∀ u, Relevant a v → HasUpdate a l v u →
          Ev own sem (leaves own (st i)) ins u (st (i + 1) v)) ∧
        ((∀ r ∈ rvs, Reach own ins r v → ∀ u, Relevant a v → ¬ HasUpdate a l v u) →
          st (i + 1) v = st i v) := by
  unfold samplePrior at h
  cases hg : getRvUpdates a l anc with
  | error e => simp [hg] at h
  | ok ups =>
    rw [hg] at h
    simp only [Except.ok.injEq] at h
    rw [scan_eq] at h
    injection h with h1 h2
    have hspec := (C46_exact_partial a l hanc).2 ups hg
    refine ⟨fun i => (nextState own ins sem ups)^[i] σ, rfl, h2.symm, ?_, ?_, ?_⟩
    · rw [← h1]
      simp
    · intro i hi
      refine ⟨_, ?_, evL_map rvs fun v _ => ev_value hac _ v⟩
      rw [← h1, List.getElem?_map, List.getElem?_range hi]
      rfl
    · intro i v
      simp only [Function.iterate_succ_apply']
      constructor
      · intro r hr hreach u hrel hu
        have := (hspec v u).2 ⟨⟨r, hr, hreach⟩, hrel, hu⟩
        rw [nextState, this]
        exact ev_value hac _ u
      · intro hno
        have : ups.get? v = none := by
          rw [Option.eq_none_iff_forall_ne_some]
          intro u hu
          obtain ⟨⟨r, hr, hreach⟩, hrel, h⟩ := (hspec v u).1 hu
          exact hno r hr hreach u hrel h
        rw [nextState, this]

/-- C47 for a model all of whose generators have updates: every generator the variables depend on is
advanced in every step, every unrelated variable keeps its value throughout. -/
theorem C47_advanced_partial {a : Attrs} {l : List (Var × Var)} {own : Owner} {ins : Ins}
    (hac : Acyclic own ins) {rvs anc : List Var} (hanc : IsAnc own ins rvs anc)
    (hup : ∀ r ∈ rvs, ∀ g, Reach own ins r g → a.random g = true → ∃ u, HasUpdate a l g u)
    (n : Nat) (σ : Var → Val) {samples : List (List Val)} {final : Var → Val}
    (h : samplePrior own ins sem a l anc n rvs σ = .ok (samples, final)) :
    (∃ st : Nat → Var → Val, st 0 = σ ∧ final = st n ∧ samples.length = n ∧
      (∀ i, i < n → ∃ xs, samples[i]? = some xs ∧ EvL own sem (leaves own (st i)) ins rvs xs) ∧
      ∀ i g r, r ∈ rvs → Reach own ins r g → a.random g = true →
        ∃ u, HasUpdate a l g u ∧ Ev own sem (leaves own (st i)) ins u (st (i + 1) g)) ∧
    ∀ v, (∀ r ∈ rvs, ¬ Reach own ins r v) → final v = σ v := by
  obtain ⟨st, h0, hf, hl, hs, hstep⟩ := C47_samples_partial hac hanc n σ h
  refine ⟨⟨st, h0, hf, hl, hs, fun i g r hr hreach hrand => ?_⟩, fun v hv => ?_⟩
  · obtain ⟨u, hu⟩ := hup r hr g hreach hrand
    exact ⟨u, hu, (hstep i g).1 r hr hreach u (Or.inr hrand) hu⟩
  · rw [hf]
    have : ∀ i, st i v = σ v := by
      intro i
      induction i with
      | zero => rw [h0]
      | succ i ih => rw [(hstep i v).2 fun r hr hreach => absurd hreach (hv r hr), ih]
    exact this n

theorem exAcyclic : Acyclic exOwn exIns := by
  intro v n i h w hw
  unfold exOwn at h
  split at h <;> simp only [Option.some.injEq, Prod.mk.injEq, reduceCtorEq] at h <;>
    rw [← h.1] at hw <;> simp [exIns] at hw
  · subst hw; decide
  · subst hw; decide
  · rcases hw with rfl | rfl <;> decide
  · rcases hw with rfl | rfl <;> decide
  · subst hw; decide

example (σ : Var → Val) : ∃ samples final,
    samplePrior exOwn exIns sem exAttrs exUpdates [5, 1, 3, 0] 10 [5] σ = .ok (samples, final) ∧
    samples.length = 10 ∧ final 6 = σ 6 := by
  have hg : getRvUpdates exAttrs exUpdates [5, 1, 3, 0] = .ok [(1, 4), (0, 2)] := by decide
  refine ⟨_, _, by rw [samplePrior, hg], ?_⟩
  have h : samplePrior exOwn exIns sem exAttrs exUpdates [5, 1, 3, 0] 10 [5] σ =
      .ok (scan exOwn exIns sem [5] [(1, 4), (0, 2)] 10 σ) := by rw [samplePrior, hg]
  have hup : ∀ r ∈ [5], ∀ g, Reach exOwn exIns r g → exAttrs.random g = true →
      ∃ u, HasUpdate exAttrs exUpdates g u := by
    intro r hr g hreach hg
    have hm := (exAnc g).2 ⟨r, hr, hreach⟩
    simp only [List.mem_cons, List.not_mem_nil, or_false] at hm
    rcases hm with rfl | rfl | rfl | rfl
    · simp [exAttrs] at hg
    · exact ⟨4, Or.inr ⟨by simp [exAttrs], recorded_iff.2 (by decide)⟩⟩
    · simp [exAttrs] at hg
    · exact ⟨2, Or.inl (by simp [exAttrs])⟩
  obtain ⟨⟨st, -, -, hl, -⟩, hfin⟩ := C47_advanced_partial exAcyclic exAnc hup 10 σ
    (samples := (scan exOwn exIns sem [5] [(1, 4), (0, 2)] 10 σ).1)
    (final := (scan exOwn exIns sem [5] [(1, 4), (0, 2)] 10 σ).2) h
  refine ⟨hl, hfin 6 fun r hr hreach => ?_⟩
  have := (exAnc 6).2 ⟨r, hr, hreach⟩
  simp at this

/-- C47 fails for variables whose generators have no update, e.g. one created without a stream: all
samples are the same, whatever the number of samples and the graph. -/
theorem C47_no_update_violated {a : Attrs} {l : List (Var × Var)} {own : Owner} {ins : Ins}
    {rvs anc : List Var} (hanc : IsAnc own ins rvs anc)
    (hdef : ∀ r ∈ rvs, ∀ g, Reach own ins r g → Relevant a g → a.default g = some none)
    (hno : ∀ r ∈ rvs, ∀ g, Reach own ins r g → ∀ u, ¬ Recorded l g u) (n : Nat) (σ : Var → Val) :
    ∃ xs, samplePrior own ins sem a l anc n rvs σ = .ok (List.replicate n xs, σ) := by
  have hok : ∃ d, getRvUpdates a l anc = .ok d := by
    cases hg : getRvUpdates a l anc with
    | ok d => exact ⟨d, rfl⟩
    | error e =>
      obtain ⟨r, hr, v, hreach, hrel, h⟩ := (C46_exact_partial a l hanc).1.1 ⟨e, hg⟩
      rcases h with h | ⟨u, u', h, -⟩ <;> rw [hdef r hr v hreach hrel] at h <;> cases h
  obtain ⟨d, hd⟩ := hok
  have hnone : ∀ v, d.get? v = none := by
    intro v
    rw [Option.eq_none_iff_forall_ne_some]
    intro u hu
    obtain ⟨⟨r, hr, hreach⟩, hrel, h⟩ := ((C46_exact_partial a l hanc).2 d hd v u).1 hu
    rcases h with h | ⟨-, h⟩
    · rw [hdef r hr v hreach hrel] at h
      cases h
    · exact hno r hr v hreach u h
  have hst : nextState own ins sem d = id := by
    funext σ v
    rw [nextState, hnone v]
    rfl
  refine ⟨rvs.map (value own ins sem σ), ?_⟩
  rw [samplePrior, hd]
  simp only [scan_eq, hst, Function.iterate_id, id, List.map_const', List.length_range]

end

/-- A variable created without a stream: its generator `0` is shared, without update. -/
example (σ : Var → Nat) : ∃ xs, samplePrior exOwn exIns (fun _ i xs => i + xs.sum)
    { exAttrs with default := fun v => if v = 0 ∨ v = 1 then some none else none } []
    [5, 1, 3, 0] 3 [5] σ = .ok ([xs, xs, xs], σ) := by
  refine C47_no_update_violated exAnc ?_ ?_ 3 σ
  · intro r hr g hreach hrel
    have hm := (exAnc g).2 ⟨r, hr, hreach⟩
    simp only [List.mem_cons, List.not_mem_nil, or_false] at hm
    rcases hm with rfl | rfl | rfl | rfl
    · simp [Relevant, exAttrs] at hrel
    · rfl
    · simp [Relevant, exAttrs] at hrel
    · rfl
  · rintro r hr g hreach u ⟨l1, l2, h, -⟩
    simp at h

end Verif.Prior
