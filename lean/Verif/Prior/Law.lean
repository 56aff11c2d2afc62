import Verif.Prior.Props
import Mathlib.Probability.Independence.InfinitePi
import Mathlib.Probability.Distributions.Gaussian.Real

/-!
# C74: the law of the samples `sample_prior` returns

A generator is idealised: its state is the stream of the noises it is going to deliver, a draw uses the
first one and leaves the rest as the new state.  Different generators deliver independent streams.
-/

open MeasureTheory ProbabilityTheory

namespace Verif.Prior

open Verif.Py Verif.Graph

/-- Values in a run: the state of a generator, or an array. -/
inductive SV (U W : Type)
  | rng (s : ℕ → U)
  | val (w : W)

/-- The arrays among the inputs of a node. -/
def arrays {U W : Type} : List (SV U W) → List W
  | [] => []
  | .rng _ :: xs => arrays xs
  | .val w :: xs => w :: arrays xs

section
variable {U W : Type}

/-- What a node computes (library: `RandomVariable.perform`).  `gen n` is the generator of a random
variable's node `n`: output 0 is the new state of the generator, the other one the draw, a function
`draw n` of the noise and the parameters.  Other nodes compute `op n i`. -/
def streamSem (gen : Node → Option Var) (draw : Node → U → List W → W) (op : Node → Nat → List W → W)
    (n : Node) (i : Nat) (xs : List (SV U W)) : SV U W :=
  match gen n, xs with
  | some _, .rng s :: rest =>
    if i = 0 then .rng (fun k => s (k + 1)) else .val (draw n (s 0) (arrays rest))
  | _, xs => .val (op n i (arrays xs))

/-- The random variables of a model, by their nodes. -/
abbrev Rand (gen : Node → Option Var) : Type := {n : Node // (gen n).isSome}

/-- Spec.  What the nodes compute when random variable `n` is drawn with noise `η n`. -/
def priorSem (gen : Node → Option Var) (draw : Node → U → List W → W) (op : Node → Nat → List W → W)
    (η : Rand gen → U) (n : Node) (i : Nat) (xs : List W) : W :=
  if h : (gen n).isSome then draw n (η ⟨n, h⟩) xs else op n i xs

/-- Spec.  The inputs of the nodes without the generators. -/
def priorIns (gen : Node → Option Var) (ins : Ins) : Ins :=
  fun n => if (gen n).isSome then (ins n).tail else ins n

/-- Spec.  A variable that stands for the state of a generator. -/
def IsState (own : Owner) (gen : Node → Option Var) (v : Var) : Prop :=
  (∃ n, gen n = some v) ∨ ∃ n, (gen n).isSome ∧ own v = some (n, 0)

/-- Spec.  The model was built with a random stream: every random variable has a generator of its own,
its first input, which is a shared variable whose update is the new state that random variable's node
returns; states of generators are used for nothing else; other variables have no updates. -/
structure FromStream (own : Owner) (ins : Ins) (a : Attrs) (l : List (Var × Var)) (rvs : List Var)
    (gen : Node → Option Var) : Prop where
  leaf : ∀ n g, gen n = some g → own g = none ∧ ∃ ps, ins n = g :: ps ∧ ∀ w ∈ ps, ¬ IsState own gen w
  single : ∀ n n' g, gen n = some g → gen n' = some g → n = n'
  other : ∀ n, gen n = none → ∀ w ∈ ins n, ¬ IsState own gen w
  asked : ∀ r ∈ rvs, ¬ IsState own gen r
  update : ∀ n g, gen n = some g → Relevant a g ∧ ∃ u, own u = some (n, 0) ∧ HasUpdate a l g u
  default : ∀ r ∈ rvs, ∀ v, Reach own ins r v → Relevant a v → a.default v ≠ none ∧ ¬ Conflict a l v
  fixed : ∀ v, (∀ n, gen n ≠ some v) → ∀ u, ¬ HasUpdate a l v u

open Classical in
/-- Spec.  The state before the call: generator `g` is going to deliver `ω 0 g`, `ω 1 g`, ...; the other
variables have the values `σ`. -/
noncomputable def start (gen : Node → Option Var) (σ : Var → W) (ω : ℕ → Var → U) (v : Var) : SV U W :=
  if ∃ n, gen n = some v then .rng (fun k => ω k v) else .val (σ v)

variable {own : Owner} {ins : Ins} {gen : Node → Option Var} {draw : Node → U → List W → W}
  {op : Node → Nat → List W → W}

theorem arrays_map_val (xs : List W) : arrays (xs.map (SV.val (U := U))) = xs := by
  induction xs with
  | nil => rfl
  | cons x xs ih => rw [List.map_cons, arrays, ih]

theorem value_node {Val : Type} {sem : Node → Nat → List Val → Val} (hac : Acyclic own ins)
    (σ : Var → Val) {v : Var} {n : Node} {i : Nat} (h : own v = some (n, i)) :
    value own ins sem σ v = sem n i ((ins n).map (value own ins sem σ)) :=
  (ev_value hac σ v).det (.node (by rw [leaves, if_neg (by simp [h])]) h
    (evL_map _ fun w _ => ev_value hac σ w))

theorem value_leaf {Val : Type} {sem : Node → Nat → List Val → Val} (hac : Acyclic own ins)
    (σ : Var → Val) {v : Var} (h : own v = none) : value own ins sem σ v = σ v :=
  (ev_value hac σ v).det (.given (by rw [leaves, if_pos h]))

theorem acyclic_prior (hac : Acyclic own ins) : Acyclic own (priorIns gen ins) := by
  intro v n i h w hw
  refine hac v n i h w ?_
  unfold priorIns at hw
  split at hw
  · exact List.mem_of_mem_tail hw
  · exact hw

/-- The noise of one sample. -/
def noiseAt (gen : Node → Option Var) (ζ : Var → U) (r : Rand gen) : U := ζ ((gen r.1).get r.2)

/-- One sample is a draw from the model with the noises at the heads of the streams. -/
theorem value_stream {a : Attrs} {l : List (Var × Var)} {rvs : List Var} (hac : Acyclic own ins)
    (hm : FromStream own ins a l rvs gen) {σ : Var → W} {ω : ℕ → Var → U} {τ : Var → SV U W}
    {R : Var → Prop} (hR : ∀ v n i, R v → own v = some (n, i) → ∀ w ∈ ins n, R w)
    (hτ : ∀ v, R v → own v = none → τ v = start gen σ ω v) :
    ∀ v, R v → ¬ IsState own gen v →
      value own ins (streamSem gen draw op) τ v =
        .val (value own (priorIns gen ins) (priorSem gen draw op (noiseAt gen (ω 0))) σ v) := by
  intro v
  induction v using Nat.strong_induction_on with
  | _ v ih =>
    intro hv hs
    cases ho : own v with
    | none =>
      rw [value_leaf hac _ ho, value_leaf (acyclic_prior hac) _ ho, hτ v hv ho, start, if_neg]
      rintro ⟨n, hn⟩
      exact hs (Or.inl ⟨n, hn⟩)
    | some q =>
      obtain ⟨n, i⟩ := q
      rw [value_node hac _ ho, value_node (acyclic_prior hac) _ ho]
      cases hg : gen n with
      | none =>
        have hp : priorIns gen ins n = ins n := by simp [priorIns, hg]
        have hargs : (ins n).map (value own ins (streamSem gen draw op) τ) =
            ((ins n).map (value own (priorIns gen ins)
              (priorSem gen draw op (noiseAt gen (ω 0))) σ)).map SV.val := by
          rw [List.map_map]
          refine List.map_congr_left fun w hw => ?_
          exact ih w (hac v n i ho w hw) (hR v n i hv ho w hw) (hm.other n hg w hw)
        rw [hargs, hp]
        simp only [streamSem, priorSem, hg, arrays_map_val]
        simp
      | some g =>
        obtain ⟨hgl, ps, hps, hpn⟩ := hm.leaf n g hg
        have hi : i ≠ 0 := fun h => hs (Or.inr ⟨n, by simp [hg], by rw [ho, h]⟩)
        have hp : priorIns gen ins n = ps := by simp [priorIns, hg, hps]
        have hgR : R g := hR v n i hv ho g (by simp [hps])
        have hgv : value own ins (streamSem gen draw op) τ g = .rng fun k => ω k g := by
          rw [value_leaf hac _ hgl, hτ g hgR hgl, start, if_pos ⟨n, hg⟩]
        have hargs : ps.map (value own ins (streamSem gen draw op) τ) =
            (ps.map (value own (priorIns gen ins)
              (priorSem gen draw op (noiseAt gen (ω 0))) σ)).map SV.val := by
          rw [List.map_map]
          refine List.map_congr_left fun w hw => ?_
          exact ih w (hac v n i ho w (by simp [hps, hw])) (hR v n i hv ho w (by simp [hps, hw]))
            (hpn w hw)
        rw [hp, hps, List.map_cons, hgv, hargs]
        simp only [streamSem, priorSem, hg, if_neg hi, arrays_map_val, noiseAt,
          Option.isSome_some, Option.get_some]
        simp

/-- One step of the scan moves every stream in use by one. -/
theorem nextState_stream {a : Attrs} {l : List (Var × Var)} {rvs anc : List Var}
    (hac : Acyclic own ins) (hanc : IsAnc own ins rvs anc) (hm : FromStream own ins a l rvs gen)
    {ups : Dict Var Var} (hups : getRvUpdates a l anc = .ok ups) {σ : Var → W} {ω : ℕ → Var → U}
    {τ : Var → SV U W}
    (hτ : ∀ v, (∃ r ∈ rvs, Reach own ins r v) → own v = none → τ v = start gen σ ω v) :
    ∀ v, (∃ r ∈ rvs, Reach own ins r v) → own v = none →
      nextState own ins (streamSem gen draw op) ups τ v = start gen σ (fun k => ω (k + 1)) v := by
  intro v hv hl
  have hspec := (C46_exact_partial a l hanc).2 ups hups
  by_cases hg : ∃ n, gen n = some v
  · obtain ⟨n, hn⟩ := hg
    obtain ⟨hrel, u, hu, hup⟩ := hm.update n v hn
    obtain ⟨-, ps, hps, -⟩ := hm.leaf n v hn
    rw [nextState, (hspec v u).2 ⟨hv, hrel, hup⟩]
    simp only
    rw [value_node hac _ hu, hps, List.map_cons, value_leaf hac _ hl, hτ v hv hl, start, start,
      if_pos ⟨n, hn⟩, if_pos ⟨n, hn⟩]
    simp [streamSem, hn]
  · have hno : ups.get? v = none := by
      rw [Option.eq_none_iff_forall_ne_some]
      intro u hu
      exact hm.fixed v (fun n hn => hg ⟨n, hn⟩) u ((hspec v u).1 hu).2.2
    rw [nextState, hno]
    simp only
    rw [hτ v hv hl, start, start, if_neg hg, if_neg hg]

theorem iterate_stream {a : Attrs} {l : List (Var × Var)} {rvs anc : List Var}
    (hac : Acyclic own ins) (hanc : IsAnc own ins rvs anc) (hm : FromStream own ins a l rvs gen)
    {ups : Dict Var Var} (hups : getRvUpdates a l anc = .ok ups) (σ : Var → W) (ω : ℕ → Var → U)
    (i : ℕ) :
    ∀ v, (∃ r ∈ rvs, Reach own ins r v) → own v = none →
      (nextState own ins (streamSem gen draw op) ups)^[i] (start gen σ ω) v =
        start gen σ (fun k => ω (k + i)) v := by
  induction i with
  | zero => intro v _ _; rfl
  | succ i ih =>
    intro v hv hl
    rw [Function.iterate_succ_apply', nextState_stream hac hanc hm hups ih v hv hl]
    have : (fun k => ω (k + 1 + i)) = fun k => ω (k + (i + 1)) :=
      funext fun k => by rw [Nat.add_assoc, Nat.add_comm 1 i]
    exact congrArg (fun ω => start gen σ ω v) this

/-- The call succeeds, and sample `i` is the draw from the model with the `i`-th noises. -/
theorem samplePrior_stream {a : Attrs} {l : List (Var × Var)} {rvs anc : List Var}
    (hac : Acyclic own ins) (hanc : IsAnc own ins rvs anc) (hm : FromStream own ins a l rvs gen)
    (n : ℕ) (σ : Var → W) (ω : ℕ → Var → U) : ∃ final,
    samplePrior own ins (streamSem gen draw op) a l anc n rvs (start gen σ ω) =
      .ok ((List.range n).map fun i => (rvs.map (value own (priorIns gen ins)
        (priorSem gen draw op (noiseAt gen (ω i))) σ)).map SV.val, final) := by
  cases hg : getRvUpdates a l anc with
  | error e =>
    obtain ⟨r, hr, v, hv, hrel, h⟩ := (C46_exact_partial a l hanc).1.1 ⟨e, hg⟩
    have := hm.default r hr v hv hrel
    rcases h with h | h
    · exact absurd h this.1
    · exact absurd h this.2
  | ok ups =>
    refine ⟨(nextState own ins (streamSem gen draw op) ups)^[n] (start gen σ ω), ?_⟩
    simp only [samplePrior, hg, scan_eq]
    congr 2
    refine List.map_congr_left fun i _ => ?_
    rw [List.map_map]
    refine List.map_congr_left fun r hr => ?_
    have h1 := value_stream (draw := draw) (op := op) hac hm
      (τ := (nextState own ins (streamSem gen draw op) ups)^[i] (start gen σ ω))
      (ω := fun k => ω (k + i)) (R := fun v => ∃ r ∈ rvs, Reach own ins r v)
      (fun v n i ⟨r, hr, h⟩ ho w hw => ⟨r, hr, h.tail ⟨n, i, ho, hw⟩⟩)
      (iterate_stream hac hanc hm hg σ ω i) r ⟨r, hr, .refl⟩ (hm.asked r hr)
    simpa using h1

variable [MeasurableSpace U]

/-- Independent generators give the random variables independent noises. -/
theorem map_noiseAt {a : Attrs} {l : List (Var × Var)} {rvs : List Var}
    (hm : FromStream own ins a l rvs gen) (ν : Measure U) [IsProbabilityMeasure ν] :
    (Measure.infinitePi fun _ : Var => ν).map (noiseAt gen) =
      Measure.infinitePi fun _ : Rand gen => ν := by
  have hinj : Function.Injective fun r : Rand gen => (gen r.1).get r.2 := by
    rintro ⟨n, hn⟩ ⟨n', hn'⟩ h
    simp only at h
    obtain ⟨g, hg⟩ := Option.isSome_iff_exists.1 hn
    obtain ⟨g', hg'⟩ := Option.isSome_iff_exists.1 hn'
    simp only [hg, hg', Option.get_some] at h
    exact Subtype.ext (hm.single n n' g hg (h ▸ hg'))
  have h1 : iIndepFun (fun (v : Var) (ζ : Var → U) => ζ v) (Measure.infinitePi fun _ : Var => ν) :=
    iIndepFun_infinitePi (X := fun _ x => x) fun _ => measurable_id
  have h2 := (h1.precomp hinj).map_fun_eq_infinitePi_map fun r => measurable_pi_apply _
  refine h2.trans ?_
  congr 1
  ext1 r
  exact Measure.infinitePi_map_eval _ _

/-- **C74.** For a model built with a random stream, `sample_prior` succeeds and returns `n`
independent draws from the joint prior of the variables asked for: the probability that sample `i` lies
in `A i` for all `i` is the product of the probabilities of `A i` under the prior.  The prior is the law
of the variables' values (`Φ`) when every random variable of the model is drawn from its conditional
law given its parents, with noise of its own. -/
theorem C74_independent_prior_draws {a : Attrs} {l : List (Var × Var)} {rvs anc : List Var}
    (hac : Acyclic own ins) (hanc : IsAnc own ins rvs anc) (hm : FromStream own ins a l rvs gen)
    (ν : Measure U) [IsProbabilityMeasure ν] (σ : Var → W) {Φ : (Rand gen → U) → List W}
    (hΦ : ∀ η, EvL own (priorSem gen draw op η) (leaves own σ) (priorIns gen ins) rvs (Φ η))
    (n : ℕ) {A : ℕ → Set (List W)} (hA : ∀ i, MeasurableSet {η | Φ η ∈ A i}) :
    ∃ samples : (ℕ → Var → U) → List (List (SV U W)),
      (∀ ω, ∃ final, samplePrior own ins (streamSem gen draw op) a l anc n rvs (start gen σ ω) =
        .ok (samples ω, final)) ∧ (∀ ω, (samples ω).length = n) ∧
      (Measure.infinitePi fun _ : ℕ => Measure.infinitePi fun _ : Var => ν)
          {ω | ∀ i < n, ∃ xs ∈ A i, (samples ω)[i]? = some (xs.map SV.val)} =
        ∏ i ∈ Finset.range n, (Measure.infinitePi fun _ : Rand gen => ν) {η | Φ η ∈ A i} := by
  have hval : ∀ η, rvs.map (value own (priorIns gen ins) (priorSem gen draw op η) σ) = Φ η := by
    intro η
    have hdet : ∀ (vs : List Var) (xs ys : List W),
        EvL own (priorSem gen draw op η) (leaves own σ) (priorIns gen ins) vs xs →
        EvL own (priorSem gen draw op η) (leaves own σ) (priorIns gen ins) vs ys → xs = ys := by
      intro vs
      induction vs with
      | nil => intro xs ys h h'; cases h; cases h'; rfl
      | cons v vs ih =>
        intro xs ys h h'
        cases h with
        | cons h1 h2 =>
          cases h' with
          | cons h1' h2' => rw [h1.det h1', ih _ _ h2 h2']
    exact hdet rvs _ _ (evL_map _ fun w _ => ev_value (acyclic_prior hac) σ w) (hΦ η)
  have hval' : ∀ ζ : Var → U, (rvs.map (value own (priorIns gen ins)
      (priorSem gen draw op (noiseAt gen ζ)) σ)).map SV.val =
        (Φ (noiseAt gen ζ)).map (SV.val (U := U)) := fun ζ => by rw [hval]
  refine ⟨fun ω => (List.range n).map fun i => (Φ (noiseAt gen (ω i))).map SV.val, fun ω => ?_,
    fun ω => by simp, ?_⟩
  · obtain ⟨final, h⟩ := samplePrior_stream (draw := draw) (op := op) hac hanc hm n σ ω
    simp only [hval'] at h
    exact ⟨final, h⟩
  · have hinj : ∀ xs ys : List W, xs.map (SV.val (U := U)) = ys.map SV.val → xs = ys := by
      intro xs ys h
      have := congrArg arrays h
      rwa [arrays_map_val, arrays_map_val] at this
    have hmn : Measurable (noiseAt (U := U) gen) :=
      measurable_pi_lambda _ fun r => measurable_pi_apply _
    have hset : {ω : ℕ → Var → U | ∀ i < n, ∃ xs ∈ A i,
        ((List.range n).map fun i => (Φ (noiseAt gen (ω i))).map (SV.val (U := U)))[i]? =
          some (xs.map SV.val)} =
        Set.pi (Finset.range n) fun i => noiseAt gen ⁻¹' {η | Φ η ∈ A i} := by
      ext ω
      simp only [Set.mem_ofPred_eq, Set.mem_pi, Finset.coe_range, Set.mem_Iio, Set.mem_preimage]
      refine forall₂_congr fun i hi => ?_
      rw [List.getElem?_map, List.getElem?_range hi]
      simp only [Option.map_some, Option.some.injEq]
      constructor
      · rintro ⟨xs, hx, h⟩
        rwa [hinj _ _ h]
      · intro h
        exact ⟨_, h, rfl⟩
    rw [hset, Measure.infinitePi_pi _ fun i _ => hmn (hA i)]
    refine Finset.prod_congr rfl fun i _ => ?_
    rw [← map_noiseAt hm ν, Measure.map_apply hmn (hA i)]

/-- **C74, several calls.** Calling `sample_prior` again with the updates of the first call in place
continues the first call: the samples of both are those of one longer call, hence all independent.
(Any graph, any values.) -/
theorem C74_resume {Val : Type} {sem : Node → Nat → List Val → Val} {own : Owner} {ins : Ins}
    {a : Attrs} {l : List (Var × Var)} {rvs anc : List Var} (n m : ℕ) (σ : Var → Val)
    {s₁ s₂ : List (List Val)} {σ₁ σ₂ : Var → Val}
    (h₁ : samplePrior own ins sem a l anc n rvs σ = .ok (s₁, σ₁))
    (h₂ : samplePrior own ins sem a l anc m rvs σ₁ = .ok (s₂, σ₂)) :
    samplePrior own ins sem a l anc (n + m) rvs σ = .ok (s₁ ++ s₂, σ₂) := by
  unfold samplePrior at *
  cases hg : getRvUpdates a l anc with
  | error e => simp [hg] at h₁
  | ok ups =>
    simp only [hg, scan_eq, Except.ok.injEq, Prod.mk.injEq] at h₁ h₂ ⊢
    obtain ⟨rfl, rfl⟩ := h₁
    obtain ⟨rfl, rfl⟩ := h₂
    rw [List.range_add, List.map_append, List.map_map]
    refine ⟨congrArg _ (List.map_congr_left fun i _ => ?_), ?_⟩
    · simp only [Function.comp_apply]
      rw [Nat.add_comm, Function.iterate_add_apply]
    · rw [Nat.add_comm, Function.iterate_add_apply]

end

example (σ : Var → Nat) (s₁ s₂ : List (List Nat)) (σ₁ σ₂ : Var → Nat)
    (h₁ : samplePrior exOwn exIns (fun _ i xs => i + xs.sum) exAttrs exUpdates [5, 1, 3, 0] 3 [5] σ =
      .ok (s₁, σ₁))
    (h₂ : samplePrior exOwn exIns (fun _ i xs => i + xs.sum) exAttrs exUpdates [5, 1, 3, 0] 4 [5] σ₁ =
      .ok (s₂, σ₂)) :
    samplePrior exOwn exIns (fun _ i xs => i + xs.sum) exAttrs exUpdates [5, 1, 3, 0] 7 [5] σ =
      .ok (s₁ ++ s₂, σ₂) :=
  C74_resume 3 4 σ h₁ h₂

/-- The generators of the example graph. -/
def exGen : Node → Option Var
  | 0 => some 0
  | 1 => some 1
  | 2 => some 6
  | _ => none

theorem exFromStream : FromStream exOwn exIns exAttrs exUpdates [5] exGen := by
  have hgen : ∀ n g, exGen n = some g → (n = 0 ∧ g = 0) ∨ (n = 1 ∧ g = 1) ∨ (n = 2 ∧ g = 6) := by
    intro n g h
    unfold exGen at h
    split at h <;> simp only [Option.some.injEq, reduceCtorEq] at h <;> subst h <;> simp
  have hst : ∀ v, IsState exOwn exGen v → v = 0 ∨ v = 1 ∨ v = 6 ∨ v = 2 ∨ v = 4 ∨ v = 7 := by
    rintro v (⟨n, hn⟩ | ⟨n, -, ho⟩)
    · rcases hgen n v hn with h | h | h <;> simp [h.2]
    · unfold exOwn at ho
      split at ho <;> simp at ho ⊢
  have hn3 : ¬ IsState exOwn exGen 3 := fun h => by simpa using hst 3 h
  have hn5 : ¬ IsState exOwn exGen 5 := fun h => by simpa using hst 5 h
  refine ⟨?_, ?_, ?_, ?_, ?_, ?_, ?_⟩
  · intro n g h
    rcases hgen n g h with ⟨rfl, rfl⟩ | ⟨rfl, rfl⟩ | ⟨rfl, rfl⟩
    · exact ⟨rfl, [], rfl, by simp⟩
    · exact ⟨rfl, [3], rfl, by simpa using hn3⟩
    · exact ⟨rfl, [], rfl, by simp⟩
  · intro n n' g h h'
    rcases hgen n g h with ⟨rfl, rfl⟩ | ⟨rfl, rfl⟩ | ⟨rfl, rfl⟩ <;>
      rcases hgen n' _ h' with ⟨rfl, h''⟩ | ⟨rfl, h''⟩ | ⟨rfl, h''⟩ <;> first | rfl | simp at h''
  · intro n h w hw
    unfold exIns at hw
    split at hw <;> simp [exGen] at h hw
  · simpa using hn5
  · intro n g h
    rcases hgen n g h with ⟨rfl, rfl⟩ | ⟨rfl, rfl⟩ | ⟨rfl, rfl⟩
    · exact ⟨Or.inl rfl, 2, rfl, Or.inl rfl⟩
    · exact ⟨Or.inl rfl, 4, rfl, Or.inr ⟨rfl, recorded_iff.2 (by decide)⟩⟩
    · exact ⟨Or.inl rfl, 7, rfl, Or.inr ⟨rfl, recorded_iff.2 (by decide)⟩⟩
  · intro r hr v hv hrel
    refine ⟨?_, C46_nonshared_violated.2.1 v⟩
    have hm := (exAnc v).2 ⟨r, hr, hv⟩
    simp only [List.mem_cons, List.not_mem_nil, or_false] at hm
    rcases hm with rfl | rfl | rfl | rfl
    · simp [Relevant, exAttrs] at hrel
    · simp [exAttrs]
    · simp [Relevant, exAttrs] at hrel
    · simp [exAttrs]
  · intro v hv u hu
    have h0 : v ≠ 0 := fun h => hv 0 (by rw [h]; rfl)
    have h1 : v ≠ 1 := fun h => hv 1 (by rw [h]; rfl)
    have h6 : v ≠ 6 := fun h => hv 2 (by rw [h]; rfl)
    rcases hu with hu | ⟨hu, -⟩ <;> simp [exAttrs, h0, h1, h6] at hu

/-- Ten draws of `normal(normal(0, 1), 1)`. -/
example (A : ℕ → Set (List ℝ))
    (hA : ∀ i, MeasurableSet {η : Rand exGen → ℝ | [η ⟨1, rfl⟩ + (η ⟨0, rfl⟩ + 0)] ∈ A i}) :
    ∃ samples : (ℕ → Var → ℝ) → List (List (SV ℝ ℝ)),
      (∀ ω, ∃ final, samplePrior exOwn exIns (streamSem exGen (fun _ u xs => u + xs.headD 0)
        fun _ _ _ => 0) exAttrs exUpdates [5, 1, 3, 0] 10 [5] (start exGen (fun _ => 0) ω) =
          .ok (samples ω, final)) ∧ (∀ ω, (samples ω).length = 10) ∧
      (Measure.infinitePi fun _ : ℕ => Measure.infinitePi fun _ : Var => gaussianReal 0 1)
          {ω | ∀ i < 10, ∃ xs ∈ A i, (samples ω)[i]? = some (xs.map SV.val)} =
        ∏ i ∈ Finset.range 10, (Measure.infinitePi fun _ : Rand exGen => gaussianReal 0 1)
          {η | [η ⟨1, rfl⟩ + (η ⟨0, rfl⟩ + 0)] ∈ A i} := by
  refine C74_independent_prior_draws exAcyclic exAnc exFromStream (gaussianReal 0 1) (fun _ => 0)
    (Φ := fun η => [η ⟨1, rfl⟩ + (η ⟨0, rfl⟩ + 0)]) (fun η => ?_) 10 hA
  have h3 : Ev exOwn (priorSem exGen (fun _ u xs => u + xs.headD 0) (fun _ _ _ => 0) η)
      (leaves exOwn fun _ => (0 : ℝ)) (priorIns exGen exIns) 3 (η ⟨0, rfl⟩ + 0) :=
    Ev.node (n := 0) (i := 1) (xs := []) rfl rfl .nil
  exact .cons (Ev.node (n := 1) (i := 1) (xs := [η ⟨0, rfl⟩ + 0]) rfl rfl (.cons h3 .nil)) .nil

end Verif.Prior
