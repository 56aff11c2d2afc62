import Verif.Hier.Props
import Verif.Graph.Regression

/-!
# The graph of a regression whose coefficients have random standard deviations

`sigma`, a vector with any prior without a closed-form step (so it goes to NUTS), `beta ~ N(0, sigma)`,
`Y` negative binomial or Bernoulli with the success probabilities `sigmoid(-X beta)`, observed.

Variables: `sigma = 0`, `beta = 1`, `Y = 2` (observed as 14), the success probabilities 3 (the negation and
the product inside are one node here), the step of `beta` is 6, the result of NUTS for `sigma` is 8.  Leaves: the parameter 10 of
the prior of `sigma`, the mean 11, the dispersion 12 (not read by a Bernoulli model: a meaning that ignores it), the
generators 13 (step of `beta`), 15 (NUTS), 16, 17, 18 (model), the design matrix 19.  The initial values are
20 and 21.
-/

namespace Verif.Graph.RegHier

open Verif.Py

/-- Owners: the model, the step of `/repo/aemcmc/gibbs.py:607-614`, `755-762` (6) and the NUTS node
(`/repo/aemcmc/nuts.py:157`). -/
def own : Owner := ownT [(0, (0, 1)), (1, (1, 1)), (2, (2, 1)), (3, (3, 0)), (6, (6, 0)), (8, (50, 0))]

/-- Inputs (`/repo/aemcmc/gibbs.py:607-614`, `755-762`, `/repo/aemcmc/nuts.py:149-159`): the step reads the model's
`beta`, `sigma` and `Y`.  The inputs of the NUTS node are the leaves of its inner graph.  The size and
type arguments of the random variables are left out. -/
def ins : Ins := insT [(0, [16, 10]), (1, [17, 11, 0]), (2, [18, 12, 3]), (3, [19, 1]),
    (6, [1, 0, 19, 12, 2, 13]), (50, [20, 21, 10, 11, 12, 13, 14, 15, 19])]

/-- The observed value (`/repo/aemcmc/basic.py:20-22`). -/
def obs : Dict Var Var := [(2, 14)]
/-- The user's variables (`/repo/aemcmc/rewriting.py:97-99`). -/
def n2o : Dict Var Var := [(0, 40), (1, 41), (2, 42)]
/-- The steps found: one for `beta` (`/repo/aemcmc/gibbs.py:617-648`, `765-767`). -/
def disc : Dict Var (List StepDesc) := [(1, [⟨1, 6, none⟩])]

/-- The result of NUTS: its outputs in the order of the variables given (`/repo/aemcmc/nuts.py:159-160`). -/
def nuts : Dict Var Var → Dict Var Var → NutsResult := fun a _ =>
  ⟨a.keys.zipIdx.map fun p => (p.1, 8 + p.2), []⟩

theorem nuts_keys (a b : Dict Var Var) : (nuts a b).steps.keys = a.keys := by
  change (a.keys.zipIdx.map fun p => (p.1, 8 + p.2)).map Prod.fst = a.keys
  rw [List.map_map]
  have : (Prod.fst ∘ fun p : Var × Nat => (p.1, 8 + p.2)) = Prod.fst := rfl
  rw [this, List.zipIdx_map_fst]

theorem setup : Setup own ins [0, 1, 2] obs 20 :=
  setup3 (by decide) (fun i => ownT_none (by decide) i) (by decide) (by decide)

theorem old : ∀ r ∈ [0, 1, 2], n2o.get? r = some (40 + r) := by decide

theorem old_inj : ∀ a ∈ [0, 1, 2], ∀ b ∈ [0, 1, 2], (40 + a : Nat) = 40 + b → a = b := by decide

theorem one (r : Var) : NoSampler disc [0, 1, 2] obs r ↔ r = 0 := by
  rw [noSampler_iff]
  constructor
  · rintro ⟨h1, h2, h3⟩
    simp only [List.mem_cons, List.not_mem_nil, or_false] at h1
    rcases h1 with rfl | rfl | rfl
    · rfl
    · exact absurd h3 (by decide)
    · exact absurd (by decide) h2
  · rintro rfl
    decide

theorem root : ∀ n i, own 0 = some (n, i) → ∀ w ∈ ins n, Closed own (ModelVar [0, 1, 2] obs) ins w := by
  intro n i h
  cases h
  intro w hw
  have hw' : w = 16 ∨ w = 10 := by simpa using (show w ∈ [16, 10] from hw)
  rcases hw' with rfl | rfl
  · exact closed_of_input rfl (not_modelVar3 16 (by decide))
  · exact closed_of_input rfl (not_modelVar3 10 (by decide))

theorem not_ahead (v : Var) : ¬ Ahead [0, 1, 2] obs 0 v := by
  rintro ⟨-, a, b, e, h⟩
  rcases split3 e with ⟨rfl, -⟩ | ⟨-, h'⟩ | ⟨-, h'⟩
  · simp at h
  · cases h'
  · cases h'

/-- The step of `beta` contains both `beta` and `Y`. -/
theorem lost : ∀ r ∈ [0, 1, 2], r ≠ 0 → InStep own ins [0, 1, 2] obs disc 0 r := by
  have hY : Meets own (Ahead [0, 1, 2] obs 0) ins 6 2 :=
    .tail (w := 6) (n := 6) (i := 0) (.refl (not_ahead _)) rfl (by decide) (not_ahead _)
  have hb : Meets own (Ahead [0, 1, 2] obs 0) ins 6 1 :=
    .tail (w := 6) (n := 6) (i := 0) (.refl (not_ahead _)) rfl (by decide) (not_ahead _)
  intro r hr hne
  refine ⟨1, by decide, ⟨1, 6, none⟩, rfl, 6, by decide, ?_⟩
  simp only [List.mem_cons, List.not_mem_nil, or_false] at hr
  rcases hr with rfl | rfl | rfl
  · exact absurd rfl hne
  · exact hb
  · exact hY

/-- `C68_lost` on this model: on the graph given to NUTS the term of `beta` does not depend on `sigma`, while in
the model it does. -/
example : DepTerm own (ModelVar [0, 1, 2] obs) ins 1 0 ∧
    ∃ out, constructSampler own ins [0, 1, 2] obs n2o disc 20 id nuts = some out ∧
      ¬ DepTerm own (ModelVar [0, 1, 2] obs) out.ins 1 0 := by
  refine ⟨⟨1, 1, rfl, 0, by decide, .refl⟩, ?_⟩
  obtain ⟨out, h1, h2, -⟩ := C68_lost (f := fun r => 40 + r) (order := id) setup old old_inj idOrder nuts_keys
    (by decide : (0 : Var) ∈ unobs [0, 1, 2] obs) (lost 1 (by decide) (by decide))
  exact ⟨out, h1, h2 _⟩

/-- The built sampler. -/
theorem run {order : List Var → List Var} (ho : ∀ l, (order l).Perm l) :
    ∃ out, constructSampler own ins [0, 1, 2] obs n2o disc 20 order nuts = some out ∧
      Final out [(40, 20), (41, 21)] [(40, 8), (41, 6)] [(0, [16, 10]), (1, [17, 11, 20]),
        (2, [18, 12, 3]), (3, [19, 21]), (6, [21, 20, 19, 12, 14, 13]),
        (50, [20, 21, 10, 11, 12, 13, 14, 15, 19])] := by
  have h : (constructSamplerC own 8 ins [0, 1, 2] obs n2o disc 20 id nuts).any (fun out => decide
      (Final out [(40, 20), (41, 21)] [(40, 8), (41, 6)] [(0, [16, 10]), (1, [17, 11, 20]),
        (2, [18, 12, 3]), (3, [19, 21]), (6, [21, 20, 19, 12, 14, 13]),
        (50, [20, 21, 10, 11, 12, 13, 14, 15, 19])])) = true := by decide
  have hr : (loopC own 8 obs (initState ins [0, 1, 2] obs disc 20) [0, 1, 2]).map LoopState.rest =
      some [0] := by decide
  obtain ⟨out, h4, h5⟩ := (Option.any_eq_true _ _).1 h
  refine ⟨out, constructSamplerC_eq (k := 8) ?_, of_decide_eq_true h5⟩
  obtain ⟨st, hst, hrest⟩ := Option.map_eq_some_iff.1 hr
  rw [← h4]
  unfold constructSamplerC
  rw [hst]
  simp only [Option.bind_some]
  unfold afterNutsC
  rw [hrest]
  have : order [0] = id [0] := (List.perm_singleton.1 (ho [0]))
  rw [this]

end Verif.Graph.RegHier
