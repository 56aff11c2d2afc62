import Verif.Graph.Witness
import Mathlib.Data.List.Permutation

/-!
# `construct_sampler` on the library's regression models

The heaps below are the graphs the finders leave behind for four models: a regression with a horseshoe
prior, with nothing else unknown and with an unknown dispersion; a negative-binomial regression with a normal
prior and an unknown dispersion; and two groups of coefficients with a shared global shrinkage parameter.  The
theorems named `run` give the final inputs of every node that matters, for every order in which a topological
sort can list the random variables; those named `eval` the values of the returned steps.

Simplified: chains of deterministic nodes (`-X @ beta` and the logistic function, broadcasting) are one node,
and all generators of a kernel are one leaf, except the two of the dispersion kernel that have updates.
-/

namespace Verif.Graph

open Verif.Py

/-- When no variable is left to NUTS its arguments do not matter. -/
theorem constructSamplerC_no_nuts {own : Owner} {k : Nat} {ins : Ins} {outs : List Var}
    {obs newToOld : Dict Var Var} {disc : Dict Var (List StepDesc)} {base : Nat}
    (h : (loopC own k obs (initState ins outs obs disc base) outs).map LoopState.rest = some [])
    (order order' : List Var → List Var) (nuts nuts' : Dict Var Var → Dict Var Var → NutsResult) :
    constructSamplerC own k ins outs obs newToOld disc base order nuts =
      constructSamplerC own k ins outs obs newToOld disc base order' nuts' := by
  obtain ⟨st, hst, hr⟩ := Option.map_eq_some_iff.1 h
  unfold constructSamplerC
  rw [hst]
  simp only [Option.bind_some]
  unfold afterNutsC
  rw [hr]

/-- Spec: `x` comes before `y` in the list. -/
def Before (l : List Var) (x y : Var) : Prop := l.idxOf x < l.idxOf y

instance (l : List Var) (x y : Var) : Decidable (Before l x y) := by
  unfold Before
  infer_instance

/-- Spec: the returned variables that hold the state (`state` lists the user's variables with their current
values) and the leaves of the graph have the values given, and nothing that is computed is overridden. -/
def Feeds {Val : Type} (own : Owner) (out : SamplerOut) (given : Var → Option Val)
    (state leaves : List (Var × Val)) : Prop :=
  (∀ p ∈ state, ∃ i, out.inits.get? p.1 = some i ∧ given i = some p.2) ∧
    (∀ p ∈ leaves, given p.1 = some p.2) ∧ ∀ v, own v ≠ none → given v = none

theorem feeds_exists {Val : Type} {own : Owner} {out : SamplerOut} {state leaves : List (Var × Val)}
    {idx : Var → Var} (h : ∀ p ∈ state, out.inits.get? p.1 = some (idx p.1))
    (hn : ((state.map Prod.fst).map idx ++ leaves.map Prod.fst).Nodup)
    (ho : ∀ v ∈ (state.map Prod.fst).map idx ++ leaves.map Prod.fst, own v = none) :
    ∃ given, Feeds own out given state leaves := by
  have hk : Dict.keys ((state.map fun p => (idx p.1, p.2)) ++ leaves) =
      (state.map Prod.fst).map idx ++ leaves.map Prod.fst := by
    simp [Dict.keys, Function.comp_def]
  refine ⟨fun v => Dict.get? ((state.map fun p => (idx p.1, p.2)) ++ leaves) v, ?_, ?_, ?_⟩
  · intro p hp
    refine ⟨idx p.1, h p hp, Dict.get?_of_mem _ (hk ▸ hn) _ _ ?_⟩
    exact List.mem_append_left _ (List.mem_map.2 ⟨p, hp, rfl⟩)
  · intro p hp
    exact Dict.get?_of_mem _ (hk ▸ hn) _ _ (List.mem_append_right _ hp)
  · intro v hv
    rw [Dict.get?_eq_none_iff, hk]
    exact fun hm => hv (ho v hm)

theorem Feeds.init {Val : Type} {own : Owner} {out : SamplerOut} {given : Var → Option Val}
    {state leaves : List (Var × Val)} (F : Feeds own out given state leaves) {r i : Var} {x : Val}
    (hm : (r, x) ∈ state) (hi : out.inits.get? r = some i) (sem : Node → Nat → List Val → Val)
    (ins : Ins) : Ev own sem given ins i x := by
  obtain ⟨j, h1, h2⟩ := F.1 _ hm
  obtain rfl : i = j := Option.some.inj (hi.symm.trans h1)
  exact .given h2

theorem Feeds.leaf {Val : Type} {own : Owner} {out : SamplerOut} {given : Var → Option Val}
    {state leaves : List (Var × Val)} (F : Feeds own out given state leaves) {v : Var} {x : Val}
    (hm : (v, x) ∈ leaves) (sem : Node → Nat → List Val → Val) (ins : Ins) : Ev own sem given ins v x :=
  .given (F.2.1 _ hm)

theorem Feeds.node {Val : Type} {own : Owner} {out : SamplerOut} {given : Var → Option Val}
    {state leaves : List (Var × Val)} (F : Feeds own out given state leaves)
    {sem : Node → Nat → List Val → Val} {ins : Ins} {v : Var} {n : Node} {i : Nat} {vs : List Var}
    {xs : List Val} (ho : own v = some (n, i)) (hi : ins n = vs) (h : EvL own sem given ins vs xs) :
    Ev own sem given ins v (sem n i xs) :=
  Ev.node' (F.2.2 v (by simp [ho])) ho hi h rfl

/-- Spec: the initial values, the steps and the inputs of some nodes of a result. -/
def Final (out : SamplerOut) (inits steps : List (Var × Var)) (heap : List (Node × List Var)) : Prop :=
  (∀ p ∈ inits, out.inits.get? p.1 = some p.2) ∧ (∀ p ∈ steps, out.steps.get? p.1 = some p.2) ∧
    ∀ p ∈ heap, out.ins p.1 = p.2

instance (out : SamplerOut) (inits steps : List (Var × Var)) (heap : List (Node × List Var)) :
    Decidable (Final out inits steps heap) := by
  unfold Final
  infer_instance

theorem run_of {own : Owner} {k : Nat} {ins : Ins} {outs : List Var} {obs n2o : Dict Var Var}
    {disc : Dict Var (List StepDesc)} {base : Nat} {inits steps : List (Var × Var)}
    {heap : List (Node × List Var)}
    (h : (loopC own k obs (initState ins outs obs disc base) outs).map LoopState.rest = some [] ∧
      (constructSamplerC own k ins outs obs n2o disc base id nutsT).any
        (fun out => decide (Final out inits steps heap)) = true)
    (order : List Var → List Var) (nuts : Dict Var Var → Dict Var Var → NutsResult) :
    ∃ out, constructSampler own ins outs obs n2o disc base order nuts = some out ∧
      Final out inits steps heap := by
  obtain ⟨h2, h3⟩ := h
  obtain ⟨out, h4, h5⟩ := (Option.any_eq_true _ _).1 h3
  refine ⟨out, constructSamplerC_eq (k := k) ?_, of_decide_eq_true h5⟩
  rw [constructSamplerC_no_nuts h2 order id nuts nutsT]
  exact h4

/-- Spec: the step returned for the user's variable `r` has the value `x`. -/
def Returns {Val : Type} (own : Owner) (sem : Node → Nat → List Val → Val) (given : Var → Option Val)
    (out : SamplerOut) (r : Var) (x : Val) : Prop :=
  ∃ v, out.steps.get? r = some v ∧ Ev own sem given out.ins v x

theorem Final.ret {Val : Type} {own : Owner} {out : SamplerOut} {inits steps : List (Var × Var)}
    {heap : List (Node × List Var)} (F : Final out inits steps heap)
    {sem : Node → Nat → List Val → Val} {given : Var → Option Val} {r v : Var} {x : Val}
    (hm : (r, v) ∈ steps) (h : Ev own sem given out.ins v x) : Returns own sem given out r x :=
  ⟨v, F.2.1 _ hm, h⟩

namespace HsDisp

/-! ## Horseshoe prior, unknown dispersion

Variables: `tau = 0`, `lambda = 1`, `lambda * tau = 2`, `beta = 3`, `X @ beta = 4`, the probability `5`,
`h = 6`, `Y = 7` (observed as 26); the steps are `lambda = 10`, `tau = 11`, `beta = 12`, `h = 14`.  Leaves:
`X = 23`, the parameters 24 and 25 of the gamma prior, the generators 27 to 30. -/

/-- Owners: the model, and the nodes of `/repo/aemcmc/gibbs.py:293-304` (8, 9, 10), `606-614` (11),
`627-639` (12, 13). -/
def own : Owner := ownT [(0, (0, 1)), (1, (1, 1)), (2, (2, 0)), (3, (3, 1)), (4, (4, 0)), (5, (5, 0)), (6,
    (6, 1)), (7, (7, 1)), (8, (8, 0)), (9, (9, 0)), (10, (10, 0)), (11, (10, 1)), (12, (11, 0)), (13, (12,
    0)), (14, (13, 0)), (15, (13, 1)), (16, (13, 2))]

/-- Inputs (`/repo/aemcmc/gibbs.py:293-304`, `606-639`): the step of `beta` reads `lambda * tau`, the very
node `beta` reads (`/repo/aemcmc/gibbs.py:606`), and the step of `h` reads the step of `beta`. -/
def ins : Ins := insT [(0, [20]), (1, [21]), (2, [1, 0]), (3, [22, 2]), (4, [23, 3]), (5, [4]), (6, [18, 24,
    25]), (7, [19, 6, 5]), (8, [0]), (9, [1]), (10, [3, 9, 8, 27]), (11, [3, 2, 23, 6, 7, 28]), (12, [23,
    12]), (13, [6, 13, 24, 25, 7, 29, 30])]

/-- The discovered steps (`/repo/aemcmc/gibbs.py:308`, `617-648`). -/
def disc : Dict Var (List StepDesc) := [(1, [⟨0, 10, none⟩]), (0, [⟨0, 11, none⟩]), (3, [⟨1, 12, none⟩]),
    (6, [⟨1, 14, some [(29, 15), (30, 16)]⟩])]

/-- The observed variable (`/repo/aemcmc/basic.py:51`). -/
def obs : Dict Var Var := [(7, 26)]

/-- The user's variables (`/repo/aemcmc/rewriting.py:97-99`). -/
def n2o : Dict Var Var := [(0, 40), (1, 41), (3, 43), (6, 46), (7, 47)]

/-- Spec: the orders in which a topological sort can list the random variables of the model. -/
def Visits (outs : List Var) : Prop :=
  outs.Perm [0, 1, 3, 6, 7] ∧ Before outs 0 3 ∧ Before outs 1 3 ∧ Before outs 3 7 ∧ Before outs 6 7

/-- The same as a list. -/
def orders : List (List Var) :=
  [[0, 1, 3, 6, 7], [0, 1, 6, 3, 7], [0, 6, 1, 3, 7], [1, 0, 3, 6, 7], [1, 0, 6, 3, 7], [1, 6, 0, 3, 7], [6,
    0, 1, 3, 7], [6, 1, 0, 3, 7]]

theorem visits_mem {outs : List Var} (h : Visits outs) : outs ∈ orders := by
  obtain ⟨hp, h⟩ := h
  have key : ∀ l ∈ List.permutations' [0, 1, 3, 6, 7],
      (Before l 0 3 ∧ Before l 1 3 ∧ Before l 3 7 ∧ Before l 6 7) →
      l ∈ orders := by decide +kernel
  exact key outs (List.mem_permutations'.2 hp) h

/-- In every order of visit the node `lambda * tau` ends up reading the initial values of both. -/
theorem run {outs : List Var} (h : Visits outs) (order : List Var → List Var)
    (nuts : Dict Var Var → Dict Var Var → NutsResult) :
    ∃ out, constructSampler own ins outs obs n2o disc 31 order nuts = some out ∧
      Final out [(40, 31 + outs.idxOf 0), (41, 31 + outs.idxOf 1), (43, 31 + outs.idxOf 3),
          (46, 31 + outs.idxOf 6)]
        [(40, 11), (41, 10), (43, 12), (46, 14)]
        [(2, [31 + outs.idxOf 1, 31 + outs.idxOf 0]), (8, [31 + outs.idxOf 0]), (9, [31 + outs.idxOf 1]),
          (10, [31 + outs.idxOf 3, 9, 8, 27]), (11, [31 + outs.idxOf 3, 2, 23, 31 + outs.idxOf 6, 26, 28]),
          (12, [23, 12]), (13, [31 + outs.idxOf 6, 13, 24, 25, 26, 29, 30])] := by
  have key : ∀ l ∈ orders,
      (loopC own 10 obs (initState ins l obs disc 31) l).map LoopState.rest = some [] ∧
      (constructSamplerC own 10 ins l obs n2o disc 31 id nutsT).any (fun out => decide
        (Final out [(40, 31 + l.idxOf 0), (41, 31 + l.idxOf 1), (43, 31 + l.idxOf 3), (46, 31 + l.idxOf 6)]
        [(40, 11), (41, 10), (43, 12), (46, 14)]
        [(2, [31 + l.idxOf 1, 31 + l.idxOf 0]), (8, [31 + l.idxOf 0]), (9, [31 + l.idxOf 1]),
          (10, [31 + l.idxOf 3, 9, 8, 27]), (11, [31 + l.idxOf 3, 2, 23, 31 + l.idxOf 6, 26, 28]),
          (12, [23, 12]), (13, [31 + l.idxOf 6, 13, 24, 25, 26, 29, 30])])) = true := by decide +kernel
  exact run_of (key outs (visits_mem h)) order nuts

/-- The state: `tau`, `lambda`, `beta`, `h`. -/
def state {Val : Type} (t l c h : Val) : List (Var × Val) := [(40, t), (41, l), (43, c), (46, h)]

/-- The leaves: `X`, the parameters of the gamma prior, the observed counts, the generators. -/
def leaves {Val : Type} (x a b y r₁ r₂ r₃ r₄ : Val) : List (Var × Val) :=
  [(23, x), (24, a), (25, b), (26, y), (27, r₁), (28, r₂), (29, r₃), (30, r₄)]

/-- The values of the returned steps.  The coefficients are drawn with the old `lambda * tau`. -/
theorem eval (Val : Type) {outs : List Var} (hv : Visits outs) (order : List Var → List Var)
    (nuts : Dict Var Var → Dict Var Var → NutsResult) :
    ∃ out, constructSampler own ins outs obs n2o disc 31 order nuts = some out ∧
      ∀ t l c h x a b y r₁ r₂ r₃ r₄ : Val,
        (∃ given, Feeds own out given (state t l c h) (leaves x a b y r₁ r₂ r₃ r₄)) ∧
        ∀ (sem : Node → Nat → List Val → Val) (given : Var → Option Val),
        Feeds own out given (state t l c h) (leaves x a b y r₁ r₂ r₃ r₄) →
        Returns own sem given out 40 (sem 10 1 [c, sem 9 0 [l], sem 8 0 [t], r₁]) ∧
        Returns own sem given out 41 (sem 10 0 [c, sem 9 0 [l], sem 8 0 [t], r₁]) ∧
        Returns own sem given out 43 (sem 11 0 [c, sem 2 0 [l, t], x, h, y, r₂]) ∧
        Returns own sem given out 46 (sem 13 0
          [h, sem 12 0 [x, sem 11 0 [c, sem 2 0 [l, t], x, h, y, r₂]], a, b, y, r₃, r₄]) := by
  obtain ⟨out, ho, F⟩ := run hv order nuts
  refine ⟨out, ho, fun t l c h x a b y r₁ r₂ r₃ r₄ => ⟨?_, fun sem given G => ?_⟩⟩
  · have key : ∀ l ∈ orders,
        ([31 + l.idxOf 0, 31 + l.idxOf 1, 31 + l.idxOf 3, 31 + l.idxOf 6] ++
          [23, 24, 25, 26, 27, 28, 29, 30]).Nodup ∧
        ∀ v ∈ [31 + l.idxOf 0, 31 + l.idxOf 1, 31 + l.idxOf 3, 31 + l.idxOf 6] ++
          [23, 24, 25, 26, 27, 28, 29, 30], own v = none := by decide +kernel
    obtain ⟨h1, h2⟩ := key outs (visits_mem hv)
    refine feeds_exists (idx := fun u => 31 + outs.idxOf (u - 40)) ?_ h1 h2
    simp only [state, List.forall_mem_cons, List.not_mem_nil, false_implies, implies_true, and_true]
    exact ⟨F.1 (40, _) (by simp), F.1 (41, _) (by simp), F.1 (43, _) (by simp), F.1 (46, _) (by simp)⟩
  · have E0 := G.init (r := 40) (i := 31 + outs.idxOf 0) (x := t) (by simp [state])
      (F.1 (40, _) (by simp)) sem out.ins
    have E1 := G.init (r := 41) (i := 31 + outs.idxOf 1) (x := l) (by simp [state])
      (F.1 (41, _) (by simp)) sem out.ins
    have E3 := G.init (r := 43) (i := 31 + outs.idxOf 3) (x := c) (by simp [state])
      (F.1 (43, _) (by simp)) sem out.ins
    have E6 := G.init (r := 46) (i := 31 + outs.idxOf 6) (x := h) (by simp [state])
      (F.1 (46, _) (by simp)) sem out.ins
    have leaf : ∀ v z, (v, z) ∈ leaves x a b y r₁ r₂ r₃ r₄ → Ev own sem given out.ins v z :=
      fun v z hm => G.leaf hm sem out.ins
    have E2 := G.node (v := 2) (n := 2) (i := 0) rfl (F.2.2 (2, _) (by simp)) (.cons E1 (.cons E0 .nil))
      (sem := sem)
    have E8 := G.node (v := 8) (n := 8) (i := 0) rfl (F.2.2 (8, _) (by simp)) (.cons E0 .nil) (sem := sem)
    have E9 := G.node (v := 9) (n := 9) (i := 0) rfl (F.2.2 (9, _) (by simp)) (.cons E1 .nil) (sem := sem)
    have L10 : EvL own sem given out.ins _ [c, sem 9 0 [l], sem 8 0 [t], r₁] :=
      .cons E3 (.cons E9 (.cons E8 (.cons (leaf 27 r₁ (by simp [leaves])) .nil)))
    have E12 := G.node (v := 12) (n := 11) (i := 0) rfl (F.2.2 (11, _) (by simp)) (.cons E3 (.cons E2
      (.cons (leaf 23 x (by simp [leaves])) (.cons E6 (.cons (leaf 26 y (by simp [leaves]))
      (.cons (leaf 28 r₂ (by simp [leaves])) .nil)))))) (sem := sem)
    have E13 := G.node (v := 13) (n := 12) (i := 0) rfl (F.2.2 (12, _) (by simp))
      (.cons (leaf 23 x (by simp [leaves])) (.cons E12 .nil)) (sem := sem)
    have E14 := G.node (v := 14) (n := 13) (i := 0) rfl (F.2.2 (13, _) (by simp)) (.cons E6 (.cons E13
      (.cons (leaf 24 a (by simp [leaves])) (.cons (leaf 25 b (by simp [leaves]))
      (.cons (leaf 26 y (by simp [leaves])) (.cons (leaf 29 r₃ (by simp [leaves]))
      (.cons (leaf 30 r₄ (by simp [leaves])) .nil))))))) (sem := sem)
    exact ⟨F.ret (v := 11) (by simp)
        (G.node (v := 11) (n := 10) (i := 1) rfl (F.2.2 (10, _) (by simp)) L10),
      F.ret (v := 10) (by simp) (G.node (v := 10) (n := 10) (i := 0) rfl (F.2.2 (10, _) (by simp)) L10),
      F.ret (by simp) E12, F.ret (by simp) E14⟩

end HsDisp

namespace HsReg

/-! ## Horseshoe prior, nothing else unknown

The variables are those of the previous model, with the dispersion the leaf 24.  The kernel of a Bernoulli
regression (`/repo/aemcmc/gibbs.py:744-762`) does not read the dispersion: that is a meaning of node 11 that
ignores its fourth input. -/

/-- Owners: the model, and the nodes of `/repo/aemcmc/gibbs.py:293-304` (8, 9, 10), `606-614` (11). -/
def own : Owner := ownT [(0, (0, 1)), (1, (1, 1)), (2, (2, 0)), (3, (3, 1)), (4, (4, 0)), (5, (5, 0)), (7,
    (7, 1)), (8, (8, 0)), (9, (9, 0)), (10, (10, 0)), (11, (10, 1)), (12, (11, 0))]

/-- Inputs (`/repo/aemcmc/gibbs.py:293-304`, `606-614`). -/
def ins : Ins := insT [(0, [20]), (1, [21]), (2, [1, 0]), (3, [22, 2]), (4, [23, 3]), (5, [4]), (7, [19, 24,
    5]), (8, [0]), (9, [1]), (10, [3, 9, 8, 27]), (11, [3, 2, 23, 24, 7, 28])]

/-- The discovered steps (`/repo/aemcmc/gibbs.py:308`, `617-648`). -/
def disc : Dict Var (List StepDesc) := [(1, [⟨0, 10, none⟩]), (0, [⟨0, 11, none⟩]), (3, [⟨1, 12, none⟩])]

/-- The observed variable (`/repo/aemcmc/basic.py:51`). -/
def obs : Dict Var Var := [(7, 26)]

/-- The user's variables (`/repo/aemcmc/rewriting.py:97-99`). -/
def n2o : Dict Var Var := [(0, 40), (1, 41), (3, 43), (7, 47)]

/-- Spec: the orders in which a topological sort can list the random variables of the model. -/
def Visits (outs : List Var) : Prop :=
  outs.Perm [0, 1, 3, 7] ∧ Before outs 0 3 ∧ Before outs 1 3 ∧ Before outs 3 7

/-- The same as a list. -/
def orders : List (List Var) :=
  [[0, 1, 3, 7], [1, 0, 3, 7]]

theorem visits_mem {outs : List Var} (h : Visits outs) : outs ∈ orders := by
  obtain ⟨hp, h⟩ := h
  have key : ∀ l ∈ List.permutations' [0, 1, 3, 7],
      (Before l 0 3 ∧ Before l 1 3 ∧ Before l 3 7) →
      l ∈ orders := by decide +kernel
  exact key outs (List.mem_permutations'.2 hp) h

/-- In every order of visit the node `lambda * tau` ends up reading the initial values of both. -/
theorem run {outs : List Var} (h : Visits outs) (order : List Var → List Var)
    (nuts : Dict Var Var → Dict Var Var → NutsResult) :
    ∃ out, constructSampler own ins outs obs n2o disc 31 order nuts = some out ∧
      Final out [(40, 31 + outs.idxOf 0), (41, 31 + outs.idxOf 1), (43, 31 + outs.idxOf 3)]
        [(40, 11), (41, 10), (43, 12)]
        [(2, [31 + outs.idxOf 1, 31 + outs.idxOf 0]), (8, [31 + outs.idxOf 0]), (9, [31 + outs.idxOf 1]),
          (10, [31 + outs.idxOf 3, 9, 8, 27]), (11, [31 + outs.idxOf 3, 2, 23, 24, 26, 28])] := by
  have key : ∀ l ∈ orders,
      (loopC own 10 obs (initState ins l obs disc 31) l).map LoopState.rest = some [] ∧
      (constructSamplerC own 10 ins l obs n2o disc 31 id nutsT).any (fun out => decide
        (Final out [(40, 31 + l.idxOf 0), (41, 31 + l.idxOf 1), (43, 31 + l.idxOf 3)]
        [(40, 11), (41, 10), (43, 12)]
        [(2, [31 + l.idxOf 1, 31 + l.idxOf 0]), (8, [31 + l.idxOf 0]), (9, [31 + l.idxOf 1]),
          (10, [31 + l.idxOf 3, 9, 8, 27]), (11, [31 + l.idxOf 3, 2, 23, 24, 26, 28])])) = true := by
    decide +kernel
  exact run_of (key outs (visits_mem h)) order nuts

/-- The state: `tau`, `lambda`, `beta`. -/
def state {Val : Type} (t l c : Val) : List (Var × Val) := [(40, t), (41, l), (43, c)]

/-- The leaves: `X`, the dispersion, the observed data, the generators. -/
def leaves {Val : Type} (x h y r₁ r₂ : Val) : List (Var × Val) :=
  [(23, x), (24, h), (26, y), (27, r₁), (28, r₂)]

/-- The values of the returned steps.  The coefficients are drawn with the old `lambda * tau`. -/
theorem eval (Val : Type) {outs : List Var} (hv : Visits outs) (order : List Var → List Var)
    (nuts : Dict Var Var → Dict Var Var → NutsResult) :
    ∃ out, constructSampler own ins outs obs n2o disc 31 order nuts = some out ∧
      ∀ t l c x h y r₁ r₂ : Val,
        (∃ given, Feeds own out given (state t l c) (leaves x h y r₁ r₂)) ∧
        ∀ (sem : Node → Nat → List Val → Val) (given : Var → Option Val),
        Feeds own out given (state t l c) (leaves x h y r₁ r₂) →
        Returns own sem given out 40 (sem 10 1 [c, sem 9 0 [l], sem 8 0 [t], r₁]) ∧
        Returns own sem given out 41 (sem 10 0 [c, sem 9 0 [l], sem 8 0 [t], r₁]) ∧
        Returns own sem given out 43 (sem 11 0 [c, sem 2 0 [l, t], x, h, y, r₂]) := by
  obtain ⟨out, ho, F⟩ := run hv order nuts
  refine ⟨out, ho, fun t l c x h y r₁ r₂ => ⟨?_, fun sem given G => ?_⟩⟩
  · have key : ∀ l ∈ orders,
        ([31 + l.idxOf 0, 31 + l.idxOf 1, 31 + l.idxOf 3] ++ [23, 24, 26, 27, 28]).Nodup ∧
        ∀ v ∈ [31 + l.idxOf 0, 31 + l.idxOf 1, 31 + l.idxOf 3] ++ [23, 24, 26, 27, 28], own v = none := by
      decide +kernel
    obtain ⟨h1, h2⟩ := key outs (visits_mem hv)
    refine feeds_exists (idx := fun u => 31 + outs.idxOf (u - 40)) ?_ h1 h2
    simp only [state, List.forall_mem_cons, List.not_mem_nil, false_implies, implies_true, and_true]
    exact ⟨F.1 (40, _) (by simp), F.1 (41, _) (by simp), F.1 (43, _) (by simp)⟩
  · have E0 := G.init (r := 40) (i := 31 + outs.idxOf 0) (x := t) (by simp [state])
      (F.1 (40, _) (by simp)) sem out.ins
    have E1 := G.init (r := 41) (i := 31 + outs.idxOf 1) (x := l) (by simp [state])
      (F.1 (41, _) (by simp)) sem out.ins
    have E3 := G.init (r := 43) (i := 31 + outs.idxOf 3) (x := c) (by simp [state])
      (F.1 (43, _) (by simp)) sem out.ins
    have leaf : ∀ v z, (v, z) ∈ leaves x h y r₁ r₂ → Ev own sem given out.ins v z :=
      fun v z hm => G.leaf hm sem out.ins
    have E2 := G.node (v := 2) (n := 2) (i := 0) rfl (F.2.2 (2, _) (by simp)) (.cons E1 (.cons E0 .nil))
      (sem := sem)
    have E8 := G.node (v := 8) (n := 8) (i := 0) rfl (F.2.2 (8, _) (by simp)) (.cons E0 .nil) (sem := sem)
    have E9 := G.node (v := 9) (n := 9) (i := 0) rfl (F.2.2 (9, _) (by simp)) (.cons E1 .nil) (sem := sem)
    have L10 : EvL own sem given out.ins _ [c, sem 9 0 [l], sem 8 0 [t], r₁] :=
      .cons E3 (.cons E9 (.cons E8 (.cons (leaf 27 r₁ (by simp [leaves])) .nil)))
    have E12 := G.node (v := 12) (n := 11) (i := 0) rfl (F.2.2 (11, _) (by simp)) (.cons E3 (.cons E2
      (.cons (leaf 23 x (by simp [leaves])) (.cons (leaf 24 h (by simp [leaves]))
      (.cons (leaf 26 y (by simp [leaves])) (.cons (leaf 28 r₂ (by simp [leaves])) .nil)))))) (sem := sem)
    exact ⟨F.ret (v := 11) (by simp)
        (G.node (v := 11) (n := 10) (i := 1) rfl (F.2.2 (10, _) (by simp)) L10),
      F.ret (v := 10) (by simp) (G.node (v := 10) (n := 10) (i := 0) rfl (F.2.2 (10, _) (by simp)) L10),
      F.ret (by simp) E12⟩

end HsReg

namespace NbReg

/-! ## Normal prior, unknown dispersion

The variables are those of the first model, with the standard deviations of the coefficients the leaf 2 in
place of `lambda * tau`. -/

/-- Owners: the model, and the nodes of `/repo/aemcmc/gibbs.py:606-614` (11), `627-639` (12, 13). -/
def own : Owner := ownT [(3, (3, 1)), (4, (4, 0)), (5, (5, 0)), (6, (6, 1)), (7, (7, 1)), (12, (11, 0)),
    (13, (12, 0)), (14, (13, 0)), (15, (13, 1)), (16, (13, 2))]

/-- Inputs (`/repo/aemcmc/gibbs.py:606-639`): the step of `h` reads the step of `beta`. -/
def ins : Ins := insT [(3, [22, 2]), (4, [23, 3]), (5, [4]), (6, [18, 24, 25]), (7, [19, 6, 5]), (11, [3, 2,
    23, 6, 7, 28]), (12, [23, 12]), (13, [6, 13, 24, 25, 7, 29, 30])]

/-- The discovered steps (`/repo/aemcmc/gibbs.py:617-648`). -/
def disc : Dict Var (List StepDesc) := [(3, [⟨1, 12, none⟩]), (6, [⟨1, 14, some [(29, 15), (30, 16)]⟩])]

/-- The observed variable (`/repo/aemcmc/basic.py:51`). -/
def obs : Dict Var Var := [(7, 26)]

/-- The user's variables (`/repo/aemcmc/rewriting.py:97-99`). -/
def n2o : Dict Var Var := [(3, 43), (6, 46), (7, 47)]

/-- Spec: the orders in which a topological sort can list the random variables of the model. -/
def Visits (outs : List Var) : Prop :=
  outs.Perm [3, 6, 7] ∧ Before outs 3 7 ∧ Before outs 6 7

/-- The same as a list. -/
def orders : List (List Var) :=
  [[3, 6, 7], [6, 3, 7]]

theorem visits_mem {outs : List Var} (h : Visits outs) : outs ∈ orders := by
  obtain ⟨hp, h⟩ := h
  have key : ∀ l ∈ List.permutations' [3, 6, 7],
      (Before l 3 7 ∧ Before l 6 7) →
      l ∈ orders := by decide +kernel
  exact key outs (List.mem_permutations'.2 hp) h

/-- In both orders of visit the coefficients are drawn with the old dispersion, the dispersion with the new
coefficients. -/
theorem run {outs : List Var} (h : Visits outs) (order : List Var → List Var)
    (nuts : Dict Var Var → Dict Var Var → NutsResult) :
    ∃ out, constructSampler own ins outs obs n2o disc 31 order nuts = some out ∧
      Final out [(43, 31 + outs.idxOf 3), (46, 31 + outs.idxOf 6)] [(43, 12), (46, 14)]
        [(11, [31 + outs.idxOf 3, 2, 23, 31 + outs.idxOf 6, 26, 28]), (12, [23, 12]),
          (13, [31 + outs.idxOf 6, 13, 24, 25, 26, 29, 30])] := by
  have key : ∀ l ∈ orders,
      (loopC own 10 obs (initState ins l obs disc 31) l).map LoopState.rest = some [] ∧
      (constructSamplerC own 10 ins l obs n2o disc 31 id nutsT).any (fun out => decide
        (Final out [(43, 31 + l.idxOf 3), (46, 31 + l.idxOf 6)] [(43, 12), (46, 14)]
        [(11, [31 + l.idxOf 3, 2, 23, 31 + l.idxOf 6, 26, 28]), (12, [23, 12]),
          (13, [31 + l.idxOf 6, 13, 24, 25, 26, 29, 30])])) = true := by decide +kernel
  exact run_of (key outs (visits_mem h)) order nuts

/-- The state: `beta`, `h`. -/
def state {Val : Type} (c h : Val) : List (Var × Val) := [(43, c), (46, h)]

/-- The leaves: the standard deviations, `X`, the parameters of the gamma prior, the counts, the generators. -/
def leaves {Val : Type} (sd x a b y r₂ r₃ r₄ : Val) : List (Var × Val) :=
  [(2, sd), (23, x), (24, a), (25, b), (26, y), (28, r₂), (29, r₃), (30, r₄)]

/-- The values of the returned steps. -/
theorem eval (Val : Type) {outs : List Var} (hv : Visits outs) (order : List Var → List Var)
    (nuts : Dict Var Var → Dict Var Var → NutsResult) :
    ∃ out, constructSampler own ins outs obs n2o disc 31 order nuts = some out ∧
      ∀ c h sd x a b y r₂ r₃ r₄ : Val,
        (∃ given, Feeds own out given (state c h) (leaves sd x a b y r₂ r₃ r₄)) ∧
        ∀ (sem : Node → Nat → List Val → Val) (given : Var → Option Val),
        Feeds own out given (state c h) (leaves sd x a b y r₂ r₃ r₄) →
        Returns own sem given out 43 (sem 11 0 [c, sd, x, h, y, r₂]) ∧
        Returns own sem given out 46 (sem 13 0
          [h, sem 12 0 [x, sem 11 0 [c, sd, x, h, y, r₂]], a, b, y, r₃, r₄]) := by
  obtain ⟨out, ho, F⟩ := run hv order nuts
  refine ⟨out, ho, fun c h sd x a b y r₂ r₃ r₄ => ⟨?_, fun sem given G => ?_⟩⟩
  · have key : ∀ l ∈ orders,
        ([31 + l.idxOf 3, 31 + l.idxOf 6] ++ [2, 23, 24, 25, 26, 28, 29, 30]).Nodup ∧
        ∀ v ∈ [31 + l.idxOf 3, 31 + l.idxOf 6] ++ [2, 23, 24, 25, 26, 28, 29, 30], own v = none := by
      decide +kernel
    obtain ⟨h1, h2⟩ := key outs (visits_mem hv)
    refine feeds_exists (idx := fun u => 31 + outs.idxOf (u - 40)) ?_ h1 h2
    simp only [state, List.forall_mem_cons, List.not_mem_nil, false_implies, implies_true, and_true]
    exact ⟨F.1 (43, _) (by simp), F.1 (46, _) (by simp)⟩
  · have E3 := G.init (r := 43) (i := 31 + outs.idxOf 3) (x := c) (by simp [state])
      (F.1 (43, _) (by simp)) sem out.ins
    have E6 := G.init (r := 46) (i := 31 + outs.idxOf 6) (x := h) (by simp [state])
      (F.1 (46, _) (by simp)) sem out.ins
    have leaf : ∀ v z, (v, z) ∈ leaves sd x a b y r₂ r₃ r₄ → Ev own sem given out.ins v z :=
      fun v z hm => G.leaf hm sem out.ins
    have E12 := G.node (v := 12) (n := 11) (i := 0) rfl (F.2.2 (11, _) (by simp)) (.cons E3
      (.cons (leaf 2 sd (by simp [leaves]))
      (.cons (leaf 23 x (by simp [leaves])) (.cons E6 (.cons (leaf 26 y (by simp [leaves]))
      (.cons (leaf 28 r₂ (by simp [leaves])) .nil)))))) (sem := sem)
    have E13 := G.node (v := 13) (n := 12) (i := 0) rfl (F.2.2 (12, _) (by simp))
      (.cons (leaf 23 x (by simp [leaves])) (.cons E12 .nil)) (sem := sem)
    have E14 := G.node (v := 14) (n := 13) (i := 0) rfl (F.2.2 (13, _) (by simp)) (.cons E6 (.cons E13
      (.cons (leaf 24 a (by simp [leaves])) (.cons (leaf 25 b (by simp [leaves]))
      (.cons (leaf 26 y (by simp [leaves])) (.cons (leaf 29 r₃ (by simp [leaves]))
      (.cons (leaf 30 r₄ (by simp [leaves])) .nil))))))) (sem := sem)
    exact ⟨F.ret (by simp) E12, F.ret (by simp) E14⟩

end NbReg

namespace Shared

/-! ## Two groups of coefficients with a shared global shrinkage parameter

Variables: `tau = 0`, `lambda1 = 1`, `lambda2 = 2`, `lambda1 * tau = 3`, `beta1 = 4` (observed as 26),
`lambda2 * tau = 5`, `beta2 = 6` (observed as 27).  The finder runs once for each group, so `tau` has two
steps, 13 and 15, and each group has its own node for the square of `tau`; the groups are numbered in the
order in which the finder meets them.  Generators: 28, 29. -/

/-- Owners: the model, and the nodes of `/repo/aemcmc/gibbs.py:293-304` for each group (8, 9, 12 and 10, 11,
14). -/
def own : Owner := ownT [(0, (0, 1)), (1, (1, 1)), (2, (2, 1)), (3, (3, 0)), (4, (4, 1)), (5, (5, 0)), (6,
    (6, 1)), (8, (8, 0)), (9, (9, 0)), (10, (10, 0)), (11, (11, 0)), (12, (12, 0)), (13, (12, 1)), (14, (14,
    0)), (15, (14, 1))]

/-- Inputs (`/repo/aemcmc/gibbs.py:293-304`). -/
def ins : Ins := insT [(0, [20]), (1, [21]), (2, [22]), (3, [1, 0]), (4, [23, 3]), (5, [2, 0]), (6, [24,
    5]), (8, [0]), (9, [1]), (10, [0]), (11, [2]), (12, [4, 9, 8, 28]), (14, [6, 11, 10, 29])]

/-- The discovered steps (`/repo/aemcmc/gibbs.py:308`, `/repo/aemcmc/rewriting.py:166-169`). -/
def disc : Dict Var (List StepDesc) := [(1, [⟨0, 12, none⟩]), (0, [⟨0, 13, none⟩, ⟨0, 15, none⟩]), (2, [⟨0,
    14, none⟩])]

/-- The observed variables (`/repo/aemcmc/basic.py:51`). -/
def obs : Dict Var Var := [(4, 26), (6, 27)]

/-- The user's variables (`/repo/aemcmc/rewriting.py:97-99`). -/
def n2o : Dict Var Var := [(0, 40), (1, 41), (2, 42), (4, 44), (6, 46)]

/-- Spec: the orders in which a topological sort can list the random variables of the model. -/
def Visits (outs : List Var) : Prop :=
  outs.Perm [0, 1, 2, 4, 6] ∧ Before outs 0 4 ∧ Before outs 1 4 ∧ Before outs 0 6 ∧ Before outs 2 6

/-- The same as a list. -/
def orders : List (List Var) :=
  [[0, 1, 2, 4, 6], [0, 1, 2, 6, 4], [0, 1, 4, 2, 6], [0, 2, 1, 4, 6], [0, 2, 1, 6, 4], [0, 2, 6, 1, 4], [1,
    0, 2, 4, 6], [1, 0, 2, 6, 4], [1, 0, 4, 2, 6], [1, 2, 0, 4, 6], [1, 2, 0, 6, 4], [2, 0, 1, 4, 6], [2, 0,
    1, 6, 4], [2, 0, 6, 1, 4], [2, 1, 0, 4, 6], [2, 1, 0, 6, 4]]

theorem visits_mem {outs : List Var} (h : Visits outs) : outs ∈ orders := by
  obtain ⟨hp, h⟩ := h
  have key : ∀ l ∈ List.permutations' [0, 1, 2, 4, 6],
      (Before l 0 4 ∧ Before l 1 4 ∧ Before l 0 6 ∧ Before l 2 6) →
      l ∈ orders := by decide +kernel
  exact key outs (List.mem_permutations'.2 hp) h

/-- The initial value of a variable (`/repo/aemcmc/basic.py:44-49`): they are numbered along the variables that
are not observed. -/
def iv (outs : List Var) (r : Var) : Var := 31 + (outs.filter fun v => !obs.has v).idxOf r

/-- What the square of `tau` in the first group ends up reading: the new value when `tau` is visited before
`lambda1`, its initial value otherwise. -/
def tauRead (outs : List Var) : Var := if Before outs 0 1 then 15 else iv outs 0

/-- The final inputs.  The second group reads initial values only. -/
theorem run {outs : List Var} (h : Visits outs) (order : List Var → List Var)
    (nuts : Dict Var Var → Dict Var Var → NutsResult) :
    ∃ out, constructSampler own ins outs obs n2o disc 31 order nuts = some out ∧
      Final out [(40, iv outs 0), (41, iv outs 1), (42, iv outs 2)]
        [(40, 15), (41, 12), (42, 14)]
        [(8, [tauRead outs]), (9, [iv outs 1]), (10, [iv outs 0]), (11, [iv outs 2]),
          (12, [26, 9, 8, 28]), (14, [27, 11, 10, 29])] := by
  have key : ∀ l ∈ orders,
      (loopC own 10 obs (initState ins l obs disc 31) l).map LoopState.rest = some [] ∧
      (constructSamplerC own 10 ins l obs n2o disc 31 id nutsT).any (fun out => decide
        (Final out [(40, iv l 0), (41, iv l 1), (42, iv l 2)]
        [(40, 15), (41, 12), (42, 14)]
        [(8, [tauRead l]), (9, [iv l 1]), (10, [iv l 0]), (11, [iv l 2]),
          (12, [26, 9, 8, 28]), (14, [27, 11, 10, 29])])) = true := by decide +kernel
  exact run_of (key outs (visits_mem h)) order nuts

/-- The state: `tau`, `lambda1`, `lambda2`. -/
def state {Val : Type} (t l₁ l₂ : Val) : List (Var × Val) := [(40, t), (41, l₁), (42, l₂)]

/-- The leaves: the coefficients and the generators. -/
def leaves {Val : Type} (c₁ c₂ r₁ r₂ : Val) : List (Var × Val) := [(26, c₁), (27, c₂), (28, r₁), (29, r₂)]

/-- The values of the returned steps.  `lambda1` is drawn with the new `tau` when `tau` is visited first. -/
theorem eval (Val : Type) {outs : List Var} (hv : Visits outs) (order : List Var → List Var)
    (nuts : Dict Var Var → Dict Var Var → NutsResult) :
    ∃ out, constructSampler own ins outs obs n2o disc 31 order nuts = some out ∧
      ∀ t l₁ l₂ c₁ c₂ r₁ r₂ : Val,
        (∃ given, Feeds own out given (state t l₁ l₂) (leaves c₁ c₂ r₁ r₂)) ∧
        ∀ (sem : Node → Nat → List Val → Val) (given : Var → Option Val),
        Feeds own out given (state t l₁ l₂) (leaves c₁ c₂ r₁ r₂) →
        Returns own sem given out 40 (sem 14 1 [c₂, sem 11 0 [l₂], sem 10 0 [t], r₂]) ∧
        Returns own sem given out 42 (sem 14 0 [c₂, sem 11 0 [l₂], sem 10 0 [t], r₂]) ∧
        Returns own sem given out 41 (sem 12 0 [c₁, sem 9 0 [l₁],
          sem 8 0 [if Before outs 0 1 then sem 14 1 [c₂, sem 11 0 [l₂], sem 10 0 [t], r₂] else t],
          r₁]) := by
  obtain ⟨out, ho, F⟩ := run hv order nuts
  refine ⟨out, ho, fun t l₁ l₂ c₁ c₂ r₁ r₂ => ⟨?_, fun sem given G => ?_⟩⟩
  · have key : ∀ l ∈ orders,
        ([iv l 0, iv l 1, iv l 2] ++ [26, 27, 28, 29]).Nodup ∧
        ∀ v ∈ [iv l 0, iv l 1, iv l 2] ++ [26, 27, 28, 29], own v = none := by
      decide +kernel
    obtain ⟨h1, h2⟩ := key outs (visits_mem hv)
    refine feeds_exists (idx := fun u => iv outs (u - 40)) ?_ h1 h2
    simp only [state, List.forall_mem_cons, List.not_mem_nil, false_implies, implies_true, and_true]
    exact ⟨F.1 (40, iv outs 0) (by simp), F.1 (41, iv outs 1) (by simp), F.1 (42, iv outs 2) (by simp)⟩
  · have E0 := G.init (r := 40) (i := iv outs 0) (x := t) (by simp [state])
      (F.1 (40, iv outs 0) (by simp)) sem out.ins
    have E1 := G.init (r := 41) (i := iv outs 1) (x := l₁) (by simp [state])
      (F.1 (41, iv outs 1) (by simp)) sem out.ins
    have E2 := G.init (r := 42) (i := iv outs 2) (x := l₂) (by simp [state])
      (F.1 (42, iv outs 2) (by simp)) sem out.ins
    have leaf : ∀ v z, (v, z) ∈ leaves c₁ c₂ r₁ r₂ → Ev own sem given out.ins v z :=
      fun v z hm => G.leaf hm sem out.ins
    have E10 := G.node (v := 10) (n := 10) (i := 0) rfl (F.2.2 (10, _) (by simp)) (.cons E0 .nil) (sem := sem)
    have E11 := G.node (v := 11) (n := 11) (i := 0) rfl (F.2.2 (11, _) (by simp)) (.cons E2 .nil) (sem := sem)
    have L14 : EvL own sem given out.ins _ [c₂, sem 11 0 [l₂], sem 10 0 [t], r₂] :=
      .cons (leaf 27 c₂ (by simp [leaves])) (.cons E11 (.cons E10 (.cons (leaf 29 r₂ (by simp [leaves])) .nil)))
    have E15 := G.node (v := 15) (n := 14) (i := 1) rfl (F.2.2 (14, _) (by simp)) L14 (sem := sem)
    have ET : Ev own sem given out.ins (tauRead outs)
        (if Before outs 0 1 then sem 14 1 [c₂, sem 11 0 [l₂], sem 10 0 [t], r₂] else t) := by
      unfold tauRead
      split_ifs
      · exact E15
      · exact E0
    have E8 := G.node (v := 8) (n := 8) (i := 0) rfl (F.2.2 (8, _) (by simp)) (.cons ET .nil) (sem := sem)
    have E9 := G.node (v := 9) (n := 9) (i := 0) rfl (F.2.2 (9, _) (by simp)) (.cons E1 .nil) (sem := sem)
    exact ⟨F.ret (by simp) E15,
      F.ret (v := 14) (by simp) (G.node (v := 14) (n := 14) (i := 0) rfl (F.2.2 (14, _) (by simp)) L14),
      F.ret (v := 12) (by simp) (G.node (v := 12) (n := 12) (i := 0) rfl (F.2.2 (12, _) (by simp))
        (.cons (leaf 26 c₁ (by simp [leaves])) (.cons E9 (.cons E8
          (.cons (leaf 28 r₁ (by simp [leaves])) .nil)))))⟩

end Shared
end Verif.Graph
