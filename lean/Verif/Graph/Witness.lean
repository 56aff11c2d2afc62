import Verif.Graph.Props

/-!
# Concrete models: the theorems of `Verif/Graph/Props.lean` applied, and counterexamples
-/

namespace Verif.Graph

open Verif.Py

/-- Owners and inputs given by tables. -/
def ownT (l : Dict Var (Node × Nat)) : Owner := fun v => l.get? v
/-- A heap given by a table. -/
def insT (l : Dict Node (List Var)) : Ins := fun n => (l.get? n).getD []

/-- A stand-in for NUTS: the new value of the `i`-th variable is output `i` of node 50. -/
def nutsT : Dict Var Var → Dict Var Var → NutsResult := fun a _ =>
  ⟨a.keys.zipIdx.map fun p => (p.1, 100 + p.2), []⟩

theorem nutsT_keys (a b : Dict Var Var) : (nutsT a b).steps.keys = a.keys := by
  change (a.keys.zipIdx.map fun p => (p.1, 100 + p.2)).map Prod.fst = a.keys
  rw [List.map_map]
  have : (Prod.fst ∘ fun p : Var × Nat => (p.1, 100 + p.2)) = Prod.fst := rfl
  rw [this, List.zipIdx_map_fst]

theorem idOrder (l : List Var) : (id l : List Var).Perm l := List.Perm.refl _

/-- `Ev.node` with all parts given by equations. -/
theorem Ev.node' {Val : Type} {own : Owner} {sem : Node → Nat → List Val → Val}
    {given : Var → Option Val} {ins : Ins} {v : Var} {n : Node} {i : Nat} {vs : List Var}
    {xs : List Val} {z : Val} (hg : given v = none) (ho : own v = some (n, i)) (hi : ins n = vs)
    (h : EvL own sem given ins vs xs) (hz : sem n i xs = z) : Ev own sem given ins v z := by
  subst hz hi
  exact .node hg ho h

/-- Splits a three-element list. -/
theorem split3 {x y z r : Var} {a b : List Var} (h : [x, y, z] = a ++ r :: b) :
    (a = [] ∧ r = x) ∨ (a = [x] ∧ r = y) ∨ (a = [x, y] ∧ r = z) := by
  match a, h with
  | [], h => simp only [List.nil_append, List.cons.injEq] at h; exact Or.inl ⟨rfl, h.1.symm⟩
  | [_], h =>
    simp only [List.cons_append, List.nil_append, List.cons.injEq] at h
    exact Or.inr (Or.inl ⟨by rw [h.1], h.2.1.symm⟩)
  | [_, _], h =>
    simp only [List.cons_append, List.nil_append, List.cons.injEq] at h
    exact Or.inr (Or.inr ⟨by rw [h.1, h.2.1], h.2.2.1.symm⟩)
  | _ :: _ :: _ :: _, h => simp at h

theorem modelVar3 {o : Var} (v : Nat) :
    ModelVar [0, 1, 2] [(2, o)] v ↔ v = 0 ∨ v = 1 ∨ v = 2 := by
  unfold ModelVar
  simp only [Dict.keys, List.mem_cons, List.not_mem_nil, or_false, List.map_cons, List.map_nil]
  tauto

theorem not_modelVar3 {o : Var} (v : Nat) (h : 2 < v) : ¬ ModelVar [0, 1, 2] [(2, o)] v := by
  rw [modelVar3]
  omega

theorem subInj (a b : Nat) (h1 : 20 ≤ a) (h2 : 20 ≤ b) (e : a - 20 = b - 20) : a = b := by omega

theorem setup3 {own : Owner} {ins : Ins} {base : Nat} {o : Nat} (hb : 2 < base)
    (hown : ∀ i, own (base + i) = none) (ho : own o = none) (ho2 : 2 < o) :
    Setup own ins [0, 1, 2] [(2, o)] base where
  outs_nodup := by decide
  obs_nodup := by simp [Dict.keys]
  init_own := hown
  init_fresh i := not_modelVar3 _ (by omega)
  obs_closed p hp := by
    rw [List.mem_singleton] at hp
    subst hp
    exact closed_of_input ho (not_modelVar3 o ho2)

/-! ## A model whose steps share nothing

`lam = 0` (node 5), `beta = 1` given `lam` (node 1), `y = 2` given `beta` (node 2, observed as 6); the
step for `lam` is 4 (node 3, reads `beta` and `lam`), the step for `beta` is 5 (node 4, reads `lam`
and `y`). -/

/-- Owners in model A. -/
def ownA : Owner := ownT [(0, (5, 1)), (1, (1, 1)), (2, (2, 1)), (4, (3, 0)), (5, (4, 0))]
/-- Heap of model A. -/
def insA : Ins := insT [(1, [0]), (2, [1]), (3, [1, 0]), (4, [0, 2])]
/-- Discovered steps in model A. -/
def discA : Dict Var (List StepDesc) := [(0, [⟨0, 4, none⟩]), (1, [⟨0, 4, none⟩, ⟨1, 5, none⟩])]
/-- Observations in model A. -/
def obsA : Dict Var Var := [(2, 6)]
/-- Clones to user variables in model A. -/
def n2oA : Dict Var Var := [(0, 20), (1, 21), (2, 22)]

theorem ownT_none {l : Dict Var (Node × Nat)} {b : Nat} (h : ∀ p ∈ l, p.1 < b) (i : Nat) :
    ownT l (b + i) = none := by
  unfold ownT
  rw [Dict.get?_eq_none_iff]
  intro hm
  obtain ⟨p, hp, e⟩ := List.mem_map.1 hm
  exact absurd (h p hp) (Nat.not_lt.2 (e ▸ Nat.le_add_right b i))

theorem insT_lt {l : Dict Node (List Var)} {b : Nat} (h : ∀ p ∈ l, ∀ w ∈ p.2, w < b) (n : Node)
    (w : Var) (hw : w ∈ insT l n) : w < b := by
  unfold insT at hw
  cases hg : l.get? n with
  | none => rw [hg] at hw; cases hw
  | some ws => rw [hg] at hw; exact h _ (Dict.mem_of_get? _ _ _ hg) w hw

theorem setupA : Setup ownA insA [0, 1, 2] obsA 7 :=
  setup3 (by decide) (fun i => ownT_none (by decide) i) (by decide) (by decide)

/-- C01 on this model, from the user's graph: user variables 20, 21, 22 are cloned to 0, 1, 2. -/
example : ∃ out, constructSampler ownA insA [0, 1, 2]
    (constructIr [0, 1, 2] (fun n => if n < 3 then some (20 + n) else none)
      (fun v => if 20 ≤ v ∧ v < 23 then some (v - 20) else none) [0, 1, 2] [(22, 6)]).1
    (constructIr [0, 1, 2] (fun n => if n < 3 then some (20 + n) else none)
      (fun v => if 20 ≤ v ∧ v < 23 then some (v - 20) else none) [0, 1, 2] [(22, 6)]).2
    discA 7 id nutsT = some out ∧ out.steps.keys.Nodup := by
  have hk : closedL (ownT [(20, (0, 1)), (21, (1, 1)), (22, (2, 1))]) (insT [(1, [20]), (2, [21])])
      (reachL (ownT [(20, (0, 1)), (21, (1, 1)), (22, (2, 1))]) (insT [(1, [20]), (2, [21])]) 3
        [22]) = true := by decide
  have hn : nodesL (ownT [(20, (0, 1)), (21, (1, 1)), (22, (2, 1))])
      (reachL (ownT [(20, (0, 1)), (21, (1, 1)), (22, (2, 1))]) (insT [(1, [20]), (2, [21])]) 3
        [22]) = [2, 1, 0] := by decide
  obtain ⟨out, h1, h2, -⟩ := C01_cover
    (ownU := ownT [(20, (0, 1)), (21, (1, 1)), (22, (2, 1))])
    (insU := insT [(1, [20]), (2, [21])]) (own := ownA) (ins := insA) (topo := [0, 1, 2])
    (rvOut := fun n => if n < 3 then some (20 + n) else none)
    (memo := fun v => if 20 ≤ v ∧ v < 23 then some (v - 20) else none)
    (outs := [0, 1, 2]) (obs := [(22, 6)]) (disc := discA) (base := 7) (order := id) (nuts := nutsT)
    (by decide) (fun n => by
      rw [show Dict.keys [(22, 6)] = [22] from rfl, nodeIn_iff hk, hn]
      simp
      tauto)
    (fun n r h => by
      split_ifs at h with hn3
      cases h
      revert n
      decide)
    (fun a b c ha hb => by
      split_ifs at ha hb with h1 h2
      cases ha
      exact subInj a b h1.1 h2.1 (Option.some.inj hb).symm)
    (fun k hk h => by
      simp [Dict.keys] at hk
      subst hk
      simp at h)
    (by decide) (fun i => ownT_none (by decide) i) setupA.init_fresh setupA.obs_closed
    (fun n w hw => by
      exact insT_lt (b := 7) (by decide) n w hw)
    idOrder nutsT_keys
  exact ⟨out, h1, h2⟩

theorem oldA : ∀ r ∈ [0, 1, 2], n2oA.get? r = some (20 + r) := by decide
theorem injA : ∀ a ∈ [0, 1, 2], ∀ b ∈ [0, 1, 2], 20 + a = 20 + b → a = b := by decide

/-- C02 and C08 on this model. -/
example : ∃ out, constructSampler ownA insA [0, 1, 2] obsA n2oA discA 7 id nutsT = some out ∧
    ∀ p ∈ out.steps, (∀ a b, p.2 ∉ (nutsT a b).steps.map Prod.snd) →
      ∀ w, Reach ownA out.ins p.2 w → ¬ ModelVar [0, 1, 2] obsA w :=
  C02_steps_closed setupA oldA injA idOrder nutsT_keys

/-- What the run produces: the step for `beta` (node 4) reads the step for `lam` (variable 4). -/
example : (constructSamplerC ownA 5 insA [0, 1, 2] obsA n2oA discA 7 id nutsT).map
    (fun o => (o.steps, o.inits, o.ins 3, o.ins 4, o.ins 1)) =
    some ([(20, 4), (21, 5)], [(20, 7), (21, 8)], [8, 7], [4, 6], [7]) := by decide

/-- C08: the nodes 10, 11 of the user's graph, which read 20 and 21, are unchanged. -/
example : ∃ out, constructSampler ownA (fun n => if n = 11 then [20] else if n = 12 then [21]
      else insA n) [0, 1, 2] obsA n2oA discA 7 id nutsT = some out ∧
    ∀ n, (∀ w ∈ (if n = 11 then [20] else if n = 12 then [21] else insA n), 20 ≤ w) →
      out.ins n = (if n = 11 then [20] else if n = 12 then [21] else insA n) :=
  C08_user_graph_unchanged (user := fun w => 20 ≤ w)
    (setup3 (by decide) (fun i => ownT_none (by decide) i) (by decide) (by decide)) oldA injA
    idOrder nutsT_keys (fun r hr h => by
      rcases (modelVar3 r).1 hr with rfl | rfl | rfl <;> revert h <;> decide)

/-- Values: the step for `lam` adds one to `beta`, the step for `beta` adds its arguments. -/
def semA : Node → Nat → List Nat → Nat := fun n _ xs =>
  if n = 3 then xs.headD 0 + 1 else xs.sum

/-- Values of the leaves in model A. -/
def givenA : Var → Option Nat := fun v => Dict.get? [(7, 10), (8, 20), (6, 30)] v
/-- Current values in model A. -/
def curA : Var → Nat := fun v => if v = 0 then 10 else if v = 1 then 20 else 30
/-- The scan: `lam` becomes `20 + 1`, then `beta` becomes `21 + 30`. -/
def newA : Var → Nat := fun v => if v = 0 then 21 else if v = 1 then 51 else 0

theorem modelVarA {v : Var} (h : v = 0 ∨ v = 1 ∨ v = 2) : ModelVar [0, 1, 2] obsA v :=
  Or.inl (by rcases h with rfl | rfl | rfl <;> decide)

theorem overA {ρ : Var → Nat} (v : Var) (x : Nat) (h : v = 0 ∨ v = 1 ∨ v = 2) (e : ρ v = x) :
    over (ModelVar [0, 1, 2] obsA) ρ givenA v = some x := by
  unfold over
  rw [if_pos (modelVarA h), e]

theorem overA_none {ρ : Var → Nat} (v : Nat) (h : 2 < v) (e : givenA v = none) :
    over (ModelVar [0, 1, 2] obsA) ρ givenA v = none := by
  unfold over
  rw [if_neg (show ¬ ModelVar [0, 1, 2] obsA v from not_modelVar3 v h), e]

/-- C03 on this model: evaluating the returned steps gives 21 and 51. -/
example : ∃ out, constructSampler ownA insA [0, 1, 2] obsA n2oA discA 7 id nutsT = some out ∧
    ∀ r ∈ [0, 1, 2], (chosen discA obsA r).isSome →
      ∃ v, out.steps.get? (20 + r) = some v ∧ Ev ownA semA givenA out.ins v (newA r) := by
  refine C03_scan_partial (cur := curA) setupA oldA injA idOrder nutsT_keys ?_ ?_ ?_ ?_
  · decide
  · intro p hp
    rw [obsA, List.mem_singleton] at hp
    subst hp
    exact .given rfl
  · intro a b r sd e hc
    rcases split3 e with ⟨rfl, rfl⟩ | ⟨rfl, rfl⟩ | ⟨rfl, rfl⟩
    · cases hc
      refine Ev.node' (n := 3) (i := 0) (vs := [1, 0]) (xs := [20, 10])
        (overA_none 4 (by decide) rfl) rfl rfl ?_ rfl
      exact .cons (.given (overA 1 20 (by decide) rfl)) (.cons (.given (overA 0 10 (by decide) rfl)) .nil)
    · cases hc
      refine Ev.node' (n := 4) (i := 0) (vs := [0, 2]) (xs := [21, 30])
        (overA_none 5 (by decide) rfl) rfl rfl ?_ rfl
      exact .cons (.given (overA 0 21 (by decide) rfl)) (.cons (.given (overA 2 30 (by decide) rfl)) .nil)
    · cases hc
  · intro a b r sd r' sd' n e hr' hc hc' hn hin w hw
    rcases split3 e with ⟨rfl, rfl⟩ | ⟨rfl, rfl⟩ | ⟨rfl, rfl⟩
    · cases hr'
    · rw [List.mem_singleton] at hr'
      subst hr'
      cases hc
      cases hc'
      have hk : closedL ownA insA (reachL ownA insA 3 [4]) = true := by decide
      have hin' := (nodeIn_iff hk n).1 hin
      rw [show nodesL ownA (reachL ownA insA 3 [4]) = [3, 1, 5] by decide] at hin'
      obtain ⟨u, i, hu, hDu, hou⟩ := hn
      have hu5 : u = 5 ∨ ModelVar [0, 1, 2] obsA u := by
        clear hou hDu
        induction hu with
        | refl => exact Or.inl rfl
        | tail hx hDx ho hy ih =>
          rcases ih with rfl | ih
          · cases ho
            have := List.mem_cons.1 (show _ ∈ [0, 2] from hy)
            rw [List.mem_singleton] at this
            exact Or.inr (modelVarA (by tauto))
          · exact absurd ih hDx
      rcases hu5 with rfl | h
      · cases hou
        exact absurd hin' (by decide)
      · exact absurd h hDu
    · cases hc

/-! ## C03 fails when a model node is shared by two steps

`u = 3` (node 0) computes the standard deviation of `beta` from `lam`.  The step for `lam` (4, node 3)
reads `beta`, so `u`'s node is in its graph and is rewritten to read the *initial* `lam`.  The step for
`beta` (5, node 4) reads `u`, and so uses the old value of `lam` although `lam` comes first. -/

/-- Owners in model B. -/
def ownB : Owner :=
  ownT [(0, (5, 1)), (1, (1, 1)), (2, (2, 1)), (3, (0, 0)), (4, (3, 0)), (5, (4, 0))]
/-- Heap of model B. -/
def insB : Ins := insT [(0, [0]), (1, [3]), (2, [1]), (3, [1, 0]), (4, [1, 3, 2])]
/-- Discovered steps in model B. -/
def discB : Dict Var (List StepDesc) := [(0, [⟨0, 4, none⟩]), (1, [⟨1, 5, none⟩])]

theorem setupB : Setup ownB insB [0, 1, 2] obsA 7 :=
  setup3 (by decide) (fun i => ownT_none (by decide) i) (by decide) (by decide)

/-- `u` is `lam`; the step for `lam` draws 5; the step for `beta` returns its standard deviation. -/
def semB : Node → Nat → List Nat → Nat := fun n _ xs =>
  if n = 0 then xs.headD 0 else if n = 3 then 5 else xs.getD 1 0

/-- Values of the leaves in model B. -/
def givenB : Var → Option Nat := fun v => Dict.get? [(7, 1), (8, 2), (6, 3)] v
/-- Current values in model B. -/
def curB : Var → Nat := fun v => v + 1
/-- New values in model B. -/
def newB : Var → Nat := fun _ => 5

theorem overB {ρ : Var → Nat} (v : Var) (x : Nat) (h : v = 0 ∨ v = 1 ∨ v = 2) (e : ρ v = x) :
    over (ModelVar [0, 1, 2] obsA) ρ givenB v = some x := by
  unfold over
  rw [if_pos (modelVarA h), e]

theorem overB_none {ρ : Var → Nat} (v : Nat) (h : 2 < v) (e : givenB v = none) :
    over (ModelVar [0, 1, 2] obsA) ρ givenB v = none := by
  unfold over
  rw [if_neg (show ¬ ModelVar [0, 1, 2] obsA v from not_modelVar3 v h), e]

/-- **C03 is false in general.** On this model every hypothesis of `C03_scan_partial` but `hshare`
holds, `beta` should get the value 5, and the returned step evaluates to 1. -/
theorem C03_violated :
    Setup ownB insB [0, 1, 2] obsA 7 ∧
    (∀ p ∈ initVals 7 (unobs [0, 1, 2] obsA), givenB p.2 = some (curB p.1)) ∧
    (∀ p ∈ obsA, Ev ownB semB givenB insB p.2 (curB p.1)) ∧
    (∀ a b r sd, [0, 1, 2] = a ++ r :: b → chosen discB obsA r = some sd →
      Ev ownB semB (over (ModelVar [0, 1, 2] obsA) (scanVal discB obsA newB curB a) givenB) insB
        sd.step (newB r)) ∧
    ∃ out, constructSampler ownB insB [0, 1, 2] obsA n2oA discB 7 id nutsT = some out ∧
      ∃ v x, out.steps.get? 21 = some v ∧ Ev ownB semB givenB out.ins v x ∧ x ≠ newB 1 := by
  refine ⟨setupB, by decide, ?_, ?_, ?_⟩
  · intro p hp
    rw [obsA, List.mem_singleton] at hp
    subst hp
    exact .given rfl
  · intro a b r sd e hc
    rcases split3 e with ⟨rfl, rfl⟩ | ⟨rfl, rfl⟩ | ⟨rfl, rfl⟩
    · cases hc
      refine Ev.node' (n := 3) (i := 0) (vs := [1, 0]) (xs := [2, 1])
        (overB_none 4 (by decide) rfl) rfl rfl ?_ rfl
      exact .cons (.given (overB 1 2 (by decide) rfl)) (.cons (.given (overB 0 1 (by decide) rfl)) .nil)
    · cases hc
      refine Ev.node' (n := 4) (i := 0) (vs := [1, 3, 2]) (xs := [2, 5, 3])
        (overB_none 5 (by decide) rfl) rfl rfl ?_ rfl
      refine .cons (.given (overB 1 2 (by decide) rfl)) (.cons ?_
        (.cons (.given (overB 2 3 (by decide) rfl)) .nil))
      refine Ev.node' (n := 0) (i := 0) (vs := [0]) (xs := [5])
        (overB_none 3 (by decide) rfl) rfl rfl ?_ rfl
      exact .cons (.given (overB 0 5 (by decide) rfl)) .nil
    · cases hc
  · have h : (constructSamplerC ownB 5 insB [0, 1, 2] obsA n2oA discB 7 id nutsT).map
        (fun o => (o.steps, o.ins 0, o.ins 4)) = some ([(20, 4), (21, 5)], [7], [8, 3, 6]) := by
      decide
    obtain ⟨out, ho, e⟩ := Option.map_eq_some_iff.1 h
    simp only [Prod.mk.injEq] at e
    refine ⟨out, constructSamplerC_eq ho, 5, 1, by rw [e.1]; rfl, ?_, by decide⟩
    refine Ev.node' (n := 4) (i := 0) (vs := [8, 3, 6]) (xs := [2, 1, 3]) rfl rfl e.2.2 ?_ rfl
    refine .cons (.given rfl) (.cons ?_ (.cons (.given rfl) .nil))
    exact Ev.node' (n := 0) (i := 0) (vs := [7]) (xs := [1]) rfl rfl e.2.1
      (.cons (.given rfl) .nil) rfl

/-! ## C06 and C07 on a model with one NUTS variable

`s = 0` (node 5, no sampler), `beta = 1` given `s` (node 1), `y = 2` given `beta` and `s` (node 2,
observed as 4); the step for `beta` is 3 (node 3, reads `beta` and `y`). -/

/-- Owners in model C. -/
def ownC : Owner := ownT [(0, (5, 1)), (1, (1, 1)), (2, (2, 1)), (3, (3, 0))]
/-- Heap of model C. -/
def insC : Ins := insT [(1, [0]), (2, [1, 0]), (3, [1, 2])]
/-- Discovered steps in model C. -/
def discC : Dict Var (List StepDesc) := [(1, [⟨0, 3, none⟩])]
/-- Observations in model C. -/
def obsC : Dict Var Var := [(2, 4)]

theorem setupC : Setup ownC insC [0, 1, 2] obsC 5 :=
  setup3 (by decide) (fun i => ownT_none (by decide) i) (by decide) (by decide)

theorem noSamplerC : NoSampler discC [0, 1, 2] obsC 0 := by
  rw [noSampler_iff]
  decide

/-- C06 on this model: NUTS gets `s` with its initial value. -/
example : ∃ out toSample realized,
    constructSampler ownC insC [0, 1, 2] obsC n2oA discC 5 id nutsT = some out ∧
    (∀ r, NoSampler discC [0, 1, 2] obsC r → toSample.get? r = out.inits.get? (20 + r)) ∧
    (∀ r, NoSampler discC [0, 1, 2] obsC r →
      out.steps.get? (20 + r) = (nutsT toSample realized).steps.get? r) := by
  obtain ⟨out, ts, re, h1, -, -, h4, -, -, -, h8⟩ :=
    C06_nuts (f := fun r => 20 + r) (order := id) setupC oldA injA idOrder nutsT_keys
      ⟨0, noSamplerC⟩
  exact ⟨out, ts, re, h1, h4, h8⟩

theorem reachCut_input {own : Owner} {D : Var → Prop} {ins : Ins} {v w : Var} (h : own v = none)
    (hr : ReachCut own D ins v w) : w = v := by
  induction hr with
  | refl => rfl
  | tail _ _ ho _ ih =>
    subst ih
    rw [h] at ho
    cases ho

/-- **C07 is false in general.** `s` has no sampler and goes to NUTS; the terms of `beta` and `y`
depend on `s` in the model, and on the heap NUTS is given neither does. -/
theorem C07_violated :
    Setup ownC insC [0, 1, 2] obsC 5 ∧ NoSampler discC [0, 1, 2] obsC 0 ∧
    DepTerm ownC (ModelVar [0, 1, 2] obsC) insC 1 0 ∧
    DepTerm ownC (ModelVar [0, 1, 2] obsC) insC 2 0 ∧
    ∃ out, constructSampler ownC insC [0, 1, 2] obsC n2oA discC 5 id nutsT = some out ∧
      ¬ DepTerm ownC (ModelVar [0, 1, 2] obsC) out.ins 1 0 ∧
      ¬ DepTerm ownC (ModelVar [0, 1, 2] obsC) out.ins 2 0 := by
  refine ⟨setupC, noSamplerC, ⟨1, 1, rfl, 0, by decide, .refl⟩, ⟨2, 1, rfl, 0, by decide, .refl⟩, ?_⟩
  have h : (constructSamplerC ownC 5 insC [0, 1, 2] obsC n2oA discC 5 id nutsT).map
      (fun o => (o.ins 1, o.ins 2)) = some ([5], [6, 5]) := by decide
  obtain ⟨out, ho, e⟩ := Option.map_eq_some_iff.1 h
  simp only [Prod.mk.injEq] at e
  refine ⟨out, constructSamplerC_eq ho, ?_, ?_⟩
  · rintro ⟨n, i, hown, w, hw, hr⟩
    cases hown
    rw [e.1, List.mem_singleton] at hw
    subst hw
    exact absurd (reachCut_input rfl hr) (by decide)
  · rintro ⟨n, i, hown, w, hw, hr⟩
    cases hown
    rw [e.2, List.mem_cons, List.mem_singleton] at hw
    rcases hw with rfl | rfl <;> exact absurd (reachCut_input rfl hr) (by decide)

/-- `C07_nuts_term_partial` applies when the step for `beta` reads neither `beta` nor `y` but the
observed value directly (node 3 reads 4). -/
example : ∃ out, constructSampler ownC (insT [(1, [0]), (2, [1, 0]), (3, [4])]) [0, 1, 2] obsC n2oA
      discC 5 id nutsT = some out ∧ DepTerm ownC (ModelVar [0, 1, 2] obsC) out.ins 2 0 := by
  refine C07_nuts_term_partial (f := fun r => 20 + r) (order := id)
    (setup3 (by decide) (fun i => ownT_none (by decide) i) (by decide) (by decide)) oldA injA idOrder
    nutsT_keys ?_ ⟨2, 1, rfl, 0, by decide, .refl⟩
  intro rv hrv sd hc n hin _ w hw
  have hrv' : rv = 0 ∨ rv = 1 ∨ rv = 2 := by simpa using hrv
  rcases hrv' with rfl | rfl | rfl
  · cases hc
  · cases hc
    have hk : closedL ownC (insT [(1, [0]), (2, [1, 0]), (3, [4])])
      (reachL ownC (insT [(1, [0]), (2, [1, 0]), (3, [4])]) 2 [3]) = true := by decide
    have hin' := (nodeIn_iff hk n).1 hin
    rw [show nodesL ownC (reachL ownC (insT [(1, [0]), (2, [1, 0]), (3, [4])]) 2 [3]) = [3] by
      decide, List.mem_singleton] at hin'
    subst hin'
    have : w = 4 := List.mem_singleton.1 (show w ∈ [4] from hw)
    subst this
    exact not_modelVar3 4 (by decide)
  · cases hc

end Verif.Graph
