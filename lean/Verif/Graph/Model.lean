import Verif.Py.Dict
import Mathlib.Logic.Relation
import Mathlib.Data.List.Perm.Basic

/-!
# Model of `construct_sampler` on a mutable graph heap

Aesara graphs are objects: a variable has an owner (an apply node and an output index, fixed for its
life) and a node has a list of inputs, which rewriting a `FunctionGraph` without cloning *changes in
place*.  Variables and nodes are identified by numbers; the heap is the map from nodes to their
current inputs.

Simplifications.
* Variable types are ignored: `filter_variable` never inserts a conversion.
* `expand_subsumptions.rewrite(sfgraph)` (`/repo/aemcmc/basic.py:88`) is the identity here.  Its
  effect on values is the subject of C40 (`Verif/Subs`); it allocates nodes of its own.
* The rewrites run on the model graph before the loop are summarised by the heap, output list and
  discovered steps they leave behind, which are arbitrary parameters.
-/

namespace Verif.Graph

open Verif.Py

/-- Identity of a variable. -/
abbrev Var := Nat
/-- Identity of an apply node. -/
abbrev Node := Nat

/-- The owner of each variable, `(node, output index)`; `none` for inputs, constants and shared
variables. -/
abbrev Owner := Var → Option (Node × Nat)

/-- The mutable part of the heap: the current inputs of each node. -/
abbrev Ins := Node → List Var

/-- `w` is an input of the owner of `v`. -/
def Edge (own : Owner) (ins : Ins) (v w : Var) : Prop :=
  ∃ n i, own v = some (n, i) ∧ w ∈ ins n

/-- `w` is an ancestor of `v` (or `v` itself): `aesara.graph.basic.ancestors`. -/
abbrev Reach (own : Owner) (ins : Ins) : Var → Var → Prop := Relation.ReflTransGen (Edge own ins)

/-- The node `n` belongs to a `FunctionGraph` with outputs `outs`: imported because it is an ancestor
of an output, and pruned as soon as it no longer is one. -/
def NodeIn (own : Owner) (ins : Ins) (outs : List Var) (n : Node) : Prop :=
  ∃ o ∈ outs, ∃ v i, Reach own ins o v ∧ own v = some (n, i)

/-- `x` with `r` replaced by `v`. -/
def sub (r v x : Var) : Var := if x = r then v else x

open Classical in
/-- `FunctionGraph.replace(r, v, import_missing=True)`: every client of `r` in the graph, and the
output list, now refers to `v`. -/
noncomputable def replace (own : Owner) (s : Ins × List Var) (r v : Var) : Ins × List Var :=
  (fun n => if NodeIn own s.1 s.2 n then (s.1 n).map (sub r v) else s.1 n, s.2.map (sub r v))

/-- `sfgraph.replace_all(list(posterior_sample_steps.items()), import_missing=True)`
(`/repo/aemcmc/basic.py:86`): one pair after the other. -/
noncomputable def replaceAll (own : Owner) (s : Ins × List Var) :
    List (Var × Var) → Ins × List Var
  | [] => s
  | (r, v) :: ps => replaceAll own (replace own s r v) ps

/-- An entry of `rvs_to_samplers` (`/repo/aemcmc/rewriting.py:109-115`).  `updates = None` is
`none`. -/
structure StepDesc where
  name : Nat
  step : Var
  updates : Option (List (Var × Var))

/-- The local variables of the loop in `/repo/aemcmc/basic.py:44-102`. -/
structure LoopState where
  ins : Ins
  disc : Dict Var (List StepDesc)
  pss : Dict Var Var
  upd : Dict Var Var
  rest : List Var

/-- `s.add(x)` on a set listed without repetitions. -/
def setAdd (s : List Var) (x : Var) : List Var := if x ∈ s then s else s ++ [x]

/-- One iteration of the loop (`/repo/aemcmc/basic.py:59-102`). -/
noncomputable def processRV (own : Owner) (obs : Dict Var Var) (st : LoopState) (rv : Var) :
    LoopState :=
  if obs.has rv then st else
  match st.disc.get? rv with
  | none => { st with rest := setAdd st.rest rv }
  | some steps =>
    match steps.getLast? with
    | none => { st with rest := setAdd st.rest rv }
    | some sd =>
      let ups := sd.updates.getD []
      let s' := replaceAll own
        (st.ins, sd.step :: (ups.map Prod.fst ++ ups.map Prod.snd)) st.pss
      { ins := s'.1
        disc := st.disc.set rv steps.dropLast
        pss := st.pss.set rv (s'.2.headD sd.step)
        upd := st.upd.update ((s'.2.drop 1).take ups.length |>.zip (s'.2.drop (1 + ups.length)))
        rest := st.rest }

/-- `{rv: rv.clone() for rv in random_vars}` (`/repo/aemcmc/basic.py:48`): clones are new variables
without owner; `base` is the next unused identifier. -/
def initVals (base : Nat) (rvs : List Var) : Dict Var Var :=
  Dict.update [] (rvs.zipIdx.map fun p => (p.1, base + p.2))

/-- The state before the loop (`/repo/aemcmc/basic.py:44-57`). -/
def initState (ins : Ins) (outs : List Var) (obs : Dict Var Var) (disc : Dict Var (List StepDesc))
    (base : Nat) : LoopState where
  ins := ins
  disc := disc
  pss := Dict.update (initVals base (outs.filter fun rv => !obs.has rv)) obs
  upd := []
  rest := []

/-- The whole loop. -/
noncomputable def loop (own : Owner) (obs : Dict Var Var) (st : LoopState) (outs : List Var) :
    LoopState :=
  outs.foldl (processRV own obs) st

/-- What the call to `nuts.construct_sampler` returns, as far as `construct_sampler` uses it: the
results dictionary and the updates.  Its wiring is modelled in `Verif/Nuts`. -/
structure NutsResult where
  steps : Dict Var Var
  updates : Dict Var Var

/-- The arguments of the call to `nuts.construct_sampler` (`/repo/aemcmc/basic.py:105-116`): the
initial values of the variables without a sampler, in the iteration order `order` of the set, and
the current values of all others.  A missing key would be a `KeyError` (`none`). -/
def nutsArgs (pss : Dict Var Var) (order : List Var) : Option (Dict Var Var × Dict Var Var) := do
  let pairs ← order.mapM fun rv => (pss.get? rv).map fun v => (rv, v)
  let toSample := Dict.update [] pairs
  return (toSample, Dict.update [] (pss.filter fun p => !Dict.has toSample p.1))

/-- The values and updates after giving the remaining variables, if any, to NUTS
(`/repo/aemcmc/basic.py:104-120`). -/
noncomputable def afterNuts (st : LoopState) (order : List Var → List Var)
    (nuts : Dict Var Var → Dict Var Var → NutsResult) : Option (Dict Var Var × Dict Var Var) :=
  if st.rest = [] then some (st.pss, st.upd)
  else
    (nutsArgs st.pss (order st.rest)).map fun a =>
      (st.pss.update (nuts a.1 a.2).steps, st.upd.update (nuts a.1 a.2).updates)

/-- The result of `construct_sampler`, with the final heap. -/
structure SamplerOut where
  steps : Dict Var Var
  updates : Dict Var Var
  inits : Dict Var Var
  ins : Ins

/-- `construct_sampler` after the sampler search (`/repo/aemcmc/basic.py:44-130`).  `order` gives the
iteration order of a Python set; `nuts` is the call to `nuts.construct_sampler`.  `none` is a
`KeyError`. -/
noncomputable def constructSampler (own : Owner) (ins : Ins) (outs : List Var) (obs : Dict Var Var)
    (newToOld : Dict Var Var) (disc : Dict Var (List StepDesc)) (base : Nat)
    (order : List Var → List Var) (nuts : Dict Var Var → Dict Var Var → NutsResult) :
    Option SamplerOut := do
  let inits := initVals base (outs.filter fun rv => !obs.has rv)
  let st := loop own obs (initState ins outs obs disc base) outs
  let (pss, upd) ← afterNuts st order nuts
  let steps ← (pss.filter fun p => !obs.has p.1).mapM fun p =>
    (newToOld.get? p.1).map fun old => (old, p.2)
  let inits' ← inits.mapM fun p => (newToOld.get? p.1).map fun old => (old, p.2)
  return { steps := Dict.update [] steps, updates := upd, inits := Dict.update [] inits'
           ins := st.ins }

/-- The random-variable outputs of the model in the order of `io_toposort`
(`/repo/aemcmc/rewriting.py:73-77`).  `topo` is the list of nodes `io_toposort` returns; `rvOut n` is
`node.outputs[1]` when the node's operation is a `RandomVariable`, `none` otherwise. -/
def rvOutputs (topo : List Node) (rvOut : Node → Option Var) : List Var := topo.filterMap rvOut

/-- `construct_ir_fgraph` (`/repo/aemcmc/rewriting.py:54-101`): `memo` is the clone of each user
variable; `outs'` are the graph's outputs after the rewrites.  Returns the observed dictionary on
clones and `new_to_old_rvs`. -/
def constructIr (topo : List Node) (rvOut : Node → Option Var) (memo : Var → Option Var)
    (outs' : List Var) (obs : Dict Var Var) : Dict Var Var × Dict Var Var :=
  (Dict.update [] (obs.map fun p => ((memo p.1).getD p.1, p.2)),
   Dict.update [] ((outs'.zip (rvOutputs topo rvOut)).map fun p => (p.1, p.2)))

end Verif.Graph
