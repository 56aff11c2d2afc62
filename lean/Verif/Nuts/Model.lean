import Verif.Py.Dict

/-!
# Model of the NUTS step

`/repo/aemcmc/nuts.py`.  The graphs the code builds are represented by their values: every variable of the
graph has a value, that of a random variable being its *draw* (the graph contains the random variable
itself), not the current value the sampler holds for it.

Library behaviour (not part of `/repo`): `aehmc.utils.RaveledParamsMap`, written down here as far as the
step uses it; the NUTS kernel, an arbitrary function of the log density and the flat position; the default
transforms of AePPL (`Verif.Nuts.Transforms`); `joint_logprob`, an arbitrary function of the values of the
variables, with one placeholder per sampled variable, in order.  Data types and names are left out.
-/

namespace Verif.Nuts

open Verif.Py

/-- An array: shape and entries in row-major order. -/
structure Arr (R : Type) where
  /-- `a.shape` -/
  shape : List Nat
  /-- `a.ravel()` -/
  data : List R
deriving DecidableEq

/-- The number of entries is the one given by the shape. -/
def Arr.WF {R : Type} (a : Arr R) : Prop := a.data.length = a.shape.prod

/-- `at.cumsum`, from `acc`. -/
def cumsum (acc : Nat) : List Nat → List Nat
  | [] => []
  | n :: ns => (acc + n) :: cumsum (acc + n) ns

/-- `RaveledParamsMap.slice_indices`: `zip([0] + cumsum[:-1], cumsum)`. -/
def slices (sizes : List Nat) : List (Nat × Nat) :=
  (0 :: (cumsum 0 sizes).dropLast).zip (cumsum 0 sizes)

/-- `v.reshape(s)`; `none` is the error for a wrong number of entries. -/
def reshape {R : Type} (v : List R) (s : List Nat) : Option (Arr R) :=
  if v.length = s.prod then some ⟨s, v⟩ else none

/-- `rp_map.ravel_params` (`/repo/aemcmc/nuts.py:123`): the raveled arrays one after the other. -/
def ravel {R : Type} (xs : List (Arr R)) : List R := xs.flatMap Arr.data

/-- `rp_map.unravel_params` (`/repo/aemcmc/nuts.py:108-109,114,135`): the slices of the flat vector in the
shapes of the arrays the map was made from, under the keys `ref_params`. -/
def unravel {V R : Type} [DecidableEq V] (refParams : List V) (shapes : List (List Nat)) (q : List R) :
    Option (Dict V (Arr R)) := do
  let blocks := (slices (shapes.map List.prod)).map fun s => (q.take s.2).drop s.1
  let pairs ← (refParams.zip (blocks.zip shapes)).mapM fun p => (reshape p.2.1 p.2.2).map fun a => (p.1, a)
  return Dict.update [] pairs

/-- `RVTransform`: both directions get the inputs of the random variable's node. -/
structure Transform (R : Type) where
  /-- `transform.forward(value, *inputs)` -/
  forward : List (Arr R) → Arr R → Arr R
  /-- `transform.backward(value, *inputs)` -/
  backward : List (Arr R) → Arr R → Arr R

/-- The model as seen by the step. -/
structure Model (V R : Type) where
  /-- `get_transform(rv)` (`/repo/aemcmc/nuts.py:177-183`) -/
  transform : V → Option (Transform R)
  /-- `rv.owner.inputs`, as functions of the values of the variables in the graph -/
  inputs : V → (V → Arr R) → List (Arr R)
  /-- the joint log density in terms of the placeholders and the other variables -/
  logprob : (V → Arr R) → R

variable {V R : Type} [DecidableEq V]

/-- `transform_forward` (`/repo/aemcmc/nuts.py:186-194`). -/
def transformForward (M : Model V R) (env : V → Arr R) (rv : V) (vv : Arr R) : Option (Transform R) → Arr R
  | some t => t.forward (M.inputs rv env) vv
  | none => vv

/-- `transform_backward` (`/repo/aemcmc/nuts.py:197-203`). -/
def transformBackward (M : Model V R) (env : V → Arr R) (rv : V) (vv : Arr R) : Option (Transform R) → Arr R
  | some t => t.backward (M.inputs rv env) vv
  | none => vv

/-- The values of the variables with those of a dictionary put in. -/
def override (env : V → Arr R) (d : Dict V (Arr R)) (v : V) : Arr R := (d.get? v).getD (env v)

/-- `logprob_fn` (`/repo/aemcmc/nuts.py:113-118`); `none` is an error at run time. -/
def logprobFn (M : Model V R) (env : V → Arr R) (placeholders : List V) (shapes : List (List Nat))
    (q : List R) : Option R :=
  (unravel placeholders shapes q).map fun d => M.logprob (override env d)

/-- `step` (`/repo/aemcmc/nuts.py:44-145`): the new values.  `toSample` maps the sampled variables to their
current values, `placeholders` are those of `joint_logprob`. -/
def step (M : Model V R) (kernel : (List R → Option R) → List R → List R) (env : V → Arr R)
    (toSample : Dict V (Arr R)) (placeholders : List V) : Option (Dict V (Arr R)) := do
  let transforms : Dict V (Option (Transform R)) :=
    Dict.update [] (toSample.keys.map fun rv => (rv, M.transform rv))
  let transformedValues ← (toSample.keys.zip (toSample.map Prod.snd)).mapM fun p =>
    (transforms.get? p.1).map (transformForward M env p.1 p.2)
  let shapes := transformedValues.map Arr.shape
  let newQ := kernel (logprobFn M env placeholders shapes) (ravel transformedValues)
  let transformedParams ← unravel placeholders shapes newQ
  let pairs ← (toSample.keys.zip placeholders).mapM fun p => do
    let t ← transforms.get? p.1
    let x ← transformedParams.get? p.2
    return (p.1, transformBackward M env p.1 x t)
  return Dict.update [] pairs

/-- The sampling step's outputs and how they are handed out (`/repo/aemcmc/nuts.py:148-166`): the outputs of
the kernel, new values before updates; for every sampled variable the index of its output; and the update
outputs `posterior[len(results):]`. -/
def samplerOutputs {O : Type} (toSample : List V) (results : Dict V O) (updates : List O) :
    List O × Dict V Nat × List O :=
  let outputs := results.map Prod.snd ++ updates
  let results' : Dict V Nat := Dict.update [] toSample.zipIdx
  (outputs, results', outputs.drop results'.length)

end Verif.Nuts
