import Verif.Graph.Model

/-!
# Model of `get_rv_updates` and `sample_prior`

`/repo/aemcmc/utils.py:83-129`, `/repo/aemcmc/sample.py:8-31`.  Graphs as in `Verif/Graph/Model.lean`.
The list of ancestors is the one `aesara.graph.basic.ancestors` yields (library); an update is a
variable, and the truth value of a variable is true.
-/

namespace Verif.Prior

open Verif.Py Verif.Graph

/-- The exceptions of `get_rv_updates`. -/
inductive Err
  | attributeError (v : Var)
  | assertionError (v : Var)
deriving DecidableEq

/-- What `get_rv_updates` reads of the variables. -/
structure Attrs where
  /-- `isinstance(var, SharedVariable)` -/
  shared : Var → Bool
  /-- `isinstance(var.type, RandomType)` -/
  random : Var → Bool
  /-- `var.default_update`: `none` if there is no such attribute, `some none` if it is `None` -/
  default : Var → Option (Option Var)

/-- The body of the loop (`/repo/aemcmc/utils.py:109-127`) for the ancestor `v`. -/
def updateStep (a : Attrs) (srng : Dict Var Var) (acc : Dict Var Var) (v : Var) :
    Except Err (Dict Var Var) :=
  if !a.shared v && !a.random v then .ok acc else
  match a.default v with
  | none => .error (.attributeError v)
  | some (some u) =>
    match srng.get? v with
    | some u' => if u' = u then .ok (acc.set v u) else .error (.assertionError v)
    | none => .ok (acc.set v u)
  | some none =>
    match srng.get? v with
    | some u' => .ok (acc.set v u')
    | none => .ok acc

/-- The loop over the ancestors. -/
def updateLoop (a : Attrs) (srng : Dict Var Var) : Dict Var Var → List Var → Except Err (Dict Var Var)
  | acc, [] => .ok acc
  | acc, v :: vs =>
    match updateStep a srng acc v with
    | .error e => .error e
    | .ok acc' => updateLoop a srng acc' vs

/-- `get_rv_updates` (`/repo/aemcmc/utils.py:83-129`): `stateUpdates` is `srng.state_updates`, `anc` the
list of ancestors of the variables. -/
def getRvUpdates (a : Attrs) (stateUpdates : List (Var × Var)) (anc : List Var) :
    Except Err (Dict Var Var) :=
  updateLoop a (Dict.update [] stateUpdates) [] anc

section
variable {Val : Type} (own : Owner) (ins : Ins) (sem : Node → Nat → List Val → Val)

/-- The value of a variable when the variables without owner have the values `σ`; `fuel` bounds the
depth. -/
def evFuel (σ : Var → Val) : Nat → Var → Val
  | 0, v => σ v
  | k + 1, v =>
    match own v with
    | none => σ v
    | some (n, i) => sem n i ((ins n).map (evFuel σ k))

/-- The value of a variable, for graphs in which inputs have smaller numbers (`Acyclic` in the
specification): the depth is at most the number. -/
def value (σ : Var → Val) (v : Var) : Val := evFuel own ins sem σ (v + 1) v

/-- The shared variables after one step: those with an update get its value, all computed from the old
values. -/
def nextState (ups : Dict Var Var) (σ : Var → Val) (v : Var) : Val :=
  match ups.get? v with
  | some u => value own ins sem σ u
  | none => σ v

/-- What `aesara.scan(lambda: (rvs, ups), n_steps=n)` computes (library): the stacked outputs and the
final values of the shared variables. -/
def scan (rvs : List Var) (ups : Dict Var Var) : Nat → (Var → Val) → List (List Val) × (Var → Val)
  | 0, σ => ([], σ)
  | n + 1, σ =>
    let r := scan rvs ups n (nextState own ins sem ups σ)
    (rvs.map (value own ins sem σ) :: r.1, r.2)

/-- `sample_prior` (`/repo/aemcmc/sample.py:8-31`): the samples and the values of the shared variables
after the function with the returned updates was called in the state `σ`. -/
def samplePrior (a : Attrs) (stateUpdates : List (Var × Var)) (anc : List Var) (n : Nat)
    (rvs : List Var) (σ : Var → Val) : Except Err (List (List Val) × (Var → Val)) :=
  match getRvUpdates a stateUpdates anc with
  | .error e => .error e
  | .ok ups => .ok (scan own ins sem rvs ups n σ)

end

end Verif.Prior
