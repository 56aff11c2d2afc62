import Verif.Py.Dict

/-!
# Model of `ModelInfo`

`/repo/aemcmc/utils.py:14-70`.  Variables are numbered: they are compared and hashed by identity.  The
field `updates` is stored as given and is left out.
-/

namespace Verif.Info

open Verif.Py

/-- The exceptions `__post_init__` raises. -/
inductive Err
  | keyError (v : Nat)
  | emptyName
  | dupName
deriving DecidableEq

/-- A `ModelInfo` object (`/repo/aemcmc/utils.py:18-34`). -/
structure ModelInfo where
  /-- observed random variables, as given -/
  observedRvs : List Nat
  /-- values of the random variables, as given -/
  rvsToValues : Dict Nat Nat
  /-- deterministic variables, as given -/
  deterministicVars : List Nat
  /-- computed -/
  valuesToRvs : Dict Nat Nat
  /-- computed; a name is `None` or a string -/
  namesToVars : Dict (Option String) Nat
  /-- computed -/
  observedValues : List Nat
  /-- computed -/
  unobservedRvs : List Nat
  /-- computed -/
  unobservedValues : List Nat

/-- `tuple(d[k] for k in ks)` (`/repo/aemcmc/utils.py:50`, `:54`). -/
def lookups (d : Dict Nat Nat) : List Nat → Except Err (List Nat)
  | [] => .ok []
  | k :: ks =>
    match d.get? k with
    | none => .error (.keyError k)
    | some v =>
      match lookups d ks with
      | .error e => .error e
      | .ok vs => .ok (v :: vs)

/-- Truth value of `v.name` (`/repo/aemcmc/utils.py:64`): neither `None` nor empty. -/
def truthy : Option String → Bool
  | none => false
  | some s => s != ""

/-- `ModelInfo.__post_init__` (`/repo/aemcmc/utils.py:36-70`).  `name` gives the `name` attributes;
`iter` is the order in which a set with the given elements is iterated. -/
def postInit (name : Nat → Option String) (iter : List Nat → List Nat) (observedRvs : List Nat)
    (rvsToValues : Dict Nat Nat) (deterministicVars : List Nat) : Except Err ModelInfo :=
  let valuesToRvs : Dict Nat Nat := Dict.update [] (rvsToValues.map fun p => (p.2, p.1))
  let unobservedRvs := rvsToValues.keys.filter fun k => !observedRvs.contains k
  match lookups rvsToValues unobservedRvs with
  | .error e => .error e
  | .ok unobservedValues =>
    match lookups rvsToValues observedRvs with
    | .error e => .error e
    | .ok observedValues =>
      let allVars := iter (observedRvs ++ rvsToValues.keys ++ deterministicVars ++ observedValues ++
        unobservedValues)
      if !allVars.all (fun v => truthy (name v)) then .error .emptyName else
        let namesToVars : Dict (Option String) Nat := Dict.update [] (allVars.map fun v => (name v, v))
        if namesToVars.length != allVars.length then .error .dupName else
          .ok ⟨observedRvs, rvsToValues, deterministicVars, valuesToRvs, namesToVars, observedValues,
            unobservedRvs, unobservedValues⟩

end Verif.Info
