import Verif.Py.Dict

/-!
# Model of the sampler search (`/repo/aemcmc/rewriting.py:104-176`)

`SamplerTracker` is a dictionary from variables to recorded steps and a set of keys already handled.
The graph rewriter calls the wrapped finders on nodes in an order, and as often, as it likes; a
history is a list of such calls.  What the finder itself answers is part of the history: it may
depend on the state of the graph at that moment.

Variables have type `α`; a step with its updates has type `σ`.
-/

namespace Verif.Track

open Verif.Py

/-- `SamplerTracker` (`/repo/aemcmc/rewriting.py:104-116`). -/
structure Tracker (α σ : Type) where
  samplers : Dict α (List (Nat × σ))
  seen : List (Nat × α)

/-- A fresh tracker (`/repo/aemcmc/rewriting.py:107-116`). -/
def Tracker.empty {α σ : Type} : Tracker α σ := ⟨[], []⟩

/-- A call of a wrapped finder on the node of `rv`: the finder's name and what it would answer. -/
structure Visit (α σ : Type) where
  name : Nat
  rv : α
  answer : Option (List (α × σ))

variable {α σ : Type} [DecidableEq α]

/-- `rvs_to_samplers.setdefault(rv, []).append((name, posterior, updates))`
(`/repo/aemcmc/rewriting.py:166-170`). -/
def record (name : Nat) (d : Dict α (List (Nat × σ))) (p : α × σ) : Dict α (List (Nat × σ)) :=
  d.set p.1 ((d.get? p.1).getD [] ++ [(name, p.2)])

/-- The wrapper made by `sampler_finder` (`/repo/aemcmc/rewriting.py:144-174`), on a graph that has a
tracker.  `None` and an empty answer are both falsy. -/
def visit (t : Tracker α σ) (v : Visit α σ) : Tracker α σ :=
  if (v.name, v.rv) ∈ t.seen then t
  else
    match v.answer with
    | none => t
    | some [] => t
    | some (p :: ps) =>
      { samplers := (p :: ps).foldl (record v.name) t.samplers
        seen := (v.name, v.rv) :: t.seen }

/-- A whole history. -/
def run (t : Tracker α σ) (h : List (Visit α σ)) : Tracker α σ := h.foldl visit t

/-- `rv_steps = discovered_samplers.get(rv)`; `rv_steps.pop()` unless missing or empty
(`/repo/aemcmc/basic.py:63-70`). -/
def pick (t : Tracker α σ) (rv : α) : Option (Nat × σ) := (t.samplers.get? rv).bind List.getLast?

end Verif.Track
