import Verif.Prior.Model
import Verif.Graph.Eval

/-!
# What is demanded of `get_rv_updates` and `sample_prior`
-/

namespace Verif.Prior

open Verif.Py Verif.Graph

/-- Spec.  `anc` lists the ancestors of the variables. -/
def IsAnc (own : Owner) (ins : Ins) (rvs anc : List Var) : Prop :=
  ∀ v, v ∈ anc ↔ ∃ r ∈ rvs, Reach own ins r v

/-- Spec.  A variable whose update the sampler has to care for. -/
def Relevant (a : Attrs) (v : Var) : Prop := a.shared v = true ∨ a.random v = true

/-- Spec.  `u` is the update most recently recorded for `v`. -/
def Recorded (stateUpdates : List (Var × Var)) (v u : Var) : Prop :=
  ∃ l l', stateUpdates = l ++ (v, u) :: l' ∧ ∀ w, (v, w) ∉ l'

/-- Spec.  The update a variable has: its default update, otherwise the recorded one. -/
def HasUpdate (a : Attrs) (stateUpdates : List (Var × Var)) (v u : Var) : Prop :=
  a.default v = some (some u) ∨ a.default v = some none ∧ Recorded stateUpdates v u

/-- Spec.  The default update and the recorded one differ. -/
def Conflict (a : Attrs) (stateUpdates : List (Var × Var)) (v : Var) : Prop :=
  ∃ u u', a.default v = some (some u) ∧ Recorded stateUpdates v u' ∧ u ≠ u'

/-- Spec.  Inputs of a variable's owner have smaller numbers: the graph has no cycles. -/
def Acyclic (own : Owner) (ins : Ins) : Prop := ∀ v n i, own v = some (n, i) → ∀ w ∈ ins n, w < v

/-- Spec.  The leaves of the graph have the given values. -/
def leaves {Val : Type} (own : Owner) (σ : Var → Val) : Var → Option Val := fun v =>
  if own v = none then some (σ v) else none

end Verif.Prior
