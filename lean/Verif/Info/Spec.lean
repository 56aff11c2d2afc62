import Verif.Info.Model

/-!
# What is demanded of `ModelInfo`
-/

namespace Verif.Info

open Verif.Py

/-- Spec.  `iter` enumerates sets: every element once, in some order. -/
def SetIter (iter : List Nat → List Nat) : Prop :=
  ∀ l, (iter l).Nodup ∧ ∀ x, x ∈ iter l ↔ x ∈ l

/-- Spec.  A Python dictionary has distinct keys. -/
def IsDict (d : Dict Nat Nat) : Prop := (d.map Prod.fst).Nodup

/-- Spec.  The variables the user mentions. -/
def Involved (obs : List Nat) (d : Dict Nat Nat) (det : List Nat) (v : Nat) : Prop :=
  v ∈ obs ∨ v ∈ det ∨ ∃ rv val, (rv, val) ∈ d ∧ (v = rv ∨ v = val)

/-- Spec.  All involved variables have a non-empty name. -/
def Named (name : Nat → Option String) (obs : List Nat) (d : Dict Nat Nat) (det : List Nat) : Prop :=
  ∀ v, Involved obs d det v → ∃ s, s ≠ "" ∧ name v = some s

/-- Spec.  No two distinct involved variables share a name. -/
def UniquelyNamed (name : Nat → Option String) (obs : List Nat) (d : Dict Nat Nat) (det : List Nat) :
    Prop :=
  ∀ v w, Involved obs d det v → Involved obs d det w → name v = name w → v = w

/-- Spec.  Every observed variable has a value. -/
def HasValues (obs : List Nat) (d : Dict Nat Nat) : Prop := ∀ o ∈ obs, ∃ v, (o, v) ∈ d

end Verif.Info
