import Verif.Nuts.Model

/-!
# What is demanded of the NUTS step
-/

namespace Verif.Nuts

open Verif.Py

variable {V R : Type} [DecidableEq V]

/-- Spec.  Entry `j` of block `i` of a flat vector divided into blocks of the given sizes. -/
def blockEntry (sizes : List Nat) (q : List R) (i j : Nat) : Option R := q[(sizes.take i).sum + j]?

/-- Spec.  A transform is a change of variables for a support: it forgets nothing on the support, and maps
back into it whatever has the shape of a transformed value. -/
structure Lawful (t : Transform R) (supp : List (Arr R) → Arr R → Prop) : Prop where
  backward_forward : ∀ inputs x, supp inputs x → t.backward inputs (t.forward inputs x) = x
  wf : ∀ inputs x, supp inputs x → (t.forward inputs x).WF
  backward_mem : ∀ inputs x y, supp inputs x → y.WF → y.shape = (t.forward inputs x).shape →
    supp inputs (t.backward inputs y)

/-- Spec.  The supports of the variables are described by `supp`: transformed variables have lawful
transforms; the others are unconstrained arrays of the shape of their value. -/
structure Supports (M : Model V R) (supp : V → List (Arr R) → Arr R → Prop) : Prop where
  lawful : ∀ rv t, M.transform rv = some t → Lawful t (supp rv)
  wf : ∀ rv inputs x, supp rv inputs x → x.WF
  free : ∀ rv, M.transform rv = none → ∀ inputs x y, supp rv inputs x → y.WF → y.shape = x.shape →
    supp rv inputs y

end Verif.Nuts
