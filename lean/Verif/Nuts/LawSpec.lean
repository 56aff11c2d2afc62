import Verif.Nuts.Transforms
import Verif.Prob.ChangeVar

/-!
# What it means for the NUTS step to keep the posterior
-/

open MeasureTheory
open scoped ENNReal

namespace Verif.Nuts

open Verif.Py

/-- Spec.  The first `n` entries of a list as a vector. -/
def vec (n : ℕ) (l : List ℝ) : Fin n → ℝ := fun i => l.getD i 0

/-- Spec.  The values in a dictionary as one vector. -/
def flat {V : Type} (n : ℕ) (d : Dict V (Arr ℝ)) : Fin n → ℝ := vec n (d.flatMap fun p => p.2.data)

/-- Spec.  An array operation that maps entry `j` by `φ j`, on arrays of shape `s`. -/
def Entrywise (T : Arr ℝ → Arr ℝ) (s : List Nat) (φ : ℕ → ℝ → ℝ) : Prop :=
  ∀ x : Arr ℝ, x.WF → x.shape = s → T x = ⟨s, x.data.mapIdx φ⟩

/-- Spec.  One entry of one variable: the transform of that entry, its inverse, the derivative of the
inverse and the support. -/
structure Coord where
  /-- forward -/
  f : ℝ → ℝ
  /-- backward -/
  g : ℝ → ℝ
  /-- derivative of `g` -/
  dg : ℝ → ℝ
  /-- support -/
  S : Set ℝ

/-- Spec.  The entries of all variables, in the order of the variables. -/
def coords {V : Type} (rvs : List V) (shape : V → List Nat) (coord : V → ℕ → Coord) : List Coord :=
  rvs.flatMap fun rv => (List.range (shape rv).prod).map (coord rv)

/-- Spec.  The log density at a transformed position: that of the model at the original values plus the
logarithm of the factor for the change of variables. -/
noncomputable def transformedLog (cs : List Coord) (w : (Fin cs.length → ℝ) → ℝ)
    (q : Fin cs.length → ℝ) : ℝ :=
  Real.log (w fun i => cs[i].g (q i)) + ∑ i : Fin cs.length, Real.log (cs[i].dg (q i))

/-- Spec.  Supports of all entries. -/
def support (cs : List Coord) : Set (Fin cs.length → ℝ) := Set.univ.pi fun i => cs[i].S

/-- Spec.  What the step is entitled to expect of the kernel: with noise `u` of law `μU`, it keeps the
length of the position and, in every dimension, every law with an integrable density, given by its log
density. -/
def KeepsTargets {U : Type} [MeasurableSpace U] (μU : Measure U)
    (K : U → (List ℝ → Option ℝ) → List ℝ → List ℝ) : Prop :=
  (∀ u f q, (K u f q).length = q.length) ∧
  ∀ (n : ℕ) (ℓ : (Fin n → ℝ) → ℝ), Measurable ℓ → Integrable (fun q => Real.exp (ℓ q)) →
    (μU.prod (volume.withDensity fun q => ENNReal.ofReal (Real.exp (ℓ q)))).map
      (fun p => vec n (K p.1 (fun q => if n ≤ q.length then some (ℓ (vec n q)) else none)
        (List.ofFn p.2))) =
      volume.withDensity fun q => ENNReal.ofReal (Real.exp (ℓ q))

end Verif.Nuts
