import Verif.Nuts.LawSpec
import Mathlib.Algebra.Group.Subgroup.Basic

/-!
# What it means for the NUTS step to keep the posterior, for transforms of whole variables

A transform may change the number of entries (the simplex) and may map many transformed values to the same
value (the circle).
-/

open MeasureTheory
open scoped ENNReal

namespace Verif.Nuts

open Verif.Py

/-- Spec.  The transform of one variable, between vectors. -/
structure Block where
  /-- shape of the values -/
  shape : List Nat
  /-- shape of the transformed values -/
  tshape : List Nat
  /-- number of entries of the values -/
  k : ℕ
  /-- number of entries of the transformed values -/
  m : ℕ
  /-- forward -/
  f : (Fin k → ℝ) → (Fin m → ℝ)
  /-- backward -/
  g : (Fin m → ℝ) → (Fin k → ℝ)
  /-- factor for the change of variables -/
  J : (Fin m → ℝ) → ℝ
  /-- support of the variable -/
  S : Set (Fin k → ℝ)
  /-- the measure on the support that densities refer to -/
  ref : Measure (Fin k → ℝ)
  /-- moves of the transformed values that do not change the value -/
  shifts : AddSubgroup (Fin m → ℝ)
  /-- one transformed value for every value -/
  D : Set (Fin m → ℝ)

/-- Spec.  The block describes a change of variables: the transformed values in `D` correspond to the values,
with `J` the factor between their measures; `D` has exactly one point in every class of transformed values
that differ by one of the moves. -/
structure Block.Lawful (b : Block) : Prop where
  shape_prod : b.shape.prod = b.k
  tshape_prod : b.tshape.prod = b.m
  meas_f : Measurable b.f
  meas_g : Measurable b.g
  meas_J : Measurable b.J
  pos : ∀ q, 0 < b.J q
  mem : ∀ q, b.g q ∈ b.S
  countable : Countable b.shifts
  meas_D : MeasurableSet b.D
  tile : ∀ q, ∃! l : b.shifts, (l : Fin b.m → ℝ) + q ∈ b.D
  left_inv : ∀ q ∈ b.D, b.f (b.g q) = q
  g_shift : ∀ l ∈ b.shifts, ∀ q, b.g (l + q) = b.g q
  J_shift : ∀ l ∈ b.shifts, ∀ q, b.J (l + q) = b.J q
  sigma : SigmaFinite b.ref
  map_eq : ((volume.restrict b.D).withDensity fun q => ENNReal.ofReal (b.J q)).map b.g = b.ref

/-- Spec.  An array operation that acts by `f` on the entries of arrays of shape `s`, and gives arrays of
shape `t`. -/
def Acts (T : Arr ℝ → Arr ℝ) (s t : List Nat) {k m : ℕ} (f : (Fin k → ℝ) → (Fin m → ℝ)) : Prop :=
  ∀ x : Arr ℝ, x.WF → x.shape = s → T x = ⟨t, List.ofFn (f (vec k x.data))⟩

/-- Spec.  The values in a dictionary, one vector for every variable. -/
def vals {V : Type} {N : ℕ} (k : Fin N → ℕ) (d : Dict V (Arr ℝ)) : ∀ i, Fin (k i) → ℝ :=
  fun i => vec (k i) ((d[(i : ℕ)]?.map fun p => p.2.data).getD [])

/-- Spec.  Every array in the dictionary is well formed and has its own shape. -/
def Shaped {V : Type} {N : ℕ} (s : Fin N → List Nat) (d : Dict V (Arr ℝ)) : Prop :=
  ∀ i : Fin N, ∀ p, d[(i : ℕ)]? = some p → p.2.WF ∧ p.2.shape = s i

/-- Spec.  The log density at transformed values: that of the model at the values plus the logarithms of the
factors for the change of variables. -/
noncomputable def blockLog {N : ℕ} (b : Fin N → Block) (w : (∀ i, Fin (b i).k → ℝ) → ℝ)
    (q : ∀ i, Fin (b i).m → ℝ) : ℝ :=
  Real.log (w fun i => (b i).g (q i)) + ∑ i, Real.log ((b i).J (q i))

/-- Spec.  The log density `ℓ` as a function of flat positions. -/
noncomputable def flatLog {n : ℕ} (ℓ : (Fin n → ℝ) → ℝ) (q : List ℝ) : Option ℝ :=
  if n ≤ q.length then some (ℓ (vec n q)) else none

/-- Spec.  What more the step is entitled to expect of the kernel: it keeps the measure with any density,
integrable or not, and it commutes with translations of the space. -/
def KeepsShifts {U : Type} [MeasurableSpace U] (μU : Measure U)
    (K : U → (List ℝ → Option ℝ) → List ℝ → List ℝ) : Prop :=
  (∀ (n : ℕ) (ℓ : (Fin n → ℝ) → ℝ), Measurable ℓ →
    (μU.prod (volume.withDensity fun q => ENNReal.ofReal (Real.exp (ℓ q)))).map
      (fun p => vec n (K p.1 (flatLog ℓ) (List.ofFn p.2))) =
      volume.withDensity fun q => ENNReal.ofReal (Real.exp (ℓ q))) ∧
  ∀ (u : U) (n : ℕ) (ℓ : (Fin n → ℝ) → ℝ) (c q : Fin n → ℝ),
    vec n (K u (flatLog ℓ) (List.ofFn (c + q))) = c + vec n (K u (flatLog fun q => ℓ (c + q)) (List.ofFn q))

end Verif.Nuts
