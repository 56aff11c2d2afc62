import Verif.Prob.JointStep

/-!
# Spec: single steps run one after the other

Used by C67.  The state is one value; a step changes some part of it and keeps the rest.
-/

open MeasureTheory

namespace Verif.Whole

/-- Spec: run the steps one after the other, each from the state the ones before have left. -/
noncomputable def runAll {Θ : Type*} [MeasurableSpace Θ] : List (Θ → Measure Θ) → Θ → Measure Θ
  | [] => Measure.dirac
  | K :: l => fun q => (K q).bind (runAll l)

end Verif.Whole
