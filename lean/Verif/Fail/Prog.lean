import Mathlib.MeasureTheory.Measure.GiryMonad
import Mathlib.MeasureTheory.Measure.Prod

/-!
# Programs that can fail

A small language for the calls a sampler makes.  A program asks random generators for draws and evaluates
operations that are defined only for some arguments.  Whether a generator accepts its parameters and whether
an operation is defined are recorded with the call, so that "nothing ever goes wrong" is a statement about
the program and not about the values Lean gives to undefined expressions.
-/

open MeasureTheory
open scoped ENNReal

namespace Verif.Fail

/-- A random generator with its parameters: the law of its draws and the condition under which it accepts the
parameters. -/
structure Gen (β : Type) [MeasurableSpace β] where
  /-- Law of one draw. -/
  law : Measure β
  /-- The parameters are in the domain of the generator. -/
  accepts : Prop

/-- Two generators asked one after the other, neither reading the draw of the other. -/
noncomputable def Gen.pair {β γ : Type} [MeasurableSpace β] [MeasurableSpace γ] (g : Gen β) (h : Gen γ) :
    Gen (β × γ) := ⟨g.law.prod h.law, g.accepts ∧ h.accepts⟩

/-- A program returning a value of type `α`. -/
inductive Prog (α : Type) : Type 1
  /-- Return a value. -/
  | ret (a : α)
  /-- Evaluate an operation that is defined only when the condition holds. -/
  | need (defined : Prop) (next : Prog α)
  /-- Ask a generator for a draw. -/
  | draw {β : Type} [MeasurableSpace β] (g : Gen β) (next : β → Prog α)

namespace Prog

variable {α β : Type}

/-- One program after the other. -/
def bind : Prog α → (α → Prog β) → Prog β
  | .ret a, f => f a
  | .need P p, f => .need P (bind p f)
  | @Prog.draw _ _ _ g k, f => .draw g fun x => bind (k x) f

/-- Law of the returned value, when nothing goes wrong. -/
noncomputable def law [MeasurableSpace α] : Prog α → Measure α
  | .ret a => Measure.dirac a
  | .need _ p => law p
  | @Prog.draw _ _ _ g k => g.law.bind fun x => law (k x)

/-- With probability one nothing goes wrong and the returned value satisfies `Q`. -/
def Safe : Prog α → (α → Prop) → Prop
  | .ret a, Q => Q a
  | .need P p, Q => P ∧ Safe p Q
  | @Prog.draw _ _ _ g k, Q => g.accepts ∧ ∀ᵐ x ∂g.law, Safe (k x) Q

open Classical in
/-- Probability that something goes wrong. -/
noncomputable def failure : Prog α → ℝ≥0∞
  | .ret _ => 0
  | .need P p => if P then failure p else 1
  | @Prog.draw _ _ _ g k => if g.accepts then ∫⁻ x, failure (k x) ∂g.law else 1

/-- `n` calls, each starting from the state the one before returned. -/
def run (step : α → Prog α) : ℕ → α → Prog α
  | 0, s => .ret s
  | n + 1, s => (step s).bind (run step n)

theorem safe_bind (p : Prog α) (f : α → Prog β) (Q : β → Prop) :
    Safe (p.bind f) Q ↔ Safe p fun a => Safe (f a) Q := by
  induction p with
  | ret a => rfl
  | need P p ih => simp only [bind, Safe, ih]
  | draw g k ih => simp only [bind, Safe, ih]

theorem Safe.mono {p : Prog α} {Q R : α → Prop} (h : Safe p Q) (hQR : ∀ a, Q a → R a) : Safe p R := by
  induction p with
  | ret a => exact hQR a h
  | need P p ih => exact ⟨h.1, ih h.2⟩
  | draw g k ih => exact ⟨h.1, h.2.mono fun x hx => ih x hx⟩

theorem Safe.and {p : Prog α} {Q R : α → Prop} (h : Safe p Q) (h' : Safe p R) :
    Safe p fun a => Q a ∧ R a := by
  induction p with
  | ret a => exact ⟨h, h'⟩
  | need P p ih => exact ⟨h.1, ih h.2 h'.2⟩
  | draw g k ih => exact ⟨h.1, (h.2.and h'.2).mono fun x hx => ih x hx.1 hx.2⟩

theorem Safe.bind {p : Prog α} {f : α → Prog β} {Q : α → Prop} {R : β → Prop} (h : Safe p Q)
    (hf : ∀ a, Q a → Safe (f a) R) : Safe (p.bind f) R :=
  (safe_bind p f R).2 (h.mono hf)

theorem Safe.failure_eq_zero {p : Prog α} {Q : α → Prop} (h : Safe p Q) : p.failure = 0 := by
  induction p with
  | ret a => rfl
  | need P p ih => rw [failure, if_pos h.1, ih h.2]
  | draw g k ih =>
    rw [failure, if_pos h.1]
    exact (lintegral_congr_ae (h.2.mono fun x hx => ih x hx)).trans lintegral_zero

theorem Safe.run {step : α → Prog α} {Q : α → Prop} (h : ∀ s, Q s → Safe (step s) Q) :
    ∀ (n : ℕ) (s : α), Q s → Safe (run step n s) Q
  | 0, _, hs => hs
  | n + 1, s, hs => (h s hs).bind fun a ha => Safe.run h n a ha

end Prog

end Verif.Fail
