import Verif.Iter.Joint

/-!
# What repeated calls of a sampler with several unknowns converge to (C65, continued)

`ConvergesFrom {q} π K`: started at `q`, the probability of every event after `k` calls tends to its
probability under `π`.
-/

open MeasureTheory ProbabilityTheory Matrix
open scoped ENNReal

namespace Verif

variable {p n : ℕ}

/-- **C65 (partial).** Horseshoe step, rate reading: from every positive start repeated calls converge to
the joint posterior of the shrinkage parameters. -/
theorem C65_horseshoe_converges_partial {β : Fin p → ℝ} (hβ : ∀ j, β j ≠ 0) :
    ConvergesFrom {s | (∀ j, 0 < s.1 j) ∧ 0 < s.2} (Horseshoe.posterior β 1)
      (Horseshoe.horseshoeStep .rate β) := by
  have hst := Horseshoe.C28_rate_step_invariant_partial hβ
  have := isProbabilityMeasure_bayes hst.1
  have hpr : IsProbabilityMeasure (Horseshoe.posterior β 1) := this
  have r := horseshoe_runs .rate β
  refine r.converges (m := Shared.resClass p)
    (fun s => Measure.AbsolutelyContinuous.mk fun T hT h => (Shared.shrinkK_null _ _ hT).1 h)
    (fun s => Measure.AbsolutelyContinuous.mk fun T hT h => (Shared.shrinkK_null _ _ hT).2 h) ?_
  refine (hst.2.congr_ae ?_).2
  filter_upwards [Horseshoe.ae_posterior_pos β 1] with s hs using r.eq s hs

/-- **C65 is violated**: horseshoe step in the reading the library uses (the argument of `exponential` is
the mean).  From no positive start do repeated calls converge to the joint posterior. -/
theorem C65_horseshoe_scale_violated (hp : 0 < p) {β : Fin p → ℝ} (hβ : ∀ j, β j ≠ 0)
    {s : (Fin p → ℝ) × ℝ} (h1 : ∀ j, 0 < s.1 j) (h2 : 0 < s.2) :
    ¬ ConvergesFrom {s} (Horseshoe.posterior β 1) (Horseshoe.horseshoeStep .scale β) := fun h =>
  (Horseshoe.C28_step_violated hp hβ).2 ((horseshoe_runs .scale β).stationary ⟨h1, h2⟩ h)

example : ConvergesFrom {s | (∀ j, 0 < s.1 j) ∧ 0 < s.2} (Horseshoe.posterior ![2, -1] 1)
    (Horseshoe.horseshoeStep .rate ![2, -1]) :=
  C65_horseshoe_converges_partial fun j => by fin_cases j <;> norm_num

example : ¬ ConvergesFrom {(![1, 3], 2)} (Horseshoe.posterior ![2, -1] 1)
    (Horseshoe.horseshoeStep .scale ![2, -1]) :=
  C65_horseshoe_scale_violated (by norm_num) (fun j => by fin_cases j <;> norm_num)
    (fun j => by fin_cases j <;> norm_num) (by norm_num)

/-- **C65 (partial).** Negative-binomial regression with normal coefficients and a gamma dispersion: from
any one start with a positive dispersion, repeated calls of the sampler converge to the joint posterior
exactly when every prior standard deviation is 1 and every column of the design sums to 0.  The full
property asks for the left-hand side always. -/
theorem C65_nbinom_joint_converges_iff_partial {la : LinAlg} (hla : la.Sound) {std : Fin p → ℝ}
    (hs : ∀ j, 0 < std j) {a b : ℝ} (ha : 0 < a) (hb : 0 < b) (X : Matrix (Fin n) (Fin p) ℝ)
    (y : Fin n → ℕ) {q : (Fin p → ℝ) × ℝ} (hq : 0 < q.2) :
    ConvergesFrom {q} (bayes (NbReg.nbPrior std a b) (NbReg.nbJointLik X y)) (NbReg.sweep la std X a b y) ↔
      (∀ j, std j = 1) ∧ ∀ j, ∑ i, X i j = 0 := by
  have r := NbReg.sweep_runs hla hs ha hb X y
  rw [← NbReg.C59_sweep_iff_partial hla hs ha hb X y]
  refine ⟨fun h => r.stationary hq h, fun h => ?_⟩
  have hpr := isProbabilityMeasure_bayes (NbReg.C59_posterior_exists std ha hb X y)
  refine (r.converges (m := (volume : Measure (Fin p → ℝ)).prod volPos)
    (fun s => Measure.AbsolutelyContinuous.mk fun T hT h => (NbReg.sweepK_null hs ha hb X y _ hT).1 h)
    (fun s => Measure.AbsolutelyContinuous.mk fun T hT h => (NbReg.sweepK_null hs ha hb X y _ hT).2 h)
    ?_).mono (Set.singleton_subset_iff.2 hq)
  refine (h.congr_ae ?_).2
  refine (bayes_absolutelyContinuous _ _).ae_le ?_
  filter_upwards [NbReg.ae_nbPrior_pos std ha hb] with s hs using r.eq s hs

/-- A design where repeated calls do converge. -/
example (y : Fin 2 → ℕ) : ConvergesFrom {(![5], 3)}
    (bayes (NbReg.nbPrior (fun _ => 1) 2 1) (NbReg.nbJointLik !![1; -1] y))
    (NbReg.sweep stdLinAlg (fun _ => 1) !![1; -1] 2 1 y) :=
  (C65_nbinom_joint_converges_iff_partial stdLinAlg_sound (fun _ => one_pos) two_pos one_pos _ y
    (by norm_num)).2 ⟨fun _ => rfl, fun j => by fin_cases j; simp⟩

/-- **C65 is violated**: a design with an intercept (a column of ones).  From no start with a positive
dispersion do repeated calls converge to the joint posterior. -/
theorem C65_nbinom_intercept_violated {la : LinAlg} (hla : la.Sound) {std : Fin p → ℝ}
    (hs : ∀ j, 0 < std j) {a b : ℝ} (ha : 0 < a) (hb : 0 < b) (hn : 0 < n)
    {X : Matrix (Fin n) (Fin p) ℝ} {j : Fin p} (hX : ∀ i, X i j = 1) (y : Fin n → ℕ)
    {q : (Fin p → ℝ) × ℝ} (hq : 0 < q.2) :
    ¬ ConvergesFrom {q} (bayes (NbReg.nbPrior std a b) (NbReg.nbJointLik X y))
      (NbReg.sweep la std X a b y) := by
  rw [C65_nbinom_joint_converges_iff_partial hla hs ha hb X y hq]
  rintro ⟨-, h⟩
  have := h j
  simp only [hX, Finset.sum_const, Finset.card_univ, Fintype.card_fin, nsmul_eq_mul, mul_one,
    Nat.cast_eq_zero] at this
  omega

example (y : Fin 3 → ℕ) : ¬ ConvergesFrom {(![0, 0], 1)}
    (bayes (NbReg.nbPrior (fun _ => 1) 2 1) (NbReg.nbJointLik !![1, 4; 1, 5; 1, 6] y))
    (NbReg.sweep stdLinAlg (fun _ => 1) !![1, 4; 1, 5; 1, 6] 2 1 y) :=
  C65_nbinom_intercept_violated stdLinAlg_sound (fun _ => one_pos) two_pos one_pos (by norm_num)
    (j := 0) (fun i => by fin_cases i <;> rfl) y one_pos

/-- **C65 is violated**: regressions with a horseshoe prior.  Whatever the data, from no start with
positive shrinkage parameters do repeated calls converge to the joint posterior, in either reading of
`exponential` and whichever shrinkage parameters the step of the coefficients reads. -/
theorem C65_horseshoe_regression_violated (conv : Horseshoe.ExpArg) (rd : HsReg.Reads) {la : LinAlg}
    (hla : la.Sound) (hp : 0 < p) (X : Matrix (Fin n) (Fin p) ℝ) {h : Fin n → ℝ} (hh : ∀ i, 0 < h i)
    (y : Fin n → ℕ) (z : Fin n → Bool) {q : (Fin p → ℝ) × ((Fin p → ℝ) × ℝ)} (h1 : ∀ j, 0 < q.2.1 j)
    (h2 : 0 < q.2.2) :
    ¬ ConvergesFrom {q} (HsReg.hsPosterior (nbRegLik X h y)) (HsReg.nbSweep conv rd la X h y) ∧
    ¬ ConvergesFrom {q} (HsReg.hsPosterior (bernRegLik (fun ψ => sigmoid (-ψ)) X z))
      (HsReg.bernSweep conv rd la X z) := by
  have hv := HsReg.C60_sweep_violated conv rd hla hp X hh y z
  exact ⟨fun hc => hv.1 ((HsReg.sweep_runs hla (HsReg.nbForm X hh y).some conv rd).stationary
      (θ := q) ⟨h1, h2⟩ hc),
    fun hc => hv.2 ((HsReg.sweep_runs hla (HsReg.bernForm X z).some conv rd).stationary
      (θ := q) ⟨h1, h2⟩ hc)⟩

example : ¬ ConvergesFrom {(![0, 1], (![1, 2], 3))}
    (HsReg.hsPosterior (nbRegLik !![1, 0; 2, 1] (fun _ => 2) ![0, 4]))
    (HsReg.nbSweep .scale ⟨false, false⟩ stdLinAlg !![1, 0; 2, 1] (fun _ => 2) ![0, 4]) :=
  (C65_horseshoe_regression_violated .scale _ stdLinAlg_sound (by norm_num) _ (fun _ => two_pos) _
    (fun _ => true) (fun j => by fin_cases j <;> norm_num) (by norm_num)).1

/-- **C65 is violated**: two groups of coefficients that share their global parameter.  From no positive
start do repeated calls converge to the joint posterior, in either reading of `exponential` and in either
order of the steps. -/
theorem C65_shared_violated {p₁ p₂ : ℕ} (conv : Horseshoe.ExpArg) (ord : Shared.Order) (hp₁ : 0 < p₁)
    (hp₂ : 0 < p₂) {β₁ : Fin p₁ → ℝ} {β₂ : Fin p₂ → ℝ} (h₁ : ∀ j, β₁ j ≠ 0) (h₂ : ∀ j, β₂ j ≠ 0)
    {q : (Fin p₁ → ℝ) × ((Fin p₂ → ℝ) × ℝ)} (q1 : ∀ j, 0 < q.1 j) (q2 : ∀ j, 0 < q.2.1 j)
    (q3 : 0 < q.2.2) :
    ¬ ConvergesFrom {q} (Shared.posterior β₁ β₂) (Shared.sharedStep conv ord β₁ β₂) := by
  intro h
  have hst := (Shared.shared_runs conv ord β₁ β₂).stationary (θ := q) ⟨q1, q2, q3⟩ h
  cases conv
  · exact (Shared.C61_violated ord hp₁ h₁ h₂).2 hst
  · exact Shared.C61_scale_violated ord hp₁ hp₂ h₁ h₂ hst

/-- **C65 (partial).** What the shared call does converge to, rate reading: from every positive start the
local parameters of the second group and the global parameter tend to their posterior given the second
group alone, as if the first group had not been observed. -/
theorem C65_shared_limit_partial {p₁ p₂ : ℕ} (ord : Shared.Order) (β₁ : Fin p₁ → ℝ) {β₂ : Fin p₂ → ℝ}
    (h₂ : ∀ j, β₂ j ≠ 0) {q : (Fin p₁ → ℝ) × ((Fin p₂ → ℝ) × ℝ)} (q1 : ∀ j, 0 < q.1 j)
    (q2 : ∀ j, 0 < q.2.1 j) (q3 : 0 < q.2.2) {S : Set ((Fin p₂ → ℝ) × ℝ)} (hS : MeasurableSet S) :
    Filter.Tendsto (fun k => calls (Shared.sharedStep .rate ord β₁ β₂) k q (Prod.snd ⁻¹' S))
      Filter.atTop (nhds (Horseshoe.posterior β₂ 1 S)) := by
  have key : ∀ k, (∀ᵐ r ∂calls (Shared.sharedStep .rate ord β₁ β₂) k q, Shared.Pos r) ∧
      (calls (Shared.sharedStep .rate ord β₁ β₂) k q).map Prod.snd =
        calls (Horseshoe.horseshoeStep .rate β₂) k q.2 := by
    intro k
    induction k with
    | zero =>
      exact ⟨(ae_dirac_iff Shared.measurableSet_Pos).2 ⟨q1, q2, q3⟩, Measure.map_dirac q⟩
    | succ k ih =>
      refine ⟨Shared.ae_pos_bind _ ord β₁ β₂ ih.1, ?_⟩
      rw [calls, calls, Shared.bind_map_snd' _ ord β₁ β₂ ih.1, ih.2]
  have hc := C65_horseshoe_converges_partial h₂ q.2 ⟨q2, q3⟩ S hS
  refine hc.congr fun k => ?_
  rw [← (key k).2, Measure.map_apply measurable_snd hS]

example : ¬ ConvergesFrom {(![1, 1], (![1], 1))} (Shared.posterior ![1, -2] ![3])
    (Shared.sharedStep .scale .globalFirst ![1, -2] ![3]) :=
  C65_shared_violated .scale .globalFirst (by norm_num) (by norm_num)
    (fun j => by fin_cases j <;> norm_num) (fun j => by fin_cases j; norm_num)
    (fun j => by fin_cases j <;> norm_num) (fun j => by fin_cases j; norm_num) (by norm_num)

end Verif
