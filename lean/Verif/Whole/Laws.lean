import Verif.Whole.Draws
import Verif.HsDisp.Lemmas
import Verif.Shared.Model

/-!
# The laws of the sampling nodes of a regression, as families over the inputs of the node
-/

open MeasureTheory ProbabilityTheory Matrix

namespace Verif.Whole

variable {p n : ℕ}

/-- The node of `normal_horseshoe_finder` (`/repo/aemcmc/gibbs.py:295-304`): inputs `beta`, the squares of
`lambda` and of `tau`. -/
noncomputable def shrinkLaw (conv : Horseshoe.ExpArg) (v : (Fin p → ℝ) × ((Fin p → ℝ) × ℝ)) :
    Measure ((Fin p → ℝ) × ℝ) := Horseshoe.horseshoePosterior conv v.1 1 v.2.1 v.2.2

/-- The inputs the node is meant for. -/
def shrinkGood (p : ℕ) : Set ((Fin p → ℝ) × ((Fin p → ℝ) × ℝ)) := {v | (∀ j, 0 < v.2.1 j) ∧ 0 < v.2.2}

/-- The node of `nbinom_logistic_finder` for the coefficients (`/repo/aemcmc/gibbs.py:607-614`): inputs the
standard deviations, `beta`, `h`. -/
noncomputable def coefLaw (la : LinAlg) (X : Matrix (Fin n) (Fin p) ℝ) (y : Fin n → ℕ)
    (v : (Fin p → ℝ) × ((Fin p → ℝ) × ℝ)) : Measure (Fin p → ℝ) :=
  nbinomNormalPosterior la v.1 X (fun _ => v.2.2) y v.2.1

/-- The inputs the node is meant for. -/
def coefGood (p : ℕ) : Set ((Fin p → ℝ) × ((Fin p → ℝ) × ℝ)) := {v | (∀ j, 0 < v.1 j) ∧ 0 < v.2.2}

/-- The node of `nbinom_logistic_finder` for the dispersion (`/repo/aemcmc/gibbs.py:629-639`): inputs the
success probabilities and `h`. -/
noncomputable def dispLaw (a b : ℝ) (y : Fin n → ℕ) (v : (Fin n → ℝ) × ℝ) : Measure ℝ :=
  CRT.dispersionPosterior (List.ofFn v.1) a b (List.ofFn fun i => (y i : ℤ)) v.2

/-- The inputs the node is meant for. -/
def dispGood (n : ℕ) : Set ((Fin n → ℝ) × ℝ) := {v | (∀ i, 0 < v.1 i ∧ v.1 i < 1) ∧ 0 < v.2}

theorem shrinkLaw_sq (conv : Horseshoe.ExpArg) (β : Fin p → ℝ) (s : (Fin p → ℝ) × ℝ) :
    shrinkLaw conv (β, (fun j => s.1 j ^ 2, s.2 ^ 2)) = Horseshoe.horseshoeStep conv β s := rfl

theorem shrink_exists (conv : Horseshoe.ExpArg) :
    Nonempty (Draws (shrinkLaw (p := p) conv) (shrinkGood p)) := by
  refine Draws.exists (K' := fun v => HsReg.shrinkK conv (v.1, (fun j => √(v.2.1 j), √v.2.2)))
    ((HsReg.measurable_shrinkK conv).comp (by fun_prop)) (fun v => HsReg.prob_shrinkK conv _) ?_
  rintro ⟨β, l, t⟩ ⟨hl, ht⟩
  rw [← HsReg.shrinkK_eq conv β (s := (fun j => √(l j), √t))
    ⟨fun j => Real.sqrt_pos.2 (hl j), Real.sqrt_pos.2 ht⟩, ← shrinkLaw_sq]
  simp only [Real.sq_sqrt (hl _).le, Real.sq_sqrt (le_of_lt ht)]

theorem coef_exists {la : LinAlg} (hla : la.Sound) (X : Matrix (Fin n) (Fin p) ℝ) (y : Fin n → ℕ) :
    Nonempty (Draws (coefLaw la X y) (coefGood p)) := by
  refine Draws.exists (K' := fun v => HsDisp.coefP X y (fun j => (v.1 j)⁻¹, v.2))
    ((HsDisp.measurable_coefP X y).comp (by fun_prop)) (fun v => HsDisp.prob_coefP X y _) ?_
  rintro ⟨sd, β, h⟩ ⟨hs, hh⟩
  rw [coefLaw, NbReg.coefK_eq hla hs X y hh, HsDisp.coefP]
  simp only [posOr1_of_pos (inv_pos.2 (hs _))]

/-- Minus the log of the product of the complements of the probabilities, made nonnegative. -/
noncomputable def dispRate (v : (Fin n → ℝ) × ℝ) : ℝ := max (-∑ i, Real.log (1 - v.1 i)) 0

theorem measurable_dispRate : Measurable (dispRate (n := n)) :=
  (Finset.measurable_sum _ fun i _ => Real.measurable_log.comp
    (((measurable_pi_apply i).comp measurable_fst).const_sub 1)).neg.max measurable_const

theorem measurable_rateKernel (a b : ℝ) (y : Fin n → ℕ) :
    Measurable fun v : (Fin n → ℝ) × ℝ => CRT.crtKernel y a b⁻¹ (dispRate v) v.2 := by
  have hr := measurable_dispRate (n := n)
  have h2 : Measurable fun v : (Fin n → ℝ) × ℝ => posOr1 v.2 := measurable_posOr1.comp measurable_snd
  have hJ : Measurable (Function.uncurry fun (v : (Fin n → ℝ) × ℝ) (l : ℕ) =>
      CRT.crtJoint (dispRate v) v.2 l) := by
    refine measurable_from_prod_countable_left fun l => ?_
    exact (h2.ennreal_ofReal.pow_const l).mul
      (Real.measurable_exp.comp ((hr.mul h2).neg)).ennreal_ofReal
  have hG : Measurable fun w : ((Fin n → ℝ) × ℝ) × ℕ => gammaMeasure (a + w.2) (b⁻¹ + dispRate w.1) := by
    refine measurable_from_prod_countable_left fun l => ?_
    exact (measurable_gammaMeasure_rate (a + l)).comp (hr.const_add _)
  have hK : Measurable fun v : (Fin n → ℝ) × ℝ =>
      bayes (CRT.polyMeas (CRT.crtPoly y)) (CRT.crtJoint (dispRate v) v.2) :=
    measurable_bayes (f := fun (v : (Fin n → ℝ) × ℝ) (l : ℕ) => CRT.crtJoint (dispRate v) v.2 l) hJ
  have hp : ∀ v : (Fin n → ℝ) × ℝ, IsProbabilityMeasure
      (bayes (CRT.polyMeas (CRT.crtPoly y)) (CRT.crtJoint (dispRate v) v.2)) := fun v =>
    isProbabilityMeasure_bayes (CRT.crtJoint_defined _ y _)
  have := measurable_bind_param hK hp hG
  unfold CRT.crtKernel
  exact this

theorem disp_exists {a b : ℝ} (ha : 0 < a) (hb : 0 < b) (y : Fin n → ℕ) :
    Nonempty (Draws (dispLaw a b y) (dispGood n)) := by
  refine Draws.exists (measurable_rateKernel a b y) (fun v => CRT.prob_crtKernel ha
    (by have : 0 ≤ dispRate v := le_max_right _ _; positivity) y v.2) ?_
  rintro ⟨q, h⟩ ⟨hq, hh⟩
  have e : dispRate (q, h) = -∑ i, Real.log (1 - q i) := max_eq_left (by
    rw [Right.nonneg_neg_iff]
    exact Finset.sum_nonpos fun i _ => Real.log_nonpos (by linarith [(hq i).2]) (by linarith [(hq i).1]))
  simp only [e]
  exact CRT.dispersion_eq _ a b y hh

theorem measurable_sig (X : Matrix (Fin n) (Fin p) ℝ) :
    Measurable fun β : Fin p → ℝ => fun i => sigmoid (((-X) *ᵥ β) i) :=
  measurable_pi_lambda _ fun i => NbReg.measurable_sigmoid.comp (NbReg.measurable_mulVec_apply (-X) i)

theorem sig_good (X : Matrix (Fin n) (Fin p) ℝ) (β : Fin p → ℝ) {h : ℝ} (hh : 0 < h) :
    ((fun i => sigmoid (((-X) *ᵥ β) i), h) : (Fin n → ℝ) × ℝ) ∈ dispGood n :=
  ⟨fun _ => ⟨CRT.sigmoid_pos' _, CRT.sigmoid_lt_one' _⟩, hh⟩

end Verif.Whole
