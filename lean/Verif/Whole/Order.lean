import Verif.Whole.Conc
import Verif.Shared.Local
import Mathlib.Probability.Distributions.Exponential

/-!
# Old and new values in one call

New coefficients and new shrinkage parameters drawn from old values are independent.  If the second of the
two blocks reads the new value of the first, they are not.
-/

open MeasureTheory ProbabilityTheory Matrix Filter
open scoped ENNReal Topology

namespace Verif.Whole

open HsReg (shrinkK auxK localK expPos rateOf measurable_shrinkK prob_shrinkK)

variable {p n : ℕ}

/-! ## Coefficients first -/

/-- Probability that a new local parameter is at least one. -/
noncomputable def bigP (conv : Horseshoe.ExpArg) (x : ℝ) : ℝ≥0∞ :=
  ENNReal.ofReal (1 - Real.exp (-posOr1 (rateOf conv x)))

theorem measurable_bigP (conv : Horseshoe.ExpArg) : Measurable (bigP conv) := by
  have := measurable_posOr1.comp (HsReg.measurable_rateOf conv)
  unfold bigP
  exact ENNReal.measurable_ofReal.comp
    (measurable_const.sub (Real.measurable_exp.comp this.neg))

theorem expPos_big (conv : Horseshoe.ExpArg) (x : ℝ) :
    expPos conv x {w | 1 ≤ (√w)⁻¹} = bigP conv x := by
  have hr := posOr1_pos (rateOf conv x)
  have h1 : expPos conv x {w | 1 ≤ (√w)⁻¹} = expPos conv x (Set.Iic 1) := by
    refine measure_congr ?_
    have hpos : ∀ᵐ w ∂expPos conv x, 0 < w := ae_pos_gammaMeasure
    filter_upwards [hpos] with w hw
    refine propext ?_
    change 1 ≤ (√w)⁻¹ ↔ w ≤ 1
    have hs : 0 < √w := Real.sqrt_pos.2 hw
    rw [one_le_inv₀ hs, Real.sqrt_le_one]
  have := isProbabilityMeasure_expMeasure hr
  have h2 := cdf_expMeasure_eq hr 1
  have h3 : expPos conv x (Set.Iic 1) = ENNReal.ofReal (cdf (expMeasure (posOr1 (rateOf conv x))) 1) :=
    (ofReal_cdf (expMeasure (posOr1 (rateOf conv x))) 1).symm
  rw [h1, h3, h2]
  simp [bigP]

/-- Larger coefficients change the law of the local parameters. -/
theorem bigP_lt {conv : Horseshoe.ExpArg} {x y : ℝ} (hx : 0 < x) (hxy : x < y) :
    match conv with
    | .rate => bigP .rate x < bigP .rate y
    | .scale => bigP .scale y < bigP .scale x := by
  have key : ∀ a b : ℝ, 0 < a → a < b →
      ENNReal.ofReal (1 - Real.exp (-a)) < ENNReal.ofReal (1 - Real.exp (-b)) := by
    intro a b ha hab
    have h1 : Real.exp (-b) < Real.exp (-a) := Real.exp_lt_exp.2 (by linarith)
    have h2 : Real.exp (-b) < 1 := Real.exp_lt_one_iff.2 (by linarith)
    exact (ENNReal.ofReal_lt_ofReal_iff (by linarith)).2 (by linarith)
  have hy := hx.trans hxy
  cases conv
  · simp only [bigP, rateOf, posOr1_of_pos hx, posOr1_of_pos hy]
    exact key x y hx hxy
  · simp only [bigP, rateOf, posOr1_of_pos (inv_pos.2 hx), posOr1_of_pos (inv_pos.2 hy)]
    exact key _ _ (inv_pos.2 hy) (inv_strictAnti₀ hx hxy)

/-- The local parameters `j` at least one. -/
def big (j : Fin p) : Set ((Fin p → ℝ) × ℝ) := {s | 1 ≤ s.1 j}

theorem measurableSet_big (j : Fin p) : MeasurableSet (big j) :=
  measurableSet_le measurable_const ((measurable_pi_apply j).comp measurable_fst)

theorem shrinkK_big (conv : Horseshoe.ExpArg) (j : Fin p) (q : (Fin p → ℝ) × ((Fin p → ℝ) × ℝ)) :
    shrinkK conv q (big j) =
      ∫⁻ aux, bigP conv (aux.1 j + 0.5 * q.1 j ^ 2 * (q.2.2 ^ 2)⁻¹ / 1) ∂auxK conv q := by
  have hl : Measurable fun aux => localK conv (q, aux) :=
    (HsReg.measurable_localK conv).comp measurable_prodMk_left
  have hB : MeasurableSet {l : Fin p → ℝ | 1 ≤ l j} :=
    measurableSet_le measurable_const (measurable_pi_apply j)
  have hW : MeasurableSet {w : ℝ | 1 ≤ (√w)⁻¹} := measurableSet_le measurable_const (by fun_prop)
  have e : big j = Prod.fst ⁻¹' {l : Fin p → ℝ | 1 ≤ l j} := rfl
  rw [e, ← Measure.map_apply measurable_fst hB, Shared.shrinkK_map_fst,
    Measure.map_apply Shared.measurable_toLocal hB,
    Measure.bind_apply (Shared.measurable_toLocal hB) hl.aemeasurable]
  refine lintegral_congr fun aux => ?_
  rw [← expPos_big]
  exact (measurePreserving_eval (fun j => expPos conv
    (aux.1 j + 0.5 * q.1 j ^ 2 * (q.2.2 ^ 2)⁻¹ / 1)) j).measure_preimage hW.nullMeasurableSet

/-- The law of the new shrinkage parameters depends on the coefficients. -/
theorem shrinkK_big_ne (conv : Horseshoe.ExpArg) (j : Fin p) {β β' : Fin p → ℝ} {s : (Fin p → ℝ) × ℝ}
    (hs : Horseshoe.AllPos s) (h : β j ^ 2 < β' j ^ 2) :
    shrinkK conv (β', s) (big j) ≠ shrinkK conv (β, s) (big j) := by
  have e : auxK conv (β', s) = auxK conv (β, s) := rfl
  have hpr := HsReg.prob_auxK conv (β, s)
  have hae : ∀ᵐ x ∂auxK conv (β, s), Horseshoe.AllPos x :=
    Horseshoe.ae_pos_aux (fun j => posOr1_pos _) (posOr1_pos _)
  have h2 := hs.2
  have hlt : ∀ u : ℝ, u + 0.5 * β j ^ 2 * (s.2 ^ 2)⁻¹ / 1 < u + 0.5 * β' j ^ 2 * (s.2 ^ 2)⁻¹ / 1 := by
    intro u
    have : 0 < (s.2 ^ 2)⁻¹ := by positivity
    nlinarith
  have hpos : ∀ u : ℝ, 0 < u → 0 < u + 0.5 * β j ^ 2 * (s.2 ^ 2)⁻¹ / 1 := fun u hu => by positivity
  have hm : ∀ γ : Fin p → ℝ, AEMeasurable (fun aux : (Fin p → ℝ) × ℝ =>
      bigP conv (aux.1 j + 0.5 * γ j ^ 2 * (s.2 ^ 2)⁻¹ / 1)) (auxK conv (β, s)) := fun γ =>
    ((measurable_bigP conv).comp (by fun_prop)).aemeasurable
  have hfin : ∀ γ : Fin p → ℝ, ∫⁻ aux, bigP conv (aux.1 j + 0.5 * γ j ^ 2 * (s.2 ^ 2)⁻¹ / 1)
      ∂auxK conv (β, s) ≠ ∞ := fun γ => by
    refine ne_top_of_le_ne_top ENNReal.one_ne_top (le_trans (lintegral_mono (g := fun _ => 1)
      fun aux => ?_) (by simp))
    unfold bigP
    rw [← ENNReal.ofReal_one]
    exact ENNReal.ofReal_le_ofReal (by linarith [Real.exp_pos (-posOr1 (rateOf conv
      (aux.1 j + 0.5 * γ j ^ 2 * (s.2 ^ 2)⁻¹ / 1)))])
  rw [shrinkK_big, shrinkK_big, e]
  cases conv
  · refine (lintegral_strict_mono (IsProbabilityMeasure.ne_zero _) (hm β') (hfin β) ?_).ne'
    filter_upwards [hae] with x hx using bigP_lt (conv := .rate) (hpos _ (hx.1 j)) (hlt _)
  · refine (lintegral_strict_mono (IsProbabilityMeasure.ne_zero _) (hm β) (hfin β') ?_).ne
    filter_upwards [hae] with x hx using bigP_lt (conv := .scale) (hpos _ (hx.1 j)) (hlt _)

/-- If the shrinkage parameters are drawn from the new coefficients, the two are not independent. -/
theorem coef_first_differs (conv : Horseshoe.ExpArg) (j : Fin p) (β : Fin p → ℝ) {s : (Fin p → ℝ) × ℝ}
    (hs : Horseshoe.AllPos s) {ν ν' : Measure (Fin p → ℝ)} [IsProbabilityMeasure ν] (hν : volume ≪ ν) :
    ¬ ∀ A B, MeasurableSet A → MeasurableSet B →
      ∫⁻ β' in A, shrinkK conv (β', s) B ∂ν = ν' A * shrinkK conv (β, s) B := by
  intro h0
  have hνν : ∀ A, MeasurableSet A → ν' A = ν A := by
    intro A hA
    have h1 := h0 A Set.univ hA MeasurableSet.univ
    have h2 : ∀ β', shrinkK conv (β', s) Set.univ = 1 := fun β' => (prob_shrinkK conv _).measure_univ
    simpa [h2] using h1.symm
  have h : ∀ A B, MeasurableSet A → MeasurableSet B →
      ∫⁻ β' in A, shrinkK conv (β', s) B ∂ν = ν A * shrinkK conv (β, s) B := fun A B hA hB => by
    rw [h0 A B hA hB, hνν A hA]
  have hB := measurableSet_big j
  have hm : Measurable fun β' => shrinkK conv (β', s) (big j) :=
    (Measure.measurable_coe hB).comp ((measurable_shrinkK conv).comp measurable_prodMk_right)
  have hae := ae_eq_of_forall_setLIntegral_eq_of_sigmaFinite (μ := ν) hm
    (measurable_const (a := shrinkK conv (β, s) (big j))) fun A hA _ => by
      rw [h A _ hA hB, setLIntegral_const, mul_comm]
  have hlarge : ∃ᵐ β' ∂ν, β j ^ 2 < β' j ^ 2 := by
    intro h0
    have h1 := hν.ae_le h0
    have h2 : (volume : Measure (Fin p → ℝ)) {β' | |β j| < β' j} = 0 := by
      refine measure_mono_null (fun β' hβ' => ?_) (ae_iff.1 h1)
      have h3 : |β j| < β' j := hβ'
      exact not_not_intro (sq_lt_sq.2 (h3.trans_le (le_abs_self _)))
    have hopen : IsOpen {β' : Fin p → ℝ | |β j| < β' j} :=
      isOpen_lt continuous_const (continuous_apply j)
    refine (hopen.measure_pos volume ⟨fun _ => |β j| + 1, ?_⟩).ne' h2
    change |β j| < |β j| + 1
    linarith
  obtain ⟨β', h1, h2⟩ := (hlarge.and_eventually hae).exists
  exact shrinkK_big_ne conv j hs h1 h2

/-! ## Shrinkage parameters first -/

/-- All prior standard deviations less than `e`. -/
def small (p : ℕ) (e : ℝ) : Set ((Fin p → ℝ) × ℝ) := {s | ∀ j, s.1 j * s.2 < e}

theorem resClass_small {e : ℝ} (he : 0 < e) : Shared.resClass p (small p e) ≠ 0 := by
  have hS : MeasurableSet (small p e) := by
    have : small p e = ⋂ j, {s | s.1 j * s.2 < e} := by
      ext s
      simp [small]
    rw [this]
    exact MeasurableSet.iInter fun j => measurableSet_lt (by fun_prop) measurable_const
  rw [Shared.resClass, Measure.map_apply Horseshoe.measurable_ofPrec hS]
  have hsub : (Set.univ.pi fun _ : Fin p => Set.Ioi (1 : ℝ)) ×ˢ Set.Ioi ((e ^ 2)⁻¹) ⊆
      Horseshoe.ofPrec ⁻¹' small p e := by
    rintro ⟨w, t⟩ ⟨hw, ht⟩ j
    have hw1 : 1 < w j := hw j trivial
    have ht1 : (e ^ 2)⁻¹ < t := ht
    change (√(w j))⁻¹ * (√t)⁻¹ < e
    have h1 : (√(w j))⁻¹ ≤ 1 := inv_le_one_of_one_le₀ (by rw [Real.one_le_sqrt]; exact hw1.le)
    have h2 : e⁻¹ < √t := by
      rw [Real.lt_sqrt (inv_pos.2 he).le, inv_pow]
      exact ht1
    have h3 : (√t)⁻¹ < e := by
      rw [inv_lt_comm₀ ((inv_pos.2 he).trans h2) he]
      exact h2
    have h4 : 0 ≤ (√t)⁻¹ := by positivity
    nlinarith
  refine fun h0 => absurd (measure_mono_null hsub h0) ?_
  rw [Measure.prod_prod, Measure.pi_pi]
  have hv : ∀ a : ℝ, 0 ≤ a → volPos (Set.Ioi a) ≠ 0 := by
    intro a ha
    have h1 : volPos (Set.Ioi a) = ∞ := by
      rw [volPos, Measure.restrict_apply measurableSet_Ioi,
        Set.inter_eq_left.2 (Set.Ioi_subset_Ioi ha), Real.volume_Ioi]
    rw [h1]
    exact ENNReal.top_ne_zero
  exact mul_ne_zero (Finset.prod_ne_zero_iff.2 fun _ _ => hv 1 zero_le_one) (hv _ (by positivity))

/-- A law of the coefficients that concentrates at zero as the prior standard deviations do. -/
def Concentrates (M : (Fin p → ℝ) × ℝ → Measure (Fin p → ℝ)) (j : Fin p) : Prop :=
  ∀ s : ℕ → (Fin p → ℝ) × ℝ, (∀ k, Horseshoe.AllPos (s k)) →
    (∀ i, Tendsto (fun k => (s k).1 i * (s k).2) atTop (𝓝 0)) →
    ∀ e, 0 < e → Tendsto (fun k => M (s k) (far e j)) atTop (𝓝 0)

/-- If the coefficients are drawn from the new shrinkage parameters, the two are not independent. -/
theorem shrink_first_differs (conv : Horseshoe.ExpArg) (j : Fin p) (q : (Fin p → ℝ) × ((Fin p → ℝ) × ℝ))
    {M : (Fin p → ℝ) × ℝ → Measure (Fin p → ℝ)} (hM : Measurable M) (hc : Concentrates M j)
    {ν : Measure (Fin p → ℝ)} (hν : ν ≪ volume) (hν0 : ν ≠ 0) :
    ¬ ∀ A B, MeasurableSet A → MeasurableSet B →
      ∫⁻ s' in B, M s' A ∂shrinkK conv q = ν A * shrinkK conv q B := by
  intro h
  have hpr := prob_shrinkK conv q
  have hall : ∀ e, 0 < e → ν (far e j) = 0 := by
    intro e he
    have hA := measurableSet_far e j
    have hm : Measurable fun s' => M s' (far e j) := (Measure.measurable_coe hA).comp hM
    have hae : ∀ᵐ s' ∂shrinkK conv q, M s' (far e j) = ν (far e j) :=
      ae_eq_of_forall_setLIntegral_eq_of_sigmaFinite hm measurable_const fun B hB _ => by
        rw [h _ B hA hB, setLIntegral_const]
    have hpos := Shared.ae_shrinkK_pos conv q
    have hex : ∀ k : ℕ, ∃ s', (M s' (far e j) = ν (far e j) ∧ Horseshoe.AllPos s') ∧
        s' ∈ small p (1 / ((k : ℝ) + 1)) := by
      intro k
      have hS : MeasurableSet (small p (1 / ((k : ℝ) + 1))) := by
        have : small p (1 / ((k : ℝ) + 1)) = ⋂ j, {s | s.1 j * s.2 < 1 / ((k : ℝ) + 1)} := by
          ext s
          simp [small]
        rw [this]
        exact MeasurableSet.iInter fun j => measurableSet_lt (by fun_prop) measurable_const
      have h0 : shrinkK conv q (small p (1 / ((k : ℝ) + 1))) ≠ 0 := fun h0 =>
        resClass_small (by positivity) ((Shared.shrinkK_null conv q hS).1 h0)
      have hf : ∃ᵐ s' ∂shrinkK conv q, s' ∈ small p (1 / ((k : ℝ) + 1)) :=
        frequently_ae_mem_iff.2 h0
      obtain ⟨s', h1, h2⟩ := (hf.and_eventually (hae.and hpos)).exists
      exact ⟨s', h2, h1⟩
    choose s hs hsm using hex
    have hz : ∀ i, Tendsto (fun k => (s k).1 i * (s k).2) atTop (𝓝 0) := fun i =>
      tendsto_of_tendsto_of_tendsto_of_le_of_le tendsto_const_nhds tendsto_one_div_add_atTop_nhds_zero_nat
        (fun k => (mul_pos ((hs k).2.1 i) (hs k).2.2).le) fun k => (hsm k i).le
    have ht := hc s (fun k => (hs k).2) hz e he
    simp only [(hs _).1] at ht
    exact tendsto_nhds_unique tendsto_const_nhds ht
  have h1 : ν {β | β j ≠ 0} = 0 := by
    have : {β : Fin p → ℝ | β j ≠ 0} ⊆ ⋃ k : ℕ, far (1 / ((k : ℝ) + 1)) j := by
      intro β hβ
      obtain ⟨k, hk⟩ := exists_nat_one_div_lt (abs_pos.2 hβ)
      exact Set.mem_iUnion.2 ⟨k, hk.le⟩
    exact measure_mono_null this (measure_iUnion_null fun k => hall _ (by positivity))
  have h2 : ν {β | β j = 0} = 0 := hν (by
    rw [volume_pi]
    exact Measure.pi_hyperplane _ j 0)
  refine hν0 (Measure.measure_univ_eq_zero.1 ?_)
  have : (Set.univ : Set (Fin p → ℝ)) = {β | β j ≠ 0} ∪ {β | β j = 0} := by
    ext β
    simp [em']
  rw [this]
  exact measure_union_null h1 h2

end Verif.Whole
