import Verif.Whole.SeqHs

/-!
# The calls that are single steps one after the other
-/

open MeasureTheory ProbabilityTheory Matrix
open scoped ENNReal

namespace Verif.Whole

section Pair

variable {A B : Type*} [MeasurableSpace A] [MeasurableSpace B] {k₁ : A × B → Measure A} {k₂ : A × B → Measure B}

theorem runAll_two {Θ : Type*} [MeasurableSpace Θ] (K L : Θ → Measure Θ) (q : Θ) :
    runAll [K, L] q = (K q).bind L := by
  simp only [runAll, Measure.bind_dirac]

theorem measurable_pairSecond (h : Measurable k₂) (h' : ∀ q, IsProbabilityMeasure (k₂ q)) (q : A × B) :
    Measurable fun a => (k₂ (a, q.2)).map fun b => (a, b) :=
  measurable_map_param (K := fun a => k₂ (a, q.2)) (h.comp measurable_prodMk_right) (fun _ => h' _)
    (g := fun v : A × B => (v.1, v.2)) (by fun_prop)

theorem measurable_pairFirst (h : Measurable k₁) (h' : ∀ q, IsProbabilityMeasure (k₁ q)) (q : A × B) :
    Measurable fun b => (k₁ (q.1, b)).map fun a => (a, b) :=
  measurable_map_param (K := fun b => k₁ (q.1, b)) (h.comp measurable_prodMk_left) (fun _ => h' _)
    (g := fun v : B × A => (v.2, v.1)) (by fun_prop)

/-- First block first. -/
theorem runAll_first (h₂ : Measurable k₂) (h₂' : ∀ q, IsProbabilityMeasure (k₂ q)) (q : A × B) :
    runAll [onFirst k₁, onSecond k₂] q = (k₁ q).bind fun a => (k₂ (a, q.2)).map fun b => (a, b) := by
  have hm := measurable_onSecond h₂ h₂'
  rw [runAll_two]
  refine Measure.ext fun E hE => ?_
  rw [Measure.bind_apply hE hm.aemeasurable, onFirst, lintegral_map (f := fun x => onSecond k₂ x E)
    ((Measure.measurable_coe hE).comp hm) measurable_prodMk_right, Measure.bind_apply hE (measurable_pairSecond h₂ h₂' q).aemeasurable]
  rfl

/-- Second block first. -/
theorem runAll_second (h₁ : Measurable k₁) (h₁' : ∀ q, IsProbabilityMeasure (k₁ q)) (q : A × B) :
    runAll [onSecond k₂, onFirst k₁] q = (k₂ q).bind fun b => (k₁ (q.1, b)).map fun a => (a, b) := by
  have hm := measurable_onFirst h₁ h₁'
  rw [runAll_two]
  refine Measure.ext fun E hE => ?_
  rw [Measure.bind_apply hE hm.aemeasurable, onSecond, lintegral_map (f := fun x => onFirst k₁ x E)
    ((Measure.measurable_coe hE).comp hm) measurable_prodMk_left, Measure.bind_apply hE (measurable_pairFirst h₁ h₁' q).aemeasurable]
  rfl

/-- First block first, if the second does not depend on it. -/
theorem runAll_swap (h₂ : Measurable k₂) (h₂' : ∀ q, IsProbabilityMeasure (k₂ q))
    (h₁' : ∀ q, IsProbabilityMeasure (k₁ q)) (hind : ∀ a a' b, k₂ (a, b) = k₂ (a', b)) (q : A × B) :
    runAll [onFirst k₁, onSecond k₂] q = (k₂ q).bind fun b => (k₁ q).map fun a => (a, b) := by
  have := h₁' q
  have := h₂' q
  have hm : Measurable fun b => (k₁ q).map fun a => (a, b) :=
    measurable_map_param (K := fun _ : B => k₁ q) measurable_const (fun _ => h₁' _)
      (g := fun v : B × A => (v.2, v.1)) (by fun_prop)
  rw [runAll_first h₂ h₂']
  refine Measure.ext fun E hE => ?_
  rw [Measure.bind_apply hE (measurable_pairSecond h₂ h₂' q).aemeasurable, Measure.bind_apply hE hm.aemeasurable]
  have hi : Measurable (E.indicator (1 : A × B → ℝ≥0∞)) := measurable_one.indicator hE
  have e1 : ∀ a, ((k₂ (a, q.2)).map fun b => (a, b)) E = ∫⁻ b, E.indicator 1 (a, b) ∂k₂ q := by
    intro a
    rw [hind a q.1 q.2, ← lintegral_indicator_one hE, lintegral_map hi measurable_prodMk_left]
  have e2 : ∀ b, ((k₁ q).map fun a => (a, b)) E = ∫⁻ a, E.indicator 1 (a, b) ∂k₁ q := by
    intro b
    rw [← lintegral_indicator_one hE, lintegral_map hi measurable_prodMk_right]
  simp only [e1, e2]
  exact lintegral_lintegral_swap (f := fun a b => E.indicator (1 : A × B → ℝ≥0∞) (a, b)) hi.aemeasurable

end Pair

section NbReg

variable {p n : ℕ}

open NbReg (coefK dispK measurable_coefK prob_coefK measurable_dispK prob_dispK)

theorem ae_dispK_pos {a b : ℝ} (ha : 0 < a) (hb : 0 < b) (X : Matrix (Fin n) (Fin p) ℝ) (y : Fin n → ℕ)
    (q : (Fin p → ℝ) × ℝ) : ∀ᵐ h ∂dispK X a b y q, 0 < h := by
  rw [ae_iff]
  have : {h : ℝ | ¬ 0 < h} = Set.Iic 0 := by
    ext h
    simp
  rw [NbReg.dispK_null ha hb, this, volPos, Measure.restrict_apply measurableSet_Iic, Set.Iic_inter_Ioi,
    Set.Ioc_self, measure_empty]

theorem nbCoef_on {la : LinAlg} (hla : la.Sound) {std : Fin p → ℝ} (hs : ∀ j, 0 < std j)
    (X : Matrix (Fin n) (Fin p) ℝ) (y : Fin n → ℕ) :
    StepOn {q : (Fin p → ℝ) × ℝ | 0 < q.2} (NbReg.coefStep la std X y)
      (onFirst (coefK (fun j => (std j)⁻¹) X y)) where
  meas := measurable_onFirst (measurable_coefK _ X y) (prob_coefK (fun j => inv_pos.2 (hs j)) X y)
  prob q := by
    have := prob_coefK (fun j => inv_pos.2 (hs j)) X y q
    exact Measure.isProbabilityMeasure_map measurable_prodMk_right.aemeasurable
  eq q hq := by rw [NbReg.coefStep, NbReg.coefK_eq hla hs X y hq, onFirst]
  stays q hq := by
    refine (ae_map_iff (p := fun q => q ∈ {q : (Fin p → ℝ) × ℝ | 0 < q.2}) (by fun_prop)
      (measurable_snd measurableSet_Ioi)).2 ?_
    exact ae_of_all _ fun _ => hq

theorem nbDisp_on {a b : ℝ} (ha : 0 < a) (hb : 0 < b) (X : Matrix (Fin n) (Fin p) ℝ) (y : Fin n → ℕ) :
    StepOn {q : (Fin p → ℝ) × ℝ | 0 < q.2} (NbReg.dispersionStep X a b y) (onSecond (dispK X a b y)) where
  meas := measurable_onSecond (measurable_dispK X a b y) (prob_dispK X ha hb y)
  prob q := by
    have := prob_dispK X ha hb y q
    exact Measure.isProbabilityMeasure_map measurable_prodMk_left.aemeasurable
  eq q hq := by rw [NbReg.dispersionStep, NbReg.dispK_eq X a b y hq, onSecond]
  stays q _ := by
    refine (ae_map_iff (p := fun q => q ∈ {q : (Fin p → ℝ) × ℝ | 0 < q.2}) (by fun_prop)
      (measurable_snd measurableSet_Ioi)).2 ?_
    exact ae_dispK_pos ha hb X y q

/-- The call is the step of the coefficients followed by the step of the dispersion. -/
theorem nb_seq {la : LinAlg} (hla : la.Sound) {std : Fin p → ℝ} (hs : ∀ j, 0 < std j) {a b : ℝ} (ha : 0 < a)
    (hb : 0 < b) (X : Matrix (Fin n) (Fin p) ℝ) (y : Fin n → ℕ) {q : (Fin p → ℝ) × ℝ} (hq : 0 < q.2) :
    NbReg.sweep la std X a b y q =
      runAll [NbReg.coefStep la std X y, NbReg.dispersionStep X a b y] q := by
  rw [runAll_eq (.cons (nbCoef_on hla hs X y) (.cons (nbDisp_on ha hb X y) .nil)) q hq, runAll_two,
    (NbReg.sweep_runs hla hs ha hb X y).eq q hq]
  rfl

end NbReg

section Shared

variable {p₁ p₂ : ℕ}

open HsReg (shrinkK measurable_shrinkK prob_shrinkK)

/-- Law of the new `λ₁`. -/
noncomputable def locK (conv : Horseshoe.ExpArg) (β₁ : Fin p₁ → ℝ) (q : (Fin p₁ → ℝ) × ((Fin p₂ → ℝ) × ℝ)) :
    Measure (Fin p₁ → ℝ) := (shrinkK conv (β₁, (q.1, q.2.2))).map Prod.fst

/-- Law of the new `(λ₂, τ)`. -/
noncomputable def gloK (conv : Horseshoe.ExpArg) (β₂ : Fin p₂ → ℝ) (q : (Fin p₁ → ℝ) × ((Fin p₂ → ℝ) × ℝ)) :
    Measure ((Fin p₂ → ℝ) × ℝ) := shrinkK conv (β₂, q.2)

/-- The step of `(λ₂, τ)` alone: the kernel of the second group (`/repo/aemcmc/gibbs.py:293-308`); `λ₁` is
kept. -/
noncomputable def pairStep (conv : Horseshoe.ExpArg) (β₂ : Fin p₂ → ℝ)
    (q : (Fin p₁ → ℝ) × ((Fin p₂ → ℝ) × ℝ)) : Measure ((Fin p₁ → ℝ) × ((Fin p₂ → ℝ) × ℝ)) :=
  (Horseshoe.horseshoeStep conv β₂ q.2).map fun s => (q.1, s)

theorem measurable_locK (conv : Horseshoe.ExpArg) (β₁ : Fin p₁ → ℝ) : Measurable (locK (p₂ := p₂) conv β₁) :=
  (Measure.measurable_map _ measurable_fst).comp ((measurable_shrinkK conv).comp (by fun_prop))

theorem prob_locK (conv : Horseshoe.ExpArg) (β₁ : Fin p₁ → ℝ) (q : (Fin p₁ → ℝ) × ((Fin p₂ → ℝ) × ℝ)) :
    IsProbabilityMeasure (locK conv β₁ q) := by
  have := prob_shrinkK conv (β₁, (q.1, q.2.2))
  exact Measure.isProbabilityMeasure_map measurable_fst.aemeasurable

theorem measurable_gloK (conv : Horseshoe.ExpArg) (β₂ : Fin p₂ → ℝ) : Measurable (gloK (p₁ := p₁) conv β₂) :=
  (measurable_shrinkK conv).comp (by fun_prop)

theorem loc_on (conv : Horseshoe.ExpArg) (β₁ : Fin p₁ → ℝ) :
    StepOn {q : (Fin p₁ → ℝ) × ((Fin p₂ → ℝ) × ℝ) | Shared.Pos q} (Shared.localStep conv β₁)
      (onFirst (locK conv β₁)) where
  meas := measurable_onFirst (measurable_locK conv β₁) (prob_locK conv β₁)
  prob q := by
    have := prob_locK conv β₁ q
    exact Measure.isProbabilityMeasure_map measurable_prodMk_right.aemeasurable
  eq q hq := by
    rw [Shared.localStep, HsReg.shrinkK_eq conv β₁ (s := (q.1, q.2.2)) ⟨hq.1, hq.2.2⟩, onFirst, locK,
      Measure.map_map (by fun_prop) (by fun_prop)]
    rfl
  stays q hq := by
    refine (ae_map_iff (p := fun q => q ∈ {q | Shared.Pos q}) (by fun_prop) Shared.measurableSet_Pos).2 ?_
    refine (ae_map_iff (p := fun a => (a, q.2) ∈ {q | Shared.Pos q}) (by fun_prop)
      (measurable_prodMk_right Shared.measurableSet_Pos)).2 ?_
    filter_upwards [Shared.ae_shrinkK_pos conv (β₁, (q.1, q.2.2))] with s hs using ⟨hs.1, hq.2⟩

theorem pair_on (conv : Horseshoe.ExpArg) (β₂ : Fin p₂ → ℝ) :
    StepOn {q : (Fin p₁ → ℝ) × ((Fin p₂ → ℝ) × ℝ) | Shared.Pos q} (pairStep conv β₂)
      (onSecond (gloK conv β₂)) where
  meas := measurable_onSecond (measurable_gloK conv β₂) (fun q => prob_shrinkK conv (β₂, q.2))
  prob q := by
    have : IsProbabilityMeasure (gloK conv β₂ q) := prob_shrinkK conv (β₂, q.2)
    exact Measure.isProbabilityMeasure_map measurable_prodMk_left.aemeasurable
  eq q hq := by rw [pairStep, HsReg.shrinkK_eq conv β₂ hq.2, onSecond, gloK]
  stays q hq := by
    refine (ae_map_iff (p := fun q => q ∈ {q | Shared.Pos q}) (by fun_prop) Shared.measurableSet_Pos).2 ?_
    filter_upwards [Shared.ae_shrinkK_pos conv (β₂, q.2)] with s hs using ⟨hq.1, hs⟩

/-- With `τ` first the call is the step of `(λ₂, τ)` followed by the step of `λ₁`. -/
theorem shared_seq_global (conv : Horseshoe.ExpArg) (β₁ : Fin p₁ → ℝ) (β₂ : Fin p₂ → ℝ)
    {q : (Fin p₁ → ℝ) × ((Fin p₂ → ℝ) × ℝ)} (hq : Shared.Pos q) :
    Shared.sharedStep conv .globalFirst β₁ β₂ q = runAll [pairStep conv β₂, Shared.localStep conv β₁] q := by
  rw [runAll_eq (.cons (pair_on conv β₂) (.cons (loc_on conv β₁) .nil)) q hq,
    runAll_second (measurable_locK conv β₁) (prob_locK conv β₁), Shared.sharedK_eq _ _ _ _ hq, Shared.sharedK]
  refine Measure.bind_congr_right (ae_of_all _ fun s => ?_)
  dsimp only
  rw [locK, Measure.map_map (by fun_prop) (by fun_prop)]
  rfl

/-- With `λ₁` first the call is the step of `λ₁` followed by the step of `(λ₂, τ)`. -/
theorem shared_seq_local (conv : Horseshoe.ExpArg) (β₁ : Fin p₁ → ℝ) (β₂ : Fin p₂ → ℝ)
    {q : (Fin p₁ → ℝ) × ((Fin p₂ → ℝ) × ℝ)} (hq : Shared.Pos q) :
    Shared.sharedStep conv .localFirst β₁ β₂ q = runAll [Shared.localStep conv β₁, pairStep conv β₂] q := by
  rw [runAll_eq (.cons (loc_on conv β₁) (.cons (pair_on conv β₂) .nil)) q hq,
    runAll_swap (measurable_gloK conv β₂) (fun q => prob_shrinkK conv (β₂, q.2)) (prob_locK conv β₁)
      (fun _ _ _ => rfl), Shared.sharedK_eq _ _ _ _ hq, Shared.sharedK]
  refine Measure.bind_congr_right (ae_of_all _ fun s => ?_)
  dsimp only
  rw [locK, Measure.map_map (by fun_prop) (by fun_prop)]
  rfl

end Shared

end Verif.Whole
