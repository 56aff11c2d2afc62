import Verif.HsReg.ScaleProps

/-!
# C101: small changes of the current values, whichever shrinkage parameters are read
-/

open MeasureTheory ProbabilityTheory Matrix Filter
open scoped ENNReal Topology

namespace Verif

theorem near_one {Θ : Type*} [MeasurableSpace Θ] (μ μ' : Measure Θ) [IsProbabilityMeasure μ] : Near 1 μ μ' := by
  intro g _ h1
  calc ∫⁻ x, g x ∂μ ≤ ∫⁻ _, 1 ∂μ := lintegral_mono h1
    _ = 1 := by simp
    _ ≤ _ := le_add_self

/-- Kernels whose distance depends on the point. -/
theorem Near.bind_right_of {Θ Ω : Type*} [MeasurableSpace Θ] [MeasurableSpace Ω] {e : Θ → ℝ≥0∞}
    (he : Measurable e) {μ : Measure Θ} {κ κ' : Θ → Measure Ω} (hκ : Measurable κ) (hκ' : Measurable κ')
    (h : ∀ᵐ x ∂μ, Near (e x) (κ x) (κ' x)) : Near (∫⁻ x, e x ∂μ) (μ.bind κ) (μ.bind κ') := by
  intro g hg h1
  rw [Measure.lintegral_bind hκ.aemeasurable hg.aemeasurable,
    Measure.lintegral_bind hκ'.aemeasurable hg.aemeasurable]
  calc ∫⁻ x, ∫⁻ y, g y ∂κ x ∂μ ≤ ∫⁻ x, (∫⁻ y, g y ∂κ' x + e x) ∂μ :=
        lintegral_mono_ae (h.mono fun x hx => hx g hg h1)
    _ = _ := lintegral_add_right _ he

namespace HsReg

open Horseshoe (RelClose)

variable {p n : ℕ}

/-- Spec.  The prior scales the call reads, from the old parameters `o` and the new ones `s`. -/
noncomputable def readScale (rd : Reads) (o s : (Fin p → ℝ) × ℝ) (j : Fin p) : ℝ :=
  (rd.read o s).1 j * (rd.read o s).2

theorem near_readK_cont {la : LinAlg} (hla : la.Sound) {X : Matrix (Fin n) (Fin p) ℝ} {b κ : Fin n → ℝ}
    (hb : ∀ i, 0 < b i) {η : ℝ} (hη : 0 ≤ η) (hη1 : η ≤ 1) (conv : Horseshoe.ExpArg) (rd : Reads)
    {q q' : (Fin p → ℝ) × ((Fin p → ℝ) × ℝ)}
    (hq : Horseshoe.AllPos q.2) (hq' : Horseshoe.AllPos q'.2) (hβ : ∀ j, RelClose η |q.1 j| |q'.1 j|)
    (hl : ∀ j, RelClose η (q.2.1 j) (q'.2.1 j)) (ht : RelClose η q.2.2 q'.2.2) :
    Near (ENNReal.ofReal ((13 * p + 5) * η) + (ENNReal.ofReal (∑ i, b i * |(X *ᵥ (q.1 - q'.1)) i| / 2) +
        ∫⁻ s, min 1 (ENNReal.ofReal ((η + η) * (p + ∑ j, (∑ i, X i j * κ i) ^ 2 *
          ((Real.exp 2 + 1) * readScale rd q'.2 s j) / 2))) ∂shrinkK conv q'))
      (readK conv rd (coefK X b κ) q) (readK conv rd (coefK X b κ) q') := by
  have hm := measurable_readInner rd (measurable_coefK X b κ) (prob_coefK X b κ)
  have hm1 : ∀ q, Measurable fun s => readInner rd (coefK X b κ) (q, s) := fun q =>
    hm.comp measurable_prodMk_left
  have hd : ∀ {s : (Fin p → ℝ) × ℝ}, Horseshoe.AllPos s → ∀ j, 0 < (s.1 j * s.2)⁻¹ := fun hs j =>
    inv_pos.2 (mul_pos (hs.1 j) hs.2)
  have hmeasS : Measurable fun s : (Fin p → ℝ) × ℝ => min 1 (ENNReal.ofReal ((η + η) *
      (p + ∑ j, (∑ i, X i j * κ i) ^ 2 * ((Real.exp 2 + 1) * readScale rd q'.2 s j) / 2))) := by
    have h1 : ∀ j, Measurable fun s : (Fin p → ℝ) × ℝ => readScale rd q'.2 s j := fun j => by
      unfold readScale Reads.read
      dsimp only
      split_ifs <;> fun_prop
    refine measurable_const.min (ENNReal.measurable_ofReal.comp ?_)
    refine measurable_const.mul (measurable_const.add (Finset.measurable_sum _ fun j _ => ?_))
    exact (measurable_const.mul (measurable_const.mul (h1 j))).div_const _
  have hp' := prob_shrinkK conv q'
  rw [readK, readK]
  refine Near.trans ((near_shrinkK hη conv hq hq' hβ hl ht).bind (hm1 q) fun s => ?_) ?_
  · have := prob_coefK X b κ (q.1, rd.read q.2 s)
    rw [readInner, Measure.map_apply (by fun_prop) MeasurableSet.univ, Set.preimage_univ, measure_univ]
  · have hc : ∫⁻ _, ENNReal.ofReal (∑ i, b i * |(X *ᵥ (q.1 - q'.1)) i| / 2) ∂shrinkK conv q' =
        ENNReal.ofReal (∑ i, b i * |(X *ᵥ (q.1 - q'.1)) i| / 2) := by
      rw [lintegral_const, measure_univ, mul_one]
    rw [← hc, ← lintegral_add_left measurable_const]
    refine Near.bind_right_of (measurable_const.add hmeasS) (hm1 q) (hm1 q') ?_
    filter_upwards [Shared.ae_shrinkK_pos conv q'] with s hs
    rw [readInner, readInner]
    dsimp only
    refine Near.map ?_ (by fun_prop)
    have hpos := read_pos rd hq hs
    have hpos' := read_pos rd hq' hs
    have hr1 : ∀ j, RelClose η ((rd.read q.2 s).1 j) ((rd.read q'.2 s).1 j) := fun j => by
      unfold Reads.read
      dsimp only
      split_ifs
      · exact Horseshoe.relClose_self hη (hs.1 j).le
      · exact hl j
    have hr2 : RelClose η (rd.read q.2 s).2 (rd.read q'.2 s).2 := by
      unfold Reads.read
      dsimp only
      split_ifs
      · exact Horseshoe.relClose_self hη hs.2.le
      · exact ht
    have hrel : ∀ j, RelClose (η + η) ((rd.read q.2 s).1 j * (rd.read q.2 s).2)
        ((rd.read q'.2 s).1 j * (rd.read q'.2 s).2) := fun j =>
      (hr1 j).mul hr2 (hpos.1 j).le (hpos'.1 j).le hpos.2.le hpos'.2.le
    have hinv : ∀ j, RelClose (η + η) ((rd.read q.2 s).1 j * (rd.read q.2 s).2)⁻¹
        ((rd.read q'.2 s).1 j * (rd.read q'.2 s).2)⁻¹ := fun j =>
      (hrel j).inv (mul_pos (hpos.1 j) hpos.2) (mul_pos (hpos'.1 j) hpos'.2)
    have key : Near (ENNReal.ofReal ((η + η) * (p + ∑ j, (∑ i, X i j * κ i) ^ 2 *
          ((Real.exp 2 + 1) * readScale rd q'.2 s j) / 2)))
        (coefK X b κ (q'.1, rd.read q.2 s)) (coefK X b κ (q'.1, rd.read q'.2 s)) := by
      rw [← coefK_eq hla X hb κ hpos, ← coefK_eq hla X hb κ hpos']
      have := near_pgStep_scales hla (add_nonneg hη hη) (hd hpos) (hd hpos') (fun j => (hinv j).1)
        (fun j => (hinv j).2) X κ hb q'.1
      simp only [inv_inv] at this
      refine this.mono (ENNReal.ofReal_le_ofReal ?_)
      refine mul_le_mul_of_nonneg_left ?_ (add_nonneg hη hη)
      refine add_le_add le_rfl (Finset.sum_le_sum fun j _ => ?_)
      have h0 : 0 < (rd.read q'.2 s).1 j * (rd.read q'.2 s).2 := mul_pos (hpos'.1 j) hpos'.2
      have h2 : Real.exp (η + η) ≤ Real.exp 2 := Real.exp_le_exp.2 (by linarith)
      have h3 := (hrel j).1
      have h4 : (rd.read q.2 s).1 j * (rd.read q.2 s).2 + (rd.read q'.2 s).1 j * (rd.read q'.2 s).2 ≤
          (Real.exp 2 + 1) * readScale rd q'.2 s j := by
        unfold readScale
        nlinarith
      have h5 : 0 ≤ (∑ i, X i j * κ i) ^ 2 := sq_nonneg _
      have h6 := mul_le_mul_of_nonneg_left h4 h5
      simp only [mulVec, dotProduct, transpose_apply]
      linarith
    have hp1 := prob_coefK X b κ (q'.1, rd.read q.2 s)
    refine Near.trans (μ' := coefK X b κ (q'.1, rd.read q.2 s)) ?_ ?_
    · rw [← coefK_eq hla X hb κ hpos, ← coefK_eq hla X hb κ hpos]
      exact near_pgStep hla (hd hpos) X κ hb q.1 q'.1
    · beta_reduce
      rcases min_cases (1 : ℝ≥0∞) (ENNReal.ofReal ((η + η) * (p + ∑ j, (∑ i, X i j * κ i) ^ 2 *
          ((Real.exp 2 + 1) * readScale rd q'.2 s j) / 2))) with h | h
      · rw [h.1]
        exact near_one _ _
      · rw [h.1]
        exact key

theorem tendsto_readScale (conv : Horseshoe.ExpArg) (q' : (Fin p → ℝ) × ((Fin p → ℝ) × ℝ))
    {G : (Fin p → ℝ) × ℝ → ℝ} (hG : Measurable G) :
    Tendsto (fun k : ℕ => ∫⁻ s, min 1 (ENNReal.ofReal ((1 / ((k : ℝ) + 1) + 1 / ((k : ℝ) + 1)) * G s)) ∂shrinkK conv q')
      atTop (𝓝 0) := by
  have hp' := prob_shrinkK conv q'
  have h := tendsto_lintegral_of_dominated_convergence (μ := shrinkK conv q')
    (F := fun (k : ℕ) s => min 1 (ENNReal.ofReal ((1 / ((k : ℝ) + 1) + 1 / ((k : ℝ) + 1)) * G s)))
    (f := fun _ => 0) (fun _ => 1)
    (fun k => measurable_const.min (ENNReal.measurable_ofReal.comp (measurable_const.mul hG)))
    (fun k => ae_of_all _ fun s => min_le_left _ _) (by simp) (ae_of_all _ fun s => ?_)
  · simpa using h
  · have h1 := tendsto_one_div_add_atTop_nhds_zero_nat (𝕜 := ℝ)
    have h2 := ENNReal.tendsto_ofReal ((h1.add h1).mul_const (G s))
    simp only [add_zero, zero_mul, ENNReal.ofReal_zero] at h2
    have h3 := (tendsto_const_nhds (x := (1 : ℝ≥0∞))).min h2
    simpa using h3

/-- The bound for the step of the coefficients, for all reads. -/
theorem cont_readK {la : LinAlg} (hla : la.Sound) {X : Matrix (Fin n) (Fin p) ℝ} {b κ : Fin n → ℝ}
    (hb : ∀ i, 0 < b i) (conv : Horseshoe.ExpArg) (rd : Reads) {q' : (Fin p → ℝ) × ((Fin p → ℝ) × ℝ)}
    (hq' : Horseshoe.AllPos q'.2) {ε : ℝ} (hε : 0 < ε) :
    ∃ δ : ℝ, 0 < δ ∧ ∀ q : (Fin p → ℝ) × ((Fin p → ℝ) × ℝ), Horseshoe.AllPos q.2 →
      (∀ j, RelClose δ |q.1 j| |q'.1 j|) → (∀ j, RelClose δ (q.2.1 j) (q'.2.1 j)) → RelClose δ q.2.2 q'.2.2 →
      Near (ENNReal.ofReal (ε + ∑ i, b i * |(X *ᵥ (q.1 - q'.1)) i| / 2))
        (readK conv rd (coefK X b κ) q) (readK conv rd (coefK X b κ) q') := by
  have hG : Measurable fun s : (Fin p → ℝ) × ℝ => (p : ℝ) + ∑ j, (∑ i, X i j * κ i) ^ 2 *
      ((Real.exp 2 + 1) * readScale rd q'.2 s j) / 2 := by
    have h1 : ∀ j, Measurable fun s : (Fin p → ℝ) × ℝ => readScale rd q'.2 s j := fun j => by
      unfold readScale Reads.read
      dsimp only
      split_ifs <;> fun_prop
    refine measurable_const.add (Finset.measurable_sum _ fun j _ => ?_)
    exact (measurable_const.mul (measurable_const.mul (h1 j))).div_const _
  have h2 := tendsto_readScale conv q' hG
  have h1 := ENNReal.tendsto_ofReal ((tendsto_one_div_add_atTop_nhds_zero_nat (𝕜 := ℝ)).const_mul
    ((13 * p + 5 : ℝ)))
  rw [mul_zero, ENNReal.ofReal_zero] at h1
  have h3 := h1.add h2
  rw [add_zero] at h3
  obtain ⟨k, hk⟩ := ((tendsto_order.1 h3).2 (ENNReal.ofReal ε) (ENNReal.ofReal_pos.2 hε)).exists
  have hk0 : (0 : ℝ) < 1 / ((k : ℝ) + 1) := by positivity
  have hk1 : 1 / ((k : ℝ) + 1) ≤ 1 := by
    rw [div_le_one (by positivity)]
    linarith [(Nat.cast_nonneg k : (0 : ℝ) ≤ k)]
  refine ⟨1 / ((k : ℝ) + 1), hk0, fun q hq hβ hl ht => ?_⟩
  refine (near_readK_cont hla hb hk0.le hk1 conv rd hq hq' hβ hl ht).mono ?_
  rw [ENNReal.ofReal_add hε.le (Finset.sum_nonneg fun i _ => by have := (hb i).le; positivity), add_left_comm,
    add_comm (ENNReal.ofReal ε)]
  gcongr

/-- **C101, negative-binomial regression with a horseshoe prior, whichever parameters are read.** For each
current state and each `ε` there is a relative error below which the probabilities of all events, after every
number of calls, change by at most `ε` in addition to `∑ (y_i + h_i) |x_i (β - β')| / 2`.  Missing: a factor
known in advance where one old shrinkage parameter is read together with a new one. -/
theorem C101_nbinom_horseshoe_reads_partial {la : LinAlg} (hla : la.Sound) (X : Matrix (Fin n) (Fin p) ℝ)
    {h : Fin n → ℝ} (hh : ∀ i, 0 < h i) (y : Fin n → ℕ) (conv : Horseshoe.ExpArg) (rd : Reads)
    {q' : (Fin p → ℝ) × ((Fin p → ℝ) × ℝ)} (hq' : Horseshoe.AllPos q'.2) {ε : ℝ} (hε : 0 < ε) :
    ∃ δ : ℝ, 0 < δ ∧ ∀ q : (Fin p → ℝ) × ((Fin p → ℝ) × ℝ), Horseshoe.AllPos q.2 →
      (∀ j, RelClose δ |q.1 j| |q'.1 j|) → (∀ j, RelClose δ (q.2.1 j) (q'.2.1 j)) → RelClose δ q.2.2 q'.2.2 →
      ∀ (k : ℕ) (A : Set ((Fin p → ℝ) × ((Fin p → ℝ) × ℝ))), MeasurableSet A →
      |(calls (nbSweep conv rd la X h y) (k + 1) q).real A -
        (calls (nbSweep conv rd la X h y) (k + 1) q').real A| ≤
          ε + ∑ i, ((y i : ℝ) + h i) * |(X *ᵥ (q.1 - q'.1)) i| / 2 := by
  have hb : ∀ i, 0 < (y i : ℝ) + h i := fun i => by have := hh i; positivity
  have r : Runs {q | Horseshoe.AllPos q.2} (nbSweep conv rd la X h y) _ :=
    sweep_runs hla (nbForm X hh y).some conv rd
  obtain ⟨δ, hδ, H⟩ := cont_readK hla hb (X := X) (κ := fun i => 0.5 * ((y i : ℝ) - h i)) conv rd hq' hε
  refine ⟨δ, hδ, fun q hq hβ hl ht k A hA => ?_⟩
  rw [r.calls_eq hq, r.calls_eq hq']
  exact near_real_calls (add_nonneg hε.le (Finset.sum_nonneg fun i _ => by have := (hb i).le; positivity))
    r.meas r.prob (H q hq hβ hl ht) k hA

/-- **C101, logistic regression with a horseshoe prior, whichever parameters are read.** The same with
`∑ |x_i (β - β')| / 2`. -/
theorem C101_bern_horseshoe_reads_partial {la : LinAlg} (hla : la.Sound) (X : Matrix (Fin n) (Fin p) ℝ)
    (y : Fin n → Bool) (conv : Horseshoe.ExpArg) (rd : Reads)
    {q' : (Fin p → ℝ) × ((Fin p → ℝ) × ℝ)} (hq' : Horseshoe.AllPos q'.2) {ε : ℝ} (hε : 0 < ε) :
    ∃ δ : ℝ, 0 < δ ∧ ∀ q : (Fin p → ℝ) × ((Fin p → ℝ) × ℝ), Horseshoe.AllPos q.2 →
      (∀ j, RelClose δ |q.1 j| |q'.1 j|) → (∀ j, RelClose δ (q.2.1 j) (q'.2.1 j)) → RelClose δ q.2.2 q'.2.2 →
      ∀ (k : ℕ) (A : Set ((Fin p → ℝ) × ((Fin p → ℝ) × ℝ))), MeasurableSet A →
      |(calls (bernSweep conv rd la X y) (k + 1) q).real A -
        (calls (bernSweep conv rd la X y) (k + 1) q').real A| ≤ ε + ∑ i, |(X *ᵥ (q.1 - q'.1)) i| / 2 := by
  have r : Runs {q | Horseshoe.AllPos q.2} (bernSweep conv rd la X y) _ :=
    sweep_runs hla (bernForm X y).some conv rd
  obtain ⟨δ, hδ, H⟩ := cont_readK hla (b := fun _ : Fin n => (1 : ℝ)) (fun _ => one_pos) (X := X)
    (κ := fun i => boolVal (y i) - 0.5) conv rd hq' hε
  refine ⟨δ, hδ, fun q hq hβ hl ht k A hA => ?_⟩
  rw [r.calls_eq hq, r.calls_eq hq']
  have := H q hq hβ hl ht
  simp only [one_mul] at this
  exact near_real_calls (add_nonneg hε.le (Finset.sum_nonneg fun i _ => by positivity)) r.meas r.prob this k hA

/-- The new local parameters read with the old global one. -/
example (y : Fin 3 → Bool) : ∃ δ : ℝ, 0 < δ ∧ ∀ t : ℝ, 0 < t → RelClose δ t 3 → ∀ (k : ℕ)
    (A : Set ((Fin 1 → ℝ) × ((Fin 1 → ℝ) × ℝ))), MeasurableSet A →
    |(calls (bernSweep .scale ⟨true, false⟩ stdLinAlg (fun _ _ => 1) y) (k + 1) (fun _ => 1, fun _ => 2, t)).real A -
      (calls (bernSweep .scale ⟨true, false⟩ stdLinAlg (fun _ _ => 1) y) (k + 1) (fun _ => 1, fun _ => 2, 3)).real A| ≤
        0.01 := by
  obtain ⟨δ, hδ, H⟩ := C101_bern_horseshoe_reads_partial stdLinAlg_sound (fun _ _ => 1) y .scale ⟨true, false⟩
    (q' := ((fun _ => 1 : Fin 1 → ℝ), fun _ => 2, 3)) ⟨fun _ => two_pos, three_pos⟩ (ε := 0.01) (by norm_num)
  refine ⟨δ, hδ, fun t ht hc k A hA => ?_⟩
  refine (H (fun _ => 1, fun _ => 2, t) ⟨fun _ => two_pos, ht⟩
    (fun _ => Horseshoe.relClose_self hδ.le (abs_nonneg _)) (fun _ => Horseshoe.relClose_self hδ.le zero_le_two)
    hc k A hA).trans ?_
  simp [mulVec, dotProduct]

end HsReg

end Verif
