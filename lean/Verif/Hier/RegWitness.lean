import Verif.Hier.RegProps
import Verif.Hier.BetaProps

/-!
# The regression with random standard deviations: examples for C69
-/

open MeasureTheory ProbabilityTheory Filter Matrix
open scoped ENNReal Topology

namespace Verif.Hier.Reg

open Graph (Var constructSampler)
open Graph.RegHier (own ins obs n2o disc nuts)

variable {p : ℕ}

/-- Independent `Gamma(2, 1)` standard deviations. -/
noncomputable def gammas (p : ℕ) (s : Vec p) : ℝ≥0∞ := ENNReal.ofReal (∏ j, gammaPDFReal 2 1 (s j))

theorem posVecDensity_gammas (p : ℕ) : PosVecDensity (gammas p) := by
  have hg := posDensity_gamma one_lt_two one_pos
  have h0 : ∀ x, 0 ≤ gammaPDFReal 2 1 x := gammaPDFReal_nonneg two_pos one_pos
  have hpos : ∀ x, 0 < x → gammaPDFReal 2 1 x ≠ 0 := fun x hx e => hg.pos x hx (by
    change ENNReal.ofReal (gammaPDFReal 2 1 x) = 0
    rw [e, ENNReal.ofReal_zero])
  have hzero : ∀ x, x ≤ 0 → gammaPDFReal 2 1 x = 0 := fun x hx =>
    le_antisymm (ENNReal.ofReal_eq_zero.1 (hg.zero x hx)) (h0 x)
  have hm : Measurable (gammaPDFReal 2 1) := measurable_gammaPDFReal 2 1
  refine ⟨?_, ?_, fun s hs => ?_, fun s hs => ?_⟩
  · unfold gammas
    exact (Finset.measurable_prod _ fun j _ => hm.comp (measurable_pi_apply j)).ennreal_ofReal
  · have hp := isProbabilityMeasure_gammaMeasure (a := 2) (r := 1) two_pos one_pos
    have hi : Integrable (gammaPDFReal 2 1) := by
      refine ⟨hm.aestronglyMeasurable, ?_⟩
      rw [hasFiniteIntegral_iff_ofReal (ae_of_all _ h0)]
      have := hg.one
      change ∫⁻ t, ENNReal.ofReal (gammaPDFReal 2 1 t) = 1 at this
      rw [this]
      exact ENNReal.one_lt_top
    have hsf : ∀ _ : Fin p, SigmaFinite ((volume : Measure ℝ).withDensity fun x =>
        ENNReal.ofReal (gammaPDFReal 2 1 x)) := fun _ => by
      change SigmaFinite (gammaMeasure 2 1)
      infer_instance
    have e := pi_withDensity_ofReal (fun _ : Fin p => (volume : Measure ℝ)) (f := fun _ => gammaPDFReal 2 1)
      (fun _ => hi) (fun _ => h0)
    have h1 : (Measure.pi fun _ : Fin p => gammaMeasure 2 1) Set.univ = 1 := measure_univ
    change (Measure.pi fun _ : Fin p => (volume : Measure ℝ).withDensity fun x =>
      ENNReal.ofReal (gammaPDFReal 2 1 x)) Set.univ = 1 at h1
    rw [e, withDensity_apply _ MeasurableSet.univ, Measure.restrict_univ, ← volume_pi] at h1
    exact h1
  · push Not at hs
    obtain ⟨j, hj⟩ := hs
    rw [gammas, Finset.prod_eq_zero (Finset.mem_univ j) (hzero _ hj), ENNReal.ofReal_zero]
  · rw [gammas, ne_eq, ENNReal.ofReal_eq_zero, not_le]
    exact Finset.prod_pos fun j _ => lt_of_le_of_ne (h0 _) (hpos _ (hs j)).symm

/-- Counts 3 and 0, two regressors. -/
example : ∃ M : Meaning (gammas 2) (nbRegLik !![1, 2; 0, 1] ![1, 1] ![3, 0])
    (Whole.HsReg.nbLaw stdLinAlg !![1, 2; 0, 1] ![1, 1] ![3, 0]), ∃ out,
    ∃ new : Vec 2 × Vec 2 → M.Ω → Vec 2 × Vec 2,
    constructSampler own ins [0, 1, 2] obs n2o disc 20 id nuts = some out ∧
    (∀ ω q', M.Calls out (1, 0) ω q' ↔ q' = new (1, 0) ω) ∧
    ¬ Stationary (regPosterior (gammas 2) (nbRegLik !![1, 2; 0, 1] ![1, 1] ![3, 0]))
      (fun q => M.P.map (new q)) := by
  have hr : ∀ i, (0 : ℝ) < (![1, 1] : Fin 2 → ℝ) i := by
    intro i
    fin_cases i <;> simp
  obtain ⟨M⟩ := meaning_exists (gammas 2) (nbRegLik !![1, 2; 0, 1] ![1, 1] ![3, 0])
    (Whole.HsReg.nb_exists stdLinAlg_sound !![1, 2; 0, 1] hr ![3, 0])
  obtain ⟨out, new, h1, h2, -, -, h3, -⟩ := C69_nb_violated (posVecDensity_gammas 2) stdLinAlg hr
    ⟨0, by simp, fun e => by simpa using congrFun e 0⟩ M (order := id) fun _ => List.Perm.refl _
  exact ⟨M, out, new, h1, h2 (1, 0) fun _ => one_pos, h3⟩

/-- Two observations with the same regressor and different outcomes overlap. -/
theorem overlap_two : Overlap !![1; 1] ![true, false] := by
  refine ⟨fun e => by simpa using congrFun (congrFun e 0) 0, fun β hβ => ?_⟩
  have e : ∀ i, ((!![1; 1] : Matrix (Fin 2) (Fin 1) ℝ) *ᵥ β) i = β 0 := by
    intro i
    fin_cases i <;> simp [mulVec, dotProduct]
  have hβ0 : β 0 ≠ 0 := fun h0 => hβ (funext fun i => (e i).trans h0)
  rcases lt_or_gt_of_ne hβ0 with h | h
  · exact ⟨1, by simpa [e] using h⟩
  · exact ⟨0, by simpa [e] using h⟩

example : ∃ M : Meaning (gammas 1) (bernRegLik (fun ψ => sigmoid (-ψ)) !![1; 1] ![true, false])
    (Whole.HsReg.bernLaw stdLinAlg !![1; 1] ![true, false]), ∃ out,
    ∃ new : Vec 1 × Vec 1 → M.Ω → Vec 1 × Vec 1,
    constructSampler own ins [0, 1, 2] obs n2o disc 20 id nuts = some out ∧
    (∀ ω q', M.Calls out (1, 0) ω q' ↔ q' = new (1, 0) ω) ∧
    ¬ Stationary (regPosterior (gammas 1) (bernRegLik (fun ψ => sigmoid (-ψ)) !![1; 1] ![true, false]))
      (fun q => M.P.map (new q)) := by
  obtain ⟨M⟩ := meaning_exists (gammas 1) (bernRegLik (fun ψ => sigmoid (-ψ)) !![1; 1] ![true, false])
    (Whole.HsReg.bern_exists stdLinAlg_sound !![1; 1] ![true, false])
  obtain ⟨out, new, h1, h2, -, -, h3, -⟩ := C69_bern_violated (posVecDensity_gammas 1) stdLinAlg
    overlap_two M (order := id) fun _ => List.Perm.refl _
  exact ⟨M, out, new, h1, h2 (1, 0) fun _ => one_pos, h3⟩

theorem sigmoid_add_neg (x : ℝ) : sigmoid x + sigmoid (-x) = 1 := by
  unfold sigmoid
  rw [neg_neg, Real.exp_neg]
  have := Real.exp_pos x
  field_simp
  ring

/-- One binary observation says nothing about the standard deviations: its probability is a half. -/
theorem lintegral_one (X : Matrix (Fin 1) (Fin p) ℝ) (z : Fin 1 → Bool) {s : Vec p} (hs : ∀ j, 0 < s j) :
    ∫⁻ β, normDensity s β * bernRegLik (fun ψ => sigmoid (-ψ)) X z β = 2⁻¹ := by
  have hL := tame_bern X z
  have hn : Measurable (normDensity s) := by
    unfold normDensity gaussianPDFReal
    fun_prop
  have hm : Measurable fun β => normDensity s β * bernRegLik (fun ψ => sigmoid (-ψ)) X z β :=
    hn.mul hL.cont.measurable
  have e1 : ∫⁻ β, normDensity s β * bernRegLik (fun ψ => sigmoid (-ψ)) X z β =
      ∫⁻ β, normDensity s β * bernRegLik (fun ψ => sigmoid (-ψ)) X z (-β) := by
    rw [← lintegral_neg_eq_self]
    refine lintegral_congr fun β => ?_
    congr 1
    unfold normDensity gaussianPDFReal
    simp
  have e2 : ∀ β, bernRegLik (fun ψ => sigmoid (-ψ)) X z β + bernRegLik (fun ψ => sigmoid (-ψ)) X z (-β) = 1 := by
    intro β
    have hs0 : ∀ x, 0 ≤ sigmoid x := fun x => by unfold sigmoid; positivity
    have h1 := sigmoid_add_neg ((X *ᵥ β) 0)
    have h2 := hs0 ((X *ᵥ β) 0)
    have h3 := hs0 (-(X *ᵥ β) 0)
    simp only [bernRegLik, Finset.univ_unique, Fin.default_eq_zero, Finset.prod_singleton, mulVec_neg, Pi.neg_apply,
      neg_neg]
    rw [← ENNReal.ofReal_add (by split_ifs <;> linarith) (by split_ifs <;> linarith), ← ENNReal.ofReal_one]
    congr 1
    split_ifs <;> linarith
  have e3 : ∫⁻ β, normDensity s β = 1 := by
    have := lintegral_normalPrior (L := fun _ => 1) measurable_const hs
    have hp : IsProbabilityMeasure (normalPrior s) := by
      unfold normalPrior
      infer_instance
    simpa using this.symm
  have e4 : 2 * ∫⁻ β, normDensity s β * bernRegLik (fun ψ => sigmoid (-ψ)) X z β = 1 := by
    rw [two_mul]
    nth_rewrite 2 [e1]
    rw [← lintegral_add_left hm, ← e3]
    refine lintegral_congr fun β => ?_
    rw [← mul_add, e2, mul_one]
  rw [mul_comm] at e4
  exact ENNReal.eq_inv_of_mul_eq_one_left e4

/-- `C69_scales_iff_partial` on one binary observation: the standard deviations are right. -/
example (X : Matrix (Fin 1) (Fin 2) ℝ) : ∃ M : Meaning (gammas 2) (bernRegLik (fun ψ => sigmoid (-ψ)) X ![true])
    (Whole.HsReg.bernLaw stdLinAlg X ![true]), ∃ out, ∃ new : Vec 2 × Vec 2 → M.Ω → Vec 2 × Vec 2,
    constructSampler own ins [0, 1, 2] obs n2o disc 20 id nuts = some out ∧
    ∀ S, MeasurableSet S → Tendsto (fun k => calls (fun q => M.P.map (new q)) k (1, 0) {q' | q'.1 ∈ S}) atTop
      (𝓝 (regPosterior (gammas 2) (bernRegLik (fun ψ => sigmoid (-ψ)) X ![true]) {q' | q'.1 ∈ S})) := by
  obtain ⟨M⟩ := meaning_exists (gammas 2) (bernRegLik (fun ψ => sigmoid (-ψ)) X ![true])
    (Whole.HsReg.bern_exists stdLinAlg_sound X ![true])
  obtain ⟨out, new, h1, -, h2⟩ := C69_scales_iff_partial (posVecDensity_gammas 2) (tame_bern X ![true]) M
    (order := id) fun _ => List.Perm.refl _
  exact ⟨M, out, new, h1, h2.2 ⟨2⁻¹, fun s hs => lintegral_one X _ hs⟩ (1, 0) fun _ => one_pos⟩

end Verif.Hier.Reg
