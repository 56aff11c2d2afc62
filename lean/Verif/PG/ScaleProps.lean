import Verif.Mvn.SpreadProps
import Verif.PG.NearProps

/-!
# C101: rounding the prior scales hardly changes the next draws (regressions)
-/

open MeasureTheory ProbabilityTheory Matrix Filter
open scoped ENNReal Topology

namespace Verif

variable {p n : ℕ}

theorem continuous_quad (Q : Matrix (Fin p) (Fin p) ℝ) (m : Fin p → ℝ) :
    Continuous fun x : Fin p → ℝ => Real.exp (-((x - m) ⬝ᵥ Q *ᵥ (x - m)) / 2) := by
  have : Continuous fun x : Fin p → ℝ => (x - m) ⬝ᵥ Q *ᵥ (x - m) :=
    (continuous_id.sub continuous_const).dotProduct
      (continuous_const.matrix_mulVec (continuous_id.sub continuous_const))
  fun_prop

theorem mvn_const {Q : Matrix (Fin p) (Fin p) ℝ} (hQ : Q.PosDef) :
    Integrable (fun x : Fin p → ℝ => Real.exp (-(x ⬝ᵥ Q *ᵥ x) / 2)) ∧
    0 < ∫ x : Fin p → ℝ, Real.exp (-(x ⬝ᵥ Q *ᵥ x) / 2) ∧
    ∀ m, mvn m Q⁻¹ = volume.withDensity fun x => ENNReal.ofReal
      ((∫ x : Fin p → ℝ, Real.exp (-(x ⬝ᵥ Q *ᵥ x) / 2))⁻¹ * Real.exp (-((x - m) ⬝ᵥ Q *ᵥ (x - m)) / 2)) := by
  have key : ∀ m, ∃ c : ℝ, 0 < c ∧ Integrable (fun x : Fin p → ℝ => Real.exp (-((x - m) ⬝ᵥ Q *ᵥ (x - m)) / 2)) ∧
      c * (∫ x : Fin p → ℝ, Real.exp (-(x ⬝ᵥ Q *ᵥ x) / 2)) = 1 ∧ mvn m Q⁻¹ = volume.withDensity fun x =>
        ENNReal.ofReal (c * Real.exp (-((x - m) ⬝ᵥ Q *ᵥ (x - m)) / 2)) := by
    intro m
    obtain ⟨c, hc, h⟩ := mvn_eq_withDensity m hQ
    have h1 : ∫⁻ x, ENNReal.ofReal (c * Real.exp (-((x - m) ⬝ᵥ Q *ᵥ (x - m)) / 2)) = 1 := by
      have : mvn m Q⁻¹ Set.univ = 1 := measure_univ
      rwa [h, withDensity_apply _ MeasurableSet.univ, Measure.restrict_univ] at this
    have h0 : ∀ x : Fin p → ℝ, 0 ≤ c * Real.exp (-((x - m) ⬝ᵥ Q *ᵥ (x - m)) / 2) := fun x =>
      (mul_pos hc (Real.exp_pos _)).le
    have hmeas : AEStronglyMeasurable (fun x : Fin p → ℝ => c * Real.exp (-((x - m) ⬝ᵥ Q *ᵥ (x - m)) / 2)) :=
      (continuous_const.mul (continuous_quad Q m)).aestronglyMeasurable
    have hi : Integrable (fun x : Fin p → ℝ => c * Real.exp (-((x - m) ⬝ᵥ Q *ᵥ (x - m)) / 2)) := by
      refine ⟨hmeas, ?_⟩
      rw [hasFiniteIntegral_iff_ofReal (ae_of_all _ h0), h1]
      exact ENNReal.one_lt_top
    have h2 : ∫ x, c * Real.exp (-((x - m) ⬝ᵥ Q *ᵥ (x - m)) / 2) = 1 := by
      rw [integral_eq_lintegral_of_nonneg_ae (ae_of_all _ h0) hmeas, h1, ENNReal.toReal_one]
    refine ⟨c, hc, (integrable_const_mul_iff (isUnit_iff_ne_zero.2 hc.ne') _).1 hi, ?_, h⟩
    rw [integral_const_mul] at h2
    rwa [integral_sub_right_eq_self (fun x : Fin p → ℝ => Real.exp (-(x ⬝ᵥ Q *ᵥ x) / 2)) m] at h2
  obtain ⟨c, hc, hi, hI, -⟩ := key 0
  have hpos : 0 < ∫ x : Fin p → ℝ, Real.exp (-(x ⬝ᵥ Q *ᵥ x) / 2) := by
    by_contra hn
    nlinarith [mul_nonneg hc.le (neg_nonneg.2 (not_lt.1 hn))]
  refine ⟨by simpa using hi, hpos, fun m => ?_⟩
  obtain ⟨c', hc', -, hI', h⟩ := key m
  rw [h, eq_inv_of_mul_eq_one_left hI']

/-- A normal law whose precision matrix is changed by a factor between 1 and `exp η`, the vector that is
solved for staying the same. -/
theorem near_mvn_prec {η B : ℝ} (hη : 0 ≤ η) {Q Q' : Matrix (Fin p) (Fin p) ℝ} (hQ : Q.PosDef) (hQ' : Q'.PosDef)
    (hle : ∀ x, x ⬝ᵥ Q' *ᵥ x ≤ x ⬝ᵥ Q *ᵥ x) (hge : ∀ x, x ⬝ᵥ Q *ᵥ x ≤ Real.exp η * (x ⬝ᵥ Q' *ᵥ x))
    (c : Fin p → ℝ) (hB : c ⬝ᵥ (Q'⁻¹ *ᵥ c) ≤ B) :
    Near (ENNReal.ofReal (η * (p + B) / 2)) (mvn (Q⁻¹ *ᵥ c) Q⁻¹) (mvn (Q'⁻¹ *ᵥ c) Q'⁻¹) := by
  obtain ⟨hi, hI, h⟩ := mvn_const hQ
  obtain ⟨hi', hI', h'⟩ := mvn_const hQ'
  have hB0 : 0 ≤ c ⬝ᵥ (Q'⁻¹ *ᵥ c) := by
    simpa using hQ'.inv.posSemidef.dotProduct_mulVec_nonneg c
  have hp : IsProbabilityMeasure (mvn (Q⁻¹ *ᵥ c) Q⁻¹) := inferInstance
  rw [h] at hp ⊢
  rw [h']
  -- the constants
  have hconst : Real.exp (-(η * p / 2)) * (∫ x : Fin p → ℝ, Real.exp (-(x ⬝ᵥ Q *ᵥ x) / 2))⁻¹ ≤
      (∫ x : Fin p → ℝ, Real.exp (-(x ⬝ᵥ Q' *ᵥ x) / 2))⁻¹ := by
    have hs := Measure.integral_comp_smul (volume : Measure (Fin p → ℝ))
      (fun x : Fin p → ℝ => Real.exp (-(x ⬝ᵥ Q' *ᵥ x) / 2)) (Real.exp (η / 2))
    have hsq : Real.exp (η / 2) * Real.exp (η / 2) = Real.exp η := by rw [← Real.exp_add]; ring_nf
    have hs2 : ∀ x : Fin p → ℝ, Real.exp (-((Real.exp (η / 2) • x) ⬝ᵥ Q' *ᵥ (Real.exp (η / 2) • x)) / 2) =
        Real.exp (-(Real.exp η * (x ⬝ᵥ Q' *ᵥ x)) / 2) := fun x => by
      rw [mulVec_smul, smul_dotProduct, dotProduct_smul, smul_eq_mul, smul_eq_mul, ← mul_assoc, hsq]
    have hi2 := (integrable_comp_smul_iff (volume : Measure (Fin p → ℝ))
      (fun x : Fin p → ℝ => Real.exp (-(x ⬝ᵥ Q' *ᵥ x) / 2)) (Real.exp_pos (η / 2)).ne').2 hi'
    simp only [hs2] at hs hi2
    have hpow : |(Real.exp (η / 2) ^ Module.finrank ℝ (Fin p → ℝ))⁻¹| = Real.exp (-(η * p / 2)) := by
      rw [Module.finrank_fin_fun, ← Real.exp_nat_mul, ← Real.exp_neg, abs_of_pos (Real.exp_pos _)]
      ring_nf
    rw [hpow, smul_eq_mul] at hs
    have hmono : Real.exp (-(η * p / 2)) * (∫ x : Fin p → ℝ, Real.exp (-(x ⬝ᵥ Q' *ᵥ x) / 2)) ≤
        ∫ x : Fin p → ℝ, Real.exp (-(x ⬝ᵥ Q *ᵥ x) / 2) := by
      rw [← hs]
      refine integral_mono hi2 hi fun x => Real.exp_le_exp.2 ?_
      have := hge x
      linarith
    rw [← div_eq_mul_inv, div_le_iff₀ hI, ← div_eq_inv_mul, le_div_iff₀ hI']
    exact hmono
  -- the exponents
  have hsol : ∀ {Q : Matrix (Fin p) (Fin p) ℝ}, Q.PosDef → Q *ᵥ (Q⁻¹ *ᵥ c) = c := fun h => by
    rw [mulVec_mulVec, mul_nonsing_inv _ (isUnit_iff_ne_zero.2 h.det_pos.ne'), one_mulVec]
  have hexp : ∀ {Q : Matrix (Fin p) (Fin p) ℝ}, Q.PosDef → ∀ x, (x - Q⁻¹ *ᵥ c) ⬝ᵥ Q *ᵥ (x - Q⁻¹ *ᵥ c) =
      x ⬝ᵥ Q *ᵥ x - 2 * (c ⬝ᵥ x) + c ⬝ᵥ (Q⁻¹ *ᵥ c) := by
    intro Q hQ x
    have hsymm : ∀ u v, u ⬝ᵥ (Q *ᵥ v) = v ⬝ᵥ (Q *ᵥ u) := fun u v => by
      have := hQ.isHermitian.eq
      rw [conjTranspose_eq_transpose_of_trivial] at this
      rw [dotProduct_mulVec, ← mulVec_transpose, this, dotProduct_comm]
    rw [mulVec_sub, sub_dotProduct, dotProduct_sub, dotProduct_sub, hsymm (Q⁻¹ *ᵥ c) x, hsol hQ,
      dotProduct_comm x c, dotProduct_comm (Q⁻¹ *ᵥ c) c]
    ring
  have hinv : c ⬝ᵥ (Q'⁻¹ *ᵥ c) - c ⬝ᵥ (Q⁻¹ *ᵥ c) ≤ η * B := by
    have hE : (Real.exp η • Q').PosDef := hQ'.smul (Real.exp_pos η)
    have h1 := inv_quad_le hQ hE c
    have h2 : (Real.exp η • Q')⁻¹ = Real.exp (-η) • Q'⁻¹ := by
      refine Matrix.inv_eq_right_inv ?_
      rw [smul_mul_smul_comm, mul_nonsing_inv _ (isUnit_iff_ne_zero.2 hQ'.det_pos.ne'), ← Real.exp_add,
        add_neg_cancel, Real.exp_zero, one_smul]
    have h3 := hge ((Real.exp η • Q')⁻¹ *ᵥ c)
    rw [smul_mulVec (Real.exp η) Q', dotProduct_smul, smul_eq_mul] at h1
    have h5 : Real.exp (-η) * (c ⬝ᵥ (Q'⁻¹ *ᵥ c)) ≤ c ⬝ᵥ (Q⁻¹ *ᵥ c) := by
      have e : c ⬝ᵥ ((Real.exp η • Q')⁻¹ *ᵥ c) = Real.exp (-η) * (c ⬝ᵥ (Q'⁻¹ *ᵥ c)) := by
        rw [h2, smul_mulVec, dotProduct_smul, smul_eq_mul]
      rw [← e]
      linarith
    have h4 := Real.add_one_le_exp (-η)
    nlinarith
  refine near_withDensity ((continuous_const.mul (continuous_quad Q _)).measurable)
    (by have := hB0.trans hB; positivity) (Eventually.of_forall fun x => ?_)
  rw [hexp hQ, hexp hQ']
  have hx := hle x
  calc _ = (Real.exp (-(η * p / 2)) * (∫ x : Fin p → ℝ, Real.exp (-(x ⬝ᵥ Q *ᵥ x) / 2))⁻¹) *
        (Real.exp (-(η * B / 2)) * Real.exp (-(x ⬝ᵥ Q *ᵥ x - 2 * (c ⬝ᵥ x) + c ⬝ᵥ (Q⁻¹ *ᵥ c)) / 2)) := by
        rw [show -(η * (p + B) / 2) = -(η * p / 2) + -(η * B / 2) by ring, Real.exp_add]
        ring
    _ ≤ _ := by
      refine mul_le_mul hconst ?_ (by positivity) (by positivity)
      rw [← Real.exp_add]
      apply Real.exp_le_exp.2
      linarith

theorem near_normalRegression {la : LinAlg} (hla : la.Sound) {η : ℝ} (hη : 0 ≤ η) {d d' : Fin p → ℝ}
    (hd : ∀ j, 0 < d j) (hd' : ∀ j, 0 < d' j) (h1 : ∀ j, d j ≤ Real.exp η * d' j)
    (h2 : ∀ j, d' j ≤ Real.exp η * d j) (X : Matrix (Fin n) (Fin p) ℝ) (κ : Fin n → ℝ) {w : Fin n → ℝ}
    (hw : ∀ i, 0 < w i) :
    Near (ENNReal.ofReal (η * (p + ∑ j, (Xᵀ *ᵥ κ) j ^ 2 * ((d j)⁻¹ + (d' j)⁻¹) / 2)))
      (normalRegression la w d X fun i => κ i / w i) (normalRegression la w d' X fun i => κ i / w i) := by
  have hκ : (diagonal w *ᵥ fun i => κ i / w i) = κ := by
    ext i
    rw [mulVec_diagonal, mul_div_cancel₀ _ (hw i).ne']
  have hP : (Xᵀ * diagonal w * X).PosSemidef := by
    have := (PosSemidef.diagonal (fun i => (hw i).le)).conjTranspose_mul_mul_same X
    rwa [conjTranspose_eq_transpose_of_trivial] at this
  have hone : 1 ≤ Real.exp η := Real.one_le_exp hη
  have key : ∀ {d e : Fin p → ℝ}, (∀ j, 0 < d j) → (∀ j, d j ≤ e j) → (∀ j, e j ≤ Real.exp η * d j) →
      Near (ENNReal.ofReal (η * (p + ∑ j, (Xᵀ *ᵥ κ) j ^ 2 * (d j)⁻¹) / 2))
        (normalRegression la w e X fun i => κ i / w i) (normalRegression la w d X fun i => κ i / w i) := by
    intro d e hd hde hed
    have he : ∀ j, 0 < e j := fun j => (hd j).trans_le (hde j)
    have hQd : (diagonal d + Xᵀ * diagonal w * X).PosDef := (PosDef.diagonal hd).add_posSemidef hP
    have hQe : (diagonal e + Xᵀ * diagonal w * X).PosDef := (PosDef.diagonal he).add_posSemidef hP
    rw [normalRegression_law hla hw hd, normalRegression_law hla hw he, hκ]
    refine near_mvn_prec hη hQe hQd (fun x => ?_) (fun x => ?_) _ ?_
    · rw [quad_regression, quad_regression]
      gcongr with j
      exact hde j
    · rw [quad_regression, quad_regression, mul_add, Finset.mul_sum, Finset.mul_sum]
      refine add_le_add (Finset.sum_le_sum fun i _ => ?_) (Finset.sum_le_sum fun j _ => ?_)
      · exact le_mul_of_one_le_left (mul_nonneg (hw i).le (sq_nonneg _)) hone
      · rw [← mul_assoc]
        exact mul_le_mul_of_nonneg_right (hed j) (sq_nonneg _)
    · have h0 := inv_quad_le (PosDef.diagonal hd) hQd (Xᵀ *ᵥ κ)
      have h3 : ∀ u : Fin p → ℝ, u ⬝ᵥ (diagonal d *ᵥ u) ≤ u ⬝ᵥ ((diagonal d + Xᵀ * diagonal w * X) *ᵥ u) := fun u => by
        rw [add_mulVec, dotProduct_add]
        have := hP.dotProduct_mulVec_nonneg u
        rw [star_trivial] at this
        linarith
      have h4 := h3 ((diagonal d + Xᵀ * diagonal w * X)⁻¹ *ᵥ (Xᵀ *ᵥ κ))
      have h5 : (Xᵀ *ᵥ κ) ⬝ᵥ ((diagonal d)⁻¹ *ᵥ (Xᵀ *ᵥ κ)) = ∑ j, (Xᵀ *ᵥ κ) j ^ 2 * (d j)⁻¹ := by
        have e : (diagonal d)⁻¹ = diagonal fun j => (d j)⁻¹ := by
          refine Matrix.inv_eq_right_inv ?_
          rw [diagonal_mul_diagonal, ← diagonal_one]
          congr 1
          funext j
          exact mul_inv_cancel₀ (hd j).ne'
        rw [e, dotProduct]
        refine Finset.sum_congr rfl fun j _ => ?_
        rw [mulVec_diagonal]
        ring
      linarith
  have hm : ∀ j, 0 < max (d j) (d' j) := fun j => lt_max_of_lt_left (hd j)
  have k1 := key (e := fun j => max (d j) (d' j)) hd (fun j => le_max_left _ _) fun j =>
    max_le (le_mul_of_one_le_left (hd j).le hone) (h2 j)
  have k2 := key (e := fun j => max (d j) (d' j)) hd' (fun j => le_max_right _ _) fun j =>
    max_le (h1 j) (le_mul_of_one_le_left (hd' j).le hone)
  have hprob : ∀ {d : Fin p → ℝ}, (∀ j, 0 < d j) →
      IsProbabilityMeasure (normalRegression la w d X fun i => κ i / w i) := fun hd => by
    rw [normalRegression_law hla hw hd]
    infer_instance
  have := hprob hd
  have := hprob hm
  refine (k1.symm.trans k2).mono (le_of_eq ?_)
  have hs : ∀ {d : Fin p → ℝ}, (∀ j, 0 < d j) → 0 ≤ ∑ j, (Xᵀ *ᵥ κ) j ^ 2 * (d j)⁻¹ := fun hd =>
    Finset.sum_nonneg fun j _ => mul_nonneg (sq_nonneg _) (inv_pos.2 (hd j)).le
  have s1 := hs hd
  have s2 := hs hd'
  rw [← ENNReal.ofReal_add (by positivity) (by positivity)]
  congr 1
  have : ∑ j, (Xᵀ *ᵥ κ) j ^ 2 * ((d j)⁻¹ + (d' j)⁻¹) / 2 =
      (∑ j, (Xᵀ *ᵥ κ) j ^ 2 * (d j)⁻¹ + ∑ j, (Xᵀ *ᵥ κ) j ^ 2 * (d' j)⁻¹) / 2 := by
    rw [← Finset.sum_add_distrib, Finset.sum_div]
    exact Finset.sum_congr rfl fun j _ => by ring
  rw [this]
  ring

theorem near_pgStep_scales {la : LinAlg} (hla : la.Sound) {η : ℝ} (hη : 0 ≤ η) {d d' : Fin p → ℝ}
    (hd : ∀ j, 0 < d j) (hd' : ∀ j, 0 < d' j) (h1 : ∀ j, d j ≤ Real.exp η * d' j)
    (h2 : ∀ j, d' j ≤ Real.exp η * d j) (X : Matrix (Fin n) (Fin p) ℝ) {b : Fin n → ℝ} (κ : Fin n → ℝ)
    (hb : ∀ i, 0 < b i) (β : Fin p → ℝ) :
    Near (ENNReal.ofReal (η * (p + ∑ j, (Xᵀ *ᵥ κ) j ^ 2 * ((d j)⁻¹ + (d' j)⁻¹) / 2)))
      (pgStep la d X b κ β) (pgStep la d' X b κ β) := by
  have hae : ∀ᵐ w ∂(Measure.pi fun i => pg (b i) ((X *ᵥ β) i)), ∀ i, 0 < w i := by
    rw [pi_pg_eq_withDensity hb]
    exact (withDensity_absolutelyContinuous _ _).ae_le (ae_pi_pg0_pos hb)
  have hstep : ∀ {d : Fin p → ℝ}, (∀ j, 0 < d j) → pgStep la d X b κ β =
      (Measure.pi fun i => pg (b i) ((X *ᵥ β) i)).bind fun w =>
        bayes (mvn 0 (diagonal d)⁻¹) fun β => pgJoint X κ β w := by
    intro d hd
    rw [pgStep]
    refine Measure.bind_congr_right ?_
    filter_upwards [hae] with w hw
    exact (normalRegression_eq_bayes hla hd X κ hw).2
  rw [hstep hd, hstep hd']
  have : ∀ i, IsProbabilityMeasure (pg (b i) ((X *ᵥ β) i)) := fun i => isProbabilityMeasure_pg (hb i) _
  refine Near.bind_right (measurable_bayes_pgJoint d X κ) (measurable_bayes_pgJoint d' X κ) ?_
  filter_upwards [hae] with w hw
  rw [← (normalRegression_eq_bayes hla hd X κ hw).2, ← (normalRegression_eq_bayes hla hd' X κ hw).2]
  exact near_normalRegression hla hη hd hd' h1 h2 X κ hw

theorem near_calls_kernels {Θ : Type*} [MeasurableSpace Θ] {e : ℝ≥0∞} {K K' : Θ → Measure Θ} (hK : Measurable K)
    (hK' : Measurable K') (hp : ∀ x, IsProbabilityMeasure (K x)) (hp' : ∀ x, IsProbabilityMeasure (K' x))
    (h : ∀ x, Near e (K x) (K' x)) (x : Θ) : ∀ k : ℕ, Near (k * e) (calls K k x) (calls K' k x)
  | 0 => by
    intro g _ _
    simp [calls]
  | k + 1 => by
    have := prob_calls hK' hp' k x
    have h1 := (near_calls_kernels hK hK' hp hp' h x k).bind hK fun y => by
      have := hp y
      exact measure_univ.le
    refine (h1.trans (Near.bind_right hK hK' (ae_of_all _ h))).mono (le_of_eq ?_)
    push_cast
    ring

theorem pgStep_scales_real {la : LinAlg} (hla : la.Sound) {η : ℝ} (hη : 0 ≤ η) {s s' : Fin p → ℝ}
    (hs : ∀ j, 0 < s j) (hs' : ∀ j, 0 < s' j) (h1 : ∀ j, s j ≤ Real.exp η * s' j)
    (h2 : ∀ j, s' j ≤ Real.exp η * s j) (X : Matrix (Fin n) (Fin p) ℝ) {b : Fin n → ℝ} (κ : Fin n → ℝ)
    (hb : ∀ i, 0 < b i) (β : Fin p → ℝ) (k : ℕ) {A : Set (Fin p → ℝ)} (hA : MeasurableSet A) :
    |(calls (pgStep la (fun j => (s j)⁻¹) X b κ) k β).real A -
      (calls (pgStep la (fun j => (s' j)⁻¹) X b κ) k β).real A| ≤
        k * (η * (p + ∑ j, (∑ i, X i j * κ i) ^ 2 * (s j + s' j) / 2)) := by
  have hinv : ∀ {x y : ℝ}, 0 < x → 0 < y → x ≤ Real.exp η * y → y⁻¹ ≤ Real.exp η * x⁻¹ := fun {x y} hx hy h => by
    rw [← div_eq_mul_inv, le_div_iff₀ hx, ← div_eq_inv_mul, div_le_iff₀ hy]
    exact h
  obtain ⟨hm, hp, -⟩ := pgStep_minor hla (fun j => inv_pos.2 (hs j)) X κ hb
  obtain ⟨hm', hp', -⟩ := pgStep_minor hla (fun j => inv_pos.2 (hs' j)) X κ hb
  have h := near_calls_kernels hm hm' hp hp' (near_pgStep_scales hla hη (fun j => inv_pos.2 (hs j))
    (fun j => inv_pos.2 (hs' j)) (fun j => hinv (hs' j) (hs j) (h2 j)) (fun j => hinv (hs j) (hs' j) (h1 j))
    X κ hb) β k
  simp only [inv_inv] at h
  have h0 : 0 ≤ η * (p + ∑ j, (Xᵀ *ᵥ κ) j ^ 2 * (s j + s' j) / 2) :=
    mul_nonneg hη (add_nonneg (Nat.cast_nonneg _) (Finset.sum_nonneg fun j _ => by
      have := (hs j).le
      have := (hs' j).le
      positivity))
  rw [← ENNReal.ofReal_natCast, ← ENNReal.ofReal_mul (Nat.cast_nonneg k)] at h
  have := prob_calls hm hp k β
  have := prob_calls hm' hp' k β
  exact h.real (mul_nonneg (Nat.cast_nonneg k) h0) hA

/-- **C101, prior scales of a negative-binomial regression.** Two regressions that differ in the prior scales
of the coefficients only, by relative errors of at most `η`: started at the same coefficients, the
probabilities of every event differ after `k` calls by at most
`k η (p + ∑_j (∑_i x_ij (y_i - h_i) / 2)² (s_j + s'_j) / 2)`. -/
theorem C101_nbinom_scales {la : LinAlg} (hla : la.Sound) {η : ℝ} (hη : 0 ≤ η) {s s' : Fin p → ℝ}
    (hs : ∀ j, 0 < s j) (hs' : ∀ j, 0 < s' j) (h1 : ∀ j, s j ≤ Real.exp η * s' j)
    (h2 : ∀ j, s' j ≤ Real.exp η * s j) (X : Matrix (Fin n) (Fin p) ℝ) {h : Fin n → ℝ} (hh : ∀ i, 0 < h i)
    (y : Fin n → ℕ) (β : Fin p → ℝ) (k : ℕ) {A : Set (Fin p → ℝ)} (hA : MeasurableSet A) :
    |(calls (nbinomNormalPosterior la s X h y) k β).real A -
      (calls (nbinomNormalPosterior la s' X h y) k β).real A| ≤
        k * (η * (p + ∑ j, (∑ i, X i j * (0.5 * ((y i : ℝ) - h i))) ^ 2 * (s j + s' j) / 2)) := by
  have hb : ∀ i, 0 < (y i : ℝ) + h i := fun i => by have := hh i; positivity
  rw [nbinomNormalPosterior_eq, nbinomNormalPosterior_eq]
  exact pgStep_scales_real hla hη hs hs' h1 h2 X _ hb β k hA

/-- **C101, prior scales of a logistic regression.** The same with `y_i - 1/2` for `(y_i - h_i) / 2`. -/
theorem C101_bern_scales {la : LinAlg} (hla : la.Sound) {η : ℝ} (hη : 0 ≤ η) {s s' : Fin p → ℝ}
    (hs : ∀ j, 0 < s j) (hs' : ∀ j, 0 < s' j) (h1 : ∀ j, s j ≤ Real.exp η * s' j)
    (h2 : ∀ j, s' j ≤ Real.exp η * s j) (X : Matrix (Fin n) (Fin p) ℝ)
    (y : Fin n → Bool) (β : Fin p → ℝ) (k : ℕ) {A : Set (Fin p → ℝ)} (hA : MeasurableSet A) :
    |(calls (bernNormalPosterior la s X y) k β).real A - (calls (bernNormalPosterior la s' X y) k β).real A| ≤
        k * (η * (p + ∑ j, (∑ i, X i j * (boolVal (y i) - 0.5)) ^ 2 * (s j + s' j) / 2)) := by
  rw [bernNormalPosterior_eq, bernNormalPosterior_eq]
  exact pgStep_scales_real hla hη hs hs' h1 h2 X _ (fun _ => one_pos) β k hA

/-- Three observations, of which two are successes, and a prior scale that is off by one in a thousand. -/
example (β : Fin 1 → ℝ) {A : Set (Fin 1 → ℝ)} (hA : MeasurableSet A) :
    |(calls (bernNormalPosterior stdLinAlg (fun _ => 2) (fun _ _ => 1) ![true, true, false]) 10 β).real A -
      (calls (bernNormalPosterior stdLinAlg (fun _ => 2.002) (fun _ _ => 1) ![true, true, false]) 10 β).real A| ≤
        0.016 := by
  have h1 := Real.add_one_le_exp (0.001 : ℝ)
  refine (C101_bern_scales stdLinAlg_sound (η := 0.001) (by norm_num) (fun _ => two_pos) (fun _ => by norm_num)
    (fun _ => by linarith) (fun _ => by linarith) _ _ _ 10 hA).trans ?_
  simp only [Fin.sum_univ_three, boolVal, show ![true, true, false] (2 : Fin 3) = false from rfl]
  norm_num

end Verif
