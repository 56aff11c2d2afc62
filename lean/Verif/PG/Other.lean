import Verif.PG.Props

/-!
# Lemmas: the Polya-gamma step when the coefficients have other observed children
-/

open MeasureTheory ProbabilityTheory Matrix
open scoped ENNReal

namespace Verif

/-- Two posteriors agree iff their unnormalised densities are proportional. -/
theorem bayes_withDensity_eq_iff {Θ : Type*} [MeasurableSpace Θ] {m : Measure Θ} [SigmaFinite m]
    {f₁ f₂ l₁ l₂ : Θ → ℝ≥0∞} (hf₁ : Measurable f₁) (hf₂ : Measurable f₂) (hl₁ : Measurable l₁)
    (hl₂ : Measurable l₂) (hd₁ : BayesDefined (m.withDensity f₁) l₁)
    (hd₂ : BayesDefined (m.withDensity f₂) l₂) :
    bayes (m.withDensity f₁) l₁ = bayes (m.withDensity f₂) l₂ ↔
      ∃ c : ℝ≥0∞, c ≠ 0 ∧ c ≠ ∞ ∧ ∀ᵐ x ∂m, f₁ x * l₁ x = c * (f₂ x * l₂ x) := by
  have hw₁ : (m.withDensity f₁).withDensity l₁ = m.withDensity fun x => f₁ x * l₁ x :=
    (withDensity_mul _ hf₁ hl₁).symm
  have hw₂ : (m.withDensity f₂).withDensity l₂ = m.withDensity fun x => f₂ x * l₂ x :=
    (withDensity_mul _ hf₂ hl₂).symm
  have hi₁ : ∫⁻ x, l₁ x ∂m.withDensity f₁ = ∫⁻ x, f₁ x * l₁ x ∂m :=
    lintegral_withDensity_eq_lintegral_mul _ hf₁ hl₁
  have hi₂ : ∫⁻ x, l₂ x ∂m.withDensity f₂ = ∫⁻ x, f₂ x * l₂ x ∂m :=
    lintegral_withDensity_eq_lintegral_mul _ hf₂ hl₂
  have hm₁ : Measurable fun x => f₁ x * l₁ x := hf₁.mul hl₁
  have hm₂ : Measurable fun x => f₂ x * l₂ x := hf₂.mul hl₂
  unfold BayesDefined at hd₁ hd₂
  rw [hi₁] at hd₁
  rw [hi₂] at hd₂
  rw [bayes, bayes, hw₁, hw₂, hi₁, hi₂]
  constructor
  · intro h
    rw [← withDensity_smul _ hm₁, ← withDensity_smul _ hm₂] at h
    have hfin : ∫⁻ x, ((∫⁻ x, f₁ x * l₁ x ∂m)⁻¹ • fun x => f₁ x * l₁ x) x ∂m ≠ ∞ := by
      simp only [Pi.smul_apply, smul_eq_mul]
      rw [lintegral_const_mul _ hm₁]
      exact ENNReal.mul_ne_top (ENNReal.inv_ne_top.2 hd₁.1) hd₁.2
    have h' := (withDensity_eq_iff (hm₁.const_smul _).aemeasurable (hm₂.const_smul _).aemeasurable
      hfin).1 h
    refine ⟨(∫⁻ x, f₁ x * l₁ x ∂m) * (∫⁻ x, f₂ x * l₂ x ∂m)⁻¹,
      mul_ne_zero hd₁.1 (ENNReal.inv_ne_zero.2 hd₂.2),
      ENNReal.mul_ne_top hd₁.2 (ENNReal.inv_ne_top.2 hd₂.1), ?_⟩
    filter_upwards [h'] with x hx
    simp only [Pi.smul_apply, smul_eq_mul] at hx
    rw [mul_assoc, ← hx, ← mul_assoc, ENNReal.mul_inv_cancel hd₁.1 hd₁.2, one_mul]
  · rintro ⟨c, hc0, hc, h⟩
    have hi : ∫⁻ x, f₁ x * l₁ x ∂m = c * ∫⁻ x, f₂ x * l₂ x ∂m := by
      rw [lintegral_congr_ae h, lintegral_const_mul _ hm₂]
    have hw : (m.withDensity fun x => f₁ x * l₁ x) = c • m.withDensity fun x => f₂ x * l₂ x := by
      rw [← withDensity_smul _ hm₂]
      exact withDensity_congr_ae h
    rw [hi, hw, smul_smul, ENNReal.mul_inv (Or.inl hc0) (Or.inl hc), mul_comm c⁻¹, mul_assoc,
      ENNReal.inv_mul_cancel hc0 hc, mul_one]

section

variable {p n : ℕ}

/-- What separates the prior the step uses (variances `std`) from the model's (variances `std²`). -/
noncomputable def priorGap (std β : Fin p → ℝ) : ℝ := ∑ j, ((std j ^ 2)⁻¹ - (std j)⁻¹) * β j ^ 2 / 2

theorem continuous_priorGap (std : Fin p → ℝ) : Continuous (priorGap std) := by
  unfold priorGap
  fun_prop

theorem normalPrior_density {std : Fin p → ℝ} (hs : ∀ j, 0 < std j) :
    ∃ c : ℝ, 0 < c ∧ normalPrior std = volume.withDensity
      (fun x => ENNReal.ofReal (c * Real.exp (-(∑ j, (std j ^ 2)⁻¹ * x j ^ 2) / 2))) := by
  obtain ⟨c, hc, h⟩ := mvn_eq_withDensity (0 : Fin p → ℝ)
    (Q := diagonal fun j => (std j ^ 2)⁻¹) (PosDef.diagonal fun j => inv_pos.2 (pow_pos (hs j) 2))
  refine ⟨c, hc, ?_⟩
  rw [normalPrior_eq_mvn hs, h]
  congr 1
  ext x
  congr 4
  simp only [sub_zero, dotProduct, mulVec_diagonal]
  congr 1
  exact Finset.sum_congr rfl fun j _ => by ring

/-- The step called with `1/std` leaves the posterior given the regression and any other likelihood `L`
invariant exactly when `L` makes up for the difference. -/
theorem pgStep_other_iff {la : LinAlg} (hla : la.Sound) {std : Fin p → ℝ}
    (hs : ∀ j, 0 < std j) (X : Matrix (Fin n) (Fin p) ℝ) {b κ : Fin n → ℝ} (hb : ∀ i, 0 < b i)
    (hκ : ∀ i, |κ i| ≤ b i / 2) {c : ℝ} (hc : 0 < c) (q : Fin p → ℝ)
    {lik : (Fin p → ℝ) → ℝ≥0∞}
    (hlik : ∀ β, lik β = ENNReal.ofReal (c * (Real.exp (q ⬝ᵥ β) * pgLik X b κ β)))
    {L : (Fin p → ℝ) → ℝ≥0∞} (hL : Measurable L)
    (hd : BayesDefined (normalPrior std) fun β => lik β * L β) :
    Stationary (bayes (normalPrior std) fun β => lik β * L β)
        (pgStep la (fun j => (std j)⁻¹) X b κ) ↔
      ∃ k : ℝ, 0 < k ∧ ∀ᵐ β, L β = ENNReal.ofReal (k * Real.exp (priorGap std β - q ⬝ᵥ β)) := by
  have hpr := isProbabilityMeasure_bayes hd
  rw [pgStep_stationary_iff hla (fun j => inv_pos.2 (hs j)) X hb hκ, ← normalPrior_sqrt hs]
  have hd' := bayesDefined_pgLik X hκ (normalPrior fun j => Real.sqrt (std j))
  obtain ⟨c₁, hc₁, h₁⟩ := normalPrior_density hs
  obtain ⟨c₂, hc₂, h₂⟩ := normalPrior_density (std := fun j => Real.sqrt (std j))
    fun j => Real.sqrt_pos.2 (hs j)
  simp only [fun j => Real.sq_sqrt (hs j).le] at h₂
  have hPm := measurable_pgLik X b κ
  have hqm : Measurable fun β : Fin p → ℝ => q ⬝ᵥ β := by
    have : Continuous fun β : Fin p → ℝ => q ⬝ᵥ β := continuous_const.dotProduct continuous_id
    exact this.measurable
  have hlm : Measurable lik := by
    have e : lik = fun β => ENNReal.ofReal (c * Real.exp (q ⬝ᵥ β)) *
        ENNReal.ofReal (pgLik X b κ β) := by
      ext β
      rw [hlik, ← mul_assoc, ENNReal.ofReal_mul (by positivity)]
    rw [e]
    refine Measurable.mul ?_ hPm
    fun_prop
  rw [h₁] at hd ⊢
  rw [h₂] at hd' ⊢
  rw [bayes_withDensity_eq_iff (by fun_prop) (by fun_prop) (show Measurable fun β => lik β * L β from hlm.mul hL)
    hPm hd hd']
  have key : ∀ β, priorGap std β = -(∑ j, (std j)⁻¹ * β j ^ 2) / 2 -
      -(∑ j, (std j ^ 2)⁻¹ * β j ^ 2) / 2 := by
    intro β
    rw [priorGap, neg_div, neg_div, Finset.sum_div, Finset.sum_div, sub_neg_eq_add, neg_add_eq_sub,
      ← Finset.sum_sub_distrib]
    exact Finset.sum_congr rfl fun j _ => by ring
  have solve : ∀ (r : ℝ), 0 < r → ∀ β, (ENNReal.ofReal
        (c₁ * Real.exp (-(∑ j, (std j ^ 2)⁻¹ * β j ^ 2) / 2)) * (lik β * L β) =
      ENNReal.ofReal r * (ENNReal.ofReal (c₂ * Real.exp (-(∑ j, (std j)⁻¹ * β j ^ 2) / 2)) *
        ENNReal.ofReal (pgLik X b κ β)) ↔
      L β = ENNReal.ofReal (r * c₂ / (c₁ * c) * Real.exp (priorGap std β - q ⬝ᵥ β))) := by
    intro r hr β
    have hP := pgLik_pos X b κ β
    have ha : 0 < c₁ * Real.exp (-(∑ j, (std j ^ 2)⁻¹ * β j ^ 2) / 2) *
      (c * (Real.exp (q ⬝ᵥ β) * pgLik X b κ β)) := by positivity
    rw [hlik, ← mul_assoc, ← ENNReal.ofReal_mul (by positivity), ← ENNReal.ofReal_mul (by positivity),
      ← ENNReal.ofReal_mul hr.le]
    have e : r * (c₂ * Real.exp (-(∑ j, (std j)⁻¹ * β j ^ 2) / 2) * pgLik X b κ β) =
        c₁ * Real.exp (-(∑ j, (std j ^ 2)⁻¹ * β j ^ 2) / 2) *
          (c * (Real.exp (q ⬝ᵥ β) * pgLik X b κ β)) *
          (r * c₂ / (c₁ * c) * Real.exp (priorGap std β - q ⬝ᵥ β)) := by
      rw [key, Real.exp_sub, Real.exp_sub]
      field_simp
    rw [e, ENNReal.ofReal_mul ha.le, ENNReal.mul_right_inj (by simpa using ha) ENNReal.ofReal_ne_top]
  constructor
  · rintro ⟨r, hr0, hr, h⟩
    have hr' : 0 < r.toReal := ENNReal.toReal_pos hr0 hr
    refine ⟨r.toReal * c₂ / (c₁ * c), by positivity, ?_⟩
    filter_upwards [h] with β hβ
    rw [← ENNReal.ofReal_toReal hr] at hβ
    exact (solve _ hr' β).1 hβ
  · rintro ⟨k, hk, h⟩
    refine ⟨ENNReal.ofReal (k * (c₁ * c) / c₂), by simp; positivity, ENNReal.ofReal_ne_top, ?_⟩
    filter_upwards [h] with β hβ
    refine (solve _ (by positivity) β).2 ?_
    rw [hβ]
    congr 2
    field_simp

theorem continuous_pgLik (X : Matrix (Fin n) (Fin p) ℝ) (b κ : Fin n → ℝ) :
    Continuous (pgLik X b κ) := by
  unfold pgLik mulVec dotProduct
  refine continuous_finsetProd _ fun i _ => Continuous.mul (by fun_prop) ?_
  refine Continuous.rpow_const ?_ fun β => Or.inl (Real.cosh_pos _).ne'
  exact Real.continuous_cosh.comp (by fun_prop)

theorem pgLik_zero (X : Matrix (Fin n) (Fin p) ℝ) (b κ : Fin n → ℝ) : pgLik X b κ 0 = 1 := by
  simp [pgLik]

/-- The even part of the likelihood. -/
theorem pgLik_mul_neg (X : Matrix (Fin n) (Fin p) ℝ) (b κ : Fin n → ℝ) (β : Fin p → ℝ) :
    pgLik X b κ β * pgLik X b κ (-β) = ∏ i, Real.cosh ((X *ᵥ β) i / 2) ^ (-(2 * b i)) := by
  rw [pgLik, pgLik, ← Finset.prod_mul_distrib]
  refine Finset.prod_congr rfl fun i _ => ?_
  have hc := Real.cosh_pos ((X *ᵥ β) i / 2)
  rw [mulVec_neg, Pi.neg_apply, neg_div, Real.cosh_neg, mul_neg,
    mul_mul_mul_comm, ← Real.exp_add, add_neg_cancel, Real.exp_zero, one_mul, ← Real.rpow_add hc]
  congr 1
  ring

/-- A Polya-gamma likelihood is a Gaussian factor of the kind that separates the two priors only when
it is constant. -/
theorem pgLik_eq_gap_iff {std : Fin p → ℝ} (hs : ∀ j, 0 < std j) (X : Matrix (Fin n) (Fin p) ℝ)
    {b : Fin n → ℝ} (κ : Fin n → ℝ) (hb : ∀ i, 0 < b i) (q : Fin p → ℝ) :
    (∃ k : ℝ, 0 < k ∧ ∀ β, Real.exp (q ⬝ᵥ β) * pgLik X b κ β = k * Real.exp (priorGap std β)) ↔
      (∀ j, std j = 1) ∧ X = 0 ∧ q = 0 := by
  constructor
  · rintro ⟨k, hk, h⟩
    have hk1 : k = 1 := by
      have := h 0
      rw [pgLik_zero] at this
      simpa [priorGap] using this.symm
    subst hk1
    simp only [one_mul] at h
    have hneg : ∀ β, priorGap std (-β) = priorGap std β := fun β => by simp [priorGap]
    have h2 : ∀ β, ∏ i, Real.cosh ((X *ᵥ β) i / 2) ^ (-(2 * b i)) =
        Real.exp (2 * priorGap std β) := by
      intro β
      have e : Real.exp (q ⬝ᵥ β) * Real.exp (q ⬝ᵥ -β) = 1 := by
        rw [← Real.exp_add, dotProduct_neg, add_neg_cancel, Real.exp_zero]
      rw [← pgLik_mul_neg X b κ, two_mul, Real.exp_add]
      have e1 := h β
      have e2 := h (-β)
      rw [hneg] at e2
      calc pgLik X b κ β * pgLik X b κ (-β)
          = (Real.exp (q ⬝ᵥ β) * pgLik X b κ β) * (Real.exp (q ⬝ᵥ -β) * pgLik X b κ (-β)) := by
            linear_combination (-(pgLik X b κ β * pgLik X b κ (-β))) * e
        _ = _ := by rw [e1, e2]
    have hstd : ∀ j, std j = 1 := by
      intro j
      have hsj := hs j
      have hgap : ∀ t : ℝ, priorGap std (Pi.single j t) =
          ((std j ^ 2)⁻¹ - (std j)⁻¹) * t ^ 2 / 2 := by
        intro t
        rw [priorGap, Finset.sum_eq_single j]
        · simp
        · intro l _ hl
          simp [hl]
        · simp
      by_contra hne
      -- the product of hyperbolic cosines is at most one and at least exponential in `t`
      have hle : (std j ^ 2)⁻¹ - (std j)⁻¹ ≤ 0 := by
        have h3 : Real.exp (2 * priorGap std (Pi.single j 1)) ≤ 1 := by
          rw [← h2]
          refine Finset.prod_le_one (fun i _ => (Real.rpow_pos_of_pos (Real.cosh_pos _) _).le)
            fun i _ => ?_
          exact Real.rpow_le_one_of_one_le_of_nonpos (Real.one_le_cosh _)
            (by have := hb i; linarith)
        rw [Real.exp_le_one_iff, hgap] at h3
        linarith
      have hlt : (std j ^ 2)⁻¹ - (std j)⁻¹ < 0 := by
        refine lt_of_le_of_ne hle fun h0 => hne ?_
        have h4 : std j ^ 2 = std j := inv_injective (by linarith)
        nlinarith
      set ε := -((std j ^ 2)⁻¹ - (std j)⁻¹) with hε
      have hε0 : 0 < ε := by linarith
      set C := ∑ i, b i * |X i j| with hC
      have hC0 : 0 ≤ C := Finset.sum_nonneg fun i _ => by have := hb i; positivity
      have hlow : ∀ t : ℝ, 0 ≤ t → Real.exp (-(C * t)) ≤ Real.exp (-(ε * t ^ 2)) := by
        intro t ht
        have e1 : Real.exp (-(ε * t ^ 2)) = Real.exp (2 * priorGap std (Pi.single j t)) := by
          rw [hgap, hε]
          ring_nf
        rw [e1, ← h2, hC, Finset.sum_mul, ← Finset.sum_neg_distrib, Real.exp_sum]
        refine Finset.prod_le_prod (fun i _ => (Real.exp_pos _).le) fun i _ => ?_
        have hψ : (X *ᵥ Pi.single j t) i = X i j * t := by simp [mulVec_single, mul_comm]
        have hcosh : Real.cosh ((X *ᵥ Pi.single j t) i / 2) ≤ Real.exp (|X i j| * t / 2) := by
          rw [hψ, ← Real.cosh_abs, abs_div, abs_mul, abs_of_nonneg ht, abs_two, Real.cosh_eq]
          have : Real.exp (-(|X i j| * t / 2)) ≤ Real.exp (|X i j| * t / 2) :=
            Real.exp_le_exp.2 (by have : 0 ≤ |X i j| * t := by positivity
                                  linarith)
          linarith
        calc Real.exp (-(b i * |X i j| * t))
            = Real.exp (|X i j| * t / 2) ^ (-(2 * b i)) := by
              rw [← Real.exp_mul]
              ring_nf
          _ ≤ _ := Real.rpow_le_rpow_of_nonpos (Real.cosh_pos _) hcosh
              (by have := hb i; linarith)
      have h5 := hlow ((C + 1) / ε) (by positivity)
      rw [Real.exp_le_exp, neg_le_neg_iff] at h5
      have h6 : ε * ((C + 1) / ε) ^ 2 = (C + 1) * ((C + 1) / ε) := by
        field_simp
      rw [h6] at h5
      have h7 : 0 < (C + 1) / ε := by positivity
      nlinarith
    have hgap0 : ∀ β, priorGap std β = 0 := fun β => by simp [priorGap, hstd]
    have hX : X = 0 := by
      ext i j
      have h3 := h2 (Pi.single j 1)
      rw [hgap0, mul_zero, Real.exp_zero] at h3
      have hone : ∀ l ∈ Finset.univ, Real.cosh ((X *ᵥ Pi.single j 1) l / 2) ^ (-(2 * b l)) ≤ 1 :=
        fun l _ => Real.rpow_le_one_of_one_le_of_nonpos (Real.one_le_cosh _)
          (by have := hb l; linarith)
      by_contra hx
      have hx' : X i j ≠ 0 := hx
      have hψ : (X *ᵥ Pi.single j 1) i / 2 ≠ 0 := by
        simp [mulVec_single, hx']
      have hlt := Real.rpow_lt_one_of_one_lt_of_neg (Real.one_lt_cosh.2 hψ)
        (show -(2 * b i) < 0 by have := hb i; linarith)
      have h4 := Finset.prod_lt_prod (fun l _ => Real.rpow_pos_of_pos (Real.cosh_pos _) _) hone
        ⟨i, Finset.mem_univ i, hlt⟩
      rw [h3, Finset.prod_const_one] at h4
      exact lt_irrefl _ h4
    refine ⟨hstd, hX, ?_⟩
    have h3 := h q
    rw [hgap0, hX, Real.exp_zero] at h3
    have h4 : Real.exp (q ⬝ᵥ q) = 1 := by simpa [pgLik] using h3
    exact dotProduct_self_eq_zero.1 (Real.exp_eq_one_iff _ |>.1 h4)
  · rintro ⟨h, rfl, rfl⟩
    refine ⟨1, one_pos, fun β => ?_⟩
    simp [pgLik, priorGap, h]

end

end Verif
