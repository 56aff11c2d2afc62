import Verif.Prob.DataAug

/-!
# Stationary law of a three-block Gibbs scan

Blocks `A` (auxiliary), `B` and `C`.  From `(y, s)` draw `x` given `(y, s)`, then `y'` given `(x, s)`,
then `s'` given `(x, y')`, each from the conditional of one joint density `f`.  The marginal of `f`
on `B × C` is invariant.
-/

open MeasureTheory ProbabilityTheory
open scoped ENNReal

namespace Verif

variable {A B C : Type*} [MeasurableSpace A] [MeasurableSpace B] [MeasurableSpace C]

section

variable {a : Measure A} {b : Measure B} {c : Measure C} [SFinite a] [SFinite b] [SFinite c]
  {f : A → B → C → ℝ≥0∞}

/-- The scan with exact conditionals. -/
noncomputable def scan3 (a : Measure A) (b : Measure B) (c : Measure C) (f : A → B → C → ℝ≥0∞)
    (q : B × C) : Measure (B × C) :=
  (bayes a fun x => f x q.1 q.2).bind fun x =>
    (bayes b fun y => f x y q.2).bind fun y => (bayes c fun s => f x y s).map fun s => (y, s)

/-- Probability of `S` after the last draw. -/
noncomputable def scanG3 (c : Measure C) (f : A → B → C → ℝ≥0∞) (S : Set (B × C)) (x : A) (y : B) :
    ℝ≥0∞ :=
  (∫⁻ s, f x y s ∂c)⁻¹ * ∫⁻ s, f x y s * S.indicator 1 (y, s) ∂c

/-- Probability of `S` after the last two draws. -/
noncomputable def scanG2 (b : Measure B) (c : Measure C) (f : A → B → C → ℝ≥0∞) (S : Set (B × C))
    (x : A) (s : C) : ℝ≥0∞ :=
  (∫⁻ y, f x y s ∂b)⁻¹ * ∫⁻ y, f x y s * scanG3 c f S x y ∂b

variable (hf : Measurable fun q : A × B × C => f q.1 q.2.1 q.2.2)
include hf

theorem measurable_scanG3 {S : Set (B × C)} (hS : MeasurableSet S) :
    Measurable fun q : A × B => scanG3 c f S q.1 q.2 := by
  have h1 : Measurable fun r : (A × B) × C => f r.1.1 r.1.2 r.2 :=
    hf.comp ((measurable_fst.comp measurable_fst).prodMk
      ((measurable_snd.comp measurable_fst).prodMk measurable_snd))
  have h2 : Measurable fun r : (A × B) × C => S.indicator (1 : B × C → ℝ≥0∞) (r.1.2, r.2) :=
    (measurable_one.indicator hS).comp
      ((measurable_snd.comp measurable_fst).prodMk measurable_snd)
  exact (Measurable.lintegral_prod_right h1).inv.mul (Measurable.lintegral_prod_right (h1.mul h2))

theorem measurable_scanG2 {S : Set (B × C)} (hS : MeasurableSet S) :
    Measurable fun q : A × C => scanG2 b c f S q.1 q.2 := by
  have h1 : Measurable fun r : (A × C) × B => f r.1.1 r.2 r.1.2 :=
    hf.comp ((measurable_fst.comp measurable_fst).prodMk
      (measurable_snd.prodMk (measurable_snd.comp measurable_fst)))
  have h2 : Measurable fun r : (A × C) × B => scanG3 c f S r.1.1 r.2 :=
    (measurable_scanG3 (c := c) hf hS).comp
      ((measurable_fst.comp measurable_fst).prodMk measurable_snd)
  exact (Measurable.lintegral_prod_right h1).inv.mul (Measurable.lintegral_prod_right (h1.mul h2))

omit [SFinite c] in
theorem scan_last {S : Set (B × C)} (hS : MeasurableSet S) (x : A) (y : B) :
    ((bayes c fun s => f x y s).map fun s => (y, s)) S = scanG3 c f S x y := by
  have hm : Measurable fun s : C => (y, s) := measurable_const.prodMk measurable_id
  have hfs : Measurable fun s => f x y s :=
    hf.comp (measurable_const.prodMk (measurable_const.prodMk measurable_id))
  rw [← lintegral_indicator_one hS, lintegral_map (measurable_one.indicator hS) hm,
    lintegral_bayes (g := fun s => S.indicator 1 (y, s)) hfs
      ((measurable_one.indicator hS).comp hm)]
  rfl

theorem measurable_scan_last (x : A) :
    Measurable fun y => (bayes c fun s => f x y s).map fun s => (y, s) := by
  refine Measure.measurable_of_measurable_coe _ fun S hS => ?_
  simp only [scan_last hf hS]
  exact (measurable_scanG3 hf hS).comp (measurable_const.prodMk measurable_id)

omit [SFinite b] in
theorem scan_mid {S : Set (B × C)} (hS : MeasurableSet S) (x : A) (s : C) :
    ((bayes b fun y => f x y s).bind fun y => (bayes c fun s => f x y s).map fun s => (y, s)) S =
      scanG2 b c f S x s := by
  have hfy : Measurable fun y => f x y s :=
    hf.comp (measurable_const.prodMk (measurable_id.prodMk measurable_const))
  rw [Measure.bind_apply hS (measurable_scan_last hf x).aemeasurable]
  simp only [scan_last hf hS]
  exact lintegral_bayes hfy ((measurable_scanG3 hf hS).comp (measurable_const.prodMk measurable_id))

theorem measurable_scan_mid (s : C) : Measurable fun x =>
    (bayes b fun y => f x y s).bind fun y => (bayes c fun s => f x y s).map fun s => (y, s) := by
  refine Measure.measurable_of_measurable_coe _ fun S hS => ?_
  simp only [scan_mid hf hS]
  exact (measurable_scanG2 hf hS).comp (measurable_id.prodMk measurable_const)

omit [SFinite a] in
theorem scan3_apply {S : Set (B × C)} (hS : MeasurableSet S) (q : B × C) :
    scan3 a b c f q S =
      (∫⁻ x, f x q.1 q.2 ∂a)⁻¹ * ∫⁻ x, f x q.1 q.2 * scanG2 b c f S x q.2 ∂a := by
  have hfx : Measurable fun x => f x q.1 q.2 :=
    hf.comp (measurable_id.prodMk (measurable_const.prodMk measurable_const))
  rw [scan3, Measure.bind_apply hS (measurable_scan_mid hf q.2).aemeasurable]
  simp only [scan_mid hf hS]
  exact lintegral_bayes hfx ((measurable_scanG2 hf hS).comp (measurable_id.prodMk measurable_const))

theorem measurable_scan3 : Measurable (scan3 a b c f) := by
  refine Measure.measurable_of_measurable_coe _ fun S hS => ?_
  simp only [scan3_apply hf hS]
  have h1 : Measurable fun r : (B × C) × A => f r.2 r.1.1 r.1.2 :=
    hf.comp (measurable_snd.prodMk measurable_fst)
  have h2 : Measurable fun r : (B × C) × A => scanG2 b c f S r.2 r.1.2 :=
    (measurable_scanG2 hf hS).comp (measurable_snd.prodMk (measurable_snd.comp measurable_fst))
  exact (Measurable.lintegral_prod_right h1).inv.mul (Measurable.lintegral_prod_right (h1.mul h2))

/-- The marginal on `B × C` is stationary for the scan. -/
theorem stationary_scan3
    (hA : ∀ᵐ q ∂b.prod c, BayesDefined a fun x => f x q.1 q.2)
    (hB : ∀ᵐ q ∂a.prod c, BayesDefined b fun y => f q.1 y q.2)
    (hC : ∀ᵐ q ∂a.prod b, BayesDefined c fun s => f q.1 q.2 s) :
    Stationary (bayes (b.prod c) fun q => ∫⁻ x, f x q.1 q.2 ∂a) (scan3 a b c f) := by
  have hmK := measurable_scan3 (a := a) (b := b) (c := c) hf
  refine ⟨hmK.aemeasurable, ?_⟩
  ext S hS
  rw [Measure.bind_apply hS hmK.aemeasurable]
  simp only [scan3_apply hf hS]
  have hq : Measurable fun r : (B × C) × A => f r.2 r.1.1 r.1.2 :=
    hf.comp (measurable_snd.prodMk measurable_fst)
  have hg2q : Measurable fun r : (B × C) × A => scanG2 b c f S r.2 r.1.2 :=
    (measurable_scanG2 hf hS).comp (measurable_snd.prodMk (measurable_snd.comp measurable_fst))
  have hmarg : Measurable fun q : B × C => ∫⁻ x, f x q.1 q.2 ∂a := Measurable.lintegral_prod_right hq
  have hin : Measurable fun q : B × C => ∫⁻ x, f x q.1 q.2 * scanG2 b c f S x q.2 ∂a :=
    Measurable.lintegral_prod_right (hq.mul hg2q)
  rw [lintegral_bayes (g := fun q : B × C => (∫⁻ x, f x q.1 q.2 ∂a)⁻¹ *
    ∫⁻ x, f x q.1 q.2 * scanG2 b c f S x q.2 ∂a) hmarg (hmarg.inv.mul hin)]
  have e1 : ∫⁻ q, (∫⁻ x, f x q.1 q.2 ∂a) * ((∫⁻ x, f x q.1 q.2 ∂a)⁻¹ *
      ∫⁻ x, f x q.1 q.2 * scanG2 b c f S x q.2 ∂a) ∂b.prod c =
      ∫⁻ q, ∫⁻ x, f x q.1 q.2 * scanG2 b c f S x q.2 ∂a ∂b.prod c := by
    refine lintegral_congr_ae ?_
    filter_upwards [hA] with q h
    rw [← mul_assoc, ENNReal.mul_inv_cancel h.1 h.2, one_mul]
  -- reorder to `x`, `s`, `y`
  have m1 : Measurable fun r : A × B × C => f r.1 r.2.1 r.2.2 * scanG2 b c f S r.1 r.2.2 :=
    hf.mul ((measurable_scanG2 hf hS).comp
      (measurable_fst.prodMk (measurable_snd.comp measurable_snd)))
  have e2 : ∫⁻ q, ∫⁻ x, f x q.1 q.2 * scanG2 b c f S x q.2 ∂a ∂b.prod c =
      ∫⁻ x, ∫⁻ s, ∫⁻ y, f x y s * scanG2 b c f S x s ∂b ∂c ∂a := by
    rw [lintegral_lintegral_swap (f := fun (q : B × C) (x : A) => f x q.1 q.2 * scanG2 b c f S x q.2)
      (m1.comp measurable_swap).aemeasurable]
    refine lintegral_congr fun x => ?_
    exact lintegral_prod_symm' _ (m1.comp (measurable_const.prodMk measurable_id))
  have hfBS : ∀ x s, Measurable fun y => f x y s := fun x s =>
    hf.comp (measurable_const.prodMk (measurable_id.prodMk measurable_const))
  have hfCS : ∀ x y, Measurable fun s => f x y s := fun x y =>
    hf.comp (measurable_const.prodMk (measurable_const.prodMk measurable_id))
  have hB' : ∀ᵐ x ∂a, ∀ᵐ s ∂c, BayesDefined b fun y => f x y s := Measure.ae_ae_of_ae_prod hB
  have hC' : ∀ᵐ x ∂a, ∀ᵐ y ∂b, BayesDefined c fun s => f x y s := Measure.ae_ae_of_ae_prod hC
  have e3 : ∫⁻ x, ∫⁻ s, ∫⁻ y, f x y s * scanG2 b c f S x s ∂b ∂c ∂a =
      ∫⁻ x, ∫⁻ s, ∫⁻ y, f x y s * scanG3 c f S x y ∂b ∂c ∂a := by
    refine lintegral_congr_ae ?_
    filter_upwards [hB'] with x hx
    refine lintegral_congr_ae ?_
    filter_upwards [hx] with s h
    rw [lintegral_mul_const _ (hfBS x s), scanG2, ← mul_assoc, ENNReal.mul_inv_cancel h.1 h.2,
      one_mul]
  have e4 : ∀ x, ∫⁻ s, ∫⁻ y, f x y s * scanG3 c f S x y ∂b ∂c =
      ∫⁻ y, ∫⁻ s, f x y s * scanG3 c f S x y ∂c ∂b := fun x => by
    refine lintegral_lintegral_swap (f := fun s y => f x y s * scanG3 c f S x y) ?_
    exact ((hf.comp (measurable_const.prodMk measurable_swap)).mul
      ((measurable_scanG3 hf hS).comp (measurable_const.prodMk measurable_snd))).aemeasurable
  have e5 : ∫⁻ x, ∫⁻ y, ∫⁻ s, f x y s * scanG3 c f S x y ∂c ∂b ∂a =
      ∫⁻ x, ∫⁻ y, ∫⁻ s, f x y s * S.indicator 1 (y, s) ∂c ∂b ∂a := by
    refine lintegral_congr_ae ?_
    filter_upwards [hC'] with x hx
    refine lintegral_congr_ae ?_
    filter_upwards [hx] with y h
    rw [lintegral_mul_const _ (hfCS x y), scanG3, ← mul_assoc, ENNReal.mul_inv_cancel h.1 h.2,
      one_mul]
  have m2 : Measurable fun r : A × B × C => f r.1 r.2.1 r.2.2 * S.indicator 1 r.2 :=
    hf.mul ((measurable_one.indicator hS).comp measurable_snd)
  have e6 : ∫⁻ x, ∫⁻ y, ∫⁻ s, f x y s * S.indicator 1 (y, s) ∂c ∂b ∂a =
      ∫⁻ q in S, ∫⁻ x, f x q.1 q.2 ∂a ∂b.prod c := by
    have : ∀ x, ∫⁻ y, ∫⁻ s, f x y s * S.indicator 1 (y, s) ∂c ∂b =
        ∫⁻ q, f x q.1 q.2 * S.indicator 1 q ∂b.prod c := fun x =>
      (lintegral_prod _ (m2.comp (measurable_const.prodMk measurable_id)).aemeasurable).symm
    simp only [this]
    rw [lintegral_lintegral_swap (f := fun (x : A) (q : B × C) => f x q.1 q.2 * S.indicator 1 q)
      m2.aemeasurable, ← lintegral_indicator hS]
    refine lintegral_congr fun q => ?_
    by_cases h : q ∈ S
    · simp [h]
    · simp [h]
  rw [e1, e2, e3]
  simp only [e4]
  rw [e5, e6, bayes, Measure.smul_apply, withDensity_apply _ hS, smul_eq_mul]

end

/-- A transition that agrees almost everywhere with a stationary one is stationary. -/
theorem Stationary.congr_ae {Θ : Type*} [MeasurableSpace Θ] {π : Measure Θ} {K K' : Θ → Measure Θ}
    (h : Stationary π K) (hK : K =ᵐ[π] K') : Stationary π K' :=
  ⟨h.1.congr hK, by rw [← Measure.bind_congr_right hK, h.2]⟩

/-- Change of coordinates: if `h ∘ g` is the identity almost everywhere, a transition that maps the
state by `g`, makes a move with `P` and maps back by `h` has the law `π` as stationary law when the
image of `π` under `g` is stationary for `P`. -/
theorem Stationary.conj {Θ Ψ : Type*} [MeasurableSpace Θ] [MeasurableSpace Ψ] {π : Measure Θ}
    {g : Θ → Ψ} {h : Ψ → Θ} {P : Ψ → Measure Ψ} (hg : Measurable g) (hh : Measurable h)
    (hgh : ∀ᵐ θ ∂π, h (g θ) = θ) (hP : Stationary (π.map g) P) :
    Stationary π fun θ => (P (g θ)).map h := by
  have hmP : AEMeasurable (fun θ => P (g θ)) π := hP.1.comp_measurable hg
  have hm : AEMeasurable (fun θ => (P (g θ)).map h) π :=
    (Measure.measurable_map h hh).comp_aemeasurable hmP
  refine ⟨hm, ?_⟩
  ext S hS
  rw [Measure.bind_apply hS hm]
  have e : ∀ θ, ((P (g θ)).map h) S = P (g θ) (h ⁻¹' S) := fun θ => Measure.map_apply hh hS
  simp only [e]
  have h1 := congrArg (fun μ : Measure Ψ => μ (h ⁻¹' S)) hP.2
  rw [Measure.bind_apply (hh hS) hP.1, lintegral_map' ?_ hg.aemeasurable,
    Measure.map_apply hg (hh hS)] at h1
  · rw [h1, ← Set.preimage_comp]
    refine measure_congr ?_
    filter_upwards [hgh] with θ hθ
    exact propext (by
      change h (g θ) ∈ S ↔ θ ∈ S
      rw [hθ])
  · exact (Measure.measurable_coe (hh hS)).comp_aemeasurable hP.1

end Verif
