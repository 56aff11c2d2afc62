import Verif.Rev.Spec
import Verif.Prob.DataAug
import Mathlib.Probability.Kernel.Composition.IntegralCompProd

/-!
# Two alternating draws: reversibility and covariances
-/

open MeasureTheory ProbabilityTheory
open scoped ENNReal

namespace Verif

variable {Θ Ω : Type*} [MeasurableSpace Θ] [MeasurableSpace Ω]

/-- Expectation of `f` after one draw. -/
noncomputable def app (A : Kernel Θ Ω) (f : Ω → ℝ) (θ : Θ) : ℝ := ∫ x, f x ∂A θ

section One

variable {π : Measure Θ} [IsProbabilityMeasure π] {A : Kernel Θ Ω} [IsMarkovKernel A] {m : Measure Ω}

omit [IsProbabilityMeasure π] [IsMarkovKernel A] in
theorem memLp_snd (hm : (π ⊗ₘ A).snd = m) {g : Ω → ℝ} (hg : MemLp g 2 m) :
    MemLp (fun q : Θ × Ω => g q.2) 2 (π ⊗ₘ A) := by
  subst hm
  exact hg.comp_measurePreserving ⟨measurable_snd, rfl⟩

theorem memLp_fst {f : Θ → ℝ} (hf : MemLp f 2 π) :
    MemLp (fun q : Θ × Ω => f q.1) 2 (π ⊗ₘ A) := by
  refine hf.comp_measurePreserving ⟨measurable_fst, ?_⟩
  exact Measure.fst_compProd _ _

theorem ae_memLp (hm : (π ⊗ₘ A).snd = m) {g : Ω → ℝ} (hg : MemLp g 2 m) : ∀ᵐ θ ∂π, MemLp g 2 (A θ) := by
  have h := memLp_snd hm hg
  have h1 : ∀ᵐ θ ∂π, Integrable (fun y => g y ^ 2) (A θ) :=
    ((Measure.integrable_compProd_iff h.integrable_sq.aestronglyMeasurable).1 h.integrable_sq).1
  have h2 : ∀ᵐ θ ∂π, AEStronglyMeasurable g (A θ) := by
    exact AEStronglyMeasurable.ae_of_compProd (f := fun _ y => g y) h.aestronglyMeasurable
  filter_upwards [h1, h2] with θ h3 h4
  exact (memLp_two_iff_integrable_sq h4).2 h3

theorem sq_app_le {g : Ω → ℝ} {θ : Θ} (h : MemLp g 2 (A θ)) : app A g θ ^ 2 ≤ ∫ y, g y ^ 2 ∂A θ := by
  have h1 := variance_nonneg g (A θ)
  rw [variance_eq_sub h] at h1
  simpa [app] using h1

theorem app_memLp (hm : (π ⊗ₘ A).snd = m) {g : Ω → ℝ} (hg : MemLp g 2 m) :
    MemLp (app A g) 2 π ∧ ∫ θ, app A g θ ^ 2 ∂π ≤ ∫ y, g y ^ 2 ∂m := by
  have h := memLp_snd hm hg
  have hms : AEStronglyMeasurable (app A g) π := by
    have h1 := h.aestronglyMeasurable
    rw [Measure.compProd] at h1
    have := h1.integral_kernel_compProd
    simp only [Kernel.prodMkLeft_apply, Kernel.const_apply] at this
    exact this
  have hle : ∀ᵐ θ ∂π, app A g θ ^ 2 ≤ ∫ y, g y ^ 2 ∂A θ := by
    filter_upwards [ae_memLp hm hg] with θ h1 using sq_app_le h1
  have hint : Integrable (fun θ => ∫ y, g y ^ 2 ∂A θ) π := by
    have := ((Measure.integrable_compProd_iff h.integrable_sq.aestronglyMeasurable).1 h.integrable_sq).2
    simpa using this
  refine ⟨(memLp_two_iff_integrable_sq hms).2 (hint.mono' (hms.pow 2) ?_), ?_⟩
  · filter_upwards [hle] with θ h1
    rwa [Real.norm_of_nonneg (sq_nonneg _)]
  · have e : ∫ y, g y ^ 2 ∂m = ∫ q, g q.2 ^ 2 ∂(π ⊗ₘ A) := by
      subst hm
      rw [Measure.snd, integral_map measurable_snd.aemeasurable]
      exact hg.aestronglyMeasurable.pow 2
    rw [e, Measure.integral_compProd h.integrable_sq]
    exact integral_mono_of_nonneg (ae_of_all _ fun _ => sq_nonneg _) hint hle

theorem integral_pair (hm : (π ⊗ₘ A).snd = m) {f : Θ → ℝ} (hf : MemLp f 2 π) {g : Ω → ℝ}
    (hg : MemLp g 2 m) : ∫ q, f q.1 * g q.2 ∂(π ⊗ₘ A) = ∫ θ, f θ * app A g θ ∂π := by
  have hi : Integrable (fun q : Θ × Ω => f q.1 * g q.2) (π ⊗ₘ A) :=
    (memLp_fst hf).integrable_mul (memLp_snd hm hg)
  rw [Measure.integral_compProd hi]
  refine integral_congr_ae (ae_of_all _ fun θ => ?_)
  simp only [app]
  exact integral_const_mul _ _

theorem app_congr_ae (hm : (π ⊗ₘ A).snd = m) {g g' : Ω → ℝ} (h : g =ᵐ[m] g') :
    app A g =ᵐ[π] app A g' := by
  subst hm
  rw [Measure.snd_compProd] at h
  filter_upwards [Measure.ae_ae_of_ae_comp h] with θ h1 using integral_congr_ae h1

theorem app_comp (hm : (π ⊗ₘ A).snd = m) {Ψ : Type*} [MeasurableSpace Ψ] {B : Kernel Ω Ψ}
    [IsMarkovKernel B] {m' : Measure Ψ} (hm' : (m ⊗ₘ B).snd = m') {g : Ψ → ℝ} (hg : MemLp g 2 m') :
    app (B ∘ₖ A) g =ᵐ[π] app A (app B g) := by
  have : IsProbabilityMeasure m := by
    subst hm
    infer_instance
  have e : (π ⊗ₘ (B ∘ₖ A)).snd = m' := by
    rw [Measure.snd_compProd] at hm hm' ⊢
    rw [← hm', ← hm, Measure.comp_assoc]
  filter_upwards [ae_memLp e hg] with θ h1
  exact Kernel.integral_comp (h1.integrable one_le_two)

end One

/-- The kernel of `k` calls. -/
noncomputable def callsK (κ : Kernel Θ Θ) : ℕ → Kernel Θ Θ
  | 0 => Kernel.id
  | k + 1 => κ ∘ₖ callsK κ k

theorem callsK_apply (κ : Kernel Θ Θ) (k : ℕ) (θ : Θ) : callsK κ k θ = calls κ k θ := by
  induction k generalizing θ with
  | zero => rw [callsK, Kernel.id_apply]; rfl
  | succ k ih => rw [callsK, Kernel.comp_apply, ih]; rfl

instance (κ : Kernel Θ Θ) [IsMarkovKernel κ] (k : ℕ) : IsMarkovKernel (callsK κ k) := by
  induction k with
  | zero => rw [callsK]; infer_instance
  | succ k ih => rw [callsK]; infer_instance

theorem atLag_eq (π : Measure Θ) [IsProbabilityMeasure π] (κ : Kernel Θ Θ) [IsMarkovKernel κ] (k : ℕ) :
    atLag π κ k = π ⊗ₘ callsK κ k := by
  have hv : ∀ θ S, MeasurableSet S → ((calls κ k θ).map (Prod.mk θ)) S = callsK κ k θ (Prod.mk θ ⁻¹' S) := by
    intro θ S hS
    rw [Measure.map_apply measurable_prodMk_left hS, callsK_apply]
  have hm : Measurable fun θ => (calls κ k θ).map (Prod.mk θ) := by
    refine Measure.measurable_of_measurable_coe _ fun S hS => ?_
    simp only [hv _ S hS]
    exact Kernel.measurable_kernel_prodMk_left hS
  ext S hS
  rw [atLag, Measure.bind_apply hS hm.aemeasurable, Measure.compProd_apply hS]
  exact lintegral_congr fun θ => hv θ S hS

/-- Draws from `A` and from `B` alternate, and the joint law of neighbours is the same seen from either
side. -/
structure Alternates (π : Measure Θ) (m : Measure Ω) (A : Kernel Θ Ω) (B : Kernel Ω Θ) : Prop where
  swap : (π ⊗ₘ A).map Prod.swap = m ⊗ₘ B

theorem integral_sq_sub_nonneg {μ : Measure Θ} {a b : Θ → ℝ} (ha : MemLp a 2 μ) (hb : MemLp b 2 μ) :
    0 ≤ (∫ x, a x ^ 2 ∂μ) - 2 * (∫ x, a x * b x ∂μ) + ∫ x, b x ^ 2 ∂μ := by
  have hab : Integrable (fun x => 2 * (a x * b x)) μ := (ha.integrable_mul hb).const_mul 2
  have ha2 : Integrable (fun x => a x ^ 2) μ := ha.integrable_sq
  have hb2 : Integrable (fun x => b x ^ 2) μ := hb.integrable_sq
  have hd : Integrable (fun x => a x ^ 2 - 2 * (a x * b x)) μ := ha2.sub hab
  rw [← integral_const_mul, ← integral_sub ha2 hab, ← integral_add hd hb2]
  refine integral_nonneg fun x => ?_
  have := sq_nonneg (a x - b x)
  simp only [Pi.zero_apply]
  linarith [sub_sq (a x) (b x)]

namespace Alternates

variable {π : Measure Θ} [IsProbabilityMeasure π] {m : Measure Ω} [IsProbabilityMeasure m]
  {A : Kernel Θ Ω} [IsMarkovKernel A] {B : Kernel Ω Θ} [IsMarkovKernel B] (h : Alternates π m A B)
include h

omit [IsProbabilityMeasure π] [IsMarkovKernel A] in
theorem sndA : (π ⊗ₘ A).snd = m := by
  rw [← Measure.fst_map_swap, h.swap, Measure.fst_compProd]

omit [IsProbabilityMeasure m] [IsMarkovKernel B] in
theorem sndB : (m ⊗ₘ B).snd = π := by
  rw [← h.swap, Measure.snd_map_swap, Measure.fst_compProd]

theorem adjoint {f : Θ → ℝ} (hf : MemLp f 2 π) {g : Ω → ℝ} (hg : MemLp g 2 m) :
    ∫ θ, f θ * app A g θ ∂π = ∫ y, app B f y * g y ∂m := by
  have h1 := integral_pair h.sndB hg hf
  rw [← h.swap, integral_map measurable_swap.aemeasurable] at h1
  · rw [← integral_pair h.sndA hf hg]
    simp only [Prod.fst_swap, Prod.snd_swap] at h1
    simp only [mul_comm (f _), mul_comm (app B f _)]
    exact h1
  · rw [h.swap]
    exact ((memLp_fst hg).integrable_mul (memLp_snd h.sndB hf)).aestronglyMeasurable

/-- Expectation after one call. -/
theorem memLp_iter {f : Θ → ℝ} (hf : MemLp f 2 π) (k : ℕ) :
    MemLp ((fun f => app A (app B f))^[k] f) 2 π := by
  induction k with
  | zero => exact hf
  | succ k ih =>
    rw [Function.iterate_succ_apply']
    exact (app_memLp h.sndA (app_memLp h.sndB ih).1).1

theorem adj_self {f g : Θ → ℝ} (hf : MemLp f 2 π) (hg : MemLp g 2 π) :
    ∫ θ, f θ * app A (app B g) θ ∂π = ∫ y, app B f y * app B g y ∂m :=
  h.adjoint hf (app_memLp h.sndB hg).1

theorem symm_one {f g : Θ → ℝ} (hf : MemLp f 2 π) (hg : MemLp g 2 π) :
    ∫ θ, f θ * app A (app B g) θ ∂π = ∫ θ, app A (app B f) θ * g θ ∂π := by
  rw [h.adj_self hf hg]
  simp only [mul_comm (app A (app B f) _)]
  rw [h.adj_self hg hf]
  simp only [mul_comm]

theorem symm_iter {f g : Θ → ℝ} (hf : MemLp f 2 π) (hg : MemLp g 2 π) (k : ℕ) :
    ∫ θ, f θ * (fun f => app A (app B f))^[k] g θ ∂π = ∫ θ, (fun f => app A (app B f))^[k] f θ * g θ ∂π := by
  induction k generalizing g with
  | zero => rfl
  | succ k ih =>
    rw [Function.iterate_succ_apply, ih (g := app A (app B g)) (h.memLp_iter hg 1), Function.iterate_succ_apply']
    exact h.symm_one (h.memLp_iter hf k) hg

theorem snd_calls (k : ℕ) : (π ⊗ₘ callsK (B ∘ₖ A) k).snd = π := by
  have h1 := h.sndA
  have h2 := h.sndB
  rw [Measure.snd_compProd] at h1 h2 ⊢
  induction k with
  | zero => rw [callsK, Measure.id_comp]
  | succ k ih => rw [callsK, ← Measure.comp_assoc, ih, ← Measure.comp_assoc, h1, h2]

theorem app_calls {g : Θ → ℝ} (hg : MemLp g 2 π) (k : ℕ) :
    app (callsK (B ∘ₖ A) k) g =ᵐ[π] (fun f => app A (app B f))^[k] g := by
  induction k generalizing g with
  | zero =>
    have e := hg.aestronglyMeasurable.ae_eq_mk
    refine (app_congr_ae (h.snd_calls 0) e).trans ?_
    refine Filter.EventuallyEq.trans (ae_of_all _ fun θ => ?_) e.symm
    rw [app, callsK, Kernel.id_apply]
    exact integral_dirac' _ _ hg.aestronglyMeasurable.stronglyMeasurable_mk
  | succ k ih =>
    have h1 : (π ⊗ₘ (B ∘ₖ A)).snd = π := by
      have := h.snd_calls 1
      rw [callsK, callsK, Kernel.comp_id] at this
      exact this
    have h2 := app_comp (h.snd_calls k) h1 hg
    have h3 := app_congr_ae (h.snd_calls k) (app_comp h.sndA h.sndB hg)
    rw [Function.iterate_succ_apply]
    exact (h2.trans h3).trans (ih (h.memLp_iter hg 1))

theorem integral_atLag {f g : Θ → ℝ} (hf : MemLp f 2 π) (hg : MemLp g 2 π) (k : ℕ) :
    ∫ q, f q.1 * g q.2 ∂atLag π (B ∘ₖ A) k = ∫ θ, f θ * (fun f => app A (app B f))^[k] g θ ∂π := by
  rw [atLag_eq, integral_pair (h.snd_calls k) hf hg]
  refine integral_congr_ae ?_
  filter_upwards [h.app_calls hg k] with θ h1
  rw [h1]

theorem reversible : Reversible π (B ∘ₖ A) := by
  intro k
  have key : ∀ S T : Set Θ, MeasurableSet S → MeasurableSet T →
      atLag π (B ∘ₖ A) k (S ×ˢ T) = atLag π (B ∘ₖ A) k (T ×ˢ S) := by
    intro S T hS hT
    have hi : ∀ S : Set Θ, MeasurableSet S → MemLp (S.indicator (1 : Θ → ℝ)) 2 π := fun S hS =>
      memLp_indicator_const 2 hS 1 (Or.inr (measure_ne_top _ _))
    have e : ∀ S T : Set Θ, MeasurableSet S → MeasurableSet T →
        ∫ q, S.indicator (1 : Θ → ℝ) q.1 * T.indicator (1 : Θ → ℝ) q.2 ∂atLag π (B ∘ₖ A) k =
          (atLag π (B ∘ₖ A) k).real (S ×ˢ T) := by
      intro S T hS hT
      rw [← integral_indicator_one (hS.prod hT)]
      refine integral_congr_ae (ae_of_all _ fun q => ?_)
      by_cases h1 : q.1 ∈ S <;> by_cases h2 : q.2 ∈ T <;> simp [h1, h2, Set.indicator]
    have h1 := h.integral_atLag (hi S hS) (hi T hT) k
    have h2 := h.integral_atLag (hi T hT) (hi S hS) k
    rw [h.symm_iter (hi S hS) (hi T hT)] at h1
    rw [e S T hS hT] at h1
    rw [e T S hT hS] at h2
    have h3 : (atLag π (B ∘ₖ A) k).real (S ×ˢ T) = (atLag π (B ∘ₖ A) k).real (T ×ˢ S) := by
      rw [h1, h2]
      simp only [mul_comm]
    have : IsProbabilityMeasure (atLag π (B ∘ₖ A) k) := by
      rw [atLag_eq]
      infer_instance
    exact (measureReal_eq_measureReal_iff (measure_ne_top _ _) (measure_ne_top _ _)).1 h3
  have : IsProbabilityMeasure (atLag π (B ∘ₖ A) k) := by
    rw [atLag_eq]
    infer_instance
  refine Measure.ext_prod fun {S T} hS hT => ?_
  rw [Measure.map_apply measurable_swap (hS.prod hT), Set.preimage_swap_prod]
  exact key T S hT hS

theorem cov_eq {f : Θ → ℝ} (hf : MemLp f 2 π) (k : ℕ) :
    autocov π (B ∘ₖ A) f k =
      (∫ θ, f θ * (fun f => app A (app B f))^[k] f θ ∂π) - (∫ θ, f θ ∂π) * ∫ θ, f θ ∂π := by
  have h1 := memLp_fst (A := callsK (B ∘ₖ A) k) hf
  have h2 := memLp_snd (h.snd_calls k) hf
  have e1 : ∫ q : Θ × Θ, f q.1 ∂(π ⊗ₘ callsK (B ∘ₖ A) k) = ∫ θ, f θ ∂π := by
    have := Measure.fst_compProd π (callsK (B ∘ₖ A) k)
    conv_rhs => rw [← this, Measure.fst]
    rw [integral_map measurable_fst.aemeasurable]
    rw [← Measure.fst, this]
    exact hf.aestronglyMeasurable
  have e2 : ∫ q : Θ × Θ, f q.2 ∂(π ⊗ₘ callsK (B ∘ₖ A) k) = ∫ θ, f θ ∂π := by
    have := h.snd_calls k
    conv_rhs => rw [← this, Measure.snd]
    rw [integral_map measurable_snd.aemeasurable]
    rw [← Measure.snd, this]
    exact hf.aestronglyMeasurable
  have e3 := h.integral_atLag hf hf k
  rw [autocov]
  rw [atLag_eq] at e3 ⊢
  rw [covariance_eq_sub h1 h2, e1, e2, ← e3]
  rfl

theorem fading : FadingCovariances π (B ∘ₖ A) := by
  intro f hf
  set F : ℕ → Θ → ℝ := fun k => (fun f => app A (app B f))^[k] f with hF
  have hFk : ∀ k, MemLp (F k) 2 π := fun k => h.memLp_iter hf k
  have hGk : ∀ k, MemLp (app B (F k)) 2 m := fun k => (app_memLp h.sndB (hFk k)).1
  have hc : ∀ k, autocov π (B ∘ₖ A) f k = (∫ θ, f θ * F k θ ∂π) - (∫ θ, f θ ∂π) * ∫ θ, f θ ∂π :=
    fun k => h.cov_eq hf k
  have hs : ∀ k, F (k + 1) = app A (app B (F k)) := fun k => Function.iterate_succ_apply' _ _ _
  have hadd : ∀ i j, ∫ θ, f θ * F (i + j) θ ∂π = ∫ θ, F i θ * F j θ ∂π := by
    intro i j
    have e : F (i + j) = (fun f => app A (app B f))^[i] (F j) := Function.iterate_add_apply _ _ _ _
    rw [e]
    exact h.symm_iter hf (hFk j) i
  have hG : ∀ i j, ∫ θ, f θ * F (i + j + 1) θ ∂π = ∫ y, app B (F i) y * app B (F j) y ∂m := by
    intro i j
    rw [add_assoc, hadd i (j + 1), hs j]
    exact h.adj_self (hFk i) (hFk j)
  -- squares
  have he : ∀ j, ∫ θ, f θ * F (2 * j) θ ∂π = ∫ θ, F j θ ^ 2 ∂π := by
    intro j
    rw [two_mul, hadd j j]
    simp only [sq]
  have ho : ∀ j, ∫ θ, f θ * F (2 * j + 1) θ ∂π = ∫ y, app B (F j) y ^ 2 ∂m := by
    intro j
    rw [two_mul, hG j j]
    simp only [sq]
  have hde : ∀ j, ∫ θ, f θ * F (2 * j + 1) θ ∂π ≤ ∫ θ, f θ * F (2 * j) θ ∂π := by
    intro j
    rw [he, ho]
    exact (app_memLp h.sndB (hFk j)).2
  have hdo : ∀ j, ∫ θ, f θ * F (2 * j + 2) θ ∂π ≤ ∫ θ, f θ * F (2 * j + 1) θ ∂π := by
    intro j
    rw [show 2 * j + 2 = 2 * (j + 1) by ring, he, ho, hs]
    exact (app_memLp h.sndA (hGk j)).2
  have hconv : ∀ k, (∫ θ, f θ * F (k + 1) θ ∂π) - (∫ θ, f θ * F (k + 2) θ ∂π) ≤
      (∫ θ, f θ * F k θ ∂π) - ∫ θ, f θ * F (k + 1) θ ∂π := by
    intro k
    rcases Nat.even_or_odd' k with ⟨j, rfl | rfl⟩
    · have h1 := integral_sq_sub_nonneg (hFk j) (hFk (j + 1))
      have h2 : ∫ θ, f θ * F (2 * j + 1) θ ∂π = ∫ θ, F j θ * F (j + 1) θ ∂π := by
        rw [← hadd j (j + 1)]
        congr! 4
        ring
      rw [he j, h2, show 2 * j + 2 = 2 * (j + 1) by ring, he (j + 1)]
      linarith
    · have h1 := integral_sq_sub_nonneg (hGk j) (hGk (j + 1))
      have h2 : ∫ θ, f θ * F (2 * j + 1 + 1) θ ∂π = ∫ y, app B (F j) y * app B (F (j + 1)) y ∂m := by
        rw [← hG j (j + 1)]
        congr! 4
        ring
      rw [ho j, h2, show 2 * j + 1 + 2 = 2 * (j + 1) + 1 by ring, ho (j + 1)]
      linarith
  have hdec : ∀ k, ∫ θ, f θ * F (k + 1) θ ∂π ≤ ∫ θ, f θ * F k θ ∂π := by
    intro k
    rcases Nat.even_or_odd' k with ⟨j, rfl | rfl⟩
    · exact hde j
    · exact hdo j
  have hone : ∀ k, (fun f => app A (app B f))^[k] (fun _ => (1 : ℝ)) = fun _ => 1 := by
    intro k
    refine Function.iterate_fixed ?_ k
    funext θ
    simp [app]
  have hmean : ∀ k, ∫ θ, F k θ ∂π = ∫ θ, f θ ∂π := by
    intro k
    have := h.symm_iter (memLp_const (1 : ℝ)) hf k
    rw [hone k] at this
    simpa using this
  have hpe : ∀ j, (∫ θ, f θ ∂π) * (∫ θ, f θ ∂π) ≤ ∫ θ, f θ * F (2 * j) θ ∂π := by
    intro j
    have h1 := variance_nonneg (F j) π
    rw [variance_eq_sub (hFk j), hmean j] at h1
    rw [he j]
    have h2 : ∫ θ, (F j ^ 2) θ ∂π = ∫ θ, F j θ ^ 2 ∂π := rfl
    rw [h2] at h1
    nlinarith
  refine ⟨?_, fun k => ?_, ?_, fun k => ?_⟩
  · rw [hc 0, variance_eq_sub hf]
    simp [F, sq]
  · rw [hc k, sub_nonneg]
    rcases Nat.even_or_odd' k with ⟨j, rfl | rfl⟩
    · exact hpe j
    · exact (hpe (j + 1)).trans (hdec (2 * j + 1))
  · refine antitone_nat_of_succ_le fun k => ?_
    rw [hc, hc]
    exact sub_le_sub_right (hdec k) _
  · rw [hc, hc, hc]
    have := hconv k
    linarith

end Alternates


end Verif
