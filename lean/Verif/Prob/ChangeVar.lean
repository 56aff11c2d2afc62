import Mathlib.MeasureTheory.Constructions.Pi
import Mathlib.MeasureTheory.Measure.WithDensityFinite
import Mathlib.MeasureTheory.Function.JacobianOneDim

/-!
# Coordinatewise changes of variables
-/

open MeasureTheory
open scoped ENNReal

namespace Verif

/-- The integral of a product of functions of the coordinates. -/
theorem lintegral_fin_prod : ∀ {n : ℕ} (μ : Fin n → Measure ℝ) [∀ i, SigmaFinite (μ i)]
    {f : Fin n → ℝ → ℝ≥0∞}, (∀ i, Measurable (f i)) →
    ∫⁻ x, ∏ i, f i (x i) ∂Measure.pi μ = ∏ i, ∫⁻ x, f i x ∂μ i
  | 0, μ, _, f, _ => by
    simp
  | n + 1, μ, _, f, hf => by
    have hmp := (measurePreserving_piFinSuccAbove μ 0).symm
    rw [← hmp.lintegral_comp_emb (MeasurableEquiv.measurableEmbedding _)]
    simp only [MeasurableEquiv.piFinSuccAbove_symm_apply, Fin.insertNthEquiv,
      Fin.prod_univ_succ, Fin.insertNth_zero, Equiv.coe_fn_mk, Fin.cons_succ,
      Fin.cons_zero, Fin.zero_succAbove, cast_eq]
    rw [lintegral_prod_mul (f := f 0) (g := fun x : Fin n → ℝ => ∏ i, f i.succ (x i))
      (hf 0).aemeasurable (by
        refine Measurable.aemeasurable ?_
        exact Finset.measurable_prod _ fun i _ => (hf _).comp (measurable_pi_apply i)),
      lintegral_fin_prod (fun i => μ i.succ) fun i => hf i.succ]

/-- Densities multiply over the coordinates. -/
theorem pi_withDensity {n : ℕ} (μ : Fin n → Measure ℝ) [∀ i, SigmaFinite (μ i)]
    {f : Fin n → ℝ → ℝ≥0∞} (hf : ∀ i, Measurable (f i))
    [∀ i, SigmaFinite ((μ i).withDensity (f i))] :
    Measure.pi (fun i => (μ i).withDensity (f i)) =
      (Measure.pi μ).withDensity fun x => ∏ i, f i (x i) := by
  apply Measure.pi_eq
  intro s hs
  rw [withDensity_apply _ (MeasurableSet.univ_pi hs), Measure.restrict_pi_pi,
    lintegral_fin_prod _ hf]
  exact Finset.prod_congr rfl fun i _ => (withDensity_apply _ (hs i)).symm

/-- Spec.  `g` maps the whole line onto `S`, `f` inverts it, and `dg` is its derivative. -/
structure ChangeVar (f g dg : ℝ → ℝ) (S : Set ℝ) : Prop where
  left_inv : ∀ y, f (g y) = y
  range : Set.range g = S
  deriv : ∀ y, HasDerivAt g (dg y) y
  pos : ∀ y, 0 < dg y
  meas : Measurable f
  meas_d : Measurable dg

variable {f g dg : ℝ → ℝ} {S : Set ℝ}

theorem ChangeVar.measurable (h : ChangeVar f g dg S) : Measurable g :=
  (continuous_iff_continuousAt.2 fun y => (h.deriv y).continuousAt).measurable

theorem ChangeVar.injective (h : ChangeVar f g dg S) : Function.Injective g :=
  Function.LeftInverse.injective h.left_inv

theorem ChangeVar.measurableSet (h : ChangeVar f g dg S) : MeasurableSet S := by
  have : S = {x | g (f x) = x} := by
    ext x
    rw [← h.range]
    constructor
    · rintro ⟨y, rfl⟩
      exact congrArg g (h.left_inv y)
    · intro hx
      exact ⟨_, hx⟩
  rw [this]
  exact measurableSet_eq_fun (h.measurable.comp h.meas) measurable_id

/-- Lebesgue measure on `S` is the image of the measure with the derivative as density. -/
theorem ChangeVar.map_eq (h : ChangeVar f g dg S) :
    (volume.withDensity fun y => ENNReal.ofReal (dg y)).map g = volume.restrict S := by
  ext A hA
  have hA' := h.measurable hA
  rw [Measure.map_apply h.measurable hA, withDensity_apply _ hA', Measure.restrict_apply hA,
    ← h.range, ← Set.image_preimage_eq_inter_range]
  have := lintegral_image_eq_lintegral_abs_deriv_mul hA' (fun x _ => (h.deriv x).hasDerivWithinAt)
    h.injective.injOn (fun _ => 1)
  simp only [lintegral_const, one_mul, Measure.restrict_apply_univ, mul_one] at this
  rw [this]
  exact lintegral_congr fun y => by rw [abs_of_pos (h.pos y)]

/-- The same in several coordinates. -/
theorem map_pi_eq {n : ℕ} {f g dg : Fin n → ℝ → ℝ} {S : Fin n → Set ℝ}
    (h : ∀ i, ChangeVar (f i) (g i) (dg i) (S i)) :
    (volume.withDensity fun y : Fin n → ℝ => ∏ i, ENNReal.ofReal (dg i (y i))).map
      (fun y i => g i (y i)) = volume.restrict (Set.univ.pi S) := by
  have hsf : ∀ i, SigmaFinite ((volume : Measure ℝ).withDensity fun y => ENNReal.ofReal (dg i y)) :=
    fun i => inferInstance
  have hsf' : ∀ i, SigmaFinite
      (((volume : Measure ℝ).withDensity fun y => ENNReal.ofReal (dg i y)).map (g i)) := fun i => by
    rw [(h i).map_eq]
    infer_instance
  rw [volume_pi, ← pi_withDensity (fun _ => (volume : Measure ℝ))
    (f := fun i y => ENNReal.ofReal (dg i y)) fun i => (h i).meas_d.ennreal_ofReal,
    Measure.pi_map_pi fun i => (h i).measurable.aemeasurable, Measure.restrict_pi_pi]
  congr 1
  funext i
  exact (h i).map_eq

/-- Relabelling the argument of a density. -/
theorem map_withDensity_comp {α β : Type} [MeasurableSpace α] [MeasurableSpace β] {μ : Measure α}
    {G : α → β} (hG : Measurable G) {w : β → ℝ≥0∞} (hw : Measurable w) :
    (μ.withDensity fun a => w (G a)).map G = (μ.map G).withDensity w := by
  ext A hA
  rw [Measure.map_apply hG hA, withDensity_apply _ (hG hA), withDensity_apply _ hA,
    setLIntegral_map hA hw hG]

variable {R U : Type} [MeasurableSpace R] [MeasurableSpace U]

/-- A law in the original space as the image of the law in the transformed space. -/
theorem map_transformed {n : ℕ} {f g dg : Fin n → ℝ → ℝ} {S : Fin n → Set ℝ}
    (h : ∀ i, ChangeVar (f i) (g i) (dg i) (S i)) (μR : Measure R) [SFinite μR]
    {w : R × (Fin n → ℝ) → ℝ≥0∞} (hw : Measurable w) :
    ((μR.prod volume).withDensity fun p : R × (Fin n → ℝ) =>
      w (p.1, fun i => g i (p.2 i)) * ∏ i, ENNReal.ofReal (dg i (p.2 i))).map
        (fun p => (p.1, fun i => g i (p.2 i))) =
      (μR.prod (volume.restrict (Set.univ.pi S))).withDensity w := by
  have hG : Measurable fun q : Fin n → ℝ => fun i => g i (q i) :=
    measurable_pi_lambda _ fun i => (h i).measurable.comp (measurable_pi_apply i)
  have hJ : Measurable fun q : Fin n → ℝ => ∏ i, ENNReal.ofReal (dg i (q i)) :=
    Finset.measurable_prod _ fun i _ => ((h i).meas_d.comp (measurable_pi_apply i)).ennreal_ofReal
  have hG2 : Measurable fun p : R × (Fin n → ℝ) => (p.1, fun i => g i (p.2 i)) :=
    measurable_fst.prodMk (hG.comp measurable_snd)
  have e : ((μR.prod volume).withDensity fun p : R × (Fin n → ℝ) =>
      w (p.1, fun i => g i (p.2 i)) * ∏ i, ENNReal.ofReal (dg i (p.2 i))) =
      (μR.prod (volume.withDensity fun q : Fin n → ℝ => ∏ i, ENNReal.ofReal (dg i (q i)))).withDensity
        fun p => w (p.1, fun i => g i (p.2 i)) := by
    have := withDensity_mul (μR.prod (volume : Measure (Fin n → ℝ))) (hJ.comp measurable_snd)
      (hw.comp hG2)
    rw [prod_withDensity_right hJ]
    refine Eq.trans ?_ this
    congr 1
    funext p
    exact mul_comm _ _
  rw [e, map_withDensity_comp hG2 hw]
  congr 1
  rw [← map_pi_eq h]
  have := Measure.map_prod_map μR
    (volume.withDensity fun q : Fin n → ℝ => ∏ i, ENNReal.ofReal (dg i (q i))) measurable_id hG
  rw [Measure.map_id] at this
  rw [this]
  rfl

/-- A random move of the second coordinate that keeps every conditional law keeps the joint law. -/
theorem keeps_joint {Q : Type} [MeasurableSpace Q] (μR : Measure R) [SFinite μR] (μU : Measure U)
    [SFinite μU] (m : Measure Q) [SFinite m] {d : R × Q → ℝ≥0∞} (hd : Measurable d)
    (hfin : ∫⁻ p, d p ∂(μR.prod m) ≠ ∞)
    {k : U × R × Q → Q} (hk : Measurable k)
    (hinv : ∀ r, ∫⁻ q, d (r, q) ∂m ≠ ∞ →
      (μU.prod (m.withDensity fun q => d (r, q))).map (fun p => k (p.1, r, p.2)) =
        m.withDensity fun q => d (r, q)) :
    (μU.prod ((μR.prod m).withDensity d)).map (fun p => (p.2.1, k p)) = (μR.prod m).withDensity d := by
  have hk2 : Measurable fun p : U × R × Q => (p.2.1, k p) :=
    (measurable_fst.comp measurable_snd).prodMk hk
  refine Measure.ext_of_lintegral _ fun φ hφ => ?_
  have hφk : Measurable fun p : U × R × Q => φ (p.2.1, k p) := hφ.comp hk2
  have hsec : ∀ r : R, Measurable fun q : Q => (r, q) := fun r => measurable_prodMk_left
  have hae : ∀ᵐ r ∂μR, ∫⁻ q, d (r, q) ∂m < ∞ := by
    rw [lintegral_prod _ hd.aemeasurable] at hfin
    exact ae_lt_top hd.lintegral_prod_right' hfin
  rw [lintegral_map hφ hk2, lintegral_prod_symm' _ hφk, lintegral_withDensity_eq_lintegral_mul _ hd
    hφk.lintegral_prod_left', lintegral_withDensity_eq_lintegral_mul _ hd hφ,
    lintegral_prod _ (hd.mul hφk.lintegral_prod_left').aemeasurable,
    lintegral_prod _ (hd.mul hφ).aemeasurable]
  refine lintegral_congr_ae (hae.mono fun r hr => ?_)
  have hkr : Measurable fun p : U × Q => k (p.1, r, p.2) :=
    hk.comp (measurable_fst.prodMk (measurable_const.prodMk measurable_snd))
  have hφr : Measurable fun q => φ (r, q) := hφ.comp (hsec r)
  have hdr : Measurable fun q => d (r, q) := hd.comp (hsec r)
  have hφkr : Measurable fun p : U × Q => φ (r, k (p.1, r, p.2)) := hφr.comp hkr
  have h1 := congrArg (fun ν => ∫⁻ q, φ (r, q) ∂ν) (hinv r hr.ne)
  rw [lintegral_map hφr hkr, lintegral_prod_symm' _ hφkr,
    lintegral_withDensity_eq_lintegral_mul _ hdr hφkr.lintegral_prod_left',
    lintegral_withDensity_eq_lintegral_mul _ hdr hφr] at h1
  exact h1

/-- Transform, move, transform back: if every move keeps the conditional law in the transformed space,
with the factor for the change of variables, the joint law in the original space is kept. -/
theorem keeps_original {n : ℕ} {f g dg : Fin n → ℝ → ℝ} {S : Fin n → Set ℝ}
    (h : ∀ i, ChangeVar (f i) (g i) (dg i) (S i)) (μR : Measure R) [SFinite μR]
    (μU : Measure U) [SFinite μU] {w : R × (Fin n → ℝ) → ℝ≥0∞} (hw : Measurable w)
    (hfin : ∫⁻ p, w p ∂(μR.prod (volume.restrict (Set.univ.pi S))) ≠ ∞)
    {k : U × R × (Fin n → ℝ) → (Fin n → ℝ)} (hk : Measurable k)
    (hinv : ∀ r, ∫⁻ q : Fin n → ℝ, w (r, fun i => g i (q i)) * ∏ i, ENNReal.ofReal (dg i (q i)) ≠ ∞ →
      (μU.prod (volume.withDensity fun q : Fin n → ℝ =>
        w (r, fun i => g i (q i)) * ∏ i, ENNReal.ofReal (dg i (q i)))).map (fun p => k (p.1, r, p.2)) =
        volume.withDensity fun q : Fin n → ℝ =>
          w (r, fun i => g i (q i)) * ∏ i, ENNReal.ofReal (dg i (q i))) :
    (((μR.prod (volume.restrict (Set.univ.pi S))).withDensity w).prod μU).map
      (fun p => (p.1.1, fun i => g i (k (p.2, p.1.1, fun i => f i (p.1.2 i)) i))) =
    (μR.prod (volume.restrict (Set.univ.pi S))).withDensity w := by
  have hG : Measurable fun q : Fin n → ℝ => fun i => g i (q i) :=
    measurable_pi_lambda _ fun i => (h i).measurable.comp (measurable_pi_apply i)
  have hF : Measurable fun q : Fin n → ℝ => fun i => f i (q i) :=
    measurable_pi_lambda _ fun i => (h i).meas.comp (measurable_pi_apply i)
  have hJ : Measurable fun q : Fin n → ℝ => ∏ i, ENNReal.ofReal (dg i (q i)) :=
    Finset.measurable_prod _ fun i _ => ((h i).meas_d.comp (measurable_pi_apply i)).ennreal_ofReal
  have hG2 : Measurable fun p : R × (Fin n → ℝ) => (p.1, fun i => g i (p.2 i)) :=
    measurable_fst.prodMk (hG.comp measurable_snd)
  have hd : Measurable fun p : R × (Fin n → ℝ) =>
      w (p.1, fun i => g i (p.2 i)) * ∏ i, ENNReal.ofReal (dg i (p.2 i)) :=
    (hw.comp hG2).mul (hJ.comp measurable_snd)
  have hmap := map_transformed h μR hw
  have hfin' : ∫⁻ p : R × (Fin n → ℝ), w (p.1, fun i => g i (p.2 i)) *
      ∏ i, ENNReal.ofReal (dg i (p.2 i)) ∂(μR.prod volume) ≠ ∞ := by
    have := congrArg (fun ν => ν Set.univ) hmap
    simp only [Measure.map_apply hG2 MeasurableSet.univ, Set.preimage_univ,
      withDensity_apply _ MeasurableSet.univ, Measure.restrict_univ] at this
    rwa [this]
  have hjoint := keeps_joint μR μU volume hd hfin' hk hinv
  have hk2 : Measurable fun p : U × R × (Fin n → ℝ) => (p.2.1, k p) :=
    (measurable_fst.comp measurable_snd).prodMk hk
  have hΦ : Measurable fun p : (R × (Fin n → ℝ)) × U =>
      (p.1.1, fun i => g i (k (p.2, p.1.1, fun i => f i (p.1.2 i)) i)) := by
    refine (measurable_fst.comp measurable_fst).prodMk (hG.comp (hk.comp ?_))
    exact measurable_snd.prodMk ((measurable_fst.comp measurable_fst).prodMk
      (hF.comp (measurable_snd.comp measurable_fst)))
  conv_lhs => rw [← hmap, ← Measure.map_id (μ := μU), Measure.map_prod_map _ _ hG2 measurable_id,
    Measure.map_map hΦ (hG2.prodMap measurable_id), ← Measure.prod_swap,
    Measure.map_map (hΦ.comp (hG2.prodMap measurable_id)) measurable_swap]
  conv_rhs => rw [← hmap, ← hjoint, Measure.map_map hG2 hk2]
  congr 1
  funext p
  simp only [Function.comp, Prod.map, Prod.swap, id, (h _).left_inv]

end Verif
