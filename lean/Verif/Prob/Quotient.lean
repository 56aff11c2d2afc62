import Verif.Prob.ChangeVar
import Mathlib.MeasureTheory.Group.FundamentalDomain

/-!
# Changes of variables that may fold the transformed space

A countable group of measure preserving moves acts on the transformed space, `D` contains one point of every
orbit, and the map back to the original space forgets the group.  For a one-to-one change of variables the
group is trivial and `D` is everything.
-/

open MeasureTheory
open scoped ENNReal

namespace Verif

variable {Q X R U Λ : Type} [MeasurableSpace Q] [MeasurableSpace X] [MeasurableSpace R] [MeasurableSpace U]
  [AddGroup Λ] [AddAction Λ Q] [Countable Λ] [MeasurableConstVAdd Λ Q]

/-- A move that keeps the law in the transformed space and commutes with the group keeps the folded law. -/
theorem keeps_fold (μU : Measure U) [SFinite μU] (m : Measure Q) [SFinite m] [VAddInvariantMeasure Λ Q m]
    {D : Set Q} (hD : MeasurableSet D) (htile : ∀ q, ∃! l : Λ, l +ᵥ q ∈ D)
    {F : X → Q} {G : Q → X} (hF : Measurable F) (hG : Measurable G) (hFG : ∀ q ∈ D, F (G q) = q)
    (hGinv : ∀ (l : Λ) q, G (l +ᵥ q) = G q) {J : Q → ℝ≥0∞} (hJ : Measurable J)
    (hJinv : ∀ (l : Λ) q, J (l +ᵥ q) = J q) {ref : Measure X}
    (href : ((m.restrict D).withDensity J).map G = ref) {w : X → ℝ≥0∞} (hw : Measurable w)
    {k : U × Q → Q} (hk : Measurable k) (hkeq : ∀ u q (l : Λ), k (u, l +ᵥ q) = l +ᵥ k (u, q))
    (hinv : (μU.prod (m.withDensity fun q => w (G q) * J q)).map k =
      m.withDensity fun q => w (G q) * J q) :
    (μU.prod (ref.withDensity w)).map (fun p => G (k (p.1, F p.2))) = ref.withDensity w := by
  have hd : Measurable fun q => w (G q) * J q := (hw.comp hG).mul hJ
  have hdinv : ∀ (l : Λ) q, w (G (l +ᵥ q)) * J (l +ᵥ q) = w (G q) * J q := fun l q => by
    rw [hGinv, hJinv]
  have href : ref.withDensity w = ((m.restrict D).withDensity fun q => w (G q) * J q).map G := by
    have hwG : Measurable fun q => w (G q) := hw.comp hG
    rw [← href, ← map_withDensity_comp hG hw, ← withDensity_mul _ hJ hwG]
    congr 2
    funext q
    exact mul_comm _ _
  have hk' : Measurable fun p : U × X => G (k (p.1, F p.2)) :=
    hG.comp (hk.comp (measurable_fst.prodMk (hF.comp measurable_snd)))
  refine Measure.ext_of_lintegral _ fun φ hφ => ?_
  have hφG : Measurable fun q => φ (G q) := hφ.comp hG
  have hh : Measurable (D.indicator fun q => φ (G q)) := hφG.indicator hD
  have hηm : Measurable fun q => ∫⁻ u, D.indicator (fun q => φ (G q)) (k (u, q)) ∂μU :=
    (hh.comp hk).lintegral_prod_left'
  have hfold : ∀ q, φ (G q) = ∑' l : Λ, D.indicator (fun q => φ (G q)) (l +ᵥ q) := by
    intro q
    obtain ⟨l, hl, huniq⟩ := htile q
    rw [tsum_eq_single l, Set.indicator_of_mem hl, hGinv]
    intro l' hl'
    exact Set.indicator_of_notMem (fun h => hl' (huniq l' h)) _
  have hψ : ∀ q, ∫⁻ u, φ (G (k (u, q))) ∂μU =
      ∑' l : Λ, ∫⁻ u, D.indicator (fun q => φ (G q)) (k (u, l +ᵥ q)) ∂μU := by
    intro q
    rw [← lintegral_tsum fun l => ?_]
    · refine lintegral_congr fun u => ?_
      rw [hfold]
      exact tsum_congr fun l => by rw [hkeq]
    · exact (hh.comp (hk.comp (measurable_id.prodMk measurable_const))).aemeasurable
  have hdom : IsAddFundamentalDomain Λ D m := IsAddFundamentalDomain.mk' hD.nullMeasurableSet htile
  have hφk : Measurable fun p : U × X => φ (G (k (p.1, F p.2))) := hφ.comp hk'
  have hin : Measurable fun x => ∫⁻ u, φ (G (k (u, F x))) ∂μU := hφk.lintegral_prod_left'
  have hinG : Measurable fun q => ∫⁻ u, φ (G (k (u, F (G q)))) ∂μU := hin.comp hG
  rw [href, lintegral_map hφ hk', lintegral_prod_symm' _ hφk,
    lintegral_map hin hG, lintegral_map hφ hG,
    lintegral_withDensity_eq_lintegral_mul _ hd hinG,
    lintegral_withDensity_eq_lintegral_mul _ hd hφG]
  have e1 : ∫⁻ q in D, ((fun q => w (G q) * J q) *
      fun q => ∫⁻ u, φ (G (k (u, F (G q)))) ∂μU) q ∂m =
      ∫⁻ q in D, ∑' l : Λ, w (G (l +ᵥ q)) * J (l +ᵥ q) *
        ∫⁻ u, D.indicator (fun q => φ (G q)) (k (u, l +ᵥ q)) ∂μU ∂m := by
    refine setLIntegral_congr_fun hD fun q hq => ?_
    simp only [Pi.mul_apply, hFG q hq, hψ, hdinv]
    rw [ENNReal.tsum_mul_left]
  refine e1.trans ?_
  have hdl : ∀ l : Λ, Measurable fun q => w (G (l +ᵥ q)) * J (l +ᵥ q) *
      ∫⁻ u, D.indicator (fun q => φ (G q)) (k (u, l +ᵥ q)) ∂μU :=
    fun l => (hd.mul hηm).comp (measurable_const_vadd l)
  rw [lintegral_tsum fun l => (hdl l).aemeasurable,
    ← hdom.lintegral_eq_tsum'' fun q => w (G q) * J q *
      ∫⁻ u, D.indicator (fun q => φ (G q)) (k (u, q)) ∂μU]
  have h1 := congrArg (fun ν => ∫⁻ q, D.indicator (fun q => φ (G q)) q ∂ν) hinv
  simp only [lintegral_map hh hk] at h1
  have hhk : Measurable fun p => D.indicator (fun q => φ (G q)) (k p) := hh.comp hk
  rw [lintegral_prod_symm' _ hhk, lintegral_withDensity_eq_lintegral_mul _ hd hηm,
    lintegral_withDensity_eq_lintegral_mul _ hd hh] at h1
  refine h1.trans ?_
  rw [← lintegral_indicator hD]
  refine lintegral_congr fun q => ?_
  by_cases hq : q ∈ D <;> simp [hq]

/-- The same given realised values. -/
theorem keeps_folded (μR : Measure R) [SFinite μR] (μU : Measure U) [SFinite μU] (m : Measure Q) [SFinite m]
    [VAddInvariantMeasure Λ Q m]
    {D : Set Q} (hD : MeasurableSet D) (htile : ∀ q, ∃! l : Λ, l +ᵥ q ∈ D)
    {F : X → Q} {G : Q → X} (hF : Measurable F) (hG : Measurable G) (hFG : ∀ q ∈ D, F (G q) = q)
    (hGinv : ∀ (l : Λ) q, G (l +ᵥ q) = G q) {J : Q → ℝ≥0∞} (hJ : Measurable J)
    (hJinv : ∀ (l : Λ) q, J (l +ᵥ q) = J q) {ref : Measure X}
    (href : ((m.restrict D).withDensity J).map G = ref) {w : R × X → ℝ≥0∞} (hw : Measurable w)
    (hfin : ∫⁻ p, w p ∂(μR.prod ref) ≠ ∞)
    {k : U × R × Q → Q} (hk : Measurable k) (hkeq : ∀ u r q (l : Λ), k (u, r, l +ᵥ q) = l +ᵥ k (u, r, q))
    (hinv : ∀ r, ∫⁻ q in D, w (r, G q) * J q ∂m ≠ ∞ →
      (μU.prod (m.withDensity fun q => w (r, G q) * J q)).map (fun p => k (p.1, r, p.2)) =
        m.withDensity fun q => w (r, G q) * J q) :
    (((μR.prod ref).withDensity w).prod μU).map (fun p => (p.1.1, G (k (p.2, p.1.1, F p.1.2)))) =
      (μR.prod ref).withDensity w := by
  have hs : SFinite ref := by
    rw [← href]
    infer_instance
  have hk' : Measurable fun p : U × R × X => G (k (p.1, p.2.1, F p.2.2)) :=
    hG.comp (hk.comp (measurable_fst.prodMk ((measurable_fst.comp measurable_snd).prodMk
      (hF.comp (measurable_snd.comp measurable_snd)))))
  have hj := keeps_joint μR μU ref hw hfin hk' fun r hr => by
    have hwr : Measurable fun x => w (r, x) := hw.comp measurable_prodMk_left
    refine keeps_fold (k := fun p => k (p.1, r, p.2)) (w := fun x => w (r, x)) μU m hD htile hF hG hFG hGinv hJ hJinv href hwr
      (hk.comp (measurable_fst.prodMk (measurable_const.prodMk measurable_snd)))
      (fun u q l => hkeq u r q l) (hinv r ?_)
    have hwG : Measurable fun q => w (r, G q) := hwr.comp hG
    rw [← href, lintegral_map hwr hG, lintegral_withDensity_eq_lintegral_mul _ hJ hwG] at hr
    convert hr using 3
    exact mul_comm _ _
  rw [← Measure.prod_swap, Measure.map_map _ measurable_swap]
  · exact hj
  · exact (measurable_fst.comp measurable_fst).prodMk (hk'.comp (measurable_snd.prodMk measurable_fst))

end Verif
