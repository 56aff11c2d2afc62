import Verif.HsReg.Small
import Verif.Shared.Lemmas

/-!
# Whole calls, whichever shrinkage parameters the step of the coefficients reads

Negative moments of a coefficient before and after a call.
-/

open MeasureTheory ProbabilityTheory Matrix
open scoped ENNReal

namespace Verif.HsReg

variable {p n : ℕ}

theorem measurable_read (rd : Reads) :
    Measurable fun t : ((Fin p → ℝ) × ℝ) × ((Fin p → ℝ) × ℝ) => rd.read t.1 t.2 := by
  unfold Reads.read
  refine Measurable.prodMk ?_ ?_
  · cases rd.newLambda <;> simp only [if_true, if_false, Bool.false_eq_true] <;> fun_prop
  · cases rd.newTau <;> simp only [if_true, if_false, Bool.false_eq_true] <;> fun_prop

theorem read_pos (rd : Reads) {s t : (Fin p → ℝ) × ℝ} (hs : Horseshoe.AllPos s) (ht : Horseshoe.AllPos t) :
    Horseshoe.AllPos (rd.read s t) := by
  unfold Reads.read
  constructor
  · intro j
    by_cases h : rd.newLambda <;> simp only [h, if_true, if_false, Bool.false_eq_true]
    · exact ht.1 j
    · exact hs.1 j
  · by_cases h : rd.newTau <;> simp only [h, if_true, if_false, Bool.false_eq_true]
    · exact ht.2
    · exact hs.2

theorem inv_rpow_le {x t s : ℝ} (hx : 0 < x) (ht : 0 < t) (hs : 0 < s) :
    ENNReal.ofReal ((x * t)⁻¹ ^ s) ≤ negPow s x + negPow s t := by
  have key : ∀ {x t : ℝ}, 0 < x → x ≤ t → ENNReal.ofReal ((x * t)⁻¹ ^ s) ≤ negPow s x := by
    intro x t hx hxt
    refine ENNReal.ofReal_le_ofReal (Real.rpow_le_rpow (by have := hx.trans_le hxt; positivity) ?_ hs.le)
    rw [sq]
    exact inv_anti₀ (mul_pos hx hx) (mul_le_mul_of_nonneg_left hxt hx.le)
  rcases le_total x t with h | h
  · exact (key hx h).trans le_self_add
  · rw [mul_comm x t]
    exact (key ht h).trans le_add_self

/-- Negative moments of the shrinkage parameters of coordinate `j`. -/
noncomputable def shrinkPow (s : ℝ) (j : Fin p) (q : (Fin p → ℝ) × ℝ) : ℝ≥0∞ :=
  negPow s (q.1 j) + negPow s q.2

theorem measurable_shrinkPow (s : ℝ) (j : Fin p) : Measurable (shrinkPow s j) :=
  ((measurable_negPow s).comp (by fun_prop)).add ((measurable_negPow s).comp measurable_snd)

theorem lintegral_shrinkPow (s : ℝ) (j : Fin p) :
    ∫⁻ q, shrinkPow s j q ∂Horseshoe.prior p = 2 * Horseshoe.hcPow s := by
  unfold shrinkPow
  rw [lintegral_add_right (g := fun q : (Fin p → ℝ) × ℝ => negPow s q.2) _
    ((measurable_negPow s).comp measurable_snd), two_mul]
  exact congrArg₂ _ (Horseshoe.prior_pow_fst j s) (Horseshoe.prior_pow_snd s)

/-- What is read is among the old and the new values. -/
theorem read_pow_le (rd : Reads) (s : ℝ) (j : Fin p) (old new : (Fin p → ℝ) × ℝ) :
    negPow s ((rd.read old new).1 j) + negPow s (rd.read old new).2 ≤
      shrinkPow s j new + shrinkPow s j old := by
  have e1 : negPow s ((rd.read old new).1 j) ≤ negPow s (new.1 j) + negPow s (old.1 j) := by
    unfold Reads.read
    by_cases h : rd.newLambda <;> simp only [h, if_true, if_false, Bool.false_eq_true]
    · exact le_self_add
    · exact le_add_self
  have e2 : negPow s (rd.read old new).2 ≤ negPow s new.2 + negPow s old.2 := by
    unfold Reads.read
    by_cases h : rd.newTau <;> simp only [h, if_true, if_false, Bool.false_eq_true]
    · exact le_self_add
    · exact le_add_self
  refine (add_le_add e1 e2).trans (le_of_eq ?_)
  unfold shrinkPow
  ring


section

variable {X : Matrix (Fin n) (Fin p) ℝ} {b κ : Fin n → ℝ} {lik : (Fin p → ℝ) → ℝ≥0∞}

/-- New coefficients, with the new shrinkage parameters. -/
noncomputable def readInner (rd : Reads) (K : (Fin p → ℝ) × ((Fin p → ℝ) × ℝ) → Measure (Fin p → ℝ))
    (t : ((Fin p → ℝ) × ((Fin p → ℝ) × ℝ)) × ((Fin p → ℝ) × ℝ)) :
    Measure ((Fin p → ℝ) × ((Fin p → ℝ) × ℝ)) :=
  (K (t.1.1, rd.read t.1.2 t.2)).map fun β => (β, t.2)

/-- The call, with every parameter made positive. -/
noncomputable def readK (conv : Horseshoe.ExpArg) (rd : Reads)
    (K : (Fin p → ℝ) × ((Fin p → ℝ) × ℝ) → Measure (Fin p → ℝ)) (q : (Fin p → ℝ) × ((Fin p → ℝ) × ℝ)) :
    Measure ((Fin p → ℝ) × ((Fin p → ℝ) × ℝ)) :=
  (shrinkK conv q).bind fun s => readInner rd K (q, s)

variable {K : (Fin p → ℝ) × ((Fin p → ℝ) × ℝ) → Measure (Fin p → ℝ)}

theorem measurable_readInner (rd : Reads) (hK : Measurable K) (hp : ∀ q, IsProbabilityMeasure (K q)) :
    Measurable (readInner rd K) := by
  have hr : Measurable fun t : ((Fin p → ℝ) × ((Fin p → ℝ) × ℝ)) × ((Fin p → ℝ) × ℝ) =>
      rd.read t.1.2 t.2 :=
    (measurable_read rd).comp (f := fun t : ((Fin p → ℝ) × ((Fin p → ℝ) × ℝ)) × ((Fin p → ℝ) × ℝ) =>
      (t.1.2, t.2)) (by fun_prop)
  have hK2 : Measurable fun t : ((Fin p → ℝ) × ((Fin p → ℝ) × ℝ)) × ((Fin p → ℝ) × ℝ) =>
      K (t.1.1, rd.read t.1.2 t.2) :=
    hK.comp ((measurable_fst.comp measurable_fst).prodMk hr)
  exact measurable_map_param hK2 (fun t => hp _)
    (g := fun v : (((Fin p → ℝ) × ((Fin p → ℝ) × ℝ)) × ((Fin p → ℝ) × ℝ)) × (Fin p → ℝ) =>
      (v.2, v.1.2)) (by fun_prop)

theorem measurable_readK (conv : Horseshoe.ExpArg) (rd : Reads) (hK : Measurable K)
    (hp : ∀ q, IsProbabilityMeasure (K q)) : Measurable (readK conv rd K) :=
  measurable_bind_param (measurable_shrinkK conv) (prob_shrinkK conv) (measurable_readInner rd hK hp)

theorem prob_readK (conv : Horseshoe.ExpArg) (rd : Reads) (hK : Measurable K)
    (hp : ∀ q, IsProbabilityMeasure (K q)) (q : (Fin p → ℝ) × ((Fin p → ℝ) × ℝ)) :
    IsProbabilityMeasure (readK conv rd K q) := by
  have := prob_shrinkK conv q
  refine isProbabilityMeasure_bind
    ((measurable_readInner rd hK hp).comp measurable_prodMk_left).aemeasurable (ae_of_all _ fun s => ?_)
  have := hp (q.1, rd.read q.2 s)
  exact Measure.isProbabilityMeasure_map (by fun_prop)

theorem lintegral_readK (conv : Horseshoe.ExpArg) (rd : Reads) (hK : Measurable K)
    (hp : ∀ q, IsProbabilityMeasure (K q)) (q : (Fin p → ℝ) × ((Fin p → ℝ) × ℝ))
    {f : (Fin p → ℝ) × ((Fin p → ℝ) × ℝ) → ℝ≥0∞} (hf : Measurable f) :
    ∫⁻ r, f r ∂readK conv rd K q =
      ∫⁻ s, ∫⁻ β, f (β, s) ∂K (q.1, rd.read q.2 s) ∂shrinkK conv q := by
  have hm : Measurable fun s => readInner rd K (q, s) :=
    (measurable_readInner rd hK hp).comp measurable_prodMk_left
  rw [readK, Measure.lintegral_bind hm.aemeasurable hf.aemeasurable]
  refine lintegral_congr fun s => ?_
  rw [readInner, lintegral_map hf (by fun_prop)]

/-- What depends on the new shrinkage parameters only. -/
theorem lintegral_readK_shrink (conv : Horseshoe.ExpArg) (rd : Reads) (hK : Measurable K)
    (hp : ∀ q, IsProbabilityMeasure (K q)) (q : (Fin p → ℝ) × ((Fin p → ℝ) × ℝ))
    {f : (Fin p → ℝ) × ℝ → ℝ≥0∞} (hf : Measurable f) :
    ∫⁻ r, f r.2 ∂readK conv rd K q = ∫⁻ s, f s ∂shrinkK conv q := by
  rw [lintegral_readK conv rd hK hp q (f := fun r => f r.2) (by fun_prop)]
  refine lintegral_congr fun s => ?_
  have := hp (q.1, rd.read q.2 s)
  simp

theorem readK_ae (F : PGForm X b κ lik) {la : LinAlg} (hla : la.Sound) (conv : Horseshoe.ExpArg)
    (rd : Reads) {q : (Fin p → ℝ) × ((Fin p → ℝ) × ℝ)} (hq : Horseshoe.AllPos q.2) :
    ((Horseshoe.horseshoeStep conv q.1 q.2).bind fun s =>
      (pgStep la (fun j => ((rd.read q.2 s).1 j * (rd.read q.2 s).2)⁻¹) X b κ q.1).map fun β => (β, s)) =
      readK conv rd (coefK X b κ) q := by
  rw [readK, shrinkK_eq conv q.1 hq]
  refine Measure.bind_congr_right ?_
  filter_upwards [Shared.ae_shrinkK_pos conv (q.1, q.2)] with s hs
  rw [coefK_eq hla X F.hb κ (read_pos rd hq hs)]
  rfl

/-- Part of the bound that comes from the data. -/
noncomputable def dataSum (X : Matrix (Fin n) (Fin p) ℝ) (b : Fin n → ℝ) (j : Fin p) : ℝ≥0∞ :=
  ∑ i, ENNReal.ofReal (X i j ^ 2) * ENNReal.ofReal (pgMean * posOr1 (b i))

theorem dataSum_ne_top (X : Matrix (Fin n) (Fin p) ℝ) (b : Fin n → ℝ) (j : Fin p) : dataSum X b j ≠ ∞ :=
  ENNReal.sum_ne_top.2 fun _ _ => ENNReal.mul_ne_top ENNReal.ofReal_ne_top ENNReal.ofReal_ne_top

theorem lintegral_coefK_le (rd : Reads) {s : ℝ} (h0 : 0 < s) (h1 : s < 1 / 2)
    (X : Matrix (Fin n) (Fin p) ℝ) (b κ : Fin n → ℝ) (j : Fin p)
    {q : (Fin p → ℝ) × ((Fin p → ℝ) × ℝ)} (hq : Horseshoe.AllPos q.2)
    {t : (Fin p → ℝ) × ℝ} (ht : Horseshoe.AllPos t) :
    ∫⁻ β, negPow s (β j) ∂coefK X b κ (q.1, rd.read q.2 t) ≤
      ENNReal.ofReal (3 * (1 - 2 * s)⁻¹) *
        (shrinkPow s j t + (shrinkPow s j q.2 + 1 + dataSum X b j)) := by
  have hrd := read_pos rd hq ht
  have hstep := lintegral_negPow_step h0 h1 (d := precOf (rd.read q.2 t)) (fun _ => posOr1_pos _) X κ
    (b := fun i => posOr1 (b i)) (fun _ => posOr1_pos _) (fun i => (X *ᵥ q.1) i) j
  have e0 : coefK X b κ (q.1, rd.read q.2 t) =
      (Measure.pi fun i => pg (posOr1 (b i)) ((X *ᵥ q.1) i)).bind fun w =>
        bayes (mvn 0 (diagonal (precOf (rd.read q.2 t)))⁻¹) fun β => pgJoint X κ β w := by
    rw [coefK]
    congr 1
    funext w
    rw [bayes_mvn_eq (d := precOf (rd.read q.2 t)) (fun _ => posOr1_pos _)
      (measurable_pgJoint_left X κ w)]
    rfl
  rw [e0]
  refine hstep.trans (mul_le_mul' le_rfl ?_)
  have e1 : precOf (rd.read q.2 t) j = ((rd.read q.2 t).1 j * (rd.read q.2 t).2)⁻¹ :=
    posOr1_of_pos (inv_pos.2 (mul_pos (hrd.1 j) hrd.2))
  rw [e1]
  have h3 := (inv_rpow_le (hrd.1 j) hrd.2 h0).trans (read_pow_le rd s j q.2 t)
  calc ENNReal.ofReal (((rd.read q.2 t).1 j * (rd.read q.2 t).2)⁻¹ ^ s) + 1 + dataSum X b j
      ≤ shrinkPow s j t + shrinkPow s j q.2 + 1 + dataSum X b j := by gcongr
    _ = _ := by ring

/-- No call keeps the joint posterior. -/
theorem readK_never (conv : Horseshoe.ExpArg) (rd : Reads) (F : PGForm X b κ lik) (j : Fin p) :
    (hsPosterior lik).bind (readK conv rd (coefK X b κ)) ≠ hsPosterior lik := by
  intro h
  have B := F.boxLik
  have hcm := measurable_coefK X b κ
  have hcp := prob_coefK X b κ
  have hK := measurable_readK conv rd hcm hcp
  have hpr := B.prob
  have hgood := ae_hsPosterior_pos lik F.measurable
  obtain ⟨C, hC, hup⟩ := B.marginal_le
  obtain ⟨c, hc0, hcT, hlow⟩ := B.coef_ge j
  -- means of the shrinkage parameters, old and new
  have holdS : ∀ s, ∫⁻ q, shrinkPow s j q.2 ∂hsPosterior lik ≤ C * (2 * Horseshoe.hcPow s) := by
    intro s
    rw [← lintegral_map (measurable_shrinkPow s j) measurable_snd, ← lintegral_shrinkPow, ← smul_eq_mul,
      ← lintegral_smul_measure]
    exact lintegral_mono' hup le_rfl
  have hnewS : ∀ s, ∫⁻ q, ∫⁻ t, shrinkPow s j t ∂shrinkK conv q ∂hsPosterior lik =
      ∫⁻ q, shrinkPow s j q.2 ∂hsPosterior lik := by
    intro s
    have hG := measurable_shrinkPow s j
    have hG2 : Measurable fun q : (Fin p → ℝ) × ((Fin p → ℝ) × ℝ) => shrinkPow s j q.2 :=
      hG.comp measurable_snd
    conv_rhs => rw [← h, Measure.lintegral_bind hK.aemeasurable hG2.aemeasurable]
    exact lintegral_congr fun q => (lintegral_readK_shrink conv rd hcm hcp q hG).symm
  let W : ℝ≥0∞ := dataSum X b j
  have hW : W ≠ ∞ := dataSum_ne_top X b j
  refine no_quadratic (c := c) (A := 12 * C) (B := 3 * (4 * C + 1 + W)) hc0 hcT
    (by finiteness) (by finiteness) fun s hs0 hs1 => ?_
  have hG := measurable_shrinkPow s j
  have hmj : Measurable fun β : Fin p → ℝ => negPow s (β j) :=
    (measurable_negPow s).comp (measurable_pi_apply j)
  have hmr : Measurable fun q : (Fin p → ℝ) × ((Fin p → ℝ) × ℝ) => negPow s (q.1 j) :=
    hmj.comp measurable_fst
  have hG2 : Measurable fun q : (Fin p → ℝ) × ((Fin p → ℝ) × ℝ) => shrinkPow s j q.2 :=
    hG.comp measurable_snd
  have hR : Measurable fun q : (Fin p → ℝ) × ((Fin p → ℝ) × ℝ) => shrinkPow s j q.2 + 1 + W :=
    (hG2.add_const 1).add_const W
  have hS : Measurable fun q : (Fin p → ℝ) × ((Fin p → ℝ) × ℝ) =>
      ∫⁻ t, shrinkPow s j t ∂shrinkK conv q :=
    (Measure.measurable_lintegral hG).comp (measurable_shrinkK conv)
  have hup2 : ∫⁻ q, negPow s (q.1 j) ∂hsPosterior lik ≤ ENNReal.ofReal (3 * (1 - 2 * s)⁻¹) *
      (4 * C * Horseshoe.hcPow s + 1 + W) := by
    conv_lhs => rw [← h, Measure.lintegral_bind hK.aemeasurable hmr.aemeasurable]
    calc ∫⁻ q, ∫⁻ r, negPow s (r.1 j) ∂readK conv rd (coefK X b κ) q ∂hsPosterior lik
        ≤ ∫⁻ q, ENNReal.ofReal (3 * (1 - 2 * s)⁻¹) * (∫⁻ t, shrinkPow s j t ∂shrinkK conv q +
            (shrinkPow s j q.2 + 1 + W)) ∂hsPosterior lik := by
          refine lintegral_mono_ae (hgood.mono fun q hq => ?_)
          have hpk := prob_shrinkK conv q
          rw [lintegral_readK conv rd hcm hcp q hmr]
          calc ∫⁻ t, ∫⁻ β, negPow s (β j) ∂coefK X b κ (q.1, rd.read q.2 t) ∂shrinkK conv q
              ≤ ∫⁻ t, ENNReal.ofReal (3 * (1 - 2 * s)⁻¹) * (shrinkPow s j t +
                  (shrinkPow s j q.2 + 1 + W)) ∂shrinkK conv q :=
                lintegral_mono_ae ((Shared.ae_shrinkK_pos conv q).mono fun t ht =>
                  lintegral_coefK_le rd hs0 hs1 X b κ j hq ht)
            _ = _ := by
                rw [lintegral_const_mul _ (hG.add_const _), lintegral_add_left hG]
                simp
      _ = ENNReal.ofReal (3 * (1 - 2 * s)⁻¹) * (∫⁻ q, shrinkPow s j q.2 ∂hsPosterior lik +
            (∫⁻ q, shrinkPow s j q.2 ∂hsPosterior lik + 1 + W)) := by
          have hSR : Measurable fun q : (Fin p → ℝ) × ((Fin p → ℝ) × ℝ) =>
            ∫⁻ t, shrinkPow s j t ∂shrinkK conv q + (shrinkPow s j q.2 + 1 + W) := hS.add hR
          rw [lintegral_const_mul _ hSR, lintegral_add_left hS, hnewS,
            lintegral_add_left (hG2.add_const 1), lintegral_add_left hG2]
          simp
      _ ≤ ENNReal.ofReal (3 * (1 - 2 * s)⁻¹) * (C * (2 * Horseshoe.hcPow s) +
            (C * (2 * Horseshoe.hcPow s) + 1 + W)) := by
          have := holdS s
          gcongr
      _ = _ := by ring
  have ht : 0 < (1 - 2 * s)⁻¹ := inv_pos.2 (by linarith)
  have hT0 : ENNReal.ofReal (1 - 2 * s)⁻¹ ≠ 0 := by simpa using ht
  have key : ENNReal.ofReal (1 - 2 * s)⁻¹ * (c * (Horseshoe.hcPow1 s * Horseshoe.hcPow1 s)) ≤
      ENNReal.ofReal (1 - 2 * s)⁻¹ * (12 * C * Horseshoe.hcPow1 s + 3 * (4 * C + 1 + W)) := by
    calc ENNReal.ofReal (1 - 2 * s)⁻¹ * (c * (Horseshoe.hcPow1 s * Horseshoe.hcPow1 s))
        = c * (Horseshoe.hcPow1 s * Horseshoe.hcPow1 s * ENNReal.ofReal (1 - 2 * s)⁻¹) := by ring
      _ ≤ ENNReal.ofReal (3 * (1 - 2 * s)⁻¹) * (4 * C * Horseshoe.hcPow s + 1 + W) :=
          (hlow s hs1).trans hup2
      _ ≤ ENNReal.ofReal (3 * (1 - 2 * s)⁻¹) * (4 * C * (Horseshoe.hcPow1 s + 1) + 1 + W) := by
          have := Horseshoe.hcPow_le hs0
          gcongr
      _ = _ := by
          rw [ENNReal.ofReal_mul (by norm_num : (0 : ℝ) ≤ 3), ENNReal.ofReal_ofNat]
          ring
  exact (ENNReal.mul_le_mul_iff_right hT0 ENNReal.ofReal_ne_top).1 key

end

/-- Scale reading: no law of the new coefficients, given everything old and the new shrinkage parameters,
repairs the call. -/
theorem BoxLik.scale_any_never {lik : (Fin p → ℝ) → ℝ≥0∞} (F : BoxLik lik) (j : Fin p)
    {K : ((Fin p → ℝ) × ((Fin p → ℝ) × ℝ)) × ((Fin p → ℝ) × ℝ) → Measure (Fin p → ℝ)} (hK : Measurable K)
    (hp : ∀ t, IsProbabilityMeasure (K t)) :
    ¬ Stationary (hsPosterior lik) fun q => (shrinkK .scale q).bind fun s =>
      (K (q, s)).map fun β => (β, s) := by
  intro h
  have hm2 : Measurable fun t : ((Fin p → ℝ) × ((Fin p → ℝ) × ℝ)) × ((Fin p → ℝ) × ℝ) =>
      (K t).map fun β => (β, t.2) :=
    measurable_map_param hK hp
      (g := fun v : (((Fin p → ℝ) × ((Fin p → ℝ) × ℝ)) × ((Fin p → ℝ) × ℝ)) × (Fin p → ℝ) =>
        (v.2, v.1.2)) (by fun_prop)
  refine F.scale_marginal j (ρ := hsPosterior lik) rfl ?_
  refine Measure.ext fun S hS => ?_
  have hS2 : MeasurableSet (Prod.snd ⁻¹' S : Set ((Fin p → ℝ) × ((Fin p → ℝ) × ℝ))) := measurable_snd hS
  conv_rhs => rw [← h.2]
  rw [Measure.map_apply measurable_snd hS, Measure.bind_apply hS (measurable_shrinkK _).aemeasurable,
    Measure.bind_apply hS2 (measurable_bind_param (measurable_shrinkK .scale) (prob_shrinkK .scale)
      hm2).aemeasurable]
  refine lintegral_congr fun q => ?_
  have hm3 : Measurable fun s => (K (q, s)).map fun β => (β, s) := hm2.comp measurable_prodMk_left
  rw [Measure.bind_apply hS2 hm3.aemeasurable, ← lintegral_indicator_one hS]
  refine lintegral_congr fun s => ?_
  have := hp (q, s)
  rw [Measure.map_apply (by fun_prop) hS2]
  by_cases hs : s ∈ S
  · rw [Set.indicator_of_mem hs]
    have : (fun β : Fin p → ℝ => (β, s)) ⁻¹' (Prod.snd ⁻¹' S) = Set.univ :=
      Set.eq_univ_of_forall fun _ => hs
    rw [this, measure_univ]
    rfl
  · rw [Set.indicator_of_notMem hs]
    have : (fun β : Fin p → ℝ => (β, s)) ⁻¹' (Prod.snd ⁻¹' S) = ∅ :=
      Set.eq_empty_of_forall_notMem fun _ => hs
    rw [this, measure_empty]

end Verif.HsReg
