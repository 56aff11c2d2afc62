import Verif.Prob.Doeblin
import Mathlib.Analysis.InnerProductSpace.Adjoint
import Mathlib.MeasureTheory.Function.L2Space
import Mathlib.Probability.Kernel.Composition.MeasureComp
import Mathlib.Probability.Kernel.Composition.IntegralCompProd

/-!
# Convergence of chains whose steps have a positive density

If all laws `K θ` have the same null sets and `π` is a stationary probability, then from every start the
probability of every event tends to its probability under `π`.
-/

open MeasureTheory ProbabilityTheory Filter Topology
open scoped ENNReal InnerProduct

namespace Verif

section Hilbert

variable {H : Type*} [NormedAddCommGroup H] [InnerProductSpace ℝ H] [CompleteSpace H]

omit [CompleteSpace H] in
theorem pow_succ_apply (T : H →L[ℝ] H) (f : H) (n : ℕ) : (T ^ (n + 1)) f = T ((T ^ n) f) := by
  rw [pow_succ']
  rfl

omit [CompleteSpace H] in
theorem norm_pow_le {T : H →L[ℝ] H} (hT : ∀ x, ‖T x‖ ≤ ‖x‖) (f : H) (n : ℕ) :
    ‖(T ^ n) f‖ ≤ ‖f‖ := by
  induction n with
  | zero => simp
  | succ n ih =>
    rw [pow_succ_apply]
    exact (hT _).trans ih

/-- A contraction: the part of `T ^ n f` seen by vectors orthogonal to the fixed space of `T† T`
vanishes. -/
theorem tendsto_inner_pow {T : H →L[ℝ] H} (hT : ∀ x, ‖T x‖ ≤ ‖x‖) (f : H) {h : H}
    (hh : ∀ g, (T†) (T g) = g → inner ℝ g h = 0) :
    Tendsto (fun n => inner ℝ ((T ^ n) f) h) atTop (𝓝 0) := by
  have hTa : ∀ x, ‖(T†) x‖ ≤ ‖x‖ := by
    intro x
    have h1 : ‖T†‖ ≤ 1 := by
      rw [LinearIsometryEquiv.norm_map]
      exact T.opNorm_le_bound zero_le_one fun x => by simpa using hT x
    simpa using (T†).le_of_opNorm_le h1 x
  obtain ⟨A, hA⟩ : ∃ A : H →L[ℝ] H, A = 1 - (T†) ∘L T := ⟨_, rfl⟩
  have hAa : A† = A := by
    rw [hA, map_sub, ContinuousLinearMap.adjoint_comp, ContinuousLinearMap.adjoint_adjoint]
    congr 1
    exact ContinuousLinearMap.adjoint_id
  have hmem : h ∈ A.range.topologicalClosure := by
    rw [← hAa, ← A.orthogonal_ker, Submodule.mem_orthogonal]
    intro g hg
    refine hh g ?_
    have : A g = 0 := hg
    rw [hA] at this
    exact (sub_eq_zero.1 (by simpa using this)).symm
  have hAn : ∀ g, ‖A g‖ ^ 2 ≤ ‖g‖ ^ 2 - ‖T g‖ ^ 2 := by
    intro g
    have e : A g = g - (T†) (T g) := by rw [hA]; simp
    rw [e, norm_sub_sq_real, ContinuousLinearMap.adjoint_inner_right, real_inner_self_eq_norm_sq]
    have := hTa (T g)
    have := pow_le_pow_left₀ (norm_nonneg _) this 2
    linarith
  have hanti : Antitone fun n => ‖(T ^ n) f‖ ^ 2 := by
    refine antitone_nat_of_succ_le fun n => ?_
    rw [pow_succ_apply]
    exact pow_le_pow_left₀ (norm_nonneg _) (hT _) 2
  obtain ⟨l, hl⟩ : ∃ l, Tendsto (fun n => ‖(T ^ n) f‖ ^ 2) atTop (𝓝 l) :=
    ⟨_, tendsto_atTop_ciInf hanti ⟨0, by rintro _ ⟨n, rfl⟩; positivity⟩⟩
  have hA0 : Tendsto (fun n => ‖A ((T ^ n) f)‖) atTop (𝓝 0) := by
    have h1 : Tendsto (fun n => ‖(T ^ n) f‖ ^ 2 - ‖(T ^ (n + 1)) f‖ ^ 2) atTop (𝓝 0) := by
      have := hl.sub (hl.comp (tendsto_add_atTop_nat 1))
      rwa [sub_self] at this
    have h2 : Tendsto (fun n => ‖A ((T ^ n) f)‖ ^ 2) atTop (𝓝 0) := by
      refine squeeze_zero (fun n => by positivity) (fun n => ?_) h1
      have := hAn ((T ^ n) f)
      rwa [pow_succ_apply]
    have h3 := (Real.continuous_sqrt.tendsto 0).comp h2
    rw [Real.sqrt_zero] at h3
    refine h3.congr fun n => ?_
    rw [Function.comp_apply, Real.sqrt_sq (norm_nonneg _)]
  rw [Metric.tendsto_atTop]
  intro ε hε
  have hC : (0 : ℝ) < ‖f‖ + 1 := by positivity
  obtain ⟨_, ⟨g, rfl⟩, hg⟩ := Metric.mem_closure_iff.1 hmem (ε / 2 / (‖f‖ + 1)) (by positivity)
  have h4 : Tendsto (fun n => inner ℝ ((T ^ n) f) (A g)) atTop (𝓝 0) := by
    have : ∀ n, inner ℝ ((T ^ n) f) (A g) = inner ℝ (A ((T ^ n) f)) g := by
      intro n
      rw [← ContinuousLinearMap.adjoint_inner_left, hAa]
    simp only [this]
    refine squeeze_zero_norm (fun n => norm_inner_le_norm _ _) ?_
    simpa using hA0.mul_const ‖g‖
  obtain ⟨N, hN⟩ := Metric.tendsto_atTop.1 h4 (ε / 2) (by positivity)
  refine ⟨N, fun n hn => ?_⟩
  have h5 := hN n hn
  rw [Real.dist_eq, sub_zero] at h5 ⊢
  have e : inner ℝ ((T ^ n) f) h = inner ℝ ((T ^ n) f) (A g) + inner ℝ ((T ^ n) f) (h - A g) := by
    rw [← inner_add_right]
    congr 1
    abel
  have h6 : |inner ℝ ((T ^ n) f) (h - A g)| ≤ ε / 2 := by
    refine (abs_real_inner_le_norm _ _).trans ?_
    have h7 : ‖h - A g‖ ≤ ε / 2 / (‖f‖ + 1) := by
      rw [← dist_eq_norm]
      exact hg.le
    calc ‖(T ^ n) f‖ * ‖h - A g‖ ≤ (‖f‖ + 1) * (ε / 2 / (‖f‖ + 1)) :=
          mul_le_mul ((norm_pow_le hT f n).trans (by linarith)) h7 (norm_nonneg _) hC.le
      _ = ε / 2 := by field_simp
  rw [e]
  calc _ ≤ |inner ℝ ((T ^ n) f) (A g)| + |inner ℝ ((T ^ n) f) (h - A g)| := abs_add_le _ _
    _ < ε / 2 + ε / 2 := by linarith
    _ = ε := by ring

end Hilbert

variable {Θ : Type*} [MeasurableSpace Θ]

/-- A limit of the laws after `k` calls is stationary. -/
theorem stationary_of_tendsto {K : Θ → Measure Θ} (hK : Measurable K)
    (hp : ∀ θ, IsProbabilityMeasure (K θ)) {π : Measure Θ} {θ : Θ}
    (h : ∀ S, MeasurableSet S → Tendsto (fun k => calls K k θ S) atTop (𝓝 (π S))) :
    Stationary π K := by
  have hone : π Set.univ = 1 := by
    refine tendsto_nhds_unique (h _ MeasurableSet.univ) ?_
    have : ∀ k, calls K k θ Set.univ = 1 := fun k => by
      have := prob_calls hK hp k θ
      exact measure_univ
    simp only [this]
    exact tendsto_const_nhds
  have hπ : IsProbabilityMeasure π := ⟨hone⟩
  have hb : IsProbabilityMeasure (π.bind K) := isProbabilityMeasure_bind hK.aemeasurable (ae_of_all _ hp)
  have hle : ∀ S, MeasurableSet S → π.bind K S ≤ π S := by
    intro S hS
    have hg : Measurable fun x => K x S := (Measure.measurable_coe hS).comp hK
    rw [Measure.bind_apply hS hK.aemeasurable, lintegral]
    refine iSup₂_le fun s hs => ?_
    have hsimple : Tendsto (fun k => s.lintegral (calls K k θ)) atTop (𝓝 (s.lintegral π)) := by
      unfold SimpleFunc.lintegral
      refine tendsto_finsetSum _ fun c hc => ?_
      obtain ⟨x, rfl⟩ := SimpleFunc.mem_range.1 hc
      have := hp x
      exact ENNReal.Tendsto.const_mul (h _ (s.measurableSet_preimage _))
        (Or.inr ((hs x).trans_lt (measure_lt_top _ _)).ne)
    refine le_of_tendsto_of_tendsto' hsimple ((h S hS).comp (tendsto_add_atTop_nat 1)) fun k => ?_
    rw [Function.comp_apply, calls, Measure.bind_apply hS hK.aemeasurable,
      ← SimpleFunc.lintegral_eq_lintegral]
    exact lintegral_mono hs
  refine ⟨hK.aemeasurable, Measure.ext fun S hS => le_antisymm (hle S hS) ?_⟩
  have h1 := hle Sᶜ hS.compl
  rw [prob_compl_eq_one_sub hS, prob_compl_eq_one_sub hS] at h1
  exact (ENNReal.sub_le_sub_iff_left prob_le_one ENNReal.one_ne_top).1 h1

section L2

variable {π : Measure Θ} [IsProbabilityMeasure π] {κ : Kernel Θ Θ} [IsMarkovKernel κ]

theorem mp_fst : MeasurePreserving Prod.fst (π ⊗ₘ κ) π := ⟨measurable_fst, Measure.fst_compProd π κ⟩

theorem mp_snd (hπ : π.bind κ = π) : MeasurePreserving Prod.snd (π ⊗ₘ κ) π :=
  ⟨measurable_snd, (Measure.snd_compProd π κ).trans hπ⟩

/-- Composition with the old value. -/
noncomputable def liftOld (π : Measure Θ) [IsProbabilityMeasure π] (κ : Kernel Θ Θ) [IsMarkovKernel κ] :
    Lp ℝ 2 π →L[ℝ] Lp ℝ 2 (π ⊗ₘ κ) :=
  (Lp.compMeasurePreservingₗᵢ ℝ Prod.fst mp_fst).toContinuousLinearMap

/-- Composition with the new value. -/
noncomputable def liftNew (hπ : π.bind κ = π) : Lp ℝ 2 π →L[ℝ] Lp ℝ 2 (π ⊗ₘ κ) :=
  (Lp.compMeasurePreservingₗᵢ ℝ Prod.snd (mp_snd hπ)).toContinuousLinearMap

theorem norm_liftOld (g : Lp ℝ 2 π) : ‖liftOld π κ g‖ = ‖g‖ := LinearIsometry.norm_map _ _

theorem norm_liftNew (hπ : π.bind κ = π) (g : Lp ℝ 2 π) : ‖liftNew hπ g‖ = ‖g‖ :=
  LinearIsometry.norm_map _ _

theorem liftOld_coe (g : Lp ℝ 2 π) : liftOld π κ g =ᵐ[π ⊗ₘ κ] fun z => g z.1 :=
  Lp.coeFn_compMeasurePreserving g mp_fst

theorem liftNew_coe (hπ : π.bind κ = π) (g : Lp ℝ 2 π) : liftNew hπ g =ᵐ[π ⊗ₘ κ] fun z => g z.2 :=
  Lp.coeFn_compMeasurePreserving g (mp_snd hπ)

/-- The transition operator on square integrable functions. -/
noncomputable def stepOp (hπ : π.bind κ = π) : Lp ℝ 2 π →L[ℝ] Lp ℝ 2 π :=
  (liftOld π κ)† ∘L liftNew hπ

theorem norm_liftOld_adj_le (u : Lp ℝ 2 (π ⊗ₘ κ)) : ‖((liftOld π κ)†) u‖ ≤ ‖u‖ := by
  have h1 : ‖(liftOld π κ)†‖ ≤ 1 := by
    rw [LinearIsometryEquiv.norm_map]
    exact (liftOld π κ).opNorm_le_bound zero_le_one fun x => by rw [norm_liftOld, one_mul]
  simpa using ((liftOld π κ)†).le_of_opNorm_le h1 u

theorem stepOp_norm_le (hπ : π.bind κ = π) (g : Lp ℝ 2 π) : ‖stepOp hπ g‖ ≤ ‖g‖ :=
  (norm_liftOld_adj_le _).trans (norm_liftNew hπ g).le

theorem inner_stepOp (hπ : π.bind κ = π) (h g : Lp ℝ 2 π) :
    inner ℝ h (stepOp hπ g) = ∫ z, h z.1 * g z.2 ∂(π ⊗ₘ κ) := by
  rw [stepOp, ContinuousLinearMap.comp_apply, ContinuousLinearMap.adjoint_inner_right, L2.inner_def]
  refine integral_congr_ae ?_
  filter_upwards [liftOld_coe (κ := κ) h, liftNew_coe hπ g] with z h1 h2
  rw [h1, h2]
  simp [mul_comm]

/-- Functions kept by `P† P` are constant if all laws of the step are equivalent. -/
theorem const_of_fixed (hπ : π.bind κ = π) (hac : ∀ θ, π ≪ κ θ) {g : Lp ℝ 2 π}
    (hg : ((stepOp hπ)†) (stepOp hπ g) = g) : ∃ c : ℝ, g =ᵐ[π] fun _ => c := by
  have h1 : ‖stepOp hπ g‖ ^ 2 = ‖g‖ ^ 2 := by
    rw [← real_inner_self_eq_norm_sq, ← ContinuousLinearMap.adjoint_inner_left, hg,
      real_inner_self_eq_norm_sq]
  have h2 : ‖liftOld π κ (stepOp hπ g) - liftNew hπ g‖ ^ 2 = 0 := by
    rw [norm_sub_sq_real, norm_liftOld, norm_liftNew, ← ContinuousLinearMap.adjoint_inner_right,
      show ((liftOld π κ)†) (liftNew hπ g) = stepOp hπ g from rfl, real_inner_self_eq_norm_sq, h1]
    ring
  have h3 : liftOld π κ (stepOp hπ g) = liftNew hπ g := by
    rw [← sub_eq_zero, ← norm_eq_zero]
    exact pow_eq_zero_iff two_ne_zero |>.1 h2
  have h4 : ∀ᵐ z ∂(π ⊗ₘ κ), g z.2 = (stepOp hπ g) z.1 := by
    have h5 := liftOld_coe (κ := κ) (stepOp hπ g)
    rw [h3] at h5
    filter_upwards [h5, liftNew_coe hπ g] with z h6 h7
    rw [← h6, h7]
  have h5 := Measure.ae_ae_of_ae_compProd h4
  obtain ⟨x, hx⟩ := h5.exists
  exact ⟨stepOp hπ g x, (hac x).ae_le hx⟩

theorem memLp_bdd {g : Θ → ℝ} (hg : Measurable g) (hb : ∀ x, |g x| ≤ 1) : MemLp g 2 π :=
  MemLp.of_bound hg.aestronglyMeasurable 1 (ae_of_all _ hb)

/-- The operator on bounded functions. -/
theorem stepOp_bdd (hπ : π.bind κ = π) {g : Θ → ℝ} (hg : Measurable g) (hb : ∀ x, |g x| ≤ 1)
    {g' : Θ → ℝ} (hg' : Measurable g') (hb' : ∀ x, |g' x| ≤ 1) (h : ∀ x, g' x = ∫ y, g y ∂κ x) :
    stepOp hπ ((memLp_bdd (π := π) hg hb).toLp g) = (memLp_bdd (π := π) hg' hb').toLp g' := by
  refine ext_inner_left ℝ fun f => ?_
  rw [inner_stepOp, L2.inner_def]
  have e1 : ∀ᵐ z ∂(π ⊗ₘ κ), f z.1 * (memLp_bdd (π := π) hg hb).toLp g z.2 = f z.1 * g z.2 := by
    have := (mp_snd hπ).quasiMeasurePreserving.ae ((memLp_bdd (π := π) hg hb).coeFn_toLp)
    filter_upwards [this] with z hz
    rw [hz]
  have hf1 : Integrable (fun z : Θ × Θ => f z.1) (π ⊗ₘ κ) :=
    ((Lp.memLp f).comp_measurePreserving mp_fst).integrable one_le_two
  have hi : Integrable (fun z : Θ × Θ => f z.1 * g z.2) (π ⊗ₘ κ) :=
    hf1.mul_bdd (c := 1) (hg.comp measurable_snd).aestronglyMeasurable
      (ae_of_all _ fun z => hb z.2)
  rw [integral_congr_ae e1, Measure.integral_compProd hi]
  refine integral_congr_ae ?_
  filter_upwards [(memLp_bdd (π := π) hg' hb').coeFn_toLp] with x hx
  rw [hx, h x, integral_const_mul]
  simp [mul_comm]

omit [IsMarkovKernel κ] in
theorem measurable_calls_real (S : Set Θ) (hS : MeasurableSet S) (k : ℕ) :
    Measurable fun x => (calls κ k x).real S :=
  ((Measure.measurable_coe hS).comp (calls_succ' κ.measurable k).1).ennreal_toReal

theorem calls_real_le (S : Set Θ) (k : ℕ) (x : Θ) : |(calls κ k x).real S| ≤ 1 := by
  have := prob_calls κ.measurable (fun θ => inferInstance) k x
  rw [abs_of_nonneg measureReal_nonneg]
  exact measureReal_le_one

theorem calls_real_succ (S : Set Θ) (hS : MeasurableSet S) (k : ℕ) (x : Θ) :
    (calls κ (k + 1) x).real S = ∫ y, (calls κ k y).real S ∂κ x := by
  rw [(calls_succ' κ.measurable k).2, Measure.real, Measure.bind_apply hS
    (calls_succ' κ.measurable k).1.aemeasurable, ← integral_toReal]
  · rfl
  · exact ((Measure.measurable_coe hS).comp (calls_succ' κ.measurable k).1).aemeasurable
  · exact ae_of_all _ fun y => by
      have := prob_calls κ.measurable (fun θ => inferInstance) k y
      exact measure_lt_top _ _

theorem stepOp_pow (hπ : π.bind κ = π) {S : Set Θ} (hS : MeasurableSet S) (k : ℕ) :
    (stepOp hπ ^ k) ((memLp_bdd (π := π) (measurable_calls_real (κ := κ) S hS 0)
      (calls_real_le S 0)).toLp _) =
      (memLp_bdd (π := π) (measurable_calls_real (κ := κ) S hS k) (calls_real_le S k)).toLp _ := by
  induction k with
  | zero => rfl
  | succ k ih =>
    rw [pow_succ_apply, ih]
    exact stepOp_bdd hπ (measurable_calls_real S hS k) (calls_real_le S k)
      (measurable_calls_real S hS (k + 1)) (calls_real_le S (k + 1)) (calls_real_succ S hS k)

/-- Means of the probabilities against a square integrable weight. -/
theorem tendsto_integral_calls (hπ : π.bind κ = π) (hac : ∀ θ, π ≪ κ θ) {S : Set Θ}
    (hS : MeasurableSet S) {h : Θ → ℝ} (hh : MemLp h 2 π) :
    Tendsto (fun k => ∫ x, (calls κ k x).real S * h x ∂π) atTop (𝓝 (π.real S * ∫ x, h x ∂π)) := by
  have hc : MemLp (fun _ : Θ => ∫ x, h x ∂π) 2 π := memLp_const _
  have hd : MemLp (fun x => h x - ∫ x, h x ∂π) 2 π := hh.sub hc
  have h1 := tendsto_inner_pow (stepOp_norm_le hπ) ((memLp_bdd (π := π)
    (measurable_calls_real (κ := κ) S hS 0) (calls_real_le S 0)).toLp _) (h := hd.toLp _) (by
      intro g hg
      obtain ⟨c, hcg⟩ := const_of_fixed hπ hac hg
      rw [L2.inner_def]
      have e : ∫ x, inner ℝ (g x) (hd.toLp _ x) ∂π = ∫ x, c * (h x - ∫ x, h x ∂π) ∂π := by
        refine integral_congr_ae ?_
        filter_upwards [hcg, hd.coeFn_toLp] with x h1 h2
        rw [h1, h2]
        simp [mul_comm]
      rw [e, integral_const_mul, integral_sub (hh.integrable one_le_two) (integrable_const _)]
      simp)
  have hprob : ∀ k, ∫ x, (calls κ k x).real S ∂π = π.real S := by
    intro k
    have hb := bind_calls κ.measurable hπ k
    conv_rhs => rw [← hb]
    rw [Measure.real, Measure.bind_apply hS (calls_succ' κ.measurable k).1.aemeasurable,
      ← integral_toReal]
    · rfl
    · exact ((Measure.measurable_coe hS).comp (calls_succ' κ.measurable k).1).aemeasurable
    · exact ae_of_all _ fun y => by
        have := prob_calls κ.measurable (fun θ => inferInstance) k y
        exact measure_lt_top _ _
  have e : ∀ k, inner ℝ ((stepOp hπ ^ k) ((memLp_bdd (π := π)
      (measurable_calls_real (κ := κ) S hS 0) (calls_real_le S 0)).toLp _)) (hd.toLp _) =
      (∫ x, (calls κ k x).real S * h x ∂π) - π.real S * ∫ x, h x ∂π := by
    intro k
    rw [stepOp_pow hπ hS, L2.inner_def]
    have hm := measurable_calls_real (κ := κ) S hS k
    have hi1 : Integrable (fun x => (calls κ k x).real S * h x) π :=
      (hh.integrable one_le_two).bdd_mul (c := 1) hm.aestronglyMeasurable
        (ae_of_all _ fun x => calls_real_le S k x)
    have hi2 : Integrable (fun x => (calls κ k x).real S * ∫ x, h x ∂π) π :=
      (integrable_const _).bdd_mul (c := 1) hm.aestronglyMeasurable
        (ae_of_all _ fun x => calls_real_le S k x)
    rw [← hprob k, ← integral_mul_const, ← integral_sub hi1 hi2]
    refine integral_congr_ae ?_
    filter_upwards [hd.coeFn_toLp, (memLp_bdd (π := π) hm (calls_real_le S k)).coeFn_toLp]
      with x h1 h2
    rw [h1, h2]
    simp
    ring
  simp only [e] at h1
  have h2 := h1.add_const (π.real S * ∫ x, h x ∂π)
  simpa using h2

end L2

/-- If all laws of the step have the same null sets, repeated calls converge from every start to the
stationary law. -/
theorem converges_of_equivalent {m : Measure Θ} {K : Θ → Measure Θ} (hK : Measurable K)
    (hp : ∀ θ, IsProbabilityMeasure (K θ)) (h1 : ∀ θ, m ≪ K θ) (h2 : ∀ θ, K θ ≪ m)
    {π : Measure Θ} [IsProbabilityMeasure π] (hπ : π.bind K = π) : ConvergesFrom Set.univ π K := by
  intro θ _ S hS
  have hmπ : m ≪ π := by
    refine Measure.AbsolutelyContinuous.mk fun T hT h0 => ?_
    rw [← hπ, Measure.bind_apply hT hK.aemeasurable, lintegral_eq_zero_iff
      (f := fun x => K x T) ((Measure.measurable_coe hT).comp hK)] at h0
    obtain ⟨x, hx⟩ := h0.exists
    exact h1 x hx
  have hπm : π ≪ m := by
    refine Measure.AbsolutelyContinuous.mk fun T hT h0 => ?_
    rw [← hπ, Measure.bind_apply hT hK.aemeasurable, lintegral_eq_zero_iff
      (f := fun x => K x T) ((Measure.measurable_coe hT).comp hK)]
    exact ae_of_all _ fun x => h2 x h0
  obtain ⟨κ, hκ⟩ : ∃ κ : Kernel Θ Θ, ⇑κ = K := ⟨⟨K, hK⟩, rfl⟩
  subst hκ
  have hM : IsMarkovKernel κ := ⟨hp⟩
  have hac : ∀ θ, π ≪ κ θ := fun θ => hπm.trans (h1 θ)
  have hθ : κ θ ≪ π := (h2 θ).trans hmπ
  have hfin : ∀ k x, IsProbabilityMeasure (calls κ k x) := prob_calls hK hp
  rw [← tendsto_add_atTop_iff_nat 1, ← ENNReal.tendsto_toReal_iff (fun k => measure_ne_top _ _)
    (measure_ne_top _ _)]
  change Tendsto (fun k => (calls κ (k + 1) θ).real S) atTop (𝓝 (π.real S))
  -- the density of the first call
  obtain ⟨d, hd⟩ : ∃ d : Θ → ℝ, d = fun x => ((κ θ).rnDeriv π x).toReal := ⟨_, rfl⟩
  have hd0 : ∀ x, 0 ≤ d x := fun x => by rw [hd]; exact ENNReal.toReal_nonneg
  have hdm : Measurable d := by
    rw [hd]
    exact (Measure.measurable_rnDeriv _ _).ennreal_toReal
  have hdi : Integrable d π := by
    rw [hd]
    rw [← integrableOn_univ]
    exact Measure.integrableOn_toReal_rnDeriv (measure_ne_top _ _)
  have hd1 : ∫ x, d x ∂π = 1 := by
    rw [hd, Measure.integral_toReal_rnDeriv hθ]
    exact probReal_univ
  have hcalls : ∀ k, (calls κ (k + 1) θ).real S = ∫ x, (calls κ k x).real S * d x ∂π := by
    intro k
    rw [calls_real_succ S hS, ← integral_rnDeriv_smul hθ, hd]
    refine integral_congr_ae (ae_of_all _ fun x => ?_)
    simp [mul_comm]
  simp only [hcalls]
  -- truncation
  have htr : Tendsto (fun M : ℕ => ∫ x, (d x - min (d x) M) ∂π) atTop (𝓝 0) := by
    have h3 := tendsto_integral_of_dominated_convergence (μ := π)
      (F := fun (M : ℕ) x => d x - min (d x) M) (f := fun _ => 0) d
      (fun M => (hdm.sub (hdm.min measurable_const)).aestronglyMeasurable) hdi
      (fun M => ae_of_all _ fun x => by
        have h4 : min (d x) M ≤ d x := min_le_left _ _
        have h5 : 0 ≤ min (d x) (M : ℝ) := le_min (hd0 x) (Nat.cast_nonneg M)
        rw [Real.norm_eq_abs, abs_of_nonneg (by linarith)]
        linarith)
      (ae_of_all _ fun x => by
        obtain ⟨N, hN⟩ := exists_nat_ge (d x)
        refine tendsto_const_nhds.congr' ?_
        filter_upwards [eventually_ge_atTop N] with M hM
        rw [min_eq_left (hN.trans (Nat.cast_le.2 hM)), sub_self])
    simpa using h3
  rw [Metric.tendsto_atTop]
  intro ε hε
  obtain ⟨M, hM'⟩ := (Metric.tendsto_atTop.1 htr (ε / 3) (by positivity))
  have hM := hM' M le_rfl
  rw [Real.dist_eq, sub_zero] at hM
  have hgM : ∀ x, 0 ≤ d x - min (d x) M := fun x => sub_nonneg.2 (min_le_left _ _)
  rw [abs_of_nonneg (integral_nonneg hgM)] at hM
  have hbM : MemLp (fun x => min (d x) M) 2 π := by
    refine MemLp.of_bound (hdm.min measurable_const).aestronglyMeasurable M (ae_of_all _ fun x => ?_)
    rw [Real.norm_eq_abs, abs_of_nonneg (le_min (hd0 x) (Nat.cast_nonneg M))]
    exact min_le_right _ _
  obtain ⟨N, hN⟩ := Metric.tendsto_atTop.1 (tendsto_integral_calls hπ hac hS hbM) (ε / 3) (by positivity)
  refine ⟨N, fun k hk => ?_⟩
  have h3 := hN k hk
  rw [Real.dist_eq] at h3 ⊢
  have hm := measurable_calls_real (κ := κ) S hS k
  have hi1 : Integrable (fun x => (calls κ k x).real S * min (d x) M) π :=
    (hbM.integrable one_le_two).bdd_mul (c := 1) hm.aestronglyMeasurable
      (ae_of_all _ fun x => calls_real_le S k x)
  have hi2 : Integrable (fun x => d x - min (d x) M) π := hdi.sub (hbM.integrable one_le_two)
  have hi3 : Integrable (fun x => (calls κ k x).real S * (d x - min (d x) M)) π :=
    hi2.bdd_mul (c := 1) hm.aestronglyMeasurable (ae_of_all _ fun x => calls_real_le S k x)
  have e1 : ∫ x, (calls κ k x).real S * d x ∂π = (∫ x, (calls κ k x).real S * min (d x) M ∂π) +
      ∫ x, (calls κ k x).real S * (d x - min (d x) M) ∂π := by
    rw [← integral_add hi1 hi3]
    exact integral_congr_ae (ae_of_all _ fun x => by simp only; ring)
  have e2 : ∫ x, min (d x) M ∂π = 1 - ∫ x, (d x - min (d x) M) ∂π := by
    rw [integral_sub hdi (hbM.integrable one_le_two), hd1]
    ring
  have b1 : 0 ≤ ∫ x, (calls κ k x).real S * (d x - min (d x) M) ∂π :=
    integral_nonneg fun x => mul_nonneg measureReal_nonneg (hgM x)
  have b2 : ∫ x, (calls κ k x).real S * (d x - min (d x) M) ∂π ≤ ∫ x, (d x - min (d x) M) ∂π :=
    integral_mono hi3 hi2 fun x => mul_le_of_le_one_left (hgM x) measureReal_le_one
  have b3 : 0 ≤ π.real S := measureReal_nonneg
  have b4 : π.real S ≤ 1 := measureReal_le_one
  have b5 : 0 ≤ ∫ x, (d x - min (d x) M) ∂π := integral_nonneg hgM
  rw [e2] at h3
  rw [e1]
  rw [abs_lt] at h3 ⊢
  constructor <;> nlinarith

end Verif
