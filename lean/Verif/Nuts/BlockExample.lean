import Verif.Nuts.BlockLaw
import Verif.Nuts.BlockTransforms
import Verif.Nuts.LawExample

/-!
# C54: an angle, a probability vector and a realised variable
-/

open MeasureTheory
open scoped ENNReal

namespace Verif.Nuts

open Verif.Py

/-! ## A kernel that keeps every measure with a density and commutes with translations -/

/-- The noise: a normal step and a uniform number. -/
noncomputable def walkNoise : Measure (ℝ × ℝ) := (ProbabilityTheory.gaussianReal 0 1).prod unif

instance : IsProbabilityMeasure walkNoise := by
  unfold walkNoise
  infer_instance

/-- The random walk Metropolis kernel that adds the same normal step to all the entries. -/
noncomputable def walkKernel (u : ℝ × ℝ) (f : List ℝ → Option ℝ) (q : List ℝ) : List ℝ :=
  match f q, f (q.map (u.1 + ·)) with
  | some a, some b => if u.2 ≤ Real.exp (b - a) then q.map (u.1 + ·) else q
  | _, _ => q

theorem walkKernel_length (u : ℝ × ℝ) (f : List ℝ → Option ℝ) (q : List ℝ) :
    (walkKernel u f q).length = q.length := by
  unfold walkKernel
  split
  · split
    · simp
    · rfl
  · rfl

/-- The same step in all directions. -/
def diag (n : ℕ) (e : ℝ) : Fin n → ℝ := fun _ => e

theorem measurable_diag (n : ℕ) : Measurable (diag n) := measurable_pi_lambda _ fun _ => measurable_id

theorem walkKernel_vec {n : ℕ} (u : ℝ × ℝ) (ℓ : (Fin n → ℝ) → ℝ) (q : Fin n → ℝ) :
    vec n (walkKernel u (flatLog ℓ) (List.ofFn q)) =
      if u.2 ≤ Real.exp (ℓ (diag n u.1 + q) - ℓ q) then diag n u.1 + q else q := by
  have h : (List.ofFn q).map (u.1 + ·) = List.ofFn (diag n u.1 + q) := by
    rw [List.map_ofFn]
    rfl
  simp only [walkKernel, flatLog, h, List.length_ofFn, le_refl, if_true, vec_ofFn]
  split <;> rw [vec_ofFn]

theorem walkKernel_measurable {R : Type} [MeasurableSpace R] {n : ℕ} {ℓ : R → (Fin n → ℝ) → ℝ}
    (hℓ : Measurable fun p : R × (Fin n → ℝ) => ℓ p.1 p.2) :
    Measurable fun p : (ℝ × ℝ) × R × (Fin n → ℝ) =>
      vec n (walkKernel p.1 (flatLog (ℓ p.2.1)) (List.ofFn p.2.2)) := by
  simp only [walkKernel_vec]
  have h2 : Measurable fun p : (ℝ × ℝ) × R × (Fin n → ℝ) => diag n p.1.1 + p.2.2 :=
    ((measurable_diag n).comp (measurable_fst.comp measurable_fst)).add (measurable_snd.comp measurable_snd)
  have h3 : Measurable fun p : (ℝ × ℝ) × R × (Fin n → ℝ) =>
      Real.exp (ℓ p.2.1 (diag n p.1.1 + p.2.2) - ℓ p.2.1 p.2.2) :=
    Real.measurable_exp.comp ((hℓ.comp ((measurable_fst.comp measurable_snd).prodMk h2)).sub
      (hℓ.comp measurable_snd))
  exact Measurable.ite (measurableSet_le (measurable_snd.comp measurable_fst) h3) h2
    (measurable_snd.comp measurable_snd)

/-- One step of the walk, averaged over the uniform number. -/
theorem walk_inner {n : ℕ} (ℓ : (Fin n → ℝ) → ℝ) {φ : (Fin n → ℝ) → ℝ≥0∞} (e : ℝ) (q : Fin n → ℝ) :
    ∫⁻ u, φ (if u ≤ Real.exp (ℓ (diag n e + q) - ℓ q) then diag n e + q else q) ∂unif =
      ENNReal.ofReal (min 1 (Real.exp (ℓ (diag n e + q) - ℓ q))) * φ (diag n e + q) +
      (1 - ENNReal.ofReal (min 1 (Real.exp (ℓ (diag n e + q) - ℓ q)))) * φ q := by
  generalize diag n e + q = q'
  have hm : MeasurableSet {u : ℝ | u ≤ Real.exp (ℓ q' - ℓ q)} := measurableSet_Iic
  have h1 := unif_Iic (Real.exp (ℓ q' - ℓ q))
  rw [← lintegral_add_compl _ hm]
  congr 1
  · rw [setLIntegral_congr_fun (g := fun _ => φ q') hm fun u hu => by
      simp only [if_pos (show u ≤ Real.exp (ℓ q' - ℓ q) from hu)], setLIntegral_const, h1, mul_comm]
  · rw [setLIntegral_congr_fun (g := fun _ => φ q) hm.compl fun u hu => by
      simp only [if_neg (show ¬ u ≤ Real.exp (ℓ q' - ℓ q) from hu)], setLIntegral_const,
      prob_compl_eq_one_sub hm, h1, mul_comm]

theorem walkKernel_keeps_density (n : ℕ) (ℓ : (Fin n → ℝ) → ℝ) (hℓ : Measurable ℓ) :
    (walkNoise.prod (volume.withDensity fun q => ENNReal.ofReal (Real.exp (ℓ q)))).map
      (fun p => vec n (walkKernel p.1 (flatLog ℓ) (List.ofFn p.2))) =
      volume.withDensity fun q => ENNReal.ofReal (Real.exp (ℓ q)) := by
  have hk : Measurable fun p : (ℝ × ℝ) × (Fin n → ℝ) =>
      vec n (walkKernel p.1 (flatLog ℓ) (List.ofFn p.2)) :=
    (walkKernel_measurable (R := Unit) (ℓ := fun _ => ℓ) (hℓ.comp measurable_snd)).comp
      (measurable_fst.prodMk ((measurable_const (a := ())).prodMk measurable_snd))
  refine Measure.ext_of_lintegral _ fun φ hφ => ?_
  have hd : Measurable fun q => ENNReal.ofReal (Real.exp (ℓ q)) :=
    (Real.measurable_exp.comp hℓ).ennreal_ofReal
  have hadd : Measurable fun p : ℝ × (Fin n → ℝ) => diag n p.1 + p.2 :=
    ((measurable_diag n).comp measurable_fst).add measurable_snd
  have hα : Measurable fun p : ℝ × (Fin n → ℝ) =>
      ENNReal.ofReal (min 1 (Real.exp (ℓ (diag n p.1 + p.2) - ℓ p.2))) :=
    (measurable_const.min (Real.measurable_exp.comp ((hℓ.comp hadd).sub
      (hℓ.comp measurable_snd)))).ennreal_ofReal
  have hαq : ∀ e, Measurable fun q : Fin n → ℝ =>
      ENNReal.ofReal (min 1 (Real.exp (ℓ (diag n e + q) - ℓ q))) := fun e =>
    hα.comp (measurable_const.prodMk measurable_id)
  have hshift : ∀ e, Measurable fun q : Fin n → ℝ => diag n e + q := fun e =>
    measurable_const.add measurable_id
  -- acceptance, symmetrised
  have hmin : ∀ e (q : Fin n → ℝ), ENNReal.ofReal (Real.exp (ℓ q)) *
      ENNReal.ofReal (min 1 (Real.exp (ℓ (diag n e + q) - ℓ q))) =
      ENNReal.ofReal (min (Real.exp (ℓ q)) (Real.exp (ℓ (diag n e + q)))) := by
    intro e q
    rw [← ENNReal.ofReal_mul (Real.exp_pos _).le, mul_min_of_nonneg _ _ (Real.exp_pos _).le, mul_one,
      ← Real.exp_add, add_sub_cancel]
  have hF : Measurable fun p : ℝ × (Fin n → ℝ) =>
      ENNReal.ofReal (min (Real.exp (ℓ p.2)) (Real.exp (ℓ (diag n p.1 + p.2)))) * φ p.2 :=
    ((Real.measurable_exp.comp (hℓ.comp measurable_snd)).min
      (Real.measurable_exp.comp (hℓ.comp hadd))).ennreal_ofReal.mul (hφ.comp measurable_snd)
  rw [lintegral_map hφ hk]
  have hφk : Measurable fun p : (ℝ × ℝ) × (Fin n → ℝ) =>
      φ (vec n (walkKernel p.1 (flatLog ℓ) (List.ofFn p.2))) := hφ.comp hk
  rw [lintegral_prod _ hφk.aemeasurable]
  have hB : Measurable fun u : ℝ × ℝ => ∫⁻ q, φ (vec n (walkKernel u (flatLog ℓ) (List.ofFn q)))
      ∂(volume.withDensity fun q => ENNReal.ofReal (Real.exp (ℓ q))) := hφk.lintegral_prod_right'
  rw [walkNoise, lintegral_prod _ hB.aemeasurable]
  have hper : ∀ e : ℝ, ∫⁻ v, ∫⁻ q, φ (vec n (walkKernel (e, v) (flatLog ℓ) (List.ofFn q)))
      ∂(volume.withDensity fun q => ENNReal.ofReal (Real.exp (ℓ q))) ∂unif =
      (∫⁻ q, ENNReal.ofReal (min (Real.exp (ℓ q)) (Real.exp (ℓ (diag n (-e) + q)))) * φ q) +
      ∫⁻ q, ENNReal.ofReal (Real.exp (ℓ q)) *
        (1 - ENNReal.ofReal (min 1 (Real.exp (ℓ (diag n e + q) - ℓ q)))) * φ q := by
    intro e
    have hsw : Measurable fun p : ℝ × (Fin n → ℝ) =>
        φ (vec n (walkKernel (e, p.1) (flatLog ℓ) (List.ofFn p.2))) :=
      hφk.comp ((measurable_const.prodMk measurable_fst).prodMk measurable_snd)
    rw [lintegral_lintegral_swap hsw.aemeasurable]
    simp only [walkKernel_vec, walk_inner]
    have hs1 : Measurable fun q : Fin n → ℝ =>
        ENNReal.ofReal (min 1 (Real.exp (ℓ (diag n e + q) - ℓ q))) * φ (diag n e + q) +
        (1 - ENNReal.ofReal (min 1 (Real.exp (ℓ (diag n e + q) - ℓ q)))) * φ q :=
      ((hαq e).mul (hφ.comp (hshift e))).add ((measurable_const.sub (hαq e)).mul hφ)
    rw [lintegral_withDensity_eq_lintegral_mul _ hd hs1]
    have m1 : Measurable fun q : Fin n → ℝ =>
        ENNReal.ofReal (min (Real.exp (ℓ q)) (Real.exp (ℓ (diag n e + q)))) * φ (diag n e + q) :=
      ((Real.measurable_exp.comp hℓ).min
        (Real.measurable_exp.comp (hℓ.comp (hshift e)))).ennreal_ofReal.mul (hφ.comp (hshift e))
    have m2 : Measurable fun q : Fin n → ℝ =>
        ENNReal.ofReal (min (Real.exp (ℓ q)) (Real.exp (ℓ (diag n (-e) + q)))) * φ q :=
      hF.comp (measurable_const.prodMk measurable_id)
    have h2 : ∫⁻ q, ENNReal.ofReal (min (Real.exp (ℓ q)) (Real.exp (ℓ (diag n e + q)))) *
        φ (diag n e + q) =
        ∫⁻ q, ENNReal.ofReal (min (Real.exp (ℓ q)) (Real.exp (ℓ (diag n (-e) + q)))) * φ q := by
      rw [← lintegral_add_left_eq_self (fun q =>
        ENNReal.ofReal (min (Real.exp (ℓ q)) (Real.exp (ℓ (diag n (-e) + q)))) * φ q) (diag n e)]
      refine lintegral_congr fun q => ?_
      have : diag n (-e) + (diag n e + q) = q := by
        funext j
        simp [diag]
      rw [this, min_comm]
    rw [← h2, ← lintegral_add_left m1]
    refine lintegral_congr fun q => ?_
    simp only [Pi.mul_apply]
    rw [← hmin]
    ring
  simp only [hper]
  have hneg : ∫⁻ e, (∫⁻ q, ENNReal.ofReal (min (Real.exp (ℓ q)) (Real.exp (ℓ (diag n (-e) + q)))) * φ q)
      ∂ProbabilityTheory.gaussianReal 0 1 =
      ∫⁻ e, (∫⁻ q, ENNReal.ofReal (min (Real.exp (ℓ q)) (Real.exp (ℓ (diag n e + q)))) * φ q)
      ∂ProbabilityTheory.gaussianReal 0 1 := by
    have hI : Measurable fun e => ∫⁻ q, ENNReal.ofReal (min (Real.exp (ℓ q)) (Real.exp (ℓ (diag n e + q)))) *
      φ q := hF.lintegral_prod_right'
    have hg : (ProbabilityTheory.gaussianReal 0 1).map (fun x => -x) =
        ProbabilityTheory.gaussianReal 0 1 := by
      rw [ProbabilityTheory.gaussianReal_map_neg, neg_zero]
    conv_rhs => rw [← hg, lintegral_map hI measurable_neg]
  have hI1 : Measurable fun e =>
      ∫⁻ q, ENNReal.ofReal (min (Real.exp (ℓ q)) (Real.exp (ℓ (diag n (-e) + q)))) * φ q := by
    have : Measurable fun e => ∫⁻ q, ENNReal.ofReal (min (Real.exp (ℓ q)) (Real.exp (ℓ (diag n e + q)))) *
      φ q := hF.lintegral_prod_right'
    exact this.comp measurable_neg
  have hI2 : Measurable fun e =>
      ∫⁻ q, ENNReal.ofReal (min (Real.exp (ℓ q)) (Real.exp (ℓ (diag n e + q)))) * φ q :=
    hF.lintegral_prod_right'
  rw [lintegral_add_left hI1, hneg, ← lintegral_add_left hI2]
  have hconst : ∀ e : ℝ, (∫⁻ q, ENNReal.ofReal (min (Real.exp (ℓ q)) (Real.exp (ℓ (diag n e + q)))) * φ q) +
      (∫⁻ q, ENNReal.ofReal (Real.exp (ℓ q)) *
        (1 - ENNReal.ofReal (min 1 (Real.exp (ℓ (diag n e + q) - ℓ q)))) * φ q) =
      ∫⁻ q, ENNReal.ofReal (Real.exp (ℓ q)) * φ q := by
    intro e
    have m2 : Measurable fun q : Fin n → ℝ =>
        ENNReal.ofReal (min (Real.exp (ℓ q)) (Real.exp (ℓ (diag n e + q)))) * φ q :=
      hF.comp (measurable_const.prodMk measurable_id)
    rw [← lintegral_add_left m2]
    refine lintegral_congr fun q => ?_
    have hle : ENNReal.ofReal (min 1 (Real.exp (ℓ (diag n e + q) - ℓ q))) ≤ 1 := by
      rw [← ENNReal.ofReal_one]
      exact ENNReal.ofReal_le_ofReal (min_le_left _ _)
    rw [← hmin, ← add_mul, ← mul_add, add_tsub_cancel_of_le hle, mul_one]
  simp only [hconst, lintegral_const, measure_univ, mul_one]
  rw [lintegral_withDensity_eq_lintegral_mul _ hd hφ]
  rfl

theorem walkKernel_shifts : KeepsShifts walkNoise walkKernel := by
  refine ⟨walkKernel_keeps_density, fun u n ℓ c q => ?_⟩
  rw [walkKernel_vec, walkKernel_vec]
  have : diag n u.1 + (c + q) = c + (diag n u.1 + q) := add_left_comm _ _ _
  rw [this]
  split <;> rfl

theorem walkKernel_keeps : KeepsTargets walkNoise walkKernel :=
  ⟨walkKernel_length, fun n ℓ hℓ _ => walkKernel_keeps_density n ℓ hℓ⟩

theorem blockLog_measurable {R : Type} [MeasurableSpace R] {N : ℕ} {b : Fin N → Block}
    (hb : ∀ i, (b i).Lawful) {w : R → (∀ i, Fin (b i).k → ℝ) → ℝ}
    (hw : Measurable fun p : R × (∀ i, Fin (b i).k → ℝ) => w p.1 p.2) :
    Measurable fun p : R × (∀ i, Fin (b i).m → ℝ) => blockLog b (w p.1) p.2 := by
  have hG : Measurable fun q : (∀ i, Fin (b i).m → ℝ) => fun i => (b i).g (q i) :=
    measurable_pi_lambda _ fun i => (hb i).meas_g.comp (measurable_pi_apply i)
  have h1 : Measurable fun p : R × (∀ i, Fin (b i).m → ℝ) => w p.1 fun i => (b i).g (p.2 i) :=
    hw.comp (measurable_fst.prodMk (hG.comp measurable_snd))
  refine Measurable.add (Real.measurable_log.comp h1) (Finset.measurable_sum _ fun i _ => ?_)
  exact Real.measurable_log.comp ((hb i).meas_J.comp ((measurable_pi_apply i).comp measurable_snd))

theorem walkKernel_blocks {R : Type} [MeasurableSpace R] {N : ℕ} {b : Fin N → Block}
    (hb : ∀ i, (b i).Lawful) {w : R → (∀ i, Fin (b i).k → ℝ) → ℝ}
    (hw : Measurable fun p : R × (∀ i, Fin (b i).k → ℝ) => w p.1 p.2) :
    Measurable fun p : (ℝ × ℝ) × R × (∀ i, Fin (b i).m → ℝ) => splitEquiv (fun i => (b i).m) (vec _
      (walkKernel p.1 (flatLog fun q => blockLog b (w p.2.1) (splitEquiv (fun i => (b i).m) q))
        (List.ofFn ((splitEquiv fun i => (b i).m).symm p.2.2)))) := by
  have hl : Measurable fun p : R × (Fin (∑ i, (b i).m) → ℝ) =>
      blockLog b (w p.1) (splitEquiv (fun i => (b i).m) p.2) :=
    (blockLog_measurable hb hw).comp
      (measurable_fst.prodMk ((splitEquiv fun i => (b i).m).measurable.comp measurable_snd))
  have hin : Measurable fun p : (ℝ × ℝ) × R × (∀ i, Fin (b i).m → ℝ) =>
      (p.1, p.2.1, (splitEquiv fun i => (b i).m).symm p.2.2) :=
    measurable_fst.prodMk ((measurable_fst.comp measurable_snd).prodMk
      ((splitEquiv fun i => (b i).m).symm.measurable.comp (measurable_snd.comp measurable_snd)))
  exact (splitEquiv fun i => (b i).m).measurable.comp ((walkKernel_measurable
    (ℓ := fun r q => blockLog b (w r) (splitEquiv (fun i => (b i).m) q)) hl).comp hin)

/-! ## The model -/

/-- An angle and a probability vector with three entries. -/
noncomputable def exB : Fin [0, 1].length → Block
  | ⟨0, _⟩ => circleBlock []
  | ⟨_ + 1, _⟩ => simplexBlock 2

theorem exB_lawful (i) : (exB i).Lawful :=
  match i with
  | ⟨0, _⟩ => circleBlock_lawful []
  | ⟨_ + 1, _⟩ => simplexBlock_lawful 2

/-- The angle. -/
def exAngle (x : ∀ i, Fin (exB i).k → ℝ) : ℝ := x ⟨0, Nat.zero_lt_succ _⟩ ⟨0, Nat.zero_lt_one⟩

/-- The first probability. -/
def exProb (x : ∀ i, Fin (exB i).k → ℝ) : ℝ := x ⟨1, Nat.le_refl _⟩ ⟨0, Nat.zero_lt_succ _⟩

/-- The difference between the angle and the realised value is centred at the first probability. -/
noncomputable def exDens (r : ℝ) (x : ∀ i, Fin (exB i).k → ℝ) : ℝ :=
  Real.exp (Real.cos (exAngle x - r - exProb x))

theorem exDens_measurable : Measurable fun p : ℝ × (∀ i, Fin (exB i).k → ℝ) => exDens p.1 p.2 := by
  have h1 : Measurable fun p : ℝ × (∀ i, Fin (exB i).k → ℝ) => exAngle p.2 :=
    (measurable_pi_apply _).comp ((measurable_pi_apply _).comp measurable_snd)
  have h2 : Measurable fun p : ℝ × (∀ i, Fin (exB i).k → ℝ) => exProb p.2 :=
    (measurable_pi_apply _).comp ((measurable_pi_apply _).comp measurable_snd)
  exact Real.measurable_exp.comp (Real.measurable_cos.comp ((h1.sub measurable_fst).sub h2))

/-- Variable 0 is the angle, variable 1 the probability vector, variable 2 the realised one. -/
noncomputable def blockModel : Model Nat ℝ where
  transform v := if v = 0 then some circularTransform else if v = 1 then some simplexTransform else none
  inputs _ _ := []
  logprob σ := blockLog exB (exDens ((σ 2).data.getD 0 0)) fun i => vec _ (σ (10 + i)).data

/-- The law up to a constant. -/
noncomputable def exRaw : Measure (ℝ × (∀ i, Fin (exB i).k → ℝ)) :=
  ((ProbabilityTheory.gaussianReal 0 1).prod (Measure.pi fun i => (exB i).ref)).withDensity
    fun p => ENNReal.ofReal (exDens p.1 p.2)

theorem exB_finite (i) : IsFiniteMeasure (exB i).ref :=
  match i with
  | ⟨0, _⟩ => by
    refine ⟨?_⟩
    show volume.restrict _ Set.univ < ∞
    rw [Measure.restrict_apply_univ, volume_pi_pi]
    exact ENNReal.prod_lt_top fun _ _ => measure_Ioc_lt_top
  | ⟨_ + 1, _⟩ => by
    have := inner_finite 2
    show IsFiniteMeasure ((volume.restrict (Simplex.inner 2)).map Simplex.one)
    infer_instance

theorem ref_ne_zero {b : Block} (hb : b.Lawful) : b.ref ≠ 0 := by
  intro h
  have hc := hb.countable
  have hD : volume b.D = 0 := by
    rw [← hb.map_eq, Measure.map_eq_zero_iff hb.meas_g.aemeasurable, withDensity_eq_zero_iff
      hb.meas_J.ennreal_ofReal.aemeasurable] at h
    have h0 : ∀ᵐ q ∂volume.restrict b.D, False := by
      filter_upwards [h] with q hq
      have := hb.pos q
      simp only [Pi.zero_apply, ENNReal.ofReal_eq_zero] at hq
      linarith
    rw [← Measure.restrict_eq_zero]
    exact ae_eq_bot.1 (Filter.eventually_false_iff_eq_bot.1 h0)
  have hu : (Set.univ : Set (Fin b.m → ℝ)) = ⋃ l : b.shifts, (fun q => (l : Fin b.m → ℝ) + q) ⁻¹' b.D := by
    refine (Set.eq_univ_of_forall fun q => ?_).symm
    obtain ⟨l, hl, -⟩ := hb.tile q
    exact Set.mem_iUnion.2 ⟨l, hl⟩
  have h0 : (volume : Measure (Fin b.m → ℝ)) Set.univ = 0 := by
    rw [hu]
    refine measure_iUnion_null fun l => ?_
    rw [measure_preimage_add]
    exact hD
  exact NeZero.ne (volume : Measure (Fin b.m → ℝ)) (Measure.measure_univ_eq_zero.1 h0)

theorem exRaw_mass : exRaw Set.univ ≠ 0 ∧ exRaw Set.univ ≠ ∞ := by
  have hfin := exB_finite
  have hμ : ((ProbabilityTheory.gaussianReal 0 1).prod (Measure.pi fun i => (exB i).ref)) Set.univ ≠ 0 := by
    rw [← Set.univ_prod_univ, Measure.prod_prod, measure_univ, one_mul, Measure.pi_univ]
    exact Finset.prod_ne_zero_iff.2 fun i _ h =>
      ref_ne_zero (exB_lawful i) (Measure.measure_univ_eq_zero.1 h)
  rw [exRaw, withDensity_apply _ MeasurableSet.univ, Measure.restrict_univ]
  constructor
  · refine ne_of_gt (lt_of_lt_of_le ?_ (lintegral_mono (f := fun _ => ENNReal.ofReal (Real.exp (-1)))
      fun p => ENNReal.ofReal_le_ofReal (Real.exp_le_exp.2 (Real.neg_one_le_cos _))))
    rw [lintegral_const]
    exact ENNReal.mul_pos (ENNReal.ofReal_pos.2 (Real.exp_pos _)).ne' hμ
  · refine ne_of_lt (lt_of_le_of_lt (lintegral_mono (g := fun _ => ENNReal.ofReal (Real.exp 1))
      fun p => ENNReal.ofReal_le_ofReal (Real.exp_le_exp.2 (Real.cos_le_one _))) ?_)
    rw [lintegral_const]
    exact ENNReal.mul_lt_top ENNReal.ofReal_lt_top (measure_lt_top _ _)

/-- The law. -/
noncomputable def exJoint : Measure (ℝ × (∀ i, Fin (exB i).k → ℝ)) := (exRaw Set.univ)⁻¹ • exRaw

instance : IsProbabilityMeasure exJoint := ⟨by
  rw [exJoint, Measure.smul_apply, smul_eq_mul]
  exact ENNReal.inv_mul_cancel exRaw_mass.1 exRaw_mass.2⟩

/-- The current values. -/
noncomputable def exVals (x : ∀ i, Fin (exB i).k → ℝ) : Dict Nat (Arr ℝ) :=
  [(0, ⟨[], List.ofFn (x ⟨0, Nat.zero_lt_succ _⟩)⟩), (1, ⟨[3], List.ofFn (x ⟨1, Nat.le_refl _⟩)⟩)]

theorem vals_exVals (x : ∀ i, Fin (exB i).k → ℝ) : vals (fun i => (exB i).k) (exVals x) = x := by
  funext i
  match i with
  | ⟨0, _⟩ => exact vec_ofFn _
  | ⟨1, _⟩ => exact vec_ofFn _

theorem exChanges (env : ℕ → Arr ℝ) (i) : Changes blockModel env [0, 1][i] (exB i) :=
  match i with
  | ⟨0, _⟩ => (C54_transforms blockModel env 0 []).2.2.2.2.2.1 rfl
  | ⟨1, _⟩ => (C54_transforms blockModel env 1 []).2.2.2.2.2.2 rfl 2

/-- The hypotheses of `C54_blocks_partial` are met: the realised variable is normal, the angle and the
probability vector have their joint law with it, the draws in the graph are equal to the noise of the kernel,
which moves the state. -/
example : ∃ res : (ℝ × (∀ i, Fin (exB i).k → ℝ)) × (ℝ × ℝ) → Dict Nat (Arr ℝ),
    (∀ ω, step blockModel (walkKernel ω.2) (fun v => if v = 2 then ⟨[], [ω.1.1]⟩ else ⟨[], [ω.2.1]⟩)
      (exVals ω.1.2) [10, 11] = some (res ω)) ∧
    (exJoint.prod walkNoise).map (fun ω => (ω.1.1, vals (fun i => (exB i).k) (res ω))) = exJoint := by
  have hfin := exB_finite
  obtain ⟨res, h1, h2⟩ := C54_blocks_partial (exJoint.prod walkNoise) (ProbabilityTheory.gaussianReal 0 1)
    walkNoise blockModel walkKernel_keeps (rvs := [0, 1]) (placeholders := [10, 11]) (by decide) (by decide)
    rfl exB_lawful (Or.inr walkKernel_shifts) exDens_measurable (fun r x _ => Real.exp_pos _)
    (exRaw Set.univ)⁻¹
    (r := fun ω => ω.1.1) (u := fun ω => ω.2)
    (env := fun ω v => if v = 2 then ⟨[], [ω.1.1]⟩ else ⟨[], [ω.2.1]⟩) (X := fun ω => exVals ω.1.2)
    (fun _ => rfl)
    (fun ω i p hp => by
      match i with
      | ⟨0, _⟩ =>
        cases hp
        exact ⟨by simp [Arr.WF]; rfl, rfl⟩
      | ⟨1, _⟩ =>
        cases hp
        exact ⟨by simp [Arr.WF]; rfl, rfl⟩)
    (fun ω i => (exChanges _ i).2.1) (fun ω i => (exChanges _ i).2.2)
    (fun ω d hk hs => by
      match d, hk with
      | [(a, x), (b, y)], hk =>
        have hab : a = 10 ∧ b = 11 := by simpa [Dict.keys] using hk
        obtain ⟨rfl, rfl⟩ := hab
        have hr : (override (fun v => if v = 2 then (⟨[], [ω.1.1]⟩ : Arr ℝ) else ⟨[], [ω.2.1]⟩)
          [(10, x), (11, y)] 2).data.getD 0 0 = ω.1.1 := by
          simp [override, Dict.get?]
        simp only [blockModel, hr]
        congr 1
        funext i
        match i with
        | ⟨0, _⟩ => simp [override, Dict.get?, vals]
        | ⟨1, _⟩ => simp [override, Dict.get?, vals])
    (walkKernel_blocks exB_lawful exDens_measurable)
    (by
      simp only [vals_exVals]
      exact measurable_id)
    (by
      simp only [vals_exVals]
      exact Measure.map_id)
  exact ⟨res, fun ω => (h1 ω).1, h2⟩

end Verif.Nuts
