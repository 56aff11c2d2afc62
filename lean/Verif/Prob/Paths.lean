import Mathlib.Probability.Kernel.IonescuTulcea.Traj
import Mathlib.Probability.Kernel.Composition.IntegralCompProd
import Mathlib.Probability.ProductMeasure
import Verif.Iter.Runs

/-!
# Runs of a step: all values returned by infinitely many calls
-/

open MeasureTheory ProbabilityTheory Filter
open scoped ENNReal Topology

namespace Verif

variable {Θ : Type*} [MeasurableSpace Θ] {Ω : Type*} [MeasurableSpace Ω]

/-- Spec.  On the probability space `(Ω, P)` the values `X 0, X 1, …` are those returned by repeated calls
of the step `K` from `θ`: the first is drawn from `K θ`, and each later one from `K` at the value before,
whatever the values so far. -/
structure IsRun (K : Θ → Measure Θ) (θ : Θ) (P : Measure Ω) (X : ℕ → Ω → Θ) : Prop where
  meas : ∀ n, Measurable (X n)
  first : P.map (X 0) = K θ
  next : ∀ (n : ℕ) (S : ℕ → Set Θ), (∀ i, MeasurableSet (S i)) → ∀ B, MeasurableSet B →
    P ({ω | ∀ i ≤ n, X i ω ∈ S i} ∩ {ω | X (n + 1) ω ∈ B}) =
      ∫⁻ ω in {ω | ∀ i ≤ n, X i ω ∈ S i}, K (X n ω) B ∂P

theorem measurableSet_hist {X : ℕ → Ω → Θ} (hX : ∀ n, Measurable (X n)) {S : ℕ → Set Θ}
    (hS : ∀ i, MeasurableSet (S i)) (n : ℕ) : MeasurableSet {ω | ∀ i ≤ n, X i ω ∈ S i} := by
  have : {ω | ∀ i ≤ n, X i ω ∈ S i} = ⋂ i, ⋂ (_ : i ≤ n), X i ⁻¹' S i := by ext; simp
  rw [this]
  exact MeasurableSet.iInter fun i => MeasurableSet.iInter fun _ => hX i (hS i)

namespace IsRun

variable {K : Θ → Measure Θ} {θ : Θ} {P : Measure Ω} {X : ℕ → Ω → Θ}

theorem map_next (h : IsRun K θ P X) (hK : Measurable K) (n : ℕ) {S : ℕ → Set Θ}
    (hS : ∀ i, MeasurableSet (S i)) :
    (P.restrict {ω | ∀ i ≤ n, X i ω ∈ S i}).map (X (n + 1)) =
      (P.restrict {ω | ∀ i ≤ n, X i ω ∈ S i}).bind fun ω => K (X n ω) := by
  refine Measure.ext fun B hB => ?_
  rw [Measure.map_apply (h.meas _) hB, Measure.bind_apply (f := fun ω => K (X n ω)) hB (hK.comp (h.meas n)).aemeasurable,
    Measure.restrict_apply (h.meas _ hB), Set.inter_comm]
  exact h.next n S hS B hB

theorem lintegral_zero (h : IsRun K θ P X) {S : ℕ → Set Θ} (hS : ∀ i, MeasurableSet (S i)) {g : Θ → ℝ≥0∞}
    (hg : Measurable g) :
    ∫⁻ ω in {ω | ∀ i ≤ 0, X i ω ∈ S i}, g (X 0 ω) ∂P = ∫⁻ x in S 0, g x ∂K θ := by
  have e : {ω | ∀ i ≤ 0, X i ω ∈ S i} = X 0 ⁻¹' S 0 := by ext; simp
  rw [e, ← h.first, setLIntegral_map (hS 0) hg (h.meas 0)]

omit [MeasurableSpace Θ] [MeasurableSpace Ω] in
theorem hist_succ (X : ℕ → Ω → Θ) (S : ℕ → Set Θ) (n : ℕ) : {ω | ∀ i ≤ n + 1, X i ω ∈ S i} =
    X (n + 1) ⁻¹' S (n + 1) ∩ {ω | ∀ i ≤ n, X i ω ∈ S i} := by
  ext ω
  simp only [Set.mem_ofPred_eq, Set.mem_inter_iff, Set.mem_preimage]
  constructor
  · intro h
    exact ⟨h _ le_rfl, fun i hi => h i (by omega)⟩
  · rintro ⟨h1, h2⟩ i hi
    rcases Nat.lt_or_ge n i with h3 | h3
    · obtain rfl : i = n + 1 := by omega
      exact h1
    · exact h2 i h3

theorem lintegral_succ (hK : Measurable K) (h : IsRun K θ P X) {S : ℕ → Set Θ}
    (hS : ∀ i, MeasurableSet (S i)) (n : ℕ) {g : Θ → ℝ≥0∞} (hg : Measurable g) :
    ∫⁻ ω in {ω | ∀ i ≤ n + 1, X i ω ∈ S i}, g (X (n + 1) ω) ∂P =
      ∫⁻ ω in {ω | ∀ i ≤ n, X i ω ∈ S i}, ∫⁻ x in S (n + 1), g x ∂K (X n ω) ∂P := by
  rw [hist_succ, ← Measure.restrict_restrict (h.meas _ (hS _)), ← setLIntegral_map (hS _) hg (h.meas _),
    h.map_next hK n hS, ← lintegral_indicator (hS _),
    Measure.lintegral_bind (μ := fun ω => K (X n ω)) (hK.comp (h.meas n)).aemeasurable
      (hg.indicator (hS _)).aemeasurable]
  simp only [lintegral_indicator (hS _)]

/-- Two runs have the same laws of the first values. -/
theorem lintegral_eq {Ω' : Type*} [MeasurableSpace Ω'] {P' : Measure Ω'} {X' : ℕ → Ω' → Θ}
    (hK : Measurable K) (h : IsRun K θ P X) (h' : IsRun K θ P' X') {S : ℕ → Set Θ}
    (hS : ∀ i, MeasurableSet (S i)) (n : ℕ) {g : Θ → ℝ≥0∞} (hg : Measurable g) :
    ∫⁻ ω in {ω | ∀ i ≤ n, X i ω ∈ S i}, g (X n ω) ∂P =
      ∫⁻ ω in {ω | ∀ i ≤ n, X' i ω ∈ S i}, g (X' n ω) ∂P' := by
  induction n generalizing g with
  | zero => rw [h.lintegral_zero hS hg, h'.lintegral_zero hS hg]
  | succ n ih =>
    rw [lintegral_succ hK h hS n hg, lintegral_succ hK h' hS n hg]
    have hg' : Measurable fun y => ∫⁻ x in S (n + 1), g x ∂K y := by
      simp only [← lintegral_indicator (hS _)]
      exact (Measure.measurable_lintegral (hg.indicator (hS _))).comp hK
    exact ih hg'

theorem hist_eq {Ω' : Type*} [MeasurableSpace Ω'] {P' : Measure Ω'} {X' : ℕ → Ω' → Θ}
    (hK : Measurable K) (h : IsRun K θ P X) (h' : IsRun K θ P' X') {S : ℕ → Set Θ}
    (hS : ∀ i, MeasurableSet (S i)) (n : ℕ) :
    P {ω | ∀ i ≤ n, X i ω ∈ S i} = P' {ω | ∀ i ≤ n, X' i ω ∈ S i} := by
  have := lintegral_eq hK h h' hS n (g := fun _ => 1) measurable_const
  simpa using this

end IsRun

/-- Laws on sequences that agree on the events of finitely many first values are equal. -/
theorem seq_ext {μ ν : Measure (ℕ → Θ)} [IsFiniteMeasure μ]
    (h : ∀ (n : ℕ) (S : ℕ → Set Θ), (∀ i, MeasurableSet (S i)) →
      μ {s | ∀ i ≤ n, s i ∈ S i} = ν {s | ∀ i ≤ n, s i ∈ S i}) : μ = ν := by
  classical
  refine ext_of_generate_finite _ generateFrom_squareCylinders.symm
    (isPiSystem_squareCylinders (fun _ => MeasurableSpace.isPiSystem_measurableSet) (by simp)) ?_
    (by simpa using h 0 (fun _ => Set.univ) fun _ => MeasurableSet.univ)
  rintro _ ⟨s, t, ht, rfl⟩
  have e : (s : Set ℕ).pi t = {x | ∀ i ≤ s.sup id, x i ∈ if i ∈ s then t i else Set.univ} := by
    ext x
    simp only [Set.mem_pi, Finset.mem_coe, Set.mem_ofPred_eq]
    constructor
    · intro h i _
      split_ifs with hi
      · exact h i hi
      · trivial
    · intro h i hi
      have := h i (Finset.le_sup (f := id) hi)
      rwa [if_pos hi] at this
  rw [e]
  refine h _ _ fun i => ?_
  split_ifs
  · exact ht i trivial
  · exact MeasurableSet.univ

namespace IsRun

variable {K : Θ → Measure Θ} {θ : Θ} {P : Measure Ω} {X : ℕ → Ω → Θ}

/-- Two runs from the same start have the same law. -/
theorem map_eq {Ω' : Type*} [MeasurableSpace Ω'] {P' : Measure Ω'} {X' : ℕ → Ω' → Θ}
    [IsProbabilityMeasure P] [IsProbabilityMeasure P'] (hK : Measurable K)
    (h : IsRun K θ P X) (h' : IsRun K θ P' X') :
    P.map (fun ω n => X n ω) = P'.map (fun ω n => X' n ω) := by
  have hm : Measurable fun ω n => X n ω := measurable_pi_lambda _ h.meas
  have hm' : Measurable fun ω n => X' n ω := measurable_pi_lambda _ h'.meas
  have : IsProbabilityMeasure (P.map fun ω n => X n ω) := Measure.isProbabilityMeasure_map hm.aemeasurable
  have : IsProbabilityMeasure (P'.map fun ω n => X' n ω) := Measure.isProbabilityMeasure_map hm'.aemeasurable
  refine seq_ext fun n S hS => ?_
  have hE := measurableSet_hist (X := fun n (s : ℕ → Θ) => s n) (fun n => measurable_pi_apply n) hS n
  rw [Measure.map_apply hm hE, Measure.map_apply hm' hE]
  exact hist_eq hK h h' hS n

end IsRun

/-! ### The canonical run -/

section Canonical

variable {K : Θ → Measure Θ} (hK : Measurable K) (hp : ∀ θ, IsProbabilityMeasure (K θ))

/-- The step as a kernel that reads the last of the values so far. -/
noncomputable def lastKernel (hK : Measurable K) (n : ℕ) : Kernel ((i : Finset.Iic n) → Θ) Θ where
  toFun h := K (h ⟨n, Finset.mem_Iic.2 le_rfl⟩)
  measurable' := hK.comp (measurable_pi_apply _)

theorem isMarkov_lastKernel (hp : ∀ θ, IsProbabilityMeasure (K θ)) (n : ℕ) :
    IsMarkovKernel (lastKernel hK n) := ⟨fun _ => hp _⟩

/-- The law of the values returned by infinitely many calls. -/
noncomputable def pathLaw (hK : Measurable K) (hp : ∀ θ, IsProbabilityMeasure (K θ)) (θ : Θ) :
    Measure (ℕ → Θ) :=
  have := isMarkov_lastKernel hK hp
  (Kernel.traj (X := fun _ => Θ) (lastKernel hK) 0 fun _ => θ).map fun s n => s (n + 1)

theorem measurable_tailSeq : Measurable fun (s : ℕ → Θ) (n : ℕ) => s (n + 1) :=
  measurable_pi_lambda _ fun n => measurable_pi_apply (n + 1)

theorem isProbabilityMeasure_pathLaw (θ : Θ) : IsProbabilityMeasure (pathLaw hK hp θ) := by
  have := isMarkov_lastKernel hK hp
  exact Measure.isProbabilityMeasure_map measurable_tailSeq.aemeasurable

theorem measurable_pathLaw : Measurable (pathLaw hK hp) := by
  have := isMarkov_lastKernel hK hp
  exact (Measure.measurable_map _ measurable_tailSeq).comp
    ((Kernel.measurable _).comp (measurable_pi_lambda _ fun _ => measurable_id))

theorem isRun_pathLaw (θ : Θ) : IsRun K θ (pathLaw hK hp θ) fun n s => s n where
  meas n := measurable_pi_apply n
  first := by
    have := isMarkov_lastKernel hK hp
    have h := Kernel.map_traj_succ_self (X := fun _ => Θ) (κ := lastKernel hK) (a := 0)
    have h1 := DFunLike.congr_fun h fun _ => θ
    rw [Kernel.map_apply _ (measurable_pi_apply _)] at h1
    rw [pathLaw, Measure.map_map (measurable_pi_apply 0) measurable_tailSeq]
    exact h1
  next n S hS B hB := by
    have := isMarkov_lastKernel hK hp
    have h := Kernel.partialTraj_compProd_eq_map_traj (X := fun _ => Θ) (κ := lastKernel hK) (Nat.zero_le (n + 1))
      (x₀ := fun _ => θ)
    rw [← Kernel.traj_map_frestrictLe_apply] at h
    set τ := Kernel.traj (X := fun _ => Θ) (lastKernel hK) 0 fun _ => θ with hτ
    let E : Set ((i : Finset.Iic (n + 1)) → Θ) := {h | ∀ i : Finset.Iic (n + 1), ∀ j ≤ n, i.1 = j + 1 → h i ∈ S j}
    have hE : MeasurableSet E := by
      have : E = ⋂ i : Finset.Iic (n + 1), ⋂ j, ⋂ (_ : j ≤ n), ⋂ (_ : i.1 = j + 1), {h | h i ∈ S j} := by
        ext
        simp [E]
      rw [this]
      exact MeasurableSet.iInter fun i => MeasurableSet.iInter fun j => MeasurableSet.iInter fun _ =>
        MeasurableSet.iInter fun _ => measurable_pi_apply i (hS j)
    have hr : Measurable (Preorder.frestrictLe (π := fun _ : ℕ => Θ) (n + 1)) := Preorder.measurable_frestrictLe _
    have e : {s : ℕ → Θ | ∀ i ≤ n, s (i + 1) ∈ S i} = Preorder.frestrictLe (π := fun _ : ℕ => Θ) (n + 1) ⁻¹' E := by
      ext s
      simp only [Set.mem_ofPred_eq, Set.mem_preimage, E]
      constructor
      · intro h i j hj hij
        have := h j hj
        rw [← hij] at this
        exact this
      · intro h i hi
        exact h ⟨i + 1, Finset.mem_Iic.2 (by omega)⟩ i hi rfl
    have hm := measurableSet_hist (X := fun n (s : ℕ → Θ) => s n) (fun n => measurable_pi_apply n) hS n
    have hB' : MeasurableSet {s : ℕ → Θ | s (n + 1) ∈ B} := measurable_pi_apply (n + 1) hB
    have hKB : Measurable fun s : ℕ → Θ => K (s n) B :=
      (Measure.measurable_coe hB).comp (hK.comp (measurable_pi_apply n))
    have h2 := congrArg (fun m => m (E ×ˢ B)) h
    rw [Measure.compProd_apply_prod hE hB, Measure.map_apply (by fun_prop) (hE.prod hB),
      setLIntegral_map hE (Kernel.measurable_coe _ hB) hr] at h2
    rw [pathLaw, Measure.map_apply measurable_tailSeq (hm.inter hB'), setLIntegral_map hm hKB measurable_tailSeq]
    have e2 : (fun (s : ℕ → Θ) (n : ℕ) => s (n + 1)) ⁻¹' {s | ∀ i ≤ n, s i ∈ S i} =
        {s : ℕ → Θ | ∀ i ≤ n, s (i + 1) ∈ S i} := rfl
    rw [Set.preimage_inter, e2, e]
    refine Eq.trans ?_ h2.symm
    rfl

theorem pathLaw_eq {θ : Θ} {P : Measure Ω} {X : ℕ → Ω → Θ} [IsProbabilityMeasure P] (h : IsRun K θ P X) :
    P.map (fun ω n => X n ω) = pathLaw hK hp θ := by
  have := isProbabilityMeasure_pathLaw hK hp θ
  rw [h.map_eq hK (isRun_pathLaw hK hp θ)]
  exact Measure.map_id

/-- The sequence with one more value in front. -/
def consSeq (y : Θ) (s : ℕ → Θ) : ℕ → Θ
  | 0 => y
  | n + 1 => s n

theorem measurable_consSeq : Measurable fun q : Θ × (ℕ → Θ) => consSeq q.1 q.2 :=
  measurable_pi_lambda _ fun n => by
    cases n with
    | zero => exact measurable_fst
    | succ n => exact (measurable_pi_apply n).comp measurable_snd

theorem measurable_consSeq_right (y : Θ) : Measurable (consSeq y) :=
  measurable_consSeq.comp (measurable_const.prodMk measurable_id)

/-- The law of the values after the first, put together with the first. -/
theorem measurable_pathLaw_cons : Measurable fun y => (pathLaw hK hp y).map (consSeq y) := by
  refine Measure.measurable_of_measurable_coe _ fun A hA => ?_
  let κ : Kernel Θ (ℕ → Θ) := ⟨pathLaw hK hp, measurable_pathLaw hK hp⟩
  have : IsMarkovKernel κ := ⟨fun y => isProbabilityMeasure_pathLaw hK hp y⟩
  have h : Measurable fun a => κ a (Prod.mk a ⁻¹' ((fun q : Θ × (ℕ → Θ) => consSeq q.1 q.2) ⁻¹' A)) :=
    Kernel.measurable_kernel_prodMk_left (κ := κ) (measurable_consSeq hA)
  have e : (fun y => (pathLaw hK hp y).map (consSeq y) A) =
      fun a => κ a (Prod.mk a ⁻¹' ((fun q : Θ × (ℕ → Θ) => consSeq q.1 q.2) ⁻¹' A)) := by
    funext y
    rw [Measure.map_apply (measurable_consSeq_right y) hA]
    rfl
  rw [e]
  exact h

theorem lintegral_cons (θ : Θ) {g : (ℕ → Θ) → ℝ≥0∞} (hg : Measurable g) :
    ∫⁻ s, g s ∂((K θ).bind fun y => (pathLaw hK hp y).map (consSeq y)) =
      ∫⁻ y, ∫⁻ s, g (consSeq y s) ∂pathLaw hK hp y ∂K θ := by
  rw [Measure.lintegral_bind (measurable_pathLaw_cons hK hp).aemeasurable hg.aemeasurable]
  refine lintegral_congr fun y => ?_
  rw [lintegral_map hg (measurable_consSeq_right y)]

theorem indicator_iff {α β : Type*} {A : Set α} {A' : Set β} {f : α → ℝ≥0∞} {f' : β → ℝ≥0∞} {x : α} {x' : β}
    (h : x ∈ A ↔ x' ∈ A') (hf : f x = f' x') : A.indicator f x = A'.indicator f' x' := by
  by_cases hx : x ∈ A
  · rw [Set.indicator_of_mem hx, Set.indicator_of_mem (h.1 hx), hf]
  · rw [Set.indicator_of_notMem hx, Set.indicator_of_notMem (fun h' => hx (h.2 h'))]

/-- Putting the first value in front of a run from it gives a run. -/
theorem isRun_cons (θ : Θ) :
    IsRun K θ ((K θ).bind fun y => (pathLaw hK hp y).map (consSeq y)) fun n s => s n where
  meas n := measurable_pi_apply n
  first := by
    refine Measure.ext fun B hB => ?_
    rw [Measure.map_apply (measurable_pi_apply 0) hB, ← lintegral_indicator_one (measurable_pi_apply 0 hB),
      lintegral_cons hK hp θ (measurable_one.indicator (measurable_pi_apply 0 hB)), ← lintegral_indicator_one hB]
    refine lintegral_congr fun y => ?_
    have := isProbabilityMeasure_pathLaw hK hp y
    have e : ∀ s : ℕ → Θ, ((fun s : ℕ → Θ => s 0) ⁻¹' B).indicator (1 : (ℕ → Θ) → ℝ≥0∞) (consSeq y s) =
        B.indicator 1 y := fun s => rfl
    simp only [e, lintegral_const, measure_univ, mul_one]
  next n S hS B hB := by
    have hm := measurableSet_hist (X := fun n (s : ℕ → Θ) => s n) (fun n => measurable_pi_apply n) hS n
    have hB' : MeasurableSet {s : ℕ → Θ | s (n + 1) ∈ B} := measurable_pi_apply (n + 1) hB
    have hKB : Measurable fun s : ℕ → Θ => K (s n) B :=
      (Measure.measurable_coe hB).comp (hK.comp (measurable_pi_apply n))
    rw [← lintegral_indicator_one (hm.inter hB'), ← lintegral_indicator hm,
      lintegral_cons hK hp θ (measurable_one.indicator (hm.inter hB')),
      lintegral_cons hK hp θ (hKB.indicator hm)]
    refine lintegral_congr fun y => ?_
    have := isProbabilityMeasure_pathLaw hK hp y
    have hr := isRun_pathLaw hK hp y
    cases n with
    | zero =>
      have hfi := hr.first
      by_cases hy : y ∈ S 0
      · have e1 : ∀ s : ℕ → Θ, ({s : ℕ → Θ | ∀ i ≤ 0, s i ∈ S i} ∩ {s | s (0 + 1) ∈ B}).indicator
            (1 : (ℕ → Θ) → ℝ≥0∞) (consSeq y s) = ((fun s : ℕ → Θ => s 0) ⁻¹' B).indicator 1 s := by
          intro s
          refine indicator_iff ?_ rfl
          constructor
          · exact fun h => h.2
          · refine fun h => ⟨fun i hi => ?_, h⟩
            obtain rfl : i = 0 := by omega
            exact hy
        have e2 : ∀ s : ℕ → Θ, ({s : ℕ → Θ | ∀ i ≤ 0, s i ∈ S i}).indicator
            (fun s : ℕ → Θ => K (s 0) B) (consSeq y s) = K y B := by
          intro s
          simp [Set.indicator, consSeq, hy]
        simp only [e1, e2]
        rw [lintegral_indicator_one (measurable_pi_apply 0 hB), lintegral_const, measure_univ, mul_one,
          ← Measure.map_apply (measurable_pi_apply 0) hB, hfi]
      · have e1 : ∀ s : ℕ → Θ, ({s : ℕ → Θ | ∀ i ≤ 0, s i ∈ S i} ∩ {s | s (0 + 1) ∈ B}).indicator
            (1 : (ℕ → Θ) → ℝ≥0∞) (consSeq y s) = 0 := by
          intro s
          simp [Set.indicator, consSeq, hy]
        have e2 : ∀ s : ℕ → Θ, ({s : ℕ → Θ | ∀ i ≤ 0, s i ∈ S i}).indicator
            (fun s : ℕ → Θ => K (s 0) B) (consSeq y s) = 0 := by
          intro s
          simp [Set.indicator, consSeq, hy]
        simp only [e1, e2]
    | succ n =>
      have hS' : ∀ i, MeasurableSet (S (i + 1)) := fun i => hS _
      have hm' := measurableSet_hist (X := fun n (s : ℕ → Θ) => s n) (fun n => measurable_pi_apply n) hS' n
      have hB'' : MeasurableSet {s : ℕ → Θ | s (n + 1) ∈ B} := measurable_pi_apply (n + 1) hB
      have ecs : ∀ s : ℕ → Θ, (consSeq y s ∈ {s : ℕ → Θ | ∀ i ≤ n + 1, s i ∈ S i}) ↔
          y ∈ S 0 ∧ s ∈ {s : ℕ → Θ | ∀ i ≤ n, s i ∈ S (i + 1)} := by
        intro s
        constructor
        · intro h
          exact ⟨h 0 (Nat.zero_le _), fun i hi => h (i + 1) (by omega)⟩
        · rintro ⟨h1, h2⟩ i hi
          cases i with
          | zero => exact h1
          | succ i => exact h2 i (by omega)
      by_cases hy : y ∈ S 0
      · have hn := hr.next n (fun i => S (i + 1)) hS' B hB
        rw [← lintegral_indicator_one (hm'.inter hB''), ← lintegral_indicator hm'] at hn
        refine Eq.trans (lintegral_congr fun s => ?_) (hn.trans (lintegral_congr fun s => ?_))
        · exact indicator_iff ⟨fun h => ⟨((ecs s).1 h.1).2, h.2⟩, fun h => ⟨(ecs s).2 ⟨hy, h.1⟩, h.2⟩⟩ rfl
        · exact indicator_iff ⟨fun h => (ecs s).2 ⟨hy, h⟩, fun h => ((ecs s).1 h).2⟩ rfl
      · have e1 : ∀ s : ℕ → Θ, ({s : ℕ → Θ | ∀ i ≤ n + 1, s i ∈ S i} ∩ {s | s (n + 1 + 1) ∈ B}).indicator
            (1 : (ℕ → Θ) → ℝ≥0∞) (consSeq y s) = 0 := by
          intro s
          refine Set.indicator_of_notMem (fun h => hy ((ecs s).1 h.1).1) _
        have e2 : ∀ s : ℕ → Θ, ({s : ℕ → Θ | ∀ i ≤ n + 1, s i ∈ S i}).indicator
            (fun s : ℕ → Θ => K (s (n + 1)) B) (consSeq y s) = 0 := by
          intro s
          refine Set.indicator_of_notMem (fun h => hy ((ecs s).1 h).1) _
        simp only [e1, e2]

/-- After the first call the rest is the run from the value it returned. -/
theorem pathLaw_first (θ : Θ) :
    pathLaw hK hp θ = (K θ).bind fun y => (pathLaw hK hp y).map (consSeq y) := by
  have : ∀ y, IsProbabilityMeasure ((pathLaw hK hp y).map (consSeq y)) := fun y => by
    have := isProbabilityMeasure_pathLaw hK hp y
    exact Measure.isProbabilityMeasure_map (measurable_consSeq_right y).aemeasurable
  have : IsProbabilityMeasure ((K θ).bind fun y => (pathLaw hK hp y).map (consSeq y)) := by
    have := hp θ
    exact isProbabilityMeasure_bind (measurable_pathLaw_cons hK hp).aemeasurable (ae_of_all _ fun y => ‹∀ y, IsProbabilityMeasure ((pathLaw hK hp y).map (consSeq y))› y)
  rw [← pathLaw_eq hK hp (isRun_cons hK hp θ)]
  exact Measure.map_id

end Canonical

end Verif
