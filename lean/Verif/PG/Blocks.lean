import Verif.PG.Symm
import Verif.Parts.Joint

/-!
# Lemmas: two regressions written as one
-/

open MeasureTheory ProbabilityTheory Matrix
open scoped ENNReal

namespace Verif

variable {p₁ p₂ n₁ n₂ : ℕ}

theorem measurable_append : Measurable fun q : (Fin n₁ → ℝ) × (Fin n₂ → ℝ) => Fin.append q.1 q.2 := by
  refine measurable_pi_iff.2 fun i => ?_
  refine Fin.addCases (fun i => ?_) (fun i => ?_) i
  · simp only [Fin.append_left]
    fun_prop
  · simp only [Fin.append_right]
    fun_prop

/-- Independent variables in two groups. -/
theorem pi_append (μ₁ : Fin n₁ → Measure ℝ) (μ₂ : Fin n₂ → Measure ℝ) [∀ i, IsProbabilityMeasure (μ₁ i)]
    [∀ i, IsProbabilityMeasure (μ₂ i)] :
    ((Measure.pi μ₁).prod (Measure.pi μ₂)).map (fun q => Fin.append q.1 q.2) =
      Measure.pi (Fin.append μ₁ μ₂) := by
  have : ∀ i, IsProbabilityMeasure (Fin.append μ₁ μ₂ i) := fun i => by
    refine Fin.addCases (motive := fun i => IsProbabilityMeasure (Fin.append μ₁ μ₂ i)) (fun i => ?_)
      (fun i => ?_) i
    · rw [Fin.append_left]; infer_instance
    · rw [Fin.append_right]; infer_instance
  refine (Measure.pi_eq fun s hs => ?_).symm
  have e : (fun q : (Fin n₁ → ℝ) × (Fin n₂ → ℝ) => Fin.append q.1 q.2) ⁻¹' Set.univ.pi s =
      (Set.univ.pi fun i => s (Fin.castAdd n₂ i)) ×ˢ (Set.univ.pi fun i => s (Fin.natAdd n₁ i)) := by
    ext q
    simp only [Set.mem_preimage, Set.mem_univ_pi, Set.mem_prod, Fin.forall_fin_add, Fin.append_left,
      Fin.append_right]
  rw [Measure.map_apply measurable_append (MeasurableSet.univ_pi hs), e, Measure.prod_prod, Measure.pi_pi,
    Measure.pi_pi, Fin.prod_univ_add]
  simp only [Fin.append_left, Fin.append_right]

/-- Spec.  Two designs for separate observations and separate coefficients, as one. -/
def sideBySide (X₁ : Matrix (Fin n₁) (Fin p₁) ℝ) (X₂ : Matrix (Fin n₂) (Fin p₂) ℝ) :
    Matrix (Fin (n₁ + n₂)) (Fin (p₁ + p₂)) ℝ :=
  (fromBlocks X₁ 0 0 X₂).submatrix finSumFinEquiv.symm finSumFinEquiv.symm

theorem sideBySide_mulVec (X₁ : Matrix (Fin n₁) (Fin p₁) ℝ) (X₂ : Matrix (Fin n₂) (Fin p₂) ℝ)
    (β₁ : Fin p₁ → ℝ) (β₂ : Fin p₂ → ℝ) :
    sideBySide X₁ X₂ *ᵥ Fin.append β₁ β₂ = Fin.append (X₁ *ᵥ β₁) (X₂ *ᵥ β₂) := by
  funext i
  refine Fin.addCases (fun i => ?_) (fun i => ?_) i
  · simp [sideBySide, mulVec, dotProduct, Fin.sum_univ_add]
  · simp [sideBySide, mulVec, dotProduct, Fin.sum_univ_add]

theorem pgJoint_sideBySide (X₁ : Matrix (Fin n₁) (Fin p₁) ℝ) (X₂ : Matrix (Fin n₂) (Fin p₂) ℝ)
    (κ₁ : Fin n₁ → ℝ) (κ₂ : Fin n₂ → ℝ) (β₁ : Fin p₁ → ℝ) (β₂ : Fin p₂ → ℝ) (w₁ : Fin n₁ → ℝ)
    (w₂ : Fin n₂ → ℝ) :
    pgJoint (sideBySide X₁ X₂) (Fin.append κ₁ κ₂) (Fin.append β₁ β₂) (Fin.append w₁ w₂) =
      pgJoint X₁ κ₁ β₁ w₁ * pgJoint X₂ κ₂ β₂ w₂ := by
  unfold pgJoint
  rw [← ENNReal.ofReal_mul (Finset.prod_nonneg fun i _ => by positivity), sideBySide_mulVec,
    Fin.prod_univ_add]
  simp only [Fin.append_left, Fin.append_right]

theorem mvn_append {d₁ : Fin p₁ → ℝ} (h₁ : ∀ j, 0 < d₁ j) {d₂ : Fin p₂ → ℝ} (h₂ : ∀ j, 0 < d₂ j) :
    ((mvn 0 (diagonal d₁)⁻¹).prod (mvn 0 (diagonal d₂)⁻¹)).map (fun q => Fin.append q.1 q.2) =
      mvn 0 (diagonal (Fin.append d₁ d₂))⁻¹ := by
  have key : ∀ {p : ℕ} {d : Fin p → ℝ}, (∀ j, 0 < d j) → mvn 0 (diagonal d)⁻¹ =
      Measure.pi fun j => gaussianReal 0 ((√(d j)⁻¹) ^ 2).toNNReal := by
    intro p d hd
    rw [pi_gaussianReal_eq_mvn (fun _ => 0) fun j => √(d j)⁻¹]
    congr 1
    refine inv_eq_left_inv ?_
    rw [diagonal_mul_diagonal, ← diagonal_one]
    congr 1
    ext j
    rw [Real.sq_sqrt (inv_pos.2 (hd j)).le, inv_mul_cancel₀ (hd j).ne']
  rw [key h₁, key h₂, key (d := Fin.append d₁ d₂) fun j => ?_, pi_append]
  · congr 1
    funext j
    refine Fin.addCases (fun i => ?_) (fun i => ?_) j
    · rw [Fin.append_left, Fin.append_left]
    · rw [Fin.append_right, Fin.append_right]
  · refine Fin.addCases (motive := fun j => 0 < Fin.append d₁ d₂ j) (fun i => ?_) (fun i => ?_) j
    · rw [Fin.append_left]; exact h₁ i
    · rw [Fin.append_right]; exact h₂ i

/-- Mixtures of two independent draws. -/
theorem prod_bind_of_markov {A B C D : Type*} [MeasurableSpace A] [MeasurableSpace B] [MeasurableSpace C]
    [MeasurableSpace D] {m : Measure A} {m' : Measure B} [IsProbabilityMeasure m] [IsProbabilityMeasure m']
    {K : A → Measure C} (hK : Measurable K) (pK : ∀ a, IsProbabilityMeasure (K a)) {L : B → Measure D}
    (hL : Measurable L) (pL : ∀ b, IsProbabilityMeasure (L b)) :
    Measurable (fun q : A × B => (K q.1).prod (L q.2)) ∧
    ((m.prod m').bind fun q => (K q.1).prod (L q.2)) = (m.bind K).prod (m'.bind L) := by
  have := isProbabilityMeasure_bind hK.aemeasurable (ae_of_all m pK)
  have := isProbabilityMeasure_bind hL.aemeasurable (ae_of_all m' pL)
  let κ : Kernel A C := ⟨K, hK⟩
  let η : Kernel B D := ⟨L, hL⟩
  have hκ : IsMarkovKernel κ := ⟨pK⟩
  have hη : IsMarkovKernel η := ⟨pL⟩
  have hmeas : Measurable fun q : A × B => (K q.1).prod (L q.2) := by
    have h := ((κ.comap Prod.fst measurable_fst) ×ₖ (η.comap Prod.snd measurable_snd)).measurable
    refine (funext fun q => ?_ : (fun q : A × B => (K q.1).prod (L q.2)) = _) ▸ h
    rw [Kernel.prod_apply]
    rfl
  refine ⟨hmeas, (Measure.prod_eq fun s t hs ht => ?_).symm⟩
  rw [Measure.bind_apply (hs.prod ht) hmeas.aemeasurable, Measure.bind_apply hs hK.aemeasurable,
    Measure.bind_apply ht hL.aemeasurable]
  simp only [Measure.prod_prod]
  exact lintegral_prod_mul (f := fun a => K a s) (g := fun b => L b t)
    ((Measure.measurable_coe hs).comp hK).aemeasurable ((Measure.measurable_coe ht).comp hL).aemeasurable

/-- A kernel that almost always has mass one agrees almost always with one that always has. -/
theorem exists_markov {A C : Type*} [MeasurableSpace A] [MeasurableSpace C] [Nonempty C] {m : Measure A}
    {K : A → Measure C} (hK : Measurable K) (pK : ∀ᵐ a ∂m, IsProbabilityMeasure (K a)) :
    ∃ K' : A → Measure C, Measurable K' ∧ (∀ a, IsProbabilityMeasure (K' a)) ∧ K =ᵐ[m] K' := by
  classical
  have hS : MeasurableSet {a | K a Set.univ = 1} :=
    ((Measure.measurable_coe MeasurableSet.univ).comp hK) (measurableSet_singleton 1)
  refine ⟨fun a => if a ∈ {a | K a Set.univ = 1} then K a else Measure.dirac (Classical.arbitrary C),
    Measurable.ite hS hK measurable_const, fun a => ?_, ?_⟩
  · dsimp only
    split_ifs with h
    · exact ⟨h⟩
    · infer_instance
  · filter_upwards [pK] with a ha
    exact (if_pos ha.measure_univ).symm

theorem prod_bind {A B C D : Type*} [MeasurableSpace A] [MeasurableSpace B] [MeasurableSpace C]
    [MeasurableSpace D] [Nonempty C] [Nonempty D] {m : Measure A} {m' : Measure B} [IsProbabilityMeasure m]
    [IsProbabilityMeasure m'] {K : A → Measure C} (hK : Measurable K)
    (pK : ∀ᵐ a ∂m, IsProbabilityMeasure (K a)) {L : B → Measure D}
    (hL : Measurable L) (pL : ∀ᵐ b ∂m', IsProbabilityMeasure (L b)) :
    AEMeasurable (fun q : A × B => (K q.1).prod (L q.2)) (m.prod m') ∧
    ((m.prod m').bind fun q => (K q.1).prod (L q.2)) = (m.bind K).prod (m'.bind L) := by
  obtain ⟨K', hK', pK', eK⟩ := exists_markov hK pK
  obtain ⟨L', hL', pL', eL⟩ := exists_markov hL pL
  obtain ⟨h1, h2⟩ := prod_bind_of_markov (m := m) (m' := m') hK' pK' hL' pL'
  have e : (fun q : A × B => (K q.1).prod (L q.2)) =ᵐ[m.prod m'] fun q => (K' q.1).prod (L' q.2) := by
    filter_upwards [Measure.quasiMeasurePreserving_fst.ae eK, Measure.quasiMeasurePreserving_snd.ae eL]
      with q h h'
    rw [h, h']
  exact ⟨⟨_, h1, e⟩, by rw [Measure.bind_congr_right e, h2, Measure.bind_congr_right eK,
    Measure.bind_congr_right eL]⟩

/-- Two unrelated regressions sampled as one. -/
theorem pgStep_sideBySide {la : LinAlg} (hla : la.Sound) {d₁ : Fin p₁ → ℝ} (h₁ : ∀ j, 0 < d₁ j)
    {d₂ : Fin p₂ → ℝ} (h₂ : ∀ j, 0 < d₂ j) (X₁ : Matrix (Fin n₁) (Fin p₁) ℝ) (X₂ : Matrix (Fin n₂) (Fin p₂) ℝ)
    {b₁ : Fin n₁ → ℝ} (hb₁ : ∀ i, 0 < b₁ i) {b₂ : Fin n₂ → ℝ} (hb₂ : ∀ i, 0 < b₂ i) (κ₁ : Fin n₁ → ℝ)
    (κ₂ : Fin n₂ → ℝ) (β₁ : Fin p₁ → ℝ) (β₂ : Fin p₂ → ℝ) :
    pgStep la (Fin.append d₁ d₂) (sideBySide X₁ X₂) (Fin.append b₁ b₂) (Fin.append κ₁ κ₂)
        (Fin.append β₁ β₂) =
      ((pgStep la d₁ X₁ b₁ κ₁ β₁).prod (pgStep la d₂ X₂ b₂ κ₂ β₂)).map (fun q => Fin.append q.1 q.2) := by
  have hd : ∀ j, 0 < Fin.append d₁ d₂ j := fun j => by
    refine Fin.addCases (motive := fun j => 0 < Fin.append d₁ d₂ j) (fun i => ?_) (fun i => ?_) j
    · rw [Fin.append_left]; exact h₁ i
    · rw [Fin.append_right]; exact h₂ i
  have hb : ∀ j, 0 < Fin.append b₁ b₂ j := fun j => by
    refine Fin.addCases (motive := fun j => 0 < Fin.append b₁ b₂ j) (fun i => ?_) (fun i => ?_) j
    · rw [Fin.append_left]; exact hb₁ i
    · rw [Fin.append_right]; exact hb₂ i
  rw [pgStep_eq_bayes hla hd _ hb, pgStep_eq_bayes hla h₁ _ hb₁, pgStep_eq_bayes hla h₂ _ hb₂]
  have p1 : ∀ i, IsProbabilityMeasure (pg (b₁ i) ((X₁ *ᵥ β₁) i)) := fun i =>
    isProbabilityMeasure_pg (hb₁ i) _
  have p2 : ∀ i, IsProbabilityMeasure (pg (b₂ i) ((X₂ *ᵥ β₂) i)) := fun i =>
    isProbabilityMeasure_pg (hb₂ i) _
  have hpi : (Measure.pi fun i => pg (Fin.append b₁ b₂ i) ((sideBySide X₁ X₂ *ᵥ Fin.append β₁ β₂) i)) =
      ((Measure.pi fun i => pg (b₁ i) ((X₁ *ᵥ β₁) i)).prod
        (Measure.pi fun i => pg (b₂ i) ((X₂ *ᵥ β₂) i))).map fun q => Fin.append q.1 q.2 := by
    rw [pi_append]
    congr 1
    funext i
    rw [sideBySide_mulVec]
    refine Fin.addCases (fun i => ?_) (fun i => ?_) i
    · simp only [Fin.append_left]
    · simp only [Fin.append_right]
  have hdef : ∀ {p n : ℕ} {d : Fin p → ℝ} (_ : ∀ j, 0 < d j) (X : Matrix (Fin n) (Fin p) ℝ) {b : Fin n → ℝ}
      (_ : ∀ i, 0 < b i) (κ : Fin n → ℝ) (β : Fin p → ℝ),
      ∀ᵐ w ∂(Measure.pi fun i => pg (b i) ((X *ᵥ β) i)),
        BayesDefined (mvn 0 (diagonal d)⁻¹) fun β => pgJoint X κ β w := by
    intro p n d hd X b hb κ β
    rw [(pi_pg_eq X hb κ β).2.2]
    refine (bayes_absolutelyContinuous _ _).ae_le ?_
    filter_upwards [ae_pi_pg0_pos hb] with w hw
    exact (normalRegression_eq_bayes stdLinAlg_sound hd X κ hw).1
  have D1 := hdef h₁ X₁ hb₁ κ₁ β₁
  have D2 := hdef h₂ X₂ hb₂ κ₂ β₂
  obtain ⟨m1, e1⟩ := prod_bind (measurable_bayes_pgJoint d₁ X₁ κ₁)
    (D1.mono fun w h => isProbabilityMeasure_bayes h) (measurable_bayes_pgJoint d₂ X₂ κ₂)
    (D2.mono fun w h => isProbabilityMeasure_bayes h)
  rw [hpi, bind_of_map measurable_append (measurable_bayes_pgJoint _ _ _), ← e1,
    map_bind m1 measurable_append]
  refine Measure.bind_congr_right ?_
  filter_upwards [Measure.quasiMeasurePreserving_fst.ae D1, Measure.quasiMeasurePreserving_snd.ae D2]
    with q h h'
  rw [← mvn_append h₁ h₂, ← bayes_map measurable_append (measurable_pgJoint_right _ _ _)]
  simp only [pgJoint_sideBySide]
  rw [Parts.bayes_prod (measurable_pgJoint_right _ _ _) (measurable_pgJoint_right _ _ _) h h']

end Verif
