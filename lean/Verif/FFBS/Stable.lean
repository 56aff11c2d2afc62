import Verif.FFBS.Maps

/-!
# Helper lemmas for C81: probabilities of sets of hidden state sequences
-/

open Matrix
open scoped ENNReal

namespace Verif.FFBS

variable {M N N' : ℕ}

section

variable {γ : Fin M → ℝ} (hγ : ∀ k, 0 ≤ γ k) {Γ : Fin (N + 1) → Matrix (Fin M) (Fin M) ℝ}
  (hΓ : ∀ t i j, 0 ≤ Γ t i j) (ll : Fin (N + 1) → Fin M → WithBot ℝ) (lb : ℝ)
include hγ hΓ

open Classical in
/-- The probability of a set of outcomes. -/
theorem ffbs_event (hev : 0 < evidence γ Γ ll) (E : Set (Option (List (Fin M)))) :
    (ffbsStep γ (List.ofFn Γ) (List.ofFn ll) lb).toOuterMeasure E =
      ENNReal.ofReal ((∑ s with some (List.ofFn s) ∈ E, weight γ Γ ll s) / evidence γ Γ ll) := by
  have hinj : Function.Injective fun s : Fin (N + 1) → Fin M => some (List.ofFn s) :=
    fun s s' h => List.ofFn_injective (Option.some.inj h)
  rw [PMF.toOuterMeasure_apply,
    tsum_eq_sum (s := Finset.univ.image fun s : Fin (N + 1) → Fin M => some (List.ofFn s)),
    Finset.sum_image fun a _ b _ h => hinj h, Finset.sum_div,
    ENNReal.ofReal_sum_of_nonneg (f := fun s => weight γ Γ ll s / evidence γ Γ ll)
      fun s _ => smoothing_nonneg hγ hΓ ll hev s, Finset.sum_filter]
  · refine Finset.sum_congr rfl fun s _ => ?_
    rw [Set.indicator_apply, C33_ffbs_smoothing hγ hΓ ll lb hev]
    rfl
  · intro o ho
    rw [Set.indicator_apply, ffbs_other hγ hΓ ll lb hev
      fun s hs => ho (Finset.mem_image.2 ⟨s, Finset.mem_univ _, hs.symm⟩), ite_self]

/-- A law with the right probabilities of all sequences is the law of the step. -/
theorem eq_ffbs (hev : 0 < evidence γ Γ ll) {Q : PMF (Option (List (Fin M)))}
    (h : ∀ s : Fin (N + 1) → Fin M, Q (some (List.ofFn s)) = ENNReal.ofReal (smoothing γ Γ ll s)) :
    Q = ffbsStep γ (List.ofFn Γ) (List.ofFn ll) lb := by
  classical
  have hinj : Function.Injective fun s : Fin (N + 1) → Fin M => some (List.ofFn s) :=
    fun s s' h => List.ofFn_injective (Option.some.inj h)
  refine PMF.ext fun o => ?_
  by_cases ho : ∃ s : Fin (N + 1) → Fin M, o = some (List.ofFn s)
  · obtain ⟨s, rfl⟩ := ho
    rw [h, C33_ffbs_smoothing hγ hΓ ll lb hev]
  · push Not at ho
    rw [ffbs_other hγ hΓ ll lb hev ho]
    have h1 : ∑ s : Fin (N + 1) → Fin M, Q (some (List.ofFn s)) = 1 := by
      simp only [h]
      rw [← ENNReal.ofReal_sum_of_nonneg fun s _ => smoothing_nonneg hγ hΓ ll hev s,
        smoothing_sum ll hev, ENNReal.ofReal_one]
    have h2 := ENNReal.sum_le_tsum (f := fun o => Q o)
      (insert o (Finset.univ.image fun s : Fin (N + 1) → Fin M => some (List.ofFn s)))
    rw [PMF.tsum_coe, Finset.sum_insert, Finset.sum_image fun a _ b _ h => hinj h, h1] at h2
    · by_contra h0
      have h3 : (1 : ℝ≥0∞) < Q o + 1 := by
        rw [add_comm]
        exact ENNReal.lt_add_right ENNReal.one_ne_top h0
      exact absurd h2 (not_le.2 h3)
    · intro hmem
      obtain ⟨s, _, hs⟩ := Finset.mem_image.1 hmem
      exact ho s hs.symm

omit hγ hΓ in
theorem evidence_nonneg (hγ : ∀ k, 0 ≤ γ k) (hΓ : ∀ t i j, 0 ≤ Γ t i j) : 0 ≤ evidence γ Γ ll :=
  Finset.sum_nonneg fun s _ => weight_nonneg hγ hΓ ll s

end

/-- The weight from a known state before the first time point. -/
theorem weight_from (k : Fin M) (Γ : Fin N → Matrix (Fin M) (Fin M) ℝ)
    (ll : Fin N → Fin M → WithBot ℝ) (s : Fin N → Fin M) :
    weight (Pi.single k 1) Γ ll s =
      ∏ t : Fin N, (Γ t ((Fin.cons k s : Fin (N + 1) → Fin M) t.castSucc) (s t) * lik (ll t (s t))) := by
  unfold weight
  rw [Finset.sum_eq_single k]
  · rw [Pi.single_eq_same, one_mul]
  · intro b _ hb
    rw [Pi.single_eq_of_ne hb, zero_mul]
  · simp

/-- The weight of a sequence made of two parts. -/
theorem weight_append (γ : Fin M → ℝ) (Γ₁ : Fin (N + 1) → Matrix (Fin M) (Fin M) ℝ)
    (Γ₂ : Fin N' → Matrix (Fin M) (Fin M) ℝ) (l₁ : Fin (N + 1) → Fin M → WithBot ℝ)
    (l₂ : Fin N' → Fin M → WithBot ℝ) (s₁ : Fin (N + 1) → Fin M) (s₂ : Fin N' → Fin M) :
    weight γ (Fin.append Γ₁ Γ₂) (Fin.append l₁ l₂) (Fin.append s₁ s₂) =
      weight γ Γ₁ l₁ s₁ * weight (Pi.single (s₁ (Fin.last N)) 1) Γ₂ l₂ s₂ := by
  rw [weight_from]
  unfold weight
  rw [Finset.sum_mul]
  refine Finset.sum_congr rfl fun s₀ _ => ?_
  rw [Fin.prod_univ_add, mul_assoc]
  congr 2
  · refine Finset.prod_congr rfl fun t _ => ?_
    rw [Fin.append_left, Fin.append_left, Fin.append_left]
    congr 2
    induction t using Fin.cases with
    | zero => rfl
    | succ t =>
      have e1 : (Fin.castAdd N' t.succ).castSucc = (Fin.castAdd N' t.castSucc).succ := by
        ext; simp
      rw [e1, Fin.cons_succ, Fin.append_left, Fin.castSucc_succ, Fin.cons_succ]
  · refine Finset.prod_congr rfl fun t _ => ?_
    rw [Fin.append_right, Fin.append_right, Fin.append_right]
    congr 2
    cases N' with
    | zero => exact t.elim0
    | succ N' =>
      induction t using Fin.cases with
      | zero =>
        have e1 : (Fin.natAdd (N + 1) (0 : Fin (N' + 1))).castSucc =
            (Fin.castAdd (N' + 1) (Fin.last N)).succ := by
          ext; simp
        rw [e1, Fin.cons_succ, Fin.append_left, Fin.castSucc_zero, Fin.cons_zero]
      | succ t =>
        have e1 : (Fin.natAdd (N + 1) t.succ).castSucc = (Fin.natAdd (N + 1) t.castSucc).succ := by
          ext; simp; omega
        rw [e1, Fin.cons_succ, Fin.append_right, Fin.castSucc_succ, Fin.cons_succ]

/-- When the weights are products of the weights of two other inputs, the sequences are pairs of independent
sequences drawn with these. -/
theorem ffbs_pair {M₁ M₂ N₁ N₂ : ℕ} {γ : Fin M → ℝ} (hγ : ∀ k, 0 ≤ γ k) {γ₁ : Fin M₁ → ℝ} (hγ₁ : ∀ k, 0 ≤ γ₁ k)
    {γ₂ : Fin M₂ → ℝ} (hγ₂ : ∀ k, 0 ≤ γ₂ k) {Γ : Fin (N + 1) → Matrix (Fin M) (Fin M) ℝ}
    (hΓ : ∀ t i j, 0 ≤ Γ t i j) {Γ₁ : Fin (N₁ + 1) → Matrix (Fin M₁) (Fin M₁) ℝ} (hΓ₁ : ∀ t i j, 0 ≤ Γ₁ t i j)
    {Γ₂ : Fin (N₂ + 1) → Matrix (Fin M₂) (Fin M₂) ℝ} (hΓ₂ : ∀ t i j, 0 ≤ Γ₂ t i j)
    (ll : Fin (N + 1) → Fin M → WithBot ℝ) (l₁ : Fin (N₁ + 1) → Fin M₁ → WithBot ℝ)
    (l₂ : Fin (N₂ + 1) → Fin M₂ → WithBot ℝ) (lb lb₁ lb₂ : ℝ)
    (e : (Fin (N₁ + 1) → Fin M₁) × (Fin (N₂ + 1) → Fin M₂) ≃ (Fin (N + 1) → Fin M))
    (F : Option (List (Fin M₁)) → Option (List (Fin M₂)) → Option (List (Fin M)))
    (hF : ∀ s₁ s₂, F (some (List.ofFn s₁)) (some (List.ofFn s₂)) = some (List.ofFn (e (s₁, s₂))))
    (hn₁ : ∀ o, F none o = none) (hn₂ : ∀ o, F o none = none)
    (hw : ∀ s₁ s₂, weight γ Γ ll (e (s₁, s₂)) = weight γ₁ Γ₁ l₁ s₁ * weight γ₂ Γ₂ l₂ s₂) :
    ffbsStep γ (List.ofFn Γ) (List.ofFn ll) lb =
      (ffbsStep γ₁ (List.ofFn Γ₁) (List.ofFn l₁) lb₁).bind fun u =>
        (ffbsStep γ₂ (List.ofFn Γ₂) (List.ofFn l₂) lb₂).map fun v => F u v := by
  classical
  have hev : evidence γ Γ ll = evidence γ₁ Γ₁ l₁ * evidence γ₂ Γ₂ l₂ := by
    unfold evidence
    rw [Finset.sum_mul_sum, ← Finset.sum_product', Finset.univ_product_univ, ← e.sum_comp]
    exact Finset.sum_congr rfl fun p _ => hw p.1 p.2
  have n1 := evidence_nonneg l₁ hγ₁ hΓ₁
  have n2 := evidence_nonneg l₂ hγ₂ hΓ₂
  rcases n1.eq_or_lt with z1 | p1
  · rw [(ffbs_law hγ₁ hΓ₁ l₁ lb₁).1 z1.symm, PMF.pure_bind,
      (ffbs_law hγ hΓ ll lb).1 (by rw [hev, ← z1, zero_mul])]
    simp only [hn₁]
    exact (PMF.map_const _ _).symm
  rcases n2.eq_or_lt with z2 | p2
  · rw [(ffbs_law hγ₂ hΓ₂ l₂ lb₂).1 z2.symm, (ffbs_law hγ hΓ ll lb).1 (by rw [hev, ← z2, mul_zero])]
    simp only [PMF.pure_map, hn₂, PMF.bind_const]
  symm
  refine eq_ffbs hγ hΓ ll lb (by rw [hev]; positivity) fun s => ?_
  obtain ⟨⟨s₁, s₂⟩, rfl⟩ := e.surjective s
  have einj : ∀ {s₁' : Fin (N₁ + 1) → Fin M₁} {s₂' : Fin (N₂ + 1) → Fin M₂}, some (List.ofFn (e (s₁, s₂))) = F (some (List.ofFn s₁')) (some (List.ofFn s₂')) →
      s₁' = s₁ ∧ s₂' = s₂ := by
    intro s₁' s₂' h
    rw [hF] at h
    have := e.injective (List.ofFn_injective (Option.some.inj h))
    exact ⟨(congrArg Prod.fst this).symm, (congrArg Prod.snd this).symm⟩
  rw [PMF.bind_apply, tsum_eq_single (some (List.ofFn s₁)), PMF.map_apply,
    tsum_eq_single (some (List.ofFn s₂)), C33_ffbs_smoothing hγ₁ hΓ₁ l₁ lb₁ p1,
    C33_ffbs_smoothing hγ₂ hΓ₂ l₂ lb₂ p2]
  · rw [if_pos (hF s₁ s₂).symm, ← ENNReal.ofReal_mul (smoothing_nonneg hγ₁ hΓ₁ l₁ p1 s₁)]
    congr 1
    simp only [smoothing]
    rw [hw, hev, mul_div_mul_comm]
  · intro v hv
    by_cases h : ∃ s₂' : Fin (N₂ + 1) → Fin M₂, v = some (List.ofFn s₂')
    · obtain ⟨s₂', rfl⟩ := h
      rw [if_neg]
      intro h
      exact hv (by rw [(einj h).2])
    · push Not at h
      rw [ffbs_other hγ₂ hΓ₂ l₂ lb₂ p2 h, ite_self]
  · intro u hu
    by_cases h : ∃ s₁' : Fin (N₁ + 1) → Fin M₁, u = some (List.ofFn s₁')
    · obtain ⟨s₁', rfl⟩ := h
      rw [PMF.map_apply, ENNReal.tsum_eq_zero.2, mul_zero]
      intro v
      by_cases h : ∃ s₂' : Fin (N₂ + 1) → Fin M₂, v = some (List.ofFn s₂')
      · obtain ⟨s₂', rfl⟩ := h
        rw [if_neg]
        intro h
        exact hu (by rw [(einj h).1])
      · push Not at h
        rw [ffbs_other hγ₂ hΓ₂ l₂ lb₂ p2 h, ite_self]
    · push Not at h
      rw [ffbs_other hγ₁ hΓ₁ l₁ lb₁ p1 h, zero_mul]

end Verif.FFBS
