import Verif.FFBS.StableProps

/-!
# C83: two hidden Markov chains, sampled as one
-/

open Matrix

namespace Verif.FFBS

variable {M M' N N' : ℕ}

/-- Spec.  Two sequences of hidden states as one sequence of pairs; nothing when one of them has no
meaningful draw.  The pair of the states `i` and `j` is numbered `i * M' + j`. -/
def paired : Option (List (Fin M)) → Option (List (Fin M')) → Option (List (Fin (M * M')))
  | some u, some v => some (List.zipWith (fun i j => finProdFinEquiv (i, j)) u v)
  | _, _ => none

theorem lik_add (a b : WithBot ℝ) : lik (a + b) = lik a * lik b := by
  induction a with
  | bot => simp [lik]
  | coe x =>
    induction b with
    | bot => simp [lik]
    | coe y =>
      rw [← WithBot.coe_add]
      exact Real.exp_add x y

/-- Pairs of sequences and sequences of pairs. -/
def pairs (M M' N : ℕ) : (Fin N → Fin M) × (Fin N → Fin M') ≃ (Fin N → Fin (M * M')) :=
  (Equiv.arrowProdEquivProdArrow (Fin N) (fun _ => Fin M) (fun _ => Fin M')).symm.trans
    (Equiv.arrowCongr (Equiv.refl _) finProdFinEquiv)

theorem pairs_apply (s : Fin N → Fin M) (s' : Fin N → Fin M') (t : Fin N) :
    pairs M M' N (s, s') t = finProdFinEquiv (s t, s' t) := rfl

theorem zipWith_ofFn {α β γ : Type*} (f : α → β → γ) (u : Fin N → α) (v : Fin N → β) :
    List.zipWith f (List.ofFn u) (List.ofFn v) = List.ofFn fun t => f (u t) (v t) := by
  apply List.ext_getElem
  · simp
  · intro i h h'
    rw [List.getElem_zipWith, List.getElem_ofFn, List.getElem_ofFn, List.getElem_ofFn]

/-- **C83, hidden Markov models.** Two hidden Markov chains that have nothing to do with each other are
described as one chain of pairs of states: the initial and the transition weights are products, the
log-likelihoods are sums.  One call for the pairs draws the two sequences of states independently of each
other, and each as a call for its own chain does. -/
theorem C83_ffbs_separate {γ : Fin M → ℝ} (hγ : ∀ k, 0 ≤ γ k) {γ' : Fin M' → ℝ} (hγ' : ∀ k, 0 ≤ γ' k)
    {Γ : Fin (N + 1) → Matrix (Fin M) (Fin M) ℝ} (hΓ : ∀ t i j, 0 ≤ Γ t i j)
    {Γ' : Fin (N + 1) → Matrix (Fin M') (Fin M') ℝ} (hΓ' : ∀ t i j, 0 ≤ Γ' t i j)
    (ll : Fin (N + 1) → Fin M → WithBot ℝ) (ll' : Fin (N + 1) → Fin M' → WithBot ℝ) (lb lb₁ lb₂ : ℝ) :
    ffbsStep (fun k : Fin (M * M') => γ k.divNat * γ' k.modNat)
        (List.ofFn fun t => of fun i j : Fin (M * M') => Γ t i.divNat j.divNat * Γ' t i.modNat j.modNat)
        (List.ofFn fun t (k : Fin (M * M')) => ll t k.divNat + ll' t k.modNat) lb =
      (ffbsStep γ (List.ofFn Γ) (List.ofFn ll) lb₁).bind fun u =>
        (ffbsStep γ' (List.ofFn Γ') (List.ofFn ll') lb₂).map fun v => paired u v := by
  have hd : ∀ (i : Fin M) (j : Fin M'), (finProdFinEquiv (i, j)).divNat = i := fun i j =>
    congrArg Prod.fst (finProdFinEquiv.symm_apply_apply (i, j))
  have hm : ∀ (i : Fin M) (j : Fin M'), (finProdFinEquiv (i, j)).modNat = j := fun i j =>
    congrArg Prod.snd (finProdFinEquiv.symm_apply_apply (i, j))
  refine ffbs_pair (fun k => mul_nonneg (hγ _) (hγ' _)) hγ hγ'
    (fun t i j => mul_nonneg (hΓ _ _ _) (hΓ' _ _ _)) hΓ hΓ' _ ll ll' lb lb₁ lb₂ (pairs M M' (N + 1)) paired
    (fun s₁ s₂ => congrArg some (zipWith_ofFn _ s₁ s₂)) (fun o => by cases o <;> rfl)
    (fun o => by cases o <;> rfl) fun s s' => ?_
  unfold weight
  rw [Finset.sum_mul_sum, ← Finset.sum_product', Finset.univ_product_univ, ← finProdFinEquiv.sum_comp]
  refine Finset.sum_congr rfl fun p _ => ?_
  have hc : ∀ t : Fin (N + 2), (Fin.cons (finProdFinEquiv p) (pairs M M' (N + 1) (s, s')) :
      Fin (N + 2) → Fin (M * M')) t =
      finProdFinEquiv ((Fin.cons p.1 s : Fin (N + 2) → Fin M) t, (Fin.cons p.2 s' : Fin (N + 2) → Fin M') t) := by
    intro t
    refine Fin.cases ?_ (fun t => ?_) t
    · rfl
    · rfl
  simp only [hc, pairs_apply, hd, hm, lik_add]
  rw [mul_mul_mul_comm, ← Finset.prod_mul_distrib]
  congr 1
  exact Finset.prod_congr rfl fun t _ => by ring

/-- A chain with two states and one with three, observed three times; one observation of the first rules
out a state. -/
example : let G : Fin 3 → Matrix (Fin 2) (Fin 2) ℝ := fun _ => !![1, 1; 0, 3]
    let G' : Fin 3 → Matrix (Fin 3) (Fin 3) ℝ := fun _ => !![0, 1, 1; 1, 0, 1; 1, 1, 0]
    let l : Fin 3 → Fin 2 → WithBot ℝ := fun t j => if t = 1 ∧ j = 0 then ⊥ else ((1 : ℝ) : WithBot ℝ)
    let l' : Fin 3 → Fin 3 → WithBot ℝ := fun _ j => ((j : ℝ) : WithBot ℝ)
    ffbsStep (fun k : Fin (2 * 3) => (![1, 2] : Fin 2 → ℝ) k.divNat * (![3, 0, 1] : Fin 3 → ℝ) k.modNat)
        (List.ofFn fun t => of fun i j : Fin (2 * 3) => G t i.divNat j.divNat * G' t i.modNat j.modNat)
        (List.ofFn fun t (k : Fin (2 * 3)) => l t k.divNat + l' t k.modNat) 0 =
      (ffbsStep ![1, 2] (List.ofFn G) (List.ofFn l) 0).bind fun u =>
        (ffbsStep ![3, 0, 1] (List.ofFn G') (List.ofFn l') 0).map fun v => paired u v := by
  intro G G' l l'
  refine C83_ffbs_separate (γ := ![1, 2]) (γ' := ![3, 0, 1]) (Γ := G) (Γ' := G') ?_ ?_ ?_ ?_ l l' 0 0 0
  · intro k; fin_cases k <;> simp
  · intro k; fin_cases k <;> simp
  · intro t i j; fin_cases i <;> fin_cases j <;> simp [G]
  · intro t i j; fin_cases i <;> fin_cases j <;> simp [G']

/-- **C83, no memory.** Where the transition weights do not depend on the state the transition starts
from, the data fall into two separate stretches: one call draws the states of the two stretches
independently of each other, and each as a call for its own stretch does, whatever initial probabilities
the second is given. -/
theorem C83_ffbs_no_memory {γ δ : Fin M → ℝ} (hγ : ∀ k, 0 ≤ γ k) (hδ : ∀ k, 0 ≤ δ k) (h1 : ∑ k, δ k = 1)
    {Γ₁ : Fin (N + 1) → Matrix (Fin M) (Fin M) ℝ} (hΓ₁ : ∀ t i j, 0 ≤ Γ₁ t i j)
    {Γ₂ : Fin (N' + 1) → Matrix (Fin M) (Fin M) ℝ} (hΓ₂ : ∀ t i j, 0 ≤ Γ₂ t i j)
    (hq : ∀ i i' j, Γ₂ 0 i j = Γ₂ 0 i' j) (l₁ : Fin (N + 1) → Fin M → WithBot ℝ)
    (l₂ : Fin (N' + 1) → Fin M → WithBot ℝ) (lb lb₁ lb₂ : ℝ) :
    ffbsStep γ (List.ofFn Γ₁ ++ List.ofFn Γ₂) (List.ofFn l₁ ++ List.ofFn l₂) lb =
      (ffbsStep γ (List.ofFn Γ₁) (List.ofFn l₁) lb₁).bind fun u =>
        (ffbsStep δ (List.ofFn Γ₂) (List.ofFn l₂) lb₂).map fun v => joined u v := by
  have hΓ : ∀ (t : Fin (N + 1 + (N' + 1))) (i j : Fin M), 0 ≤ Fin.append Γ₁ Γ₂ t i j := fun t i j => by
    refine Fin.addCases (motive := fun t => 0 ≤ Fin.append Γ₁ Γ₂ t i j) (fun t => ?_) (fun t => ?_) t
    · rw [Fin.append_left]; exact hΓ₁ _ _ _
    · rw [Fin.append_right]; exact hΓ₂ _ _ _
  have hw : ∀ (s₁ : Fin (N + 1) → Fin M) (s₂ : Fin (N' + 1) → Fin M),
      weight γ (Fin.append Γ₁ Γ₂) (Fin.append l₁ l₂) (Fin.append s₁ s₂) =
        weight γ Γ₁ l₁ s₁ * weight δ Γ₂ l₂ s₂ := fun s₁ s₂ => by
    have hk : ∀ k, ∏ t : Fin (N' + 1), (Γ₂ t ((Fin.cons k s₂ : Fin (N' + 2) → Fin M) t.castSucc) (s₂ t) *
        lik (l₂ t (s₂ t))) = weight (Pi.single (s₁ (Fin.last N)) 1) Γ₂ l₂ s₂ := fun k => by
      rw [weight_from]
      refine Finset.prod_congr rfl fun t _ => ?_
      refine Fin.cases ?_ (fun t => rfl) t
      exact congrArg (· * lik (l₂ 0 (s₂ 0))) (hq _ _ _)
    rw [weight_append]
    congr 1
    symm
    rw [weight]
    simp only [hk]
    rw [← Finset.sum_mul, h1, one_mul]
  rw [← List.ofFn_fin_append, ← List.ofFn_fin_append]
  exact ffbs_pair (N := N + 1 + N') hγ hγ hδ hΓ hΓ₁ hΓ₂
    (Fin.append l₁ l₂ : Fin (N + 1 + (N' + 1)) → Fin M → WithBot ℝ) l₁ l₂ lb lb₁ lb₂
    (Fin.appendEquiv (N + 1) (N' + 1)) joined (fun s₁ s₂ => congrArg some (List.ofFn_fin_append s₁ s₂).symm)
    (fun o => by cases o <;> rfl) (fun o => by cases o <;> rfl) hw

/-- Two patients observed one after the other: the chain starts afresh at the third time point. -/
example (l₁ l₂ : Fin 2 → Fin 2 → WithBot ℝ) :
    ffbsStep ![1, 0] (List.ofFn ![!![1, 0; 1, 1], !![1, 2; 0, 1]] ++ List.ofFn ![!![2, 1; 2, 1], !![0, 1; 1, 0]])
        (List.ofFn l₁ ++ List.ofFn l₂) 0 =
      (ffbsStep ![1, 0] (List.ofFn ![!![1, 0; 1, 1], !![1, 2; 0, 1]]) (List.ofFn l₁) 0).bind fun u =>
        (ffbsStep ![0, 1] (List.ofFn ![!![2, 1; 2, 1], !![0, 1; 1, 0]]) (List.ofFn l₂) 0).map
          fun v => joined u v := by
  refine C83_ffbs_no_memory ?_ ?_ (by simp) ?_ ?_ ?_ l₁ l₂ 0 0 0
  · intro k; fin_cases k <;> simp
  · intro k; fin_cases k <;> simp
  · intro t i j; fin_cases t <;> fin_cases i <;> fin_cases j <;> simp
  · intro t i j; fin_cases t <;> fin_cases i <;> fin_cases j <;> simp
  · intro i i' j; fin_cases i <;> fin_cases i' <;> fin_cases j <;> simp

end Verif.FFBS
