import Verif.FFBS.Forget

/-!
# C97: what hidden Markov models forget

The laws compared are those of `ffbsStep` (`Verif/FFBS/Model.lean`, modelling `/repo/aemcmc/ffbs.py`); the
rates are in terms of the transition matrices the user gives.
-/

open Matrix
open scoped ENNReal

namespace Verif.FFBS

variable {M N N' K K' : ℕ}

/-- Spec.  The sequences whose states from position `t` on are in `B`. -/
def fromOn (t : ℕ) (B : Set (List (Fin M))) : Set (Option (List (Fin M))) :=
  {o | ∃ u, o = some u ∧ u.drop t ∈ B}

/-- Spec.  The sequences whose first `r` states are in `B`. -/
def upTo (r : ℕ) (B : Set (List (Fin M))) : Set (Option (List (Fin M))) :=
  {o | ∃ u, o = some u ∧ u.take r ∈ B}

/-! ## Helpers -/

theorem abs_ratio_le {S e S' e' r : ℝ} (he : 0 < e) (he' : 0 < e') (h1 : S * e' - S' * e ≤ r * (e * e'))
    (h2 : S' * e - S * e' ≤ r * (e' * e)) : |S / e - S' / e'| ≤ r := by
  rw [div_sub_div _ _ he.ne' he'.ne', abs_div, abs_of_pos (mul_pos he he'), div_le_iff₀ (mul_pos he he'),
    abs_le]
  constructor <;> linarith

open Classical in
/-- The indicator of a set of outcomes, on state sequences. -/
noncomputable def ind (E : Set (Option (List (Fin M)))) (s : Fin N → Fin M) : ℝ :=
  if some (List.ofFn s) ∈ E then 1 else 0

theorem ind_nonneg (E : Set (Option (List (Fin M)))) (s : Fin N → Fin M) : 0 ≤ ind E s := by
  unfold ind; split_ifs <;> norm_num

theorem ind_le (E : Set (Option (List (Fin M)))) (s : Fin N → Fin M) : ind E s ≤ 1 := by
  unfold ind; split_ifs <;> norm_num

theorem ffbs_prob {γ : Fin M → ℝ} (hγ : ∀ k, 0 ≤ γ k) {Γ : Fin (N + 1) → Matrix (Fin M) (Fin M) ℝ}
    (hΓ : ∀ t i j, 0 ≤ Γ t i j) (ll : Fin (N + 1) → Fin M → WithBot ℝ) (lb : ℝ)
    (hev : 0 < evidence γ Γ ll) (E : Set (Option (List (Fin M)))) :
    ((ffbsStep γ (List.ofFn Γ) (List.ofFn ll) lb).toOuterMeasure E).toReal =
      part γ Γ ll (ind E) / evidence γ Γ ll := by
  classical
  rw [ffbs_event hγ hΓ ll lb hev, ENNReal.toReal_ofReal]
  · congr 1
    rw [Finset.sum_filter]
    refine Finset.sum_congr rfl fun s _ => ?_
    unfold ind
    split_ifs <;> simp
  · exact div_nonneg (Finset.sum_nonneg fun s _ => weight_nonneg hγ hΓ ll s) hev.le

theorem mem_fromOn (t : ℕ) (B : Set (List (Fin M))) (s : Fin N → Fin M) :
    some (List.ofFn s) ∈ fromOn t B ↔ (List.ofFn s).drop t ∈ B :=
  ⟨fun ⟨_, h, h'⟩ => Option.some.inj h ▸ h', fun h => ⟨_, rfl, h⟩⟩

theorem mem_upTo (t : ℕ) (B : Set (List (Fin M))) (s : Fin N → Fin M) :
    some (List.ofFn s) ∈ upTo t B ↔ (List.ofFn s).take t ∈ B :=
  ⟨fun ⟨_, h, h'⟩ => Option.some.inj h ▸ h', fun h => ⟨_, rfl, h⟩⟩

theorem ind_fromOn (t : ℕ) (B : Set (List (Fin M))) (s s' : Fin N → Fin M)
    (h : ∀ u : Fin N, t ≤ u.1 → s u = s' u) : ind (fromOn t B) s = ind (fromOn t B) s' := by
  have e : (List.ofFn s).drop t = (List.ofFn s').drop t := by
    refine List.ext_getElem (by simp) fun i h1 h2 => ?_
    rw [List.getElem_drop, List.getElem_drop, List.getElem_ofFn, List.getElem_ofFn]
    exact h _ (Nat.le_add_right _ _)
  classical
  exact if_congr (by rw [mem_fromOn, mem_fromOn, e]) rfl rfl

theorem ind_upTo (r : ℕ) (B : Set (List (Fin M))) (s s' : Fin N → Fin M)
    (h : ∀ u : Fin N, u.1 ≤ r → s u = s' u) : ind (upTo (r + 1) B) s = ind (upTo (r + 1) B) s' := by
  have e : (List.ofFn s).take (r + 1) = (List.ofFn s').take (r + 1) := by
    refine List.ext_getElem (by simp) fun i h1 h2 => ?_
    rw [List.getElem_take, List.getElem_take, List.getElem_ofFn, List.getElem_ofFn]
    refine h _ ?_
    simp at h1
    simp
    omega
  classical
  exact if_congr (by rw [mem_upTo, mem_upTo, e]) rfl rfl

theorem append_nonneg {Γ₁ : Fin N → Matrix (Fin M) (Fin M) ℝ} (hΓ₁ : ∀ t i j, 0 ≤ Γ₁ t i j)
    {Γ₂ : Fin N' → Matrix (Fin M) (Fin M) ℝ} (hΓ₂ : ∀ t i j, 0 ≤ Γ₂ t i j) (t : Fin (N + N'))
    (i j : Fin M) : 0 ≤ Fin.append Γ₁ Γ₂ t i j := by
  refine Fin.addCases (motive := fun t => 0 ≤ Fin.append Γ₁ Γ₂ t i j) (fun t => ?_) (fun t => ?_) t
  · rw [Fin.append_left]; exact hΓ₁ _ _ _
  · rw [Fin.append_right]; exact hΓ₂ _ _ _

theorem part_append (γ : Fin M → ℝ) (Γ₁ : Fin (N + 1) → Matrix (Fin M) (Fin M) ℝ)
    (Γ₂ : Fin N' → Matrix (Fin M) (Fin M) ℝ) (l₁ : Fin (N + 1) → Fin M → WithBot ℝ)
    (l₂ : Fin N' → Fin M → WithBot ℝ) (F : (Fin (N + 1 + N') → Fin M) → ℝ) :
    part γ (Fin.append Γ₁ Γ₂) (Fin.append l₁ l₂) F =
      ∑ s₁, ∑ s₂, weight γ Γ₁ l₁ s₁ * weight (Pi.single (s₁ (Fin.last N)) 1) Γ₂ l₂ s₂ *
        F (Fin.append s₁ s₂) := by
  unfold part
  rw [← (Fin.appendEquiv (N + 1) N').sum_comp, Fintype.sum_prod_type]
  refine Finset.sum_congr rfl fun s₁ _ => Finset.sum_congr rfl fun s₂ _ => ?_
  rw [← weight_append]
  rfl

/-- What the first stretch says to the second. -/
theorem part_second (γ : Fin M → ℝ) (Γ₁ : Fin (N + 1) → Matrix (Fin M) (Fin M) ℝ)
    (Γ₂ : Fin N' → Matrix (Fin M) (Fin M) ℝ) (l₁ : Fin (N + 1) → Fin M → WithBot ℝ)
    (l₂ : Fin N' → Fin M → WithBot ℝ) (F : (Fin N' → Fin M) → ℝ) {G : (Fin (N + 1 + N') → Fin M) → ℝ}
    (hG : ∀ s₁ s₂, G (Fin.append s₁ s₂) = F s₂) :
    part γ (Fin.append Γ₁ Γ₂) (Fin.append l₁ l₂) G =
      part (fun k => endPart γ Γ₁ l₁ k fun _ => 1) Γ₂ l₂ F := by
  rw [part_append, part_mix]
  have e1 : ∀ k, (endPart γ Γ₁ l₁ k fun _ => 1) * part (Pi.single k 1) Γ₂ l₂ F =
      part (Pi.single k 1) Γ₂ l₂ F * endPart γ Γ₁ l₁ k fun _ => 1 := fun k => mul_comm _ _
  rw [Finset.sum_congr rfl fun k _ => e1 k, ← sum_endPart γ Γ₁ l₁ (fun k => part (Pi.single k 1) Γ₂ l₂ F)]
  refine Finset.sum_congr rfl fun s₁ _ => ?_
  rw [mul_one, part, Finset.mul_sum]
  refine Finset.sum_congr rfl fun s₂ _ => ?_
  rw [hG]
  ring

/-- What the second stretch says to the first. -/
theorem part_first (γ : Fin M → ℝ) (Γ₁ : Fin (N + 1) → Matrix (Fin M) (Fin M) ℝ)
    (Γ₂ : Fin N' → Matrix (Fin M) (Fin M) ℝ) (l₁ : Fin (N + 1) → Fin M → WithBot ℝ)
    (l₂ : Fin N' → Fin M → WithBot ℝ) (F : (Fin (N + 1) → Fin M) → ℝ) {G : (Fin (N + 1 + N') → Fin M) → ℝ}
    (hG : ∀ s₁ s₂, G (Fin.append s₁ s₂) = F s₁) :
    part γ (Fin.append Γ₁ Γ₂) (Fin.append l₁ l₂) G =
      ∑ s, weight γ Γ₁ l₁ s * evidence (Pi.single (s (Fin.last N)) 1) Γ₂ l₂ * F s := by
  rw [part_append]
  refine Finset.sum_congr rfl fun s₁ _ => ?_
  rw [evidence, Finset.mul_sum, Finset.sum_mul]
  refine Finset.sum_congr rfl fun s₂ _ => ?_
  rw [hG]

theorem evidence_pos {γ : Fin M → ℝ} (hγ : ∀ k, 0 ≤ γ k) {k : Fin M} (hk : 0 < γ k)
    {Γ : Fin N → Matrix (Fin M) (Fin M) ℝ} (hΓ : ∀ t i j, 0 < Γ t i j) {ll : Fin N → Fin M → WithBot ℝ}
    (hl : ∀ t j, ll t j ≠ ⊥) : 0 < evidence γ Γ ll := by
  have hlik : ∀ t j, 0 < lik (ll t j) := fun t j => by
    obtain ⟨x, hx⟩ := WithBot.ne_bot_iff_exists.1 (hl t j)
    rw [← hx]
    exact Real.exp_pos x
  have hw : ∀ s : Fin N → Fin M, 0 < weight γ Γ ll s := fun s =>
    Finset.sum_pos' (fun j _ => mul_nonneg (hγ j) (Finset.prod_nonneg fun t _ =>
      mul_nonneg (hΓ _ _ _).le (hlik _ _).le)) ⟨k, Finset.mem_univ _, mul_pos hk (Finset.prod_pos fun t _ =>
        mul_pos (hΓ _ _ _) (hlik _ _))⟩
  exact Finset.sum_pos (fun s _ => hw s) ⟨fun _ => k, Finset.mem_univ _⟩

/-- With transitions that never leave a state only the constant sequences have weight. -/
theorem weight_rigid (k : Fin M) : ∀ {N : ℕ} (s : Fin N → Fin M),
    weight (Pi.single k 1) (fun _ : Fin N => (1 : Matrix (Fin M) (Fin M) ℝ))
      (fun _ _ => ((0 : ℝ) : WithBot ℝ)) s = if s = fun _ => k then 1 else 0
  | 0, s => by
    rw [weight_from]
    simp [Subsingleton.elim s fun _ => k]
  | N + 1, s => by
    rw [weight_cons, weight_rigid (s 0), Matrix.vecMul_one]
    have h1 : lik ((0 : ℝ) : WithBot ℝ) = 1 := by simp [lik]
    rw [h1, mul_one]
    by_cases h0 : s 0 = k
    · rw [h0, Pi.single_eq_same, one_mul]
      refine if_congr ⟨fun h => ?_, fun h => ?_⟩ rfl rfl
      · funext u
        induction u using Fin.cases with
        | zero => exact h0
        | succ u => exact congrFun h u
      · funext u
        rw [h]
    · rw [Pi.single_eq_of_ne h0, zero_mul, if_neg]
      intro h
      exact h0 (by rw [h])

theorem part_rigid (k : Fin M) (F : (Fin N → Fin M) → ℝ) :
    part (Pi.single k 1) (fun _ : Fin N => (1 : Matrix (Fin M) (Fin M) ℝ))
      (fun _ _ => ((0 : ℝ) : WithBot ℝ)) F = F fun _ => k := by
  unfold part
  simp only [weight_rigid]
  rw [Finset.sum_eq_single fun _ => k]
  · simp
  · intro s _ hs
    rw [if_neg hs, zero_mul]
  · simp

/-! ## The theorems -/

/-- Spec.  A chain that stays in its first state nine times in ten, in its second four times in five. -/
noncomputable def sticky : Matrix (Fin 2) (Fin 2) ℝ := !![9 / 10, 1 / 10; 1 / 5, 4 / 5]

theorem sticky_pos (i j : Fin 2) : 0 < sticky i j := by
  fin_cases i <;> fin_cases j <;> norm_num [sticky]

theorem sticky_col (i j : Fin 2) : 1 / 8 * (![9 / 10, 4 / 5] : Fin 2 → ℝ) j ≤ sticky i j ∧
    sticky i j ≤ (![9 / 10, 4 / 5] : Fin 2 → ℝ) j := by
  fin_cases i <;> fin_cases j <;> norm_num [sticky]

theorem sticky_row (i j : Fin 2) : 1 / 9 * (![9 / 10, 4 / 5] : Fin 2 → ℝ) i ≤ sticky i j ∧
    sticky i j ≤ (![9 / 10, 4 / 5] : Fin 2 → ℝ) i := by
  fin_cases i <;> fin_cases j <;> norm_num [sticky]

/-- **C97, the start.** When no entry of a column of the transition matrices is smaller than `δ` times a
bound of that column, the law of the drawn states from position `t` on depends on the initial weights by
at most `(1 - δ)^(t + 1)`: this bounds the difference of the probabilities of every set of such states,
for any two initial weights, whatever the data. -/
theorem C97_ffbs_start_forgotten {γ γ' : Fin M → ℝ} (hγ : ∀ k, 0 ≤ γ k) (hγ' : ∀ k, 0 ≤ γ' k)
    {Γ : Fin (N + 1) → Matrix (Fin M) (Fin M) ℝ} (hΓ : ∀ t i j, 0 ≤ Γ t i j) {δ : ℝ} (hδ0 : 0 ≤ δ)
    (hδ1 : δ ≤ 1) {a : Fin (N + 1) → Fin M → ℝ} (hb : ∀ t i j, δ * a t j ≤ Γ t i j ∧ Γ t i j ≤ a t j)
    (ll : Fin (N + 1) → Fin M → WithBot ℝ) (hev : 0 < evidence γ Γ ll) (hev' : 0 < evidence γ' Γ ll)
    (lb lb' : ℝ) (t : ℕ) (B : Set (List (Fin M))) :
    |((ffbsStep γ (List.ofFn Γ) (List.ofFn ll) lb).toOuterMeasure (fromOn t B)).toReal -
      ((ffbsStep γ' (List.ofFn Γ) (List.ofFn ll) lb').toOuterMeasure (fromOn t B)).toReal| ≤
        (1 - δ) ^ (t + 1) := by
  rw [ffbs_prob hγ hΓ ll lb hev, ffbs_prob hγ' hΓ ll lb' hev']
  exact abs_ratio_le hev hev'
    (forget_start' hδ0 hδ1 hΓ hb ll t (ind_nonneg _) (ind_le _) (ind_fromOn t B) hγ hγ')
    (forget_start' hδ0 hδ1 hΓ hb ll t (ind_nonneg _) (ind_le _) (ind_fromOn t B) hγ' hγ)

/-- A sticky chain, started in either state, with any finite log-likelihoods at any number of time
points. -/
example (x : Fin (N + 1) → Fin 2 → ℝ) (lb : ℝ) (t : ℕ) (B : Set (List (Fin 2))) :
    |((ffbsStep ![1, 0] (List.ofFn fun _ : Fin (N + 1) => sticky) (List.ofFn fun t k => (x t k : WithBot ℝ))
        lb).toOuterMeasure (fromOn t B)).toReal -
      ((ffbsStep ![0, 1] (List.ofFn fun _ : Fin (N + 1) => sticky) (List.ofFn fun t k => (x t k : WithBot ℝ))
        lb).toOuterMeasure (fromOn t B)).toReal| ≤ (7 / 8) ^ (t + 1) := by
  have h1 : ∀ k, 0 ≤ (![1, 0] : Fin 2 → ℝ) k := fun k => by fin_cases k <;> simp
  have h2 : ∀ k, 0 ≤ (![0, 1] : Fin 2 → ℝ) k := fun k => by fin_cases k <;> simp
  have := C97_ffbs_start_forgotten h1 h2 (fun _ i j => (sticky_pos i j).le) (by norm_num) (by norm_num)
    (fun _ : Fin (N + 1) => sticky_col) (fun t k => (x t k : WithBot ℝ))
    (evidence_pos h1 (k := 0) (by simp) (fun _ => sticky_pos) fun _ _ => WithBot.coe_ne_bot)
    (evidence_pos h2 (k := 1) (by simp) (fun _ => sticky_pos) fun _ _ => WithBot.coe_ne_bot) lb lb t B
  norm_num at this ⊢
  exact this

/-- **C97, the past.** Two series of data that agree in their last stretch, but may differ before it in
everything (length, data, transition matrices, initial weights): the law of the drawn states from position
`t` of that stretch on differs by at most `(1 - δ)^(t + 1)`. -/
theorem C97_ffbs_past_forgotten {γ γ' : Fin M → ℝ} (hγ : ∀ k, 0 ≤ γ k) (hγ' : ∀ k, 0 ≤ γ' k)
    {Γ₁ : Fin (N + 1) → Matrix (Fin M) (Fin M) ℝ} (hΓ₁ : ∀ t i j, 0 ≤ Γ₁ t i j)
    {Γ₁' : Fin (N' + 1) → Matrix (Fin M) (Fin M) ℝ} (hΓ₁' : ∀ t i j, 0 ≤ Γ₁' t i j)
    (l₁ : Fin (N + 1) → Fin M → WithBot ℝ) (l₁' : Fin (N' + 1) → Fin M → WithBot ℝ)
    {Γ : Fin (K + 1) → Matrix (Fin M) (Fin M) ℝ} (hΓ : ∀ t i j, 0 ≤ Γ t i j) {δ : ℝ} (hδ0 : 0 ≤ δ)
    (hδ1 : δ ≤ 1) {a : Fin (K + 1) → Fin M → ℝ} (hb : ∀ t i j, δ * a t j ≤ Γ t i j ∧ Γ t i j ≤ a t j)
    (ll : Fin (K + 1) → Fin M → WithBot ℝ)
    (hev : 0 < evidence γ (Fin.append Γ₁ Γ) (Fin.append l₁ ll))
    (hev' : 0 < evidence γ' (Fin.append Γ₁' Γ) (Fin.append l₁' ll)) (lb lb' : ℝ) (t : ℕ)
    (B : Set (List (Fin M))) :
    |((ffbsStep γ (List.ofFn Γ₁ ++ List.ofFn Γ) (List.ofFn l₁ ++ List.ofFn ll) lb).toOuterMeasure
        (fromOn (N + 1 + t) B)).toReal -
      ((ffbsStep γ' (List.ofFn Γ₁' ++ List.ofFn Γ) (List.ofFn l₁' ++ List.ofFn ll) lb').toOuterMeasure
        (fromOn (N' + 1 + t) B)).toReal| ≤ (1 - δ) ^ (t + 1) := by
  have hG : ∀ {N : ℕ} (s₁ : Fin (N + 1) → Fin M) (s₂ : Fin (K + 1) → Fin M),
      ind (fromOn (N + 1 + t) B) (Fin.append s₁ s₂) = ind (fromOn t B) s₂ := by
    intro N s₁ s₂
    unfold ind
    rw [mem_fromOn, mem_fromOn, List.ofFn_fin_append, ← List.drop_drop,
      List.drop_left' (by rw [List.length_ofFn])]
  have h1 := fun F G h => part_second γ Γ₁ Γ l₁ ll F (G := G) h
  have h2 := fun F G h => part_second γ' Γ₁' Γ l₁' ll F (G := G) h
  have n1 : ∀ k, 0 ≤ endPart γ Γ₁ l₁ k fun _ => 1 := fun k => endPart_nonneg hγ hΓ₁ l₁ k fun _ => zero_le_one
  have n2 : ∀ k, 0 ≤ endPart γ' Γ₁' l₁' k fun _ => 1 := fun k =>
    endPart_nonneg hγ' hΓ₁' l₁' k fun _ => zero_le_one
  have e1 := (part_one γ (Fin.append Γ₁ Γ) (Fin.append l₁ ll)).symm.trans
    ((h1 (fun _ => 1) _ fun _ _ => rfl).trans (part_one _ _ _))
  have e2 := (part_one γ' (Fin.append Γ₁' Γ) (Fin.append l₁' ll)).symm.trans
    ((h2 (fun _ => 1) _ fun _ _ => rfl).trans (part_one _ _ _))
  rw [← List.ofFn_fin_append, ← List.ofFn_fin_append, ← List.ofFn_fin_append, ← List.ofFn_fin_append]
  have p1 := ffbs_prob (N := N + 1 + K) hγ (append_nonneg hΓ₁ hΓ)
    (Fin.append l₁ ll : Fin (N + 1 + (K + 1)) → Fin M → WithBot ℝ) lb hev (fromOn (N + 1 + t) B)
  have p2 := ffbs_prob (N := N' + 1 + K) hγ' (append_nonneg hΓ₁' hΓ)
    (Fin.append l₁' ll : Fin (N' + 1 + (K + 1)) → Fin M → WithBot ℝ) lb' hev' (fromOn (N' + 1 + t) B)
  refine (congrArg₂ (fun x y : ℝ => |x - y|) p1 p2).trans_le ?_
  have q1 := h1 (ind (fromOn t B)) (ind (fromOn (N + 1 + t) B)) hG
  have q2 := h2 (ind (fromOn t B)) (ind (fromOn (N' + 1 + t) B)) hG
  refine abs_ratio_le hev hev' ?_ ?_
  · refine le_trans (le_of_eq ?_) ((forget_start' hδ0 hδ1 hΓ hb ll t (ind_nonneg _) (ind_le _)
      (ind_fromOn t B) n1 n2).trans (le_of_eq ?_))
    · rw [← q1, ← q2, ← e1, ← e2]
    · rw [← e1, ← e2]
  · refine le_trans (le_of_eq ?_) ((forget_start' hδ0 hδ1 hΓ hb ll t (ind_nonneg _) (ind_le _)
      (ind_fromOn t B) n2 n1).trans (le_of_eq ?_))
    · rw [← q1, ← q2, ← e1, ← e2]
    · rw [← e1, ← e2]

/-- Different data before the common ones, of different lengths. -/
example (y : Fin (N + 1) → Fin 2 → ℝ) (z : Fin (N' + 1) → Fin 2 → ℝ) (x : Fin (K + 1) → Fin 2 → ℝ) (lb : ℝ)
    (t : ℕ) (B : Set (List (Fin 2))) :
    |((ffbsStep ![1, 2] ((List.ofFn fun _ : Fin (N + 1) => sticky) ++ List.ofFn fun _ : Fin (K + 1) => sticky)
        ((List.ofFn fun t k => (y t k : WithBot ℝ)) ++ List.ofFn fun t k => (x t k : WithBot ℝ))
        lb).toOuterMeasure (fromOn (N + 1 + t) B)).toReal -
      ((ffbsStep ![1, 2] ((List.ofFn fun _ : Fin (N' + 1) => sticky) ++ List.ofFn fun _ : Fin (K + 1) => sticky)
        ((List.ofFn fun t k => (z t k : WithBot ℝ)) ++ List.ofFn fun t k => (x t k : WithBot ℝ))
        lb).toOuterMeasure (fromOn (N' + 1 + t) B)).toReal| ≤ (7 / 8) ^ (t + 1) := by
  have h1 : ∀ k, 0 ≤ (![1, 2] : Fin 2 → ℝ) k := fun k => by fin_cases k <;> simp
  have hΓ : ∀ {N : ℕ} (t : Fin (N + 1 + (K + 1))) i j,
      0 < Fin.append (fun _ : Fin (N + 1) => sticky) (fun _ : Fin (K + 1) => sticky) t i j := by
    intro N t i j
    refine Fin.addCases (motive := fun t => 0 < Fin.append (fun _ : Fin (N + 1) => sticky)
      (fun _ : Fin (K + 1) => sticky) t i j) (fun t => ?_) (fun t => ?_) t
    · rw [Fin.append_left]; exact sticky_pos i j
    · rw [Fin.append_right]; exact sticky_pos i j
  have hl : ∀ {N : ℕ} (y : Fin (N + 1) → Fin 2 → ℝ) (t : Fin (N + 1 + (K + 1))) j,
      Fin.append (fun t k => (y t k : WithBot ℝ)) (fun t k => (x t k : WithBot ℝ)) t j ≠ ⊥ := by
    intro N y t j
    refine Fin.addCases (motive := fun t => Fin.append (fun t k => (y t k : WithBot ℝ))
      (fun t k => (x t k : WithBot ℝ)) t j ≠ ⊥) (fun t => ?_) (fun t => ?_) t
    · rw [Fin.append_left]; exact WithBot.coe_ne_bot
    · rw [Fin.append_right]; exact WithBot.coe_ne_bot
  have := C97_ffbs_past_forgotten h1 h1 (fun _ : Fin (N + 1) => fun i j => (sticky_pos i j).le)
    (fun _ : Fin (N' + 1) => fun i j => (sticky_pos i j).le)
    (fun t k => (y t k : WithBot ℝ)) (fun t k => (z t k : WithBot ℝ))
    (fun _ : Fin (K + 1) => fun i j => (sticky_pos i j).le) (by norm_num) (by norm_num)
    (fun _ => sticky_col) (fun t k => (x t k : WithBot ℝ))
    (evidence_pos h1 (k := 0) (by simp) hΓ (hl y)) (evidence_pos h1 (k := 0) (by simp) hΓ (hl z)) lb lb t B
  norm_num at this ⊢
  exact this

/-- **C97, the future.** When no entry of a row of the transition matrices is smaller than `δ` times a bound
of that row, data that arrive after the last position `N` of a series, whatever they are, change the law of
the drawn states up to position `r` by at most `(1 - δ)^(N - r)`. -/
theorem C97_ffbs_future_forgotten {γ : Fin M → ℝ} (hγ : ∀ k, 0 ≤ γ k)
    {Γ : Fin (N + 1) → Matrix (Fin M) (Fin M) ℝ} (hΓ : ∀ t i j, 0 ≤ Γ t i j) {δ : ℝ} (hδ0 : 0 ≤ δ)
    (hδ1 : δ ≤ 1) {a : Fin (N + 1) → Fin M → ℝ} (hb : ∀ t i j, δ * a t i ≤ Γ t i j ∧ Γ t i j ≤ a t i)
    (ll : Fin (N + 1) → Fin M → WithBot ℝ)
    {Γ₂ : Fin (K + 1) → Matrix (Fin M) (Fin M) ℝ} (hΓ₂ : ∀ t i j, 0 ≤ Γ₂ t i j)
    (l₂ : Fin (K + 1) → Fin M → WithBot ℝ) (hev : 0 < evidence γ Γ ll)
    (hev' : 0 < evidence γ (Fin.append Γ Γ₂) (Fin.append ll l₂)) (lb lb' : ℝ) (r : ℕ) (hr : r ≤ N)
    (B : Set (List (Fin M))) :
    |((ffbsStep γ (List.ofFn Γ) (List.ofFn ll) lb).toOuterMeasure (upTo (r + 1) B)).toReal -
      ((ffbsStep γ (List.ofFn Γ ++ List.ofFn Γ₂) (List.ofFn ll ++ List.ofFn l₂) lb').toOuterMeasure
        (upTo (r + 1) B)).toReal| ≤ (1 - δ) ^ (N - r) := by
  have hG : ∀ (s₁ : Fin (N + 1) → Fin M) (s₂ : Fin (K + 1) → Fin M),
      ind (upTo (r + 1) B) (Fin.append s₁ s₂) = ind (upTo (r + 1) B) s₁ := by
    intro s₁ s₂
    unfold ind
    rw [mem_upTo, mem_upTo, List.ofFn_fin_append, List.take_append_of_le_length]
    rw [List.length_ofFn]
    omega
  have h1 := fun F G h => part_first γ Γ Γ₂ ll l₂ F (G := G) h
  have h0 : ∀ F, part γ Γ ll F = ∑ s, weight γ Γ ll s * (fun _ => 1 : Fin M → ℝ) (s (Fin.last N)) * F s :=
    fun F => by simp [part]
  have e0 := (part_one γ Γ ll).symm.trans (h0 fun _ => 1)
  have e1 := (part_one γ (Fin.append Γ Γ₂) (Fin.append ll l₂)).symm.trans (h1 (fun _ => 1) _ fun _ _ => rfl)
  rw [← List.ofFn_fin_append, ← List.ofFn_fin_append, ffbs_prob hγ hΓ ll lb hev]
  have p2 := ffbs_prob (N := N + 1 + K) hγ (append_nonneg hΓ hΓ₂)
    (Fin.append ll l₂ : Fin (N + 1 + (K + 1)) → Fin M → WithBot ℝ) lb' hev' (upTo (r + 1) B)
  refine (congrArg (fun y : ℝ => |_ - y|) p2).trans_le ?_
  have q0 := h0 (ind (upTo (r + 1) B))
  have q1 := h1 (ind (upTo (r + 1) B)) (ind (upTo (r + 1) B)) hG
  have n2 : ∀ k, 0 ≤ evidence (Pi.single k 1) Γ₂ l₂ := fun k => evidence_nonneg l₂ (single_nonneg' k) hΓ₂
  refine abs_ratio_le hev hev' ?_ ?_
  · refine le_trans (le_of_eq ?_) ((forget_end' hδ0 hδ1 hγ r hΓ hb ll (ind_nonneg _) (ind_le _)
      (ind_upTo r B) (h := fun _ => 1) (h' := fun k => evidence (Pi.single k 1) Γ₂ l₂)
      (fun _ => zero_le_one) n2).trans (le_of_eq ?_))
    · rw [← q0, ← q1, ← e0, ← e1]
    · rw [← e0, ← e1]
  · refine le_trans (le_of_eq ?_) ((forget_end' hδ0 hδ1 hγ r hΓ hb ll (ind_nonneg _) (ind_le _)
      (ind_upTo r B) (h' := fun _ => 1) (h := fun k => evidence (Pi.single k 1) Γ₂ l₂) n2
      (fun _ => zero_le_one)).trans (le_of_eq ?_))
    · rw [← q0, ← q1, ← e0, ← e1]
    · rw [← e0, ← e1]

/-- More data for a sticky chain. -/
example (x : Fin (N + 1) → Fin 2 → ℝ) (z : Fin (K + 1) → Fin 2 → ℝ) (lb : ℝ) (r : ℕ) (hr : r ≤ N)
    (B : Set (List (Fin 2))) :
    |((ffbsStep ![1, 2] (List.ofFn fun _ : Fin (N + 1) => sticky) (List.ofFn fun t k => (x t k : WithBot ℝ))
        lb).toOuterMeasure (upTo (r + 1) B)).toReal -
      ((ffbsStep ![1, 2] ((List.ofFn fun _ : Fin (N + 1) => sticky) ++ List.ofFn fun _ : Fin (K + 1) => sticky)
        ((List.ofFn fun t k => (x t k : WithBot ℝ)) ++ List.ofFn fun t k => (z t k : WithBot ℝ))
        lb).toOuterMeasure (upTo (r + 1) B)).toReal| ≤ (8 / 9) ^ (N - r) := by
  have h1 : ∀ k, 0 ≤ (![1, 2] : Fin 2 → ℝ) k := fun k => by fin_cases k <;> simp
  have hΓ : ∀ (t : Fin (N + 1 + (K + 1))) i j,
      0 < Fin.append (fun _ : Fin (N + 1) => sticky) (fun _ : Fin (K + 1) => sticky) t i j := by
    intro t i j
    refine Fin.addCases (motive := fun t => 0 < Fin.append (fun _ : Fin (N + 1) => sticky)
      (fun _ : Fin (K + 1) => sticky) t i j) (fun t => ?_) (fun t => ?_) t
    · rw [Fin.append_left]; exact sticky_pos i j
    · rw [Fin.append_right]; exact sticky_pos i j
  have hl : ∀ (t : Fin (N + 1 + (K + 1))) j,
      Fin.append (fun t k => (x t k : WithBot ℝ)) (fun t k => (z t k : WithBot ℝ)) t j ≠ ⊥ := by
    intro t j
    refine Fin.addCases (motive := fun t => Fin.append (fun t k => (x t k : WithBot ℝ))
      (fun t k => (z t k : WithBot ℝ)) t j ≠ ⊥) (fun t => ?_) (fun t => ?_) t
    · rw [Fin.append_left]; exact WithBot.coe_ne_bot
    · rw [Fin.append_right]; exact WithBot.coe_ne_bot
  have := C97_ffbs_future_forgotten h1 (fun _ : Fin (N + 1) => fun i j => (sticky_pos i j).le)
    (by norm_num) (by norm_num) (fun _ => sticky_row) (fun t k => (x t k : WithBot ℝ))
    (fun _ : Fin (K + 1) => fun i j => (sticky_pos i j).le) (fun t k => (z t k : WithBot ℝ))
    (evidence_pos h1 (k := 0) (by simp) (fun _ => sticky_pos) fun _ _ => WithBot.coe_ne_bot)
    (evidence_pos h1 (k := 0) (by simp) hΓ hl) lb lb r hr B
  norm_num at this ⊢
  exact this

/-- **C97, what cannot be forgotten.** Transitions that cannot occur may keep the start forever: in a chain
that never leaves its state, the state at every position differs for two different starts, so the
probabilities of some set of sequences differ by one, however late the states and long the series. -/
theorem C97_ffbs_rigid_remembers {k l : Fin M} (hkl : k ≠ l) (t : ℕ) (ht : t ≤ N) (lb : ℝ) :
    ((ffbsStep (Pi.single k 1) (List.ofFn fun _ : Fin (N + 1) => (1 : Matrix (Fin M) (Fin M) ℝ))
        (List.ofFn fun (_ : Fin (N + 1)) _ => ((0 : ℝ) : WithBot ℝ)) lb).toOuterMeasure
          (fromOn t {u | u.head? = some k})).toReal = 1 ∧
      ((ffbsStep (Pi.single l 1) (List.ofFn fun _ : Fin (N + 1) => (1 : Matrix (Fin M) (Fin M) ℝ))
        (List.ofFn fun (_ : Fin (N + 1)) _ => ((0 : ℝ) : WithBot ℝ)) lb).toOuterMeasure
          (fromOn t {u | u.head? = some k})).toReal = 0 := by
  have hΓ : ∀ (t : Fin (N + 1)) i j, 0 ≤ (1 : Matrix (Fin M) (Fin M) ℝ) i j := fun _ i j => by
    rw [Matrix.one_apply]; split_ifs <;> norm_num
  have hev : ∀ k : Fin M, evidence (Pi.single k 1) (fun _ : Fin (N + 1) => (1 : Matrix (Fin M) (Fin M) ℝ))
      (fun _ _ => ((0 : ℝ) : WithBot ℝ)) = 1 := fun k => by rw [← part_one, part_rigid]
  have hp := fun j : Fin M => ffbs_prob (single_nonneg' j) hΓ (fun _ _ => ((0 : ℝ) : WithBot ℝ)) lb
    (by rw [hev]; norm_num) (fromOn t {u | u.head? = some k})
  have hm : ∀ j : Fin M, some (List.ofFn fun _ : Fin (N + 1) => j) ∈ fromOn t {u | u.head? = some k} ↔ j = k := by
    intro j
    have e : ((List.ofFn fun _ : Fin (N + 1) => j).drop t).head? = some j := by
      rw [List.ofFn_const, List.drop_replicate, Nat.succ_sub ht, List.replicate_succ]
      rfl
    rw [mem_fromOn]
    change ((List.ofFn fun _ : Fin (N + 1) => j).drop t).head? = some k ↔ j = k
    rw [e, Option.some_inj]
  rw [hp, hp, hev, hev, part_rigid, part_rigid, div_one, div_one]
  unfold ind
  rw [if_pos ((hm k).2 rfl), if_neg fun h => hkl ((hm l).1 h).symm]
  exact ⟨rfl, rfl⟩

/-- Two states, the last of a thousand time points. -/
example (lb : ℝ) :
    ((ffbsStep (Pi.single 0 1) (List.ofFn fun _ : Fin (999 + 1) => (1 : Matrix (Fin 2) (Fin 2) ℝ))
        (List.ofFn fun (_ : Fin (999 + 1)) _ => ((0 : ℝ) : WithBot ℝ)) lb).toOuterMeasure
          (fromOn 999 {u | u.head? = some 0})).toReal = 1 :=
  (C97_ffbs_rigid_remembers (l := 1) (by decide) 999 le_rfl lb).1

end Verif.FFBS
