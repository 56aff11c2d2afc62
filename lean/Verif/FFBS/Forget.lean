import Verif.FFBS.Stable

/-!
# Helper lemmas for C97: how fast hidden Markov models forget
-/

open Matrix
open scoped ENNReal

namespace Verif.FFBS

variable {M N N' : ℕ}

/-- Averages of ratios with comparable weights are closer to each other than the ratios are. -/
theorem contract {ι : Type*} [Fintype ι] {δ ρ : ℝ} (hδ0 : 0 ≤ δ) (hδ1 : δ ≤ 1) {a c c' S e : ι → ℝ}
    (hS : ∀ j, 0 ≤ S j) (hSe : ∀ j, S j ≤ e j)
    (hosc : ∀ i j, S j * e i - S i * e j ≤ ρ * (e j * e i)) (hc : ∀ j, δ * a j ≤ c j ∧ c j ≤ a j)
    (hc' : ∀ j, δ * a j ≤ c' j ∧ c' j ≤ a j) (hc0 : ∀ j, 0 ≤ c j) (hc0' : ∀ j, 0 ≤ c' j) :
    (∑ j, c j * S j) * (∑ j, c' j * e j) - (∑ j, c' j * S j) * (∑ j, c j * e j) ≤
      (1 - δ) * ρ * ((∑ j, c j * e j) * ∑ j, c' j * e j) := by
  classical
  have he : ∀ j, 0 ≤ e j := fun j => (hS j).trans (hSe j)
  have ha : ∀ j, 0 ≤ a j := fun j => (hc0 j).trans (hc j).2
  set A := ∑ j, a j * e j with hA
  set Q := ∑ j, a j * S j with hQ
  have hA0 : 0 ≤ A := Finset.sum_nonneg fun j _ => mul_nonneg (ha j) (he j)
  have hEA : ∀ {d : ι → ℝ}, (∀ j, d j ≤ a j) → ∑ j, d j * e j ≤ A := fun hd =>
    Finset.sum_le_sum fun j _ => mul_le_mul_of_nonneg_right (hd j) (he j)
  have hE0 : ∀ {d : ι → ℝ}, (∀ j, 0 ≤ d j) → 0 ≤ ∑ j, d j * e j := fun hd =>
    Finset.sum_nonneg fun j _ => mul_nonneg (hd j) (he j)
  rcases hA0.eq_or_lt with h0 | hpos
  · have h1 : ∑ j, c j * e j = 0 := le_antisymm (h0 ▸ hEA fun j => (hc j).2) (hE0 hc0)
    have h2 : ∑ j, c' j * e j = 0 := le_antisymm (h0 ▸ hEA fun j => (hc' j).2) (hE0 hc0')
    rw [h1, h2]
    simp
  obtain ⟨hi, lo, hhi, hlo, hd⟩ : ∃ hi lo : ℝ, (∀ j, S j ≤ hi * e j) ∧ (∀ j, lo * e j ≤ S j) ∧ hi - lo ≤ ρ := by
    have hne : (Finset.univ.filter fun j => 0 < e j).Nonempty := by
      by_contra h
      rw [Finset.not_nonempty_iff_eq_empty] at h
      have : A = 0 := Finset.sum_eq_zero fun j _ => by
        have : ¬ 0 < e j := fun hj => by
          have : j ∈ (Finset.univ.filter fun j => 0 < e j) := by simp [hj]
          rw [h] at this
          simp at this
        rw [le_antisymm (not_lt.1 this) (he j), mul_zero]
      exact hpos.ne' this
    obtain ⟨u, hu, hu'⟩ := Finset.exists_max_image _ (fun j => S j / e j) hne
    obtain ⟨v, hv, hv'⟩ := Finset.exists_min_image _ (fun j => S j / e j) hne
    have hu0 : 0 < e u := (Finset.mem_filter.1 hu).2
    have hv0 : 0 < e v := (Finset.mem_filter.1 hv).2
    refine ⟨S u / e u, S v / e v, fun j => ?_, fun j => ?_, ?_⟩
    · rcases (he j).eq_or_lt with hj | hj
      · rw [← hj, mul_zero]
        exact (hSe j).trans hj.symm.le
      · rw [← div_le_iff₀ hj]
        exact hu' j (by simp [hj])
    · rcases (he j).eq_or_lt with hj | hj
      · rw [← hj, mul_zero]
        exact hS j
      · rw [← le_div_iff₀ hj]
        exact hv' j (by simp [hj])
    · rw [div_sub_div _ _ hu0.ne' hv0.ne', div_le_iff₀ (mul_pos hu0 hv0)]
      have := hosc v u
      linarith
  have key : ∀ {d : ι → ℝ}, (∀ j, δ * a j ≤ d j ∧ d j ≤ a j) → ∀ j, 0 ≤ d j * A - δ * a j * ∑ i, d i * e i := by
    intro d hd' j
    have h1 : δ * a j * ∑ i, d i * e i ≤ δ * a j * A :=
      mul_le_mul_of_nonneg_left (hEA fun j => (hd' j).2) (mul_nonneg hδ0 (ha j))
    have h2 : δ * a j * A ≤ d j * A := mul_le_mul_of_nonneg_right (hd' j).1 hA0
    linarith
  have ex : ∀ (d : ι → ℝ) (T x : ℝ), ∑ j, (d j * A - δ * a j * T) * (x * e j - S j) =
      x * A * (∑ j, d j * e j) - A * (∑ j, d j * S j) - δ * T * x * A + δ * T * Q := by
    intro d T x
    have e1 : ∀ j, (d j * A - δ * a j * T) * (x * e j - S j) =
        x * A * (d j * e j) - A * (d j * S j) - δ * T * x * (a j * e j) + δ * T * (a j * S j) := fun j => by ring
    rw [Finset.sum_congr rfl fun j _ => e1 j, Finset.sum_add_distrib, Finset.sum_sub_distrib,
      Finset.sum_sub_distrib, ← Finset.mul_sum, ← Finset.mul_sum, ← Finset.mul_sum, ← Finset.mul_sum]
  have up : A * (∑ j, c j * S j) ≤ (∑ j, c j * e j) * (δ * Q + (1 - δ) * A * hi) := by
    have h : 0 ≤ ∑ j, (c j * A - δ * a j * ∑ i, c i * e i) * (hi * e j - S j) :=
      Finset.sum_nonneg fun j _ => mul_nonneg (key hc j) (sub_nonneg.2 (hhi j))
    rw [ex] at h
    linarith
  have down : (∑ j, c' j * e j) * (δ * Q + (1 - δ) * A * lo) ≤ A * (∑ j, c' j * S j) := by
    have h : ∑ j, (c' j * A - δ * a j * ∑ i, c' i * e i) * (lo * e j - S j) ≤ 0 :=
      Finset.sum_nonpos fun j _ => mul_nonpos_of_nonneg_of_nonpos (key hc' j) (sub_nonpos.2 (hlo j))
    rw [ex] at h
    linarith
  have hEc := hE0 hc0
  have hEc' := hE0 hc0'
  have := mul_le_mul_of_nonneg_right up hEc'
  have := mul_le_mul_of_nonneg_right down hEc
  have h3 : (1 - δ) * ((∑ j, c j * e j) * ∑ j, c' j * e j) * A * (hi - lo) ≤
      (1 - δ) * ((∑ j, c j * e j) * ∑ j, c' j * e j) * A * ρ :=
    mul_le_mul_of_nonneg_left hd (mul_nonneg (mul_nonneg (sub_nonneg.2 hδ1) (mul_nonneg hEc hEc')) hA0)
  refine le_of_mul_le_mul_left ?_ hpos
  linarith

theorem fwd_sum_cons (F : (Fin (N + 1) → Fin M) → ℝ) :
    ∑ s, F s = ∑ k, ∑ s : Fin N → Fin M, F (Fin.cons k s) := by
  rw [← (Fin.consEquiv fun _ : Fin (N + 1) => Fin M).sum_comp, Fintype.sum_prod_type]
  rfl

/-- The part of the total weight given by a function of the states. -/
noncomputable def part (γ : Fin M → ℝ) (Γ : Fin N → Matrix (Fin M) (Fin M) ℝ)
    (ll : Fin N → Fin M → WithBot ℝ) (F : (Fin N → Fin M) → ℝ) : ℝ :=
  ∑ s, weight γ Γ ll s * F s

theorem part_one (γ : Fin M → ℝ) (Γ : Fin N → Matrix (Fin M) (Fin M) ℝ)
    (ll : Fin N → Fin M → WithBot ℝ) : part γ Γ ll (fun _ => 1) = evidence γ Γ ll := by
  simp [part, evidence]

theorem part_nonneg {γ : Fin M → ℝ} (hγ : ∀ k, 0 ≤ γ k) {Γ : Fin N → Matrix (Fin M) (Fin M) ℝ}
    (hΓ : ∀ t i j, 0 ≤ Γ t i j) (ll : Fin N → Fin M → WithBot ℝ) {F : (Fin N → Fin M) → ℝ}
    (hF : ∀ s, 0 ≤ F s) : 0 ≤ part γ Γ ll F :=
  Finset.sum_nonneg fun s _ => mul_nonneg (weight_nonneg hγ hΓ ll s) (hF s)

theorem part_le {γ : Fin M → ℝ} (hγ : ∀ k, 0 ≤ γ k) {Γ : Fin N → Matrix (Fin M) (Fin M) ℝ}
    (hΓ : ∀ t i j, 0 ≤ Γ t i j) (ll : Fin N → Fin M → WithBot ℝ) {F : (Fin N → Fin M) → ℝ}
    (hF : ∀ s, F s ≤ 1) : part γ Γ ll F ≤ evidence γ Γ ll := by
  rw [← part_one]
  exact Finset.sum_le_sum fun s _ => mul_le_mul_of_nonneg_left (hF s) (weight_nonneg hγ hΓ ll s)

theorem single_nonneg' (k j : Fin M) : 0 ≤ (Pi.single k 1 : Fin M → ℝ) j := by
  by_cases h : j = k
  · subst h; simp
  · simp [h]

theorem weight_mix' (γ : Fin M → ℝ) (Γ : Fin N → Matrix (Fin M) (Fin M) ℝ)
    (ll : Fin N → Fin M → WithBot ℝ) (s : Fin N → Fin M) :
    weight γ Γ ll s = ∑ k, γ k * weight (Pi.single k 1) Γ ll s := by
  simp only [weight_from]
  rfl

theorem part_mix (γ : Fin M → ℝ) (Γ : Fin N → Matrix (Fin M) (Fin M) ℝ)
    (ll : Fin N → Fin M → WithBot ℝ) (F : (Fin N → Fin M) → ℝ) :
    part γ Γ ll F = ∑ k, γ k * part (Pi.single k 1) Γ ll F := by
  unfold part
  simp only [Finset.mul_sum]
  rw [Finset.sum_comm]
  refine Finset.sum_congr rfl fun s _ => ?_
  rw [weight_mix', Finset.sum_mul]
  exact Finset.sum_congr rfl fun k _ => mul_assoc _ _ _

theorem part_cons (k : Fin M) (Γ : Fin (N + 1) → Matrix (Fin M) (Fin M) ℝ)
    (ll : Fin (N + 1) → Fin M → WithBot ℝ) (F : (Fin (N + 1) → Fin M) → ℝ) :
    part (Pi.single k 1) Γ ll F = ∑ j, Γ 0 k j * (lik (ll 0 j) *
      part (Pi.single j 1) (fun t => Γ t.succ) (fun t => ll t.succ) fun s => F (Fin.cons j s)) := by
  unfold part
  rw [fwd_sum_cons]
  refine Finset.sum_congr rfl fun j _ => ?_
  simp only [Finset.mul_sum]
  refine Finset.sum_congr rfl fun s _ => ?_
  rw [weight_cons]
  simp only [Fin.cons_zero, Fin.cons_succ, Matrix.single_one_vecMul]
  simp only [Matrix.row]
  ring

/-- The states from time `t` on hardly depend on the state before the first time point. -/
theorem forget_start {δ : ℝ} (hδ0 : 0 ≤ δ) (hδ1 : δ ≤ 1) : ∀ {N : ℕ} {Γ : Fin N → Matrix (Fin M) (Fin M) ℝ}
    {a : Fin N → Fin M → ℝ} (_ : ∀ t i j, 0 ≤ Γ t i j)
    (_ : ∀ t i j, δ * a t j ≤ Γ t i j ∧ Γ t i j ≤ a t j) (ll : Fin N → Fin M → WithBot ℝ) (t : ℕ)
    {F : (Fin N → Fin M) → ℝ} (_ : ∀ s, 0 ≤ F s) (_ : ∀ s, F s ≤ 1)
    (_ : ∀ s s' : Fin N → Fin M, (∀ u : Fin N, t ≤ u.1 → s u = s' u) → F s = F s') (k l : Fin M),
    part (Pi.single k 1) Γ ll F * evidence (Pi.single l 1) Γ ll -
        part (Pi.single l 1) Γ ll F * evidence (Pi.single k 1) Γ ll ≤
      (1 - δ) ^ (t + 1) * (evidence (Pi.single k 1) Γ ll * evidence (Pi.single l 1) Γ ll)
  | 0, Γ, a, hΓ, hb, ll, t, F, hF0, hF1, hF, k, l => by
    have h1 : ∀ k, part (Pi.single k 1) Γ ll F = F Fin.elim0 * evidence (Pi.single k 1) Γ ll := by
      intro k
      unfold part evidence
      rw [Finset.mul_sum]
      refine Finset.sum_congr rfl fun s _ => ?_
      rw [mul_comm, Subsingleton.elim s Fin.elim0]
    rw [h1, h1]
    have h2 : 0 ≤ (1 - δ) ^ (t + 1) * (evidence (Pi.single k 1) Γ ll * evidence (Pi.single l 1) Γ ll) :=
      mul_nonneg (pow_nonneg (sub_nonneg.2 hδ1) _) (mul_nonneg
        (Finset.sum_nonneg fun s _ => weight_nonneg (single_nonneg' _) hΓ ll s)
        (Finset.sum_nonneg fun s _ => weight_nonneg (single_nonneg' _) hΓ ll s))
    linarith
  | N + 1, Γ, a, hΓ, hb, ll, t, F, hF0, hF1, hF, k, l => by
    have hΓ' : ∀ (t : Fin N) i j, 0 ≤ Γ t.succ i j := fun t => hΓ t.succ
    rw [← part_one, ← part_one, part_cons, part_cons, part_cons, part_cons]
    simp only [part_one]
    have hρ : ∀ i j, part (Pi.single j 1) (fun t => Γ t.succ) (fun t => ll t.succ) (fun s => F (Fin.cons j s)) *
          evidence (Pi.single i 1) (fun t => Γ t.succ) (fun t => ll t.succ) -
        part (Pi.single i 1) (fun t => Γ t.succ) (fun t => ll t.succ) (fun s => F (Fin.cons i s)) *
          evidence (Pi.single j 1) (fun t => Γ t.succ) (fun t => ll t.succ) ≤
        (1 - δ) ^ t * (evidence (Pi.single j 1) (fun t => Γ t.succ) (fun t => ll t.succ) *
          evidence (Pi.single i 1) (fun t => Γ t.succ) (fun t => ll t.succ)) := by
      intro i j
      cases t with
      | zero =>
        have h1 := part_le (single_nonneg' j) hΓ' (fun t => ll t.succ) fun s => hF1 (Fin.cons j s)
        have h2 := part_nonneg (single_nonneg' i) hΓ' (fun t => ll t.succ) fun s => hF0 (Fin.cons i s)
        have h3 : ∀ j, 0 ≤ evidence (Pi.single j 1) (fun t => Γ t.succ) (fun t => ll t.succ) := fun j =>
          Finset.sum_nonneg fun s _ => weight_nonneg (single_nonneg' _) hΓ' _ s
        have h4 := mul_le_mul_of_nonneg_right h1 (h3 i)
        have h5 := mul_nonneg h2 (h3 j)
        rw [pow_zero, one_mul]
        linarith
      | succ t =>
        have e1 : (fun s : Fin N → Fin M => F (Fin.cons i s)) = fun s => F (Fin.cons j s) := by
          funext s
          refine hF _ _ fun u hu => ?_
          induction u using Fin.cases with
          | zero => simp at hu
          | succ u => rw [Fin.cons_succ, Fin.cons_succ]
        rw [e1]
        refine forget_start hδ0 hδ1 hΓ' (a := fun t => a t.succ) (fun t => hb t.succ) _ t
          (fun s => hF0 _) (fun s => hF1 _) (fun s s' h => ?_) j i
        refine hF _ _ fun u hu => ?_
        induction u using Fin.cases with
        | zero => rfl
        | succ u =>
          rw [Fin.cons_succ, Fin.cons_succ]
          exact h u (by simpa using hu)
    have := contract (ρ := (1 - δ) ^ t) hδ0 hδ1 (a := a 0) (c := Γ 0 k) (c' := Γ 0 l)
      (S := fun j => lik (ll 0 j) *
        part (Pi.single j 1) (fun t => Γ t.succ) (fun t => ll t.succ) fun s => F (Fin.cons j s))
      (e := fun j => lik (ll 0 j) * evidence (Pi.single j 1) (fun t => Γ t.succ) (fun t => ll t.succ))
      (fun j => mul_nonneg (lik_nonneg _) (part_nonneg (single_nonneg' j) hΓ' _ fun s => hF0 _))
      (fun j => mul_le_mul_of_nonneg_left (part_le (single_nonneg' j) hΓ' _ fun s => hF1 _) (lik_nonneg _))
      (fun i j => ?_) (hb 0 k) (hb 0 l) (hΓ 0 k) (hΓ 0 l)
    · rw [pow_succ, mul_comm ((1 - δ) ^ t)]
      exact this
    · have h := mul_le_mul_of_nonneg_left (hρ i j) (mul_nonneg (lik_nonneg (ll 0 i)) (lik_nonneg (ll 0 j)))
      linarith

/-- From known states to weights. -/
theorem mix_le {ι κ : Type*} [Fintype ι] [Fintype κ] {r : ℝ} {γ : ι → ℝ} {γ' : κ → ℝ} (hγ : ∀ k, 0 ≤ γ k)
    (hγ' : ∀ k, 0 ≤ γ' k) {S e : ι → ℝ} {S' e' : κ → ℝ}
    (h : ∀ k l, S k * e' l - S' l * e k ≤ r * (e k * e' l)) :
    (∑ k, γ k * S k) * (∑ l, γ' l * e' l) - (∑ l, γ' l * S' l) * (∑ k, γ k * e k) ≤
      r * ((∑ k, γ k * e k) * ∑ l, γ' l * e' l) := by
  have e1 : (∑ k, γ k * S k) * (∑ l, γ' l * e' l) - (∑ l, γ' l * S' l) * (∑ k, γ k * e k) =
      ∑ k, ∑ l, γ k * γ' l * (S k * e' l - S' l * e k) := by
    rw [mul_comm (∑ l, γ' l * S' l), Finset.sum_mul_sum, Finset.sum_mul_sum, ← Finset.sum_sub_distrib]
    refine Finset.sum_congr rfl fun k _ => ?_
    rw [← Finset.sum_sub_distrib]
    exact Finset.sum_congr rfl fun l _ => by ring
  rw [e1, Finset.sum_mul_sum, Finset.mul_sum]
  refine Finset.sum_le_sum fun k _ => ?_
  rw [Finset.mul_sum]
  refine Finset.sum_le_sum fun l _ => ?_
  have := mul_le_mul_of_nonneg_left (h k l) (mul_nonneg (hγ k) (hγ' l))
  linarith

/-- The states from time `t` on hardly depend on the initial weights. -/
theorem forget_start' {δ : ℝ} (hδ0 : 0 ≤ δ) (hδ1 : δ ≤ 1) {Γ : Fin N → Matrix (Fin M) (Fin M) ℝ}
    {a : Fin N → Fin M → ℝ} (hΓ : ∀ t i j, 0 ≤ Γ t i j)
    (hb : ∀ t i j, δ * a t j ≤ Γ t i j ∧ Γ t i j ≤ a t j) (ll : Fin N → Fin M → WithBot ℝ) (t : ℕ)
    {F : (Fin N → Fin M) → ℝ} (hF0 : ∀ s, 0 ≤ F s) (hF1 : ∀ s, F s ≤ 1)
    (hF : ∀ s s' : Fin N → Fin M, (∀ u : Fin N, t ≤ u.1 → s u = s' u) → F s = F s') {γ γ' : Fin M → ℝ}
    (hγ : ∀ k, 0 ≤ γ k) (hγ' : ∀ k, 0 ≤ γ' k) :
    part γ Γ ll F * evidence γ' Γ ll - part γ' Γ ll F * evidence γ Γ ll ≤
      (1 - δ) ^ (t + 1) * (evidence γ Γ ll * evidence γ' Γ ll) := by
  rw [← part_one γ, ← part_one γ', part_mix γ, part_mix γ', part_mix γ, part_mix γ']
  refine mix_le hγ hγ' fun k l => ?_
  rw [part_one, part_one]
  exact forget_start hδ0 hδ1 hΓ hb ll t hF0 hF1 hF k l

/-! ## Later data -/

/-- The part of the total weight of the sequences that end in a given state. -/
noncomputable def endPart (γ : Fin M → ℝ) (Γ : Fin (N + 1) → Matrix (Fin M) (Fin M) ℝ)
    (ll : Fin (N + 1) → Fin M → WithBot ℝ) (k : Fin M) (F : (Fin (N + 1) → Fin M) → ℝ) : ℝ :=
  ∑ s, if s (Fin.last N) = k then weight γ Γ ll s * F s else 0

theorem endPart_nonneg {γ : Fin M → ℝ} (hγ : ∀ k, 0 ≤ γ k) {Γ : Fin (N + 1) → Matrix (Fin M) (Fin M) ℝ}
    (hΓ : ∀ t i j, 0 ≤ Γ t i j) (ll : Fin (N + 1) → Fin M → WithBot ℝ) (k : Fin M)
    {F : (Fin (N + 1) → Fin M) → ℝ} (hF : ∀ s, 0 ≤ F s) : 0 ≤ endPart γ Γ ll k F :=
  Finset.sum_nonneg fun s _ => by
    split_ifs
    · exact mul_nonneg (weight_nonneg hγ hΓ ll s) (hF s)
    · exact le_rfl

theorem endPart_le {γ : Fin M → ℝ} (hγ : ∀ k, 0 ≤ γ k) {Γ : Fin (N + 1) → Matrix (Fin M) (Fin M) ℝ}
    (hΓ : ∀ t i j, 0 ≤ Γ t i j) (ll : Fin (N + 1) → Fin M → WithBot ℝ) (k : Fin M)
    {F : (Fin (N + 1) → Fin M) → ℝ} (hF : ∀ s, F s ≤ 1) : endPart γ Γ ll k F ≤ endPart γ Γ ll k fun _ => 1 :=
  Finset.sum_le_sum fun s _ => by
    split_ifs
    · exact mul_le_mul_of_nonneg_left (hF s) (weight_nonneg hγ hΓ ll s)
    · exact le_rfl

theorem sum_endPart (γ : Fin M → ℝ) (Γ : Fin (N + 1) → Matrix (Fin M) (Fin M) ℝ)
    (ll : Fin (N + 1) → Fin M → WithBot ℝ) (h : Fin M → ℝ) (F : (Fin (N + 1) → Fin M) → ℝ) :
    ∑ s, weight γ Γ ll s * h (s (Fin.last N)) * F s = ∑ k, h k * endPart γ Γ ll k F := by
  unfold endPart
  simp only [Finset.mul_sum]
  rw [Finset.sum_comm]
  refine Finset.sum_congr rfl fun s _ => ?_
  rw [Finset.sum_eq_single (s (Fin.last N))]
  · rw [if_pos rfl]; ring
  · intro b _ hb
    rw [if_neg (Ne.symm hb), mul_zero]
  · simp

theorem endPart_snoc (γ : Fin M → ℝ) (Γ : Fin (N + 2) → Matrix (Fin M) (Fin M) ℝ)
    (ll : Fin (N + 2) → Fin M → WithBot ℝ) (k : Fin M) (F : (Fin (N + 2) → Fin M) → ℝ) :
    endPart γ Γ ll k F = lik (ll (Fin.last _) k) * ∑ i, Γ (Fin.last _) i k *
      endPart γ (fun t => Γ t.castSucc) (fun t => ll t.castSucc) i fun s => F (Fin.snoc s k) := by
  rw [← sum_endPart _ _ _ (fun i => Γ (Fin.last _) i k), endPart, sum_snoc, Finset.mul_sum]
  refine Finset.sum_congr rfl fun s _ => ?_
  rw [Finset.sum_eq_single k]
  · rw [Fin.snoc_last, if_pos rfl, weight_succ]
    simp only [Fin.snoc_last, Fin.snoc_castSucc]
    ring
  · intro b _ hb
    rw [Fin.snoc_last, if_neg hb]
  · simp

/-- The states up to time `r` hardly depend on the state at the last time point. -/
theorem forget_end {δ : ℝ} (hδ0 : 0 ≤ δ) (hδ1 : δ ≤ 1) {γ : Fin M → ℝ} (hγ : ∀ k, 0 ≤ γ k) (r : ℕ) :
    ∀ {N : ℕ} {Γ : Fin (N + 1) → Matrix (Fin M) (Fin M) ℝ} {a : Fin (N + 1) → Fin M → ℝ}
    (_ : ∀ t i j, 0 ≤ Γ t i j) (_ : ∀ t i j, δ * a t i ≤ Γ t i j ∧ Γ t i j ≤ a t i)
    (ll : Fin (N + 1) → Fin M → WithBot ℝ)
    {F : (Fin (N + 1) → Fin M) → ℝ} (_ : ∀ s, 0 ≤ F s) (_ : ∀ s, F s ≤ 1)
    (_ : ∀ s s' : Fin (N + 1) → Fin M, (∀ u : Fin (N + 1), u.1 ≤ r → s u = s' u) → F s = F s') (k l : Fin M),
    endPart γ Γ ll k F * endPart γ Γ ll l (fun _ => 1) - endPart γ Γ ll l F * endPart γ Γ ll k (fun _ => 1) ≤
      (1 - δ) ^ (N - r) * (endPart γ Γ ll k (fun _ => 1) * endPart γ Γ ll l fun _ => 1) := by
  have base : ∀ {N : ℕ} {Γ : Fin (N + 1) → Matrix (Fin M) (Fin M) ℝ}
      (_ : ∀ t i j, 0 ≤ Γ t i j) (ll : Fin (N + 1) → Fin M → WithBot ℝ)
      {F : (Fin (N + 1) → Fin M) → ℝ} (_ : ∀ s, 0 ≤ F s) (_ : ∀ s, F s ≤ 1) (k l : Fin M), N ≤ r →
      endPart γ Γ ll k F * endPart γ Γ ll l (fun _ => 1) - endPart γ Γ ll l F * endPart γ Γ ll k (fun _ => 1) ≤
      (1 - δ) ^ (N - r) * (endPart γ Γ ll k (fun _ => 1) * endPart γ Γ ll l fun _ => 1) := by
    intro N Γ hΓ ll F hF0 hF1 k l hN
    rw [Nat.sub_eq_zero_of_le hN, pow_zero, one_mul]
    have h1 := endPart_le hγ hΓ ll k hF1
    have h2 := endPart_nonneg hγ hΓ ll l hF0
    have h3 : ∀ j, 0 ≤ endPart γ Γ ll j (fun _ => 1) := fun j =>
      endPart_nonneg hγ hΓ ll j fun _ => zero_le_one
    have h4 := mul_le_mul_of_nonneg_right h1 (h3 l)
    have h5 := mul_nonneg h2 (h3 k)
    linarith
  intro N
  induction N with
  | zero =>
    intro Γ a hΓ _ ll F hF0 hF1 _ k l
    exact base hΓ ll hF0 hF1 k l (Nat.zero_le _)
  | succ N ih =>
    intro Γ a hΓ hb ll F hF0 hF1 hF k l
    by_cases hN : N + 1 ≤ r
    · exact base hΓ ll hF0 hF1 k l hN
    push Not at hN
    have hΓ' : ∀ (t : Fin (N + 1)) i j, 0 ≤ Γ t.castSucc i j := fun t => hΓ t.castSucc
    have e1 : (fun s : Fin (N + 1) → Fin M => F (Fin.snoc s l)) = fun s => F (Fin.snoc s k) := by
      funext s
      refine hF _ _ fun u hu => ?_
      induction u using Fin.lastCases with
      | last => simp at hu; omega
      | cast u => rw [Fin.snoc_castSucc, Fin.snoc_castSucc]
    rw [endPart_snoc, endPart_snoc, endPart_snoc, endPart_snoc, e1]
    have := contract (ρ := (1 - δ) ^ (N - r)) hδ0 hδ1 (a := a (Fin.last _))
      (c := fun i => Γ (Fin.last _) i k) (c' := fun i => Γ (Fin.last _) i l)
      (S := fun i => endPart γ (fun t => Γ t.castSucc) (fun t => ll t.castSucc) i fun s => F (Fin.snoc s k))
      (e := fun i => endPart γ (fun t => Γ t.castSucc) (fun t => ll t.castSucc) i fun _ => 1)
      (fun i => endPart_nonneg hγ hΓ' _ i fun s => hF0 _) (fun i => endPart_le hγ hΓ' _ i fun s => hF1 _)
      (fun i j => ih hΓ' (a := fun t => a t.castSucc) (fun t => hb t.castSucc) (fun t => ll t.castSucc)
        (fun s => hF0 _) (fun s => hF1 _) (fun s s' h => hF _ _ fun u hu => ?_) j i)
      (fun i => hb _ i k) (fun i => hb _ i l) (fun i => hΓ _ i k) (fun i => hΓ _ i l)
    · have e2 : N + 1 - r = (N - r) + 1 := by omega
      rw [e2, pow_succ, mul_comm ((1 - δ) ^ (N - r))]
      have h := mul_le_mul_of_nonneg_left this
        (mul_nonneg (lik_nonneg (ll (Fin.last _) k)) (lik_nonneg (ll (Fin.last _) l)))
      linarith
    · induction u using Fin.lastCases with
      | last => rw [Fin.snoc_last, Fin.snoc_last]
      | cast u =>
        rw [Fin.snoc_castSucc, Fin.snoc_castSucc]
        exact h u (by simpa using hu)

/-- The states up to time `r` hardly depend on weights given to the last state. -/
theorem forget_end' {δ : ℝ} (hδ0 : 0 ≤ δ) (hδ1 : δ ≤ 1) {γ : Fin M → ℝ} (hγ : ∀ k, 0 ≤ γ k) (r : ℕ)
    {Γ : Fin (N + 1) → Matrix (Fin M) (Fin M) ℝ} {a : Fin (N + 1) → Fin M → ℝ}
    (hΓ : ∀ t i j, 0 ≤ Γ t i j) (hb : ∀ t i j, δ * a t i ≤ Γ t i j ∧ Γ t i j ≤ a t i)
    (ll : Fin (N + 1) → Fin M → WithBot ℝ)
    {F : (Fin (N + 1) → Fin M) → ℝ} (hF0 : ∀ s, 0 ≤ F s) (hF1 : ∀ s, F s ≤ 1)
    (hF : ∀ s s' : Fin (N + 1) → Fin M, (∀ u : Fin (N + 1), u.1 ≤ r → s u = s' u) → F s = F s')
    {h h' : Fin M → ℝ} (hh : ∀ k, 0 ≤ h k) (hh' : ∀ k, 0 ≤ h' k) :
    (∑ s, weight γ Γ ll s * h (s (Fin.last N)) * F s) * (∑ s, weight γ Γ ll s * h' (s (Fin.last N)) * 1) -
        (∑ s, weight γ Γ ll s * h' (s (Fin.last N)) * F s) * (∑ s, weight γ Γ ll s * h (s (Fin.last N)) * 1) ≤
      (1 - δ) ^ (N - r) * ((∑ s, weight γ Γ ll s * h (s (Fin.last N)) * 1) *
        ∑ s, weight γ Γ ll s * h' (s (Fin.last N)) * 1) := by
  rw [sum_endPart _ _ _ h F, sum_endPart _ _ _ h' F, sum_endPart _ _ _ h fun _ => 1,
    sum_endPart _ _ _ h' fun _ => 1]
  exact mix_le hh hh' fun k l => forget_end hδ0 hδ1 hγ r hΓ hb ll hF0 hF1 hF k l

end Verif.FFBS
