import Verif.FFBS.Props

/-!
# Helper lemmas for C77: images of hidden state sequences
-/

open Matrix
open scoped ENNReal

namespace Verif.FFBS

variable {M M' N N' : ℕ}

/-- When the weights of one input are the image, up to a constant, of the weights of another, the drawn
sequences are the image of those drawn. -/
theorem ffbs_map {γ : Fin M → ℝ} {γ' : Fin M' → ℝ} (hγ : ∀ k, 0 ≤ γ k) (hγ' : ∀ k, 0 ≤ γ' k)
    {Γ : Fin (N + 1) → Matrix (Fin M) (Fin M) ℝ} {Γ' : Fin (N' + 1) → Matrix (Fin M') (Fin M') ℝ}
    (hΓ : ∀ t i j, 0 ≤ Γ t i j) (hΓ' : ∀ t i j, 0 ≤ Γ' t i j) (ll : Fin (N + 1) → Fin M → WithBot ℝ)
    (ll' : Fin (N' + 1) → Fin M' → WithBot ℝ) (lb lb' : ℝ)
    (f : (Fin (N + 1) → Fin M) → Fin (N' + 1) → Fin M') (F : List (Fin M) → List (Fin M'))
    (hF : ∀ s, F (List.ofFn s) = List.ofFn (f s)) {c : ℝ} (hc : 0 < c)
    (h : ∀ s', ∑ s with f s = s', weight γ Γ ll s = c * weight γ' Γ' ll' s') :
    ffbsStep γ' (List.ofFn Γ') (List.ofFn ll') lb' =
      (ffbsStep γ (List.ofFn Γ) (List.ofFn ll) lb).map (Option.map F) := by
  classical
  have hev : evidence γ Γ ll = c * evidence γ' Γ' ll' := by
    simp only [evidence, Finset.mul_sum, ← h]
    exact (Finset.sum_fiberwise _ f _).symm
  have hnn : 0 ≤ evidence γ' Γ' ll' := Finset.sum_nonneg fun s _ => weight_nonneg hγ' hΓ' ll' s
  rcases hnn.eq_or_lt with h0 | hpos'
  · rw [(ffbs_law hγ hΓ ll lb).1 (by rw [hev, ← h0, mul_zero]), (ffbs_law hγ' hΓ' ll' lb').1 h0.symm,
      PMF.pure_map]
    rfl
  have hpos : 0 < evidence γ Γ ll := by rw [hev]; positivity
  have hinj : Function.Injective fun s : Fin (N + 1) → Fin M => some (List.ofFn s) :=
    fun s s' h => List.ofFn_injective (Option.some.inj h)
  refine PMF.ext fun o => ?_
  rw [PMF.map_apply, tsum_eq_sum (s := Finset.univ.image fun s : Fin (N + 1) → Fin M => some (List.ofFn s)),
    Finset.sum_image fun a _ b _ h => hinj h]
  · simp only [C33_ffbs_smoothing hγ hΓ ll lb hpos, Option.map_some, hF]
    by_cases ho : ∃ s : Fin (N' + 1) → Fin M', o = some (List.ofFn s)
    · obtain ⟨s', rfl⟩ := ho
      rw [C33_ffbs_smoothing hγ' hΓ' ll' lb' hpos']
      have h1 : ∀ s, (some (List.ofFn s') = some (List.ofFn (f s))) ↔ f s = s' := fun s =>
        ⟨fun h => (List.ofFn_injective (Option.some.inj h)).symm, fun h => by rw [h]⟩
      simp only [h1]
      rw [← Finset.sum_filter, ← ENNReal.ofReal_sum_of_nonneg fun s _ => smoothing_nonneg hγ hΓ ll hpos s]
      simp only [smoothing]
      rw [← Finset.sum_div, h, hev, mul_div_mul_left _ _ hc.ne']
    · push Not at ho
      rw [ffbs_other hγ' hΓ' ll' lb' hpos' ho]
      symm
      exact Finset.sum_eq_zero fun s _ => if_neg (ho _)
  · intro o' ho'
    rw [ffbs_other hγ hΓ ll lb hpos fun s hs => ho' (Finset.mem_image.2 ⟨s, Finset.mem_univ _, hs.symm⟩)]
    simp

/-- The weight from a known initial state. -/
theorem weight_single (Γ : Fin (N + 1) → Matrix (Fin M) (Fin M) ℝ)
    (ll : Fin (N + 1) → Fin M → WithBot ℝ) (s : Fin (N + 1) → Fin M) :
    weight (Pi.single (s 0) 1) (fun t => Γ t.succ) (fun t => ll t.succ) (fun t : Fin N => s t.succ) =
      ∏ t : Fin N, (Γ t.succ (s t.castSucc) (s t.succ) * lik (ll t.succ (s t.succ))) := by
  unfold weight
  rw [Finset.sum_eq_single (s 0)]
  · rw [Pi.single_eq_same, one_mul]
    refine Finset.prod_congr rfl fun t _ => ?_
    have : (Fin.cons (s 0) fun t : Fin N => s t.succ : Fin (N + 1) → Fin M) = s := Fin.cons_self_tail s
    rw [this]
  · intro b _ hb
    rw [Pi.single_eq_of_ne hb, zero_mul]
  · simp

/-- The weight of a sequence from its first state on. -/
theorem weight_cons (γ : Fin M → ℝ) (Γ : Fin (N + 1) → Matrix (Fin M) (Fin M) ℝ)
    (ll : Fin (N + 1) → Fin M → WithBot ℝ) (s : Fin (N + 1) → Fin M) :
    weight γ Γ ll s = (γ ᵥ* Γ 0) (s 0) * lik (ll 0 (s 0)) *
      weight (Pi.single (s 0) 1) (fun t => Γ t.succ) (fun t => ll t.succ) (fun t => s t.succ) := by
  rw [weight_single]
  unfold weight
  simp only [Fin.prod_univ_succ, Matrix.vecMul, dotProduct, Finset.sum_mul]
  refine Finset.sum_congr rfl fun s₀ _ => ?_
  have h2 : ∀ t : Fin N, (Fin.cons s₀ s : Fin (N + 2) → Fin M) t.succ.castSucc = s t.castSucc := fun t => by
    rw [Fin.castSucc_succ]; rfl
  simp only [h2]
  have h3 : (Fin.cons s₀ s : Fin (N + 2) → Fin M) (Fin.castSucc 0) = s₀ := rfl
  rw [h3]
  ring

/-! ## Merged states -/

/-- The image of weights under a map of states. -/
def pushv (p : Fin M → Fin M') (γ : Fin M → ℝ) (k' : Fin M') : ℝ := ∑ k with p k = k', γ k

theorem pushv_single (p : Fin M → Fin M') (k : Fin M) : pushv p (Pi.single k 1) = Pi.single (p k) 1 := by
  funext k'
  unfold pushv
  rw [Finset.sum_filter]
  by_cases h : p k = k'
  · subst h
    rw [Pi.single_eq_same, Finset.sum_eq_single k]
    · simp
    · intro b _ hb
      simp [Pi.single_eq_of_ne hb]
    · simp
  · rw [Pi.single_eq_of_ne (Ne.symm h)]
    refine Finset.sum_eq_zero fun b _ => ?_
    split_ifs with hb
    · rw [Pi.single_eq_of_ne]
      rintro rfl
      exact h hb
    · rfl

theorem pushv_vecMul (p : Fin M → Fin M') (γ : Fin M → ℝ) {G : Matrix (Fin M) (Fin M) ℝ}
    {G' : Matrix (Fin M') (Fin M') ℝ} (h : ∀ i j', ∑ j with p j = j', G i j = G' (p i) j') (j' : Fin M') :
    (pushv p γ ᵥ* G') j' = ∑ j with p j = j', (γ ᵥ* G) j := by
  simp only [Matrix.vecMul, dotProduct, pushv]
  rw [Finset.sum_comm]
  simp only [← Finset.mul_sum, h, Finset.sum_mul]
  rw [← Finset.sum_fiberwise _ p]
  refine Finset.sum_congr rfl fun k' _ => Finset.sum_congr rfl fun k hk => ?_
  rw [(Finset.mem_filter.1 hk).2]

theorem weight_merge (p : Fin M → Fin M') : ∀ {N : ℕ} (γ : Fin M → ℝ)
    {Γ : Fin N → Matrix (Fin M) (Fin M) ℝ} {Γ' : Fin N → Matrix (Fin M') (Fin M') ℝ}
    {ll : Fin N → Fin M → WithBot ℝ} {ll' : Fin N → Fin M' → WithBot ℝ}
    (_ : ∀ t i j', ∑ j with p j = j', Γ t i j = Γ' t (p i) j') (_ : ∀ t k, ll t k = ll' t (p k))
    (s' : Fin N → Fin M'), ∑ s with p ∘ s = s', weight γ Γ ll s = weight (pushv p γ) Γ' ll' s'
  | 0, γ, Γ, Γ', ll, ll', _, _, s' => by
    have : ∀ s : Fin 0 → Fin M, p ∘ s = s' := fun s => Subsingleton.elim _ _
    simp only [this, Finset.filter_true, weight, Finset.univ_eq_empty, Finset.prod_empty, mul_one]
    simp only [pushv, Finset.sum_fiberwise]
    simp
  | N + 1, γ, Γ, Γ', ll, ll', hΓ, hl, s' => by
    rw [weight_cons, pushv_vecMul p γ (hΓ 0), Finset.sum_mul, Finset.sum_mul, Finset.sum_filter,
      ← (Fin.consEquiv fun _ : Fin (N + 1) => Fin M).sum_comp, Fintype.sum_prod_type, Finset.sum_filter]
    refine Finset.sum_congr rfl fun k _ => ?_
    have h1 : ∀ s : Fin N → Fin M, (p ∘ (Fin.cons k s : Fin (N + 1) → Fin M) = s') ↔
        (p k = s' 0 ∧ p ∘ s = fun t => s' t.succ) := by
      intro s
      constructor
      · rintro rfl
        exact ⟨rfl, rfl⟩
      · rintro ⟨h, h'⟩
        funext t
        cases t using Fin.cases with
        | zero => exact h
        | succ t => exact congrFun h' t
    split_ifs with hk
    · rw [← hk, ← pushv_single, ← weight_merge p (Pi.single k 1) (fun t => hΓ t.succ) (fun t => hl t.succ),
        Finset.mul_sum, Finset.sum_filter]
      refine Finset.sum_congr rfl fun s _ => ?_
      change (if p ∘ (Fin.cons k s : Fin (N + 1) → Fin M) = s' then _ else _) = _
      rw [if_congr (h1 s) rfl rfl]
      split_ifs with h2 h3 h3
      · change weight γ Γ ll (Fin.cons k s : Fin (N + 1) → Fin M) = _
        rw [weight_cons, hl]
        rfl
      · exact absurd h2.2 h3
      · exact absurd ⟨hk, h3⟩ h2
      · rfl
    · refine Finset.sum_eq_zero fun s _ => if_neg fun h => hk ((h1 s).1 h).1

/-! ## Missing observations -/

theorem weight_mix {ι : Type*} (A : Finset ι) (a : ι → ℝ) (g : ι → Fin M → ℝ)
    (Γ : Fin N → Matrix (Fin M) (Fin M) ℝ) (ll : Fin N → Fin M → WithBot ℝ) (s : Fin N → Fin M) :
    ∑ x ∈ A, a x * weight (g x) Γ ll s = weight (fun k => ∑ x ∈ A, a x * g x k) Γ ll s := by
  unfold weight
  simp only [Finset.mul_sum, Finset.sum_mul]
  rw [Finset.sum_comm]
  refine Finset.sum_congr rfl fun k _ => Finset.sum_congr rfl fun x _ => by ring

theorem weight_vecMul (γ : Fin M → ℝ) (G : Matrix (Fin M) (Fin M) ℝ)
    (Γ : Fin (N + 1) → Matrix (Fin M) (Fin M) ℝ) (ll : Fin (N + 1) → Fin M → WithBot ℝ)
    (s : Fin (N + 1) → Fin M) :
    weight (γ ᵥ* G) Γ ll s = weight γ (Function.update Γ 0 (G * Γ 0)) ll s := by
  rw [weight_cons, weight_cons, Function.update_self, Matrix.vecMul_vecMul]
  congr 1

/-- The transitions when time point `t` is left out. -/
def skipΓ (Γ : Fin (N + 2) → Matrix (Fin M) (Fin M) ℝ) (t : Fin (N + 1)) :
    Fin (N + 1) → Matrix (Fin M) (Fin M) ℝ :=
  Function.update (fun u => Γ (t.castSucc.succAbove u)) t (Γ t.castSucc * Γ t.succ)

theorem weight_missing_zero {d : ℝ} (γ : Fin M → ℝ) (Γ : Fin (N + 2) → Matrix (Fin M) (Fin M) ℝ)
    (ll : Fin (N + 2) → Fin M → WithBot ℝ) (hd : ∀ k, ll 0 k = (d : WithBot ℝ))
    (s : Fin (N + 1) → Fin M) :
    ∑ x, weight γ Γ ll (Fin.cons x s) =
      Real.exp d * weight γ (skipΓ Γ 0) (fun u => ll u.succ) s := by
  have h1 : ∀ x, weight γ Γ ll (Fin.cons x s : Fin (N + 2) → Fin M) =
      Real.exp d * ((γ ᵥ* Γ 0) x * weight (Pi.single x 1) (fun t => Γ t.succ) (fun t => ll t.succ) s) := by
    intro x
    rw [weight_cons]
    simp only [Fin.cons_zero, Fin.cons_succ, hd, lik]
    ring
  simp only [h1]
  rw [← Finset.mul_sum, weight_mix]
  congr 1
  have h2 : (fun k => ∑ x, (γ ᵥ* Γ 0) x * (Pi.single x 1 : Fin M → ℝ) k) = γ ᵥ* Γ 0 := by
    funext k
    rw [Finset.sum_eq_single k]
    · simp
    · intro b _ hb
      rw [Pi.single_eq_of_ne hb.symm, mul_zero]
    · simp
  rw [h2, weight_vecMul]
  rfl

theorem weight_missing {d : ℝ} : ∀ {N : ℕ} (γ : Fin M → ℝ) (Γ : Fin (N + 2) → Matrix (Fin M) (Fin M) ℝ)
    (ll : Fin (N + 2) → Fin M → WithBot ℝ) (t : Fin (N + 1)) (_ : ∀ k, ll t.castSucc k = (d : WithBot ℝ))
    (s : Fin (N + 1) → Fin M),
    ∑ x, weight γ Γ ll (t.castSucc.insertNth (α := fun _ => Fin M) x s) =
      Real.exp d * weight γ (skipΓ Γ t) (fun u => ll (t.castSucc.succAbove u)) s := by
  intro N
  induction N with
  | zero =>
    intro γ Γ ll t hd s
    obtain rfl : t = 0 := Fin.ext (by omega)
    have := weight_missing_zero γ Γ ll hd s
    simpa [Fin.insertNth_zero'] using this
  | succ N ih =>
    intro γ Γ ll t hd s
    cases t using Fin.cases with
    | zero =>
      have := weight_missing_zero γ Γ ll hd s
      simpa [Fin.insertNth_zero'] using this
    | succ t =>
      have h1 : ∀ x, (t.succ.castSucc.insertNth (α := fun _ => Fin M) x s) =
          Fin.cons (s 0) (t.castSucc.insertNth (α := fun _ => Fin M) x fun u => s u.succ) := by
        intro x
        rw [Fin.castSucc_succ]
        funext u
        cases u using Fin.cases with
        | zero =>
          rw [Fin.cons_zero, show (0 : Fin (N + 3)) = t.castSucc.succ.succAbove 0 by simp,
            Fin.insertNth_apply_succAbove]
        | succ u =>
          rw [Fin.cons_succ]
          rcases eq_or_ne u t.castSucc with rfl | hu
          · rw [Fin.insertNth_apply_same, Fin.insertNth_apply_same]
          · obtain ⟨v, rfl⟩ := Fin.exists_succAbove_eq hu
            rw [Fin.insertNth_apply_succAbove, ← Fin.succ_succAbove_succ, Fin.insertNth_apply_succAbove]
      simp only [h1]
      have h2 := ih (Pi.single (s 0) 1) (fun u => Γ u.succ) (fun u => ll u.succ) t
        (by simpa [Fin.castSucc_succ] using hd) (fun u => s u.succ)
      have h3 : ∀ x, weight γ Γ ll (Fin.cons (s 0)
          (t.castSucc.insertNth (α := fun _ => Fin M) x fun u => s u.succ) : Fin (N + 3) → Fin M) =
          (γ ᵥ* Γ 0) (s 0) * lik (ll 0 (s 0)) * weight (Pi.single (s 0) 1) (fun u => Γ u.succ)
            (fun u => ll u.succ) (t.castSucc.insertNth (α := fun _ => Fin M) x fun u => s u.succ) := by
        intro x
        rw [weight_cons]
        simp only [Fin.cons_zero, Fin.cons_succ]
      simp only [h3]
      rw [← Finset.mul_sum, h2, weight_cons γ (skipΓ Γ t.succ)]
      have h4 : skipΓ Γ t.succ 0 = Γ 0 := by
        simp [skipΓ, Function.update_of_ne (Fin.succ_ne_zero t).symm, Fin.castSucc_succ]
      have h5 : (fun u => skipΓ Γ t.succ u.succ) = skipΓ (fun u => Γ u.succ) t := by
        funext u
        unfold skipΓ
        rcases eq_or_ne u t with rfl | hu
        · simp [Fin.castSucc_succ]
        · rw [Function.update_of_ne (fun h => hu (Fin.succ_injective _ h)), Function.update_of_ne hu,
            Fin.castSucc_succ, Fin.succ_succAbove_succ]
      rw [h4, h5]
      simp only [Fin.castSucc_succ, Fin.succ_succAbove_succ, Fin.succ_succAbove_zero]
      ring

theorem weight_last {d : ℝ} : ∀ {N : ℕ} (γ : Fin M → ℝ) (Γ : Fin (N + 1) → Matrix (Fin M) (Fin M) ℝ)
    (ll : Fin (N + 1) → Fin M → WithBot ℝ) (_ : ∀ i, ∑ j, Γ (Fin.last N) i j = 1)
    (_ : ∀ k, ll (Fin.last N) k = (d : WithBot ℝ)) (s : Fin N → Fin M),
    ∑ x, weight γ Γ ll (Fin.snoc (α := fun _ => Fin M) s x) =
      Real.exp d * weight γ (fun t => Γ t.castSucc) (fun t => ll t.castSucc) s := by
  intro N
  induction N with
  | zero =>
    intro γ Γ ll hG hd s
    simp only [weight_cons]
    have h0 : ∀ x, (Fin.snoc (α := fun _ => Fin M) s x : Fin 1 → Fin M) 0 = x := fun x => rfl
    have hd' : ∀ x, ll 0 x = (d : WithBot ℝ) := hd
    have hG' : ∀ i, ∑ j, Γ 0 i j = 1 := hG
    simp only [h0, hd', lik]
    have h1 : ∀ x : Fin M, weight (Pi.single x 1) (fun t : Fin 0 => Γ t.succ) (fun t => ll t.succ)
        (fun t : Fin 0 => (Fin.snoc (α := fun _ => Fin M) s x : Fin 1 → Fin M) t.succ) = 1 := by
      intro x
      simp [weight]
    simp only [h1, mul_one, ← Finset.sum_mul]
    rw [mul_comm]
    congr 1
    simp only [Matrix.vecMul, dotProduct]
    rw [Finset.sum_comm]
    simp only [← Finset.mul_sum, hG', weight, Finset.univ_eq_empty, Finset.prod_empty]
  | succ N ih =>
    intro γ Γ ll hG hd s
    have h1 : ∀ x, (Fin.snoc (α := fun _ => Fin M) s x : Fin (N + 2) → Fin M) =
        Fin.cons (s 0) (Fin.snoc (α := fun _ => Fin M) (fun t => s t.succ) x) := by
      intro x
      rw [Fin.cons_snoc_eq_snoc_cons, show (Fin.cons (s 0) fun t : Fin N => s t.succ : Fin (N + 1) → Fin M) = s
        from Fin.cons_self_tail s]
    have h2 := ih (Pi.single (s 0) 1) (fun u => Γ u.succ) (fun u => ll u.succ) hG hd (fun t => s t.succ)
    have h3 : ∀ x, weight γ Γ ll (Fin.snoc (α := fun _ => Fin M) s x) =
        (γ ᵥ* Γ 0) (s 0) * lik (ll 0 (s 0)) * weight (Pi.single (s 0) 1) (fun u => Γ u.succ)
          (fun u => ll u.succ) (Fin.snoc (α := fun _ => Fin M) (fun t => s t.succ) x) := by
      intro x
      rw [h1, weight_cons]
      simp only [Fin.cons_zero, Fin.cons_succ]
    simp only [h3]
    rw [← Finset.mul_sum, h2, weight_cons γ (fun t => Γ t.castSucc)]
    simp only [Fin.castSucc_succ, Fin.castSucc_zero]
    ring

/-! ## Reversed time -/

theorem chain_reverse {γ : Fin M → ℝ} {G : Matrix (Fin M) (Fin M) ℝ} (h : ∀ i j, γ i * G i j = γ j * G j i) :
    ∀ {N : ℕ} (s : Fin (N + 1) → Fin M), γ (s 0) * ∏ t : Fin N, G (s t.castSucc) (s t.succ) =
      γ (s (Fin.last N)) * ∏ t : Fin N, G (s t.succ) (s t.castSucc) := by
  intro N
  induction N with
  | zero => intro s; simp
  | succ N ih =>
    intro s
    have h1 := ih fun t => s t.succ
    rw [Fin.prod_univ_succ, Fin.prod_univ_succ, ← mul_assoc, Fin.castSucc_zero, h, mul_right_comm]
    have h2 : ∀ t : Fin N, s t.succ.castSucc = s t.castSucc.succ := fun t => by rw [Fin.castSucc_succ]
    simp only [h2]
    rw [show γ (s (Fin.succ 0)) * ∏ t : Fin N, G (s t.castSucc.succ) (s t.succ.succ) =
      γ (s (Fin.last N).succ) * ∏ t : Fin N, G (s t.succ.succ) (s t.castSucc.succ) from h1]
    rw [Fin.succ_last]
    ring

theorem weight_reversible {γ : Fin M → ℝ} {G : Matrix (Fin M) (Fin M) ℝ}
    (h : ∀ i j, γ i * G i j = γ j * G j i) (h1 : ∀ i, ∑ j, G i j = 1)
    (ll : Fin (N + 1) → Fin M → WithBot ℝ) (s : Fin (N + 1) → Fin M) :
    weight γ (fun _ => G) ll s =
      (γ (s 0) * ∏ t : Fin N, G (s t.castSucc) (s t.succ)) * ∏ t, lik (ll t (s t)) := by
  rw [weight_cons, weight_single (fun _ => G)]
  have h2 : γ ᵥ* G = γ := by
    funext j
    simp only [Matrix.vecMul, dotProduct, h, ← Finset.mul_sum, h1, mul_one]
  rw [h2, Finset.prod_mul_distrib, Fin.prod_univ_succ (fun t => lik (ll t (s t)))]
  ring

theorem weight_rev {γ : Fin M → ℝ} {G : Matrix (Fin M) (Fin M) ℝ}
    (h : ∀ i j, γ i * G i j = γ j * G j i) (h1 : ∀ i, ∑ j, G i j = 1)
    (ll : Fin (N + 1) → Fin M → WithBot ℝ) (s : Fin (N + 1) → Fin M) :
    weight γ (fun _ => G) (fun t => ll t.rev) (fun t => s t.rev) = weight γ (fun _ => G) ll s := by
  rw [weight_reversible h h1, weight_reversible h h1, chain_reverse h s]
  congr 1
  · rw [Fin.rev_zero]
    congr 1
    rw [← Equiv.prod_comp Fin.revPerm]
    refine Finset.prod_congr rfl fun t _ => ?_
    simp [Fin.rev_castSucc, Fin.rev_succ]
  · rw [← Equiv.prod_comp Fin.revPerm]
    simp

end Verif.FFBS
