import Verif.FFBS.Maps

/-!
# C77: the hidden states do not depend on how the model is written down
-/

open Matrix
open scoped ENNReal

namespace Verif.FFBS

variable {M M' N : ℕ}

theorem pushv_equiv (e : Fin M ≃ Fin M') (γ : Fin M → ℝ) : pushv e γ = fun k' => γ (e.symm k') := by
  funext k'
  unfold pushv
  rw [Finset.sum_filter, Finset.sum_eq_single (e.symm k')]
  · simp
  · intro b _ hb
    rw [if_neg]
    rintro rfl
    simp at hb
  · simp

/-- **C77, merged states.** `p` sends the states of a finer model to the states of a coarser one that
describes the same process: the initial weights of states with the same image add up, so do the
transition weights into them, whatever state with the same image the transition starts from, and they
have the same log-likelihoods.  Then the sequences drawn with the coarser model are the images of those
drawn with the finer one: the laws agree. -/
theorem C77_ffbs_merge (p : Fin M → Fin M') {γ : Fin M → ℝ} (hγ : ∀ k, 0 ≤ γ k) {γ' : Fin M' → ℝ}
    (h0 : ∀ k', ∑ k with p k = k', γ k = γ' k') {Γ : Fin (N + 1) → Matrix (Fin M) (Fin M) ℝ}
    {Γ' : Fin (N + 1) → Matrix (Fin M') (Fin M') ℝ} (hΓ : ∀ t i j, 0 ≤ Γ t i j)
    (hΓ' : ∀ t i j, 0 ≤ Γ' t i j) (hG : ∀ t i j', ∑ j with p j = j', Γ t i j = Γ' t (p i) j')
    (ll' : Fin (N + 1) → Fin M' → WithBot ℝ) (lb lb' : ℝ) :
    ffbsStep γ' (List.ofFn Γ') (List.ofFn ll') lb' =
      (ffbsStep γ (List.ofFn Γ) (List.ofFn fun t k => ll' t (p k)) lb).map (Option.map (List.map p)) := by
  refine ffbs_map hγ (fun k' => ?_) hΓ hΓ' _ _ _ _ (fun s => p ∘ s) (List.map p)
    (fun s => by rw [List.map_ofFn]) one_pos fun s' => ?_
  · rw [← h0]
    exact Finset.sum_nonneg fun k _ => hγ k
  · rw [one_mul, ← show pushv p γ = γ' from funext h0]
    exact weight_merge p γ hG (fun _ _ => rfl) s'

/-- Two of three states behave alike: their merged model has two states. -/
example : ∃ (p : Fin 3 → Fin 2) (γ : Fin 3 → ℝ) (γ' : Fin 2 → ℝ) (G : Matrix (Fin 3) (Fin 3) ℝ)
    (G' : Matrix (Fin 2) (Fin 2) ℝ), (∀ k, 0 ≤ γ k) ∧ (∀ k', ∑ k with p k = k', γ k = γ' k') ∧
      (∀ i j, 0 ≤ G i j) ∧ (∀ i j, 0 ≤ G' i j) ∧ (∀ i j', ∑ j with p j = j', G i j = G' (p i) j') ∧
      G 1 ≠ G 2 := by
  have e2 : ∀ {A : Type} (x y z : A), ![x, y, z] 2 = z := fun _ _ _ => rfl
  refine ⟨![0, 1, 1], ![1, 2, 3], ![1, 5], !![1, 2, 3; 2, 1, 3; 2, 2, 2], !![1, 5; 2, 4], ?_, ?_, ?_, ?_, ?_, ?_⟩
  · intro k; fin_cases k <;> simp
  · intro k; fin_cases k <;> norm_num [Finset.sum_filter, Fin.sum_univ_three, e2]
  · intro i j; fin_cases i <;> fin_cases j <;> simp
  · intro i j; fin_cases i <;> fin_cases j <;> simp
  · intro i j; fin_cases i <;> fin_cases j <;> norm_num [Finset.sum_filter, Fin.sum_univ_three, e2]
  · intro h
    have h' : (1 : ℝ) = 2 := congrFun h 1
    norm_num at h'

/-- **C77, renamed states.** Renaming the hidden states renames the drawn states. -/
theorem C77_ffbs_relabel (e : Fin M ≃ Fin M') {γ : Fin M → ℝ} (hγ : ∀ k, 0 ≤ γ k)
    {Γ : Fin (N + 1) → Matrix (Fin M) (Fin M) ℝ} (hΓ : ∀ t i j, 0 ≤ Γ t i j)
    (ll : Fin (N + 1) → Fin M → WithBot ℝ) (lb lb' : ℝ) :
    ffbsStep (fun k => γ (e.symm k)) (List.ofFn fun t => (Γ t).submatrix e.symm e.symm)
        (List.ofFn fun t k => ll t (e.symm k)) lb' =
      (ffbsStep γ (List.ofFn Γ) (List.ofFn ll) lb).map (Option.map (List.map e)) := by
  have h := C77_ffbs_merge (N := N) e hγ (γ' := fun k => γ (e.symm k))
    (fun k' => congrFun (pushv_equiv e γ) k') (Γ := Γ)
    (Γ' := fun t => (Γ t).submatrix e.symm e.symm) hΓ (fun t i j => hΓ t _ _)
    (fun t i j' => by
      have := congrFun (pushv_equiv e (Γ t i)) j'
      simpa [pushv] using this) (fun t k => ll t (e.symm k)) lb lb'
  simpa using h

/-- Exchanging two states with different weights. -/
example : (∀ k, 0 ≤ (![1, 2] : Fin 2 → ℝ) k) ∧ (∀ i j, 0 ≤ (!![1, 3; 0, 1] : Matrix (Fin 2) (Fin 2) ℝ) i j) ∧
    (Equiv.swap 0 1 : Fin 2 ≃ Fin 2) ≠ Equiv.refl _ := by
  refine ⟨by intro k; fin_cases k <;> simp, by intro i j; fin_cases i <;> fin_cases j <;> simp, fun h => ?_⟩
  have := congrArg (fun e : Fin 2 ≃ Fin 2 => e 0) h
  simp at this

/-- **C77, missing observations.** When the observation at time point `t`, not the last, says nothing
(all its log-likelihoods are equal), the other states are drawn as if the time point were left out and
the two transitions around it were one: the law of the drawn sequence without entry `t`. -/
theorem C77_ffbs_missing {γ : Fin M → ℝ} (hγ : ∀ k, 0 ≤ γ k)
    {Γ : Fin (N + 2) → Matrix (Fin M) (Fin M) ℝ} (hΓ : ∀ t i j, 0 ≤ Γ t i j)
    (ll : Fin (N + 2) → Fin M → WithBot ℝ) (lb lb' : ℝ) (t : Fin (N + 1)) {d : ℝ}
    (hd : ∀ k, ll t.castSucc k = (d : WithBot ℝ)) {Γ' : Fin (N + 1) → Matrix (Fin M) (Fin M) ℝ}
    (h1 : ∀ u : Fin (N + 1), u < t → Γ' u = Γ u.castSucc) (h2 : Γ' t = Γ t.castSucc * Γ t.succ)
    (h3 : ∀ u : Fin (N + 1), t < u → Γ' u = Γ u.succ) :
    ffbsStep γ (List.ofFn Γ') ((List.ofFn ll).eraseIdx t) lb' =
      (ffbsStep γ (List.ofFn Γ) (List.ofFn ll) lb).map (Option.map fun l => l.eraseIdx t) := by
  have hΓ' : Γ' = skipΓ Γ t := by
    funext u
    unfold skipΓ
    rcases lt_trichotomy u t with h | rfl | h
    · rw [Function.update_of_ne h.ne, h1 u h, Fin.succAbove_of_castSucc_lt _ _ (by simpa using h)]
    · rw [Function.update_self, h2]
    · rw [Function.update_of_ne h.ne', h3 u h, Fin.succAbove_of_lt_succ _ _ (by
        rw [Fin.lt_def] at h ⊢
        simp
        omega)]
  have hof : ∀ {A : Type} (f : Fin (N + 2) → A),
      (List.ofFn f).eraseIdx t = List.ofFn fun u => f (t.castSucc.succAbove u) := by
    intro A f
    refine List.ext_getElem ?_ fun i h h' => ?_
    · rw [List.length_eraseIdx_of_lt (by simp)]
      simp
    · rw [List.getElem_eraseIdx]
      simp only [List.getElem_ofFn]
      split_ifs with hi
      · congr 1
        rw [Fin.succAbove_of_castSucc_lt _ _ (by rw [Fin.lt_def]; simpa using hi)]
        rfl
      · congr 1
        rw [Fin.succAbove_of_lt_succ _ _ (by rw [Fin.lt_def]; simp; omega)]
        rfl
  rw [hΓ', hof]
  refine ffbs_map hγ hγ hΓ ?_ _ _ _ _ (fun s u => s (t.castSucc.succAbove u)) _ (fun s => hof s)
    (Real.exp_pos d) fun s' => ?_
  · intro u i j
    rw [← hΓ']
    rcases lt_trichotomy u t with h | rfl | h
    · rw [h1 u h]; exact hΓ _ _ _
    · rw [h2, Matrix.mul_apply]
      exact Finset.sum_nonneg fun k _ => mul_nonneg (hΓ _ _ _) (hΓ _ _ _)
    · rw [h3 u h]; exact hΓ _ _ _
  · rw [← weight_missing γ Γ ll t hd s']
    symm
    refine Finset.sum_bij (fun x _ => t.castSucc.insertNth (α := fun _ => Fin M) x s') (fun x _ => ?_)
      (fun x _ y _ h => ?_) (fun s hs => ?_) fun x _ => rfl
    · simp
    · simpa using congrFun h t.castSucc
    · refine ⟨s t.castSucc, Finset.mem_univ _, ?_⟩
      rw [← (Finset.mem_filter.1 hs).2]
      exact Fin.insertNth_self_removeNth t.castSucc s

/-- The first of three observations of a chain with an impossible transition is missing. -/
example : ∃ (ll : Fin 3 → Fin 2 → WithBot ℝ) (Γ' : Fin 2 → Matrix (Fin 2) (Fin 2) ℝ),
    (∀ k, ll (Fin.castSucc 0) k = ((0 : ℝ) : WithBot ℝ)) ∧ ll 1 0 ≠ ll 1 1 ∧
      Γ' 0 = !![1, 1; 0, 1] * !![1, 1; 0, 1] ∧ ∀ u : Fin 2, 0 < u → Γ' u = !![1, 1; 0, 1] :=
  ⟨fun t k => if t = 0 then ((0 : ℝ) : WithBot ℝ) else ((k : ℕ) : ℝ), fun u => if u = 0 then _ else !![1, 1; 0, 1],
    by simp, by simp, by simp; rfl, fun u hu => by simp [hu.ne']⟩

/-- **C77, no last observation.** When the last observation says nothing and the last transition matrix
has rows that add up to one, the states before are drawn as without the last time point. -/
theorem C77_ffbs_forecast {γ : Fin M → ℝ} (hγ : ∀ k, 0 ≤ γ k)
    {Γ : Fin (N + 2) → Matrix (Fin M) (Fin M) ℝ} (hΓ : ∀ t i j, 0 ≤ Γ t i j)
    (hG : ∀ i, ∑ j, Γ (Fin.last (N + 1)) i j = 1)
    (ll : Fin (N + 2) → Fin M → WithBot ℝ) (lb lb' : ℝ) {d : ℝ}
    (hd : ∀ k, ll (Fin.last (N + 1)) k = (d : WithBot ℝ)) :
    ffbsStep γ (List.ofFn Γ).dropLast (List.ofFn ll).dropLast lb' =
      (ffbsStep γ (List.ofFn Γ) (List.ofFn ll) lb).map (Option.map List.dropLast) := by
  have hof : ∀ {A : Type} (f : Fin (N + 2) → A), (List.ofFn f).dropLast = List.ofFn fun u => f u.castSucc := by
    intro A f
    rw [List.ofFn_succ_last, List.dropLast_concat]
  rw [hof, hof]
  refine ffbs_map hγ hγ hΓ (fun t => hΓ _) _ _ _ _ (fun s u => s u.castSucc) _ (fun s => hof s)
    (Real.exp_pos d) fun s' => ?_
  rw [← weight_last γ Γ ll hG hd s']
  symm
  refine Finset.sum_bij (fun x _ => Fin.snoc (α := fun _ => Fin M) s' x) (fun x _ => ?_)
    (fun x _ y _ h => ?_) (fun s hs => ?_) fun x _ => rfl
  · simp
  · simpa using congrFun h (Fin.last _)
  · refine ⟨s (Fin.last _), Finset.mem_univ _, ?_⟩
    rw [← (Finset.mem_filter.1 hs).2]
    exact Fin.snoc_init_self s

/-- A forecast of the third state of a chain with an impossible transition. -/
example : ∃ (Γ : Fin 3 → Matrix (Fin 2) (Fin 2) ℝ) (ll : Fin 3 → Fin 2 → WithBot ℝ), (∀ t i j, 0 ≤ Γ t i j) ∧
    (∀ i, ∑ j, Γ (Fin.last 2) i j = 1) ∧ (∀ k, ll (Fin.last 2) k = ((0 : ℝ) : WithBot ℝ)) ∧ ll 1 0 = ⊥ := by
  refine ⟨fun _ => !![1, 0; 1 / 3, 2 / 3],
    fun t k => if t = Fin.last 2 then ((0 : ℝ) : WithBot ℝ) else if k = 0 then ⊥ else ((2 : ℝ) : WithBot ℝ),
    fun _ i j => ?_, fun i => ?_, fun k => if_pos rfl, ?_⟩
  · fin_cases i <;> fin_cases j <;> norm_num
  · fin_cases i <;> norm_num [Fin.sum_univ_two]
  · exact (if_neg (by decide)).trans (if_pos rfl)

/-- **C77, reversed time.** For a chain in equilibrium that looks the same in both directions of time
(detailed balance), the states drawn for the reversed data are the reversed states drawn for the data. -/
theorem C77_ffbs_reverse {γ : Fin M → ℝ} (hγ : ∀ k, 0 ≤ γ k) {G : Matrix (Fin M) (Fin M) ℝ}
    (hG : ∀ i j, 0 ≤ G i j) (h1 : ∀ i, ∑ j, G i j = 1) (hdb : ∀ i j, γ i * G i j = γ j * G j i)
    (ll : Fin (N + 1) → Fin M → WithBot ℝ) (lb lb' : ℝ) :
    ffbsStep γ [G] (List.ofFn ll).reverse lb' =
      (ffbsStep γ [G] (List.ofFn ll) lb).map (Option.map List.reverse) := by
  have hof : ∀ {A : Type} (f : Fin (N + 1) → A), (List.ofFn f).reverse = List.ofFn fun u => f u.rev := by
    intro A f
    refine List.ext_getElem (by simp) fun i h h' => ?_
    rw [List.getElem_reverse]
    simp only [List.getElem_ofFn]
    congr 1
    ext
    simp [Fin.rev]
  rw [hof, C33_ffbs_broadcast, C33_ffbs_broadcast]
  refine ffbs_map hγ hγ (fun _ => hG) (fun _ => hG) _ _ _ _ (fun s u => s u.rev) _ (fun s => hof s)
    one_pos fun s' => ?_
  rw [one_mul, Finset.sum_eq_single (fun u => s' u.rev)]
  · have := weight_rev hdb h1 (fun t => ll t.rev) s'
    simpa using this
  · intro s hs hne
    exact absurd (by rw [← (Finset.mem_filter.1 hs).2]; simp) hne
  · intro h
    exact absurd (Finset.mem_filter.2 ⟨Finset.mem_univ _, by simp⟩) h

/-- A two-state chain in equilibrium. -/
example : ∃ (γ : Fin 2 → ℝ) (G : Matrix (Fin 2) (Fin 2) ℝ), (∀ k, 0 < γ k) ∧ (∀ i j, 0 ≤ G i j) ∧
    (∀ i, ∑ j, G i j = 1) ∧ (∀ i j, γ i * G i j = γ j * G j i) ∧ γ 0 ≠ γ 1 := by
  refine ⟨![1, 2], !![1 / 3, 2 / 3; 1 / 3, 2 / 3], ?_, ?_, ?_, ?_, by norm_num⟩
  · intro k; fin_cases k <;> simp
  · intro i j; fin_cases i <;> fin_cases j <;> norm_num
  · intro i; fin_cases i <;> norm_num [Fin.sum_univ_two]
  · intro i j; fin_cases i <;> fin_cases j <;> norm_num

end Verif.FFBS
