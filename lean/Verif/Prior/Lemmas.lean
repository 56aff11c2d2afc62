import Verif.Prior.Spec
import Mathlib.Logic.Function.Iterate

/-!
# Helper lemmas for `get_rv_updates` and `sample_prior`
-/

namespace Verif.Prior

open Verif.Py Verif.Graph

theorem recorded_iff {l : List (Var × Var)} {v u : Var} :
    Recorded l v u ↔ (Dict.update [] l).get? v = some u := by
  have key : ∀ (l : List (Var × Var)) (d : Dict Var Var), (Dict.update d l).get? v = some u ↔
      Recorded l v u ∨ (d.get? v = some u ∧ ∀ w, (v, w) ∉ l) := by
    intro l
    induction l with
    | nil =>
      intro d
      simp [Dict.update, Recorded]
    | cons p l ih =>
      obtain ⟨a, b⟩ := p
      intro d
      rw [Dict.update, ih, Dict.get?_set]
      constructor
      · rintro (⟨l1, l2, rfl, h⟩ | ⟨h1, h2⟩)
        · exact Or.inl ⟨(a, b) :: l1, l2, rfl, h⟩
        · by_cases hav : a = v
          · subst hav
            rw [if_pos rfl] at h1
            cases h1
            exact Or.inl ⟨[], l, rfl, h2⟩
          · rw [if_neg hav] at h1
            refine Or.inr ⟨h1, fun w hw => ?_⟩
            rcases List.mem_cons.1 hw with hw | hw
            · cases hw
              exact hav rfl
            · exact h2 w hw
      · rintro (⟨l1, l2, he, h⟩ | ⟨h1, h2⟩)
        · rcases l1 with _ | ⟨q, l1⟩
          · simp only [List.nil_append, List.cons.injEq, Prod.mk.injEq] at he
            obtain ⟨⟨rfl, rfl⟩, rfl⟩ := he
            exact Or.inr ⟨if_pos rfl, h⟩
          · simp only [List.cons_append, List.cons.injEq] at he
            exact Or.inl ⟨l1, l2, he.2, h⟩
        · have hav : a ≠ v := fun hav => h2 b (by simp [hav])
          rw [if_neg hav]
          exact Or.inr ⟨h1, fun w hw => h2 w (List.mem_cons_of_mem _ hw)⟩
  rw [key]
  simp [Dict.get?]

theorem not_recorded_iff {l : List (Var × Var)} {v : Var} :
    (∀ u, ¬ Recorded l v u) ↔ (Dict.update [] l).get? v = none := by
  simp only [recorded_iff, Option.eq_none_iff_forall_ne_some]

/-- One step of the loop, in specification terms. -/
theorem updateStep_cases (a : Attrs) (l : List (Var × Var)) (acc : Dict Var Var) (v : Var) :
    (¬ Relevant a v ∧ updateStep a (Dict.update [] l) acc v = .ok acc) ∨
    (Relevant a v ∧ a.default v = none ∧
      updateStep a (Dict.update [] l) acc v = .error (.attributeError v)) ∨
    (Relevant a v ∧ Conflict a l v ∧
      updateStep a (Dict.update [] l) acc v = .error (.assertionError v)) ∨
    (Relevant a v ∧ ¬ Conflict a l v ∧ a.default v ≠ none ∧ ∃ u, HasUpdate a l v u ∧
      updateStep a (Dict.update [] l) acc v = .ok (acc.set v u)) ∨
    (Relevant a v ∧ ¬ Conflict a l v ∧ a.default v ≠ none ∧ (∀ u, ¬ HasUpdate a l v u) ∧
      updateStep a (Dict.update [] l) acc v = .ok acc) := by
  unfold updateStep
  by_cases hr : Relevant a v
  · have hr' : (!a.shared v && !a.random v) = false := by
      rcases hr with h | h <;> simp [h]
    rw [if_neg (by simp [hr'])]
    right
    cases hd : a.default v with
    | none => exact Or.inl ⟨hr, rfl, rfl⟩
    | some o =>
      right
      cases o with
      | some u =>
        cases hs : (Dict.update [] l).get? v with
        | some u' =>
          by_cases he : u' = u
          · subst he
            right; left
            refine ⟨hr, ?_, by simp, u', Or.inl hd, by simp⟩
            rintro ⟨w, w', hw, hw', hne⟩
            rw [recorded_iff, hs] at hw'
            rw [hd] at hw
            cases hw
            cases hw'
            exact hne rfl
          · left
            refine ⟨hr, ⟨u, u', hd, recorded_iff.2 hs, fun h => he h.symm⟩, by simp [he]⟩
        | none =>
          right; left
          refine ⟨hr, ?_, by simp, u, Or.inl hd, by simp⟩
          rintro ⟨w, w', hw, hw', hne⟩
          rw [recorded_iff, hs] at hw'
          cases hw'
      | none =>
        have hc : ¬ Conflict a l v := by
          rintro ⟨w, w', hw, -⟩
          rw [hd] at hw
          cases hw
        right
        cases hs : (Dict.update [] l).get? v with
        | some u' =>
          left
          exact ⟨hr, hc, by simp, u', Or.inr ⟨hd, recorded_iff.2 hs⟩, by simp⟩
        | none =>
          right
          refine ⟨hr, hc, by simp, fun u hu => ?_, by simp⟩
          rcases hu with hu | ⟨-, hu⟩
          · rw [hd] at hu
            cases hu
          · rw [recorded_iff, hs] at hu
            cases hu
  · left
    refine ⟨hr, ?_⟩
    have h1 : a.shared v = false := Bool.eq_false_iff.2 fun h => hr (Or.inl h)
    have h2 : a.random v = false := Bool.eq_false_iff.2 fun h => hr (Or.inr h)
    simp [h1, h2]

theorem hasUpdate_unique {a : Attrs} {l : List (Var × Var)} {v u u' : Var} (h : HasUpdate a l v u)
    (h' : HasUpdate a l v u') : u = u' := by
  rcases h with h | ⟨h, h1⟩ <;> rcases h' with h' | ⟨h', h1'⟩ <;> rw [h] at h'
  · cases h'
    rfl
  · cases h'
  · cases h'
  · rw [recorded_iff] at h1 h1'
    rw [h1] at h1'
    cases h1'
    rfl

/-- The loop. -/
theorem updateLoop_ok {a : Attrs} {l : List (Var × Var)} {vs : List Var} {acc d : Dict Var Var}
    (h : updateLoop a (Dict.update [] l) acc vs = .ok d) :
    (∀ v ∈ vs, Relevant a v → a.default v ≠ none ∧ ¬ Conflict a l v) ∧
    ∀ v u, d.get? v = some u ↔ (v ∈ vs ∧ Relevant a v ∧ HasUpdate a l v u) ∨
      (¬ (v ∈ vs ∧ Relevant a v ∧ ∃ w, HasUpdate a l v w) ∧ acc.get? v = some u) := by
  induction vs generalizing acc with
  | nil =>
    simp only [updateLoop, Except.ok.injEq] at h
    subst h
    simp
  | cons x vs ih =>
    rw [updateLoop] at h
    rcases updateStep_cases a l acc x with ⟨hr, hs⟩ | ⟨-, -, hs⟩ | ⟨-, -, hs⟩ | ⟨hr, hc, hd, u, hu, hs⟩ |
      ⟨hr, hc, hd, hno, hs⟩ <;> simp only [hs] at h
    · obtain ⟨h1, h2⟩ := ih h
      refine ⟨fun v hv hrv => ?_, fun v u => ?_⟩
      · rcases List.mem_cons.1 hv with rfl | hv
        · exact absurd hrv hr
        · exact h1 v hv hrv
      · rw [h2]
        simp only [List.mem_cons]
        have : ∀ P : Prop, ((v = x ∨ v ∈ vs) ∧ Relevant a v ∧ P) ↔ (v ∈ vs ∧ Relevant a v ∧ P) := by
          intro P
          constructor
          · rintro ⟨rfl | h, hrv, hP⟩
            · exact absurd hrv hr
            · exact ⟨h, hrv, hP⟩
          · rintro ⟨h, h'⟩
            exact ⟨Or.inr h, h'⟩
        rw [this, this]
    · cases h
    · cases h
    · obtain ⟨h1, h2⟩ := ih h
      refine ⟨fun v hv hrv => ?_, fun v w => ?_⟩
      · rcases List.mem_cons.1 hv with rfl | hv
        · exact ⟨hd, hc⟩
        · exact h1 v hv hrv
      · rw [h2, Dict.get?_set]
        simp only [List.mem_cons]
        by_cases hxv : x = v
        · subst hxv
          rw [if_pos rfl]
          constructor
          · rintro (⟨-, h3, h4⟩ | ⟨-, h4⟩)
            · exact Or.inl ⟨Or.inl rfl, h3, h4⟩
            · cases h4
              exact Or.inl ⟨Or.inl rfl, hr, hu⟩
          · rintro (⟨-, -, h4⟩ | ⟨h3, -⟩)
            · have := hasUpdate_unique hu h4
              subst this
              by_cases hm : x ∈ vs
              · exact Or.inl ⟨hm, hr, hu⟩
              · exact Or.inr ⟨fun h => hm h.1, rfl⟩
            · exact absurd ⟨Or.inl rfl, hr, u, hu⟩ h3
        · rw [if_neg hxv]
          have hvx : ¬ v = x := fun h => hxv h.symm
          simp only [hvx, false_or]
    · obtain ⟨h1, h2⟩ := ih h
      refine ⟨fun v hv hrv => ?_, fun v u => ?_⟩
      · rcases List.mem_cons.1 hv with rfl | hv
        · exact ⟨hd, hc⟩
        · exact h1 v hv hrv
      · rw [h2]
        simp only [List.mem_cons]
        have h3 : ((v = x ∨ v ∈ vs) ∧ Relevant a v ∧ HasUpdate a l v u) ↔
            (v ∈ vs ∧ Relevant a v ∧ HasUpdate a l v u) := by
          constructor
          · rintro ⟨rfl | h, hrv, hP⟩
            · exact absurd hP (hno u)
            · exact ⟨h, hrv, hP⟩
          · rintro ⟨h, h'⟩
            exact ⟨Or.inr h, h'⟩
        have h4 : ((v = x ∨ v ∈ vs) ∧ Relevant a v ∧ ∃ w, HasUpdate a l v w) ↔
            (v ∈ vs ∧ Relevant a v ∧ ∃ w, HasUpdate a l v w) := by
          constructor
          · rintro ⟨rfl | h, hrv, w, hw⟩
            · exact absurd hw (hno w)
            · exact ⟨h, hrv, w, hw⟩
          · rintro ⟨h, h'⟩
            exact ⟨Or.inr h, h'⟩
        rw [h3, h4]

theorem updateLoop_error {a : Attrs} {l : List (Var × Var)} {vs : List Var} {acc : Dict Var Var} {e : Err}
    (h : updateLoop a (Dict.update [] l) acc vs = .error e) :
    ∃ v ∈ vs, Relevant a v ∧ ((a.default v = none ∧ e = .attributeError v) ∨
      (Conflict a l v ∧ e = .assertionError v)) := by
  induction vs generalizing acc with
  | nil => simp [updateLoop] at h
  | cons x vs ih =>
    rw [updateLoop] at h
    rcases updateStep_cases a l acc x with ⟨hr, hs⟩ | ⟨hr, hd, hs⟩ | ⟨hr, hc, hs⟩ | ⟨hr, hc, hd, u, hu, hs⟩ |
      ⟨hr, hc, hd, hno, hs⟩ <;> simp only [hs] at h
    · obtain ⟨v, hv, h'⟩ := ih h
      exact ⟨v, by simp [hv], h'⟩
    · cases h
      exact ⟨x, by simp, hr, Or.inl ⟨hd, rfl⟩⟩
    · cases h
      exact ⟨x, by simp, hr, Or.inr ⟨hc, rfl⟩⟩
    · obtain ⟨v, hv, h'⟩ := ih h
      exact ⟨v, by simp [hv], h'⟩
    · obtain ⟨v, hv, h'⟩ := ih h
      exact ⟨v, by simp [hv], h'⟩

section
variable {Val : Type} {own : Owner} {ins : Ins} {sem : Node → Nat → List Val → Val}

theorem evL_map {given : Var → Option Val} {f : Var → Val} :
    ∀ vs : List Var, (∀ v ∈ vs, Ev own sem given ins v (f v)) → EvL own sem given ins vs (vs.map f)
  | [], _ => .nil
  | v :: vs, h => .cons (h v (by simp)) (evL_map vs fun w hw => h w (by simp [hw]))

/-- The computed value is the value of the graph. -/
theorem ev_value (hac : Acyclic own ins) (σ : Var → Val) (v : Var) :
    Ev own sem (leaves own σ) ins v (value own ins sem σ v) := by
  have key : ∀ k v, v < k → Ev own sem (leaves own σ) ins v (evFuel own ins sem σ k v) := by
    intro k
    induction k with
    | zero => intro v h; exact absurd h (Nat.not_lt_zero v)
    | succ k ih =>
      intro v hv
      rw [evFuel]
      cases ho : own v with
      | none => exact .given (by rw [leaves, if_pos ho])
      | some p =>
        obtain ⟨n, i⟩ := p
        refine .node (by rw [leaves, if_neg (by simp [ho])]) ho ?_
        refine evL_map _ fun w hw => ih w ?_
        exact Nat.lt_of_lt_of_le (hac v n i ho w hw) (Nat.lt_succ_iff.1 hv)
  exact key (v + 1) v (Nat.lt_succ_self v)

variable {rvs : List Var} {ups : Dict Var Var}

/-- The scan computes along the iterates of one step. -/
theorem scan_eq (n : Nat) (σ : Var → Val) :
    scan own ins sem rvs ups n σ =
      ((List.range n).map fun i => rvs.map (value own ins sem ((nextState own ins sem ups)^[i] σ)),
        (nextState own ins sem ups)^[n] σ) := by
  induction n generalizing σ with
  | zero => rfl
  | succ n ih =>
    rw [scan, ih]
    simp only [List.range_succ_eq_map, List.map_cons, List.map_map, Function.iterate_zero, id,
      Prod.mk.injEq, List.cons.injEq, true_and]
    exact ⟨rfl, rfl⟩

end

end Verif.Prior
