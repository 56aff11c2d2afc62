import Verif.Info.Spec
import Mathlib.Data.List.Perm.Subperm
import Mathlib.Data.List.Forall2

/-!
# Helper lemmas for `ModelInfo`
-/

namespace Verif.Info

open Verif.Py

theorem lookups_ok {d : Dict Nat Nat} {ks vs : List Nat} (h : lookups d ks = .ok vs) :
    List.Forall₂ (fun k v => (k, v) ∈ d) ks vs := by
  induction ks generalizing vs with
  | nil =>
    simp only [lookups, Except.ok.injEq] at h
    subst h
    exact .nil
  | cons k ks ih =>
    rw [lookups] at h
    cases hk : d.get? k with
    | none => simp [hk] at h
    | some v =>
      rw [hk] at h
      cases hl : lookups d ks with
      | error e => simp [hl] at h
      | ok ws =>
        simp only [hl, Except.ok.injEq] at h
        subst h
        exact .cons (Dict.mem_of_get? d k v hk) (ih hl)

theorem lookups_total {d : Dict Nat Nat} {ks : List Nat} (h : ∀ k ∈ ks, k ∈ d.keys) :
    ∃ vs, lookups d ks = .ok vs := by
  induction ks with
  | nil => exact ⟨[], rfl⟩
  | cons k ks ih =>
    obtain ⟨v, hv⟩ := (Dict.get?_isSome_iff d k).2 (h k (by simp))
    obtain ⟨vs, hvs⟩ := ih fun k' hk' => h k' (by simp [hk'])
    exact ⟨v :: vs, by rw [lookups, hv, hvs]⟩

theorem lookups_error {d : Dict Nat Nat} {ks : List Nat} {e : Err} (h : lookups d ks = .error e) :
    ∃ k ∈ ks, k ∉ d.keys ∧ e = .keyError k := by
  induction ks with
  | nil => simp [lookups] at h
  | cons k ks ih =>
    rw [lookups] at h
    cases hk : d.get? k with
    | none =>
      simp only [hk, Except.error.injEq] at h
      exact ⟨k, by simp, (Dict.get?_eq_none_iff d k).1 hk, h.symm⟩
    | some v =>
      rw [hk] at h
      cases hl : lookups d ks with
      | error e' =>
        simp only [hl, Except.error.injEq] at h
        subst h
        obtain ⟨k', hk', h'⟩ := ih hl
        exact ⟨k', by simp [hk'], h'⟩
      | ok ws => simp [hl] at h

theorem truthy_iff {n : Option String} : truthy n = true ↔ ∃ s, s ≠ "" ∧ n = some s := by
  cases n <;> simp [truthy]

/-- A dictionary has as many entries as there were pairs iff the keys are distinct. -/
theorem length_update_iff {α β : Type} [DecidableEq α] (e : List (α × β)) :
    (Dict.update [] e).length = e.length ↔ (e.map Prod.fst).Nodup := by
  constructor
  · intro h
    have hnd := Dict.nodup_update ([] : Dict α β) e (by simp)
    have hsub : (Dict.update [] e).keys ⊆ e.map Prod.fst := by
      intro k hk
      simpa using (Dict.mem_keys_update [] e k).1 hk
    have hp := (List.subperm_of_subset hnd hsub).perm_of_length_le (by simp [h])
    exact hp.nodup_iff.1 hnd
  · intro h
    rw [Dict.update_nil_of_nodup [] e (by simpa using h)]
    rfl

/-- What `postInit` does, in one statement. -/
theorem postInit_eq (name : Nat → Option String) (iter : List Nat → List Nat) (obs : List Nat)
    (d : Dict Nat Nat) (det : List Nat) :
    (∃ k ∈ obs, k ∉ d.keys ∧ postInit name iter obs d det = .error (.keyError k)) ∨
    ∃ unobVals obsVals, lookups d (d.keys.filter fun k => !obs.contains k) = .ok unobVals ∧
      lookups d obs = .ok obsVals ∧
      ((¬ (∀ v ∈ iter (obs ++ d.keys ++ det ++ obsVals ++ unobVals), truthy (name v) = true) ∧
          postInit name iter obs d det = .error .emptyName) ∨
        ((∀ v ∈ iter (obs ++ d.keys ++ det ++ obsVals ++ unobVals), truthy (name v) = true) ∧
          ¬ ((iter (obs ++ d.keys ++ det ++ obsVals ++ unobVals)).map name).Nodup ∧
          postInit name iter obs d det = .error .dupName) ∨
        ((∀ v ∈ iter (obs ++ d.keys ++ det ++ obsVals ++ unobVals), truthy (name v) = true) ∧
          ((iter (obs ++ d.keys ++ det ++ obsVals ++ unobVals)).map name).Nodup ∧
          postInit name iter obs d det = .ok ⟨obs, d, det, Dict.update [] (d.map fun p => (p.2, p.1)),
            (iter (obs ++ d.keys ++ det ++ obsVals ++ unobVals)).map fun v => (name v, v), obsVals,
            d.keys.filter fun k => !obs.contains k, unobVals⟩)) := by
  obtain ⟨unobVals, hun⟩ := lookups_total (d := d) (ks := d.keys.filter fun k => !obs.contains k)
    fun k hk => (List.mem_filter.1 hk).1
  cases hob : lookups d obs with
  | error e =>
    obtain ⟨k, hk, hk', rfl⟩ := lookups_error hob
    refine Or.inl ⟨k, hk, hk', ?_⟩
    simp only [postInit, hun, hob]
  | ok obsVals =>
    refine Or.inr ⟨unobVals, obsVals, hun, rfl, ?_⟩
    simp only [postInit, hun, hob]
    generalize iter (obs ++ d.keys ++ det ++ obsVals ++ unobVals) = vs
    by_cases h1 : ∀ v ∈ vs, truthy (name v) = true
    · have h1' : vs.all (fun v => truthy (name v)) = true := List.all_eq_true.2 h1
      have hlen := length_update_iff (vs.map fun v => (name v, v))
      have hm : (vs.map fun v => (name v, v)).map Prod.fst = vs.map name := by
        rw [List.map_map]
        rfl
      rw [hm, List.length_map] at hlen
      right
      by_cases h2 : (vs.map name).Nodup
      · right
        refine ⟨h1, h2, ?_⟩
        rw [h1', Dict.update_nil_of_nodup [] (vs.map fun v => (name v, v)) (by simpa [hm] using h2)]
        simp
      · left
        refine ⟨h1, h2, ?_⟩
        have : (Dict.update [] (vs.map fun v => (name v, v))).length ≠ vs.length := fun h => h2 (hlen.1 h)
        rw [h1']
        simp [this]
    · left
      have h1' : vs.all (fun v => truthy (name v)) = false := by
        rw [← Bool.not_eq_true, List.all_eq_true]
        exact h1
      exact ⟨h1, by rw [h1']; simp⟩

theorem involved_iff {obs : List Nat} {d : Dict Nat Nat} (hd : IsDict d) {det unobVals obsVals : List Nat}
    (hun : lookups d (d.keys.filter fun k => !obs.contains k) = .ok unobVals)
    (hob : lookups d obs = .ok obsVals) {v : Nat} :
    v ∈ obs ++ d.keys ++ det ++ obsVals ++ unobVals ↔ Involved obs d det v := by
  have hun := lookups_ok hun
  have hob := lookups_ok hob
  have aux : ∀ {ks vs : List Nat}, List.Forall₂ (fun k v => (k, v) ∈ d) ks vs →
      (∀ v ∈ vs, ∃ k, (k, v) ∈ d) ∧ ∀ k ∈ ks, ∃ v ∈ vs, (k, v) ∈ d := by
    intro ks vs h
    induction h with
    | nil => simp
    | cons h _ ih =>
      constructor
      · intro v hv
        rcases List.mem_cons.1 hv with rfl | hv
        · exact ⟨_, h⟩
        · exact ih.1 v hv
      · intro k hk
        rcases List.mem_cons.1 hk with rfl | hk
        · exact ⟨_, by simp, h⟩
        · obtain ⟨v, hv, h'⟩ := ih.2 k hk
          exact ⟨v, by simp [hv], h'⟩
  simp only [List.mem_append, Involved]
  constructor
  · rintro ((((h | h) | h) | h) | h)
    · exact Or.inl h
    · obtain ⟨⟨rv, val⟩, hp, rfl⟩ := List.mem_map.1 h
      exact Or.inr (Or.inr ⟨rv, val, hp, Or.inl rfl⟩)
    · exact Or.inr (Or.inl h)
    · obtain ⟨k, hk⟩ := (aux hob).1 v h
      exact Or.inr (Or.inr ⟨k, v, hk, Or.inr rfl⟩)
    · obtain ⟨k, hk⟩ := (aux hun).1 v h
      exact Or.inr (Or.inr ⟨k, v, hk, Or.inr rfl⟩)
  · rintro (h | h | ⟨rv, val, hp, rfl | rfl⟩)
    · exact Or.inl (Or.inl (Or.inl (Or.inl h)))
    · exact Or.inl (Or.inl (Or.inr h))
    · exact Or.inl (Or.inl (Or.inl (Or.inr (List.mem_map.2 ⟨_, hp, rfl⟩))))
    · have hk : rv ∈ d.keys := List.mem_map.2 ⟨_, hp, rfl⟩
      have huniq : ∀ w, (rv, w) ∈ d → w = v := fun w hw => by
        have h1 := Dict.get?_of_mem d hd rv w hw
        rw [Dict.get?_of_mem d hd rv v hp] at h1
        exact (Option.some.inj h1).symm
      by_cases ho : rv ∈ obs
      · obtain ⟨w, hw, hw'⟩ := (aux hob).2 rv ho
        rw [huniq w hw'] at hw
        exact Or.inl (Or.inr hw)
      · obtain ⟨w, hw, hw'⟩ := (aux hun).2 rv (List.mem_filter.2 ⟨hk, by simpa using ho⟩)
        rw [huniq w hw'] at hw
        exact Or.inr hw

theorem get?_values {d : Dict Nat Nat} (hd : IsDict d) :
    (∀ rv val, (rv, val) ∈ d → (Dict.update [] (d.map fun p => (p.2, p.1))).get? val = some rv) ↔
      (d.map Prod.snd).Nodup := by
  have hm : (d.map fun p => (p.2, p.1)).map Prod.fst = d.map Prod.snd := by
    rw [List.map_map]
    rfl
  constructor
  · intro h
    have hnd : d.Nodup := List.Nodup.of_map _ hd
    refine (List.nodup_map_iff_inj_on hnd).2 ?_
    rintro ⟨a, b⟩ hp ⟨a', b'⟩ hq hpq
    have h1 := h a b hp
    have h2 := h a' b' hq
    have : b = b' := hpq
    subst this
    rw [h1] at h2
    cases h2
    rfl
  · intro h rv val hp
    exact Dict.get?_update_of_mem [] _ (by rw [hm]; exact h) _ _ (List.mem_map.2 ⟨_, hp, rfl⟩)

end Verif.Info
