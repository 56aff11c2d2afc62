import Mathlib.Data.List.Basic
import Mathlib.Data.List.Nodup
import Mathlib.Data.List.Perm.Basic

/-!
# Python dictionaries

A `dict` keeps insertion order; assigning to a present key keeps its position.
-/

namespace Verif.Py

/-- A Python `dict`: key/value pairs in insertion order. -/
abbrev Dict (α β : Type) := List (α × β)

namespace Dict

variable {α β : Type} [DecidableEq α]

/-- The keys in iteration order. -/
abbrev keys (d : Dict α β) : List α := d.map Prod.fst

/-- `d.get(k)`. -/
def get? : Dict α β → α → Option β
  | [], _ => none
  | (a, b) :: d, k => if a = k then some b else get? d k

/-- `k in d`. -/
def has (d : Dict α β) (k : α) : Bool := decide (k ∈ d.keys)

/-- `d[k] = v`. -/
def set : Dict α β → α → β → Dict α β
  | [], k, v => [(k, v)]
  | (a, b) :: d, k, v => if a = k then (a, v) :: d else (a, b) :: set d k v

/-- `d.update(e)` and, from the empty dictionary, `dict(e)` or a comprehension. -/
def update (d : Dict α β) : List (α × β) → Dict α β
  | [] => d
  | (k, v) :: e => update (set d k v) e

theorem get?_set (d : Dict α β) (k k' : α) (v : β) :
    (d.set k v).get? k' = if k = k' then some v else d.get? k' := by
  induction d with
  | nil => rfl
  | cons p d ih =>
    obtain ⟨a, b⟩ := p
    unfold set
    by_cases h : a = k
    · subst h
      simp only [if_true, get?]
      split_ifs <;> rfl
    · simp only [h, if_false, get?, ih]
      by_cases h1 : a = k'
      · subst h1
        simp [Ne.symm h]
      · simp [h1]

theorem keys_set_of_mem (d : Dict α β) (k : α) (v : β) (h : k ∈ d.keys) :
    (d.set k v).keys = d.keys := by
  induction d with
  | nil => simp at h
  | cons p d ih =>
    obtain ⟨a, b⟩ := p
    unfold set
    by_cases h1 : a = k
    · simp [h1]
    · simp only [h1, if_false, List.map_cons]
      exact congrArg _ (ih (by simpa [Ne.symm h1] using h))

theorem keys_set_of_not_mem (d : Dict α β) (k : α) (v : β) (h : k ∉ d.keys) :
    d.set k v = d ++ [(k, v)] := by
  induction d with
  | nil => rfl
  | cons p d ih =>
    obtain ⟨a, b⟩ := p
    simp only [List.map_cons, List.mem_cons, not_or] at h
    unfold set
    simp [Ne.symm h.1, ih h.2]

theorem mem_keys_set (d : Dict α β) (k k' : α) (v : β) :
    k' ∈ (d.set k v).keys ↔ k' = k ∨ k' ∈ d.keys := by
  by_cases h : k ∈ d.keys
  · rw [keys_set_of_mem d k v h]
    constructor
    · exact Or.inr
    · rintro (rfl | h')
      · exact h
      · exact h'
  · rw [keys_set_of_not_mem d k v h]
    simp only [List.map_append, List.map_cons, List.map_nil, List.mem_append, List.mem_singleton]
    exact or_comm

theorem nodup_set (d : Dict α β) (k : α) (v : β) (h : d.keys.Nodup) :
    (d.set k v).keys.Nodup := by
  by_cases hk : k ∈ d.keys
  · rw [keys_set_of_mem d k v hk]
    exact h
  · rw [keys_set_of_not_mem d k v hk]
    simp only [List.map_append, List.map_cons, List.map_nil]
    rw [List.nodup_append]
    refine ⟨h, by simp, ?_⟩
    intro a ha b hb
    simp only [List.mem_singleton] at hb
    subst hb
    rintro rfl
    exact hk ha

theorem mem_keys_update (d : Dict α β) (e : List (α × β)) (k : α) :
    k ∈ (d.update e).keys ↔ k ∈ d.keys ∨ k ∈ e.map Prod.fst := by
  induction e generalizing d with
  | nil => simp [update]
  | cons p e ih =>
    obtain ⟨a, b⟩ := p
    unfold update
    rw [ih, mem_keys_set]
    simp only [List.map_cons, List.mem_cons]
    tauto

theorem nodup_update (d : Dict α β) (e : List (α × β)) (h : d.keys.Nodup) :
    (d.update e).keys.Nodup := by
  induction e generalizing d with
  | nil => exact h
  | cons p e ih => exact ih _ (nodup_set d _ _ h)

theorem get?_update_of_not_mem (d : Dict α β) (e : List (α × β)) (k : α)
    (h : k ∉ e.map Prod.fst) : (d.update e).get? k = d.get? k := by
  induction e generalizing d with
  | nil => rfl
  | cons p e ih =>
    simp only [List.map_cons, List.mem_cons, not_or] at h
    unfold update
    rw [ih _ h.2, get?_set, if_neg (Ne.symm h.1)]

theorem get?_eq_none_iff (d : Dict α β) (k : α) : d.get? k = none ↔ k ∉ d.keys := by
  induction d with
  | nil => simp [get?]
  | cons p d ih =>
    obtain ⟨a, b⟩ := p
    unfold get?
    by_cases h : a = k
    · simp [h]
    · simp only [h, if_false, ih, List.map_cons, List.mem_cons, not_or]
      exact ⟨fun h' => ⟨Ne.symm h, h'⟩, fun h' => h'.2⟩

theorem get?_isSome_iff (d : Dict α β) (k : α) : (∃ v, d.get? k = some v) ↔ k ∈ d.keys := by
  have := get?_eq_none_iff d k
  cases h : d.get? k with
  | none => simp [this.1 h]
  | some v =>
    simp only [Option.some.injEq, exists_eq', true_iff]
    by_contra hk
    rw [this.2 hk] at h
    cases h

theorem mem_of_get? (d : Dict α β) (k : α) (v : β) (h : d.get? k = some v) : (k, v) ∈ d := by
  induction d with
  | nil => cases h
  | cons p d ih =>
    obtain ⟨a, b⟩ := p
    unfold get? at h
    split_ifs at h with hk
    · subst hk
      cases h
      simp
    · exact List.mem_cons_of_mem _ (ih h)

theorem get?_of_mem (d : Dict α β) (h : d.keys.Nodup) (k : α) (v : β) (hm : (k, v) ∈ d) :
    d.get? k = some v := by
  induction d with
  | nil => simp at hm
  | cons p d ih =>
    obtain ⟨a, b⟩ := p
    simp only [List.map_cons, List.nodup_cons] at h
    unfold get?
    rcases List.mem_cons.1 hm with hm | hm
    · cases hm
      simp
    · have : a ≠ k := by
        rintro rfl
        exact h.1 (List.mem_map.2 ⟨_, hm, rfl⟩)
      rw [if_neg this]
      exact ih h.2 hm

theorem mem_set (d : Dict α β) (k : α) (v : β) (p : α × β) (h : p ∈ d.set k v) :
    p ∈ d ∨ p = (k, v) := by
  induction d with
  | nil => exact Or.inr (by simpa [set] using h)
  | cons q d ih =>
    obtain ⟨a, b⟩ := q
    unfold set at h
    split_ifs at h with hk
    · subst hk
      rcases List.mem_cons.1 h with h | h
      · exact Or.inr h
      · exact Or.inl (List.mem_cons_of_mem _ h)
    · rcases List.mem_cons.1 h with h | h
      · exact Or.inl (by simp [h])
      · rcases ih h with h | h
        · exact Or.inl (List.mem_cons_of_mem _ h)
        · exact Or.inr h

theorem mem_update (d : Dict α β) (e : List (α × β)) (p : α × β) (h : p ∈ d.update e) :
    p ∈ d ∨ p ∈ e := by
  induction e generalizing d with
  | nil => exact Or.inl h
  | cons q e ih =>
    obtain ⟨a, b⟩ := q
    unfold update at h
    rcases ih _ h with h | h
    · rcases mem_set d a b p h with h | h
      · exact Or.inl h
      · exact Or.inr (by simp [h])
    · exact Or.inr (List.mem_cons_of_mem _ h)

theorem get?_update_of_mem (d : Dict α β) (e : List (α × β)) (he : (e.map Prod.fst).Nodup) (k : α)
    (v : β) (h : (k, v) ∈ e) : (d.update e).get? k = some v := by
  induction e generalizing d with
  | nil => simp at h
  | cons p e ih =>
    obtain ⟨a, b⟩ := p
    simp only [List.map_cons, List.nodup_cons] at he
    unfold update
    rcases List.mem_cons.1 h with h | h
    · cases h
      rw [get?_update_of_not_mem _ _ _ he.1, get?_set, if_pos rfl]
    · exact ih _ he.2 h

/-- A dictionary built from pairs with distinct keys is the list of pairs. -/
theorem update_nil_of_nodup (d e : List (α × β)) (h : ((d ++ e).map Prod.fst).Nodup) :
    update d e = d ++ e := by
  induction e generalizing d with
  | nil => simp [update]
  | cons p e ih =>
    obtain ⟨a, b⟩ := p
    unfold update
    have ha : a ∉ keys d := by
      simp only [List.map_append, List.map_cons] at h
      rw [List.nodup_append] at h
      intro hm
      exact h.2.2 a hm a (by simp) rfl
    rw [keys_set_of_not_mem d a b ha, ih]
    · simp
    · simpa using h

end Dict

end Verif.Py
