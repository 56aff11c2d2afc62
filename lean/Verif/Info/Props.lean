import Verif.Info.Lemmas
import Mathlib.Data.List.Dedup

/-!
# C43–C45: `ModelInfo`
-/

namespace Verif.Info

open Verif.Py

/-- The names of the examples: `v`, `vi`, `vii`, … -/
def exName (v : Nat) : Option String := some (String.ofList ('v' :: List.replicate v 'i'))

/-- A set iteration for the examples. -/
def exIter : List Nat → List Nat := List.dedup

theorem exIter_ok : SetIter exIter := fun l => ⟨List.nodup_dedup l, fun _ => List.mem_dedup⟩

theorem exName_inj {v w : Nat} (h : exName v = exName w) : v = w := by
  have h1 : String.ofList ('v' :: List.replicate v 'i') = String.ofList ('v' :: List.replicate w 'i') :=
    Option.some.inj h
  have h2 := congrArg (fun s : String => s.toList.length) h1
  simpa using h2

theorem exName_ne (v : Nat) : ∃ s, s ≠ "" ∧ exName v = some s := by
  refine ⟨_, fun h => ?_, rfl⟩
  have h2 := congrArg (fun s : String => s.toList.length) h
  simp at h2

/-! ## C44 -/

/-- C44.  `ModelInfo` raises `KeyError` iff some observed variable has no value; otherwise it raises
`ValueError` iff some involved variable has no name or an empty one, or two share one; otherwise it is
accepted.  This holds for every order in which the sets are iterated. -/
theorem C44_accepts (name : Nat → Option String) {iter : List Nat → List Nat} (hi : SetIter iter)
    (obs : List Nat) {d : Dict Nat Nat} (hd : IsDict d) (det : List Nat) :
    ((∃ k, postInit name iter obs d det = .error (.keyError k)) ↔ ¬ HasValues obs d) ∧
    (postInit name iter obs d det = .error .emptyName ↔ HasValues obs d ∧ ¬ Named name obs d det) ∧
    (postInit name iter obs d det = .error .dupName ↔
      HasValues obs d ∧ Named name obs d det ∧ ¬ UniquelyNamed name obs d det) ∧
    ((∃ m, postInit name iter obs d det = .ok m) ↔
      HasValues obs d ∧ Named name obs d det ∧ UniquelyNamed name obs d det) := by
  rcases postInit_eq name iter obs d det with ⟨k, hk, hkd, h⟩ | ⟨uv, ov, hun, hob, h⟩
  · have hv : ¬ HasValues obs d := fun hv => by
      obtain ⟨v, hv⟩ := hv k hk
      exact hkd (List.mem_map.2 ⟨_, hv, rfl⟩)
    rw [h]
    simp [hv]
  · have hv : HasValues obs d := by
      intro o ho
      have := lookups_ok hob
      obtain ⟨i, hi, rfl⟩ := List.getElem_of_mem ho
      exact ⟨_, (List.forall₂_iff_get.1 this).2 i hi (this.length_eq ▸ hi)⟩
    have hmem : ∀ v, v ∈ iter (obs ++ d.keys ++ det ++ ov ++ uv) ↔ Involved obs d det v := fun v =>
      ((hi _).2 v).trans (involved_iff hd hun hob)
    have hnamed : (∀ v ∈ iter (obs ++ d.keys ++ det ++ ov ++ uv), truthy (name v) = true) ↔
        Named name obs d det := by
      simp only [Named, truthy_iff, hmem]
    have huniq : ((iter (obs ++ d.keys ++ det ++ ov ++ uv)).map name).Nodup ↔
        UniquelyNamed name obs d det := by
      rw [List.nodup_map_iff_inj_on (hi _).1]
      simp only [UniquelyNamed, hmem]
      exact ⟨fun h v w hv hw => h v hv w hw, fun h v hv w hw => h v w hv hw⟩
    rw [hnamed, huniq] at h
    rcases h with ⟨h1, h⟩ | ⟨h1, h2, h⟩ | ⟨h1, h2, h⟩ <;> rw [h] <;> simp [hv, h1]
    · exact h2
    · exact h2

/-- C44.  In an accepted `ModelInfo`, `names_to_vars` is a bijection between names and involved
variables. -/
theorem C44_names_bijection (name : Nat → Option String) {iter : List Nat → List Nat} (hi : SetIter iter)
    {obs : List Nat} {d : Dict Nat Nat} (hd : IsDict d) {det : List Nat} {m : ModelInfo}
    (h : postInit name iter obs d det = .ok m) :
    m.namesToVars.keys.Nodup ∧
    (∀ v, Involved obs d det v → m.namesToVars.get? (name v) = some v) ∧
    ∀ n v, m.namesToVars.get? n = some v → Involved obs d det v ∧ name v = n := by
  rcases postInit_eq name iter obs d det with ⟨k, hk, hkd, h'⟩ | ⟨uv, ov, hun, hob, h'⟩
  · rw [h'] at h
    cases h
  · rcases h' with ⟨-, h'⟩ | ⟨-, -, h'⟩ | ⟨-, hnd, h'⟩ <;> rw [h'] at h
    · cases h
    · cases h
    · injection h with h
      subst h
      have hmem : ∀ v, v ∈ iter (obs ++ d.keys ++ det ++ ov ++ uv) ↔ Involved obs d det v := fun v =>
        ((hi _).2 v).trans (involved_iff hd hun hob)
      have hm : ∀ vs : List Nat, Dict.keys (vs.map fun v => (name v, v)) = vs.map name := by
        intro vs
        rw [Dict.keys, List.map_map]
        rfl
      have hnd' : Dict.keys ((iter (obs ++ d.keys ++ det ++ ov ++ uv)).map fun v => (name v, v)) |>.Nodup := by
        rw [hm]
        exact hnd
      refine ⟨hnd', fun v hv => ?_, fun n v hv => ?_⟩
      · exact Dict.get?_of_mem _ hnd' _ _ (List.mem_map.2 ⟨v, (hmem v).2 hv, rfl⟩)
      · obtain ⟨w, hw, he⟩ := List.mem_map.1 (Dict.mem_of_get? _ _ _ hv)
        cases he
        exact ⟨(hmem v).1 hw, rfl⟩

/-- The model of the examples: observed `3` with value `4`, latent `1` with value `2`, deterministic `5`. -/
theorem exAccepted : ∃ m, postInit exName exIter [3] [(1, 2), (3, 4)] [5] = .ok m :=
  (C44_accepts exName exIter_ok [3] (by simp [IsDict]) [5]).2.2.2.2
    ⟨by intro o ho; simp at ho; subst ho; exact ⟨4, by simp⟩, fun v _ => exName_ne v,
      fun _ _ _ _ h => exName_inj h⟩

example : ∃ m, postInit exName exIter [3] [(1, 2), (3, 4)] [5] = .ok m ∧
    m.namesToVars.get? (exName 4) = some 4 := by
  obtain ⟨m, hm⟩ := exAccepted
  exact ⟨m, hm, (C44_names_bijection exName exIter_ok (by simp [IsDict]) hm).2.1 4
    (Or.inr (Or.inr ⟨3, 4, by simp, Or.inr rfl⟩))⟩

example : ∃ k, postInit exName exIter [7] [(1, 2)] [] = .error (.keyError k) :=
  (C44_accepts exName exIter_ok [7] (by simp [IsDict]) []).1.2 fun h => by
    obtain ⟨v, hv⟩ := h 7 (by simp)
    simp at hv

example : postInit (fun _ => some "x") exIter [1] [(1, 2)] [] = .error .dupName :=
  (C44_accepts _ exIter_ok [1] (by simp [IsDict]) []).2.2.1.2
    ⟨by intro o ho; simp at ho; subst ho; exact ⟨2, by simp⟩, fun v _ => ⟨"x", by decide, rfl⟩,
      fun h => absurd (h 1 2 (Or.inl (by simp)) (Or.inr (Or.inr ⟨1, 2, by simp, Or.inr rfl⟩)) rfl)
        (by decide)⟩

/-! ## C43 -/

/-- C43.  In an accepted `ModelInfo` the unobserved variables are the keys that are not observed, in
order; the two tuples of values are the values position by position; and every key is in exactly one of
the two tuples of variables, which contain nothing else. -/
theorem C43_split_partial (name : Nat → Option String) {iter : List Nat → List Nat} {obs : List Nat}
    {d : Dict Nat Nat} {det : List Nat} {m : ModelInfo} (h : postInit name iter obs d det = .ok m) :
    m.observedRvs = obs ∧ m.rvsToValues = d ∧ m.deterministicVars = det ∧
    m.unobservedRvs.Sublist (d.map Prod.fst) ∧
    (∀ k, k ∈ m.unobservedRvs ↔ (∃ v, (k, v) ∈ d) ∧ k ∉ obs) ∧
    (∀ k ∈ obs, ∃ v, (k, v) ∈ d) ∧
    List.Forall₂ (fun k v => (k, v) ∈ d) m.unobservedRvs m.unobservedValues ∧
    List.Forall₂ (fun k v => (k, v) ∈ d) obs m.observedValues := by
  rcases postInit_eq name iter obs d det with ⟨k, hk, hkd, h'⟩ | ⟨uv, ov, hun, hob, h'⟩
  · rw [h'] at h
    cases h
  · rcases h' with ⟨-, h'⟩ | ⟨-, -, h'⟩ | ⟨-, hnd, h'⟩ <;> rw [h'] at h
    · cases h
    · cases h
    · injection h with h
      subst h
      have hob := lookups_ok hob
      refine ⟨rfl, rfl, rfl, List.filter_sublist, fun k => ?_, fun o ho => ?_, lookups_ok hun, hob⟩
      · simp only [List.mem_filter, List.mem_map]
        constructor
        · rintro ⟨⟨⟨a, b⟩, hp, rfl⟩, hc⟩
          exact ⟨⟨b, hp⟩, by simpa using hc⟩
        · rintro ⟨⟨v, hv⟩, hc⟩
          exact ⟨⟨_, hv, rfl⟩, by simpa using hc⟩
      · obtain ⟨i, hi, rfl⟩ := List.getElem_of_mem ho
        exact ⟨_, (List.forall₂_iff_get.1 hob).2 i hi (hob.length_eq ▸ hi)⟩

example : ∃ m, postInit exName exIter [3] [(1, 2), (3, 4)] [5] = .ok m ∧ m.observedRvs = [3] ∧
    1 ∈ m.unobservedRvs := by
  obtain ⟨m, hm⟩ := exAccepted
  obtain ⟨h1, -, -, -, h2, -⟩ := C43_split_partial exName hm
  exact ⟨m, hm, h1, (h2 1).2 ⟨⟨2, by simp⟩, by simp⟩⟩

/-- C43.  The two tuples account for every key exactly once iff no observed variable is given twice. -/
theorem C43_exactly_once_partial (name : Nat → Option String) {iter : List Nat → List Nat}
    {obs : List Nat} {d : Dict Nat Nat} (hd : IsDict d) {det : List Nat} {m : ModelInfo}
    (h : postInit name iter obs d det = .ok m) :
    (∀ k v, (k, v) ∈ d → (m.observedRvs ++ m.unobservedRvs).count k = 1) ↔ obs.Nodup := by
  obtain ⟨h1, -, -, hsub, hun, hob, -, -⟩ := C43_split_partial name h
  rw [h1]
  have hund : m.unobservedRvs.Nodup := hsub.nodup hd
  constructor
  · intro hall
    rw [List.nodup_iff_count_le_one]
    intro k
    by_cases hk : k ∈ obs
    · obtain ⟨v, hv⟩ := hob k hk
      have := hall k v hv
      rw [List.count_append] at this
      omega
    · rw [List.count_eq_zero_of_not_mem hk]
      omega
  · intro hnd k v hv
    rw [List.count_append]
    by_cases hk : k ∈ obs
    · rw [List.count_eq_one_of_mem hnd hk, List.count_eq_zero_of_not_mem fun h => ((hun k).1 h).2 hk]
    · rw [List.count_eq_zero_of_not_mem hk,
        List.count_eq_one_of_mem hund ((hun k).2 ⟨⟨v, hv⟩, hk⟩)]

example : ∃ m, postInit exName exIter [3] [(1, 2), (3, 4)] [5] = .ok m ∧
    ∀ k v, (k, v) ∈ [(1, 2), (3, 4)] → (m.observedRvs ++ m.unobservedRvs).count k = 1 := by
  obtain ⟨m, hm⟩ := exAccepted
  exact ⟨m, hm, (C43_exactly_once_partial exName (by simp [IsDict]) hm).2 (by simp)⟩

/-- C43 fails for a variable observed twice: the model is accepted and the variable and its value occur
twice among the observed ones. -/
theorem C43_duplicate_violated : ∃ m, postInit exName exIter [3, 3] [(1, 2), (3, 4)] [] = .ok m ∧
    m.observedRvs = [3, 3] ∧ m.observedValues = [4, 4] ∧
    (m.observedRvs ++ m.unobservedRvs).count 3 = 2 := by
  obtain ⟨m, hm⟩ := (C44_accepts exName exIter_ok [3, 3] (d := [(1, 2), (3, 4)]) (by simp [IsDict]) []).2.2.2.2
    ⟨by intro o ho; simp at ho; subst ho; exact ⟨4, by simp⟩, fun v _ => exName_ne v,
      fun _ _ _ _ h => exName_inj h⟩
  obtain ⟨h1, -, -, -, hun, -, -, hob⟩ := C43_split_partial exName hm
  refine ⟨m, hm, h1, ?_, ?_⟩
  · rcases hov : m.observedValues with _ | ⟨a, _ | ⟨b, _ | ⟨c, l⟩⟩⟩ <;> rw [hov] at hob <;> simp at hob
    rw [hob.1, hob.2]
  · rw [h1, List.count_append, List.count_eq_zero_of_not_mem fun h => ((hun 3).1 h).2 (by simp)]
    rfl

/-! ## C45 -/

/-- C45.  `values_to_rvs` inverts `rvs_to_values` iff the value variables are distinct. -/
theorem C45_inverse_iff_partial (name : Nat → Option String) {iter : List Nat → List Nat}
    {obs : List Nat} {d : Dict Nat Nat} (hd : IsDict d) {det : List Nat} {m : ModelInfo}
    (h : postInit name iter obs d det = .ok m) :
    (∀ rv v, m.rvsToValues.get? rv = some v → m.valuesToRvs.get? v = some rv) ↔
      (d.map Prod.snd).Nodup := by
  rcases postInit_eq name iter obs d det with ⟨k, hk, hkd, h'⟩ | ⟨uv, ov, hun, hob, h'⟩
  · rw [h'] at h
    cases h
  · rcases h' with ⟨-, h'⟩ | ⟨-, -, h'⟩ | ⟨-, hnd, h'⟩ <;> rw [h'] at h
    · cases h
    · cases h
    · injection h with h
      subst h
      rw [← get?_values hd]
      exact ⟨fun h rv v hp => h rv v (Dict.get?_of_mem d hd rv v hp),
        fun h rv v hp => h rv v (Dict.mem_of_get? d rv v hp)⟩

example : ∃ m, postInit exName exIter [3] [(1, 2), (3, 4)] [5] = .ok m ∧
    ∀ rv v, m.rvsToValues.get? rv = some v → m.valuesToRvs.get? v = some rv := by
  obtain ⟨m, hm⟩ := exAccepted
  exact ⟨m, hm, (C45_inverse_iff_partial exName (by simp [IsDict]) hm).2 (by simp)⟩

/-- C45 fails when two random variables are given the same value variable: the model is accepted and one
of the two is lost. -/
theorem C45_shared_value_violated : ∃ m, postInit exName exIter [3] [(1, 2), (3, 2)] [] = .ok m ∧
    m.rvsToValues.get? 1 = some 2 ∧ m.valuesToRvs.get? 2 ≠ some 1 := by
  have hd : IsDict [(1, 2), (3, 2)] := by simp [IsDict]
  obtain ⟨m, hm⟩ := (C44_accepts exName exIter_ok [3] hd []).2.2.2.2
    ⟨by intro o ho; simp at ho; subst ho; exact ⟨2, by simp⟩, fun v _ => exName_ne v,
      fun _ _ _ _ h => exName_inj h⟩
  obtain ⟨-, h2, -⟩ := C43_split_partial exName hm
  refine ⟨m, hm, by rw [h2]; rfl, fun h => ?_⟩
  rcases postInit_eq exName exIter [3] [(1, 2), (3, 2)] [] with
    ⟨k, hk, hkd, h'⟩ | ⟨uv, ov, hun, hob, ⟨-, h'⟩ | ⟨-, -, h'⟩ | ⟨-, -, h'⟩⟩ <;> rw [h'] at hm
  · cases hm
  · cases hm
  · cases hm
  · injection hm with hm
    subst hm
    have h : (Dict.update [] [((2 : Nat), (1 : Nat)), (2, 3)]).get? 2 = some 1 := h
    exact absurd h (by decide)

end Verif.Info
