import Verif.Nuts.Spec
import Mathlib.Tactic.NormNum

/-!
# Helper lemmas for the NUTS step
-/

namespace Verif.Nuts

open Verif.Py

variable {V R : Type} [DecidableEq V]

theorem cumsum_length (acc : Nat) (ns : List Nat) : (cumsum acc ns).length = ns.length := by
  induction ns generalizing acc with
  | nil => rfl
  | cons n ns ih => simp [cumsum, ih]

theorem cumsum_getElem? (acc : Nat) (ns : List Nat) (i : Nat) (h : i < ns.length) :
    (cumsum acc ns)[i]? = some (acc + (ns.take (i + 1)).sum) := by
  induction ns generalizing acc i with
  | nil => simp at h
  | cons n ns ih =>
    cases i with
    | zero => simp [cumsum]
    | succ i =>
      rw [cumsum, List.getElem?_cons_succ, ih _ _ (by simpa using h), List.take_succ_cons,
        List.sum_cons]
      simp only [Option.some.injEq]
      omega

theorem slices_length (ns : List Nat) : (slices ns).length = ns.length := by
  simp only [slices, List.length_zip, List.length_cons, List.length_dropLast, cumsum_length]
  omega

theorem slices_getElem? (ns : List Nat) (i : Nat) (h : i < ns.length) :
    (slices ns)[i]? = some ((ns.take i).sum, (ns.take (i + 1)).sum) := by
  rw [slices, List.getElem?_zip_eq_some]
  constructor
  · cases i with
    | zero => simp
    | succ i =>
      rw [List.getElem?_cons_succ, List.getElem?_dropLast, cumsum_length, if_pos (by omega),
        cumsum_getElem? _ _ _ (by omega), Nat.zero_add]
  · rw [cumsum_getElem? _ _ _ h, Nat.zero_add]

theorem sum_take_succ (ns : List Nat) (i : Nat) (h : i < ns.length) :
    (ns.take (i + 1)).sum = (ns.take i).sum + ns[i] := by
  rw [List.take_succ_eq_append_getElem h, List.sum_append]
  simp

theorem sum_take_le (ns : List Nat) (i : Nat) : (ns.take i).sum ≤ ns.sum := by
  conv_rhs => rw [← List.take_append_drop i ns, List.sum_append]
  omega

/-- The blocks of a vector. -/
def blocks (sizes : List Nat) (q : List R) : List (List R) :=
  (slices sizes).map fun s => (q.take s.2).drop s.1

theorem blocks_getElem? (sizes : List Nat) (q : List R) (i : Nat) (h : i < sizes.length) :
    (blocks sizes q)[i]? = some ((q.take (sizes.take (i + 1)).sum).drop (sizes.take i).sum) := by
  rw [blocks, List.getElem?_map, slices_getElem? _ _ h]
  rfl

theorem blocks_length (sizes : List Nat) (q : List R) : (blocks sizes q).length = sizes.length := by
  rw [blocks, List.length_map, slices_length]

theorem block_length (sizes : List Nat) (q : List R) (i : Nat) (h : i < sizes.length)
    (hq : sizes.sum ≤ q.length) :
    ((q.take (sizes.take (i + 1)).sum).drop (sizes.take i).sum).length = sizes[i] := by
  have h1 := sum_take_le sizes (i + 1)
  have h2 := sum_take_succ sizes i h
  rw [List.length_drop, List.length_take]
  omega

theorem ravel_block (xs : List (Arr R)) (i : Nat) (h : i < xs.length) :
    ((ravel xs).take ((xs.map fun a => a.data.length).take (i + 1)).sum).drop
      ((xs.map fun a => a.data.length).take i).sum = xs[i].data := by
  induction xs generalizing i with
  | nil => simp at h
  | cons x xs ih =>
    cases i with
    | zero => simp [ravel]
    | succ i =>
      have := ih i (by simpa using h)
      simp only [ravel, List.flatMap_cons, List.map_cons, List.take_succ_cons, List.sum_cons,
        List.getElem_cons_succ] at this ⊢
      rw [← this, List.take_append, List.drop_append]
      simp

theorem ravel_length (xs : List (Arr R)) : (ravel xs).length = (xs.map fun a => a.data.length).sum := by
  simp [ravel, List.length_flatMap]

theorem mapM_some_iff {α β : Type} (f : α → Option β) (l : List α) (r : List β) :
    l.mapM f = some r ↔ l.length = r.length ∧ ∀ (i : Nat) (a : α), l[i]? = some a → ∃ b, r[i]? = some b ∧ f a = some b := by
  induction l generalizing r with
  | nil =>
    cases r with
    | nil => simp
    | cons b r => simp
  | cons a l ih =>
    rw [List.mapM_cons]
    constructor
    · intro h
      rcases ha : f a with _ | b
      · simp [ha] at h
      · rcases hl : l.mapM f with _ | r'
        · simp [ha, hl] at h
        · simp only [ha, hl, Option.bind_eq_bind, Option.bind_some, Option.pure_def,
            Option.some.injEq] at h
          subst h
          obtain ⟨h1, h2⟩ := (ih r').1 hl
          refine ⟨by simp [h1], fun i x hx => ?_⟩
          cases i with
          | zero =>
            simp only [List.getElem?_cons_zero, Option.some.injEq] at hx
            subst hx
            exact ⟨b, by simp, ha⟩
          | succ i =>
            simpa using h2 i x (by simpa using hx)
    · rintro ⟨h1, h2⟩
      cases r with
      | nil => simp at h1
      | cons b r =>
        obtain ⟨b', hb, hf⟩ := h2 0 a (by simp)
        simp only [List.getElem?_cons_zero, Option.some.injEq] at hb
        subst hb
        have := (ih r).2 ⟨by simpa using h1, fun i x hx => by
          simpa using h2 (i + 1) x (by simpa using hx)⟩
        simp [hf, this]

/-- What `unravel` returns. -/
theorem unravel_eq {keys : List V} {shapes : List (List Nat)} (hk : keys.Nodup)
    (hl : keys.length = shapes.length) {q : List R} (hq : (shapes.map List.prod).sum ≤ q.length) :
    ∃ ys : List (Arr R), ys.length = shapes.length ∧ ys.map Arr.shape = shapes ∧ (∀ y ∈ ys, y.WF) ∧
      ys.map Arr.data = blocks (shapes.map List.prod) q ∧ unravel keys shapes q = some (keys.zip ys) := by
  let sizes := shapes.map List.prod
  let ys : List (Arr R) := List.zipWith Arr.mk shapes (blocks sizes q)
  have hlb : (blocks sizes q).length = shapes.length := by simp [blocks_length, sizes]
  have hys : ys.length = shapes.length := by
    simp only [ys, List.length_zipWith, hlb]
    exact Nat.min_self _
  have hget : ∀ i (h : i < shapes.length), ys[i]? = some ⟨shapes[i],
      (q.take (sizes.take (i + 1)).sum).drop (sizes.take i).sum⟩ := by
    intro i h
    have hb := blocks_getElem? sizes q i (by simpa [sizes] using h)
    simp only [ys, List.getElem?_zipWith, List.getElem?_eq_getElem h, hb]
  have hlen : ∀ i (h : i < shapes.length),
      ((q.take (sizes.take (i + 1)).sum).drop (sizes.take i).sum).length = (shapes[i]).prod := by
    intro i h
    rw [block_length sizes q i (by simpa [sizes] using h) hq]
    simp [sizes]
  refine ⟨ys, hys, ?_, ?_, ?_, ?_⟩
  · apply List.ext_getElem?
    intro i
    by_cases h : i < shapes.length
    · rw [List.getElem?_map, hget i h, List.getElem?_eq_getElem h]
      rfl
    · rw [List.getElem?_eq_none (by simpa [hys] using h), List.getElem?_eq_none (by simpa using h)]
  · intro y hy
    obtain ⟨i, hi⟩ := List.mem_iff_getElem?.1 hy
    have h : i < shapes.length := by
      rw [← hys]
      exact (List.getElem?_eq_some_iff.1 hi).1
    rw [hget i h] at hi
    rw [← Option.some.inj hi]
    exact hlen i h
  · apply List.ext_getElem?
    intro i
    by_cases h : i < shapes.length
    · rw [List.getElem?_map, hget i h, blocks_getElem? _ _ _ (by simpa [sizes] using h)]
      rfl
    · rw [List.getElem?_eq_none (by simpa [hys] using h),
        List.getElem?_eq_none (by simpa [blocks_length] using h)]
  · have hz : (keys.zip ys).map Prod.fst = keys := List.map_fst_zip (by omega)
    have hm : ((keys.zip ((blocks sizes q).zip shapes)).mapM fun p =>
        (reshape p.2.1 p.2.2).map fun a => (p.1, a)) = some (keys.zip ys) := by
      rw [mapM_some_iff]
      refine ⟨by simp [hlb, hys], fun i p hp => ?_⟩
      rw [List.getElem?_zip_eq_some, List.getElem?_zip_eq_some] at hp
      obtain ⟨h1, h2, h3⟩ := hp
      have h : i < shapes.length := (List.getElem?_eq_some_iff.1 h3).1
      rw [blocks_getElem? _ _ _ (by simpa [sizes] using h)] at h2
      rw [List.getElem?_eq_getElem h] at h3
      have h2' := Option.some.inj h2
      have h3' := Option.some.inj h3
      refine ⟨(p.1, _), List.getElem?_zip_eq_some.2 ⟨h1, hget i h⟩, ?_⟩
      rw [← h2', ← h3', reshape, if_pos (hlen i h)]
      rfl
    unfold unravel
    have hb : (slices (shapes.map List.prod)).map (fun s => (q.take s.2).drop s.1) = blocks sizes q := rfl
    simp only [hb, hm, Option.bind_eq_bind, Option.bind_some, Option.pure_def, Option.some.injEq]
    rw [Dict.update_nil_of_nodup [] _ (by simpa [hz] using hk), List.nil_append]

theorem unravel_ravel {keys : List V} {xs : List (Arr R)} (hk : keys.Nodup)
    (hl : keys.length = xs.length) (hwf : ∀ x ∈ xs, x.WF) :
    unravel keys (xs.map Arr.shape) (ravel xs) = some (keys.zip xs) := by
  have hsz : (xs.map Arr.shape).map List.prod = xs.map fun a => a.data.length := by
    rw [List.map_map]
    exact List.map_congr_left fun x hx => (hwf x hx).symm
  obtain ⟨ys, h1, h2, _, h4, h5⟩ := unravel_eq (q := ravel xs) hk (shapes := xs.map Arr.shape)
    (by simpa using hl) (by rw [hsz, ravel_length])
  rw [h5]
  congr 1
  congr 1
  apply List.ext_getElem?
  intro i
  by_cases h : i < xs.length
  · have hy : i < ys.length := by simpa [h1] using h
    rw [List.getElem?_eq_getElem h, List.getElem?_eq_getElem hy]
    have hs : ys[i].shape = xs[i].shape := by
      have := congrArg (·[i]?) h2
      simpa [List.getElem?_eq_getElem h, List.getElem?_eq_getElem hy] using this
    have hd : ys[i].data = xs[i].data := by
      have := congrArg (·[i]?) h4
      simp only [List.getElem?_map, List.getElem?_eq_getElem hy] at this
      rw [hsz, blocks_getElem? _ _ _ (by simpa using h), ravel_block xs i h] at this
      simpa using this
    cases hyi : ys[i]
    cases hxi : xs[i]
    simp_all
  · rw [List.getElem?_eq_none (by simpa [h1] using h), List.getElem?_eq_none (by simpa using h)]

/-- The transforms looked up in the dictionary are those of the variables. -/
theorem transforms_get? (f : V → Option (Transform R)) {keys : List V} (hk : keys.Nodup) {rv : V}
    (h : rv ∈ keys) :
    (Dict.update [] (keys.map fun rv => (rv, f rv)) : Dict V (Option (Transform R))).get? rv =
      some (f rv) := by
  have hm : (keys.map fun rv => (rv, f rv)).map Prod.fst = keys := by
    rw [List.map_map]
    exact List.map_id _
  rw [Dict.update_nil_of_nodup [] _ (by rw [List.nil_append, hm]; exact hk), List.nil_append]
  exact Dict.get?_of_mem _ (by rw [Dict.keys, hm]; exact hk) _ _ (List.mem_map.2 ⟨rv, h, rfl⟩)

end Verif.Nuts
