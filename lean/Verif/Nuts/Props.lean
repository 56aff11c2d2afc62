import Verif.Nuts.Lemmas
import Verif.Nuts.Transforms

/-!
# C48–C50: the NUTS step
-/

namespace Verif.Nuts

open Verif.Py

variable {V R : Type} [DecidableEq V]

/-! ## C49 -/

/-- C49.  Flattening and unflattening gives every variable its own array back, for all shapes. -/
theorem C49_roundtrip {keys : List V} {xs : List (Arr R)} (hk : keys.Nodup)
    (hl : keys.length = xs.length) (hwf : ∀ x ∈ xs, x.WF) :
    ∃ d, unravel keys (xs.map Arr.shape) (ravel xs) = some d ∧ d.keys = keys ∧
      ∀ (i : Nat) (v : V) (x : Arr R), keys[i]? = some v → xs[i]? = some x → d.get? v = some x := by
  have hz : (keys.zip xs).map Prod.fst = keys := List.map_fst_zip (by omega)
  refine ⟨_, unravel_ravel hk hl hwf, hz, fun i v x hv hx => ?_⟩
  refine Dict.get?_of_mem _ (by rw [Dict.keys, hz]; exact hk) _ _ (List.mem_iff_getElem?.2 ⟨i, ?_⟩)
  exact List.getElem?_zip_eq_some.2 ⟨hv, hx⟩

/-- A scalar, an empty array and a matrix. -/
example : ∃ d, unravel (V := Nat) [10, 11, 12] [[], [0], [2, 2]] (ravel [⟨[], [1]⟩, ⟨[0], []⟩,
    ⟨[2, 2], [2, 3, 4, 5]⟩]) = some d ∧ d.get? 12 = some ⟨[2, 2], [2, 3, 4, 5]⟩ := by
  obtain ⟨d, h, -, h'⟩ := C49_roundtrip (V := Nat) (R := Nat) (keys := [10, 11, 12])
    (xs := [⟨[], [1]⟩, ⟨[0], []⟩, ⟨[2, 2], [2, 3, 4, 5]⟩]) (by decide) rfl (by simp [Arr.WF])
  exact ⟨d, h, h' 2 12 _ rfl rfl⟩

/-- C49.  Any flat vector of the right length is divided into consecutive blocks, one per variable, in the
shapes of the variables; flattening them again gives the vector. -/
theorem C49_blocks {keys : List V} {shapes : List (List Nat)} (hk : keys.Nodup)
    (hl : keys.length = shapes.length) {q : List R} (hq : q.length = (shapes.map List.prod).sum) :
    ∃ d, unravel keys shapes q = some d ∧ d.keys = keys ∧ ravel (d.map Prod.snd) = q ∧
      ∀ (i : Nat) (v : V) (s : List Nat), keys[i]? = some v → shapes[i]? = some s →
        ∃ y, d.get? v = some y ∧ y.shape = s ∧ y.WF ∧
          ∀ j, j < s.prod → y.data[j]? = blockEntry (shapes.map List.prod) q i j := by
  obtain ⟨ys, h1, h2, h3, h4, h5⟩ := unravel_eq hk hl hq.ge
  have hz : (keys.zip ys).map Prod.fst = keys := List.map_fst_zip (by omega)
  have hz2 : (keys.zip ys).map Prod.snd = ys := List.map_snd_zip (by omega)
  have hlen : (shapes.map List.prod).length = shapes.length := List.length_map _
  refine ⟨_, h5, hz, ?_, fun i v s hv hs => ?_⟩
  · rw [hz2, ravel, List.flatMap_def, h4]
    have key : ∀ n, n ≤ shapes.length → ((blocks (shapes.map List.prod) q).take n).flatten =
        q.take ((shapes.map List.prod).take n).sum := by
      intro n
      induction n with
      | zero => simp
      | succ n ih =>
        intro hn
        have hb := blocks_getElem? (shapes.map List.prod) q n (by omega)
        have hlt : n < (blocks (shapes.map List.prod) q).length := by
          rw [blocks_length]
          omega
        rw [List.getElem?_eq_getElem hlt, Option.some.injEq] at hb
        rw [List.take_succ_eq_append_getElem hlt, List.flatten_append, ih (by omega), hb]
        simp only [List.flatten_cons, List.flatten_nil, List.append_nil]
        have hle := sum_take_succ (shapes.map List.prod) n (by omega)
        rw [show q.take ((shapes.map List.prod).take n).sum =
            (q.take ((shapes.map List.prod).take (n + 1)).sum).take ((shapes.map List.prod).take n).sum by
          rw [List.take_take, Nat.min_eq_left (by omega)]]
        exact List.take_append_drop _ _
    have := key shapes.length le_rfl
    rw [List.take_of_length_le (by rw [blocks_length, hlen]), 
      List.take_of_length_le (l := shapes.map List.prod) (by rw [hlen])] at this
    rw [this, List.take_of_length_le hq.le]
  · have hi : i < shapes.length := (List.getElem?_eq_some_iff.1 hs).1
    have hy : i < ys.length := by omega
    refine ⟨ys[i], ?_, ?_, h3 _ (List.getElem_mem hy), fun j hj => ?_⟩
    · refine Dict.get?_of_mem _ (by rw [Dict.keys, hz]; exact hk) _ _ (List.mem_iff_getElem?.2 ⟨i, ?_⟩)
      exact List.getElem?_zip_eq_some.2 ⟨hv, List.getElem?_eq_getElem hy⟩
    · have := congrArg (·[i]?) h2
      simp only [List.getElem?_map, List.getElem?_eq_getElem hy, hs, Option.map_some,
        Option.some.injEq] at this
      exact this
    · have := congrArg (·[i]?) h4
      simp only [List.getElem?_map, List.getElem?_eq_getElem hy, Option.map_some] at this
      rw [blocks_getElem? _ _ _ (by omega)] at this
      have hs2 : (shapes.map List.prod)[i]'(by omega) = s.prod := by
        rw [List.getElem?_eq_getElem hi, Option.some.injEq] at hs
        simp [hs]
      have hle := sum_take_succ (shapes.map List.prod) i (by omega)
      rw [Option.some.inj this, List.getElem?_drop, List.getElem?_take, if_pos (by omega), blockEntry]

/-- C49.  A flat vector that is too short is an error. -/
theorem C49_short {keys : List V} {shapes : List (List Nat)} (hl : keys.length = shapes.length) {q : List R}
    (hq : q.length < (shapes.map List.prod).sum) : unravel keys shapes q = none := by
  have hlen : (shapes.map List.prod).length = shapes.length := List.length_map _
  unfold unravel
  have hb : (slices (shapes.map List.prod)).map (fun s => (q.take s.2).drop s.1) =
      blocks (shapes.map List.prod) q := rfl
  rcases hm : (keys.zip ((blocks (shapes.map List.prod) q).zip shapes)).mapM (fun p =>
        (reshape p.2.1 p.2.2).map fun a => (p.1, a)) with _ | r
  · simp only [hb, hm]
    rfl
  · exfalso
    rw [mapM_some_iff] at hm
    have key : ∀ n, n ≤ shapes.length → ((shapes.map List.prod).take n).sum ≤ q.length := by
      intro n
      induction n with
      | zero => simp
      | succ n ih =>
        intro hn
        have hb := blocks_getElem? (shapes.map List.prod) q n (by omega)
        obtain ⟨b, _, hr⟩ := hm.2 n (keys[n]'(by omega), _, shapes[n]'(by omega))
          (List.getElem?_zip_eq_some.2 ⟨List.getElem?_eq_getElem (by omega),
            List.getElem?_zip_eq_some.2 ⟨hb, List.getElem?_eq_getElem (by omega)⟩⟩)
        simp only [Option.map_eq_some_iff, reshape] at hr
        obtain ⟨a, ha, _⟩ := hr
        split at ha
        · rename_i hlen'
          rw [List.length_drop, List.length_take] at hlen'
          have hle := sum_take_succ (shapes.map List.prod) n (by omega)
          have hg : (shapes.map List.prod)[n]'(by omega) = (shapes[n]'(by omega)).prod := by simp
          have := ih (by omega)
          omega
        · simp at ha
    have := key shapes.length le_rfl
    rw [List.take_of_length_le (by rw [hlen])] at this
    omega

/-- A scalar, an empty array and a matrix. -/
example : unravel [10, 11, 12] [[], [0], [2, 2]] [1, 2, 3, 4, 5] =
    some [(10, ⟨[], [1]⟩), (11, ⟨[0], []⟩), (12, ⟨[2, 2], [2, 3, 4, 5]⟩)] := by decide

example : ∃ d, unravel (V := Nat) [10, 11, 12] [[], [0], [2, 2]] [1, 2, 3, 4, 5] = some d ∧ d.keys = [10, 11, 12] :=
  let ⟨d, h, h', _⟩ := C49_blocks (V := Nat) (keys := [10, 11, 12]) (shapes := [[], [0], [2, 2]]) (q := [1, 2, 3, 4, 5])
    (by decide) rfl rfl
  ⟨d, h, h'⟩

/-! ## C48 -/

/-- The transformed current values. -/
def transformed (M : Model V R) (env : V → Arr R) (toSample : Dict V (Arr R)) : List (Arr R) :=
  toSample.map fun p => transformForward M env p.1 p.2 (M.transform p.1)

theorem step_eq (M : Model V R) (kernel : (List R → Option R) → List R → List R) (env : V → Arr R)
    {toSample : Dict V (Arr R)} {placeholders : List V} (hn : toSample.keys.Nodup)
    (hp : placeholders.Nodup) (hl : placeholders.length = toSample.length)
    {ys : List (Arr R)} (hys : ys.length = toSample.length)
    (hu : unravel placeholders ((transformed M env toSample).map Arr.shape)
      (kernel (logprobFn M env placeholders ((transformed M env toSample).map Arr.shape))
        (ravel (transformed M env toSample))) = some (placeholders.zip ys)) :
    step M kernel env toSample placeholders =
      some (toSample.keys.zip (List.zipWith
        (fun rv y => transformBackward M env rv y (M.transform rv)) toSample.keys ys)) := by
  have hget := fun rv (h : rv ∈ toSample.keys) => transforms_get? M.transform hn h
  have hz : toSample.keys.zip (toSample.map Prod.snd) = toSample := by
    rw [Dict.keys, ← List.unzip_fst, ← List.unzip_snd]
    exact List.zip_unzip _
  have h1 : (toSample.mapM fun p => ((Dict.update [] (toSample.keys.map fun rv => (rv, M.transform rv)) :
        Dict V (Option (Transform R))).get? p.1).map (transformForward M env p.1 p.2)) =
      some (transformed M env toSample) := by
    rw [mapM_some_iff]
    refine ⟨by simp [transformed], fun i p hp => ?_⟩
    refine ⟨_, by rw [transformed, List.getElem?_map, hp]; rfl, ?_⟩
    rw [hget p.1 (List.mem_map.2 ⟨p, List.mem_of_getElem? hp, rfl⟩)]
    rfl
  have hz1 : (placeholders.zip ys).map Prod.fst = placeholders := List.map_fst_zip (by omega)
  have h2 : ((toSample.keys.zip placeholders).mapM fun p => do
      let t ← (Dict.update [] (toSample.keys.map fun rv => (rv, M.transform rv)) :
        Dict V (Option (Transform R))).get? p.1
      let x ← Dict.get? (placeholders.zip ys) p.2
      return (p.1, transformBackward M env p.1 x t)) =
      some (toSample.keys.zip (List.zipWith
        (fun rv y => transformBackward M env rv y (M.transform rv)) toSample.keys ys)) := by
    rw [mapM_some_iff]
    have hk : toSample.keys.length = toSample.length := List.length_map _
    refine ⟨by simp [hl, hys], fun i p hi => ?_⟩
    rw [List.getElem?_zip_eq_some] at hi
    have hlt : i < ys.length := by
      rw [hys, ← hl]
      exact (List.getElem?_eq_some_iff.1 hi.2).1
    refine ⟨(p.1, transformBackward M env p.1 ys[i] (M.transform p.1)),
      List.getElem?_zip_eq_some.2 ⟨hi.1, ?_⟩, ?_⟩
    · simp only [List.getElem?_zipWith, hi.1, List.getElem?_eq_getElem hlt]
    · rw [hget p.1 (List.mem_of_getElem? hi.1), Dict.get?_of_mem (placeholders.zip ys)
        (by rw [Dict.keys, hz1]; exact hp) p.2 ys[i] (List.mem_iff_getElem?.2 ⟨i,
          List.getElem?_zip_eq_some.2 ⟨hi.2, List.getElem?_eq_getElem hlt⟩⟩)]
      rfl
  unfold step
  simp only [hz, h1, Option.bind_eq_bind, Option.bind_some, hu]
  simp only [Option.bind_eq_bind, Option.pure_def] at h2
  simp only [h2, Option.bind_some, Option.pure_def, Option.some.injEq]
  have hz3 : (toSample.keys.zip (List.zipWith
        (fun rv y => transformBackward M env rv y (M.transform rv)) toSample.keys ys)).map Prod.fst =
      toSample.keys := by
    refine List.map_fst_zip ?_
    simp [hys]
  rw [Dict.update_nil_of_nodup [] _ (by rw [List.nil_append, hz3]; exact hn), List.nil_append]

/-- C48.  What the kernel gets: the position `q` holds every variable's own forward transform in its own
block; the log density `f`, at any position of that length, is the model's with every variable's placeholder
replaced by that variable's block.  With any kernel that keeps the length of the position, the new value of
every variable is its own backward transform of its own block of the new position. -/
theorem C48_wiring (M : Model V R) (env : V → Arr R)
    {toSample : Dict V (Arr R)} {placeholders : List V} (hn : toSample.keys.Nodup)
    (hp : placeholders.Nodup) (hl : placeholders.length = toSample.length)
    (hwf : ∀ p ∈ toSample, (transformForward M env p.1 p.2 (M.transform p.1)).WF) (sizes : List Nat)
    (hsizes : sizes = toSample.map fun p =>
      (transformForward M env p.1 p.2 (M.transform p.1)).shape.prod) :
    ∃ (f : List R → Option R) (q : List R), q.length = sizes.sum ∧
      (∀ (i : Nat) rv x, toSample[i]? = some (rv, x) → ∀ j < sizes[i]?.getD 0,
        blockEntry sizes q i j = (transformForward M env rv x (M.transform rv)).data[j]?) ∧
      (∀ q' : List R, q'.length = sizes.sum → ∃ σ, f q' = some (M.logprob σ) ∧
        (∀ v, v ∉ placeholders → σ v = env v) ∧
        ∀ (i : Nat) ph rv x, placeholders[i]? = some ph → toSample[i]? = some (rv, x) →
          (σ ph).shape = (transformForward M env rv x (M.transform rv)).shape ∧ (σ ph).WF ∧
          ∀ j < (σ ph).data.length, (σ ph).data[j]? = blockEntry sizes q' i j) ∧
      ∀ kernel : (List R → Option R) → List R → List R, (∀ f q, (kernel f q).length = q.length) →
      ∃ res, step M kernel env toSample placeholders = some res ∧ res.keys = toSample.keys ∧
        ∀ (i : Nat) rv x, toSample[i]? = some (rv, x) → ∃ y : Arr R,
          res.get? rv = some (transformBackward M env rv y (M.transform rv)) ∧
          y.shape = (transformForward M env rv x (M.transform rv)).shape ∧ y.WF ∧
          ∀ j < y.data.length, y.data[j]? = blockEntry sizes (kernel f q) i j := by
  have hk : toSample.keys.length = toSample.length := List.length_map _
  have htl : (transformed M env toSample).length = toSample.length := List.length_map _
  have hwf' : ∀ x ∈ transformed M env toSample, x.WF := by
    intro x hx
    obtain ⟨p, hp, rfl⟩ := List.mem_map.1 hx
    exact hwf p hp
  have hsz : ((transformed M env toSample).map Arr.shape).map List.prod =
      (transformed M env toSample).map fun a => a.data.length := by
    rw [List.map_map]
    exact List.map_congr_left fun x hx => (hwf' x hx).symm
  have hsz' : ((transformed M env toSample).map Arr.shape).map List.prod = sizes := by
    rw [hsizes, List.map_map, transformed, List.map_map]
    rfl
  have hti : ∀ (i : Nat) rv x, toSample[i]? = some (rv, x) →
      (transformed M env toSample)[i]? = some (transformForward M env rv x (M.transform rv)) := by
    intro i rv x hi
    rw [transformed, List.getElem?_map, hi]
    rfl
  let f := logprobFn M env placeholders ((transformed M env toSample).map Arr.shape)
  let q := ravel (transformed M env toSample)
  have hqlen : q.length = sizes.sum := by
    rw [← hsz', hsz, ravel_length]
  have hblk : ∀ q' : List R, q'.length = sizes.sum → ∃ ys : List (Arr R), ys.length = toSample.length ∧
      unravel placeholders ((transformed M env toSample).map Arr.shape) q' = some (placeholders.zip ys) ∧
      ∀ (i : Nat) rv x, toSample[i]? = some (rv, x) → ∃ y, ys[i]? = some y ∧
        y.shape = (transformForward M env rv x (M.transform rv)).shape ∧ y.WF ∧
        ∀ j < y.data.length, y.data[j]? = blockEntry sizes q' i j := by
    intro q' hq'
    obtain ⟨ys, h1, h2, h3, h4, h5⟩ := unravel_eq (q := q') hp
      (shapes := (transformed M env toSample).map Arr.shape) (by simp [hl, htl]) (by rw [hsz', hq'])
    have hys : ys.length = toSample.length := by simpa [htl] using h1
    refine ⟨ys, hys, h5, fun i rv x hi => ?_⟩
    have hlt : i < toSample.length := (List.getElem?_eq_some_iff.1 hi).1
    have hy : i < ys.length := by omega
    refine ⟨ys[i], List.getElem?_eq_getElem hy, ?_, h3 _ (List.getElem_mem hy), fun j hj => ?_⟩
    · have := congrArg (·[i]?) h2
      simp only [List.getElem?_map, List.getElem?_eq_getElem hy, hti i rv x hi, Option.map_some,
        Option.some.injEq] at this
      exact this
    · have := congrArg (·[i]?) h4
      simp only [List.getElem?_map, List.getElem?_eq_getElem hy, Option.map_some] at this
      rw [blocks_getElem? _ _ _ (by simp [htl, hlt])] at this
      have e := Option.some.inj this
      rw [e, List.length_drop, List.length_take] at hj
      rw [e, List.getElem?_drop, List.getElem?_take, if_pos (by omega), blockEntry, ← hsz']
  refine ⟨f, q, hqlen, fun i rv x hi j hj => ?_, fun q' hq' => ?_, fun kernel hker => ?_⟩
  · have hlt : i < (transformed M env toSample).length := by
      rw [htl]
      exact (List.getElem?_eq_some_iff.1 hi).1
    have hr := ravel_block (transformed M env toSample) i hlt
    have hx := hti i rv x hi
    rw [List.getElem?_eq_getElem hlt, Option.some.injEq] at hx
    rw [hx, ← hsz, hsz'] at hr
    have hls : i < sizes.length := by
      rw [hsizes, List.length_map, ← htl]
      exact hlt
    have hle := sum_take_succ sizes i hls
    rw [List.getElem?_eq_getElem hls, Option.getD_some] at hj
    rw [← hr, List.getElem?_drop, List.getElem?_take, if_pos (by omega), blockEntry]
  · obtain ⟨ys, h1, h2, h3⟩ := hblk q' hq'
    have hz : (placeholders.zip ys).map Prod.fst = placeholders := List.map_fst_zip (by omega)
    refine ⟨override env (placeholders.zip ys), ?_, fun v hv => ?_, fun i ph rv x h h' => ?_⟩
    · show logprobFn _ _ _ _ _ = _
      rw [logprobFn, h2]
      rfl
    · rw [override, (Dict.get?_eq_none_iff _ _).2 (by rw [Dict.keys, hz]; exact hv)]
      rfl
    · obtain ⟨y, hy, hrest⟩ := h3 i rv x h'
      rw [override, Dict.get?_of_mem _ (by rw [Dict.keys, hz]; exact hp) _ _
        (List.mem_iff_getElem?.2 ⟨i, List.getElem?_zip_eq_some.2 ⟨h, hy⟩⟩)]
      exact hrest
  · obtain ⟨ys, h1, h2, h3⟩ := hblk (kernel f q) (by rw [hker, hqlen])
    have hz3 : (toSample.keys.zip (List.zipWith
        (fun rv y => transformBackward M env rv y (M.transform rv)) toSample.keys ys)).map Prod.fst =
        toSample.keys := List.map_fst_zip (by simp [h1])
    refine ⟨_, step_eq M kernel env hn hp hl h1 h2, hz3, fun i rv x hi => ?_⟩
    have hki : toSample.keys[i]? = some rv := by
      rw [Dict.keys, List.getElem?_map, hi]
      rfl
    obtain ⟨y, hy, hrest⟩ := h3 i rv x hi
    refine ⟨y, ?_, hrest⟩
    refine Dict.get?_of_mem _ (by rw [Dict.keys, hz3]; exact hn) _ _ (List.mem_iff_getElem?.2 ⟨i, ?_⟩)
    refine List.getElem?_zip_eq_some.2 ⟨hki, ?_⟩
    simp only [List.getElem?_zipWith, hki, hy]

/-- C48.  A kernel that does not move returns exactly the current values, for values in the supports the
transforms are evaluated at.  Missing for the full property: when a parameter depends on another random
variable, the support is the one at that variable's draw, not at its value (`C48_support_violated`). -/
theorem C48_fixed_partial (M : Model V R) {supp : V → List (Arr R) → Arr R → Prop} (hM : Supports M supp)
    (kernel : (List R → Option R) → List R → List R) (hker : ∀ f q, kernel f q = q) (env : V → Arr R)
    {toSample : Dict V (Arr R)} {placeholders : List V} (hn : toSample.keys.Nodup)
    (hp : placeholders.Nodup) (hl : placeholders.length = toSample.length)
    (hs : ∀ p ∈ toSample, supp p.1 (M.inputs p.1 env) p.2) :
    step M kernel env toSample placeholders = some toSample := by
  have htl : (transformed M env toSample).length = toSample.length := List.length_map _
  have hwf' : ∀ x ∈ transformed M env toSample, x.WF := by
    intro x hx
    obtain ⟨p, hp, rfl⟩ := List.mem_map.1 hx
    rcases ht : M.transform p.1 with _ | t
    · exact hM.wf _ _ _ (hs p hp)
    · exact (hM.lawful _ _ ht).wf _ _ (hs p hp)
  have hr := unravel_ravel (xs := transformed M env toSample) hp (by omega) hwf'
  have := step_eq M kernel env hn hp hl htl (by rw [hker]; exact hr)
  rw [this, Option.some.injEq]
  apply List.ext_getElem?
  intro i
  rcases hi : toSample[i]? with _ | ⟨rv, x⟩
  · rw [List.getElem?_eq_none]
    rw [List.getElem?_eq_none_iff] at hi
    simp [htl, hi]
  · have hki : toSample.keys[i]? = some rv := by
      rw [Dict.keys, List.getElem?_map, hi]
      rfl
    have hti : (transformed M env toSample)[i]? = some (transformForward M env rv x (M.transform rv)) := by
      rw [transformed, List.getElem?_map, hi]
      rfl
    refine List.getElem?_zip_eq_some.2 ⟨hki, ?_⟩
    simp only [List.getElem?_zipWith, hki, hti, Option.some.injEq]
    have hx := hs (rv, x) (List.mem_of_getElem? hi)
    rcases ht : M.transform rv with _ | t
    · rfl
    · exact (hM.lawful _ _ ht).backward_forward _ _ hx

/-- C48.  If the parameters of the sampled variables depend on no random variable, the new state is in the
supports whenever the current state is.  Missing for the full property: parameters depending on random
variables, for which the code is wrong (`C48_support_violated`). -/
theorem C48_support_partial (M : Model V R) {supp : V → List (Arr R) → Arr R → Prop} (hM : Supports M supp)
    (kernel : (List R → Option R) → List R → List R) (hker : ∀ f q, (kernel f q).length = q.length)
    {rvs : List V} {env state : V → Arr R} (henv : ∀ v, v ∉ rvs → env v = state v)
    {toSample : Dict V (Arr R)} {placeholders : List V} (hn : toSample.keys.Nodup)
    (hsub : ∀ v ∈ toSample.keys, v ∈ rvs)
    (hindep : ∀ v ∈ toSample.keys, ∀ σ σ' : V → Arr R, (∀ v, v ∉ rvs → σ v = σ' v) →
      M.inputs v σ = M.inputs v σ')
    (hp : placeholders.Nodup) (hl : placeholders.length = toSample.length)
    (hval : ∀ p ∈ toSample, p.2 = state p.1)
    (hs : ∀ v ∈ toSample.keys, supp v (M.inputs v state) (state v)) :
    ∃ res, step M kernel env toSample placeholders = some res ∧ res.keys = toSample.keys ∧
      ∀ v ∈ toSample.keys, supp v (M.inputs v (override state res)) (override state res v) := by
  have hs' : ∀ p ∈ toSample, supp p.1 (M.inputs p.1 env) p.2 := by
    intro p hp
    have hk : p.1 ∈ toSample.keys := List.mem_map.2 ⟨p, hp, rfl⟩
    rw [hval p hp, hindep p.1 hk env state henv]
    exact hs _ hk
  obtain ⟨f, q, _, _, _, hstep⟩ := C48_wiring M env hn hp hl (by
    intro p hp
    rcases ht : M.transform p.1 with _ | t
    · exact hM.wf _ _ _ (hs' p hp)
    · exact (hM.lawful _ _ ht).wf _ _ (hs' p hp)) _ rfl
  obtain ⟨res, h1, h2, h4⟩ := hstep kernel hker
  refine ⟨res, h1, h2, fun v hv => ?_⟩
  obtain ⟨p, hpm, rfl⟩ := List.mem_map.1 hv
  obtain ⟨i, hi⟩ := List.mem_iff_getElem?.1 hpm
  obtain ⟨y, hy, hsh, hwf, _⟩ := h4 i p.1 p.2 hi
  have hin : M.inputs p.1 (override state res) = M.inputs p.1 env := by
    refine hindep p.1 hv _ _ fun w hw => ?_
    rw [override, (Dict.get?_eq_none_iff _ _).2 (by rw [h2]; exact fun h => hw (hsub w h)), henv w hw]
    rfl
  rw [hin, override, hy, Option.getD_some]
  have hx := hs' p hpm
  rcases ht : M.transform p.1 with _ | t
  · rw [ht] at hsh
    exact hM.free p.1 ht _ _ _ hx hwf hsh
  · rw [ht] at hsh
    exact (hM.lawful _ _ ht).backward_mem _ _ _ hx hwf hsh

/-! ## The model `θ` positive, `x ~ Uniform(0, θ)` -/

/-- Variable 0 is `θ`, with the logarithm as transform, variable 1 is `x`, with the interval transform
between 0 and an upper bound. -/
noncomputable def exModel (upper : (Nat → Arr ℝ) → Arr ℝ) : Model Nat ℝ where
  transform v := if v = 0 then some logTransform else if v = 1 then some intervalTransform else none
  inputs v σ := if v = 1 then [⟨[], [0]⟩, upper σ] else []
  logprob _ := 0

/-- The supports of the example. -/
def exSupp (v : Nat) : List (Arr ℝ) → Arr ℝ → Prop :=
  if v = 0 then allEntries (fun x => 0 < x) else if v = 1 then between else allEntries fun _ => True

/-- The current state `θ = 1`, `x = 1/2`. -/
noncomputable def exState (v : Nat) : Arr ℝ := if v = 0 then ⟨[], [1]⟩ else ⟨[], [1 / 2]⟩

/-- The values in the graph: the draw of `θ` is 4. -/
noncomputable def exEnv (v : Nat) : Arr ℝ := if v = 0 then ⟨[], [4]⟩ else ⟨[], [1 / 2]⟩

/-- A kernel that moves the second coordinate. -/
noncomputable def exKernel (_ : List ℝ → Option ℝ) : List ℝ → List ℝ
  | [a, _] => [a, Real.log 3]
  | q => q

theorem exSupports (upper : (Nat → Arr ℝ) → Arr ℝ) : Supports (exModel upper) exSupp where
  lawful rv t h := by
    unfold exModel at h
    unfold exSupp
    by_cases h0 : rv = 0
    · simp only [h0, if_true, Option.some.injEq] at h ⊢
      rw [← h]
      exact logTransform_lawful
    · by_cases h1 : rv = 1
      · simp only [h1, if_true, Option.some.injEq, one_ne_zero, if_false] at h ⊢
        rw [← h]
        exact intervalTransform_lawful
      · simp [h0, h1] at h
  wf rv inputs x h := by
    unfold exSupp at h
    split at h
    · exact h.1
    · split at h
      · exact h.1
      · exact h.1
  free rv h inputs x y hx hy hs := by
    unfold exModel at h
    unfold exSupp
    by_cases h0 : rv = 0
    · simp [h0] at h
    · by_cases h1 : rv = 1
      · simp [h1] at h
      · rw [if_neg h0, if_neg h1]
        exact ⟨hy, fun _ _ => trivial⟩

theorem exKernel_length (f : List ℝ → Option ℝ) (q : List ℝ) : (exKernel f q).length = q.length := by
  unfold exKernel
  split <;> rfl

theorem exState_supp (upper : (Nat → Arr ℝ) → Arr ℝ) (hu : upper exState = ⟨[], [1]⟩) :
    ∀ v ∈ [0, 1], exSupp v ((exModel upper).inputs v exState) (exState v) := by
  intro v hv
  rcases List.mem_cons.1 hv with rfl | hv
  · refine ⟨by simp [Arr.WF, exState], fun w hw => ?_⟩
    simp only [exState, if_true, List.mem_singleton] at hw
    rw [hw]
    exact one_pos
  · have h1 : v = 1 := by simpa using hv
    subst h1
    refine ⟨by simp [Arr.WF, exState], ⟨[], [0]⟩, ⟨[], [1]⟩, [], ?_, by simp [exState], by simp [exState], ?_⟩
    · simp [exModel, hu]
    · intro i a b w ha hb hw
      rcases i with _ | i
      · simp only [exState, one_ne_zero, if_false, List.getElem?_cons_zero, Option.some.injEq] at ha hb hw
        subst ha hb hw
        norm_num
      · simp at ha

/-- A kernel that stays where it is leaves `θ = 1`, `x = 1/2`. -/
example : step (exModel fun _ => ⟨[], [1]⟩) (fun _ q => q) exEnv [(0, exState 0), (1, exState 1)] [10, 11] =
    some [(0, exState 0), (1, exState 1)] :=
  C48_fixed_partial (exModel fun _ => ⟨[], [1]⟩) (exSupports _) _ (fun _ _ => rfl) exEnv (by decide) (by decide) rfl
    (fun p hp => by
      rcases List.mem_cons.1 hp with rfl | hp
      · exact exState_supp (fun _ => ⟨[], [1]⟩) rfl 0 (by simp)
      · rw [List.mem_singleton.1 hp]
        exact exState_supp (fun _ => ⟨[], [1]⟩) rfl 1 (by simp))

/-- The hypotheses of `C48_support_partial` are met when the upper bound is a constant. -/
example : ∃ res, step (exModel fun _ => ⟨[], [1]⟩) exKernel exEnv [(0, exState 0), (1, exState 1)] [10, 11] =
      some res ∧ res.keys = [0, 1] ∧ ∀ v ∈ [0, 1], exSupp v
        ((exModel fun _ => ⟨[], [1]⟩).inputs v (override exState res)) (override exState res v) :=
  C48_support_partial (exModel fun _ => ⟨[], [1]⟩) (exSupports _) exKernel exKernel_length (rvs := [0, 1])
    (env := exEnv) (state := exState) (fun v hv => by
      have : v ≠ 0 := fun h => hv (by simp [h])
      simp [exEnv, exState, this]) (by decide) (fun v hv => hv) (fun _ _ _ _ _ => rfl) (by decide) rfl
    (fun p hp => by
      rcases List.mem_cons.1 hp with rfl | hp
      · rfl
      · rw [List.mem_singleton.1 hp])
    (exState_supp _ rfl)

/-- C48 fails for `x ~ Uniform(0, θ)` with `θ` sampled too: the state `θ = 1`, `x = 1/2` is in the supports
and the kernel keeps the length of the position, but the new state `θ = 1`, `x = 3` is not, because the
transforms of `x` use the draw of `θ` (here 4) made in the graph instead of its value. -/
theorem C48_support_violated :
    (∀ v ∈ [0, 1], exSupp v ((exModel fun σ => σ 0).inputs v exState) (exState v)) ∧
    step (exModel fun σ => σ 0) exKernel exEnv [(0, exState 0), (1, exState 1)] [10, 11] =
      some [(0, ⟨[], [1]⟩), (1, ⟨[], [3]⟩)] ∧
    ¬ exSupp 1 ((exModel fun σ => σ 0).inputs 1 (override exState [(0, ⟨[], [1]⟩), (1, ⟨[], [3]⟩)]))
      (override exState [(0, ⟨[], [1]⟩), (1, ⟨[], [3]⟩)] 1) := by
  refine ⟨exState_supp _ rfl, ?_, ?_⟩
  · have := step_eq (exModel fun σ => σ 0) exKernel exEnv
      (toSample := [(0, exState 0), (1, exState 1)]) (placeholders := [10, 11]) (by decide) (by decide) rfl
      (ys := [⟨[], [Real.log 1]⟩, ⟨[], [Real.log 3]⟩]) rfl
      (unravel_ravel (V := Nat) (R := ℝ) (keys := [10, 11])
        (xs := [⟨[], [Real.log 1]⟩, ⟨[], [Real.log 3]⟩]) (by decide) rfl (by simp [Arr.WF]))
    rw [this]
    have hs : sigmoid (Real.log 3) = 3 / 4 := by
      have := sigmoid_log (p := 3) (q := 1) (by norm_num) (by norm_num)
      rw [Real.log_one, sub_zero] at this
      rw [this]
      norm_num
    simp only [Dict.keys, List.map_cons, List.map_nil, List.zipWith_cons_cons, List.zipWith_nil_right,
      transformBackward, exModel, if_true, one_ne_zero, if_false, logTransform, mapTransform,
      intervalTransform, List.zip_cons_cons, List.zip_nil_right, exEnv, hs, Real.log_one, Real.exp_zero]
    norm_num
  · intro h
    obtain ⟨_, a, b, r, he, _, _, hi⟩ := h
    have hin : (exModel fun σ => σ 0).inputs 1 (override exState [(0, ⟨[], [1]⟩), (1, ⟨[], [3]⟩)]) =
        [⟨[], [0]⟩, ⟨[], [1]⟩] := by
      simp [exModel, override, Dict.get?]
    rw [hin] at he
    injection he with h1 he
    injection he with h2 he
    have := (hi 0 0 1 3 (by rw [← h1]; rfl) (by rw [← h2]; rfl) (by simp [override, Dict.get?])).2
    norm_num at this

/-! ## C50 -/

/-- C50.  For results in the order of the sampled variables: variable `i` is mapped to output `i`, which is
its result; nothing else is mapped; and the outputs after the results are exactly the updates. -/
theorem C50_outputs {O : Type} {toSample : List V} {results : Dict V O} (hn : toSample.Nodup)
    (hk : results.keys = toSample) (updates : List O) :
    let r := samplerOutputs toSample results updates
    r.2.1.keys = toSample ∧ r.2.2 = updates ∧
      ∀ rv o, results.get? rv = some o ↔ ∃ i, r.2.1.get? rv = some i ∧ i < toSample.length ∧
        r.1[i]? = some o := by
  have hz : toSample.zipIdx.map Prod.fst = toSample := by simp
  have hu : (Dict.update [] toSample.zipIdx : Dict V Nat) = toSample.zipIdx := by
    rw [Dict.update_nil_of_nodup [] _ (by rw [List.nil_append, hz]; exact hn), List.nil_append]
  have hlen : results.length = toSample.length := by
    rw [← hk, Dict.keys, List.length_map]
  intro r
  have hr1 : r.1 = results.map Prod.snd ++ updates := rfl
  have hr2 : r.2.1 = toSample.zipIdx := hu
  have hr3 : r.2.2 = r.1.drop r.2.1.length := rfl
  have hget : ∀ rv i, r.2.1.get? rv = some i ↔ toSample[i]? = some rv := by
    intro rv i
    rw [hr2]
    constructor
    · intro h
      exact List.mem_zipIdx_iff_getElem?.1 (Dict.mem_of_get? _ _ _ h)
    · intro h
      exact Dict.get?_of_mem _ (by rw [Dict.keys, hz]; exact hn) _ _ (List.mem_zipIdx_iff_getElem?.2 h)
  refine ⟨by rw [hr2]; exact hz, ?_, fun rv o => ?_⟩
  · rw [hr3, hr1, hr2, List.length_zipIdx, ← hlen]
    exact List.drop_left' (by simp)
  · constructor
    · intro h
      obtain ⟨i, hi⟩ := List.mem_iff_getElem?.1 (Dict.mem_of_get? _ _ _ h)
      have hki : toSample[i]? = some rv := by
        rw [← hk, Dict.keys, List.getElem?_map, hi]
        rfl
      have hlt := (List.getElem?_eq_some_iff.1 hki).1
      refine ⟨i, (hget rv i).2 hki, hlt, ?_⟩
      rw [hr1, List.getElem?_append_left (by simpa [hlen] using hlt), List.getElem?_map, hi]
      rfl
    · rintro ⟨i, h1, hlt, h2⟩
      have hki := (hget rv i).1 h1
      rw [hr1, List.getElem?_append_left (by simpa [hlen] using hlt), List.getElem?_map] at h2
      obtain ⟨p, hp, rfl⟩ := Option.map_eq_some_iff.1 h2
      have hp1 : p.1 = rv := by
        rw [← hk, Dict.keys, List.getElem?_map, hp] at hki
        exact Option.some.inj hki
      refine Dict.get?_of_mem _ (by rw [hk]; exact hn) _ _ ?_
      rw [← hp1]
      exact List.mem_of_getElem? hp

example : ∃ i, (samplerOutputs [5, 7] [(5, "a"), (7, "b")] ["rng"]).2.1.get? 7 = some i ∧
    (samplerOutputs [5, 7] [(5, "a"), (7, "b")] ["rng"]).1[i]? = some "b" := by
  obtain ⟨i, h1, -, h2⟩ := ((C50_outputs (toSample := [5, 7]) (results := [(5, "a"), (7, "b")])
    (by decide) rfl ["rng"]).2.2 7 "b").1 rfl
  exact ⟨i, h1, h2⟩

/-- C50.  The results of the step are in that order, so every sampled variable is mapped to its own new
value. -/
theorem C50_step (M : Model V R) (kernel : (List R → Option R) → List R → List R)
    (hker : ∀ f q, (kernel f q).length = q.length) (env : V → Arr R)
    {toSample : Dict V (Arr R)} {placeholders : List V} (hn : toSample.keys.Nodup)
    (hp : placeholders.Nodup) (hl : placeholders.length = toSample.length)
    (hwf : ∀ p ∈ toSample, (transformForward M env p.1 p.2 (M.transform p.1)).WF) (updates : List (Arr R)) :
    ∃ res, step M kernel env toSample placeholders = some res ∧
      (samplerOutputs toSample.keys res updates).2.1.keys = toSample.keys ∧
      (samplerOutputs toSample.keys res updates).2.2 = updates ∧
      ∀ rv x, res.get? rv = some x → ∃ i, (samplerOutputs toSample.keys res updates).2.1.get? rv = some i ∧
        i < toSample.length ∧ (samplerOutputs toSample.keys res updates).1[i]? = some x := by
  obtain ⟨f, q, _, _, _, hstep⟩ := C48_wiring M env hn hp hl hwf _ rfl
  obtain ⟨res, h1, h2, _⟩ := hstep kernel hker
  obtain ⟨h3, h4, h5⟩ := C50_outputs (results := res) hn h2 updates
  refine ⟨res, h1, h3, h4, fun rv x hx => ?_⟩
  obtain ⟨i, hi, hlt, ho⟩ := (h5 rv x).1 hx
  exact ⟨i, hi, by simpa using hlt, ho⟩

example : (samplerOutputs [5, 7] [(5, "a"), (7, "b")] ["rng"]) = (["a", "b", "rng"], [(5, 0), (7, 1)], ["rng"]) := by
  decide

end Verif.Nuts
