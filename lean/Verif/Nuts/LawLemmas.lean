import Verif.Nuts.LawSpec
import Verif.Nuts.Props

/-!
# Helper lemmas for C54
-/

open MeasureTheory
open scoped ENNReal

namespace Verif.Nuts

open Verif.Py

variable {V : Type} [DecidableEq V]

theorem vec_ofFn {n : ℕ} (q : Fin n → ℝ) : vec n (List.ofFn q) = q := by
  funext i
  simp [vec, List.getD_eq_getElem?_getD]

theorem ofFn_vec {n : ℕ} {l : List ℝ} (h : l.length = n) : List.ofFn (vec n l) = l := by
  subst h
  apply List.ext_getElem?
  intro i
  by_cases hi : i < l.length
  · simp [vec, List.getD_eq_getElem?_getD, hi]
  · rw [List.getElem?_eq_none (by simpa using hi), List.getElem?_eq_none (by simpa using hi)]

theorem vec_take {n : ℕ} (l : List ℝ) : vec n (l.take n) = vec n l := by
  funext i
  simp [vec, List.getD_eq_getElem?_getD, i.2]

theorem blocks_flatten {R : Type} (sizes : List Nat) (q : List R) :
    (blocks sizes q).flatten = q.take sizes.sum := by
  have key : ∀ n, n ≤ sizes.length → ((blocks sizes q).take n).flatten = q.take (sizes.take n).sum := by
    intro n
    induction n with
    | zero => simp
    | succ n ih =>
      intro hn
      have hb := blocks_getElem? sizes q n (by omega)
      have hlt : n < (blocks sizes q).length := by
        rw [blocks_length]
        omega
      rw [List.getElem?_eq_getElem hlt, Option.some.injEq] at hb
      rw [List.take_succ_eq_append_getElem hlt, List.flatten_append, ih (by omega), hb]
      simp only [List.flatten_cons, List.flatten_nil, List.append_nil]
      have hle := sum_take_succ sizes n (by omega)
      rw [show q.take (sizes.take n).sum = (q.take (sizes.take (n + 1)).sum).take (sizes.take n).sum by
        rw [List.take_take, Nat.min_eq_left (by omega)]]
      exact List.take_append_drop _ _
  have := key sizes.length le_rfl
  rwa [List.take_of_length_le (by rw [blocks_length]), List.take_of_length_le (l := sizes) le_rfl] at this

/-- The values read back from a position. -/
theorem unravel_flat {keys : List V} {shapes : List (List Nat)} (hk : keys.Nodup)
    (hl : keys.length = shapes.length) {q : List ℝ} (hq : (shapes.map List.prod).sum ≤ q.length) :
    ∃ ys : List (Arr ℝ), ys.length = keys.length ∧ unravel keys shapes q = some (keys.zip ys) ∧
      ys.map Arr.shape = shapes ∧ (∀ y ∈ ys, y.WF) ∧
      ys.flatMap Arr.data = q.take (shapes.map List.prod).sum := by
  obtain ⟨ys, h1, h2, h3, h4, h5⟩ := unravel_eq hk hl hq
  exact ⟨ys, by omega, h5, h2, h3, by rw [List.flatMap_def, h4, blocks_flatten]⟩

theorem logprobFn_eq (M : Model V ℝ) (env : V → Arr ℝ) {placeholders : List V}
    {shapes : List (List Nat)} (hp : placeholders.Nodup) (hl : placeholders.length = shapes.length)
    {n : ℕ} (hn : n = (shapes.map List.prod).sum) {ℓ : (Fin n → ℝ) → ℝ}
    (hlog : ∀ d : Dict V (Arr ℝ), d.keys = placeholders → d.map (fun p => p.2.shape) = shapes →
      (∀ p ∈ d, p.2.WF) → M.logprob (override env d) = ℓ (flat n d)) (q : List ℝ) :
    logprobFn M env placeholders shapes q = if n ≤ q.length then some (ℓ (vec n q)) else none := by
  split
  · rename_i h
    obtain ⟨ys, h1, h2, h3, h4, h5⟩ := unravel_flat (q := q) hp hl (by omega)
    have hz : (placeholders.zip ys).map Prod.fst = placeholders := List.map_fst_zip (by omega)
    have hz2 : (placeholders.zip ys).map Prod.snd = ys := List.map_snd_zip (by omega)
    rw [logprobFn, h2, Option.map_some, hlog _ hz]
    · congr 2
      rw [flat, show (placeholders.zip ys).flatMap (fun p => p.2.data) =
        ((placeholders.zip ys).map Prod.snd).flatMap Arr.data by rw [List.flatMap_map], hz2, h5, ← hn,
        vec_take]
    · rw [show (placeholders.zip ys).map (fun p => p.2.shape) =
        ((placeholders.zip ys).map Prod.snd).map Arr.shape by rw [List.map_map]; rfl, hz2, h3]
    · intro p hp
      exact h4 _ (List.of_mem_zip hp).2
  · rw [logprobFn, C49_short hl (by omega)]
    rfl

omit [DecidableEq V] in
/-- Entrywise operations on the values of a dictionary, on the flat vector. -/
theorem flatMap_entrywise {shape : V → List Nat} {T : V → Arr ℝ → Arr ℝ} {φ : V → ℕ → ℝ → ℝ} :
    ∀ {d : Dict V (Arr ℝ)}, (∀ p ∈ d, p.2.WF ∧ p.2.shape = shape p.1) →
    (∀ p ∈ d, Entrywise (T p.1) (shape p.1) (φ p.1)) →
    d.flatMap (fun p => (T p.1 p.2).data) =
      List.zipWith (fun f x => f x) (d.keys.flatMap fun rv => (List.range (shape rv).prod).map (φ rv))
        (d.flatMap fun p => p.2.data)
  | [], _, _ => rfl
  | p :: d, h1, h2 => by
    have hp := h1 p (by simp)
    have ih := flatMap_entrywise (d := d) (fun p hp => h1 p (by simp [hp])) fun p hp => h2 p (by simp [hp])
    have hlen : ((List.range (shape p.1).prod).map (φ p.1)).length = p.2.data.length := by
      rw [List.length_map, List.length_range, hp.1, hp.2]
    rw [Dict.keys] at ih ⊢
    rw [List.flatMap_cons, ih, List.map_cons, List.flatMap_cons, List.flatMap_cons,
      List.zipWith_append hlen]
    congr 1
    rw [h2 p (by simp) p.2 hp.1 hp.2]
    apply List.ext_getElem?
    intro i
    rw [List.getElem?_mapIdx, List.getElem?_zipWith, List.getElem?_map]
    by_cases hi : i < p.2.data.length
    · rw [List.getElem?_range (by rw [← hp.2, ← hp.1]; exact hi), List.getElem?_eq_getElem hi]
      rfl
    · rw [List.getElem?_eq_none (by simpa using hi)]
      rcases (Option.map (φ p.1) (List.range (shape p.1).prod)[i]?) <;> rfl

omit [DecidableEq V] in
theorem coords_length {rvs : List V} {shape : V → List Nat} {coord : V → ℕ → Coord} :
    (coords rvs shape coord).length = ((rvs.map shape).map List.prod).sum := by
  rw [coords, List.length_flatMap, List.map_map]
  congr 1
  exact List.map_congr_left fun rv _ => by simp

theorem vec_zipWith {cs : List Coord} {l : List ℝ} (φ : Coord → ℝ → ℝ) (h : l.length = cs.length) :
    vec cs.length (List.zipWith (fun f x => f x) (cs.map φ) l) =
      fun i => φ cs[i] (vec cs.length l i) := by
  funext i
  have hi : (i : ℕ) < l.length := by
    rw [h]
    exact i.2
  simp [vec, List.getD_eq_getElem?_getD, hi]

omit [DecidableEq V] in
theorem flatMap_length {shape : V → List Nat} {d : Dict V (Arr ℝ)} {rvs : List V} (hk : d.keys = rvs)
    (h : ∀ p ∈ d, p.2.WF ∧ p.2.shape = shape p.1) :
    (d.flatMap fun p => p.2.data).length = ((rvs.map shape).map List.prod).sum := by
  rw [← hk, Dict.keys, List.length_flatMap, List.map_map, List.map_map]
  congr 1
  refine List.map_congr_left fun p hp => ?_
  have := h p hp
  rw [this.1, this.2]
  rfl

/-- The step, on flat vectors. -/
theorem step_flat (M : Model V ℝ) (kernel : (List ℝ → Option ℝ) → List ℝ → List ℝ)
    (hker : ∀ f q, (kernel f q).length = q.length) (env : V → Arr ℝ) {rvs placeholders : List V}
    (hn : rvs.Nodup) (hp : placeholders.Nodup) (hl : placeholders.length = rvs.length)
    {shape : V → List Nat} {coord : V → ℕ → Coord} {X : Dict V (Arr ℝ)} (hk : X.keys = rvs)
    (hX : ∀ p ∈ X, p.2.WF ∧ p.2.shape = shape p.1)
    (hF : ∀ rv ∈ rvs, Entrywise (fun x => transformForward M env rv x (M.transform rv)) (shape rv)
      fun j => (coord rv j).f)
    (hG : ∀ rv ∈ rvs, Entrywise (fun x => transformBackward M env rv x (M.transform rv)) (shape rv)
      fun j => (coord rv j).g)
    {cs : List Coord} (hcs : cs = coords rvs shape coord) {ℓ : (Fin cs.length → ℝ) → ℝ}
    (hlog : ∀ d : Dict V (Arr ℝ), d.keys = placeholders → d.map (fun p => p.2.shape) = rvs.map shape →
      (∀ p ∈ d, p.2.WF) → M.logprob (override env d) = ℓ (flat cs.length d)) :
    ∃ res, step M kernel env X placeholders = some res ∧ res.keys = rvs ∧
      (∀ p ∈ res, p.2.WF ∧ p.2.shape = shape p.1) ∧
      flat cs.length res = fun i => cs[i].g (vec cs.length
        (kernel (fun q => if cs.length ≤ q.length then some (ℓ (vec cs.length q)) else none)
          (List.ofFn fun i => cs[i].f (flat cs.length X i))) i) := by
  have hcl : cs.length = ((rvs.map shape).map List.prod).sum := by rw [hcs, coords_length]
  have hmem : ∀ p ∈ X, p.1 ∈ rvs := fun p hp => by
    rw [← hk]
    exact List.mem_map.2 ⟨p, hp, rfl⟩
  have hXl : X.length = rvs.length := by rw [← hk, Dict.keys, List.length_map]
  have hmapf : ∀ φ : Coord → ℝ → ℝ,
      rvs.flatMap (fun rv => (List.range (shape rv).prod).map fun j => φ (coord rv j)) = cs.map φ := by
    intro φ
    rw [hcs, coords, List.map_flatMap]
    congr 1
    funext rv
    rw [List.map_map]
    rfl
  have hshapes : (transformed M env X).map Arr.shape = rvs.map shape := by
    rw [← hk, Dict.keys, transformed, List.map_map, List.map_map]
    refine List.map_congr_left fun p hp => ?_
    have := hX p hp
    simp only [Function.comp, hF p.1 (hmem p hp) p.2 this.1 this.2]
  have hrav : ravel (transformed M env X) =
      List.ofFn fun i => cs[i].f (flat cs.length X i) := by
    have e := flatMap_entrywise (d := X) (T := fun rv x => transformForward M env rv x (M.transform rv))
      (φ := fun rv j => (coord rv j).f) hX fun p hp => hF p.1 (hmem p hp)
    rw [hk, hmapf] at e
    have hXlen := flatMap_length hk hX
    have hlen : (List.zipWith (fun f x => f x) (cs.map Coord.f) (X.flatMap fun p => p.2.data)).length =
        cs.length := by
      rw [List.length_zipWith, List.length_map, hXlen, hcl, Nat.min_self]
    rw [ravel, transformed, List.flatMap_map]
    refine e.trans ?_
    rw [← ofFn_vec hlen, vec_zipWith Coord.f (by rw [hXlen, hcl])]
    rfl
  have hlp : logprobFn M env placeholders (rvs.map shape) =
      fun q => if cs.length ≤ q.length then some (ℓ (vec cs.length q)) else none :=
    funext fun q => logprobFn_eq M env hp (by simpa using hl) hcl hlog q
  have hql : (kernel (fun q => if cs.length ≤ q.length then some (ℓ (vec cs.length q)) else none)
      (List.ofFn fun i => cs[i].f (flat cs.length X i))).length = cs.length := by
    rw [hker, List.length_ofFn]
  obtain ⟨ys, h1, h2, h3, h4, h5⟩ := unravel_flat (q := kernel
      (fun q => if cs.length ≤ q.length then some (ℓ (vec cs.length q)) else none)
      (List.ofFn fun i => cs[i].f (flat cs.length X i))) hp (shapes := rvs.map shape) (by simpa using hl)
      (by rw [hql, hcl])
  have hstep := step_eq M kernel env (toSample := X) (by rw [hk]; exact hn) hp (by omega) (ys := ys)
    (by omega) (by rw [hshapes, hlp, hrav]; exact h2)
  rw [hk] at hstep
  have hzy : Dict.keys (rvs.zip ys : Dict V (Arr ℝ)) = rvs := List.map_fst_zip (by omega)
  have hzy2 : (rvs.zip ys).map Prod.snd = ys := List.map_snd_zip (by omega)
  have hY : ∀ p ∈ (rvs.zip ys : Dict V (Arr ℝ)), p.2.WF ∧ p.2.shape = shape p.1 := by
    intro p hp
    refine ⟨h4 _ (List.of_mem_zip hp).2, ?_⟩
    obtain ⟨i, hi⟩ := List.mem_iff_getElem?.1 hp
    rw [List.getElem?_zip_eq_some] at hi
    have := congrArg (·[i]?) h3
    simpa [hi.1, hi.2] using this
  have hres : rvs.zip (List.zipWith (fun rv y => transformBackward M env rv y (M.transform rv)) rvs ys) =
      (rvs.zip ys).map fun p => (p.1, transformBackward M env p.1 p.2 (M.transform p.1)) := by
    clear hstep hzy hzy2 hY h5 h4 h3 h2
    have : ys.length = rvs.length := by omega
    clear * - this
    induction rvs generalizing ys with
    | nil => rfl
    | cons v rvs ih =>
      cases ys with
      | nil => rfl
      | cons y ys =>
        simp only [List.zipWith_cons_cons, List.zip_cons_cons, List.map_cons]
        rw [ih ys (by simpa using this)]
  rw [hres] at hstep
  have hmemz : ∀ p ∈ (rvs.zip ys : Dict V (Arr ℝ)), p.1 ∈ rvs := fun p hp => (List.of_mem_zip hp).1
  refine ⟨_, hstep, ?_, ?_, ?_⟩
  · rw [Dict.keys, List.map_map]
    exact hzy
  · intro p hp
    obtain ⟨p', hp', rfl⟩ := List.mem_map.1 hp
    have hy := hY p' hp'
    simp only [hG p'.1 (hmemz p' hp') p'.2 hy.1 hy.2, Arr.WF, List.length_mapIdx, and_true]
    rw [hy.1, hy.2]
  · have e := flatMap_entrywise (d := rvs.zip ys)
      (T := fun rv x => transformBackward M env rv x (M.transform rv))
      (φ := fun rv j => (coord rv j).g) hY fun p hp => hG p.1 (hmemz p hp)
    rw [hzy, hmapf] at e
    have hd : (rvs.zip ys).flatMap (fun p => p.2.data) = ys.flatMap Arr.data := by
      conv_rhs => rw [← hzy2]
      rw [List.flatMap_map]
    rw [flat, List.flatMap_map, e, hd, h5, ← hcl, List.take_of_length_le hql.le, vec_zipWith Coord.g hql]

end Verif.Nuts
