import Verif.Nuts.BlockSpec
import Verif.Nuts.LawLemmas
import Verif.Prob.Blocks
import Verif.Prob.Quotient
import Mathlib.MeasureTheory.Group.Action

/-!
# Helper lemmas for C54 with transforms of whole variables
-/

open MeasureTheory
open scoped ENNReal

namespace Verif.Nuts

open Verif.Py

/-! ## Lists of blocks -/

theorem flatten_getElem? : ∀ {L : List (List ℝ)} {i : ℕ} {l : List ℝ}, L[i]? = some l → ∀ j < l.length,
    L.flatten[((L.take i).map List.length).sum + j]? = l[j]?
  | [], i, l, h, _, _ => by simp at h
  | a :: L, 0, l, h, j, hj => by
    have : a = l := by simpa using h
    subst this
    simp [List.getElem?_append_left hj]
  | a :: L, i + 1, l, h, j, hj => by
    have ih := flatten_getElem? (L := L) (i := i) (by simpa using h) j hj
    rw [List.take_succ_cons, List.map_cons, List.sum_cons, List.flatten_cons,
      List.getElem?_append_right (by omega), ← ih]
    congr 1
    omega

theorem split_flatten {N : ℕ} {m : Fin N → ℕ} {L : List (List ℝ)} (hL : L.length = N)
    (hlen : ∀ i : Fin N, ∀ l, L[(i : ℕ)]? = some l → l.length = m i) :
    splitEquiv m (vec _ L.flatten) = fun i => vec (m i) (L[(i : ℕ)]?.getD []) := by
  subst hL
  funext i j
  have hi : L[(i : ℕ)]? = some L[i] := List.getElem?_eq_getElem i.2
  have hl := hlen i _ hi
  rw [splitEquiv_apply, vec, vec, finSigmaFinEquiv_apply, hi, Option.getD_some,
    List.getD_eq_getElem?_getD, List.getD_eq_getElem?_getD]
  have hs : ∑ i' : Fin i.1, m (Fin.castLE i.2.le i') = ((L.take i).map List.length).sum := by
    rw [← List.sum_ofFn]
    congr 1
    apply List.ext_getElem?
    intro t
    by_cases ht : t < i.1
    · have ht' : t < L.length := ht.trans i.2
      have := hlen ⟨t, ht'⟩ _ (List.getElem?_eq_getElem ht')
      simp [ht, this]
    · rw [List.getElem?_eq_none (by simpa using ht), List.getElem?_eq_none]
      simp only [List.length_map, List.length_take]
      omega
  rw [hs, flatten_getElem? hi j (by rw [hl]; exact j.2)]

variable {V : Type}

theorem vals_eq {N : ℕ} {k : Fin N → ℕ} (d : Dict V (Arr ℝ)) :
    vals k d = fun i => vec (k i) ((d.map fun p => p.2.data)[(i : ℕ)]?.getD []) := by
  funext i
  rw [vals, List.getElem?_map]

theorem split_flat {N : ℕ} {m : Fin N → ℕ} {s : Fin N → List Nat} (hs : ∀ i, (s i).prod = m i)
    {d : Dict V (Arr ℝ)} (hd : d.length = N) (hsh : Shaped s d) :
    splitEquiv m (flat _ d) = vals m d := by
  rw [flat, List.flatMap_def, split_flatten (by simpa using hd), vals_eq]
  intro i l hl
  rw [List.getElem?_map, Option.map_eq_some_iff] at hl
  obtain ⟨p, hp, rfl⟩ := hl
  have := hsh i p hp
  rw [this.1, this.2, hs]

/-! ## The step -/

variable [DecidableEq V]

/-- The step, block by block. -/
theorem step_blocks (M : Model V ℝ) (kernel : (List ℝ → Option ℝ) → List ℝ → List ℝ)
    (hker : ∀ f q, (kernel f q).length = q.length) (env : V → Arr ℝ) {rvs placeholders : List V}
    (hn : rvs.Nodup) (hp : placeholders.Nodup) (hl : placeholders.length = rvs.length)
    {b : Fin rvs.length → Block} (hb : ∀ i, (b i).shape.prod = (b i).k ∧ (b i).tshape.prod = (b i).m)
    {X : Dict V (Arr ℝ)} (hk : X.keys = rvs)
    (hX : Shaped (fun i => (b i).shape) X)
    (hF : ∀ i, Acts (fun x => transformForward M env rvs[i] x (M.transform rvs[i])) (b i).shape (b i).tshape
      (b i).f)
    (hG : ∀ i, Acts (fun x => transformBackward M env rvs[i] x (M.transform rvs[i])) (b i).tshape (b i).shape
      (b i).g)
    {ℓ : (∀ i, Fin (b i).m → ℝ) → ℝ}
    (hlog : ∀ d : Dict V (Arr ℝ), d.keys = placeholders → Shaped (fun i => (b i).tshape) d →
      M.logprob (override env d) = ℓ (vals (fun i => (b i).m) d)) :
    ∃ res, step M kernel env X placeholders = some res ∧ res.keys = rvs ∧
      Shaped (fun i => (b i).shape) res ∧
      vals (fun i => (b i).k) res = fun i => (b i).g (splitEquiv (fun i => (b i).m) (vec _
        (kernel (flatLog fun q => ℓ (splitEquiv (fun i => (b i).m) q))
          (List.ofFn ((splitEquiv fun i => (b i).m).symm fun i =>
            (b i).f (vals (fun i => (b i).k) X i))))) i) := by
  have hXl : X.length = rvs.length := by rw [← hk, Dict.keys, List.length_map]
  have hXi : ∀ i : Fin rvs.length, ∃ x : Arr ℝ, X[(i : ℕ)]? = some (rvs[i], x) := by
    intro i
    have hi : (i : ℕ) < X.length := by
      rw [hXl]
      exact i.2
    refine ⟨X[(i : ℕ)].2, ?_⟩
    rw [List.getElem?_eq_getElem hi, Option.some.injEq]
    refine Prod.ext ?_ rfl
    have := congrArg (·[(i : ℕ)]?) hk
    simp only [Dict.keys, List.getElem?_map, List.getElem?_eq_getElem hi, Option.map_some,
      List.getElem?_eq_getElem i.2, Option.some.injEq] at this
    exact this
  let shapes : List (List Nat) := List.ofFn fun i => (b i).tshape
  have hti : ∀ i : Fin rvs.length, (transformed M env X)[(i : ℕ)]? =
      some ⟨(b i).tshape, List.ofFn ((b i).f (vals (fun i => (b i).k) X i))⟩ := by
    intro i
    obtain ⟨x, hx⟩ := hXi i
    have := hX i _ hx
    rw [transformed, List.getElem?_map, hx, Option.map_some]
    have hv : vals (fun i => (b i).k) X i = vec (b i).k x.data := by
      rw [vals, hx]
      rfl
    rw [hv]
    exact congrArg some (hF i x this.1 this.2)
  have htl : (transformed M env X).length = rvs.length := by rw [transformed, List.length_map, hXl]
  have hshapes : (transformed M env X).map Arr.shape = shapes := by
    apply List.ext_getElem?
    intro i
    by_cases hi : i < rvs.length
    · rw [List.getElem?_map, hti ⟨i, hi⟩]
      simp [shapes, hi]
    · rw [List.getElem?_eq_none (by rw [List.length_map]; omega), List.getElem?_eq_none]
      rw [List.length_ofFn]
      omega
  have hsum : ∑ i, (b i).m = (shapes.map List.prod).sum := by
    rw [List.map_ofFn, List.sum_ofFn]
    exact Finset.sum_congr rfl fun i _ => (hb i).2.symm
  have hrav : ravel (transformed M env X) = List.ofFn ((splitEquiv fun i => (b i).m).symm fun i =>
      (b i).f (vals (fun i => (b i).k) X i)) := by
    have h1 := split_flatten (m := fun i => (b i).m) (L := (transformed M env X).map Arr.data)
      (by rw [List.length_map, htl]) (by
        intro i l h
        rw [List.getElem?_map, hti i, Option.map_some, Option.some.injEq] at h
        rw [← h, List.length_ofFn])
    have h2 : (fun i : Fin rvs.length => vec (b i).m (((transformed M env X).map Arr.data)[(i : ℕ)]?.getD [])) =
        fun i => (b i).f (vals (fun i => (b i).k) X i) := by
      funext i
      rw [List.getElem?_map, hti i, Option.map_some, Option.getD_some, vec_ofFn]
    rw [h2] at h1
    rw [← h1, MeasurableEquiv.symm_apply_apply, ravel, List.flatMap_def, ofFn_vec]
    rw [List.length_flatten, hsum, ← hshapes]
    congr 1
    rw [List.map_map, List.map_map]
    refine List.map_congr_left fun a ha => ?_
    obtain ⟨i, hi⟩ := List.mem_iff_getElem?.1 ha
    have hi' : i < rvs.length := by
      rw [← htl]
      exact (List.getElem?_eq_some_iff.1 hi).1
    rw [hti ⟨i, hi'⟩, Option.some.injEq] at hi
    rw [← hi]
    simp only [Function.comp, List.length_ofFn, (hb _).2]
  have hlp : logprobFn M env placeholders shapes =
      flatLog fun q => ℓ (splitEquiv (fun i => (b i).m) q) := by
    funext q
    refine logprobFn_eq M env hp (by rw [hl, List.length_ofFn]) hsum
      (ℓ := fun q => ℓ (splitEquiv (fun i => (b i).m) q)) (fun d hk' hsh hwf => ?_) q
    have hdl : d.length = rvs.length := by rw [← hl, ← hk', Dict.keys, List.length_map]
    have hS : Shaped (fun i => (b i).tshape) d := by
      intro i p hpi
      refine ⟨hwf p (List.mem_of_getElem? hpi), ?_⟩
      have := congrArg (·[(i : ℕ)]?) hsh
      simpa [shapes, hpi, i.2] using this
    rw [hlog d hk' hS, split_flat (fun i => (hb i).2) hdl hS]
  have hql : (kernel (flatLog fun q => ℓ (splitEquiv (fun i => (b i).m) q))
      (List.ofFn ((splitEquiv fun i => (b i).m).symm fun i =>
        (b i).f (vals (fun i => (b i).k) X i)))).length = ∑ i, (b i).m := by
    rw [hker, List.length_ofFn]
  generalize hkq : kernel (flatLog fun q => ℓ (splitEquiv (fun i => (b i).m) q))
      (List.ofFn ((splitEquiv fun i => (b i).m).symm fun i =>
        (b i).f (vals (fun i => (b i).k) X i))) = kq at hql
  obtain ⟨ys, h1, h2, h3, h4, h5⟩ := unravel_flat (q := kq) hp (shapes := shapes)
    (by rw [hl, List.length_ofFn]) (by rw [hql, hsum])
  have hstep := step_eq M kernel env (toSample := X) (by rw [hk]; exact hn) hp (by omega) (ys := ys)
    (by omega) (by rw [hshapes, hlp, hrav, hkq]; exact h2)
  rw [hk] at hstep
  have hyi : ∀ i : Fin rvs.length, ∃ y, ys[(i : ℕ)]? = some y ∧ y.WF ∧ y.shape = (b i).tshape := by
    intro i
    have hi : (i : ℕ) < ys.length := by
      rw [h1, hl]
      exact i.2
    refine ⟨ys[(i : ℕ)], List.getElem?_eq_getElem hi, h4 _ (List.getElem_mem _), ?_⟩
    have := congrArg (·[(i : ℕ)]?) h3
    simpa [shapes, hi, i.2] using this
  have hri : ∀ i : Fin rvs.length, ∀ y, ys[(i : ℕ)]? = some y → y.WF → y.shape = (b i).tshape →
      (rvs.zip (List.zipWith (fun rv y => transformBackward M env rv y (M.transform rv)) rvs ys))[(i : ℕ)]? =
        some (rvs[i], ⟨(b i).shape, List.ofFn ((b i).g (vec (b i).m y.data))⟩) := by
    intro i y hy hwf hsh
    rw [List.getElem?_zip_eq_some]
    refine ⟨List.getElem?_eq_getElem i.2, ?_⟩
    rw [List.getElem?_zipWith, List.getElem?_eq_getElem i.2, hy]
    exact congrArg some (hG i y hwf hsh)
  refine ⟨_, hstep, ?_, ?_, ?_⟩
  · refine List.map_fst_zip ?_
    rw [List.length_zipWith]
    omega
  · intro i p hpi
    obtain ⟨y, hy, hwf, hsh⟩ := hyi i
    rw [hri i y hy hwf hsh, Option.some.injEq] at hpi
    rw [← hpi]
    exact ⟨by simp only [Arr.WF, List.length_ofFn, (hb i).1], rfl⟩
  · have hsp := split_flatten (m := fun i => (b i).m) (L := ys.map Arr.data)
      (by rw [List.length_map, h1, hl]) (by
        intro i l h
        obtain ⟨y, hy, hwf, hsh⟩ := hyi i
        rw [List.getElem?_map, hy, Option.map_some, Option.some.injEq] at h
        rw [← h, hwf, hsh, (hb i).2])
    rw [← List.flatMap_def, h5, ← hsum, List.take_of_length_le hql.le] at hsp
    rw [hsp]
    funext i
    obtain ⟨y, hy, hwf, hsh⟩ := hyi i
    have e : (ys.map Arr.data)[(i : ℕ)]?.getD [] = y.data := by
      rw [List.getElem?_map, hy]
      rfl
    simp only [vals, hri i y hy hwf hsh, e]
    exact vec_ofFn _

end Verif.Nuts
