import Verif.Subs.Spec
import Mathlib.Tactic.Ring
import Mathlib.Data.List.Forall2
import Mathlib.Data.List.Nodup

/-!
# Lemmas about the subsumption rewrite
-/

namespace Verif.Subs

open TExpr

/-! ## Splitting a `DimShuffle` -/

theorem count_none_append {el new : Order} (hel : ∀ d ∈ el, d = none) (i : ℕ) :
    (el ++ new).count (some i) = new.count (some i) := by
  rw [List.count_append, List.count_eq_zero.2, zero_add]
  intro h
  exact absurd (hel _ h) (by simp)

theorem mem_none_append {el new : Order} (hel : ∀ d ∈ el, d = none) (i : ℕ) :
    some i ∈ el ++ new ↔ some i ∈ new := by
  rw [List.mem_append]
  refine ⟨fun h => h.resolve_left fun h => absurd (hel _ h) (by simp), Or.inr⟩

theorem idxOf_none_append {el new : Order} (hel : ∀ d ∈ el, d = none) (i : ℕ) :
    (el ++ new).idxOf (some i) = el.length + new.idxOf (some i) := by
  rw [List.idxOf_append_of_notMem]
  intro h
  exact absurd (hel _ h) (by simp)

theorem dsOk_append {el new : Order} (hel : ∀ d ∈ el, d = none) (shape : List ℕ) :
    DsOk (el ++ new) shape ↔ DsOk new shape := by
  simp only [DsOk, mem_none_append hel, count_none_append hel]

theorem mem_idOrder {n i : ℕ} : some i ∈ idOrder n ↔ i < n := by
  simp [idOrder]

theorem idxOf_idOrder {n i : ℕ} (h : i < n) : (idOrder n).idxOf (some i) = i := by
  have hnd : (idOrder n).Nodup := List.Nodup.map (Option.some_injective _) List.nodup_range
  have := List.Nodup.idxOf_getElem hnd i (by simpa [idOrder] using h)
  simpa [idOrder] using this

theorem length_idOrder (n : ℕ) : (idOrder n).length = n := by simp [idOrder]

theorem dsOk_idOrder (shape : List ℕ) : DsOk (idOrder shape.length) shape := by
  have hnd : (idOrder shape.length).Nodup :=
    List.Nodup.map (Option.some_injective _) List.nodup_range
  refine ⟨fun i h => mem_idOrder.1 h, fun i => List.nodup_iff_count_le_one.1 hnd _, fun i h hn => ?_⟩
  exact absurd (mem_idOrder.2 h) hn

theorem length_dsShape (o : Order) (s : List ℕ) : (dsShape o s).length = o.length := by
  simp [dsShape]

theorem dsShape_append (a b : Order) (s : List ℕ) : dsShape (a ++ b) s = dsShape a s ++ dsShape b s := by
  simp [dsShape]

theorem dsShape_idOrder (s : List ℕ) : dsShape (idOrder s.length) s = s := by
  apply List.ext_getElem
  · simp [dsShape, idOrder]
  · intro i h1 h2
    simp [dsShape, idOrder, h2]

theorem dsShape_none {el : Order} (hel : ∀ d ∈ el, d = none) (s s' : List ℕ) :
    dsShape el s = dsShape el s' := by
  unfold dsShape
  apply List.map_congr_left
  intro d hd
  rw [hel d hd]

theorem dsIndex_idOrder {el : Order} (hel : ∀ d ∈ el, d = none) {n : ℕ} {idx : List ℕ}
    (h : idx.length = el.length + n) :
    dsIndex (el ++ idOrder n) n idx = idx.drop el.length := by
  apply List.ext_getElem
  · simp [dsIndex, h]
  · intro i h1 h2
    have hi : i < n := by simpa [dsIndex] using h1
    simp only [dsIndex, List.getElem_map, List.getElem_range, List.getElem_drop]
    rw [idxOf_none_append hel, idxOf_idOrder hi, List.getElem?_eq_getElem (by omega)]
    rfl

theorem dsIndex_append {el new : Order} (hel : ∀ d ∈ el, d = none) (n : ℕ) (idx : List ℕ) :
    dsIndex (el ++ new) n idx = dsIndex new n (idx.drop el.length) := by
  unfold dsIndex
  refine List.map_congr_left fun j _ => ?_
  rw [idxOf_none_append hel, List.getElem?_drop]

theorem valid_drop {s1 s2 idx : List ℕ} (h : Valid (s1 ++ s2) idx) : Valid s2 (idx.drop s1.length) := by
  induction s1 generalizing idx with
  | nil => simpa using h
  | cons a s1 ih =>
    cases h with
    | cons _ h => simpa using ih h

theorem mkTensor_congr {s : List ℕ} {f g : List ℕ → ℝ} (h : ∀ idx, Valid s idx → f idx = g idx) :
    mkTensor s f = mkTensor s g := by
  unfold mkTensor
  congr 1
  funext idx
  split
  · exact h idx ‹_›
  · rfl

/-- Padding dimensions on the left can be split off any `DimShuffle`. -/
theorem dsT_split {el : Order} (hel : ∀ d ∈ el, d = none) (new : Order) (t : Tensor) :
    dsT (el ++ new) t = (dsT new t).bind (dsT (el ++ idOrder new.length)) := by
  by_cases h : DsOk new t.shape
  · have h' := (dsOk_append hel t.shape).2 h
    rw [dsT, if_pos h', dsT, if_pos h, Option.bind_some, dsT]
    have hs : (mkTensor (dsShape new t.shape)
        fun idx => t.get (dsIndex new t.shape.length idx)).shape = dsShape new t.shape := rfl
    rw [hs]
    have e : idOrder new.length = idOrder (dsShape new t.shape).length := by rw [length_dsShape]
    have h2 : DsOk (el ++ idOrder new.length) (dsShape new t.shape) := by
      rw [dsOk_append hel, e]
      exact dsOk_idOrder _
    rw [if_pos h2]
    congr 1
    have e2 : dsShape (el ++ idOrder new.length) (dsShape new t.shape) = dsShape (el ++ new) t.shape := by
      rw [dsShape_append, dsShape_append, e, dsShape_idOrder]
      rw [dsShape_none hel (dsShape new t.shape) t.shape]
    rw [e2]
    refine mkTensor_congr fun idx hidx => ?_
    have hl : idx.length = el.length + new.length := by
      have := hidx.length_eq
      rw [length_dsShape, List.length_append] at this
      exact this
    have hv : Valid (dsShape new t.shape) (idx.drop el.length) := by
      rw [dsShape_append] at hidx
      have := valid_drop hidx
      rwa [length_dsShape] at this
    show _ = (mkTensor _ _).get _
    rw [mkTensor]
    have hr : dsIndex (el ++ idOrder new.length) (dsShape new t.shape).length idx =
        idx.drop el.length := by
      rw [length_dsShape, dsIndex_idOrder hel hl]
    have hv' : Valid (dsShape new t.shape)
        (dsIndex (el ++ idOrder new.length) (dsShape new t.shape).length idx) := by
      rw [hr]
      exact hv
    refine Eq.trans ?_ (if_pos hv').symm
    rw [dsIndex_append hel, hr]
  · have h' := mt (dsOk_append hel t.shape).1 h
    rw [dsT, if_neg h', dsT, if_neg h]
    rfl

theorem pyTake_append_pyDrop {α : Type} (k : ℤ) (xs : List α) : pyTake k xs ++ pyDrop k xs = xs := by
  unfold pyTake pyDrop
  split <;> exact List.take_append_drop _ _

/-! ## The loop over the inputs -/

/-- What the loop body returns, by cases. -/
theorem subsumeInput_cases (r : ℕ) (i : TExpr) :
    (subsumeInput r i = (i, i, false) ∧ ∀ order v, i = .ds order v →
      pyTake ((r : ℤ) - v.rank) order = [] ∨ ∃ d ∈ pyTake ((r : ℤ) - v.rank) order, d ≠ none) ∨
    (∃ el new v, (∀ d ∈ el, d = none) ∧ el ≠ [] ∧ i = .ds (el ++ new) v ∧
      el = pyTake ((r : ℤ) - v.rank) (el ++ new) ∧
      ((new = idOrder new.length ∧ subsumeInput r i = (v, i, true)) ∨
       (new ≠ idOrder new.length ∧
        subsumeInput r i = (.ds new v, .ds (el ++ idOrder new.length) (.ds new v), true)))) := by
  match i with
  | .ds order v =>
    rw [subsumeInput]
    simp only
    generalize hk : (r : ℤ) - v.rank = k
    have hsplit := pyTake_append_pyDrop k order
    generalize he : pyTake k order = el at *
    generalize hn : pyDrop k order = new at *
    by_cases hc : (el.isEmpty || !el.all (· == none)) = true
    · rw [if_pos hc]
      refine Or.inl ⟨rfl, fun order' v' h => ?_⟩
      cases h
      rw [hk, he]
      simpa using hc
    · rw [if_neg hc]
      right
      have hc' : el ≠ [] ∧ ∀ d ∈ el, d = none := by
        simpa using hc
      refine ⟨el, new, v, hc'.2, hc'.1, by rw [hsplit], by rw [hsplit, hk, he], ?_⟩
      by_cases hid : new = idOrder new.length
      · left
        refine ⟨hid, ?_⟩
        rw [if_neg (by
          simp only [Bool.and_eq_true, not_and]
          intro _
          rw [← hid]
          simp)]
      · right
        refine ⟨hid, ?_⟩
        rw [if_pos (by
          have : new ≠ [] := by
            rintro rfl
            exact hid rfl
          simp [hid, this])]
        rfl
  | .var _ _ => exact Or.inl ⟨rfl, fun _ _ h => by cases h⟩
  | .const _ _ => exact Or.inl ⟨rfl, fun _ _ h => by cases h⟩
  | .hole _ _ => exact Or.inl ⟨rfl, fun _ _ h => by cases h⟩
  | .el _ _ => exact Or.inl ⟨rfl, fun _ _ h => by cases h⟩
  | .sub _ _ => exact Or.inl ⟨rfl, fun _ _ h => by cases h⟩

theorem eval_subsumed (ι : Interp) (r : ℕ) (i : TExpr) (σ : List Tensor) :
    eval ι (subsumeInput r i).2.1 σ = eval ι i σ := by
  rcases subsumeInput_cases r i with ⟨h, -⟩ | ⟨el, new, v, hel, -, hi, -, (⟨-, h⟩ | ⟨-, h⟩)⟩
  · rw [h]
  · rw [h]
  · rw [h, hi]
    simp only [eval]
    cases eval ι v σ with
    | none => rfl
    | some t =>
      simp only [Option.bind_some]
      rw [dsT_split hel new t]

theorem eval_new_isSome (ι : Interp) (r : ℕ) (i : TExpr) (σ : List Tensor)
    (h : (eval ι i σ).isSome) : (eval ι (subsumeInput r i).1 σ).isSome := by
  rcases subsumeInput_cases r i with ⟨h', -⟩ | ⟨el, new, v, hel, -, hi, -, (⟨-, h'⟩ | ⟨-, h'⟩)⟩
  · rwa [h']
  · rw [h']
    rw [hi, eval] at h
    cases he : eval ι v σ with
    | none => rw [he] at h; exact absurd h (by simp)
    | some t => rfl
  · rw [h']
    rw [hi, eval] at h
    simp only [eval]
    cases he : eval ι v σ with
    | none => rw [he] at h; exact absurd h (by simp)
    | some t =>
      rw [he, Option.bind_some, dsT_split hel] at h
      rw [Option.bind_some]
      cases hd : dsT new t with
      | none => rw [hd] at h; exact absurd h (by simp)
      | some _ => rfl

/-! ## Scopes -/

mutual
theorem Scoped.mono {n m : ℕ} (hnm : n ≤ m) : ∀ {e : TExpr}, Scoped n e → Scoped m e
  | .var _ _, _ => by simp [Scoped]
  | .const _ _, _ => by simp [Scoped]
  | .hole k _, h => by
    simp only [Scoped] at h ⊢
    omega
  | .ds _ e, h => by
    simp only [Scoped] at h ⊢
    exact Scoped.mono hnm h
  | .el _ as, h => by
    simp only [Scoped] at h ⊢
    exact ScopedArgs.mono hnm h
  | .sub _ as, h => by
    simp only [Scoped] at h ⊢
    exact ⟨h.1, ScopedArgs.mono hnm h.2⟩
theorem ScopedArgs.mono {n m : ℕ} (hnm : n ≤ m) : ∀ {as : List TExpr}, ScopedArgs n as → ScopedArgs m as
  | [], _ => by simp [ScopedArgs]
  | _ :: _, h => by
    simp only [ScopedArgs] at h ⊢
    exact ⟨Scoped.mono hnm h.1, ScopedArgs.mono hnm h.2⟩
end

theorem scopedArgs_iff {n : ℕ} {as : List TExpr} : ScopedArgs n as ↔ ∀ a ∈ as, Scoped n a := by
  induction as with
  | nil => simp [ScopedArgs]
  | cons a as ih => simp [ScopedArgs, ih]

theorem scoped_subsumeInput {n r : ℕ} {i : TExpr} (h : Scoped n i) :
    Scoped n (subsumeInput r i).1 ∧ Scoped n (subsumeInput r i).2.1 := by
  rcases subsumeInput_cases r i with ⟨h', -⟩ | ⟨el, new, v, hel, -, hi, -, (⟨-, h'⟩ | ⟨-, h'⟩)⟩
  · rw [h']
    exact ⟨h, h⟩
  · rw [h']
    refine ⟨?_, h⟩
    rw [hi, Scoped] at h
    exact h
  · rw [h']
    rw [hi, Scoped] at h
    simp only [Scoped]
    exact ⟨h, h⟩

/-! ## Inner graphs -/

theorem lastIdx_some {e : TExpr} {used : List TExpr} {k : ℕ} (h : lastIdx e used = some k) :
    used[k]? = some e := by
  induction used generalizing k with
  | nil => simp [lastIdx] at h
  | cons x xs ih =>
    rw [lastIdx] at h
    split at h
    · rename_i j hj
      obtain rfl : j + 1 = k := Option.some_injective _ h
      simpa using ih hj
    · split at h
      · rename_i hx
        obtain rfl : 0 = k := Option.some_injective _ h
        simp [hx]
      · simp at h

theorem lastIdx_lt {e : TExpr} {used : List TExpr} {k : ℕ} (h : lastIdx e used = some k) :
    k < used.length := (List.getElem?_eq_some_iff.1 (lastIdx_some h)).1

theorem evalArgs_getElem? {ι : Interp} {as : List TExpr} {σ ts : List Tensor}
    (h : evalArgs ι as σ = some ts) {k : ℕ} {a : TExpr} (ha : as[k]? = some a) :
    ts[k]? = eval ι a σ := by
  induction as generalizing ts k with
  | nil => simp at ha
  | cons b as ih =>
    rw [evalArgs] at h
    obtain ⟨t, ht, h⟩ := Option.bind_eq_some_iff.1 h
    obtain ⟨ts', hts', rfl⟩ := Option.map_eq_some_iff.1 h
    cases k with
    | zero =>
      obtain rfl : b = a := by simpa using ha
      simpa using ht.symm
    | succ k => simpa using ih hts' (by simpa using ha)

theorem evalArgs_length {ι : Interp} {as : List TExpr} {σ ts : List Tensor}
    (h : evalArgs ι as σ = some ts) : ts.length = as.length := by
  induction as generalizing ts with
  | nil =>
    rw [evalArgs] at h
    obtain rfl := Option.some_injective _ h
    rfl
  | cons b as ih =>
    rw [evalArgs] at h
    obtain ⟨t, ht, h⟩ := Option.bind_eq_some_iff.1 h
    obtain ⟨ts', hts', rfl⟩ := Option.map_eq_some_iff.1 h
    simp [ih hts']

theorem abstr_of_some {e : TExpr} {used : List TExpr} {k : ℕ} (h : lastIdx e used = some k) :
    abstr used e = .hole k e.rank := by
  cases e <;> rw [abstr, holeOr, h]

mutual
theorem eval_abstr {ι : Interp} {used : List TExpr} {σ ts : List Tensor}
    (hu : evalArgs ι used σ = some ts) : ∀ (e : TExpr), Outer e →
      eval ι (abstr used e) ts = eval ι e σ := by
  intro e he
  cases hl : lastIdx e used with
  | some k =>
    rw [abstr_of_some hl, eval]
    exact evalArgs_getElem? hu (lastIdx_some hl)
  | none =>
    match e, he, hl with
    | .var _ _, _, hl => rw [abstr, holeOr, hl]; simp only [eval]
    | .const _ _, _, hl => rw [abstr, holeOr, hl]; simp only [eval]
    | .hole _ _, he, _ => exact absurd he (by simp [Outer, Scoped])
    | .ds _ e, he, hl =>
      simp only [Outer, Scoped] at he
      rw [abstr, holeOr, hl]
      simp only [eval]
      rw [eval_abstr hu e he]
    | .el _ as, he, hl =>
      simp only [Outer, Scoped] at he
      rw [abstr, holeOr, hl]
      simp only [eval]
      rw [evalArgs_abstr hu as he]
    | .sub _ as, he, hl =>
      simp only [Outer, Scoped] at he
      rw [abstr, holeOr, hl]
      simp only [eval]
      rw [evalArgs_abstr hu as he.2]
theorem evalArgs_abstr {ι : Interp} {used : List TExpr} {σ ts : List Tensor}
    (hu : evalArgs ι used σ = some ts) : ∀ (as : List TExpr), ScopedArgs 0 as →
      evalArgs ι (abstrArgs used as) ts = evalArgs ι as σ
  | [], _ => by simp only [abstrArgs, evalArgs]
  | a :: as, h => by
    simp only [ScopedArgs] at h
    simp only [abstrArgs, evalArgs]
    rw [eval_abstr hu a h.1, evalArgs_abstr hu as h.2]
end

theorem length_abstrArgs (used : List TExpr) (as : List TExpr) :
    (abstrArgs used as).length = as.length := by
  induction as with
  | nil => rfl
  | cons a as ih => simp [abstrArgs, ih]

mutual
theorem scoped_abstr {used : List TExpr} : ∀ (e : TExpr), Outer e → Scoped used.length (abstr used e) := by
  intro e he
  cases hl : lastIdx e used with
  | some k =>
    rw [abstr_of_some hl]
    simp only [Scoped]
    exact lastIdx_lt hl
  | none =>
    match e, he, hl with
    | .var _ _, _, hl => rw [abstr, holeOr, hl]; simp only [Scoped]
    | .const _ _, _, hl => rw [abstr, holeOr, hl]; simp only [Scoped]
    | .hole _ _, he, _ => exact absurd he (by simp [Outer, Scoped])
    | .ds _ e, he, hl =>
      simp only [Outer, Scoped] at he
      rw [abstr, holeOr, hl]
      simp only [Scoped]
      exact scoped_abstr e he
    | .el _ as, he, hl =>
      simp only [Outer, Scoped] at he
      rw [abstr, holeOr, hl]
      simp only [Scoped]
      exact scoped_abstrArgs as he
    | .sub _ as, he, hl =>
      simp only [Outer, Scoped] at he
      rw [abstr, holeOr, hl]
      simp only [Scoped, length_abstrArgs]
      exact ⟨he.1, scoped_abstrArgs as he.2⟩
theorem scoped_abstrArgs {used : List TExpr} : ∀ (as : List TExpr), ScopedArgs 0 as →
    ScopedArgs used.length (abstrArgs used as)
  | [], _ => by simp only [abstrArgs, ScopedArgs]
  | a :: as, h => by
    simp only [ScopedArgs] at h
    simp only [abstrArgs, ScopedArgs]
    exact ⟨scoped_abstr a h.1, scoped_abstrArgs as h.2⟩
end

mutual
theorem instHoles_abstr {used : List TExpr} : ∀ (e : TExpr), Outer e →
    instHoles used (abstr used e) = e := by
  intro e he
  cases hl : lastIdx e used with
  | some k =>
    rw [abstr_of_some hl]
    simp only [instHoles]
    rw [lastIdx_some hl]
    rfl
  | none =>
    match e, he, hl with
    | .var _ _, _, hl => rw [abstr, holeOr, hl]; simp only [instHoles]
    | .const _ _, _, hl => rw [abstr, holeOr, hl]; simp only [instHoles]
    | .hole _ _, he, _ => exact absurd he (by simp [Outer, Scoped])
    | .ds _ e, he, hl =>
      simp only [Outer, Scoped] at he
      rw [abstr, holeOr, hl]
      simp only [instHoles]
      rw [instHoles_abstr e he]
    | .el _ as, he, hl =>
      simp only [Outer, Scoped] at he
      rw [abstr, holeOr, hl]
      simp only [instHoles]
      rw [instHolesArgs_abstr as he]
    | .sub _ as, he, hl =>
      simp only [Outer, Scoped] at he
      rw [abstr, holeOr, hl]
      simp only [instHoles]
      rw [instHolesArgs_abstr as he.2]
theorem instHolesArgs_abstr {used : List TExpr} : ∀ (as : List TExpr), ScopedArgs 0 as →
    instHolesArgs used (abstrArgs used as) = as
  | [], _ => by simp only [abstrArgs, instHolesArgs]
  | a :: as, h => by
    simp only [ScopedArgs] at h
    simp only [abstrArgs, instHolesArgs]
    rw [instHoles_abstr a h.1, instHolesArgs_abstr as h.2]
end

mutual
theorem eval_instHoles {ι : Interp} {args : List TExpr} {σ ts : List Tensor}
    (hu : evalArgs ι args σ = some ts) : ∀ (e : TExpr), Scoped args.length e →
      eval ι (instHoles args e) σ = eval ι e ts
  | .var _ _, _ => by simp only [instHoles, eval]
  | .const _ _, _ => by simp only [instHoles, eval]
  | .hole k r, h => by
    simp only [Scoped] at h
    simp only [instHoles, eval]
    rw [List.getElem?_eq_getElem h, Option.getD_some]
    exact (evalArgs_getElem? hu (List.getElem?_eq_getElem h)).symm
  | .ds _ e, h => by
    simp only [Scoped] at h
    simp only [instHoles, eval]
    rw [eval_instHoles hu e h]
  | .el _ as, h => by
    simp only [Scoped] at h
    simp only [instHoles, eval]
    rw [evalArgs_instHoles hu as h]
  | .sub _ as, h => by
    simp only [Scoped] at h
    simp only [instHoles, eval]
    rw [evalArgs_instHoles hu as h.2]
theorem evalArgs_instHoles {ι : Interp} {args : List TExpr} {σ ts : List Tensor}
    (hu : evalArgs ι args σ = some ts) : ∀ (as : List TExpr), ScopedArgs args.length as →
      evalArgs ι (instHolesArgs args as) σ = evalArgs ι as ts
  | [], _ => by simp only [instHolesArgs, evalArgs]
  | a :: as, h => by
    simp only [ScopedArgs] at h
    simp only [instHolesArgs, evalArgs]
    rw [eval_instHoles hu a h.1, evalArgs_instHoles hu as h.2]
end

theorem length_instHolesArgs (args as : List TExpr) : (instHolesArgs args as).length = as.length := by
  induction as with
  | nil => rfl
  | cons a as ih => simp [instHolesArgs, ih]

mutual
theorem scoped_instHoles {n : ℕ} {args : List TExpr} (ha : ScopedArgs n args) : ∀ (e : TExpr),
    Scoped args.length e → Scoped n (instHoles args e)
  | .var _ _, _ => by simp only [instHoles, Scoped]
  | .const _ _, _ => by simp only [instHoles, Scoped]
  | .hole k r, h => by
    simp only [Scoped] at h
    simp only [instHoles]
    rw [List.getElem?_eq_getElem h, Option.getD_some]
    exact scopedArgs_iff.1 ha _ (List.getElem_mem h)
  | .ds _ e, h => by
    simp only [Scoped] at h
    simp only [instHoles, Scoped]
    exact scoped_instHoles ha e h
  | .el _ as, h => by
    simp only [Scoped] at h
    simp only [instHoles, Scoped]
    exact scoped_instHolesArgs ha as h
  | .sub _ as, h => by
    simp only [Scoped] at h
    simp only [instHoles, Scoped, length_instHolesArgs]
    exact ⟨h.1, scoped_instHolesArgs ha as h.2⟩
theorem scoped_instHolesArgs {n : ℕ} {args : List TExpr} (ha : ScopedArgs n args) :
    ∀ (as : List TExpr), ScopedArgs args.length as → ScopedArgs n (instHolesArgs args as)
  | [], _ => by simp only [instHolesArgs, ScopedArgs]
  | a :: as, h => by
    simp only [ScopedArgs] at h
    simp only [instHolesArgs, ScopedArgs]
    exact ⟨scoped_instHoles ha a h.1, scoped_instHolesArgs ha as h.2⟩
end

mutual
theorem noSub_instHoles {args : List TExpr} (ha : NoSubArgs args) : ∀ (e : TExpr),
    NoSub e → NoSub (instHoles args e)
  | .var _ _, _ => by simp only [instHoles, NoSub]
  | .const _ _, _ => by simp only [instHoles, NoSub]
  | .hole k r, h => by
    simp only [instHoles]
    have hiff : ∀ as : List TExpr, NoSubArgs as → ∀ a ∈ as, NoSub a := by
      intro as
      induction as with
      | nil => simp
      | cons a as ih =>
        intro h
        simp only [NoSubArgs] at h
        simpa using ⟨h.1, ih h.2⟩
    cases hk : args[k]? with
    | none => exact h
    | some a => exact hiff _ ha _ (List.mem_of_getElem? hk)
  | .ds _ e, h => by
    simp only [NoSub] at h
    simp only [instHoles, NoSub]
    exact noSub_instHoles ha e h
  | .el _ as, h => by
    simp only [NoSub] at h
    simp only [instHoles, NoSub]
    exact noSub_instHolesArgs ha as h
  | .sub _ as, h => by simp [NoSub] at h
theorem noSub_instHolesArgs {args : List TExpr} (ha : NoSubArgs args) : ∀ (as : List TExpr),
    NoSubArgs as → NoSubArgs (instHolesArgs args as)
  | [], _ => by simp only [instHolesArgs, NoSubArgs]
  | a :: as, h => by
    simp only [NoSubArgs] at h
    simp only [instHolesArgs, NoSubArgs]
    exact ⟨noSub_instHoles ha a h.1, noSub_instHolesArgs ha as h.2⟩
end

/-! ## The rewrite -/

theorem removeConstants_eq (as : List Arg) :
    removeConstants as = (as.map Arg.toVar).filter fun e => !isConst e := by
  induction as with
  | nil => rfl
  | cons a as ih =>
    rw [removeConstants, List.map_cons, List.filter_cons]
    split <;> rename_i h <;> simp [h, ih]

theorem evalArgs_eq_some_iff {ι : Interp} {as : List TExpr} {σ : List Tensor} :
    (evalArgs ι as σ).isSome ↔ ∀ a ∈ as, (eval ι a σ).isSome := by
  induction as with
  | nil => simp [evalArgs]
  | cons a as ih =>
    simp only [evalArgs, List.mem_cons, forall_eq_or_imp, ← ih]
    cases eval ι a σ <;> simp

theorem evalArgs_congr {ι : Interp} {α : Type} {f g : α → TExpr} {σ : List Tensor} {l : List α}
    (h : ∀ a ∈ l, eval ι (f a) σ = eval ι (g a) σ) :
    evalArgs ι (l.map f) σ = evalArgs ι (l.map g) σ := by
  induction l with
  | nil => rfl
  | cons a l ih =>
    simp only [List.map_cons, evalArgs]
    rw [h a (by simp), ih fun b hb => h b (by simp [hb])]

/-- The result of the rewrite, spelled out. -/
theorem subsume_some {e e' : TExpr} (h : subsume e = some e') : ∃ f args, e = .el f args ∧
    (∃ a ∈ args, (subsumeInput e.rank a).2.2 = true) ∧
    e' = .sub (abstr (removeConstants (args.map fun a => .v (subsumeInput e.rank a).1))
        (.el f (args.map fun a => (subsumeInput e.rank a).2.1)))
      (removeConstants (args.map fun a => .v (subsumeInput e.rank a).1)) := by
  match e, h with
  | .el f args, h =>
    rw [subsume] at h
    simp only at h
    split at h
    · rename_i hany
      refine ⟨f, args, rfl, ?_, ?_⟩
      · simpa using hany
      · have := Option.some_injective _ h
        rw [← this]
        simp only [List.map_map]
        rfl
    · simp at h
  | .var _ _, h => simp [subsume] at h
  | .const _ _, h => simp [subsume] at h
  | .hole _ _, h => simp [subsume] at h
  | .ds _ _, h => simp [subsume] at h
  | .sub _ _, h => simp [subsume] at h

theorem subsume_el {f : ℕ} {args : List TExpr}
    (h : ∃ a ∈ args, (subsumeInput (TExpr.el f args).rank a).2.2 = true) :
    ∃ e', subsume (.el f args) = some e' := by
  rw [subsume]
  simp only
  rw [if_pos (by simpa using h)]
  exact ⟨_, rfl⟩

theorem mem_removeConstants {as : List TExpr} {e : TExpr} :
    e ∈ removeConstants (as.map Arg.v) ↔ e ∈ as ∧ isConst e = false := by
  rw [removeConstants_eq]
  simp [Arg.toVar]

theorem outer_body {f : ℕ} {args : List TExpr} (r : ℕ) (h : Outer (.el f args)) :
    Outer (.el f (args.map fun a => (subsumeInput r a).2.1)) := by
  simp only [Outer, Scoped, scopedArgs_iff] at h ⊢
  intro a ha
  obtain ⟨b, hb, rfl⟩ := List.mem_map.1 ha
  exact (scoped_subsumeInput (h b hb)).2

theorem eval_body {ι : Interp} {f : ℕ} {args : List TExpr} {r : ℕ} {σ : List Tensor} :
    eval ι (.el f (args.map fun a => (subsumeInput r a).2.1)) σ = eval ι (.el f args) σ := by
  simp only [eval]
  have := evalArgs_congr (ι := ι) (σ := σ) (l := args) (f := fun a => (subsumeInput r a).2.1) (g := id)
    fun a _ => eval_subsumed ι r a σ
  rw [this, List.map_id]

theorem eval_subsume {ι : Interp} {e e' : TExpr} (h : subsume e = some e') (ho : Outer e)
    (σ : List Tensor) : eval ι e' σ = eval ι e σ := by
  obtain ⟨f, args, rfl, -, rfl⟩ := subsume_some h
  generalize (TExpr.el f args).rank = r
  conv_lhs => rw [eval]
  cases hu : evalArgs ι (removeConstants (args.map fun a => .v (subsumeInput r a).1)) σ with
  | some ts =>
    rw [Option.bind_some, eval_abstr hu _ (outer_body r ho), eval_body]
  | none =>
    rw [Option.bind_none, eval]
    cases ha : evalArgs ι args σ with
    | none => rfl
    | some ts =>
      exfalso
      have h1 := evalArgs_eq_some_iff.1 (by rw [ha]; rfl : (evalArgs ι args σ).isSome)
      have h2 : (evalArgs ι (removeConstants (args.map fun a => .v (subsumeInput r a).1)) σ).isSome := by
        rw [evalArgs_eq_some_iff]
        intro a hm
        rw [removeConstants_eq, List.mem_filter] at hm
        simp only [List.map_map, List.mem_map] at hm
        obtain ⟨⟨b, hb, rfl⟩, -⟩ := hm
        exact eval_new_isSome ι r b σ (h1 b hb)
      rw [hu] at h2
      simp at h2

theorem outer_subsume {e e' : TExpr} (h : subsume e = some e') (ho : Outer e) : Outer e' := by
  obtain ⟨f, args, rfl, -, rfl⟩ := subsume_some h
  generalize (TExpr.el f args).rank = r
  simp only [Outer, Scoped]
  refine ⟨scoped_abstr _ (outer_body r ho), ?_⟩
  rw [scopedArgs_iff]
  intro a hm
  rw [removeConstants_eq, List.mem_filter] at hm
  simp only [List.map_map, List.mem_map] at hm
  obtain ⟨⟨b, hb, rfl⟩, -⟩ := hm
  simp only [Outer, Scoped, scopedArgs_iff] at ho
  exact (scoped_subsumeInput (ho b hb)).1

/-! ## The graph passes -/

mutual
theorem subsumeAll_spec (ι : Interp) : ∀ (e : TExpr), Outer e →
    Outer (subsumeAll e) ∧ ∀ σ, eval ι (subsumeAll e) σ = eval ι e σ
  | .var _ _, h => by
    simp only [subsumeAll]
    exact ⟨h, fun _ => trivial⟩
  | .const _ _, h => by
    simp only [subsumeAll]
    exact ⟨h, fun _ => trivial⟩
  | .hole _ _, h => absurd h (by simp [Outer, Scoped])
  | .ds _ e, h => by
    simp only [Outer, Scoped] at h
    have := subsumeAll_spec ι e h
    simp only [subsumeAll, Outer, Scoped, eval]
    exact ⟨this.1, fun σ => by rw [this.2 σ]⟩
  | .el f as, h => by
    simp only [Outer, Scoped] at h
    have := subsumeAllArgs_spec ι as h
    have ho : Outer (.el f (subsumeAllArgs as)) := by simpa only [Outer, Scoped] using this.1
    have hv : ∀ σ, eval ι (.el f (subsumeAllArgs as)) σ = eval ι (.el f as) σ := fun σ => by
      simp only [eval]
      rw [this.2 σ]
    simp only [subsumeAll]
    cases hs : subsume (.el f (subsumeAllArgs as)) with
    | none => exact ⟨ho, hv⟩
    | some e' => exact ⟨outer_subsume hs ho, fun σ => (eval_subsume hs ho σ).trans (hv σ)⟩
  | .sub inner as, h => by
    simp only [Outer, Scoped] at h
    have := subsumeAllArgs_spec ι as h.2
    have hl : ∀ as : List TExpr, (subsumeAllArgs as).length = as.length := by
      intro as
      induction as with
      | nil => rfl
      | cons a as ih => simp [subsumeAllArgs, ih]
    simp only [subsumeAll, Outer, Scoped, eval, hl]
    exact ⟨⟨h.1, this.1⟩, fun σ => by rw [this.2 σ]⟩
theorem subsumeAllArgs_spec (ι : Interp) : ∀ (as : List TExpr), ScopedArgs 0 as →
    ScopedArgs 0 (subsumeAllArgs as) ∧ ∀ σ, evalArgs ι (subsumeAllArgs as) σ = evalArgs ι as σ
  | [], h => by
    simp only [subsumeAllArgs]
    exact ⟨h, fun _ => trivial⟩
  | a :: as, h => by
    simp only [ScopedArgs] at h
    have h1 := subsumeAll_spec ι a h.1
    have h2 := subsumeAllArgs_spec ι as h.2
    simp only [subsumeAllArgs, ScopedArgs, evalArgs]
    exact ⟨⟨h1.1, h2.1⟩, fun σ => by rw [h1.2, h2.2]⟩
end

theorem length_expandAllArgs (as : List TExpr) : (expandAllArgs as).length = as.length := by
  induction as with
  | nil => rfl
  | cons a as ih => simp [expandAllArgs, ih]

mutual
theorem expandAll_spec (ι : Interp) : ∀ (e : TExpr) (n : ℕ), Scoped n e →
    Scoped n (expandAll e) ∧ NoSub (expandAll e) ∧
      ∀ σ t, eval ι e σ = some t → eval ι (expandAll e) σ = some t
  | .var _ _, n, h => by
    simp only [expandAll, NoSub]
    exact ⟨h, trivial, fun _ _ h => h⟩
  | .const _ _, n, h => by
    simp only [expandAll, NoSub]
    exact ⟨h, trivial, fun _ _ h => h⟩
  | .hole _ _, n, h => by
    simp only [expandAll, NoSub]
    exact ⟨h, trivial, fun _ _ h => h⟩
  | .ds _ e, n, h => by
    simp only [Scoped] at h
    have := expandAll_spec ι e n h
    simp only [expandAll, Scoped, NoSub, eval]
    refine ⟨this.1, this.2.1, fun σ t ht => ?_⟩
    obtain ⟨u, hu, ht⟩ := Option.bind_eq_some_iff.1 ht
    rw [this.2.2 σ u hu]
    exact ht
  | .el _ as, n, h => by
    simp only [Scoped] at h
    have := expandAllArgs_spec ι as n h
    simp only [expandAll, Scoped, NoSub, eval]
    refine ⟨this.1, this.2.1, fun σ t ht => ?_⟩
    obtain ⟨u, hu, ht⟩ := Option.bind_eq_some_iff.1 ht
    rw [this.2.2 σ u hu]
    exact ht
  | .sub inner as, n, h => by
    simp only [Scoped] at h
    have h1 := expandAll_spec ι inner as.length h.1
    have h2 := expandAllArgs_spec ι as n h.2
    have hs : Scoped (expandAllArgs as).length (expandAll inner) := by
      rw [length_expandAllArgs]
      exact h1.1
    simp only [expandAll]
    refine ⟨scoped_instHoles h2.1 _ hs, noSub_instHoles h2.2.1 _ h1.2.1, fun σ t ht => ?_⟩
    rw [eval] at ht
    obtain ⟨u, hu, ht⟩ := Option.bind_eq_some_iff.1 ht
    rw [eval_instHoles (h2.2.2 σ u hu) _ hs]
    exact h1.2.2 u t ht
theorem expandAllArgs_spec (ι : Interp) : ∀ (as : List TExpr) (n : ℕ), ScopedArgs n as →
    ScopedArgs n (expandAllArgs as) ∧ NoSubArgs (expandAllArgs as) ∧
      ∀ σ ts, evalArgs ι as σ = some ts → evalArgs ι (expandAllArgs as) σ = some ts
  | [], n, h => by
    simp only [expandAllArgs, NoSubArgs]
    exact ⟨h, trivial, fun _ _ h => h⟩
  | a :: as, n, h => by
    simp only [ScopedArgs] at h
    have h1 := expandAll_spec ι a n h.1
    have h2 := expandAllArgs_spec ι as n h.2
    simp only [expandAllArgs, ScopedArgs, NoSubArgs, evalArgs]
    refine ⟨⟨h1.1, h2.1⟩, ⟨h1.2.1, h2.2.1⟩, fun σ ts ht => ?_⟩
    obtain ⟨u, hu, ht⟩ := Option.bind_eq_some_iff.1 ht
    obtain ⟨v, hv, ht⟩ := Option.map_eq_some_iff.1 ht
    rw [h1.2.2 σ u hu, h2.2.2 σ v hv, ← ht]
    rfl
end

theorem dropConstants_eq (es : List TExpr) : dropConstants es = es.filter fun e => !isConst e := by
  refine List.filter_congr fun e _ => ?_
  cases e <;> simp [isConst]

theorem removeConstants_given (as : List Arg) : removeConstants as = dropConstants (givenVars as) := by
  rw [dropConstants_eq, removeConstants_eq]
  induction as with
  | nil => rfl
  | cons a as ih =>
    cases a with
    | raw i =>
      simp only [List.map_cons, Arg.toVar, givenVars, ← ih]
      rw [List.filter_cons_of_neg (by simp [isConst])]
    | v e => simp only [List.map_cons, Arg.toVar, givenVars, List.filter_cons, ih]

/-! ## Free variables of inner graphs -/

mutual
theorem eval_congr_const {ι κ : Interp} (hc : ι.const = κ.const) (ho : ι.op = κ.op) :
    ∀ (e : TExpr) (σ : List Tensor), (∀ i r, ¬ HasVar i r e) → eval ι e σ = eval κ e σ
  | .var i r, _, h => absurd ⟨rfl, rfl⟩ (h i r)
  | .const _ _, _, _ => by simp only [eval, hc]
  | .hole _ _, _, _ => by simp only [eval]
  | .ds _ e, σ, h => by
    simp only [HasVar] at h
    simp only [eval]
    rw [eval_congr_const hc ho e σ h]
  | .el _ as, σ, h => by
    simp only [HasVar] at h
    simp only [eval]
    rw [evalArgs_congr_const hc ho as σ h, ho]
  | .sub inner as, σ, h => by
    simp only [HasVar, not_or] at h
    simp only [eval]
    rw [evalArgs_congr_const hc ho as σ fun i r => (h i r).2]
    cases evalArgs κ as σ with
    | none => rfl
    | some ts => exact eval_congr_const hc ho inner ts fun i r => (h i r).1
theorem evalArgs_congr_const {ι κ : Interp} (hc : ι.const = κ.const) (ho : ι.op = κ.op) :
    ∀ (as : List TExpr) (σ : List Tensor), (∀ i r, ¬ HasVarArgs i r as) →
      evalArgs ι as σ = evalArgs κ as σ
  | [], _, _ => by simp only [evalArgs]
  | a :: as, σ, h => by
    simp only [HasVarArgs, not_or] at h
    simp only [evalArgs]
    rw [eval_congr_const hc ho a σ fun i r => (h i r).1,
      evalArgs_congr_const hc ho as σ fun i r => (h i r).2]
end

theorem lastIdx_isSome {e : TExpr} {used : List TExpr} (h : e ∈ used) : ∃ k, lastIdx e used = some k := by
  induction used with
  | nil => simp at h
  | cons x xs ih =>
    rw [lastIdx]
    cases hl : lastIdx e xs with
    | some k => exact ⟨_, rfl⟩
    | none =>
      rcases List.mem_cons.1 h with rfl | h
      · exact ⟨0, by simp⟩
      · obtain ⟨k, hk⟩ := ih h
        rw [hl] at hk
        exact absurd hk (by simp)

mutual
theorem noVar_abstr {used : List TExpr} : ∀ (e : TExpr), NoSub e →
    (∀ i r, HasVar i r e → TExpr.var i r ∈ used) → ∀ i r, ¬ HasVar i r (abstr used e) := by
  intro e hs hv i r
  cases hl : lastIdx e used with
  | some k =>
    rw [abstr_of_some hl]
    simp [HasVar]
  | none =>
    match e, hs, hv, hl with
    | .var j s, _, hv, hl =>
      obtain ⟨k, hk⟩ := lastIdx_isSome (hv j s (by simp [HasVar]))
      rw [hl] at hk
      exact absurd hk (by simp)
    | .const _ _, _, _, hl =>
      rw [abstr, holeOr, hl]
      simp [HasVar]
    | .hole _ _, _, _, hl =>
      rw [abstr, holeOr, hl]
      simp [HasVar]
    | .ds _ e, hs, hv, hl =>
      rw [abstr, holeOr, hl]
      simp only [HasVar, NoSub] at hs hv ⊢
      exact noVar_abstr e hs hv i r
    | .el _ as, hs, hv, hl =>
      rw [abstr, holeOr, hl]
      simp only [HasVar, NoSub] at hs hv ⊢
      exact noVar_abstrArgs as hs hv i r
    | .sub _ as, hs, _, _ => simp [NoSub] at hs
theorem noVar_abstrArgs {used : List TExpr} : ∀ (as : List TExpr), NoSubArgs as →
    (∀ i r, HasVarArgs i r as → TExpr.var i r ∈ used) → ∀ i r, ¬ HasVarArgs i r (abstrArgs used as)
  | [], _, _, _, _ => by simp [abstrArgs, HasVarArgs]
  | a :: as, hs, hv, i, r => by
    simp only [HasVarArgs, NoSubArgs, abstrArgs] at hs hv ⊢
    intro h
    rcases h with h | h
    · exact noVar_abstr a hs.1 (fun i r h => hv i r (Or.inl h)) i r h
    · exact noVar_abstrArgs as hs.2 (fun i r h => hv i r (Or.inr h)) i r h
end

/-! ## What is exposed -/

theorem maxRank_of_eq {r : ℕ} {as : List TExpr} (h : ∀ a ∈ as, a.rank = r) (hne : as ≠ []) :
    maxRank as = r := by
  induction as with
  | nil => exact absurd rfl hne
  | cons a as ih =>
    rw [maxRank, h a (by simp)]
    rcases as with _ | ⟨b, bs⟩
    · simp [maxRank]
    · rw [ih (fun c hc => h c (by simp [hc])) (by simp)]
      simp

theorem exposes_subsumeInput {r : ℕ} {i : TExpr} (hr : i.rank = r)
    (hv : ∀ order v, i = .ds order v → v.rank ≤ r) :
    Exposes r i (subsumeInput r i).1 ∧
      ((subsumeInput r i).2.2 = true ↔ ∃ v rest, LeftPadded r i v rest) := by
  have htake : ∀ {v : TExpr} {order : Order}, v.rank ≤ r → pyTake ((r : ℤ) - v.rank) order =
      order.take (r - v.rank) := by
    intro v order h
    rw [pyTake, if_pos (by omega)]
    congr 1
    omega
  rcases subsumeInput_cases r i with ⟨h, hno⟩ | ⟨el, new, v, hel, hne, hi, htk, h⟩
  · have hnot : ¬ ∃ v rest, LeftPadded r i v rest := by
      rintro ⟨v, rest, hlt, hi⟩
      have := hno _ v hi
      rw [htake hlt.le, List.take_left' (by simp)] at this
      rcases this with h0 | ⟨d, hd, hdn⟩
      · have := congrArg List.length h0
        simp only [List.length_replicate, List.length_nil] at this
        omega
      · exact hdn (List.eq_of_mem_replicate hd)
    rw [h]
    exact ⟨Or.inr ⟨hnot, rfl⟩, by simp [hnot]⟩
  · have hvr := hv _ v hi
    rw [htake hvr] at htk
    have hlen : (el ++ new).length = r := by
      rw [hi] at hr
      exact hr
    have hel_len : el.length = r - v.rank := by
      have := congrArg List.length htk
      rw [List.length_take, hlen] at this
      omega
    have hrep : el = List.replicate (r - v.rank) none := by
      rw [← hel_len]
      exact List.eq_replicate_iff.2 ⟨rfl, hel⟩
    have hlp : LeftPadded r i v new := by
      refine ⟨?_, by rw [hi, hrep]⟩
      have : el.length ≠ 0 := fun h => hne (List.length_eq_zero_iff.1 h)
      omega
    rcases h with ⟨hid, h⟩ | ⟨hid, h⟩
    · rw [h]
      exact ⟨Or.inl ⟨v, new, hlp, by rw [if_pos hid]⟩, by simpa using ⟨v, new, hlp⟩⟩
    · rw [h]
      exact ⟨Or.inl ⟨v, new, hlp, by rw [if_neg hid]⟩, by simpa using ⟨v, new, hlp⟩⟩

end Verif.Subs
