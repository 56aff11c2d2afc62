import Verif.Parts.Lock

/-!
# A part of a model: the renaming of the initial values, values of graphs
-/

namespace Verif.Graph

open Verif.Py

/-- The list of initial values by position. -/
theorem initVals_idx {base : Nat} {l : List Var} (h : l.Nodup) :
    initVals base l = l.map fun r => (r, base + l.idxOf r) := by
  rw [initVals_eq h]
  refine List.ext_getElem (by simp) fun i h1 h2 => ?_
  simp only [List.getElem_map, List.getElem_zipIdx, Nat.zero_add]
  rw [h.idxOf_getElem]

/-- Initial values of the sublist `l'` renamed to those of `l`. -/
def rename (base : Nat) (l l' : List Var) (x : Var) : Var :=
  if x < base then x else base + l.idxOf (l'.getD (x - base) 0)

theorem rename_low {base x : Nat} {l l' : List Var} (h : x < base) : rename base l l' x = x := if_pos h

theorem rename_init {base : Nat} {l l' : List Var} {r : Var} (hr : r ∈ l') :
    rename base l l' (base + l'.idxOf r) = base + l.idxOf r := by
  unfold rename
  have h1 : l'.getD (l'.idxOf r) 0 = r := by
    rw [List.getD_eq_getElem?_getD, List.getElem?_eq_getElem (List.idxOf_lt_length_iff.2 hr), Option.getD_some,
      List.getElem_idxOf]
  rw [if_neg (Nat.not_lt.2 (Nat.le_add_right _ _)), Nat.add_sub_cancel_left, h1]

/-- The initial values of a part. -/
theorem initVals_filter {base : Nat} {l : List Var} (h : l.Nodup) (C : Var → Bool) :
    (initVals base l).filter (fun p => C p.1) =
      (initVals base (l.filter C)).map fun p => (p.1, rename base l (l.filter C) p.2) := by
  rw [initVals_idx h, initVals_idx (h.filter C), List.filter_map, List.map_map]
  refine List.map_congr_left fun r hr => ?_
  simp only [Function.comp_apply]
  rw [rename_init (show r ∈ l.filter C from hr)]

theorem unobs_filter (C : Var → Bool) (outs : List Var) (obs : Dict Var Var) :
    unobs (outs.filter C) (obs.filter fun p => C p.1) = (unobs outs obs).filter C := by
  unfold unobs
  rw [List.filter_filter, List.filter_filter]
  refine List.filter_congr fun r _ => ?_
  cases hC : C r with
  | false => simp
  | true =>
    have : Dict.has (obs.filter fun p => C p.1) r = obs.has r := by
      unfold Dict.has
      rw [decide_eq_decide, keys_filter, and_iff_left hC]
    simp [this]

/-- Every variable read in the final graph is marked when the variables read before, the initial values, the
observations and the steps are. -/
theorem loop_marked {own : Owner} {obs : Dict Var Var} {disc : Dict Var (List StepDesc)} {GV : Var → Prop} :
    ∀ (l : List Var) (st : LoopState), l.Nodup → (∀ n, ∀ w ∈ st.ins n, GV w) → (∀ p ∈ st.pss, GV p.2) →
    (∀ r ∈ l, st.disc.get? r = disc.get? r) →
    (∀ r ∈ l, ∀ sd, chosen disc obs r = some sd → ∀ o ∈ sd.outs, GV o) →
    (∀ n, ∀ w ∈ (loop own obs st l).ins n, GV w) ∧ ∀ p ∈ (loop own obs st l).pss, GV p.2
  | [], _, _, h1, h2, _, _ => ⟨h1, h2⟩
  | r :: l, st, hn, h1, h2, hd, hsd => by
    rw [List.nodup_cons] at hn
    have hne : ∀ x ∈ l, x ≠ r := by
      rintro x hx rfl
      exact hn.1 hx
    have hc : chosen st.disc obs r = chosen disc obs r := chosen_congr (hd r (by simp))
    have hd' : ∀ x ∈ l, (processRV own obs st r).disc.get? x = disc.get? x := fun x hx => by
      rw [processRV_disc (hne x hx), hd x (by simp [hx])]
    change (∀ n, ∀ w ∈ (loop own obs (processRV own obs st r) l).ins n, GV w) ∧
      ∀ p ∈ (loop own obs (processRV own obs st r) l).pss, GV p.2
    have key : (∀ n, ∀ w ∈ (processRV own obs st r).ins n, GV w) ∧
        ∀ p ∈ (processRV own obs st r).pss, GV p.2 := by
      cases h : chosen st.disc obs r with
      | none =>
        obtain ⟨w1, w2⟩ := processRV_idle (own := own) h
        rw [w1, w2]
        exact ⟨h1, h2⟩
      | some sd =>
        obtain ⟨w1, w2, -, -⟩ := processRV_some (own := own) h
        obtain ⟨c1, c2, -⟩ := replaceAll_color (own := own) (P := fun _ => True) (PV := GV)
          (fun _ _ _ _ _ => trivial) (ps := st.pss) (s := (st.ins, sd.outs)) (fun p hp _ => h2 p hp)
          (fun n _ => h1 n) (hsd r (by simp) sd (hc.symm.trans h))
        rw [w1, w2]
        refine ⟨fun n => c1 n trivial, fun p hp => ?_⟩
        rcases Dict.mem_set _ _ _ _ hp with hp | rfl
        · exact h2 p hp
        · exact c2 _ (mem_headD (replaceAll_ne_nil sd.outs_ne_nil))
    exact loop_marked l _ hn.2 key.1 key.2 hd' fun x hx => hsd x (by simp [hx])

/-- Two heaps that agree on a part up to a renaming give the same values. -/
theorem Ev.rename {Val : Type} {own : Owner} {sem : Node → Nat → List Val → Val} {PV : Var → Prop} {P : Node → Prop}
    {σ : Var → Var} {insW insA : Ins} {gW gA : Var → Option Val}
    (hPV : ∀ v n i, PV v → own v = some (n, i) → P n) (hσ : ∀ x, own (σ x) = own x)
    (heap : ∀ n, P n → insW n = (insA n).map σ) (hin : ∀ n, P n → ∀ w ∈ insA n, PV w)
    (hg : ∀ v, PV v → gW (σ v) = gA v) {v : Var} (hv : PV v) (x : Val) :
    Ev own sem gW insW (σ v) x ↔ Ev own sem gA insA v x := by
  constructor
  · intro h
    refine Ev.rec (motive_1 := fun v' x _ => ∀ v, v' = σ v → PV v → Ev own sem gA insA v x)
      (motive_2 := fun vs' xs _ => ∀ vs, vs' = vs.map σ → (∀ v ∈ vs, PV v) → EvL own sem gA insA vs xs)
      ?_ ?_ ?_ ?_ h v rfl hv
    · rintro v' x e v rfl hv
      exact .given (by rw [← hg v hv]; exact e)
    · rintro v' n i xs e ho _ ih v rfl hv
      rw [hσ] at ho
      have hP := hPV v n i hv ho
      exact .node (by rw [← hg v hv]; exact e) ho (ih _ (heap n hP) (hin n hP))
    · intro vs e _
      obtain rfl : vs = [] := List.map_eq_nil_iff.1 e.symm
      exact .nil
    · intro v' x vs' xs _ _ ih1 ih2 vs e hvs
      cases vs with
      | nil => cases e
      | cons w ws =>
        rw [List.map_cons, List.cons.injEq] at e
        exact .cons (ih1 w e.1 (hvs w (by simp))) (ih2 ws e.2 fun u hu => hvs u (by simp [hu]))
  · intro h
    refine Ev.rec (motive_1 := fun v x _ => PV v → Ev own sem gW insW (σ v) x)
      (motive_2 := fun vs xs _ => (∀ v ∈ vs, PV v) → EvL own sem gW insW (vs.map σ) xs)
      ?_ ?_ ?_ ?_ h hv
    · intro v x e hv
      exact .given (by rw [hg v hv]; exact e)
    · intro v n i xs e ho _ ih hv
      have hP := hPV v n i hv ho
      refine .node (by rw [hg v hv]; exact e) (by rw [hσ]; exact ho) ?_
      rw [heap n hP]
      exact ih (hin n hP)
    · intro _
      exact .nil
    · intro v x vs xs _ _ ih1 ih2 hvs
      exact .cons (ih1 (hvs v (by simp))) (ih2 fun u hu => hvs u (by simp [hu]))

end Verif.Graph
