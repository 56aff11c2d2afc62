import Verif.Graph.Props

/-!
# When the graph handed to NUTS no longer mentions a variable: lemmas
-/

namespace Verif.Graph

open Verif.Py

/-- Spec.  Following inputs from `v` one meets `r` without meeting a variable of `B` on the way. -/
inductive Meets (own : Owner) (B : Var → Prop) (ins : Ins) : Var → Var → Prop
  | refl {v} : ¬ B v → Meets own B ins v v
  | tail {v w u n i} : Meets own B ins v w → own w = some (n, i) → u ∈ ins n → ¬ B u →
      Meets own B ins v u

/-- Spec.  `u` is an unobserved variable that comes before `s` in scan order. -/
def Ahead (outs : List Var) (obs : Dict Var Var) (s u : Var) : Prop :=
  u ∉ obs.keys ∧ ∃ a b, outs = a ++ s :: b ∧ u ∈ a

/-- No node in the graph of `r` reads `s`. -/
def Clean (own : Owner) (ins : Ins) (r s : Var) : Prop :=
  ∀ w, Reach own ins r w → ¬ Edge own ins w s

variable {own : Owner} {D B : Var → Prop}

theorem Meets.reach {ins : Ins} {v w : Var} (h : Meets own B ins v w) : Reach own ins v w := by
  induction h with
  | refl => exact .refl
  | tail _ hn hu _ ih => exact ih.tail ⟨_, _, hn, hu⟩

theorem Meets.not_left {ins : Ins} {v w : Var} (h : Meets own B ins v w) : ¬ B v := by
  induction h with
  | refl h => exact h
  | tail _ _ _ _ ih => exact ih

theorem replace_mem_old {s : Ins × List Var} {q v w : Var} {n : Node}
    (h : w ∈ (replace own s q v).1 n) : w ∈ s.1 n ∨ w = v := by
  unfold replace at h
  dsimp only at h
  split_ifs at h
  · obtain ⟨y, hy, rfl⟩ := List.mem_map.1 h
    unfold sub
    split_ifs
    · exact Or.inr rfl
    · exact Or.inl hy
  · exact Or.inl h

/-- What is reached after a replacement by a closed value was reached before, or is closed. -/
theorem reach_old {s : Ins × List Var} {q v r w : Var} (hq : D q) (hv : Closed own D s.1 v)
    (h : Reach own (replace own s q v).1 r w) :
    Closed own D (replace own s q v).1 w ∨ Reach own s.1 r w := by
  induction h with
  | refl => exact Or.inr .refl
  | tail _ e ih =>
    rcases ih with hc | hr
    · exact Or.inl (hc.edge e)
    · obtain ⟨n, i, hn, hx⟩ := e
      rcases replace_mem_old hx with h | rfl
      · exact Or.inr (hr.tail ⟨n, i, hn, h⟩)
      · exact Or.inl (closed_of_frame (replace_frame_D hq) hv)

theorem Clean.replace {s : Ins × List Var} {q v r x : Var} (h : Clean own s.1 r x) (hx : D x)
    (hq : D q) (hv : Closed own D s.1 v) : Clean own (replace own s q v).1 r x := by
  intro w hw e
  rcases reach_old hq hv hw with hc | hr
  · exact hc x (.single e) hx
  · obtain ⟨n, i, hn, hm⟩ := e
    rcases replace_mem_old hm with hm | rfl
    · exact h w hr ⟨n, i, hn, hm⟩
    · exact hv _ .refl hx

theorem Clean.replaceAll {r x : Var} (hx : D x) {ps : List (Var × Var)} : ∀ {s : Ins × List Var},
    Clean own s.1 r x → (∀ p ∈ ps, D p.1 ∧ Closed own D s.1 p.2) →
    Clean own (replaceAll own s ps).1 r x := by
  induction ps with
  | nil => exact fun h _ => h
  | cons p ps ih =>
    intro s h hps
    obtain ⟨q, v⟩ := p
    have hq := (hps (q, v) (by simp)).1
    refine ih (h.replace hx hq (hps (q, v) (by simp)).2) fun p hp => ?_
    exact ⟨(hps p (by simp [hp])).1, closed_of_frame (replace_frame_D hq) (hps p (by simp [hp])).2⟩

/-- Replacing `x` while `r` is in the graph removes `x` from the graph of `r`. -/
theorem clean_of_reach {s : Ins × List Var} {v r x : Var} (hx : D x) (hv : Closed own D s.1 v)
    (h : ∃ o ∈ s.2, Reach own s.1 o r) : Clean own (replace own s x v).1 r x := by
  intro w hw e
  rcases reach_old hx hv hw with hc | hr
  · exact hc x (.single e) hx
  · obtain ⟨n, i, hn, hm⟩ := e
    obtain ⟨o, ho, hor⟩ := h
    have hin : NodeIn own s.1 s.2 n := ⟨o, ho, w, i, hor.trans hr, hn⟩
    unfold Verif.Graph.replace at hm
    dsimp only at hm
    rw [if_pos hin] at hm
    obtain ⟨y, -, hy⟩ := List.mem_map.1 hm
    unfold sub at hy
    split_ifs at hy with e
    · exact hv v .refl (hy ▸ hx)
    · exact e hy

theorem Meets.replace {s : Ins × List Var} {q v o r : Var} (h : Meets own B s.1 o r) (hq : B q) :
    Meets own B (replace own s q v).1 o r := by
  induction h with
  | refl h => exact .refl h
  | tail _ hn hu hB ih => exact ih.tail hn (replace_mem hu fun e => hB (e ▸ hq)) hB

theorem Meets.replaceAll {o r : Var} {ps : List (Var × Var)} : ∀ {s : Ins × List Var},
    Meets own B s.1 o r → (∀ p ∈ ps, B p.1) → Meets own B (replaceAll own s ps).1 o r := by
  induction ps with
  | nil => exact fun h _ => h
  | cons p ps ih =>
    exact fun h hB => ih (h.replace (hB p (by simp))) fun q hq => hB q (by simp [hq])

theorem mem_replaceAll {o : Var} (ho : ¬ B o) {ps : List (Var × Var)} : ∀ {s : Ins × List Var},
    o ∈ s.2 → (∀ p ∈ ps, B p.1) → o ∈ (replaceAll own s ps).2 := by
  induction ps with
  | nil => exact fun h _ => h
  | cons p ps ih =>
    intro s h hB
    refine ih ?_ fun q hq => hB q (by simp [hq])
    refine List.mem_map.2 ⟨o, h, ?_⟩
    unfold sub
    rw [if_neg]
    rintro rfl
    exact ho (hB p (by simp))

/-- If `r` is not in the graph, the way from `o` to `r` is not touched. -/
theorem Meets.untouched {s : Ins × List Var} {ps : List (Var × Var)} {o r : Var}
    (hps : ∀ p ∈ ps, D p.1 ∧ Closed own D s.1 p.2) (hr : ¬ ∃ o' ∈ s.2, Reach own s.1 o' r)
    (h : Meets own B s.1 o r) : Meets own B (Verif.Graph.replaceAll own s ps).1 o r := by
  have key : ∀ w, Meets own B s.1 o w → Reach own s.1 w r →
      Meets own B (Verif.Graph.replaceAll own s ps).1 o w := by
    intro w hw
    induction hw with
    | refl h => exact fun _ => .refl h
    | tail hw hn hu hB ih =>
      intro hur
      refine (ih (.head ⟨_, _, hn, hu⟩ hur)).tail hn ?_ hB
      by_contra hne
      have hch := replaceAll_changed (D := D) hps (fun e => hne (e.symm ▸ hu))
      obtain ⟨⟨o', ho', w', i', hr', hown⟩, -⟩ := hch
      exact hr ⟨o', ho', hr'.trans (.head ⟨_, _, hown, hu⟩ hur)⟩
  exact key r h .refl

theorem replaceAll_append (ps qs : List (Var × Var)) : ∀ s : Ins × List Var,
    replaceAll own s (ps ++ qs) = replaceAll own (replaceAll own s ps) qs := by
  induction ps with
  | nil => exact fun _ => rfl
  | cons p ps ih => exact fun s => ih _

/-- The whole list of replacements of one step. -/
theorem meets_or_clean {s : Ins × List Var} {pre post : List (Var × Var)} {x v o r : Var}
    (hx : D x) (hps : ∀ p ∈ pre ++ (x, v) :: post, D p.1 ∧ Closed own D s.1 p.2)
    (hB : ∀ p ∈ pre, B p.1) (h : Meets own B s.1 o r ∨ Clean own s.1 r x) :
    (Meets own B (replaceAll own s (pre ++ (x, v) :: post)).1 o r ∨
      Clean own (replaceAll own s (pre ++ (x, v) :: post)).1 r x) ∧
    (o ∈ s.2 → Clean own (replaceAll own s (pre ++ (x, v) :: post)).1 r x) := by
  rcases h with h | h
  · have hpre : ∀ p ∈ pre, D p.1 := fun p hp => (hps p (by simp [hp])).1
    have hps1 : ∀ p ∈ (x, v) :: post, D p.1 ∧ Closed own D (replaceAll own s pre).1 p.2 :=
      fun p hp => ⟨(hps p (List.mem_append_right _ hp)).1,
        closed_of_frame (replaceAll_frame_D hpre) (hps p (List.mem_append_right _ hp)).2⟩
    have hm := h.replaceAll (own := own) hB
    rw [replaceAll_append]
    by_cases hr : ∃ o' ∈ (replaceAll own s pre).2, Reach own (replaceAll own s pre).1 o' r
    · have hc := clean_of_reach hx (hps1 (x, v) (by simp)).2 hr
      have hc' := hc.replaceAll (D := D) hx (ps := post) fun p hp =>
        ⟨(hps1 p (by simp [hp])).1,
          closed_of_frame (replace_frame_D hx) (hps1 p (by simp [hp])).2⟩
      exact ⟨Or.inr hc', fun _ => hc'⟩
    · refine ⟨Or.inl (hm.untouched hps1 hr), fun ho => absurd ?_ hr⟩
      exact ⟨o, mem_replaceAll h.not_left ho hB, hm.reach⟩
  · have := h.replaceAll (D := D) hx hps
    exact ⟨Or.inr this, fun _ => this⟩

theorem split_key {d : Dict Var Var} {a b : List Var} {x : Var} (h : d.keys = a ++ x :: b) :
    ∃ pre v post, d = pre ++ (x, v) :: post ∧ pre.map Prod.fst = a := by
  obtain ⟨pre, l, rfl, h1, h2⟩ := List.map_eq_append_iff.1 h
  obtain ⟨p, post, rfl, h3, -⟩ := List.map_eq_cons_iff.1 h2
  obtain ⟨x', v⟩ := p
  cases h3
  exact ⟨pre, v, post, rfl, h1⟩

/-- One iteration of the loop. -/
theorem meets_or_clean_step {obs : Dict Var Var} {ins₀ : Ins} {st : LoopState} {rv x o r : Var}
    {a b : List Var} (hi : Inv own D ins₀ st) (hx : D x) (hk : st.pss.keys = a ++ x :: b)
    (hB : ∀ y ∈ a, B y) (h : Meets own B st.ins o r ∨ Clean own st.ins r x) :
    (Meets own B (processRV own obs st rv).ins o r ∨ Clean own (processRV own obs st rv).ins r x) ∧
    (∀ sd, chosen st.disc obs rv = some sd → o ∈ sd.outs →
      Clean own (processRV own obs st rv).ins r x) := by
  cases hc : chosen st.disc obs rv with
  | none =>
    rw [processRV_none hc]
    split_ifs
    · exact ⟨h, fun _ h => by cases h⟩
    · exact ⟨h, fun _ h => by cases h⟩
  | some sd =>
    rw [(processRV_some (own := own) hc).1]
    obtain ⟨pre, v, post, e, hpre⟩ := split_key hk
    have := meets_or_clean (s := (st.ins, sd.outs)) (pre := pre) (post := post) (v := v) hx
      (by rw [← e]; exact hi.closed)
      (fun p hp => hB p.1 (hpre ▸ List.mem_map_of_mem hp)) h
    rw [← e] at this
    exact ⟨this.1, fun sd' hsd => by cases hsd; exact this.2⟩

/-- The loop. -/
theorem clean_loop {obs : Dict Var Var} {ins₀ : Ins} {disc : Dict Var (List StepDesc)} {x o r : Var}
    {a b : List Var} (hx : D x) (hB : ∀ y ∈ a, B y) : ∀ (l : List Var) (st : LoopState), l.Nodup →
    Inv own D ins₀ st → (∀ q ∈ l, D q) → (∀ q ∈ l, q ∈ st.pss.keys) →
    (∀ q ∈ l, st.disc.get? q = disc.get? q) → st.pss.keys = a ++ x :: b →
    (Meets own B st.ins o r ∨ Clean own st.ins r x) →
    (Clean own st.ins r x ∨ ∃ q ∈ l, ∃ sd, chosen disc obs q = some sd ∧ o ∈ sd.outs) →
    Clean own (loop own obs st l).ins r x
  | [], st, _, _, _, _, _, _, _, h => by
    rcases h with h | ⟨q, hq, -⟩
    · exact h
    · simp at hq
  | q :: l, st, hn, hi, hD, hkeys, hd, hk, hm, h => by
    rw [List.nodup_cons] at hn
    have hstep := meets_or_clean_step (obs := obs) (rv := q) hi hx hk hB hm
    have hk1 := processRV_keys (own := own) (obs := obs) (hkeys q (by simp))
    refine clean_loop (disc := disc) hx hB l (processRV own obs st q) hn.2 (hi.step (hD q (by simp)))
      (fun y hy => hD y (by simp [hy])) (fun y hy => by rw [hk1]; exact hkeys y (by simp [hy]))
      (fun y hy => ?_) (hk1.trans hk) hstep.1 ?_
    · rw [processRV_disc (by rintro rfl; exact hn.1 hy), hd y (by simp [hy])]
    · rcases h with h | ⟨q', hq', sd, hsd, ho⟩
      · refine Or.inl ?_
        have := meets_or_clean_step (obs := obs) (rv := q) (B := B) (o := o) hi hx hk hB (Or.inr h)
        cases hc : chosen st.disc obs q with
        | none =>
          rw [processRV_none hc]
          split_ifs <;> exact h
        | some sd =>
          rw [(processRV_some (own := own) hc).1]
          exact h.replaceAll (D := D) (s := (st.ins, sd.outs)) hx hi.closed
      · rcases List.mem_cons.1 hq' with rfl | hq'
        · refine Or.inl (hstep.2 sd ?_ ho)
          rw [chosen_congr (hd q' (by simp))]
          exact hsd
        · exact Or.inr ⟨q', hq', sd, hsd, ho⟩

theorem keys_split {outs : List Var} {obs : Dict Var Var} {s : Var}
    (hs : s ∈ unobs outs obs) :
    ∃ a b, unobs outs obs ++ obs.keys = a ++ s :: b ∧ ∀ y ∈ a, Ahead outs obs s y := by
  obtain ⟨c, d, e⟩ := List.append_of_mem (mem_unobs.1 hs).1
  refine ⟨unobs c obs, unobs d obs ++ obs.keys, ?_, fun y hy => ?_⟩
  · rw [e]
    have hso : s ∉ obs.keys := (mem_unobs.1 hs).2
    simp [unobs, Dict.has, hso]
  · exact ⟨(mem_unobs.1 hy).2, c, d, e, (mem_unobs.1 hy).1⟩

end Verif.Graph
