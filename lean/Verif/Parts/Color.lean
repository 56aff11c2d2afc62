import Verif.Graph.Heap

/-!
# In-place replacement in one part of a graph

`PV` marks the variables of a part and `P` its nodes: the owner of a variable of the part belongs to the part.
-/

namespace Verif.Graph

open Verif.Py

variable {own : Owner} {D PV : Var → Prop} {P : Node → Prop}

theorem reach_color (hPV : ∀ v n i, PV v → own v = some (n, i) → P n) {ins : Ins}
    (hin : ∀ n, P n → ∀ w ∈ ins n, PV w) {o v : Var} (ho : PV o) (h : Reach own ins o v) : PV v := by
  induction h with
  | refl => exact ho
  | tail _ e ih =>
    obtain ⟨n, i, hn, hw⟩ := e
    exact hin n (hPV _ n i ih hn) _ hw

theorem nodeIn_color (hPV : ∀ v n i, PV v → own v = some (n, i) → P n) {s : Ins × List Var}
    (hin : ∀ n, P n → ∀ w ∈ s.1 n, PV w) (hout : ∀ o ∈ s.2, PV o) {n : Node} (h : NodeIn own s.1 s.2 n) :
    P n := by
  obtain ⟨o, ho, v, i, hr, hn⟩ := h
  exact hPV v n i (reach_color hPV hin (hout o ho) hr) hn

theorem sub_color {r v x : Var} (hv : PV r → PV v) (hx : PV x) : PV (sub r v x) := by
  unfold sub
  split_ifs with e
  · exact hv (e ▸ hx)
  · exact hx

/-- A list of replacements that keep the part changes no node outside it. -/
theorem replaceAll_color (hPV : ∀ v n i, PV v → own v = some (n, i) → P n) {ps : List (Var × Var)} :
    ∀ {s : Ins × List Var}, (∀ p ∈ ps, PV p.1 → PV p.2) → (∀ n, P n → ∀ w ∈ s.1 n, PV w) →
    (∀ o ∈ s.2, PV o) → (∀ n, P n → ∀ w ∈ (replaceAll own s ps).1 n, PV w) ∧
      (∀ o ∈ (replaceAll own s ps).2, PV o) ∧ ∀ n, ¬ P n → (replaceAll own s ps).1 n = s.1 n := by
  induction ps with
  | nil =>
    intro s _ hin hout
    exact ⟨hin, hout, fun _ _ => rfl⟩
  | cons p ps ih =>
    intro s hps hin hout
    obtain ⟨r, v⟩ := p
    have hv : PV r → PV v := hps (r, v) (by simp)
    have hin' : ∀ n, P n → ∀ w ∈ (replace own s r v).1 n, PV w := by
      intro n hn w hw
      unfold replace at hw
      dsimp only at hw
      split_ifs at hw
      · obtain ⟨x, hx, rfl⟩ := List.mem_map.1 hw
        exact sub_color hv (hin n hn x hx)
      · exact hin n hn w hw
    have hout' : ∀ o ∈ (replace own s r v).2, PV o := by
      intro o ho
      obtain ⟨x, hx, rfl⟩ := List.mem_map.1 ho
      exact sub_color hv (hout x hx)
    obtain ⟨h1, h2, h3⟩ := ih (fun q hq => hps q (by simp [hq])) hin' hout'
    refine ⟨h1, h2, fun n hn => ?_⟩
    unfold replaceAll
    rw [h3 n hn]
    unfold replace
    dsimp only
    rw [if_neg]
    exact fun h => hn (nodeIn_color hPV hin hout h)

/-- Two heaps with the same part up to a renaming `σ` of variables, and the same outputs, in the part. -/
structure Sim (P : Node → Prop) (PV : Var → Prop) (σ : Var → Var) (sW sA : Ins × List Var) : Prop where
  heap : ∀ n, P n → sW.1 n = (sA.1 n).map σ
  outs : sW.2 = sA.2.map σ
  hin : ∀ n, P n → ∀ w ∈ sA.1 n, PV w
  hout : ∀ o ∈ sA.2, PV o

variable {σ : Var → Var} {sW sA : Ins × List Var}

theorem Sim.nodeIn (hPV : ∀ v n i, PV v → own v = some (n, i) → P n) (hσ : ∀ x, own (σ x) = own x)
    (h : Sim P PV σ sW sA) (n : Node) : NodeIn own sW.1 sW.2 n ↔ NodeIn own sA.1 sA.2 n := by
  have h1 : ∀ o ∈ sA.2, ∀ v, Reach own sA.1 o v → Reach own sW.1 (σ o) (σ v) := by
    intro o ho v hr
    induction hr with
    | refl => exact .refl
    | tail hr e ih =>
      obtain ⟨m, i, hm, hw⟩ := e
      refine ih.tail ⟨m, i, by rw [hσ]; exact hm, ?_⟩
      rw [h.heap m (hPV _ m i (reach_color hPV h.hin (h.hout o ho) hr) hm)]
      exact List.mem_map_of_mem hw
  have h2 : ∀ o ∈ sA.2, ∀ v', Reach own sW.1 (σ o) v' → ∃ v, v' = σ v ∧ Reach own sA.1 o v := by
    intro o ho v' hr
    induction hr with
    | refl => exact ⟨o, rfl, .refl⟩
    | tail hr e ih =>
      obtain ⟨v, rfl, hv⟩ := ih
      obtain ⟨m, i, hm, hw⟩ := e
      rw [hσ] at hm
      rw [h.heap m (hPV _ m i (reach_color hPV h.hin (h.hout o ho) hv) hm)] at hw
      obtain ⟨w, hw', rfl⟩ := List.mem_map.1 hw
      exact ⟨w, rfl, hv.tail ⟨m, i, hm, hw'⟩⟩
  constructor
  · rintro ⟨o', ho', v', i, hr, hn⟩
    rw [h.outs] at ho'
    obtain ⟨o, ho, rfl⟩ := List.mem_map.1 ho'
    obtain ⟨v, rfl, hv⟩ := h2 o ho v' hr
    rw [hσ] at hn
    exact ⟨o, ho, v, i, hv, hn⟩
  · rintro ⟨o, ho, v, i, hr, hn⟩
    exact ⟨σ o, by rw [h.outs]; exact List.mem_map_of_mem ho, σ v, i, h1 o ho v hr, by rw [hσ]; exact hn⟩

theorem map_sub_comm {r v : Var} (hr : ∀ x, σ x = r ↔ x = r) (l : List Var) :
    (l.map σ).map (sub r (σ v)) = (l.map (sub r v)).map σ := by
  rw [List.map_map, List.map_map]
  refine List.map_congr_left fun x _ => ?_
  simp only [Function.comp_apply, sub, hr]
  split_ifs <;> rfl

/-- A replacement in the part. -/
theorem Sim.replace (hPV : ∀ v n i, PV v → own v = some (n, i) → P n) (hσ : ∀ x, own (σ x) = own x)
    (h : Sim P PV σ sW sA) {r v : Var} (hr : ∀ x, σ x = r ↔ x = r) (hv : PV v) :
    Sim P PV σ (Graph.replace own sW r (σ v)) (Graph.replace own sA r v) := by
  refine ⟨fun n hn => ?_, ?_, fun n hn w hw => ?_, fun o ho => ?_⟩
  · unfold Graph.replace
    dsimp only
    by_cases hin : NodeIn own sA.1 sA.2 n
    · rw [if_pos hin, if_pos ((h.nodeIn hPV hσ n).2 hin), h.heap n hn]
      exact map_sub_comm hr _
    · rw [if_neg hin, if_neg fun h' => hin ((h.nodeIn hPV hσ n).1 h')]
      exact h.heap n hn
  · change sW.2.map _ = (sA.2.map _).map _
    rw [h.outs]
    exact map_sub_comm hr _
  · unfold Graph.replace at hw
    dsimp only at hw
    split_ifs at hw
    · obtain ⟨x, hx, rfl⟩ := List.mem_map.1 hw
      exact sub_color (fun _ => hv) (h.hin n hn x hx)
    · exact h.hin n hn w hw
  · obtain ⟨x, hx, rfl⟩ := List.mem_map.1 ho
    exact sub_color (fun _ => hv) (h.hout x hx)

/-- A replacement of a variable outside the part does nothing. -/
theorem Sim.skip (hPV : ∀ v n i, PV v → own v = some (n, i) → P n) (hσ : ∀ x, own (σ x) = own x)
    (h : Sim P PV σ sW sA) {r v : Var} (hr : ∀ x, σ x = r ↔ x = r) (hn : ¬ PV r) :
    Graph.replace own sW r v = sW := by
  have key : ∀ l : List Var, (∀ x ∈ l, PV x) → r ∉ l.map σ := by
    intro l hl hm
    obtain ⟨x, hx, e⟩ := List.mem_map.1 hm
    rw [hr] at e
    exact hn (e ▸ hl x hx)
  refine Prod.ext (funext fun n => ?_) ?_
  · unfold Graph.replace
    dsimp only
    split_ifs with hin
    · have hP : P n := nodeIn_color hPV h.hin h.hout ((h.nodeIn hPV hσ n).1 hin)
      rw [h.heap n hP]
      exact map_sub_eq (key _ (h.hin n hP))
    · rfl
  · change sW.2.map _ = _
    rw [h.outs]
    exact map_sub_eq (key _ h.hout)

/-- A list of replacements on the whole, and its sublist for the part. -/
theorem Sim.replaceAll {C : Var → Bool} (hPV : ∀ v n i, PV v → own v = some (n, i) → P n)
    (hσ : ∀ x, own (σ x) = own x) (hσD : ∀ x r, D r → (σ x = r ↔ x = r)) {psW : List (Var × Var)} :
    ∀ {psA : List (Var × Var)} {sW sA : Ins × List Var}, Sim P PV σ sW sA →
    psW.filter (fun p => C p.1) = psA.map (fun p => (p.1, σ p.2)) →
    (∀ p ∈ psW, D p.1 ∧ (C p.1 = false → ¬ PV p.1)) → (∀ p ∈ psA, PV p.2) →
    Sim P PV σ (Graph.replaceAll own sW psW) (Graph.replaceAll own sA psA) := by
  induction psW with
  | nil =>
    intro psA sW sA h e _ _
    obtain rfl : psA = [] := List.map_eq_nil_iff.1 e.symm
    exact h
  | cons p psW ih =>
    intro psA sW sA h e hW hA
    obtain ⟨r, v⟩ := p
    have hD := (hW (r, v) (by simp)).1
    have hW' : ∀ p ∈ psW, D p.1 ∧ (C p.1 = false → ¬ PV p.1) := fun q hq => hW q (by simp [hq])
    cases hC : C r with
    | false =>
      rw [List.filter_cons, if_neg (by simp [hC])] at e
      have hk := h.skip (v := v) hPV hσ (fun x => hσD x r hD) ((hW (r, v) (by simp)).2 hC)
      change Sim P PV σ (Graph.replaceAll own (Graph.replace own sW r v) psW) _
      rw [hk]
      exact ih h e hW' hA
    | true =>
      rw [List.filter_cons, if_pos (by simp [hC])] at e
      cases psA with
      | nil => cases e
      | cons q psA =>
        obtain ⟨r', v'⟩ := q
        rw [List.map_cons, List.cons.injEq] at e
        obtain ⟨e1, e2⟩ := e
        obtain ⟨rfl, rfl⟩ := Prod.mk.inj e1
        change Sim P PV σ (Graph.replaceAll own (Graph.replace own sW r (σ v')) psW)
          (Graph.replaceAll own (Graph.replace own sA r v') psA)
        exact ih (h.replace hPV hσ (fun x => hσD x _ hD) (hA (r, v') (by simp))) e2 hW'
          fun q hq => hA q (by simp [hq])

end Verif.Graph
