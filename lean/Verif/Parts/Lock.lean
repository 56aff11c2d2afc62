import Verif.Parts.Color
import Verif.Graph.Props

/-!
# The loop of `construct_sampler` on a model and on a part of it: lemmas
-/

namespace Verif.Graph

open Verif.Py

theorem set_cons (a b : Var) (d : Dict Var Var) (k v : Var) :
    Dict.set ((a, b) :: d) k v = if a = k then (a, v) :: d else (a, b) :: Dict.set d k v := rfl

theorem filter_set {C : Var → Bool} (d : Dict Var Var) (k v : Var) :
    (d.set k v).filter (fun p => C p.1) =
      if C k then Dict.set (d.filter fun p => C p.1) k v else d.filter fun p => C p.1 := by
  induction d with
  | nil =>
    unfold Dict.set
    cases hk : C k <;> simp [hk]
  | cons p d ih =>
    obtain ⟨a, b⟩ := p
    rw [set_cons]
    by_cases hak : a = k
    · subst hak
      rw [if_pos rfl]
      cases ha : C a
      · simp [ha]
      · simp only [List.filter_cons, ha, if_true, set_cons]
    · rw [if_neg hak, List.filter_cons, List.filter_cons, ih]
      cases ha : C a
      · simp only [Bool.false_eq_true, if_false]
      · simp only [if_true]
        cases hk : C k
        · simp
        · simp only [if_true, set_cons, if_neg hak]

theorem map_set {σ : Var → Var} (d : Dict Var Var) (k v : Var) :
    (d.set k v).map (fun p => (p.1, σ p.2)) = Dict.set (d.map fun p => (p.1, σ p.2)) k (σ v) := by
  induction d with
  | nil => rfl
  | cons p d ih =>
    obtain ⟨a, b⟩ := p
    unfold Dict.set
    by_cases hak : a = k
    · rw [if_pos hak]
      simp [hak]
    · rw [if_neg hak, List.map_cons, ih]
      simp [hak]

theorem keys_filter {C : Var → Bool} {β : Type} (d : Dict Var β) (k : Var) :
    k ∈ Dict.keys (d.filter fun p => C p.1) ↔ k ∈ d.keys ∧ C k = true := by
  unfold Dict.keys
  simp only [List.mem_map, List.mem_filter]
  constructor
  · rintro ⟨p, ⟨h1, h2⟩, rfl⟩
    exact ⟨⟨p, h1, rfl⟩, h2⟩
  · rintro ⟨⟨p, h1, rfl⟩, h2⟩
    exact ⟨p, ⟨h1, h2⟩, rfl⟩

theorem chosen_filter {C : Var → Bool} {disc : Dict Var (List StepDesc)} {obs : Dict Var Var} {r : Var}
    (h : C r = true) : chosen disc (obs.filter fun p => C p.1) r = chosen disc obs r := by
  unfold chosen
  have : r ∈ Dict.keys (obs.filter fun p => C p.1) ↔ r ∈ obs.keys := by
    rw [keys_filter, and_iff_left h]
  simp only [this]

theorem processRV_idle {own : Owner} {obs : Dict Var Var} {st : LoopState} {rv : Var}
    (h : chosen st.disc obs rv = none) : (processRV own obs st rv).ins = st.ins ∧
      (processRV own obs st rv).pss = st.pss := by
  rw [processRV_none h]
  split_ifs <;> exact ⟨rfl, rfl⟩

variable {own : Owner} {D PV QV : Var → Prop} {C : Var → Bool} {σ : Var → Var} {ins₀ : Ins}
  {obs : Dict Var Var} {disc : Dict Var (List StepDesc)}

/-- The states of the two loops.  `PV` marks the variables of the part, `QV` those of the rest. -/
structure Lock (own : Owner) (D PV QV : Var → Prop) (C : Var → Bool) (σ : Var → Var) (ins₀ : Ins)
    (stW stA : LoopState) : Prop where
  inv : Inv own D ins₀ stW
  pss : stW.pss.filter (fun p => C p.1) = stA.pss.map (fun p => (p.1, σ p.2))
  heap : ∀ n, (∀ w ∈ ins₀ n, PV w) → stW.ins n = (stA.ins n).map σ
  hin : ∀ n, (∀ w ∈ ins₀ n, PV w) → ∀ w ∈ stA.ins n, PV w
  hval : ∀ p ∈ stA.pss, PV p.2
  hinQ : ∀ n, (∀ w ∈ ins₀ n, QV w) → ∀ w ∈ stW.ins n, QV w
  hvalQ : ∀ p ∈ stW.pss, C p.1 = false → QV p.2

/-- What the marks must satisfy. -/
structure Marks (own : Owner) (D PV QV : Var → Prop) (C : Var → Bool) (σ : Var → Var) (ins₀ : Ins) : Prop where
  hP : ∀ v n i, PV v → own v = some (n, i) → ∀ w ∈ ins₀ n, PV w
  hQ : ∀ v n i, QV v → own v = some (n, i) → ∀ w ∈ ins₀ n, QV w
  hPC : ∀ r, D r → PV r → C r = true
  hQC : ∀ r, D r → QV r → C r = false
  own_eq : ∀ x, own (σ x) = own x
  fix : ∀ x r, D r → (σ x = r ↔ x = r)
  hσ : ∀ x, PV x → PV (σ x)

theorem headD_map {σ : Var → Var} {l : List Var} {a : Var} (h : l ≠ []) (b : Var) :
    (l.map σ).headD b = σ (l.headD a) := by
  cases l with
  | nil => exact absurd rfl h
  | cons x l => rfl

theorem mem_headD {l : List Var} {a : Var} (h : l ≠ []) : l.headD a ∈ l := by
  cases l with
  | nil => exact absurd rfl h
  | cons x l => simp

theorem replaceAll_ne_nil {st : Ins × List Var} {ps : List (Var × Var)} (h : st.2 ≠ []) :
    (replaceAll own st ps).2 ≠ [] := by
  intro e
  have := replaceAll_length (own := own) ps st
  rw [e] at this
  exact h (List.length_eq_zero_iff.1 this.symm)

theorem StepDesc.outs_ne_nil (sd : StepDesc) : sd.outs ≠ [] := by
  simp [StepDesc.outs]

/-- A step of a variable of the part. -/
theorem Lock.step_part {stW stA : LoopState} (M : Marks own D PV QV C σ ins₀)
    (L : Lock own D PV QV C σ ins₀ stW stA) {rv : Var} (hD : D rv) (hC : C rv = true)
    (hc : chosen stW.disc obs rv = chosen stA.disc (obs.filter fun p => C p.1) rv)
    (hsd : ∀ sd, chosen stW.disc obs rv = some sd → ∀ o ∈ sd.outs, PV o ∧ σ o = o) :
    Lock own D PV QV C σ ins₀ (processRV own obs stW rv)
      (processRV own (obs.filter fun p => C p.1) stA rv) := by
  have hi := L.inv.step (obs := obs) hD
  cases h : chosen stW.disc obs rv with
  | none =>
    obtain ⟨w1, w2⟩ := processRV_idle (own := own) h
    obtain ⟨a1, a2⟩ := processRV_idle (own := own) (hc.symm.trans h)
    refine ⟨hi, ?_, ?_, ?_, ?_, ?_, ?_⟩
    · rw [w2, a2]; exact L.pss
    · rw [w1, a1]; exact L.heap
    · rw [a1]; exact L.hin
    · rw [a2]; exact L.hval
    · rw [w1]; exact L.hinQ
    · rw [w2]; exact L.hvalQ
  | some sd =>
    obtain ⟨w1, w2, -, -⟩ := processRV_some (own := own) h
    obtain ⟨a1, a2, -, -⟩ := processRV_some (own := own) (hc.symm.trans h)
    have hsd' := hsd sd h
    have hPV : ∀ v n i, PV v → own v = some (n, i) → ∀ w ∈ ins₀ n, PV w := M.hP
    have hpsW : ∀ p ∈ stW.pss, D p.1 ∧ (C p.1 = false → ¬ PV p.1) := by
      intro p hp
      have hDp := (L.inv.closed p hp).1
      refine ⟨hDp, fun hf hpv => ?_⟩
      rw [M.hPC _ hDp hpv] at hf
      cases hf
    have S : Sim (fun n => ∀ w ∈ ins₀ n, PV w) PV σ (replaceAll own (stW.ins, sd.outs) stW.pss)
        (replaceAll own (stA.ins, sd.outs) stA.pss) := by
      refine Sim.replaceAll hPV M.own_eq M.fix ⟨L.heap, ?_, L.hin, fun o ho => (hsd' o ho).1⟩ L.pss hpsW L.hval
      change sd.outs = sd.outs.map σ
      conv_lhs => rw [← List.map_id sd.outs]
      exact List.map_congr_left fun o ho => (hsd' o ho).2.symm
    have hneA : (replaceAll own (stA.ins, sd.outs) stA.pss).2 ≠ [] := replaceAll_ne_nil sd.outs_ne_nil
    refine ⟨hi, ?_, ?_, ?_, ?_, ?_, ?_⟩
    · rw [w2, a2, filter_set, if_pos hC, map_set, L.pss, S.outs, headD_map hneA]
    · rw [w1, a1]; exact S.heap
    · rw [a1]; exact S.hin
    · rw [a2]
      intro p hp
      rcases Dict.mem_set _ _ _ _ hp with hp | rfl
      · exact L.hval p hp
      · exact S.hout _ (mem_headD hneA)
    · rw [w1]
      intro n hn
      -- nodes outside the part are not touched, and common nodes read no model variable
      by_cases hPn : ∀ w ∈ ins₀ n, PV w
      · have h0 : ∀ w ∈ ins₀ n, ¬ D w := by
          intro w hw hDw
          have h1 := M.hPC w hDw (hPn w hw)
          rw [M.hQC w hDw (hn w hw)] at h1
          cases h1
        rw [L.inv.replaceAll_frame _ n (L.inv.noD h0)]
        exact L.hinQ n hn
      · have hcol := replaceAll_color (own := own) (P := fun n => ∀ w ∈ ins₀ n, PV w) (PV := PV) hPV
          (ps := stW.pss) (s := (stW.ins, sd.outs)) (fun p hp hpv => by
            have hDp := (L.inv.closed p hp).1
            have hCp := M.hPC _ hDp hpv
            have hm : p ∈ stA.pss.map (fun p => (p.1, σ p.2)) := by
              rw [← L.pss]
              exact List.mem_filter.2 ⟨hp, hCp⟩
            obtain ⟨q, hq, rfl⟩ := List.mem_map.1 hm
            exact M.hσ _ (L.hval q hq)) (fun m hm w hw => by
            have hw' : w ∈ stW.ins m := hw
            rw [L.heap m hm] at hw'
            obtain ⟨x, hx, rfl⟩ := List.mem_map.1 hw'
            exact M.hσ _ (L.hin m hm x hx)) (fun o ho => (hsd' o ho).1)
        rw [hcol.2.2 n hPn]
        exact L.hinQ n hn
    · rw [w2]
      intro p hp hf
      rcases Dict.mem_set _ _ _ _ hp with hp | rfl
      · exact L.hvalQ p hp hf
      · rw [hC] at hf
        cases hf

/-- A step of a variable of the rest. -/
theorem Lock.step_rest {stW stA : LoopState} (M : Marks own D PV QV C σ ins₀)
    (L : Lock own D PV QV C σ ins₀ stW stA) {rv : Var} (hD : D rv) (hC : C rv = false)
    (hsd : ∀ sd, chosen stW.disc obs rv = some sd → ∀ o ∈ sd.outs, QV o) :
    Lock own D PV QV C σ ins₀ (processRV own obs stW rv) stA := by
  have hi := L.inv.step (obs := obs) hD
  cases h : chosen stW.disc obs rv with
  | none =>
    obtain ⟨w1, w2⟩ := processRV_idle (own := own) h
    refine ⟨hi, ?_, ?_, L.hin, L.hval, ?_, ?_⟩
    · rw [w2]; exact L.pss
    · rw [w1]; exact L.heap
    · rw [w1]; exact L.hinQ
    · rw [w2]; exact L.hvalQ
  | some sd =>
    obtain ⟨w1, w2, -, -⟩ := processRV_some (own := own) h
    have hcol := replaceAll_color (own := own) (P := fun n => ∀ w ∈ ins₀ n, QV w) (PV := QV) M.hQ
      (ps := stW.pss) (s := (stW.ins, sd.outs)) (fun p hp hpv =>
        L.hvalQ p hp (M.hQC _ (L.inv.closed p hp).1 hpv)) L.hinQ (hsd sd h)
    have hne : (replaceAll own (stW.ins, sd.outs) stW.pss).2 ≠ [] := replaceAll_ne_nil sd.outs_ne_nil
    refine ⟨hi, ?_, ?_, L.hin, L.hval, ?_, ?_⟩
    · rw [w2, filter_set, if_neg (by simp [hC])]
      exact L.pss
    · rw [w1]
      intro n hn
      rw [← L.heap n hn]
      by_cases hQn : ∀ w ∈ ins₀ n, QV w
      · have h0 : ∀ w ∈ ins₀ n, ¬ D w := by
          intro w hw hDw
          have h1 := M.hPC w hDw (hn w hw)
          rw [M.hQC w hDw (hQn w hw)] at h1
          cases h1
        exact L.inv.replaceAll_frame _ n (L.inv.noD h0)
      · exact hcol.2.2 n hQn
    · rw [w1]
      exact hcol.1
    · rw [w2]
      intro p hp hf
      rcases Dict.mem_set _ _ _ _ hp with hp | rfl
      · exact L.hvalQ p hp hf
      · exact hcol.2.1 _ (mem_headD hne)

/-- The two loops. -/
theorem Lock.loop (M : Marks own D PV QV C σ ins₀) :
    ∀ (l : List Var) (stW stA : LoopState), l.Nodup → Lock own D PV QV C σ ins₀ stW stA →
    (∀ r ∈ l, D r) → (∀ r ∈ l, stW.disc.get? r = disc.get? r) →
    (∀ r ∈ l, stA.disc.get? r = disc.get? r) →
    (∀ r ∈ l, ∀ sd, chosen disc obs r = some sd → ∀ o ∈ sd.outs,
      if C r then PV o ∧ σ o = o else QV o) →
    Lock own D PV QV C σ ins₀ (Graph.loop own obs stW l)
      (Graph.loop own (obs.filter fun p => C p.1) stA (l.filter C))
  | [], _, _, _, L, _, _, _, _ => L
  | r :: l, stW, stA, hn, L, hD, hdW, hdA, hsd => by
    rw [List.nodup_cons] at hn
    have hne : ∀ x ∈ l, x ≠ r := by
      rintro x hx rfl
      exact hn.1 hx
    have hcW : chosen stW.disc obs r = chosen disc obs r := chosen_congr (hdW r (by simp))
    change Lock own D PV QV C σ ins₀ (Graph.loop own obs (processRV own obs stW r) l) _
    have hdW' : ∀ x ∈ l, (processRV own obs stW r).disc.get? x = disc.get? x := fun x hx => by
      rw [processRV_disc (hne x hx), hdW x (by simp [hx])]
    cases hC : C r with
    | true =>
      rw [List.filter_cons, if_pos hC]
      have hcA : chosen stA.disc (obs.filter fun p => C p.1) r = chosen disc obs r := by
        rw [chosen_congr (hdA r (by simp)), chosen_filter hC]
      refine Lock.loop M l _ _ hn.2 (L.step_part M (hD r (by simp)) hC (hcW.trans hcA.symm)
        fun sd h o ho => ?_) (fun x hx => hD x (by simp [hx])) hdW' (fun x hx => by
          rw [processRV_disc (hne x hx), hdA x (by simp [hx])]) fun x hx => hsd x (by simp [hx])
      have := hsd r (by simp) sd (hcW.symm.trans h) o ho
      rwa [if_pos hC] at this
    | false =>
      rw [List.filter_cons, if_neg (by simp [hC])]
      refine Lock.loop M l _ _ hn.2 (L.step_rest M (hD r (by simp)) hC fun sd h o ho => ?_)
        (fun x hx => hD x (by simp [hx])) hdW' (fun x hx => hdA x (by simp [hx])) fun x hx => hsd x (by simp [hx])
      have := hsd r (by simp) sd (hcW.symm.trans h) o ho
      rwa [if_neg (by simp [hC])] at this

end Verif.Graph
