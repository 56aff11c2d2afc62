import Verif.Parts.Props
import Verif.Graph.Witness

/-!
# A model with two parts: the theorems of `Verif/Parts/Props.lean` applied

Part one: `s = 4` (no closed-form step), `p = 0` given `s`, `y = 1` given `p` (observed as 8).  Part two: `q = 2`, `z = 3` given `q`
(observed as 9).  The step for `p` is 5 (node 5, reads `y` and `s`), the step for `q` is 6 (node 6, reads `z`, `q` and the
generator 7).
-/

namespace Verif.Graph

open Verif.Py

/-- Owners in the model with two parts. -/
def ownP : Owner :=
  ownT [(0, (0, 1)), (1, (1, 1)), (2, (2, 1)), (3, (3, 1)), (4, (4, 1)), (5, (5, 1)), (6, (6, 1))]
/-- Heap of the model with two parts. -/
def insP : Ins := insT [(0, [4]), (1, [0]), (3, [2]), (5, [1, 4]), (6, [3, 2, 7])]
/-- Discovered steps. -/
def discP : Dict Var (List StepDesc) := [(0, [⟨0, 5, none⟩]), (2, [⟨1, 6, none⟩])]
/-- Observations. -/
def obsP : Dict Var Var := [(1, 8), (3, 9)]
/-- Clones to user variables. -/
def n2oP : Dict Var Var := [(0, 20), (1, 21), (2, 22), (3, 23), (4, 24)]
/-- The second part. -/
def partP : Var → Bool := fun v => v = 2 || v = 3

theorem not_modelVarP (v : Nat) (h : 4 < v) : ¬ ModelVar [4, 0, 2, 1, 3] obsP v := by
  rintro (hm | hm)
  · have : ∀ w ∈ ([4, 0, 2, 1, 3] : List Nat), w ≤ 4 := by decide
    exact absurd (this v hm) (Nat.not_le.2 h)
  · have : ∀ w ∈ ([1, 3] : List Nat), w ≤ 4 := by decide
    exact absurd (this v hm) (Nat.not_le.2 h)

theorem setupP : Setup ownP insP [4, 0, 2, 1, 3] obsP 10 where
  outs_nodup := by decide
  obs_nodup := by decide
  init_own i := ownT_none (by decide) i
  init_fresh i := not_modelVarP _ (by omega)
  obs_closed p hp := by
    rcases List.mem_cons.1 hp with rfl | hp
    · exact closed_of_input rfl (not_modelVarP 8 (by decide))
    · obtain rfl := List.mem_singleton.1 hp
      exact closed_of_input rfl (not_modelVarP 9 (by decide))

theorem chosenP {r : Var} (hr : r ∈ [4, 0, 2, 1, 3]) {sd : StepDesc} (hc : chosen discP obsP r = some sd) :
    (r = 0 ∧ sd = ⟨0, 5, none⟩) ∨ (r = 2 ∧ sd = ⟨1, 6, none⟩) := by
  simp only [List.mem_cons, List.not_mem_nil, or_false] at hr
  rcases hr with rfl | rfl | rfl | rfl | rfl
  · cases hc
  · cases hc
    exact Or.inl ⟨rfl, rfl⟩
  · cases hc
    exact Or.inr ⟨rfl, rfl⟩
  · cases hc
  · cases hc

theorem unusedP : Unused insP [4, 0, 2, 1, 3] obsP discP 10 where
  reads := insT_lt (by decide)
  values := by decide
  steps r hr sd hc := by
    rcases chosenP hr hc with ⟨-, rfl⟩ | ⟨-, rfl⟩ <;> decide

theorem apartP : Apart ownP insP [4, 0, 2, 1, 3] obsP discP partP := by
  intro r hr sd hc o ho u hu hm
  have hlt : ¬ 4 < u := fun h => not_modelVarP u h hm
  rcases chosenP hr hc with ⟨rfl, rfl⟩ | ⟨rfl, rfl⟩
  · obtain rfl := List.mem_singleton.1 (show o ∈ [5] from ho)
    have hk : closedL ownP insP (reachL ownP insP 4 [5]) = true := by decide
    have hv : ∀ v ∈ reachL ownP insP 4 [5], ¬ 4 < v → partP v = partP 0 := by decide
    exact hv u ((reach_iff_reachL hk u).1 ⟨5, by simp, hu⟩) hlt
  · obtain rfl := List.mem_singleton.1 (show o ∈ [6] from ho)
    have hk : closedL ownP insP (reachL ownP insP 4 [6]) = true := by decide
    have hv : ∀ v ∈ reachL ownP insP 4 [6], ¬ 4 < v → partP v = partP 2 := by decide
    exact hv u ((reach_iff_reachL hk u).1 ⟨6, by simp, hu⟩) hlt

theorem oldP : ∀ r ∈ [4, 0, 2, 1, 3], n2oP.get? r = some (20 + r) := by decide
theorem injP : ∀ a ∈ [4, 0, 2, 1, 3], ∀ b ∈ [4, 0, 2, 1, 3], 20 + a = 20 + b → a = b := by decide

/-- C70 on this model. -/
example := C70_part setupP unusedP oldP injP idOrder nutsT_keys idOrder nutsT_keys apartP

/-- Every node adds what it reads. -/
def semP : Node → Nat → List Nat → Nat := fun _ _ xs => xs.sum

/-- Leaves in call `k` for the whole model: NUTS (100) always returns 5; `s` starts at 3, `p` at 0, `q` at 10. -/
def gWP (k : Nat) : Var → Option Nat := fun v =>
  if v = 7 ∨ v = 8 ∨ v = 9 then some 1 else if v = 100 then some 5
  else if v = 10 then some (if k = 0 then 3 else 5)
  else if v = 11 then some (if k = 0 then 0 else if k = 1 then 4 else 6)
  else if v = 12 then some (10 + 2 * k) else none
/-- Leaves in call `k` for the part: `q` starts at 10. -/
def gAP (k : Nat) : Var → Option Nat := fun v =>
  if v = 7 ∨ v = 8 ∨ v = 9 then some 1 else if v = 10 then some (10 + 2 * k) else none

/-- C70 on a run of this model: the call `k` returns `12 + 2 k` for `q` with both samplers. -/
example : ∃ outW outA, constructSampler ownP insP [4, 0, 2, 1, 3] obsP n2oP discP 10 id nutsT = some outW ∧
    constructSampler ownP insP [2, 3] [(3, 9)] n2oP discP 10 id nutsT = some outA ∧
    ∀ k, Returns ownP semP (gWP k) outW 22 (12 + 2 * k) ∧ Returns ownP semP (gAP k) outA 22 (12 + 2 * k) := by
  obtain ⟨outW, outA, hW, hA, h⟩ := C70_runs (order := id) (nuts := nutsT) (order' := id) (nuts' := nutsT)
    setupP unusedP oldP injP idOrder nutsT_keys idOrder nutsT_keys apartP (by decide)
  refine ⟨outW, outA, hW, hA, ?_⟩
  have h1 : (constructSamplerC ownP 6 insP [4, 0, 2, 1, 3] obsP n2oP discP 10 id nutsT).map
      (fun o => (o.steps, o.inits, o.ins 5, o.ins 6)) =
      some ([(24, 100), (20, 5), (22, 6)], [(24, 10), (20, 11), (22, 12)], [8, 10], [9, 12, 7]) := by decide
  obtain ⟨o, ho, e⟩ := Option.map_eq_some_iff.1 h1
  rw [constructSamplerC_eq ho] at hW
  cases hW
  have h2 : (constructSamplerC ownP 6 insP [2, 3] [(3, 9)] n2oP discP 10 id nutsT).map
      (fun o => (o.steps, o.inits, o.ins 6)) = some ([(22, 6)], [(22, 10)], [9, 10, 7]) := by decide
  obtain ⟨o', ho', e'⟩ := Option.map_eq_some_iff.1 h2
  have hA' := constructSamplerC_eq ho'
  rw [show ([4, 0, 2, 1, 3] : List Var).filter partP = [2, 3] by decide,
    show (obsP.filter fun p => partP p.1) = [(3, 9)] by decide, hA'] at hA
  cases hA
  simp only [Prod.mk.injEq] at e e'
  have hq : ∀ k, Returns ownP semP (gAP k) outA 22 (12 + 2 * k) := by
    intro k
    refine ⟨6, by rw [e'.1]; rfl, Ev.node' (vs := [9, 10, 7]) (xs := [1, 10 + 2 * k, 1]) rfl rfl e'.2.2
      (.cons (.given rfl) (.cons (.given rfl) (.cons (.given rfl) .nil))) ?_⟩
    simp [semP]
    omega
  refine fun k => ⟨(h Nat semP gWP gAP ?_ ?_ ?_ ?_ k 2 (by decide) _).2 (hq k), hq k⟩
  · intro k r hr v hv
    rw [e.2.1] at hv
    simp only [show unobs [4, 0, 2, 1, 3] obsP = [4, 0, 2] by decide, List.mem_cons, List.not_mem_nil, or_false] at hr
    rcases hr with rfl | rfl | rfl
    · cases hv
      refine ⟨5, ⟨100, by rw [e.1]; rfl, .given rfl⟩, ?_⟩
      simp [gWP]
    · cases hv
      refine ⟨if k = 0 then 4 else 6, ⟨5, by rw [e.1]; rfl,
        Ev.node' (vs := [8, 10]) (xs := [1, if k = 0 then 3 else 5]) rfl rfl e.2.2.1
          (.cons (.given rfl) (.cons (.given rfl) .nil)) ?_⟩, ?_⟩
      · split_ifs <;> simp [semP]
      · simp [gWP]
    · cases hv
      refine ⟨12 + 2 * k, ⟨6, by rw [e.1]; rfl,
        Ev.node' (vs := [9, 12, 7]) (xs := [1, 10 + 2 * k, 1]) rfl rfl e.2.2.2
          (.cons (.given rfl) (.cons (.given rfl) (.cons (.given rfl) .nil))) ?_⟩, ?_⟩
      · simp [semP]
        omega
      · simp [gWP]
        omega
  · intro k r hr v hv
    rw [e'.2.1] at hv
    obtain rfl : r = 2 := by
      rw [show (unobs [4, 0, 2, 1, 3] obsP).filter partP = [2] by decide] at hr
      exact List.mem_singleton.1 hr
    cases hv
    refine ⟨12 + 2 * k, hq k, ?_⟩
    simp [gAP]
    omega
  · intro k y hy
    have h1 : y ≠ 10 := Nat.ne_of_lt hy
    have h2 : y ≠ 11 := Nat.ne_of_lt (Nat.lt_succ_of_lt hy)
    have h3 : y ≠ 12 := Nat.ne_of_lt (Nat.lt_succ_of_lt (Nat.lt_succ_of_lt hy))
    have h4 : y ≠ 100 := Nat.ne_of_lt (Nat.lt_of_lt_of_le hy (by decide))
    simp [gWP, gAP, h1, h2, h3, h4]
  · refine ⟨fun y hy => ?_, fun r hr v v' hv hv' => ?_⟩
    · have h1 : y ≠ 10 := Nat.ne_of_lt hy
      have h2 : y ≠ 11 := Nat.ne_of_lt (Nat.lt_succ_of_lt hy)
      have h3 : y ≠ 12 := Nat.ne_of_lt (Nat.lt_succ_of_lt (Nat.lt_succ_of_lt hy))
      have h4 : y ≠ 100 := Nat.ne_of_lt (Nat.lt_of_lt_of_le hy (by decide))
      simp [gWP, gAP, h1, h2, h3, h4]
    · obtain rfl : r = 2 := by
        rw [show (unobs [4, 0, 2, 1, 3] obsP).filter partP = [2] by decide] at hr
        exact List.mem_singleton.1 hr
      rw [e.2.1] at hv
      rw [e'.2.1] at hv'
      cases hv
      cases hv'
      rfl

end Verif.Graph
