import Verif.Parts.Joint
import Verif.Parts.Witness

/-!
# A model with two conjugate pairs: `Verif/Parts/Joint.lean` applied

`p = 0`, `y = 1` given `p` (observed as 8); `q = 2`, `z = 3` given `q` (observed as 9).  The step for `p` is 5 (node 5, reads `y`, the generator
7), the step for `q` is 6 (node 6, reads `z`, the generator 10).
-/

open MeasureTheory ProbabilityTheory Filter
open scoped ENNReal Topology

namespace Verif.Parts

open Verif.Py Verif.Graph

/-- Owners in the model with two pairs. -/
def own2 : Owner :=
  ownT [(0, (0, 1)), (1, (1, 1)), (2, (2, 1)), (3, (3, 1)), (5, (5, 1)), (6, (6, 1))]
/-- Heap of the model with two pairs. -/
def ins2 : Ins := insT [(1, [0]), (3, [2]), (5, [1, 7]), (6, [3, 10])]
/-- Discovered steps. -/
def disc2 : Dict Var (List StepDesc) := [(0, [⟨0, 5, none⟩]), (2, [⟨1, 6, none⟩])]
/-- Observations. -/
def obs2 : Dict Var Var := [(1, 8), (3, 9)]
/-- Clones to user variables. -/
def n2o2 : Dict Var Var := [(0, 20), (1, 21), (2, 22), (3, 23)]
/-- The first pair. -/
def part2 : Var → Bool := fun v => v = 0 || v = 1

theorem not_modelVar2 (v : Nat) (h : 3 < v) : ¬ ModelVar [0, 2, 1, 3] obs2 v := by
  rintro (hm | hm)
  · have : ∀ w ∈ ([0, 2, 1, 3] : List Nat), w ≤ 3 := by decide
    exact absurd (this v hm) (Nat.not_le.2 h)
  · have : ∀ w ∈ ([1, 3] : List Nat), w ≤ 3 := by decide
    exact absurd (this v hm) (Nat.not_le.2 h)

theorem setup2 : Setup own2 ins2 [0, 2, 1, 3] obs2 11 where
  outs_nodup := by decide
  obs_nodup := by decide
  init_own i := ownT_none (by decide) i
  init_fresh i := not_modelVar2 _ (by omega)
  obs_closed p hp := by
    rcases List.mem_cons.1 hp with rfl | hp
    · exact closed_of_input rfl (not_modelVar2 8 (by decide))
    · obtain rfl := List.mem_singleton.1 hp
      exact closed_of_input rfl (not_modelVar2 9 (by decide))

theorem chosen2 {r : Var} (hr : r ∈ [0, 2, 1, 3]) {sd : StepDesc} (hc : chosen disc2 obs2 r = some sd) :
    (r = 0 ∧ sd = ⟨0, 5, none⟩) ∨ (r = 2 ∧ sd = ⟨1, 6, none⟩) := by
  simp only [List.mem_cons, List.not_mem_nil, or_false] at hr
  rcases hr with rfl | rfl | rfl | rfl
  · cases hc
    exact Or.inl ⟨rfl, rfl⟩
  · cases hc
    exact Or.inr ⟨rfl, rfl⟩
  · cases hc
  · cases hc

theorem unused2 : Unused ins2 [0, 2, 1, 3] obs2 disc2 11 where
  reads := insT_lt (by decide)
  values := by decide
  steps r hr sd hc := by
    rcases chosen2 hr hc with ⟨-, rfl⟩ | ⟨-, rfl⟩ <;> decide

theorem apart2 : Apart own2 ins2 [0, 2, 1, 3] obs2 disc2 part2 := by
  intro r hr sd hc o ho u hu hm
  have hlt : ¬ 3 < u := fun h => not_modelVar2 u h hm
  rcases chosen2 hr hc with ⟨rfl, rfl⟩ | ⟨rfl, rfl⟩
  · obtain rfl := List.mem_singleton.1 (show o ∈ [5] from ho)
    have hk : closedL own2 ins2 (reachL own2 ins2 4 [5]) = true := by decide
    have hv : ∀ v ∈ reachL own2 ins2 4 [5], ¬ 3 < v → part2 v = part2 0 := by decide
    exact hv u ((reach_iff_reachL hk u).1 ⟨5, by simp, hu⟩) hlt
  · obtain rfl := List.mem_singleton.1 (show o ∈ [6] from ho)
    have hk : closedL own2 ins2 (reachL own2 ins2 4 [6]) = true := by decide
    have hv : ∀ v ∈ reachL own2 ins2 4 [6], ¬ 3 < v → part2 v = part2 2 := by decide
    exact hv u ((reach_iff_reachL hk u).1 ⟨6, by simp, hu⟩) hlt

theorem old2 : ∀ r ∈ [0, 2, 1, 3], n2o2.get? r = some (20 + r) := by decide
theorem inj2 : ∀ a ∈ [0, 2, 1, 3], ∀ b ∈ [0, 2, 1, 3], 20 + a = 20 + b → a = b := by decide

/-- A draw with the random number `u` returns `u`; other nodes do not matter. -/
def sem2 : Node → Nat → List ℝ → ℝ := fun _ _ xs => xs.getD 1 0

/-- The generators and the data. -/
def leaf2 (a b : ℝ) : Var → Option ℝ := fun v =>
  if v = 7 then some a else if v = 10 then some b else if v = 8 ∨ v = 9 then some 3 else none

/-- A sampler that returns new draws from a law keeps this law and is there after one call. -/
theorem fresh {Θ : Type} [MeasurableSpace Θ] (π : Measure Θ) [IsProbabilityMeasure π] :
    Stationary π (fun _ : Θ => π.map id) ∧ ConvergesFrom Set.univ π (fun _ : Θ => π.map id) := by
  have hb : ∀ μ : Measure Θ, IsProbabilityMeasure μ → μ.bind (fun _ : Θ => π) = π := by
    intro μ _
    rw [Measure.bind_const, measure_univ, one_smul]
  simp only [Measure.map_id]
  refine ⟨⟨aemeasurable_const, hb π inferInstance⟩, fun θ _ S _ => ?_⟩
  refine tendsto_const_nhds.congr' ?_
  filter_upwards [eventually_ge_atTop 1] with k hk
  obtain ⟨j, rfl⟩ : ∃ j, k = j + 1 := ⟨k - 1, by omega⟩
  have := prob_calls (K := fun _ : Θ => π) measurable_const (fun _ => inferInstance) j θ
  rw [calls, hb _ this]

/-- C71 on this model: the built sampler keeps the joint posterior and reaches it from everywhere. -/
example (μ ν : Measure ℝ) [IsProbabilityMeasure μ] [IsProbabilityMeasure ν] (l m : ℝ → ℝ≥0∞) (hl : Measurable l)
    (hm : Measurable m) (dl : BayesDefined μ l) (dm : BayesDefined ν m) :
    ∃ out, constructSampler own2 ins2 [0, 2, 1, 3] obs2 n2o2 disc2 11 id nutsT = some out ∧
      Moves own2 sem2 11 (20 + ·) [0, 2] out (fun ω : ℝ × ℝ => leaf2 ω.1 ω.2)
        (fun q r => if part2 r then q.1 else q.2) (fun _ ω => (ω.1, ω.2)) ∧
      Stationary (bayes (μ.prod ν) fun q => l q.1 * m q.2)
        (fun _ => ((bayes μ l).prod (bayes ν m)).map fun ω => (ω.1, ω.2)) ∧
      ConvergesFrom (Set.univ ×ˢ Set.univ) (bayes (μ.prod ν) fun q => l q.1 * m q.2)
        (fun _ => ((bayes μ l).prod (bayes ν m)).map fun ω => (ω.1, ω.2)) := by
  obtain ⟨outW, outA, outB, hW, hA, hB, H⟩ := C71_joint (order := id) (nuts := nutsT) setup2 unused2 old2 inj2
    idOrder nutsT_keys apart2 (by decide)
  have h1 : (constructSamplerC own2 6 ins2 [0, 1] [(1, 8)] n2o2 disc2 11 id nutsT).map
      (fun o => (o.steps, o.ins 5)) = some ([(20, 5)], [8, 7]) := by decide
  obtain ⟨o, ho, e⟩ := Option.map_eq_some_iff.1 h1
  rw [show ([0, 2, 1, 3] : List Var).filter part2 = [0, 1] by decide,
    show (obs2.filter fun p => part2 p.1) = [(1, 8)] by decide, constructSamplerC_eq ho] at hA
  cases hA
  have h2 : (constructSamplerC own2 6 ins2 [2, 3] [(3, 9)] n2o2 disc2 11 id nutsT).map
      (fun o => (o.steps, o.ins 6)) = some ([(22, 6)], [9, 10]) := by decide
  obtain ⟨o', ho', e'⟩ := Option.map_eq_some_iff.1 h2
  rw [show ([0, 2, 1, 3] : List Var).filter (fun r => !part2 r) = [2, 3] by decide,
    show (obs2.filter fun p => !part2 p.1) = [(3, 9)] by decide, constructSamplerC_eq ho'] at hB
  cases hB
  simp only [Prod.mk.injEq] at e e'
  have hn : ∀ ω b (given : Var → Option ℝ) (leaf : Var → Option ℝ), (∀ y < 11, given y = leaf y) → leaf = leaf2 ω b →
      given 5 = none ∧ given 6 = none ∧ given 7 = some ω ∧ given 8 = some 3 ∧ given 9 = some 3 ∧
        given 10 = some b := by
    rintro ω b given leaf hg rfl
    refine ⟨?_, ?_, ?_, ?_, ?_, ?_⟩ <;> rw [hg _ (by decide)] <;> simp [leaf2]
  obtain ⟨hM, hL⟩ := H ℝ ℝ ℝ ℝ ℝ sem2 leaf2 (fun θ _ => θ) (fun θ _ => θ) (fun _ ω => ω) (fun _ ω => ω)
    (by
      intro b θ ω given hF r hr
      obtain ⟨g5, -, g7, g8, -, -⟩ := hn ω b given _ hF.1 rfl
      rw [show (unobs [0, 2, 1, 3] obs2).filter part2 = [0] by decide] at hr
      obtain rfl := List.mem_singleton.1 hr
      exact ⟨5, by rw [e.1]; rfl, Ev.node' (vs := [8, 7]) (xs := [3, ω]) g5 rfl e.2
        (.cons (.given g8) (.cons (.given g7) .nil)) rfl⟩)
    (by
      intro a θ ω given hF r hr
      obtain ⟨-, g6, -, -, g9, g10⟩ := hn a ω given _ hF.1 rfl
      rw [show (unobs [0, 2, 1, 3] obs2).filter (fun r => !part2 r) = [2] by decide] at hr
      obtain rfl := List.mem_singleton.1 hr
      exact ⟨6, by rw [e'.1]; rfl, Ev.node' (vs := [9, 10]) (xs := [3, ω]) g6 rfl e'.2
        (.cons (.given g9) (.cons (.given g10) .nil)) rfl⟩)
  have : IsProbabilityMeasure (bayes μ l) := isProbabilityMeasure_bayes dl
  have : IsProbabilityMeasure (bayes ν m) := isProbabilityMeasure_bayes dm
  obtain ⟨hS, hC⟩ := hL (bayes μ l) (bayes ν m) measurable_snd measurable_snd μ ν l m hl hm dl dm
  exact ⟨outW, hW, hM, hS.2 ⟨(fresh _).1, (fresh _).1⟩,
    (hC Set.univ Set.univ Set.univ_nonempty Set.univ_nonempty).2 ⟨(fresh _).2, (fresh _).2⟩⟩

end Verif.Parts
