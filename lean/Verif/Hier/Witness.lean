import Verif.Hier.BetaGraph

/-!
# C68: more cases
-/

open scoped ENNReal

namespace Verif.Graph.BetaHier

open Verif.Py

/-! ## A step that reads the observed value instead of the model's variable -/

/-- The same model with steps that read the observed value 14 (nodes 3 and 5): not what
`/repo/aemcmc/conjugates.py:119-136` does, but what it would take. -/
def insV : Ins := insT [(0, [16, 10]), (1, [17, 0, 11]), (2, [18, 12, 1]), (3, [0, 14]), (4, [11, 12]),
    (5, [4, 14]), (6, [13, 3, 5]), (50, [20, 21, 10, 11, 12, 13, 14, 15])]

/-- `C68_target_partial` on this model: NUTS gets the model's density. -/
example : ∃ out, constructSampler own insV [0, 1, 2] obs n2o disc 20 id nuts = some out ∧
    ∀ (sem : Node → Nat → List ℕ → ℕ) (given : Var → Option ℕ) (ρ : Var → ℕ)
      (dens : Var → List ℕ → ℕ → ℝ≥0∞) (d : ℝ≥0∞),
      JointDens own sem (ModelVar [0, 1, 2] obs) given dens insV [0, 1, 2] ρ d →
      JointDens own sem (ModelVar [0, 1, 2] obs) given dens out.ins [0, 1, 2] ρ d := by
  obtain ⟨out, h1, h2⟩ := C68_target_partial (own := own) (ins := insV) (outs := [0, 1, 2]) (obs := obs)
    (newToOld := n2o) (disc := disc) (base := 20) (order := id) (nuts := nuts) (f := fun r => 40 + r)
    (setup3 (by decide) (fun i => ownT_none (by decide) i) (by decide) (by decide)) old old_inj idOrder
    nuts_keys (by
      intro rv hrv sd hc n hin hex w hw
      have hrv' : rv = 0 ∨ rv = 1 ∨ rv = 2 := by simpa using hrv
      rcases hrv' with rfl | rfl | rfl
      · cases hc
      · cases hc
        have hk : closedL own insV (reachL own insV 4 [6]) = true := by decide
        have hin' := (nodeIn_iff hk n).1 hin
        have hmem : ∀ n ∈ nodesL own (reachL own insV 4 [6]), n = 0 ∨ 2 < n := by decide
        rcases hmem n hin' with rfl | h3
        · have hw' : w = 16 ∨ w = 10 := by simpa using (show w ∈ [16, 10] from hw)
          rcases hw' with rfl | rfl
          · exact not_modelVar3 16 (by decide)
          · exact not_modelVar3 10 (by decide)
        · exfalso
          obtain ⟨r, hr, m, i, hm, h⟩ := hex
          have hr' : r = 0 ∨ r = 1 ∨ r = 2 := by simpa using hr
          have hmle : m ≤ 2 := by
            rcases hr' with rfl | rfl | rfl <;> · cases hm; decide
          rcases h with rfl | ⟨x, hx, hcut⟩
          · exact absurd hmle (not_le.2 h3)
          · have hxs : own x = none ∨ ModelVar [0, 1, 2] obs x := by
              rcases hr' with rfl | rfl | rfl
              all_goals cases hm
              · have : x = 16 ∨ x = 10 := by simpa using (show x ∈ [16, 10] from hx)
                rcases this with rfl | rfl <;> exact Or.inl rfl
              · have : x = 17 ∨ x = 0 ∨ x = 11 := by simpa using (show x ∈ [17, 0, 11] from hx)
                rcases this with rfl | rfl | rfl
                · exact Or.inl rfl
                · exact Or.inr (Or.inl (by decide))
                · exact Or.inl rfl
              · have : x = 18 ∨ x = 12 ∨ x = 1 := by simpa using (show x ∈ [18, 12, 1] from hx)
                rcases this with rfl | rfl | rfl
                · exact Or.inl rfl
                · exact Or.inl rfl
                · exact Or.inr (Or.inl (by decide))
            obtain ⟨u, j, hu, hD, hown⟩ := hcut
            have hux : u = x := by
              rcases hxs with hx0 | hxD
              · exact reachCut_input hx0 hu
              · clear hD hown
                induction hu with
                | refl => rfl
                | tail _ hnD _ _ ih => exact absurd (ih ▸ hxD) hnD
            subst hux
            rcases hxs with hx0 | hxD
            · rw [hx0] at hown
              cases hown
            · exact hD hxD
      · cases hc)
  exact ⟨out, h1, h2 ℕ⟩

/-! ## A parameter that is a function of `theta`

`p ~ Beta(2 * theta, b)`: `2 * theta = 7` (node 7). -/

/-- Owners. -/
def ownF : Owner := ownT [(0, (0, 1)), (1, (1, 1)), (2, (2, 1)), (3, (3, 0)), (4, (4, 0)), (5, (5, 0)),
    (6, (6, 1)), (7, (7, 0)), (8, (50, 0))]

/-- Inputs (`/repo/aemcmc/conjugates.py:119-136`). -/
def insF : Ins := insT [(0, [16, 10]), (1, [17, 7, 11]), (2, [18, 12, 1]), (3, [7, 2]), (4, [11, 12]),
    (5, [4, 2]), (6, [13, 3, 5]), (7, [0]), (50, [20, 21, 10, 11, 12, 13, 14, 15])]

/-- `C68_lost` on this model: the term of `p` no longer depends on `theta`, while in the model it does. -/
example : DepTerm ownF (ModelVar [0, 1, 2] obs) insF 1 0 ∧
    ∃ out, constructSampler ownF insF [0, 1, 2] obs n2o disc 20 id nuts = some out ∧
      ¬ DepTerm ownF (ModelVar [0, 1, 2] obs) out.ins 1 0 := by
  refine ⟨⟨1, 1, rfl, 7, by decide, .tail .refl (not_modelVar3 7 (by decide)) (n := 7) (i := 0) rfl (by decide)⟩,
    ?_⟩
  have hp : Meets ownF (Ahead [0, 1, 2] obs 0) insF 6 1 :=
    .tail (w := 2) (n := 2) (i := 1) (.tail (w := 3) (n := 3) (i := 0) (.tail (w := 6) (n := 6) (i := 1)
      (.refl (not_ahead _)) rfl (by decide) (not_ahead _)) rfl (by decide) (not_ahead _)) rfl (by decide)
      (not_ahead _)
  obtain ⟨out, h1, h2, -⟩ := C68_lost (f := fun r => 40 + r) (order := id) (newToOld := n2o) (nuts := nuts)
    (setup3 (own := ownF) (ins := insF) (base := 20) (o := 14) (by decide)
      (fun i => ownT_none (by decide) i) (by decide) (by decide)) old old_inj idOrder nuts_keys
    (by decide : (0 : Var) ∈ unobs [0, 1, 2] obs)
    (show InStep ownF insF [0, 1, 2] obs disc 0 1 from
      ⟨1, by decide, ⟨0, 6, none⟩, rfl, 6, by decide, hp⟩)
  exact ⟨out, h1, h2 _⟩

end Verif.Graph.BetaHier
