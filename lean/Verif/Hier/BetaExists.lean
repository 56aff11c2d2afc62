import Verif.Hier.BetaMeaning

/-!
# The beta-binomial model with a random parameter: there is a meaning of the graph
-/

open MeasureTheory ProbabilityTheory Filter
open scoped ENNReal Topology

namespace Verif.Hier

open Graph (Node Var SamplerOut NutsResult Feeds Returns constructSampler Ev EvL ArgsOf JointDens NutsFor
  ModelVar over)
open Graph.BetaHier (own ins obs n2o disc nuts)
open Whole (Draws)

theorem beta_draws : Nonempty (Draws (fun a : ℝ × ℝ => betaMeasure a.1 a.2) {a | 0 < a.1 ∧ 0 < a.2}) := by
  refine Draws.exists (K' := fun a => betaMeasure (posOr1 a.1) (posOr1 a.2)) ?_ (fun a => ?_) ?_
  · refine Measure.measurable_of_measurable_coe _ fun S hS => ?_
    simp only [betaMeasure, withDensity_apply _ hS]
    exact measurable_betaPDF_param.lintegral_prod_right
  · exact isProbabilityMeasureBeta (posOr1_pos _) (posOr1_pos _)
  · rintro a ⟨h1, h2⟩
    simp only [posOr1_of_pos h1, posOr1_of_pos h2]

/-- Values: numbers, states of the two generators, other leaves. -/
inductive V (U Z : Type) where
  | num (t : ℝ)
  | gD (u : U)
  | gN (z : Z)
  | leaf (k : ℕ)

namespace V

variable {U Z : Type}

/-- The number of a value. -/
noncomputable def val : V U Z → ℝ
  | num t => t
  | _ => 0

/-- The densities of the three distributions. -/
noncomputable def dens (h : ℝ → ℝ≥0∞) : Var → List (V U Z) → V U Z → ℝ≥0∞
  | 0, _, num t => h t
  | 1, [_, num t, num b], num p => betaPDF t b p
  | 2, [_, num n, num p], num y => binomLik ⌊n⌋₊ ⌊y⌋₊ p
  | _, _, _ => 0

/-- The nodes of the steps.  The node of NUTS computes the density on the graph it is given. -/
noncomputable def sem (h : ℝ → ℝ≥0∞) (draw : (ℝ × ℝ) × U → ℝ) (g : (ℝ → ℝ≥0∞) → ℝ → Z → ℝ) :
    Node → Nat → List (V U Z) → V U Z
  | 3, 0, [num s, num t] => num (s + t)
  | 4, 0, [num s, num t] => num (s + t)
  | 5, 0, [num s, num t] => num (s - t)
  | 6, 1, [gD u, num s, num t] => num (draw ((s, t), u))
  | 50, 0, [num t, num p, c, num b, num n, gD u, num y, gN z] =>
    num (g (fun s => dens (U := U) (Z := Z) h 0 [leaf 0, c] (num s) *
      (dens (U := U) (Z := Z) h 1 [leaf 1, num t, num b] (num (draw ((t + y, b + n - y), u))) *
        (dens (U := U) (Z := Z) h 2 [leaf 2, num n, num p] (num y) * 1))) t z)
  | _, _, _ => leaf 0

end V

/-- There is a meaning. -/
theorem meaning_exists (h : ℝ → ℝ≥0∞) (b : ℝ) (n y : ℕ) : Nonempty (Meaning h b n y) := by
  obtain ⟨D⟩ := beta_draws
  obtain ⟨N⟩ := oneNuts_exists ℝ
  refine ⟨{
    Val := V D.U N.Z, num := .num, val := V.val, val_num := fun _ => rfl
    sem := V.sem h D.draw N.g, dens := V.dens h, D, N, gD := .gD, gN := .gN, c := .leaf 3, r₀ := .leaf 0
    r₁ := .leaf 1, r₂ := .leaf 2, plus := fun _ _ => rfl, plus' := fun _ _ => rfl
    minus := fun _ _ => rfl, draw := fun _ _ _ => rfl, dens_theta := fun _ => rfl
    dens_p := fun _ _ => rfl, dens_y := fun p => by simp [V.dens], nuts_spec := ?_ }⟩
  rintro out ⟨order, ho, hout⟩ t p u z given G ts re hts h0 hre hobs ρ hval d hd v hv
  obtain ⟨out', hout', F⟩ := Graph.BetaHier.run ho
  obtain rfl : out = out' := Option.some.inj (hout.symm.trans hout')
  obtain ⟨i20, -, E6, E8, A⟩ := evals (sem := V.sem h D.draw N.g) F G
  have hv8 : v = 8 := by
    rcases ts with - | ⟨⟨k, w⟩, ts⟩
    · exact absurd ((hts 0).2 rfl) (by simp [Py.Dict.keys])
    · have hk : k = 0 := (hts k).1 (by simp [Py.Dict.keys])
      subst hk
      have : (nuts ((0, w) :: ts) re).steps.get? 0 = some 8 := rfl
      rw [hv] at this
      exact Option.some.inj this
  subst hv8
  have e0 : ρ 0 = .num t := by
    have h1 : ts.get? 0 = some 20 := h0.trans (F.1 (40, 20) (by simp))
    exact (hval 0 20 (Or.inl h1)).det (.given i20)
  have e1 : ρ 1 = .num (D.draw ((t + y, b + n - y), u)) := by
    have h1 : re.get? 1 = some 6 :=
      (hre 1 (by decide) (by decide) (by decide)).trans (F.2.1 (41, 6) (by simp))
    exact (hval 1 6 (Or.inr h1)).det E6
  have e2 : ρ 2 = .num y := by
    have h1 : re.get? 2 = some 14 := (hobs 2 (by decide)).trans rfl
    exact (hval 2 14 (Or.inr h1)).det (G.leaf (by simp) _ _)
  have hd' : (fun s => d (.num s)) = fun s => V.dens (U := D.U) (Z := N.Z) h 0 [.leaf 0, .leaf 3] (.num s) *
      (V.dens (U := D.U) (Z := N.Z) h 1 [.leaf 1, .num t, .num b] (.num (D.draw ((t + y, b + n - y), u))) *
        (V.dens (U := D.U) (Z := N.Z) h 2 [.leaf 2, .num n, .num p] (.num y) * 1)) := by
    funext s
    refine (hd (.num s)).det ⟨fun r => if r = 0 then [.leaf 0, .leaf 3] else
      if r = 1 then [.leaf 1, .num t, .num b] else [.leaf 2, .num n, .num p], fun r hr => ?_, ?_⟩
    · have A' := A (Function.update ρ 0 (.num s))
      simp only [List.mem_cons, List.not_mem_nil, or_false] at hr
      rcases hr with rfl | rfl | rfl
      · exact A'.1
      · exact A'.2.1
      · exact A'.2.2
    · simp [e1, e2]
  beta_reduce
  rw [hd', e0]
  exact E8

end Verif.Hier
