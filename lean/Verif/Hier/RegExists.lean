import Verif.Hier.RegMeaning

/-!
# The regression with random standard deviations: there is a meaning of the graph
-/

open MeasureTheory ProbabilityTheory Filter
open scoped ENNReal Topology

namespace Verif.Hier.Reg

open Graph (Node Var SamplerOut NutsResult Feeds Returns constructSampler Ev EvL ArgsOf JointDens NutsFor
  ModelVar over)
open Graph.RegHier (own ins obs n2o disc nuts)
open Whole (Draws)

/-- Values: vectors, states of the two generators, success probabilities, other leaves. -/
inductive V (p : ℕ) (U Z : Type) where
  | vec (v : Vec p)
  | gD (u : U)
  | gN (z : Z)
  | prob (β : Vec p)
  | leaf (k : ℕ)

namespace V

variable {p : ℕ} {U Z : Type}

/-- The vector of a value. -/
noncomputable def val : V p U Z → Vec p
  | vec v => v
  | _ => 0

/-- The densities of the three distributions.  A value of the success probabilities is given by the coefficients. -/
noncomputable def dens (h L : Vec p → ℝ≥0∞) : Var → List (V p U Z) → V p U Z → ℝ≥0∞
  | 0, _, vec s => h s
  | 1, [_, _, vec s], vec β => normDensity s β
  | 2, [_, _, prob β], _ => L β
  | _, _, _ => 0

/-- The nodes of the steps.  The node of NUTS computes the density on the graph it is given. -/
noncomputable def sem (h L : Vec p → ℝ≥0∞) (draw : (Vec p × Vec p) × U → Vec p)
    (g : (Vec p → ℝ≥0∞) → Vec p → Z → Vec p) : Node → Nat → List (V p U Z) → V p U Z
  | 3, 0, [_, vec β] => prob β
  | 6, 0, [vec β, vec s, _, _, _, gD u] => vec (draw ((s, β), u))
  | 50, 0, [vec s, vec β, c, m, d, gD u, y, gN z, _] =>
    vec (g (fun t => dens (U := U) (Z := Z) h L 0 [leaf 0, c] (vec t) *
      (dens (U := U) (Z := Z) h L 1 [leaf 1, m, vec s] (vec (draw ((s, β), u))) *
        (dens (U := U) (Z := Z) h L 2 [leaf 2, d, prob β] y * 1))) s z)
  | _, _, _ => leaf 0

end V

/-- There is a meaning. -/
theorem meaning_exists {p : ℕ} (h L : Vec p → ℝ≥0∞) {K : Vec p × Vec p → Measure (Vec p)}
    (hK : Nonempty (Draws K (good p))) : Nonempty (Meaning h L K) := by
  obtain ⟨D⟩ := hK
  obtain ⟨N⟩ := oneNuts_exists (Vec p)
  refine ⟨{
    Val := V p D.U N.Z, vec := .vec, val := V.val, val_vec := fun _ => rfl
    sem := V.sem h L D.draw N.g, dens := V.dens h L, D, N, gD := .gD, gN := .gN, c := .leaf 3, m := .leaf 4
    d := .leaf 5, y := .leaf 6, x := .leaf 7, r₀ := .leaf 0, r₁ := .leaf 1, r₂ := .leaf 2
    coef := fun _ _ _ => rfl, dens_sigma := fun _ => rfl, dens_beta := fun _ _ => rfl, dens_y := fun _ => rfl
    nuts_spec := ?_ }⟩
  rintro out ⟨order, ho, hout⟩ s β u z given G ts re hts h0 hre hobs ρ hval d hd v hv
  obtain ⟨out', hout', F⟩ := Graph.RegHier.run ho
  obtain rfl : out = out' := Option.some.inj (hout.symm.trans hout')
  obtain ⟨i20, -, E6, E8, A⟩ := evals (sem := V.sem h L D.draw N.g) F G
  have hv8 : v = 8 := by
    rcases ts with - | ⟨⟨k, w⟩, ts⟩
    · exact absurd ((hts 0).2 rfl) (by simp [Py.Dict.keys])
    · have hk : k = 0 := (hts k).1 (by simp [Py.Dict.keys])
      subst hk
      have : (nuts ((0, w) :: ts) re).steps.get? 0 = some 8 := rfl
      rw [hv] at this
      exact Option.some.inj this
  subst hv8
  have e0 : ρ 0 = .vec s := by
    have h1 : ts.get? 0 = some 20 := h0.trans (F.1 (40, 20) (by simp))
    exact (hval 0 20 (Or.inl h1)).det (.given i20)
  have e1 : ρ 1 = .vec (D.draw ((s, β), u)) := by
    have h1 : re.get? 1 = some 6 :=
      (hre 1 (by decide) (by decide) (by decide)).trans (F.2.1 (41, 6) (by simp))
    exact (hval 1 6 (Or.inr h1)).det E6
  have e2 : ρ 2 = .leaf 6 := by
    have h1 : re.get? 2 = some 14 := (hobs 2 (by decide)).trans rfl
    exact (hval 2 14 (Or.inr h1)).det (G.leaf (by simp) _ _)
  have hd' : (fun t => d (.vec t)) = fun t => V.dens (U := D.U) (Z := N.Z) h L 0 [.leaf 0, .leaf 3] (.vec t) *
      (V.dens (U := D.U) (Z := N.Z) h L 1 [.leaf 1, .leaf 4, .vec s] (.vec (D.draw ((s, β), u))) *
        (V.dens (U := D.U) (Z := N.Z) h L 2 [.leaf 2, .leaf 5, .prob β] (.leaf 6) * 1)) := by
    funext t
    refine (hd (.vec t)).det ⟨fun r => if r = 0 then [.leaf 0, .leaf 3] else
      if r = 1 then [.leaf 1, .leaf 4, .vec s] else [.leaf 2, .leaf 5, .prob β], fun r hr => ?_, ?_⟩
    · have A' := A (Function.update ρ 0 (.vec t))
      simp only [List.mem_cons, List.not_mem_nil, or_false] at hr
      rcases hr with rfl | rfl | rfl
      · exact A'.1
      · exact A'.2.1
      · exact A'.2.2
    · simp [e1, e2]
  beta_reduce
  rw [hd', e0]
  exact E8

end Verif.Hier.Reg
