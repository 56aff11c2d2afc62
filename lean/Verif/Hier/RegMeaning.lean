import Verif.Hier.RegGraph
import Verif.Hier.RegLik
import Verif.Hier.Ideal
import Verif.Whole.HsReg

/-!
# The sampler built for a regression with random standard deviations: values and laws
-/

open MeasureTheory ProbabilityTheory Filter
open scoped ENNReal Topology

namespace Verif.Hier.Reg

open Graph (Node Var SamplerOut NutsResult Feeds Returns constructSampler Ev EvL ArgsOf JointDens NutsFor
  ModelVar over)
open Graph.RegHier (own ins obs n2o disc nuts)
open Whole (Draws returns_unique)

/-- Vectors of length `p`. -/
abbrev Vec (p : ℕ) : Type := Fin p → ℝ

/-- The inputs the step of the coefficients is meant for: positive standard deviations. -/
abbrev good (p : ℕ) : Set (Vec p × Vec p) := Whole.HsReg.fixedGood p

/-- Spec: a meaning of the graph, for a prior density `h` of the standard deviations, a likelihood `L` of the
coefficients and a law `K` of the step of the coefficients given the standard deviations and the current
coefficients.  `vec` encodes vectors, `N` is the ideal NUTS, `gD` and `gN` encode the states of the generators; the
densities of the three distributions are those of the model. -/
structure Meaning {p : ℕ} (h L : Vec p → ℝ≥0∞) (K : Vec p × Vec p → Measure (Vec p)) where
  Val : Type
  vec : Vec p → Val
  val : Val → Vec p
  val_vec : ∀ v, val (vec v) = v
  sem : Node → Nat → List Val → Val
  dens : Var → List Val → Val → ℝ≥0∞
  D : Draws K (good p)
  N : OneNuts (Vec p)
  gD : D.U → Val
  gN : N.Z → Val
  c : Val
  m : Val
  d : Val
  y : Val
  x : Val
  r₀ : Val
  r₁ : Val
  r₂ : Val
  coef : ∀ β s u, sem 6 0 [vec β, vec s, x, d, y, gD u] = vec (D.draw ((s, β), u))
  dens_sigma : ∀ s, dens 0 [r₀, c] (vec s) = h s
  dens_beta : ∀ s β, dens 1 [r₁, m, vec s] (vec β) = normDensity s β
  dens_y : ∀ β, dens 2 [r₂, d, sem 3 0 [x, vec β]] y = L β
  nuts_spec : ∀ out, (∃ order, (∀ l : List Var, (order l).Perm l) ∧
      constructSampler own ins [0, 1, 2] obs n2o disc 20 order nuts = some out) →
    ∀ s β u z given, Feeds own out given [(40, vec s), (41, vec β)] [(10, c), (11, m), (12, d), (13, gD u),
        (14, y), (15, gN z), (16, r₀), (17, r₁), (18, r₂), (19, x)] →
      NutsFor own sem [0, 1, 2] obs nuts (fun r => 40 + r) 0 dens
        (fun f v z => vec (N.g (fun t => f (vec t)) (val v) z)) given z out

namespace Meaning

variable {p : ℕ} {h L : Vec p → ℝ≥0∞} {K : Vec p × Vec p → Measure (Vec p)} (M : Meaning h L K)

/-- The state `q = (sigma, beta)`. -/
def state (q : Vec p × Vec p) : List (Var × M.Val) := [(40, M.vec q.1), (41, M.vec q.2)]

/-- The leaves: the parameter of the prior of `sigma`, the mean, the dispersion, the generators, the observation,
the design matrix. -/
def leaves (u : M.D.U) (z : M.N.Z) : List (Var × M.Val) :=
  [(10, M.c), (11, M.m), (12, M.d), (13, M.gD u), (14, M.y), (15, M.gN z), (16, M.r₀), (17, M.r₁), (18, M.r₂),
    (19, M.x)]

/-- The random numbers of one call, independent. -/
abbrev Ω : Type := M.D.U × M.N.Z

/-- Their law. -/
noncomputable def P : Measure M.Ω := M.D.P.prod M.N.P

/-- Spec: the steps of `out`, called with the state `q` and the random numbers `ω`, return the state `q'`. -/
def Calls (out : SamplerOut) (q : Vec p × Vec p) (ω : M.Ω) (q' : Vec p × Vec p) : Prop :=
  ∀ given, Feeds own out given (M.state q) (M.leaves ω.1 ω.2) →
    Returns own M.sem given out 40 (M.vec q'.1) ∧ Returns own M.sem given out 41 (M.vec q'.2)

/-- The new state: NUTS moves `sigma` with its prior density `h`. -/
noncomputable def new (q : Vec p × Vec p) (ω : M.Ω) : Vec p × Vec p := (M.N.g h q.1 ω.2, M.D.draw (q, ω.1))

end Meaning

/-- The values of the intermediate nodes of the built sampler. -/
theorem evals {Val : Type} {sem : Node → Nat → List Val → Val} {out : SamplerOut}
    (F : Graph.Final out [(40, 20), (41, 21)] [(40, 8), (41, 6)] [(0, [16, 10]), (1, [17, 11, 20]),
        (2, [18, 12, 3]), (3, [19, 21]), (6, [21, 20, 19, 12, 14, 13]),
        (50, [20, 21, 10, 11, 12, 13, 14, 15, 19])]) {given : Var → Option Val}
    {s β c m d u y z r₀ r₁ r₂ x : Val}
    (G : Feeds own out given [(40, s), (41, β)] [(10, c), (11, m), (12, d), (13, u), (14, y), (15, z),
      (16, r₀), (17, r₁), (18, r₂), (19, x)]) :
    given 20 = some s ∧ given 21 = some β ∧
      Ev own sem given out.ins 6 (sem 6 0 [β, s, x, d, y, u]) ∧
      Ev own sem given out.ins 8 (sem 50 0 [s, β, c, m, d, u, y, z, x]) ∧
      ∀ ρ : Var → Val, ArgsOf own sem (ModelVar [0, 1, 2] obs) given out.ins ρ 0 [r₀, c] ∧
        ArgsOf own sem (ModelVar [0, 1, 2] obs) given out.ins ρ 1 [r₁, m, s] ∧
        ArgsOf own sem (ModelVar [0, 1, 2] obs) given out.ins ρ 2 [r₂, d, sem 3 0 [x, β]] := by
  have i20 : given 20 = some s := by
    obtain ⟨i, h1, h2⟩ := G.1 (40, s) (by simp)
    obtain rfl : 20 = i := Option.some.inj ((F.1 (40, 20) (by simp)).symm.trans h1)
    exact h2
  have i21 : given 21 = some β := by
    obtain ⟨i, h1, h2⟩ := G.1 (41, β) (by simp)
    obtain rfl : 21 = i := Option.some.inj ((F.1 (41, 21) (by simp)).symm.trans h1)
    exact h2
  have leaf : ∀ v w, (v, w) ∈ [(10, c), (11, m), (12, d), (13, u), (14, y), (15, z), (16, r₀), (17, r₁),
      (18, r₂), (19, x)] → Ev own sem given out.ins v w := fun v w hm => G.leaf hm sem out.ins
  refine ⟨i20, i21, G.node (v := 6) (n := 6) (i := 0) rfl (F.2.2 (6, _) (by simp))
    (.cons (.given i21) (.cons (.given i20) (.cons (leaf 19 x (by simp)) (.cons (leaf 12 d (by simp))
      (.cons (leaf 14 y (by simp)) (.cons (leaf 13 u (by simp)) .nil)))))),
    G.node (v := 8) (n := 50) (i := 0) rfl (F.2.2 (50, _) (by simp))
      (.cons (.given i20) (.cons (.given i21) (.cons (leaf 10 c (by simp)) (.cons (leaf 11 m (by simp))
      (.cons (leaf 12 d (by simp)) (.cons (leaf 13 u (by simp)) (.cons (leaf 14 y (by simp))
      (.cons (leaf 15 z (by simp)) (.cons (leaf 19 x (by simp)) .nil))))))))), fun ρ => ?_⟩
  have over_leaf : ∀ v w, ¬ ModelVar [0, 1, 2] obs v → given v = some w →
      Ev own sem (over (ModelVar [0, 1, 2] obs) ρ given) out.ins v w := by
    intro v w hv hw
    refine .given ?_
    unfold over
    rw [if_neg hv, hw]
  have lf : ∀ v w, ¬ ModelVar [0, 1, 2] obs v → (v, w) ∈ [(10, c), (11, m), (12, d), (13, u), (14, y), (15, z),
      (16, r₀), (17, r₁), (18, r₂), (19, x)] → Ev own sem (over (ModelVar [0, 1, 2] obs) ρ given) out.ins v w :=
    fun v w hv hm => over_leaf v w hv (G.2.1 _ hm)
  have nm : ∀ v : Nat, 2 < v → ¬ ModelVar [0, 1, 2] obs v := fun v hv => Graph.not_modelVar3 v hv
  refine ⟨⟨0, 1, rfl, ?_⟩, ⟨1, 1, rfl, ?_⟩, ⟨2, 1, rfl, ?_⟩⟩
  · rw [show out.ins 0 = [16, 10] from F.2.2 (0, [16, 10]) (by simp)]
    exact .cons (lf 16 r₀ (nm _ (by decide)) (by simp)) (.cons (lf 10 c (nm _ (by decide)) (by simp)) .nil)
  · rw [show out.ins 1 = [17, 11, 20] from F.2.2 (1, [17, 11, 20]) (by simp)]
    exact .cons (lf 17 r₁ (nm _ (by decide)) (by simp)) (.cons (lf 11 m (nm _ (by decide)) (by simp))
      (.cons (over_leaf 20 s (nm _ (by decide)) i20) .nil))
  · have E3 : Ev own sem (over (ModelVar [0, 1, 2] obs) ρ given) out.ins 3 (sem 3 0 [x, β]) := by
      refine .node (n := 3) (i := 0) ?_ rfl ?_
      · unfold over
        rw [if_neg (nm 3 (by decide))]
        exact G.2.2 3 (by decide)
      · rw [show out.ins 3 = [19, 21] from F.2.2 (3, [19, 21]) (by simp)]
        exact .cons (lf 19 x (nm _ (by decide)) (by simp)) (.cons (over_leaf 21 β (nm _ (by decide)) i21) .nil)
    rw [show out.ins 2 = [18, 12, 3] from F.2.2 (2, [18, 12, 3]) (by simp)]
    exact .cons (lf 18 r₂ (nm _ (by decide)) (by simp)) (.cons (lf 12 d (nm _ (by decide)) (by simp))
      (.cons E3 .nil))

end Verif.Hier.Reg
