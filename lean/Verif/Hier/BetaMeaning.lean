import Verif.Hier.BetaGraph
import Verif.Hier.BetaLaw
import Verif.Hier.Ideal
import Verif.Whole.Draws

/-!
# The sampler built for the beta-binomial model with a random parameter: values and laws
-/

open MeasureTheory ProbabilityTheory Filter
open scoped ENNReal Topology

namespace Verif.Hier

open Graph (Node Var SamplerOut NutsResult Feeds Returns constructSampler Ev EvL ArgsOf JointDens NutsFor
  ModelVar over)
open Graph.BetaHier (own ins obs n2o disc nuts)
open Whole (Draws returns_unique)

/-- Spec: a meaning of the graph.  `num` encodes numbers, `D` draws from the beta laws, `N` is the ideal NUTS, `gD`
and `gN` encode the states of the generators; the densities of the three distributions are those of the model. -/
structure Meaning (h : ℝ → ℝ≥0∞) (b : ℝ) (n y : ℕ) where
  Val : Type
  num : ℝ → Val
  val : Val → ℝ
  val_num : ∀ t, val (num t) = t
  sem : Node → Nat → List Val → Val
  dens : Var → List Val → Val → ℝ≥0∞
  D : Draws (fun a : ℝ × ℝ => betaMeasure a.1 a.2) {a | 0 < a.1 ∧ 0 < a.2}
  N : OneNuts ℝ
  gD : D.U → Val
  gN : N.Z → Val
  c : Val
  r₀ : Val
  r₁ : Val
  r₂ : Val
  plus : ∀ s t, sem 3 0 [num s, num t] = num (s + t)
  plus' : ∀ s t, sem 4 0 [num s, num t] = num (s + t)
  minus : ∀ s t, sem 5 0 [num s, num t] = num (s - t)
  draw : ∀ u s t, sem 6 1 [gD u, num s, num t] = num (D.draw ((s, t), u))
  dens_theta : ∀ t, dens 0 [r₀, c] (num t) = h t
  dens_p : ∀ t p, dens 1 [r₁, num t, num b] (num p) = betaPDF t b p
  dens_y : ∀ p, dens 2 [r₂, num n, num p] (num y) = binomLik n y p
  nuts_spec : ∀ out, (∃ order, (∀ l : List Var, (order l).Perm l) ∧
      constructSampler own ins [0, 1, 2] obs n2o disc 20 order nuts = some out) →
    ∀ t p u z given, Feeds own out given [(40, num t), (41, num p)] [(10, c), (11, num b), (12, num n),
        (13, gD u), (14, num y), (15, gN z), (16, r₀), (17, r₁), (18, r₂)] →
      NutsFor own sem [0, 1, 2] obs nuts (fun r => 40 + r) 0 dens
        (fun d v z => num (N.g (fun t => d (num t)) (val v) z)) given z out

namespace Meaning

variable {h : ℝ → ℝ≥0∞} {b : ℝ} {n y : ℕ} (M : Meaning h b n y)

/-- The state `q = (theta, p)`. -/
def state (q : ℝ × ℝ) : List (Var × M.Val) := [(40, M.num q.1), (41, M.num q.2)]

/-- The leaves: the parameter of the prior of `theta`, `b`, `n`, the generators, the observation. -/
def leaves (u : M.D.U) (z : M.N.Z) : List (Var × M.Val) :=
  [(10, M.c), (11, M.num b), (12, M.num n), (13, M.gD u), (14, M.num y), (15, M.gN z), (16, M.r₀), (17, M.r₁),
    (18, M.r₂)]

/-- The random numbers of one call, independent. -/
abbrev Ω : Type := M.D.U × M.N.Z

/-- Their law. -/
noncomputable def P : Measure M.Ω := M.D.P.prod M.N.P

/-- Spec: the steps of `out`, called with the state `q` and the random numbers `ω`, return the state `q'`. -/
def Calls (out : SamplerOut) (q : ℝ × ℝ) (ω : M.Ω) (q' : ℝ × ℝ) : Prop :=
  ∀ given, Feeds own out given (M.state q) (M.leaves ω.1 ω.2) →
    Returns own M.sem given out 40 (M.num q'.1) ∧ Returns own M.sem given out 41 (M.num q'.2)

/-- The new value of `p`. -/
noncomputable def newP (q : ℝ × ℝ) (u : M.D.U) : ℝ := M.D.draw ((q.1 + y, b + n - y), u)

/-- The new state: NUTS moves `theta` with its prior density `h`. -/
noncomputable def new (q : ℝ × ℝ) (ω : M.Ω) : ℝ × ℝ := (M.N.g h q.1 ω.2, M.newP q ω.1)

end Meaning

/-- The values of the intermediate nodes of the built sampler. -/
theorem evals {Val : Type} {sem : Node → Nat → List Val → Val} {out : SamplerOut}
    (F : Graph.Final out [(40, 20), (41, 21)] [(40, 8), (41, 6)] [(0, [16, 10]), (1, [17, 20, 11]),
      (2, [18, 12, 21]), (3, [20, 14]), (4, [11, 12]), (5, [4, 14]), (6, [13, 3, 5]),
      (50, [20, 21, 10, 11, 12, 13, 14, 15])]) {given : Var → Option Val}
    {t p c b n u y z r₀ r₁ r₂ : Val}
    (G : Feeds own out given [(40, t), (41, p)] [(10, c), (11, b), (12, n), (13, u), (14, y), (15, z),
      (16, r₀), (17, r₁), (18, r₂)]) :
    given 20 = some t ∧ given 21 = some p ∧
      Ev own sem given out.ins 6 (sem 6 1 [u, sem 3 0 [t, y], sem 5 0 [sem 4 0 [b, n], y]]) ∧
      Ev own sem given out.ins 8 (sem 50 0 [t, p, c, b, n, u, y, z]) ∧
      ∀ ρ : Var → Val, ArgsOf own sem (ModelVar [0, 1, 2] obs) given out.ins ρ 0 [r₀, c] ∧
        ArgsOf own sem (ModelVar [0, 1, 2] obs) given out.ins ρ 1 [r₁, t, b] ∧
        ArgsOf own sem (ModelVar [0, 1, 2] obs) given out.ins ρ 2 [r₂, n, p] := by
  have i20 : given 20 = some t := by
    obtain ⟨i, h1, h2⟩ := G.1 (40, t) (by simp)
    obtain rfl : 20 = i := Option.some.inj ((F.1 (40, 20) (by simp)).symm.trans h1)
    exact h2
  have i21 : given 21 = some p := by
    obtain ⟨i, h1, h2⟩ := G.1 (41, p) (by simp)
    obtain rfl : 21 = i := Option.some.inj ((F.1 (41, 21) (by simp)).symm.trans h1)
    exact h2
  have leaf : ∀ v x, (v, x) ∈ [(10, c), (11, b), (12, n), (13, u), (14, y), (15, z), (16, r₀), (17, r₁),
      (18, r₂)] → Ev own sem given out.ins v x := fun v x hm => G.leaf hm sem out.ins
  have E3 := G.node (v := 3) (n := 3) (i := 0) rfl (F.2.2 (3, _) (by simp))
    (.cons (.given i20) (.cons (leaf 14 y (by simp)) .nil)) (sem := sem)
  have E4 := G.node (v := 4) (n := 4) (i := 0) rfl (F.2.2 (4, _) (by simp))
    (.cons (leaf 11 b (by simp)) (.cons (leaf 12 n (by simp)) .nil)) (sem := sem)
  have E5 := G.node (v := 5) (n := 5) (i := 0) rfl (F.2.2 (5, _) (by simp))
    (.cons E4 (.cons (leaf 14 y (by simp)) .nil)) (sem := sem)
  refine ⟨i20, i21, G.node (v := 6) (n := 6) (i := 1) rfl (F.2.2 (6, _) (by simp))
    (.cons (leaf 13 u (by simp)) (.cons E3 (.cons E5 .nil))),
    G.node (v := 8) (n := 50) (i := 0) rfl (F.2.2 (50, _) (by simp))
      (.cons (.given i20) (.cons (.given i21) (.cons (leaf 10 c (by simp)) (.cons (leaf 11 b (by simp))
      (.cons (leaf 12 n (by simp)) (.cons (leaf 13 u (by simp)) (.cons (leaf 14 y (by simp))
      (.cons (leaf 15 z (by simp)) .nil)))))))), fun ρ => ?_⟩
  have over_leaf : ∀ v x, ¬ ModelVar [0, 1, 2] obs v → given v = some x →
      Ev own sem (over (ModelVar [0, 1, 2] obs) ρ given) out.ins v x := by
    intro v x hv hx
    refine .given ?_
    unfold over
    rw [if_neg hv, hx]
  have lf : ∀ v x, ¬ ModelVar [0, 1, 2] obs v → (v, x) ∈ [(10, c), (11, b), (12, n), (13, u), (14, y), (15, z),
      (16, r₀), (17, r₁), (18, r₂)] → Ev own sem (over (ModelVar [0, 1, 2] obs) ρ given) out.ins v x :=
    fun v x hv hm => over_leaf v x hv (G.2.1 _ hm)
  have nm : ∀ v : Nat, 2 < v → ¬ ModelVar [0, 1, 2] obs v := fun v hv => Graph.not_modelVar3 v hv
  refine ⟨⟨0, 1, rfl, ?_⟩, ⟨1, 1, rfl, ?_⟩, ⟨2, 1, rfl, ?_⟩⟩
  · rw [show out.ins 0 = [16, 10] from F.2.2 (0, [16, 10]) (by simp)]
    exact .cons (lf 16 r₀ (nm _ (by decide)) (by simp)) (.cons (lf 10 c (nm _ (by decide)) (by simp)) .nil)
  · rw [show out.ins 1 = [17, 20, 11] from F.2.2 (1, [17, 20, 11]) (by simp)]
    exact .cons (lf 17 r₁ (nm _ (by decide)) (by simp)) (.cons (over_leaf 20 t (nm _ (by decide)) i20)
      (.cons (lf 11 b (nm _ (by decide)) (by simp)) .nil))
  · rw [show out.ins 2 = [18, 12, 21] from F.2.2 (2, [18, 12, 21]) (by simp)]
    exact .cons (lf 18 r₂ (nm _ (by decide)) (by simp)) (.cons (lf 12 n (nm _ (by decide)) (by simp))
      (.cons (over_leaf 21 p (nm _ (by decide)) i21) .nil))

end Verif.Hier
