import Verif.Trans.Law
import Verif.Prob.HalfLine
import Verif.Prob.GammaBeta

/-!
# What the transforms produce, and the laws of the results
-/

open MeasureTheory ProbabilityTheory

namespace Verif.Trans

open Conj

theorem locationScaleTransform_app {d : Dist} (hd : d ∈ locationScaleFamily) (sh : SShape)
    (rng size dtype mu sd : Expr) :
    ∃ sh1 sh2, locationScaleTransform (.app (.rv d) sh [rng, size, dtype, mu, sd]) =
      some (.app (.elem .add) sh1 [mu, .app (.elem .mul) sh2 [sd, noise d rng size dtype]]) := by
  simp only [locationScaleFamily, List.mem_cons, List.not_mem_nil, or_false] at hd
  rcases hd with rfl | rfl | rfl | rfl | rfl | rfl <;>
    exact ⟨_, _, by
      simp [locationScaleTransform, locationScaleFamily, centeredPat, matchP, matchArgs, headMatch,
        noncentered, List.findSome?, List.lookup]; exact ⟨rfl, rfl⟩⟩

theorem locationScaleTransform_some {e out : Expr} (h : locationScaleTransform e = some out) :
    ∃ d ∈ locationScaleFamily, ∃ sh rng size dtype mu sd,
      e = .app (.rv d) sh [rng, size, dtype, mu, sd] := by
  obtain ⟨d, hd, h⟩ := List.exists_of_findSome?_eq_some h
  refine ⟨d, hd, ?_⟩
  obtain ⟨s, hs, -⟩ := Option.bind_eq_some_iff.1 h
  match e, hs with
  | .app o sh as, hs =>
    simp only [centeredPat, matchP] at hs
    split at hs
    · rename_i ho
      have ho : o = .rv d := by
        cases o <;> simp_all [headMatch]
      subst ho
      rcases as with _ | ⟨a, _ | ⟨b, _ | ⟨c, _ | ⟨m, _ | ⟨s', _ | ⟨x, l⟩⟩⟩⟩⟩⟩ <;>
        simp [matchArgs, matchP, List.lookup] at hs
      exact ⟨sh, a, b, c, m, s', rfl⟩
    · exact absurd hs (by simp)
  | .input _ _, hs => exact absurd hs (by simp [centeredPat, matchP])
  | .const _ _, hs => exact absurd hs (by simp [centeredPat, matchP])

theorem invgammaExponential_app (sh : SShape) (rng size dtype c : Expr) :
    invgammaExponential (.app (.rv .invgamma) sh [rng, size, dtype, .const [1] [], c]) =
      some (.app (.elem .trueDiv) (expNode rng size dtype c).shape
        [.const [1] [], expNode rng size dtype c]) := by
  simp [invgammaExponential, invgammaPat, matchP, matchArgs, headMatch, List.lookup]

theorem invgammaExponential_some {e out : Expr} (h : invgammaExponential e = some out) :
    ∃ sh rng size dtype c, e = .app (.rv .invgamma) sh [rng, size, dtype, .const [1] [], c] := by
  obtain ⟨s, hs, -⟩ := Option.bind_eq_some_iff.1 h
  match e, hs with
  | .app o sh as, hs =>
    simp only [invgammaPat, matchP] at hs
    split at hs
    · rename_i ho
      have ho : o = .rv .invgamma := by
        cases o <;> simp_all [headMatch]
      subst ho
      rcases as with _ | ⟨a, _ | ⟨b, _ | ⟨c, _ | ⟨m, l⟩⟩⟩⟩
      on_goal 5 =>
        by_cases hm : m = .const [1] []
        · subst hm
          rcases l with _ | ⟨s', _ | ⟨x, l⟩⟩
          on_goal 2 => exact ⟨sh, a, b, c, s', rfl⟩
          all_goals simp [matchArgs, matchP, List.lookup] at hs
        · simp [matchArgs, matchP, List.lookup, hm] at hs
      all_goals simp [matchArgs, matchP, List.lookup] at hs
    · exact absurd hs (by simp)
  | .input _ _, hs => exact absurd hs (by simp [invgammaPat, matchP])
  | .const _ _, hs => exact absurd hs (by simp [invgammaPat, matchP])

theorem evalE_noncentered {ρ : Env} {x mu sd : Expr} {m s : ℝ} {sh1 sh2 : SShape}
    (hm : evalE ρ mu = some m) (hs : evalE ρ sd = some s) (hxm : ¬ Reads x mu) (hxs : ¬ Reads x sd)
    {d : Dist} {sh : SShape} {as : List Expr} (hx : x = .app (.rv d) sh as) (z : ℝ) :
    evalE (Function.update ρ x z) (.app (.elem .add) sh1 [mu, .app (.elem .mul) sh2 [sd, x]]) =
      some (m + s * z) := by
  have hz : evalE (Function.update ρ x z) x = some z := by
    subst hx
    rw [evalE_rv, Function.update_self]
  rw [evalE, evalE_update hxm, hm, evalE, evalE_update hxs, hs, hz]
  rfl

theorem evalE_zero (ρ : Env) : evalE ρ (.const [0] []) = some 0 := by simp [evalE]
theorem evalE_one (ρ : Env) : evalE ρ (.const [1] []) = some 1 := by simp [evalE]

theorem scalarLaw_app {ρ : Env} {d : Dist} {sh : SShape} {rng size dtype mu sd : Expr} {m s : ℝ}
    (hm : evalE ρ mu = some m) (hs : evalE ρ sd = some s) (hpos : 0 < s) :
    scalarLaw ρ (.app (.rv d) sh [rng, size, dtype, mu, sd]) = some (lsLaw d m s) := by
  simp [scalarLaw, hm, hs, hpos]

theorem scalarLaw_noise (ρ : Env) (d : Dist) (rng size dtype : Expr) :
    scalarLaw ρ (noise d rng size dtype) = some (lsLaw d 0 1) :=
  scalarLaw_app (evalE_zero ρ) (evalE_one ρ) one_pos

theorem pushLaw_of {ν : Measure ℝ} {ρ : Env} {x e : Expr} {f : ℝ → ℝ}
    (h : ∀ z, evalE (Function.update ρ x z) e = some (f z)) :
    pushLaw ν ρ x e = some (ν.map f) := by
  have h' : ∀ z, (evalE (Function.update ρ x z) e).isSome := fun z => by rw [h z]; rfl
  rw [pushLaw, dif_pos h']
  congr 2
  funext z
  exact Option.some_injective _ (by rw [Option.some_get, h z])

theorem tensorLaw_indep {n : ℕ} {ρ : Fin (n + 1) → Env} {x : Expr} {ν : Fin (n + 1) → Measure ℝ}
    (hsh : x.shape ≠ []) (h : ∀ i, scalarLaw (ρ i) x = some (ν i)) :
    tensorLaw ρ x = some (Measure.pi ν) := by
  have h' : ∀ i, (scalarLaw (ρ i) x).isSome := fun z => by rw [h z]; rfl
  rw [tensorLaw, if_neg hsh, dif_pos h']
  congr 2
  funext z
  exact Option.some_injective _ (by rw [Option.some_get, h z])

theorem tensorLaw_scalar {n : ℕ} {ρ : Fin (n + 1) → Env} {x : Expr} {ν : Measure ℝ}
    (hsh : x.shape = []) (h : scalarLaw (ρ 0) x = some ν) :
    tensorLaw ρ x = some (ν.map fun z _ => z) := by
  rw [tensorLaw, if_pos hsh, h]
  rfl

theorem tensorOut_of {n : ℕ} {ρ : Fin (n + 1) → Env} {x e : Expr} {ν : Measure (Fin (n + 1) → ℝ)}
    {f : Fin (n + 1) → ℝ → ℝ} (hν : tensorLaw ρ x = some ν)
    (h : ∀ i z, evalE (Function.update (ρ i) x z) e = some (f i z)) :
    tensorOut ρ x e = some (ν.map fun v i => f i (v i)) := by
  have h' : ∀ (v : Fin (n + 1) → ℝ) i, (evalE (Function.update (ρ i) x (v i)) e).isSome :=
    fun v i => by rw [h i (v i)]; rfl
  rw [tensorOut, hν, Option.bind_some, dif_pos h']
  congr 2
  funext v i
  exact Option.some_injective _ (by rw [Option.some_get, h i (v i)])

/-! ## Inverse gamma and exponential -/

theorem map_inv_expMeasure (r : ℝ) :
    (expMeasure r).map (fun z => 1 / z) = invGammaLaw 1 r := by
  have hg : Measurable fun z : ℝ => 1 / z := by fun_prop
  refine Measure.ext_of_lintegral _ fun φ hφ => ?_
  have hφg : Measurable fun z : ℝ => φ (1 / z) := hφ.comp hg
  rw [lintegral_map hφ hg, expMeasure, gammaMeasure_eq_volPos, invGammaLaw,
    lintegral_withDensity_eq_lintegral_mul _ (measurable_gammaPDFReal 1 r).ennreal_ofReal hφg,
    lintegral_withDensity_eq_lintegral_mul _ (by fun_prop) hφ, volPos]
  have himg : (fun w : ℝ => 1 / w) '' Set.Ioi 0 = Set.Ioi 0 := by
    ext x
    constructor
    · rintro ⟨w, hw, rfl⟩
      have hw : 0 < w := hw
      exact one_div_pos.2 hw
    · intro hx
      have hx : 0 < x := hx
      exact ⟨1 / x, one_div_pos.2 hx, by simp⟩
  have hinj : Set.InjOn (fun w : ℝ => 1 / w) (Set.Ioi 0) := by
    intro a ha b hb h
    simpa using h
  have hder : ∀ w ∈ Set.Ioi (0 : ℝ), HasDerivWithinAt (fun w : ℝ => 1 / w)
      (-(w ^ 2)⁻¹) (Set.Ioi 0) w := fun w hw => by
    have hw : 0 < w := hw
    have := hasDerivAt_inv hw.ne'
    simp only [one_div]
    exact this.hasDerivWithinAt
  have := lintegral_image_eq_lintegral_abs_deriv_mul measurableSet_Ioi hder hinj
    ((fun x => ENNReal.ofReal (gammaPDFReal 1 r x)) * fun x => φ (1 / x))
  rw [himg] at this
  refine this.trans ?_
  refine setLIntegral_congr_fun measurableSet_Ioi fun w hw => ?_
  have hw : 0 < w := hw
  simp only [Pi.mul_apply]
  rw [← mul_assoc, ← ENNReal.ofReal_mul (abs_nonneg _), one_div_one_div]
  congr 2
  rw [abs_neg, abs_of_pos (by positivity), gammaPDFReal, if_pos (by positivity)]
  have e : (-1 - 1 : ℝ) = ((-2 : ℤ) : ℝ) := by norm_num
  rw [e, Real.rpow_intCast, zpow_neg]
  have e2 : -(r * (1 / w)) = -r / w := by ring
  rw [e2]
  simp
  ring

theorem map_inv_injective {μ ν : Measure ℝ} (h : μ.map (fun z : ℝ => 1 / z) = ν.map (fun z => 1 / z)) :
    μ = ν := by
  have hg : Measurable fun z : ℝ => 1 / z := by fun_prop
  have := congrArg (fun m => m.map fun z : ℝ => 1 / z) h
  rw [Measure.map_map hg hg, Measure.map_map hg hg] at this
  have e : (fun z : ℝ => 1 / z) ∘ (fun z => 1 / z) = id := by
    funext z
    simp
  rwa [e, Measure.map_id, Measure.map_id] at this

end Verif.Trans
