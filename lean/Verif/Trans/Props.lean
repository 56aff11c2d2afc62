import Verif.Trans.Run

/-!
# C36–C39: `location_scale_transform` and `invgamma_exponential`
-/

open MeasureTheory ProbabilityTheory

namespace Verif.Trans

open Conj

open Horseshoe (ExpArg expDraw)

/-! ## C36 -/

/-- C36.  For a scalar variable of one of the five two-parameter families, with any expressions for
location and scale that do not refer to the new draw, the transformed expression has the same law, in
every environment with a positive scale; and the law is a probability law. -/
theorem C36_location_scale_law {d : Dist} (hd : d ∈ twoParam) (rng size dtype mu sd : Expr) (sh : SShape)
    (ρ : Env) {m s : ℝ} (hm : evalE ρ mu = some m) (hs : evalE ρ sd = some s) (hpos : 0 < s)
    (hxm : ¬ Reads (noise d rng size dtype) mu) (hxs : ¬ Reads (noise d rng size dtype) sd) :
    ∃ out, locationScaleTransform (.app (.rv d) sh [rng, size, dtype, mu, sd]) = some out ∧
      scalarOut ρ (noise d rng size dtype) out =
        scalarLaw ρ (.app (.rv d) sh [rng, size, dtype, mu, sd]) ∧
      ∃ μ, scalarLaw ρ (.app (.rv d) sh [rng, size, dtype, mu, sd]) = some μ ∧
        IsProbabilityMeasure μ := by
  have hd' : d ∈ locationScaleFamily := by
    simp only [twoParam, List.mem_cons, List.not_mem_nil, or_false] at hd
    rcases hd with rfl | rfl | rfl | rfl | rfl <;> simp [locationScaleFamily]
  obtain ⟨sh1, sh2, h⟩ := locationScaleTransform_app hd' sh rng size dtype mu sd
  refine ⟨_, h, ?_, lsLaw d m s, scalarLaw_app hm hs hpos, isProbabilityMeasure_lsLaw hd hpos m⟩
  rw [scalarOut, scalarLaw_noise, Option.bind_some,
    pushLaw_of (evalE_noncentered hm hs hxm hxs rfl), map_lsLaw hd hpos, scalarLaw_app hm hs hpos]

/-- C36, the two families known to Mathlib: the laws compared are its Gaussian and Cauchy laws. -/
theorem C36_laws_standard (m : ℝ) {s : ℝ} (hs : 0 < s) :
    lsLaw .normal m s = gaussianReal m (s ^ 2).toNNReal ∧
      lsLaw .cauchy m s = cauchyMeasure m s.toNNReal :=
  ⟨lsLaw_normal m hs, lsLaw_cauchy m hs⟩

example : lsLaw .normal 1 3 = gaussianReal 1 (3 ^ 2 : ℝ).toNNReal :=
  (C36_laws_standard 1 (by norm_num)).1

/-- An input is not read below a random variable it is different from. -/
theorem not_reads_input {d : Dist} {sh sh' : SShape} {as : List Expr} {i : ℕ} :
    ¬ Reads (.app (.rv d) sh as) (.input i sh') := by
  intro h
  cases h

theorem not_reads_const {d : Dist} {sh sh' : SShape} {as : List Expr} {i : List Rat} :
    ¬ Reads (.app (.rv d) sh as) (.const i sh') := by
  intro h
  cases h

example : ∃ out, locationScaleTransform
      (.app (.rv .gumbel) [] [.input 0 [], .const [] [some 0], .input 1 [], .input 2 [], .input 3 []]) =
        some out ∧
      scalarOut (fun _ => 2) (noise .gumbel (.input 0 []) (.const [] [some 0]) (.input 1 [])) out =
        some (lsLaw .gumbel 2 2) := by
  obtain ⟨out, h1, h2, -⟩ := C36_location_scale_law (d := .gumbel) (by simp [twoParam]) (.input 0 [])
    (.const [] [some 0]) (.input 1 []) (.input 2 []) (.input 3 []) [] (fun _ => 2) (m := 2) (s := 2)
    (by simp [evalE]) (by simp [evalE]) two_pos not_reads_input not_reads_input
  exact ⟨out, h1, h2.trans (scalarLaw_app (by simp [evalE]) (by simp [evalE]) two_pos)⟩

/-! ## C37 -/

/-- C37, without the Student `t` family.  On graphs whose random variables have the library's number of
parameters, the transform succeeds exactly on the random variables of the five two-parameter families,
and what it returns is `mu + sd * D(0, 1)` with the node's own location, scale, generator, size and
dtype. -/
theorem C37_families_partial {e : Expr} (hwf : WellFormed e) :
    ((∃ out, locationScaleTransform e = some out) ↔ ∃ d ∈ twoParam, distOf e = some d) ∧
    ∀ out, locationScaleTransform e = some out → ∃ d sh sh1 sh2 rng size dtype mu sd,
      e = .app (.rv d) sh [rng, size, dtype, mu, sd] ∧
      out = .app (.elem .add) sh1 [mu, .app (.elem .mul) sh2 [sd,
        .app (.rv d) (sizeShape size) [rng, size, dtype, .const [0] [], .const [1] []]]] := by
  refine ⟨⟨?_, ?_⟩, ?_⟩
  · rintro ⟨out, h⟩
    obtain ⟨d, hd, sh, rng, size, dtype, mu, sd, rfl⟩ := locationScaleTransform_some h
    refine ⟨d, ?_, rfl⟩
    obtain ⟨k, hk, hl⟩ := hwf
    have hk2 : k = 2 := by simp only [List.length_cons, List.length_nil] at hl; omega
    simp only [locationScaleFamily, List.mem_cons, List.not_mem_nil, or_false] at hd
    rcases hd with rfl | rfl | rfl | rfl | rfl | rfl
    on_goal 6 => exact absurd (hk.symm.trans hk2) (by norm_num)
    all_goals simp [twoParam]
  · rintro ⟨d, hd, he⟩
    match e, he with
    | .app (.rv d') sh as, he =>
      obtain rfl : d' = d := Option.some_injective _ he
      obtain ⟨k, hk, hl⟩ := hwf
      have hk2 : k = 2 := by
        simp only [twoParam, List.mem_cons, List.not_mem_nil, or_false] at hd
        rcases hd with rfl | rfl | rfl | rfl | rfl <;> exact hk
      have hd' : d' ∈ locationScaleFamily := by
        simp only [twoParam, List.mem_cons, List.not_mem_nil, or_false] at hd
        rcases hd with rfl | rfl | rfl | rfl | rfl <;> simp [locationScaleFamily]
      subst hk2
      rcases as with _ | ⟨a, _ | ⟨b, _ | ⟨c, _ | ⟨m, _ | ⟨s', _ | ⟨x, l⟩⟩⟩⟩⟩⟩ <;>
        simp at hl
      obtain ⟨sh1, sh2, h⟩ := locationScaleTransform_app hd' sh a b c m s'
      exact ⟨_, h⟩
  · intro out h
    obtain ⟨d, hd, sh, rng, size, dtype, mu, sd, rfl⟩ := locationScaleTransform_some h
    obtain ⟨sh1, sh2, h'⟩ := locationScaleTransform_app hd sh rng size dtype mu sd
    rw [h] at h'
    exact ⟨d, sh, sh1, sh2, rng, size, dtype, mu, sd, rfl, Option.some_injective _ h'⟩

example : ∃ out, locationScaleTransform
    (.app (.rv .laplace) [none] [.input 0 [], .input 1 [some 1], .input 2 [], .input 3 [], .input 4 []]) =
      some out :=
  (C37_families_partial (e := .app (.rv .laplace) [none]
    [.input 0 [], .input 1 [some 1], .input 2 [], .input 3 [], .input 4 []]) ⟨2, rfl, rfl⟩).1.2
    ⟨.laplace, by simp [twoParam], rfl⟩

example : locationScaleTransform
    (.app (.rv .gamma) [] [.input 0 [], .input 1 [some 1], .input 2 [], .input 3 [], .input 4 []]) =
      none := by
  by_contra h
  obtain ⟨out, ho⟩ := Option.ne_none_iff_exists'.1 h
  obtain ⟨d, hd, hg⟩ := (C37_families_partial (e := .app (.rv .gamma) []
    [.input 0 [], .input 1 [some 1], .input 2 [], .input 3 [], .input 4 []]) ⟨2, rfl, rfl⟩).1.1 ⟨out, ho⟩
  obtain rfl : Dist.gamma = d := Option.some_injective _ hg
  simp [twoParam] at hd

/-- C37 fails for the Student `t` family: although it is listed, no `t` variable of the library, which has
degrees of freedom, location and scale, is ever rewritten. -/
theorem C37_t_never_rewritten_violated {sh : SShape} {as : List Expr}
    (hwf : WellFormed (.app (.rv .t) sh as)) :
    locationScaleTransform (.app (.rv .t) sh as) = none := by
  by_contra h
  obtain ⟨out, ho⟩ := Option.ne_none_iff_exists'.1 h
  obtain ⟨d, hd, hg⟩ := (C37_families_partial hwf).1.1 ⟨out, ho⟩
  obtain rfl : Dist.t = d := Option.some_injective _ hg
  simp [twoParam] at hd

example : locationScaleTransform (.app (.rv .t) []
    [.input 0 [], .const [] [some 0], .input 1 [], .input 2 [], .input 3 [], .input 4 []]) = none :=
  C37_t_never_rewritten_violated ⟨3, rfl, rfl⟩

/-! ## C38 -/

/-- C38, when the draw was given a non-empty size.  The joint law of the components of the transformed
expression is that of the original variable: independent, each with its own location and scale. -/
theorem C38_independent_partial {d : Dist} (hd : d ∈ twoParam) {n : ℕ} (rng size dtype mu sd : Expr)
    (sh : SShape) (hsize : sizeShape size ≠ []) (hsh : sh ≠ []) (ρ : Fin (n + 1) → Env)
    {m s : Fin (n + 1) → ℝ} (hm : ∀ i, evalE (ρ i) mu = some (m i))
    (hs : ∀ i, evalE (ρ i) sd = some (s i)) (hpos : ∀ i, 0 < s i)
    (hxm : ¬ Reads (noise d rng size dtype) mu) (hxs : ¬ Reads (noise d rng size dtype) sd) :
    ∃ out, locationScaleTransform (.app (.rv d) sh [rng, size, dtype, mu, sd]) = some out ∧
      tensorOut ρ (noise d rng size dtype) out = some (Measure.pi fun i => lsLaw d (m i) (s i)) ∧
      tensorLaw ρ (.app (.rv d) sh [rng, size, dtype, mu, sd]) =
        some (Measure.pi fun i => lsLaw d (m i) (s i)) := by
  have hd' : d ∈ locationScaleFamily := by
    simp only [twoParam, List.mem_cons, List.not_mem_nil, or_false] at hd
    rcases hd with rfl | rfl | rfl | rfl | rfl <;> simp [locationScaleFamily]
  obtain ⟨sh1, sh2, h⟩ := locationScaleTransform_app hd' sh rng size dtype mu sd
  refine ⟨_, h, ?_, tensorLaw_indep hsh fun i => scalarLaw_app (hm i) (hs i) (hpos i)⟩
  rw [tensorOut_of (tensorLaw_indep (x := noise d rng size dtype) (ν := fun _ => lsLaw d 0 1) hsize
    fun i => scalarLaw_noise (ρ i) d rng size dtype)
    (f := fun i z => m i + s i * z) fun i z => evalE_noncentered (hm i) (hs i) hxm hxs rfl z]
  have e : ∀ i, (lsLaw d 0 1).map (fun z => m i + s i * z) = lsLaw d (m i) (s i) :=
    fun i => map_lsLaw hd (hpos i) (m i)
  have : ∀ i, SigmaFinite ((lsLaw d 0 1).map (fun z => m i + s i * z)) := fun i => by
    rw [e i]
    infer_instance
  rw [Measure.pi_map_pi (μ := fun _ : Fin (n + 1) => lsLaw d 0 1)
    (f := fun i z => m i + s i * z) (fun i => by fun_prop)]
  simp only [e]

example : ∃ out, locationScaleTransform
      (.app (.rv .normal) [some 2] [.input 0 [], .const [2] [some 1], .input 1 [], .input 2 [none],
        .const [3] []]) = some out ∧
      tensorOut (n := 1) (fun i => fun _ => (i : ℝ))
        (noise .normal (.input 0 []) (.const [2] [some 1]) (.input 1 [])) out =
        some (Measure.pi fun i : Fin 2 => lsLaw .normal (i : ℕ) 3) := by
  obtain ⟨out, h1, h2, -⟩ := C38_independent_partial (d := .normal) (n := 1) (by simp [twoParam])
    (.input 0 []) (.const [2] [some 1]) (.input 1 []) (.input 2 [none]) (.const [3] []) [some 2]
    (by simp [sizeShape]) (by simp) (fun i => fun _ => (i : ℝ)) (m := fun i => (i : ℕ)) (s := fun _ => 3)
    (by simp [evalE]) (by simp [evalE]) (by simp) not_reads_input not_reads_const
  exact ⟨out, h1, h2⟩

/-- C38 fails whenever no size was given and the variable has at least two components: the noise is drawn
once and shared, and the joint law of the transformed expression differs from the original one. -/
theorem C38_shared_noise_violated {d : Dist} (hd : d ∈ twoParam) {n : ℕ} (rng size dtype mu sd : Expr)
    (sh : SShape) (hsize : sizeShape size = []) (hsh : sh ≠ []) (ρ : Fin (n + 2) → Env)
    {m s : Fin (n + 2) → ℝ} (hm : ∀ i, evalE (ρ i) mu = some (m i))
    (hs : ∀ i, evalE (ρ i) sd = some (s i)) (hpos : ∀ i, 0 < s i)
    (hxm : ¬ Reads (noise d rng size dtype) mu) (hxs : ¬ Reads (noise d rng size dtype) sd) :
    ∃ out μ ν, locationScaleTransform (.app (.rv d) sh [rng, size, dtype, mu, sd]) = some out ∧
      tensorOut ρ (noise d rng size dtype) out = some μ ∧
      tensorLaw ρ (.app (.rv d) sh [rng, size, dtype, mu, sd]) = some ν ∧
      μ {v | (v 0 - m 0) / s 0 = (v 1 - m 1) / s 1}ᶜ = 0 ∧ μ ≠ ν := by
  have hd' : d ∈ locationScaleFamily := by
    simp only [twoParam, List.mem_cons, List.not_mem_nil, or_false] at hd
    rcases hd with rfl | rfl | rfl | rfl | rfl <;> simp [locationScaleFamily]
  obtain ⟨sh1, sh2, h⟩ := locationScaleTransform_app hd' sh rng size dtype mu sd
  have e1 := tensorOut_of (ρ := ρ) (tensorLaw_scalar (x := noise d rng size dtype) hsize (scalarLaw_noise (ρ 0) d rng size dtype))
    (f := fun i z => m i + s i * z)
    fun i z => evalE_noncentered (sh1 := sh1) (sh2 := sh2) (hm i) (hs i) hxm hxs rfl z
  have hc : Measurable fun (z : ℝ) (_ : Fin (n + 2)) => z := by fun_prop
  have ha : Measurable fun (v : Fin (n + 2) → ℝ) (i : Fin (n + 2)) => m i + s i * v i := by fun_prop
  refine ⟨_, _, _, h, e1, tensorLaw_indep hsh fun i => scalarLaw_app (hm i) (hs i) (hpos i), ?_, ?_⟩
  · rw [Measure.map_map ha hc, Measure.map_apply (ha.comp hc)]
    · convert measure_empty (μ := lsLaw d 0 1)
      ext z
      have h0 := (hpos 0).ne'
      have h1 := (hpos 1).ne'
      simp [h0, h1]
    · refine (measurableSet_eq_fun ?_ ?_).compl <;> fun_prop
  · intro he
    have hR := congrArg (fun μ : Measure (Fin (n + 2) → ℝ) => μ (Set.pi Set.univ fun i =>
      if i = 0 then Set.Iic (m i) else Set.Ioi (m i))) he
    rw [Measure.pi_pi, Measure.map_map ha hc, Measure.map_apply (ha.comp hc)
      (MeasurableSet.univ_pi fun i => by split <;> measurability)] at hR
    have h0 : (((fun (v : Fin (n + 2) → ℝ) (i : Fin (n + 2)) => m i + s i * v i) ∘
        fun (z : ℝ) (_ : Fin (n + 2)) => z) ⁻¹' Set.pi Set.univ fun i =>
          if i = 0 then Set.Iic (m i) else Set.Ioi (m i)) = ∅ := by
      ext z
      simp only [Set.mem_preimage, Set.mem_pi, Set.mem_univ, true_imp_iff, Function.comp,
        Set.mem_empty_iff_false, iff_false]
      intro hz
      have z0 := hz 0
      have z1 := hz 1
      simp only [if_true, Set.mem_Iic, Fin.one_eq_zero_iff] at z0 z1
      rw [if_neg (by omega)] at z1
      have z1 : m 1 < m 1 + s 1 * z := z1
      have p0 := hpos 0
      have p1 := hpos 1
      have q0 : s 0 * z ≤ 0 := by linarith
      have q1 : 0 < s 1 * z := by linarith
      have : 0 < z := (pos_iff_pos_of_mul_pos q1).1 p1
      nlinarith
    rw [h0, measure_empty] at hR
    have hR := Finset.prod_eq_zero_iff.1 hR.symm
    obtain ⟨i, -, hi⟩ := hR
    refine lsLaw_ne_zero hd (hpos i) (m i) ?_ hi
    split <;> simp

example : ∃ out μ ν, locationScaleTransform
      (.app (.rv .normal) [some 2] [.input 0 [], .const [] [some 0], .input 1 [], .input 2 [some 2],
        .const [1] []]) = some out ∧
      tensorOut (n := 1) (fun i => fun _ => (i : ℝ))
        (noise .normal (.input 0 []) (.const [] [some 0]) (.input 1 [])) out = some μ ∧
      tensorLaw (n := 1) (fun i => fun _ => (i : ℝ)) (.app (.rv .normal) [some 2]
        [.input 0 [], .const [] [some 0], .input 1 [], .input 2 [some 2], .const [1] []]) = some ν ∧
      μ ≠ ν := by
  obtain ⟨out, μ, ν, h1, h2, h3, -, h4⟩ := C38_shared_noise_violated (d := .normal) (n := 0)
    (by simp [twoParam])
    (.input 0 []) (.const [] [some 0]) (.input 1 []) (.input 2 [some 2]) (.const [1] []) [some 2]
    (by simp [sizeShape]) (by simp) (fun i => fun _ => (i : ℝ)) (m := fun i => (i : ℕ)) (s := fun _ => 1)
    (by simp [evalE]) (by simp [evalE]) (by simp) not_reads_input not_reads_const
  exact ⟨out, μ, ν, h1, h2, h3, h4⟩

/-! ## C39 -/

/-- C39.  The rewrite applies exactly to inverse-gamma variables whose shape parameter is the constant
one.  The result has the law `InvGamma(1, c)` for every positive `c` if the exponential's argument is a
rate; if it is a scale, as in the library, it has that law exactly when `c = 1`. -/
theorem C39_invgamma_iff_partial (sh : SShape) (rng size dtype c : Expr) (ρ : Env) {r : ℝ}
    (hc : evalE ρ c = some r) (hr : 0 < r) :
    ∃ out, invgammaExponential (.app (.rv .invgamma) sh [rng, size, dtype, .const [1] [], c]) = some out ∧
      igLaw ρ (.app (.rv .invgamma) sh [rng, size, dtype, .const [1] [], c]) =
        some (invGammaLaw 1 r) ∧
      expOut .rate ρ (expNode rng size dtype c) out = some (invGammaLaw 1 r) ∧
      ∃ μ, expOut .scale ρ (expNode rng size dtype c) out = some μ ∧
        (μ = invGammaLaw 1 r ↔ r = 1) := by
  have he : ∀ z, evalE (Function.update ρ (expNode rng size dtype c) z)
      (.app (.elem .trueDiv) (expNode rng size dtype c).shape
        [.const [1] [], expNode rng size dtype c]) = some (1 / z) := fun z => by
    have hz : evalE (Function.update ρ (expNode rng size dtype c) z) (expNode rng size dtype c) =
        some z := by
      rw [expNode, evalE_rv, Function.update_self]
    rw [evalE, evalE_one, hz]
    rfl
  have e1 : (expDraw .rate r).map (fun z => 1 / z) = invGammaLaw 1 r := map_inv_expMeasure r
  have hx : ∀ conv, expLaw conv ρ (expNode rng size dtype c) = some (expDraw conv r) := fun conv => by
    simp [expNode, expLaw, hc, hr]
  refine ⟨_, invgammaExponential_app sh rng size dtype c, by simp [igLaw, hc, hr, evalE_one], ?_,
    (expDraw .scale r).map (fun z => 1 / z), ?_, ?_⟩
  · rw [expOut, hx, Option.bind_some, pushLaw_of he, e1]
  · rw [expOut, hx, Option.bind_some, pushLaw_of he]
  refine ⟨fun h1 => ?_, fun h => ?_⟩
  · rw [← e1] at h1
    have h2 : expMeasure r⁻¹ = expMeasure r := map_inv_injective h1
    have h3 := gammaMeasure_rate_inj one_pos (inv_pos.2 hr) hr h2
    have h4 : r * r = 1 := by
      nth_rw 1 [← h3]
      exact inv_mul_cancel₀ hr.ne'
    nlinarith
  · subst h
    rw [← e1, expDraw, expDraw, inv_one]

example : ∃ out, invgammaExponential (.app (.rv .invgamma) []
      [.input 0 [], .const [] [some 0], .input 1 [], .const [1] [], .input 2 []]) = some out ∧
    expOut .rate (fun _ => 5) (expNode (.input 0 []) (.const [] [some 0]) (.input 1 []) (.input 2 [])) out =
      some (invGammaLaw 1 5) := by
  obtain ⟨out, h1, -, h2, -⟩ := C39_invgamma_iff_partial [] (.input 0 []) (.const [] [some 0])
    (.input 1 []) (.input 2 []) (fun _ => 5) (r := 5) (by simp [evalE]) (by norm_num)
  exact ⟨out, h1, h2⟩

/-- C39: the rewrite applies to nothing else. -/
theorem C39_invgamma_only_partial {e out : Expr} (h : invgammaExponential e = some out) :
    ∃ sh rng size dtype c, e = .app (.rv .invgamma) sh [rng, size, dtype, .const [1] [], c] ∧
      out = .app (.elem .trueDiv) (expNode rng size dtype c).shape
        [.const [1] [], expNode rng size dtype c] := by
  obtain ⟨sh, rng, size, dtype, c, rfl⟩ := invgammaExponential_some h
  rw [invgammaExponential_app] at h
  exact ⟨sh, rng, size, dtype, c, rfl, (Option.some_injective _ h).symm⟩

/-- An inverse gamma variable with another shape parameter is left alone. -/
example : invgammaExponential (.app (.rv .invgamma) []
    [.input 0 [], .const [] [some 0], .input 1 [], .const [2] [], .input 2 []]) = none := by
  by_contra h
  obtain ⟨out, ho⟩ := Option.ne_none_iff_exists'.1 h
  obtain ⟨sh, rng, size, dtype, c, he, -⟩ := C39_invgamma_only_partial ho
  simp at he

/-- C39 fails in the library's reading: with `c = 2` the law changes. -/
theorem C39_scale_violated : ∃ (e out x : Expr) (ρ : Env) (μ ν : Measure ℝ),
    invgammaExponential e = some out ∧ igLaw ρ e = some μ ∧ expOut .scale ρ x out = some ν ∧ ν ≠ μ := by
  obtain ⟨out, h1, h2, -, ν, h3, h4⟩ := C39_invgamma_iff_partial [] (.input 0 []) (.const [] [some 0])
    (.input 1 []) (.const [2] []) (fun _ => 0) (r := 2) (by simp [evalE]) two_pos
  exact ⟨_, out, _, _, _, ν, h1, h2, h3, fun h => absurd (h4.1 h) (by norm_num)⟩

end Verif.Trans
