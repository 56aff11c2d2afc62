import Verif.Parts.Props
import Verif.Parts.Law
import Verif.Prob.HalfLine

/-!
# The sampler of a model with two parts and the joint posterior (C71)
-/

open MeasureTheory ProbabilityTheory Filter
open scoped ENNReal Topology

namespace Verif.Parts

open Verif.Py Verif.Graph

/-- The posterior of two unrelated parts is the product of their posteriors. -/
theorem bayes_prod {Θ Φ : Type*} [MeasurableSpace Θ] [MeasurableSpace Φ] {μ : Measure Θ} {ν : Measure Φ}
    [SFinite μ] [SFinite ν] {l : Θ → ℝ≥0∞} {m : Φ → ℝ≥0∞} (hl : Measurable l) (hm : Measurable m)
    (dl : BayesDefined μ l) (dm : BayesDefined ν m) :
    bayes (μ.prod ν) (fun q => l q.1 * m q.2) = (bayes μ l).prod (bayes ν m) := by
  have : IsProbabilityMeasure (bayes μ l) := isProbabilityMeasure_bayes dl
  have : IsProbabilityMeasure (bayes ν m) := isProbabilityMeasure_bayes dm
  refine (Measure.prod_eq fun s t hs ht => ?_).symm
  have hlm : Measurable fun q : Θ × Φ => l q.1 * m q.2 := by fun_prop
  rw [bayes, bayes, bayes, Measure.smul_apply, Measure.smul_apply, Measure.smul_apply,
    withDensity_apply _ (hs.prod ht), withDensity_apply _ hs, withDensity_apply _ ht,
    lintegral_prod_mul hl.aemeasurable hm.aemeasurable, ← Measure.prod_restrict,
    lintegral_prod_mul hl.aemeasurable hm.aemeasurable,
    ENNReal.mul_inv (Or.inl dl.1) (Or.inl dl.2)]
  simp only [smul_eq_mul]
  ring

/-- Spec.  The leaves below `base` have the values `leaf`, the initial values of the variables `rs` the values `cur`. -/
def Fed {Val : Type} (base : Nat) (f : Var → Var) (rs : List Var) (out : SamplerOut) (leaf : Var → Option Val)
    (cur : Var → Val) (given : Var → Option Val) : Prop :=
  (∀ y < base, given y = leaf y) ∧ ∀ r ∈ rs, ∀ v, out.inits.get? (f r) = some v → given v = some (cur r)

/-- Spec.  One call of the sampler `out` in the state `θ` with the random numbers `ω` returns the state `new θ ω`; `cur θ r` is the
value of the variable `r` in the state `θ`, and `leaf ω` are the values of generators and data. -/
def Moves {Val Θ Ω : Type} (own : Owner) (sem : Node → Nat → List Val → Val) (base : Nat) (f : Var → Var)
    (rs : List Var) (out : SamplerOut) (leaf : Ω → Var → Option Val) (cur : Θ → Var → Val) (new : Θ → Ω → Θ) : Prop :=
  ∀ θ ω given, Fed base f rs out (leaf ω) (cur θ) given →
    ∀ r ∈ rs, Returns own sem given out (f r) (cur (new θ ω) r)

section
variable {own : Owner} {ins : Ins} {outs : List Var} {obs newToOld : Dict Var Var}
  {disc : Dict Var (List StepDesc)} {base : Nat} {order order' : List Var → List Var}
  {nuts nuts' : Dict Var Var → Dict Var Var → NutsResult} {f : Var → Var} {C : Var → Bool}

/-- The part alone, fed as in the whole. -/
theorem fed_part (hs : Setup own ins outs obs base) (hold : ∀ r ∈ outs, newToOld.get? r = some (f r))
    (hinj : ∀ a ∈ outs, ∀ b ∈ outs, f a = f b → a = b)
    (horder : ∀ l, (order l).Perm l) (hnuts : ∀ a b, (nuts a b).steps.keys = a.keys)
    (horder' : ∀ l, (order' l).Perm l) (hnuts' : ∀ a b, (nuts' a b).steps.keys = a.keys)
    {outW outA : SamplerOut}
    (hW : constructSampler own ins outs obs newToOld disc base order nuts = some outW)
    (hA : constructSampler own ins (outs.filter C) (obs.filter fun p => C p.1) newToOld disc base order' nuts' =
      some outA) {Val : Type} {leaf : Var → Option Val} {cur curA : Var → Val} {given : Var → Option Val}
    (hcur : ∀ r, C r = true → curA r = cur r) (hF : Fed base f (unobs outs obs) outW leaf cur given) :
    ∃ gA, Fed base f ((unobs outs obs).filter C) outA leaf curA gA ∧
      Agree base f ((unobs outs obs).filter C) outW outA given gA := by
  have hsA := hs.part C
  obtain ⟨o, ho, -, hiW, -⟩ := built (disc := disc) hs hold hinj horder hnuts
  obtain rfl : outW = o := Option.some.inj (hW.symm.trans ho)
  obtain ⟨o', ho', -, hiA, -⟩ := built (disc := disc) hsA
    (fun r hr => hold r (List.mem_filter.1 hr).1)
    (fun a ha b hb => hinj a (List.mem_filter.1 ha).1 b (List.mem_filter.1 hb).1) horder' hnuts'
  obtain rfl : outA = o' := Option.some.inj (hA.symm.trans ho')
  rw [unobs_filter] at hiA
  have hget : ∀ r ∈ (unobs outs obs).filter C, ∀ v, outA.inits.get? (f r) = some v →
      (if v < base then leaf v else ((((unobs outs obs).filter C)[v - base]?).map curA)) = some (curA r) := by
    intro r hr v hv
    rw [hiA r hr] at hv
    cases hv
    rw [if_neg (Nat.not_lt.2 (Nat.le_add_right _ _)), Nat.add_sub_cancel_left,
      List.getElem?_eq_getElem (List.idxOf_lt_length_of_mem hr), List.getElem_idxOf]
    rfl
  refine ⟨fun v => if v < base then leaf v else ((((unobs outs obs).filter C)[v - base]?).map curA),
    ⟨fun y hy => if_pos hy, hget⟩, fun y hy => (hF.1 y hy).trans (if_pos hy).symm, fun r hr v v' hv hv' => ?_⟩
  obtain ⟨hr1, hr2⟩ := List.mem_filter.1 hr
  rw [hF.2 r hr1 v hv, ← hcur r hr2]
  exact (hget r hr v' hv').symm

theorem apart_compl (h : Apart own ins outs obs disc C) : Apart own ins outs obs disc fun r => !C r :=
  fun r hr sd hc o ho u hu hm => congrArg (!·) (h r hr sd hc o ho u hu hm)

/-- **C71.** A model with two parts, all of whose unobserved variables have closed-form steps.  If the samplers built for the two parts
alone move their states with the random numbers `ωA` and `ωB`, each whatever those of the other part are, the sampler built for the whole
model moves the pair of states in the same way.  With independent random numbers the calls of the whole sampler then keep the
joint posterior given all data iff the calls of both part samplers keep the posteriors of the parts given their data, and converge to it iff
both converge. -/
theorem C71_joint (hs : Setup own ins outs obs base) (hu : Unused ins outs obs disc base)
    (hold : ∀ r ∈ outs, newToOld.get? r = some (f r))
    (hinj : ∀ a ∈ outs, ∀ b ∈ outs, f a = f b → a = b)
    (horder : ∀ l, (order l).Perm l) (hnuts : ∀ a b, (nuts a b).steps.keys = a.keys)
    (hsep : Apart own ins outs obs disc C) (hall : ∀ r ∈ unobs outs obs, (chosen disc obs r).isSome) :
    ∃ outW outA outB, constructSampler own ins outs obs newToOld disc base order nuts = some outW ∧
      constructSampler own ins (outs.filter C) (obs.filter fun p => C p.1) newToOld disc base order nuts =
        some outA ∧
      constructSampler own ins (outs.filter fun r => !C r) (obs.filter fun p => !C p.1) newToOld disc base order
        nuts = some outB ∧
      ∀ (Val ΘA ΘB ΩA ΩB : Type) [MeasurableSpace ΘA] [MeasurableSpace ΘB] [MeasurableSpace ΩA]
        [MeasurableSpace ΩB] (sem : Node → Nat → List Val → Val) (leaf : ΩA → ΩB → Var → Option Val)
        (curA : ΘA → Var → Val) (curB : ΘB → Var → Val) (newA : ΘA → ΩA → ΘA) (newB : ΘB → ΩB → ΘB),
        (∀ ωB, Moves own sem base f ((unobs outs obs).filter C) outA (fun ωA => leaf ωA ωB) curA newA) →
        (∀ ωA, Moves own sem base f ((unobs outs obs).filter fun r => !C r) outB (leaf ωA) curB newB) →
        Moves own sem base f (unobs outs obs) outW (fun ω : ΩA × ΩB => leaf ω.1 ω.2)
          (fun q r => if C r then curA q.1 r else curB q.2 r) (fun q ω => (newA q.1 ω.1, newB q.2 ω.2)) ∧
        ∀ (PA : Measure ΩA) (PB : Measure ΩB) [IsProbabilityMeasure PA] [IsProbabilityMeasure PB],
          Measurable (Function.uncurry newA) → Measurable (Function.uncurry newB) →
          ∀ (priorA : Measure ΘA) (priorB : Measure ΘB) [IsProbabilityMeasure priorA] [IsProbabilityMeasure priorB]
            (likA : ΘA → ℝ≥0∞) (likB : ΘB → ℝ≥0∞), Measurable likA → Measurable likB →
          BayesDefined priorA likA → BayesDefined priorB likB →
          (Stationary (bayes (priorA.prod priorB) fun q => likA q.1 * likB q.2)
              (fun q => (PA.prod PB).map fun ω => (newA q.1 ω.1, newB q.2 ω.2)) ↔
            Stationary (bayes priorA likA) (fun θ => PA.map (newA θ)) ∧
            Stationary (bayes priorB likB) (fun θ => PB.map (newB θ))) ∧
          ∀ (DA : Set ΘA) (DB : Set ΘB), DA.Nonempty → DB.Nonempty →
            (ConvergesFrom (DA ×ˢ DB) (bayes (priorA.prod priorB) fun q => likA q.1 * likB q.2)
                (fun q => (PA.prod PB).map fun ω => (newA q.1 ω.1, newB q.2 ω.2)) ↔
              ConvergesFrom DA (bayes priorA likA) (fun θ => PA.map (newA θ)) ∧
              ConvergesFrom DB (bayes priorB likB) (fun θ => PB.map (newB θ))) := by
  obtain ⟨outW, outA, hW, hA, H⟩ := C70_part hs hu hold hinj horder hnuts horder hnuts hsep
  obtain ⟨outW', outB, hW', hB, H'⟩ := C70_part hs hu hold hinj horder hnuts horder hnuts (apart_compl hsep)
  obtain rfl : outW = outW' := Option.some.inj (hW.symm.trans hW')
  refine ⟨outW, outA, outB, hW, hA, hB, ?_⟩
  intro Val ΘA ΘB ΩA ΩB _ _ _ _ sem leaf curA curB newA newB hMA hMB
  constructor
  · intro q ω given hF r hr
    have hr1 := (mem_unobs.1 hr).1
    cases hC : C r with
    | true =>
      obtain ⟨gA, hFA, hAg⟩ := fed_part hs hold hinj horder hnuts horder hnuts hW hA (curA := curA q.1)
        (fun r hr => by simp [hr]) hF
      have := hMA ω.2 q.1 ω.1 gA hFA r (List.mem_filter.2 ⟨hr, hC⟩)
      have := (H r hr1 hC (hall r hr) Val sem given gA hAg _).2 this
      simpa [hC] using this
    | false =>
      obtain ⟨gB, hFB, hAg⟩ := fed_part hs hold hinj horder hnuts horder hnuts hW hB (curA := curB q.2)
        (fun r hr => by
          have : C r = false := by simpa using hr
          simp [this]) hF
      have := hMB ω.1 q.2 ω.2 gB hFB r (List.mem_filter.2 ⟨hr, by simp [hC]⟩)
      have := (H' r hr1 (by simp [hC]) (hall r hr) Val sem given gB hAg _).2 this
      simpa [hC] using this
  · intro PA PB _ _ mA mB priorA priorB _ _ likA likB mlA mlB dA dB
    have hKA : Measurable fun θ => PA.map (newA θ) :=
      measurable_map_param (K := fun _ : ΘA => PA) measurable_const (fun _ => inferInstance) mA
    have hKB : Measurable fun θ => PB.map (newB θ) :=
      measurable_map_param (K := fun _ : ΘB => PB) measurable_const (fun _ => inferInstance) mB
    have mA' : ∀ θ, Measurable (newA θ) := fun θ => mA.comp measurable_prodMk_left
    have mB' : ∀ θ, Measurable (newB θ) := fun θ => mB.comp measurable_prodMk_left
    have hpA : ∀ θ, IsProbabilityMeasure (PA.map (newA θ)) := fun θ =>
      Measure.isProbabilityMeasure_map (mA' θ).aemeasurable
    have hpB : ∀ θ, IsProbabilityMeasure (PB.map (newB θ)) := fun θ =>
      Measure.isProbabilityMeasure_map (mB' θ).aemeasurable
    have hpair : (fun q : ΘA × ΘB => (PA.prod PB).map fun ω => (newA q.1 ω.1, newB q.2 ω.2)) =
        pairStep (fun θ => PA.map (newA θ)) (fun θ => PB.map (newB θ)) := by
      funext q
      exact (Measure.map_prod_map PA PB (mA' q.1) (mB' q.2)).symm
    have : IsProbabilityMeasure (bayes priorA likA) := isProbabilityMeasure_bayes dA
    have : IsProbabilityMeasure (bayes priorB likB) := isProbabilityMeasure_bayes dB
    rw [hpair, bayes_prod mlA mlB dA dB]
    exact ⟨stationary_pairStep hKA hKB hpA hpB _ _, fun DA DB hDA hDB =>
      converges_pairStep hKA hKB hpA hpB _ _ hDA hDB⟩

end

end Verif.Parts
