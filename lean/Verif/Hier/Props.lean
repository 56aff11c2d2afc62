import Verif.Hier.Target
import Mathlib.Probability.Independence.Basic

/-!
# Hierarchical models: NUTS for the hyperparameter, a closed-form step for the latent (C68)
-/

open MeasureTheory ProbabilityTheory
open scoped ENNReal

namespace Verif.Graph

open Verif.Py

/-- Spec.  The graph of some closed-form step meets `r` before any variable that comes before `s` in scan
order. -/
def InStep (own : Owner) (ins : Ins) (outs : List Var) (obs : Dict Var Var)
    (disc : Dict Var (List StepDesc)) (s r : Var) : Prop :=
  ∃ rv ∈ outs, ∃ sd, chosen disc obs rv = some sd ∧ ∃ o ∈ sd.outs,
    Meets own (Ahead outs obs s) ins o r

section
variable {own : Owner} {ins : Ins} {outs : List Var} {obs newToOld : Dict Var Var}
  {disc : Dict Var (List StepDesc)} {base : Nat} {order : List Var → List Var}
  {nuts : Dict Var Var → Dict Var Var → NutsResult} {f : Var → Var}

theorem clean_final (hs : Setup own ins outs obs base) {s r : Var} (hsu : s ∈ unobs outs obs)
    (h : InStep own ins outs obs disc s r) :
    Clean own (loop own obs (initState ins outs obs disc base) outs).ins r s := by
  obtain ⟨rv, hrv, sd, hc, o, ho, hm⟩ := h
  obtain ⟨a, b, hk, hB⟩ := keys_split hsu
  refine clean_loop (D := ModelVar outs obs) (B := Ahead outs obs s) (disc := disc) (o := o)
    (ins₀ := ins) (a := a) (b := b) (Or.inl (mem_unobs.1 hsu).1) hB outs _ hs.outs_nodup
    (inv_init disc hs) (fun _ hr => Or.inl hr)
    (fun q hq => (initState_keys disc hs q).2 (Or.inl hq)) (fun _ _ => rfl) ?_ (Or.inl hm)
    (Or.inr ⟨rv, hrv, sd, hc, ho⟩)
  rw [← hk, initState_pss disc hs, Dict.keys, List.map_append]
  congr 1
  exact initVals_keys (hs.outs_nodup.filter _)

theorem clean_of_not_reach (hs : Setup own ins outs obs base) {s r : Var} (hsu : s ∈ outs)
    (h : ¬ Reach own ins r s) :
    Clean own (loop own obs (initState ins outs obs disc base) outs).ins r s := by
  intro w hw e
  have hi := inv_final (own := own) disc hs
  rcases hi.reach_orig hw with hc | hr
  · exact hc s (.single e) (Or.inl hsu)
  · obtain ⟨n, i, hn, hm⟩ := e
    rcases hi.reads n s hm with h0 | hc
    · exact h (hr.tail ⟨n, i, hn, h0⟩)
    · exact hc s .refl (Or.inl hsu)

/-- **C68, what is lost.** Let `s` be an unobserved variable and let the graph of a closed-form step contain
`r`, met before any variable that comes before `s` in scan order.  Then in the graph handed to NUTS
the term of `r` does not depend on `s`, directly or through other nodes, and its arguments have the
same values whatever value is tried for `s`.  This holds for every model graph, all other steps and
every iteration order. -/
theorem C68_lost (hs : Setup own ins outs obs base)
    (hold : ∀ r ∈ outs, newToOld.get? r = some (f r))
    (hinj : ∀ a ∈ outs, ∀ b ∈ outs, f a = f b → a = b) (horder : ∀ l, (order l).Perm l)
    (hnuts : ∀ a b, (nuts a b).steps.keys = a.keys) {s r : Var} (hsu : s ∈ unobs outs obs)
    (h : InStep own ins outs obs disc s r) :
    ∃ out, constructSampler own ins outs obs newToOld disc base order nuts = some out ∧
      (∀ D, ¬ DepTerm own D out.ins r s) ∧
      ∀ (Val : Type) (sem : Node → Nat → List Val → Val) (given : Var → Option Val) (ρ : Var → Val)
        (t : Val) (xs : List Val), ArgsOf own sem (ModelVar outs obs) given out.ins ρ r xs →
        ArgsOf own sem (ModelVar outs obs) given out.ins (Function.update ρ s t) r xs := by
  obtain ⟨pss, upd, out, -, -, hout, -, -, -, hins⟩ :=
    constructSampler_eq (disc := disc) hs hold hinj horder hnuts
  refine ⟨out, hout, ?_, ?_⟩
  · rw [hins]
    rintro D ⟨n, i, ho, w, hw, hr⟩
    have hc := clean_final (disc := disc) hs hsu h
    rcases hr.reach.cases_tail with e | ⟨c, hc', e⟩
    · exact hc r .refl ⟨n, i, ho, e ▸ hw⟩
    · exact hc c (.head ⟨n, i, ho, hw⟩ hc') e
  · rw [hins]
    intro Val sem given ρ t xs hx
    exact hx.update (clean_final hs hsu h)

/-- **C68, with a hypothesis on the steps' graphs.** If no closed-form step's graph contains a node of
the distributions' arguments that reads a model variable, NUTS is given the model's joint density: on the graph it
reads and on the graph of the model the density is the same at all values.

Missing: the hypothesis, which fails for every conjugate step of a latent whose prior has a random
parameter (`C68_lost`). -/
theorem C68_target_partial (hs : Setup own ins outs obs base)
    (hold : ∀ r ∈ outs, newToOld.get? r = some (f r))
    (hinj : ∀ a ∈ outs, ∀ b ∈ outs, f a = f b → a = b) (horder : ∀ l, (order l).Perm l)
    (hnuts : ∀ a b, (nuts a b).steps.keys = a.keys)
    (hfree : ∀ rv ∈ outs, ∀ sd, chosen disc obs rv = some sd → ∀ n, NodeIn own ins sd.outs n →
      (∃ r ∈ outs, ∃ m i, own r = some (m, i) ∧
        (m = n ∨ ∃ w ∈ ins m, NodeCut own (ModelVar outs obs) ins w n)) →
      ∀ w ∈ ins n, ¬ ModelVar outs obs w) :
    ∃ out, constructSampler own ins outs obs newToOld disc base order nuts = some out ∧
      ∀ (Val : Type) (sem : Node → Nat → List Val → Val) (given : Var → Option Val) (ρ : Var → Val)
        (dens : Var → List Val → Val → ℝ≥0∞) (d : ℝ≥0∞),
        JointDens own sem (ModelVar outs obs) given dens ins outs ρ d →
        JointDens own sem (ModelVar outs obs) given dens out.ins outs ρ d := by
  obtain ⟨pss, upd, out, -, -, hout, -, -, -, hins⟩ :=
    constructSampler_eq (disc := disc) hs hold hinj horder hnuts
  refine ⟨out, hout, ?_⟩
  rw [hins]
  have hch := final_changed (own := own) disc hs
  generalize (loop own obs (initState ins outs obs disc base) outs).ins = ins' at hch
  have hkeep : ∀ n, (∃ r ∈ outs, ∃ m i, own r = some (m, i) ∧
      (m = n ∨ ∃ w ∈ ins m, NodeCut own (ModelVar outs obs) ins w n)) → ins' n = ins n := by
    intro n hn
    by_contra hne
    obtain ⟨sd, hsd, hin, w, hw, hD⟩ := hch n hne
    obtain ⟨rv, hrv, hc⟩ := List.mem_filterMap.1 hsd
    exact hfree rv hrv sd hc n hin hn w hw hD
  rintro Val sem given ρ dens d ⟨xs, hx, rfl⟩
  refine ⟨xs, fun r hr => ?_, rfl⟩
  obtain ⟨n, i, ho, he⟩ := hx r hr
  refine ⟨n, i, ho, ?_⟩
  rw [hkeep n ⟨r, hr, n, i, ho, Or.inl rfl⟩]
  exact he.congr_cut fun w hw m hm => hkeep m ⟨r, hr, n, i, ho, Or.inr ⟨w, hw, hm⟩⟩

/-- Spec.  What NUTS does with the graph it is given, for a single variable `s`.  `gN d t z` is the value it returns
for the density `d`, the current value `t` and the random numbers `z`.  When the values `ρ` are those
of the initial value of `s`, of the steps and of the observations, the variable it returns has
the value `gN d (ρ s) z` for `d` the joint density read off the final graph as a function of `s`. -/
def NutsFor {Val Ξ : Type} (own : Owner) (sem : Node → Nat → List Val → Val) (outs : List Var)
    (obs : Dict Var Var) (nuts : Dict Var Var → Dict Var Var → NutsResult) (f : Var → Var) (s : Var)
    (dens : Var → List Val → Val → ℝ≥0∞) (gN : (Val → ℝ≥0∞) → Val → Ξ → Val)
    (given : Var → Option Val) (z : Ξ) (out : SamplerOut) : Prop :=
  ∀ ts re, (∀ r, r ∈ ts.keys ↔ r = s) → ts.get? s = out.inits.get? (f s) →
    (∀ r ∈ outs, r ∉ obs.keys → r ≠ s → re.get? r = out.steps.get? (f r)) →
    (∀ r ∈ obs.keys, re.get? r = obs.get? r) →
    ∀ ρ : Var → Val, (∀ r v, ts.get? r = some v ∨ re.get? r = some v →
      Ev own sem given out.ins v (ρ r)) →
    ∀ d : Val → ℝ≥0∞, (∀ t, JointDens own sem (ModelVar outs obs) given dens out.ins outs
      (Function.update ρ s t) (d t)) →
    ∀ v, (nuts ts re).steps.get? s = some v → Ev own sem given out.ins v (gN d (ρ s) z)

/-- **C68, the value.** Let `s` be the only variable left to NUTS, with a prior that does not depend on
other variables, and let every other variable either not depend on `s` or be met in the graph of a closed-form step
(before any variable that comes before `s` in scan order).  Suppose that NUTS gives the same value
for proportional densities.  Then the new value of `s` is the one NUTS computes for the *prior* density of
`s`: it is a function of the current value of `s` and of NUTS' own random numbers, whatever the observations and
the values of the other variables.  `Verif.Hier.Meaning.calls_iff` applies it to a beta-binomial model. -/
theorem C68_nuts_prior {Val Ξ : Type} {sem : Node → Nat → List Val → Val}
    {dens : Var → List Val → Val → ℝ≥0∞} {gN : (Val → ℝ≥0∞) → Val → Ξ → Val} {s : Var}
    (hs : Setup own ins outs obs base) (hold : ∀ r ∈ outs, newToOld.get? r = some (f r))
    (hinj : ∀ a ∈ outs, ∀ b ∈ outs, f a = f b → a = b) (horder : ∀ l, (order l).Perm l)
    (hnuts : ∀ a b, (nuts a b).steps.keys = a.keys)
    (hone : ∀ r, NoSampler disc outs obs r ↔ r = s)
    (hroot : ∀ n i, own s = some (n, i) → ∀ w ∈ ins n, Closed own (ModelVar outs obs) ins w)
    (hlost : ∀ r ∈ outs, r ≠ s → ¬ Reach own ins r s ∨ InStep own ins outs obs disc s r)
    (hscale : ∀ (c : ℝ≥0∞) (d : Val → ℝ≥0∞), c ≠ 0 → c ≠ ∞ → gN (fun t => c * d t) = gN d) :
    ∃ out, constructSampler own ins outs obs newToOld disc base order nuts = some out ∧
      ∀ (given : Var → Option Val) (z : Ξ) (ρ : Var → Val) (xs : List Val),
        NutsFor own sem outs obs nuts f s dens gN given z out →
        -- `ρ`: the current value of `s`, the new values of the others, the observations
        (∀ p ∈ initVals base (unobs outs obs), p.1 = s → given p.2 = some (ρ s)) →
        (∀ r ∈ outs, r ∉ obs.keys → r ≠ s → ∀ v, out.steps.get? (f r) = some v →
          Ev own sem given out.ins v (ρ r)) →
        (∀ r v, obs.get? r = some v → Ev own sem given out.ins v (ρ r)) →
        -- the terms of the density have values, positive ones for the others
        ArgsOf own sem (ModelVar outs obs) given ins ρ s xs →
        (∀ r ∈ outs, r ≠ s → ∃ ys,
          ArgsOf own sem (ModelVar outs obs) given out.ins ρ r ys ∧ dens r ys (ρ r) ≠ 0 ∧
          dens r ys (ρ r) ≠ ∞) →
        ∃ v, out.steps.get? (f s) = some v ∧
          Ev own sem given out.ins v (gN (dens s xs) (ρ s) z) := by
  have hsS : NoSampler disc outs obs s := (hone s).2 rfl
  have hsn := noSampler_iff.1 hsS
  have hsu : s ∈ unobs outs obs := mem_unobs.2 ⟨hsn.1, hsn.2.1⟩
  obtain ⟨out, ts, re, hout, -, h3, h4, h5, h6, h7, h8⟩ :=
    C06_nuts (disc := disc) hs hold hinj horder hnuts ⟨s, hsS⟩
  obtain ⟨pss, upd, out', -, -, hout', -, hinits, -, hins⟩ :=
    constructSampler_eq (disc := disc) hs hold hinj horder hnuts
  rw [hout] at hout'
  cases hout'
  refine ⟨out, hout, fun given z ρ xs hN hcur hstep hobs hxs hterms => ?_⟩
  have hclean : ∀ r ∈ outs, r ≠ s → Clean own out.ins r s := by
    intro r hr hne
    rw [hins]
    rcases hlost r hr hne with h | h
    · exact clean_of_not_reach hs hsn.1 h
    · exact clean_final hs hsu h
  -- the arguments of the prior of `s`
  have hself : ∀ t, ArgsOf own sem (ModelVar outs obs) given out.ins (Function.update ρ s t) s xs := by
    intro t
    obtain ⟨n, i, ho, he⟩ := hxs
    have hcl := hroot n i ho
    have hn : out.ins n = ins n := by
      rw [hins]
      exact (inv_final (own := own) disc hs).frame n fun w hw => hcl w hw w .refl
    refine ⟨n, i, ho, ?_⟩
    rw [hn]
    have h1 := he.congr_given (given' := over (ModelVar outs obs) (Function.update ρ s t) given)
      fun v hv w hw => over_update (by
        rintro rfl
        exact hcl v hv w hw (Or.inl hsn.1))
    refine h1.congr_cut fun w hw m hm => ?_
    rw [hins]
    obtain ⟨u, j, hu, -, hown⟩ := hm
    exact (inv_final (own := own) disc hs).frame m fun y hy =>
      hcl w hw y (hu.reach.tail ⟨m, j, hown, hy⟩)
  have hself' : ArgsOf own sem (ModelVar outs obs) given out.ins ρ s xs := by
    have := hself (ρ s)
    rwa [Function.update_eq_self] at this
  have hargs : ∀ r ∈ outs, ∃ ys, ArgsOf own sem (ModelVar outs obs) given out.ins ρ r ys := by
    intro r hr
    by_cases e : r = s
    · exact ⟨xs, e ▸ hself'⟩
    · obtain ⟨ys, hy, -⟩ := hterms r hr e
      exact ⟨ys, hy⟩
  obtain ⟨c, hc0, hc, hd⟩ := JointDens.update (dens := dens) hs.outs_nodup hsn.1 hclean hself hargs
    fun r hr hne ys hy => by
      obtain ⟨ys', hy', hp⟩ := hterms r hr hne
      rw [hy.det hy']
      exact hp
  obtain ⟨v, hv⟩ := (Dict.get?_isSome_iff (nuts ts re).steps s).2 (by
    rw [hnuts, h3]
    exact hsS)
  refine ⟨v, (h8 s hsS).trans hv, ?_⟩
  have hval : ∀ r v, ts.get? r = some v ∨ re.get? r = some v → Ev own sem given out.ins v (ρ r) := by
    intro r w hr
    rcases hr with hr | hr
    · have hrs : r = s := (hone r).1 ((h3 r).1 (by
        rw [← Dict.get?_isSome_iff]
        exact ⟨w, hr⟩))
      subst hrs
      rw [h4 r hsS, hinits] at hr
      have hivk : (initVals base (unobs outs obs)).keys = unobs outs obs :=
        initVals_keys (hs.outs_nodup.filter _)
      rw [get?_map_key (fun a ha b hb e => by
        rw [hivk] at ha hb
        exact hinj a (mem_unobs.1 ha).1 b (mem_unobs.1 hb).1 e) (by rw [hivk]; exact hsu)] at hr
      exact .given (hcur _ (Dict.mem_of_get? _ _ _ hr) rfl)
    · have hk := (h5 r).1 (by
        rw [← Dict.get?_isSome_iff]
        exact ⟨w, hr⟩)
      by_cases hob : r ∈ obs.keys
      · rw [h7 r hob] at hr
        exact hobs r w hr
      · have hro : r ∈ outs := by
          rcases hk.1 with h | h
          · exact h
          · exact absurd h hob
        rw [h6 r hro hob hk.2] at hr
        exact hstep r hro hob (fun e => hk.2 (e ▸ hsS)) w hr
  have := hN ts re (fun r => (h3 r).trans (hone r)) (h4 s hsS)
    (fun r hr hro hne => h6 r hr hro fun h => hne ((hone r).1 h)) h7 ρ hval
    (fun t => c * dens s xs t) hd v hv
  rwa [hscale c _ hc0 hc] at this

end

end Verif.Graph
