import Verif.Subs.Lemmas
import Mathlib.Tactic.NormNum

/-!
# C40–C42: subsuming `DimShuffle`s, expanding them again, removing constants
-/

namespace Verif.Subs

open TExpr

/-! ## C40 -/

/-- C40.  The subsuming node denotes the same tensor as the node it replaces, for every graph, every
interpretation of variables, constants and scalar operations, and errors included. -/
theorem C40_subsume_value {e e' : TExpr} (h : subsume e = some e') (ho : Outer e) (ι : Interp) :
    eval ι e' [] = eval ι e [] :=
  eval_subsume h ho []

/-- C40.  Expanding the subsuming node, right after the rewrite, gives a node of the same value as the
original one. -/
theorem C40_roundtrip_value {e e' : TExpr} (h : subsume e = some e') (ho : Outer e) :
    ∃ e'', inline e' = some e'' ∧ (∀ f args, e = .el f args → ∃ args', e'' = .el f args') ∧
      ∀ ι, eval ι e'' [] = eval ι e [] := by
  obtain ⟨f, args, rfl, -, rfl⟩ := subsume_some h
  refine ⟨_, rfl, ?_⟩
  rw [instHoles_abstr _ (outer_body _ ho)]
  refine ⟨fun f' args' he => ?_, fun ι => eval_body⟩
  cases he
  exact ⟨_, rfl⟩

/-- C40.  Expanding a subsuming node gives the same tensor whatever its inputs have been replaced by since
(the steps substitute values for random variables before expanding). -/
theorem C40_inline_value {inner : TExpr} {args : List TExpr} (hs : Scoped args.length inner) (ι : Interp)
    {σ : List Tensor} {t : Tensor} (h : eval ι (.sub inner args) σ = some t) :
    ∃ e, inline (.sub inner args) = some e ∧ eval ι e σ = some t := by
  refine ⟨_, rfl, ?_⟩
  rw [eval] at h
  obtain ⟨ts, hts, h⟩ := Option.bind_eq_some_iff.1 h
  rw [eval_instHoles hts inner hs, h]

/-- C40.  The two passes over a whole graph: subsuming everywhere changes no value, and expanding
everywhere afterwards leaves no subsuming node and the same value. -/
theorem C40_passes_value (e : TExpr) (ho : Outer e) (ι : Interp) :
    eval ι (subsumeAll e) [] = eval ι e [] ∧ NoSub (expandAll (subsumeAll e)) ∧
      ∀ t, eval ι e [] = some t → eval ι (expandAll (subsumeAll e)) [] = some t := by
  have h1 := subsumeAll_spec ι e ho
  have h2 := expandAll_spec ι (subsumeAll e) 0 h1.1
  exact ⟨h1.2 [], h2.2.1, fun t ht => h2.2.2 [] t ((h1.2 []).trans ht)⟩

/-- `a * b.dimshuffle('x', 1, 0)` with `a` of rank three, and a constant (`/repo/tests/test_rewriting.py:95-113`). -/
def exNode : TExpr :=
  .el 0 [.var 0 3, .ds [none, some 1, some 0] (.var 1 2), .ds [none, none, none] (.const 0 0)]

example : ∃ e', subsume exNode = some e' ∧
    e' = .sub (.el 0 [.hole 0 3, .ds [none, some 0, some 1] (.hole 1 2),
      .ds [none, none, none] (.const 0 0)]) [.var 0 3, .ds [some 1, some 0] (.var 1 2)] ∧
    (∀ ι, eval ι e' [] = eval ι exNode []) ∧
    ∃ e'', inline e' = some e'' ∧ ∀ ι, eval ι e'' [] = eval ι exNode [] := by
  have ho : Outer exNode := by simp [Outer, exNode, Scoped, ScopedArgs]
  refine ⟨_, rfl, rfl, fun ι => C40_subsume_value rfl ho ι, ?_⟩
  obtain ⟨e'', h1, -, h2⟩ := C40_roundtrip_value (e := exNode) rfl ho
  exact ⟨e'', h1, h2⟩

/-- An input replaced after subsuming. -/
example (ι : Interp) {t : Tensor} (h : eval ι (.sub (.el 0 [.hole 0 2, .ds [some 0, some 1] (.hole 1 2)])
      [.var 7 2, .ds [some 1, some 0] (.var 1 2)]) [] = some t) :
    ∃ e, inline (.sub (.el 0 [.hole 0 2, .ds [some 0, some 1] (.hole 1 2)])
      [.var 7 2, .ds [some 1, some 0] (.var 1 2)]) = some e ∧ eval ι e [] = some t :=
  C40_inline_value (by simp [Scoped, ScopedArgs]) ι h

example (ι : Interp) : eval ι (subsumeAll (.el 1 [exNode])) [] = eval ι (.el 1 [exNode]) [] :=
  (C40_passes_value (.el 1 [exNode]) (by simp [Outer, exNode, Scoped, ScopedArgs]) ι).1

/-! ## C41 -/

/-- C41, for nodes none of whose inputs is a `DimShuffle` of a variable of higher rank than the node.  The
rewrite fires iff some input is left-padded; then the inputs of the result are the exposed ones without
the constants; and the rewrite does not apply to its own result. -/
theorem C41_exposes_partial {f : ℕ} {args : List TExpr} {r : ℕ} (hr : ∀ a ∈ args, a.rank = r)
    (hv : ∀ order v, TExpr.ds order v ∈ args → v.rank ≤ r) :
    ((∃ e', subsume (.el f args) = some e') ↔ ∃ a ∈ args, ∃ v rest, LeftPadded r a v rest) ∧
    ∀ e', subsume (.el f args) = some e' →
      (∃ inner news, e' = .sub inner (dropConstants news) ∧
        List.Forall₂ (Exposes r) args news) ∧
      subsume e' = none := by
  have hrank : args ≠ [] → (TExpr.el f args).rank = r := fun hne => maxRank_of_eq hr hne
  have hex := fun a (ha : a ∈ args) => exposes_subsumeInput (hr a ha)
    (fun order v h => hv order v (h ▸ ha))
  refine ⟨⟨?_, ?_⟩, ?_⟩
  · rintro ⟨e', h⟩
    obtain ⟨f', args', he, ⟨a, ha, hf⟩, -⟩ := subsume_some h
    cases he
    rw [hrank (List.ne_nil_of_mem ha)] at hf
    exact ⟨a, ha, (hex a ha).2.1 hf⟩
  · rintro ⟨a, ha, hl⟩
    refine subsume_el ⟨a, ha, ?_⟩
    rw [hrank (List.ne_nil_of_mem ha)]
    exact (hex a ha).2.2 hl
  · intro e' h
    obtain ⟨f', args', he, ⟨a, ha, hf⟩, rfl⟩ := subsume_some h
    cases he
    rw [hrank (List.ne_nil_of_mem ha)]
    have hn : removeConstants (args.map fun a => Arg.v (subsumeInput r a).1) =
        dropConstants (args.map fun a => (subsumeInput r a).1) := by
      rw [dropConstants_eq, removeConstants_eq, List.map_map]
      rfl
    refine ⟨⟨abstr (removeConstants (args.map fun a => Arg.v (subsumeInput r a).1))
      (.el f (args.map fun a => (subsumeInput r a).2.1)), args.map fun a => (subsumeInput r a).1,
      by rw [← hn], ?_⟩, rfl⟩
    · rw [List.forall₂_map_right_iff, List.forall₂_same]
      exact fun a ha => (hex a ha).1

/-- C41: nothing but an `Elemwise` node is rewritten; in particular no subsuming node. -/
theorem C41_only_elemwise_partial {e e' : TExpr} (h : subsume e = some e') :
    ∃ f args, e = .el f args := by
  obtain ⟨f, args, rfl, -⟩ := subsume_some h
  exact ⟨f, args, rfl⟩

example : ∃ e', subsume exNode = some e' :=
  (C41_exposes_partial (f := 0) (r := 3) (by simp [rank])
    (by intro order v h; simp at h; rcases h with ⟨-, rfl⟩ | ⟨-, rfl⟩ <;> simp [rank])).1.2
    ⟨.ds [none, some 1, some 0] (.var 1 2), by simp, .var 1 2, [some 1, some 0], by simp [rank], rfl⟩

example : subsume (.el 0 [.var 0 2, .ds [some 1, some 0] (.var 1 2)]) = none := by
  by_contra h
  obtain ⟨e', he⟩ := Option.ne_none_iff_exists'.1 h
  obtain ⟨a, ha, v, rest, hlt, hl⟩ := (C41_exposes_partial (f := 0) (r := 2) (by simp [rank])
    (by intro order v h; simp at h; rw [h.2]; simp [rank])).1.1 ⟨e', he⟩
  simp only [List.mem_cons, List.not_mem_nil, or_false] at ha
  rcases ha with rfl | rfl
  · cases hl
  · injection hl with _ hl
    rw [← hl] at hlt
    simp [rank] at hlt

/-- The node of `C41_drop_violated`: a matrix times `v.dimshuffle('x', 2)`, with `v` of shape
`(1, 1, n)`. -/
def dropNode : TExpr := .el 0 [.var 0 2, .ds [none, some 2] (.var 1 3)]

/-- C41 fails when a `DimShuffle` drops more dimensions than it adds: the slice bound is then negative and
the rewrite fires although no broadcast dimension was added by `Elemwise`; the node is a meaningful one.
The value is still right (C40). -/
theorem C41_drop_violated :
    (∀ v rest a, a ∈ [TExpr.var 0 2, .ds [none, some 2] (.var 1 3)] → ¬ LeftPadded 2 a v rest) ∧
    (∃ e', subsume dropNode = some e' ∧ e' = .sub (.el 0 [.hole 0 2, .ds [none, some 0] (.hole 1 1)])
      [.var 0 2, .ds [some 2] (.var 1 3)]) ∧
    ∃ (ι : Interp) (t : Tensor), eval ι dropNode [] = some t ∧ t.shape = [5, 4] := by
  refine ⟨?_, ⟨_, rfl, rfl⟩, ?_⟩
  · intro v rest a ha h
    simp only [List.mem_cons, List.not_mem_nil, or_false] at ha
    obtain ⟨hlt, hl⟩ := h
    rcases ha with rfl | rfl
    · cases hl
    · injection hl with _ hv
      rw [← hv] at hlt
      simp [rank] at hlt
  · let ι : Interp := ⟨fun i _ => if i = 0 then mkTensor [5, 4] fun _ => 2 else mkTensor [1, 1, 4] fun _ => 3,
      fun _ _ => mkTensor [] fun _ => 0, fun _ _ => 6⟩
    have hok : DsOk [none, some 2] [1, 1, 4] := by
      refine ⟨fun i h => ?_, fun i => ?_, fun i h hn => ?_⟩
      · simp at h
        subst h
        simp
      · rw [List.count_cons, List.count_cons]
        simp
        split <;> omega
      · have h3 : i < 3 := h
        rcases i with _ | _ | _ | i
        · rfl
        · rfl
        · simp at hn
        · omega
    have h1 : eval ι (.ds [none, some 2] (.var 1 3)) [] = some (mkTensor [1, 4] fun idx =>
        (mkTensor [1, 1, 4] fun _ => 3).get (dsIndex [none, some 2] 3 idx)) := by
      rw [eval, eval]
      show dsT _ (mkTensor [1, 1, 4] fun _ => 3) = _
      rw [dsT]
      exact if_pos hok
    have h2 : eval ι (.var 0 2) [] = some (mkTensor [5, 4] fun _ => 2) := by rw [eval]; rfl
    rw [dropNode]
    refine ⟨ι, ?_⟩
    simp only [eval, evalArgs] at h1 h2 ⊢
    rw [h1, h2]
    simp only [Option.bind_some, Option.map_some]
    rw [elT]
    have hex : ∃ s : List ℕ, (∀ t ∈ [mkTensor [5, 4] fun _ => (2 : ℝ), mkTensor [1, 4] fun idx =>
        (mkTensor [1, 1, 4] fun _ => 3).get (dsIndex [none, some 2] 3 idx)],
          List.Forall₂ (fun n m => n = 1 ∨ n = m) t.shape s) ∧
        ∀ k (hk : k < s.length), s[k] ≠ 1 → ∃ t ∈ [mkTensor [5, 4] fun _ => (2 : ℝ), mkTensor [1, 4]
          fun idx => (mkTensor [1, 1, 4] fun _ => 3).get (dsIndex [none, some 2] 3 idx)],
          t.shape[k]? = some s[k] := by
      refine ⟨[5, 4], ?_, fun k hk _ => ⟨mkTensor [5, 4] fun _ => 2, by simp, ?_⟩⟩
      · intro t ht
        simp only [List.mem_cons, List.not_mem_nil, or_false] at ht
        rcases ht with rfl | rfl <;> simp [mkTensor]
      · show [5, 4][k]? = _
        exact List.getElem?_eq_getElem hk
    refine ⟨_, dif_pos hex, ?_⟩
    have hs := hex.choose_spec.1 (mkTensor [5, 4] fun _ => 2) (by simp)
    show hex.choose = [5, 4]
    generalize hex.choose = s at hs
    have hs : List.Forall₂ (fun n m => n = 1 ∨ n = m) [5, 4] s := hs
    rcases s with _ | ⟨a, _ | ⟨b, _ | ⟨c, s⟩⟩⟩ <;> simp at hs
    simp [← hs.1, ← hs.2]

/-! ## C42 -/

/-- C42.  `remove_constants` keeps the non-constant variables given, in order, each as often as given, and
nothing else; applying it again changes nothing. -/
theorem C42_remove_constants (as : List Arg) :
    removeConstants as = dropConstants (givenVars as) ∧
    (removeConstants as).Sublist (givenVars as) ∧
    (∀ i r, TExpr.const i r ∉ removeConstants as) ∧
    (∀ e, (∀ i r, e ≠ .const i r) → (removeConstants as).count e = (givenVars as).count e) ∧
    removeConstants ((removeConstants as).map Arg.v) = removeConstants as := by
  have hg : ∀ es : List TExpr, givenVars (es.map Arg.v) = es := by
    intro es
    induction es with
    | nil => rfl
    | cons e es ih => rw [List.map_cons, givenVars, ih]
  refine ⟨removeConstants_given as, ?_, ?_, ?_, ?_⟩
  · rw [removeConstants_given, dropConstants_eq]
    exact List.filter_sublist
  · intro i r h
    rw [removeConstants_given, dropConstants, List.mem_filter] at h
    simp at h
  · intro e he
    rw [removeConstants_given, dropConstants]
    refine List.count_filter ?_
    simpa using he
  · rw [removeConstants_given, hg, removeConstants_given, dropConstants_eq, dropConstants_eq,
      List.filter_filter]
    simp

example (i r : ℕ) : TExpr.const i r ∉
    removeConstants [.v (.var 0 1), .raw 3, .v (.const 1 0), .v (.var 0 1)] :=
  (C42_remove_constants _).2.2.1 i r

/-- C42.  A kernel made from a graph and its inputs, constants removed, computes the graph; and if the list
mentions all variables of the graph, the kernel is a function of its arguments alone: its inner graph does
not refer to any variable. -/
theorem C42_kernel {body : TExpr} (ho : Outer body) (hns : NoSub body) (xs : List TExpr)
    (hxs : ∀ i r, HasVar i r body → TExpr.var i r ∈ xs) :
    let used := removeConstants (xs.map Arg.v)
    (∀ (ι : Interp) (ts : List Tensor), evalArgs ι used [] = some ts →
      eval ι (.sub (abstr used body) used) [] = eval ι body []) ∧
    (∀ ι κ : Interp, ι.const = κ.const → ι.op = κ.op → ∀ ts,
      eval ι (abstr used body) ts = eval κ (abstr used body) ts) := by
  intro used
  refine ⟨fun ι ts h => ?_, fun ι κ hc hop ts => ?_⟩
  · conv_lhs => rw [eval]
    rw [h]
    exact eval_abstr h body ho
  · refine eval_congr_const hc hop _ _ (noVar_abstr body hns fun i r h => ?_)
    exact mem_removeConstants.2 ⟨hxs i r h, rfl⟩

example : removeConstants [.v (.var 0 1), .raw 3, .v (.const 1 0), .v (.ds [none] (.const 1 0)), .v (.var 0 1)] =
    [.var 0 1, .ds [none] (.const 1 0), .var 0 1] := rfl

example : ∀ ι κ : Interp, ι.const = κ.const → ι.op = κ.op → ∀ ts,
    eval ι (abstr [.var 0 3, .var 1 2] exNode) ts = eval κ (abstr [.var 0 3, .var 1 2] exNode) ts :=
  (C42_kernel (body := exNode) (by simp [Outer, exNode, Scoped, ScopedArgs])
    (by simp [exNode, NoSub, NoSubArgs]) [.var 0 3, .var 1 2, .const 0 0]
    (by intro i r h; simp [exNode, HasVar, HasVarArgs] at h; rcases h with ⟨rfl, rfl⟩ | ⟨rfl, rfl⟩ <;> simp)).2

end Verif.Subs
