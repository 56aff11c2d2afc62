import Verif.Py.Dict
import Mathlib.Data.List.Dedup
import Mathlib.Tactic.NormNum

/-!
# C11: pairing random generators with their successor states

A sampling kernel is an `OpFromGraph`.  Applied to `inputs` it gets the shared variables of its inner
graph appended to its inputs, in an order chosen by the library; its outputs are the new values
followed by the update outputs.  Outputs are identified by their index.
-/

namespace Verif.Track

open Verif.Py

variable {α : Type} [DecidableEq α]

/-- The updates of the dispersion kernel (`/repo/aemcmc/gibbs.py:642-646`): the first two shared
inputs with outputs 1 and 2; an `IndexError` is `none`. -/
def gibbsUpdates (inputs shared : List α) : Option (Dict α Nat) := do
  let off := inputs.length
  let g₁ ← (inputs ++ shared)[off]?
  let g₂ ← (inputs ++ shared)[off + 1]?
  return Dict.update [] [(g₁, 1), (g₂, 2)]

/-- The updates of the NUTS kernel (`/repo/aemcmc/nuts.py:168-172`) for `nRes` new values and `nUp`
update outputs; an `IndexError` is `none`. -/
def nutsUpdates (nRes nUp : Nat) (inputs shared : List α) : Option (Dict α Nat) := do
  let updatesInput := (inputs ++ shared).drop inputs.length
  let updatesOutput := (List.range (nRes + nUp)).drop nRes
  let pairs ← updatesOutput.zipIdx.mapM fun p => (updatesInput[p.2]?).map fun g => (g, p.1)
  return Dict.update [] pairs

/-- Spec.  Update output `k + i` of the kernel is the successor state of generator `gens[i]`; the
updates are right when they map exactly the generators, each to its own successor. -/
def PairedRight (gens : List α) (k : Nat) (d : Dict α Nat) : Prop :=
  ∀ g o, d.get? g = some o ↔ ∃ i, gens[i]? = some g ∧ o = k + i

/-! ## Lemmas -/

theorem mapM_pairs (k : Nat) : ∀ (n s : Nat) (shared : List α),
    ((List.range' (k + s) n).zipIdx s).mapM (fun p => (shared[p.2]?).map fun g => (g, p.1)) =
      if s + n ≤ shared.length ∨ n = 0 then
        some (((shared.drop s).take n).zip (List.range' (k + s) n)) else none
  | 0, s, shared => by simp
  | n + 1, s, shared => by
    rw [List.range'_succ, List.zipIdx_cons, List.mapM_cons]
    by_cases h : s < shared.length
    · have ih := mapM_pairs k n (s + 1) shared
      rw [show k + (s + 1) = k + s + 1 by omega] at ih
      rw [List.getElem?_eq_getElem h, ih]
      by_cases h2 : s + (n + 1) ≤ shared.length
      · rw [if_pos (Or.inl (by omega)), if_pos (Or.inl h2)]
        have : shared.drop s = shared[s] :: shared.drop (s + 1) := List.drop_eq_getElem_cons h
        simp [this, -List.getElem_cons_drop]
      · by_cases hn : n = 0
        · omega
        · rw [if_neg (by omega), if_neg (by omega)]
          simp
    · rw [if_neg (by omega), List.getElem?_eq_none (by omega)]
      simp

theorem nutsUpdates_eq (nRes nUp : Nat) (inputs shared : List α) :
    nutsUpdates nRes nUp inputs shared =
      if nUp ≤ shared.length then
        some (Dict.update [] ((shared.take nUp).zip (List.range' nRes nUp))) else none := by
  unfold nutsUpdates
  have h1 : (inputs ++ shared).drop inputs.length = shared := by simp
  have h2 : (List.range (nRes + nUp)).drop nRes = List.range' nRes nUp := by
    rw [List.range_eq_range', List.drop_range']
    simp
  rw [h1, h2]
  have := mapM_pairs nRes nUp 0 shared
  simp only [Nat.add_zero, Nat.zero_add, List.drop_zero] at this
  simp only [Option.bind_eq_bind, Option.pure_def]
  rw [this]
  by_cases h : nUp ≤ shared.length
  · rw [if_pos (Or.inl h), if_pos h]
    rfl
  · rw [if_neg (by omega), if_neg h]
    rfl

theorem gibbsUpdates_eq (inputs shared : List α) :
    gibbsUpdates inputs shared = nutsUpdates 1 2 inputs shared := by
  rw [nutsUpdates_eq]
  unfold gibbsUpdates
  match shared with
  | [] => simp
  | [a] => simp
  | a :: b :: l =>
    have h1 : (inputs ++ a :: b :: l)[inputs.length]? = some a := by simp
    have h2 : (inputs ++ a :: b :: l)[inputs.length + 1]? = some b := by
      rw [List.getElem?_append_right (by omega)]
      simp
    simp only [h1, h2, Option.bind_eq_bind, Option.bind_some, Option.pure_def]
    simp [List.range']

theorem pairedRight_iff {gens shared : List α} {k m : Nat} (hs : shared.Nodup)
    (hm : m ≤ shared.length) :
    PairedRight gens k (Dict.update [] ((shared.take m).zip (List.range' k m))) ↔
      shared.take m = gens := by
  have hlen : (shared.take m).length = m := by simp [hm]
  have hkeys : ((shared.take m).zip (List.range' k m)).map Prod.fst = shared.take m :=
    List.map_fst_zip (by simp)
  have hnd : (((shared.take m).zip (List.range' k m)).map Prod.fst).Nodup := by
    rw [hkeys]
    exact hs.sublist (List.take_sublist _ _)
  have hget : ∀ g o, (Dict.update [] ((shared.take m).zip (List.range' k m))).get? g = some o ↔
      ∃ i, (shared.take m)[i]? = some g ∧ o = k + i := by
    intro g o
    rw [Dict.update_nil_of_nodup [] _ (by simpa using hnd), List.nil_append]
    constructor
    · intro h
      have := Dict.mem_of_get? _ _ _ h
      obtain ⟨i, hi⟩ := List.mem_iff_getElem?.1 this
      rw [List.getElem?_zip_eq_some] at hi
      refine ⟨i, hi.1, ?_⟩
      have := hi.2
      rw [List.getElem?_eq_some_iff] at this
      obtain ⟨h1, h2⟩ := this
      simpa using h2.symm
    · rintro ⟨i, hi, rfl⟩
      apply Dict.get?_of_mem _ hnd
      apply List.mem_iff_getElem?.2
      refine ⟨i, List.getElem?_zip_eq_some.2 ⟨hi, ?_⟩⟩
      have : i < m := by
        have := (List.getElem?_eq_some_iff.1 hi).1
        omega
      rw [List.getElem?_eq_getElem (by simpa using this)]
      simp
  unfold PairedRight
  simp only [hget]
  constructor
  · intro h
    apply List.ext_getElem?
    intro i
    cases h1 : (shared.take m)[i]? with
    | some g =>
      obtain ⟨j, hj, e⟩ := (h g (k + i)).1 ⟨i, h1, rfl⟩
      rw [show i = j by omega, hj]
    | none =>
      cases h2 : gens[i]? with
      | none => rfl
      | some g =>
        obtain ⟨j, hj, e⟩ := (h g (k + i)).2 ⟨i, h2, rfl⟩
        rw [show i = j by omega, hj] at h1
        cases h1
  · rintro rfl g o
    exact Iff.rfl

/-! ## C11 -/

/-- **C11, NUTS kernel, exact condition.** Whatever the order in which the library lists the kernel's
shared inputs: if there are fewer of them than updates the construction fails, and otherwise the
updates are right if and only if the shared inputs begin with the generators in the order of the
update outputs.  Missing for the full property: every other order, where the code is wrong
(`C11_stack_traversal_violated`). -/
theorem C11_nuts_iff_partial {inputs shared gens : List α} {nRes : Nat} (hs : shared.Nodup) :
    match nutsUpdates nRes gens.length inputs shared with
    | none => shared.length < gens.length
    | some d => PairedRight gens nRes d ↔ shared.take gens.length = gens := by
  rw [nutsUpdates_eq]
  by_cases h : gens.length ≤ shared.length
  · rw [if_pos h]
    exact pairedRight_iff hs h
  · rw [if_neg h]
    exact not_le.1 h

/-- **C11, dispersion kernel, exact condition.** With update outputs for the generators `gens`, the
updates are right if and only if there are exactly two generators and they are the first two shared
inputs, in order; with fewer than two shared inputs the construction fails.  Missing for the full
property: every other order. -/
theorem C11_gibbs_iff_partial {inputs shared gens : List α} (hs : shared.Nodup) :
    match gibbsUpdates inputs shared with
    | none => shared.length < 2
    | some d => PairedRight gens 1 d ↔ shared.take 2 = gens := by
  rw [gibbsUpdates_eq, nutsUpdates_eq]
  by_cases h : 2 ≤ shared.length
  · rw [if_pos h]
    exact pairedRight_iff hs h
  · rw [if_neg h]
    exact not_le.1 h

/-- The library lists the shared inputs by walking up from the outputs with a stack: the last output
is expanded first (`aesara.graph.basic.walk` with `bfs=False`, used by `graph_inputs`; library
behaviour, not part of `/repo`).  `reads` gives for each output the shared variables above it in the
order in which the walk meets them. -/
def stackOrder (reads : List (List α)) : List α := reads.reverse.flatten.reverse.dedup.reverse

/-- **C11 is violated** by that library order: as soon as a kernel has two generators, with the
last update output's own generator the first shared variable met above it, the updates of both
kernels are wrong. -/
theorem C11_stack_traversal_violated {inputs gens : List α} {reads : List (List α)} {l : List α}
    {g : α} {nRes : Nat} (hg : gens.Nodup) (h2 : 2 ≤ gens.length) (hlast : gens.getLast? = some g)
    (hreads : reads.getLast? = some (g :: l)) :
    (∀ d, nutsUpdates nRes gens.length inputs (stackOrder reads) = some d →
      ¬ PairedRight gens nRes d) ∧
    ∀ d, gibbsUpdates inputs (stackOrder reads) = some d → ¬ PairedRight gens 1 d := by
  have hnd : (stackOrder reads).Nodup := by
    unfold stackOrder
    exact List.nodup_reverse.2 (List.nodup_dedup _)
  have hhead : (stackOrder reads).head? = some g := by
    unfold stackOrder
    obtain ⟨r, rfl⟩ : ∃ r, reads = r ++ [g :: l] := by
      rw [List.getLast?_eq_some_iff] at hreads
      exact hreads
    rw [List.head?_reverse, List.reverse_append]
    simp only [List.reverse_cons, List.reverse_nil, List.nil_append, List.cons_append,
      List.flatten_cons, List.getLast?_eq_some_iff]
    have : ∀ t : List α, ∃ t', (t ++ [g]).dedup = t' ++ [g] := by
      intro t
      induction t with
      | nil => exact ⟨[], by simp⟩
      | cons a t ih =>
        obtain ⟨t', ht⟩ := ih
        rw [List.cons_append]
        by_cases ha : a ∈ t ++ [g]
        · exact ⟨t', by rw [List.dedup_cons_of_mem ha, ht]⟩
        · exact ⟨a :: t', by rw [List.dedup_cons_of_notMem ha, ht, List.cons_append]⟩
    obtain ⟨t', ht⟩ := this (r.reverse.flatten.reverse ++ l.reverse)
    exact ⟨t', by simpa [List.append_assoc] using ht⟩
  have bad : ∀ m, 0 < m → (stackOrder reads).take m ≠ gens := by
    intro m hm he
    have h0 : gens.head? = some g := by
      rw [← he, List.head?_take, if_neg (by omega), hhead]
    match gens, hg, h2, hlast, h0 with
    | a :: b :: t, hg, _, hlast, h0 =>
      rw [List.head?_cons, Option.some.injEq] at h0
      subst h0
      rw [List.nodup_cons] at hg
      rw [List.getLast?_cons_cons] at hlast
      exact hg.1 (List.mem_of_getLast? hlast)
  constructor
  · intro d hd hp
    have := C11_nuts_iff_partial (inputs := inputs) (gens := gens) (nRes := nRes) hnd
    rw [hd] at this
    exact bad _ (by omega) (this.1 hp)
  · intro d hd hp
    have := C11_gibbs_iff_partial (inputs := inputs) (gens := gens) hnd
    rw [hd] at this
    exact bad _ (by omega) (this.1 hp)

/-- The dispersion kernel: outputs `[h, rng₁', rng₂']`, `h` above both generators, each new state above
its own; the walk lists generator 8 first and the updates are swapped. -/
example : stackOrder [[7, 8], [7, 8], [8]] = [8, 7] ∧
    gibbsUpdates [0, 1, 2] [8, 7] = some [(8, 1), (7, 2)] ∧
    ¬ PairedRight [7, 8] 1 [(8, 1), (7, 2)] := by
  refine ⟨by decide, by decide, ?_⟩
  exact (C11_stack_traversal_violated (inputs := [0, 1, 2]) (reads := [[7, 8], [7, 8], [8]])
    (gens := [7, 8]) (nRes := 1) (by decide) (by decide) rfl rfl).2 _ (by decide)

/-- With one generator, or with the shared inputs in the order of the updates, the updates are
right. -/
example : PairedRight [7, 8] 1 [(7, 1), (8, 2)] := by
  have := C11_gibbs_iff_partial (inputs := [0, 1, 2]) (gens := [7, 8]) (shared := [7, 8])
    (by decide)
  rw [show gibbsUpdates [0, 1, 2] [7, 8] = some [(7, 1), (8, 2)] by decide] at this
  exact this.2 rfl

example : PairedRight [9] 3 [(9, 3)] := by
  have := C11_nuts_iff_partial (inputs := [0, 1, 2]) (gens := [9]) (shared := [9]) (nRes := 3)
    (by decide)
  rw [show nutsUpdates 3 [9].length [0, 1, 2] [9] = some [(9, 3)] by decide] at this
  exact this.2 rfl

end Verif.Track
