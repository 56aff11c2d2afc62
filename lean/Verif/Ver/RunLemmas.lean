import Verif.Ver.Run
import Verif.Ver.LookupProps

/-!
# Lemmas about `run_command` and the calls of git
-/

namespace Verif.Ver

/-- The output of a call. -/
def okOut (r : Except Exc (Option Str × Option Int)) : Option Str :=
  match r with
  | .ok (out, _) => out
  | .error _ => none

/-- The outputs of all calls. -/
def outOf (run : GitCall → Except Exc (Option Str × Option Int)) : GitOut :=
  { gitDir := okOut (run .gitDir), describe := okOut (run .describe), full := okOut (run .full),
    abbrevRef := okOut (run .abbrevRef), contains := okOut (run .contains), count := okOut (run .count),
    date := okOut (run .date) }

/-- A call that does not raise: it gives an output exactly with the return code zero. -/
def Answered (r : Except Exc (Option Str × Option Int)) : Prop :=
  (∃ s, r = .ok (some s, some 0)) ∨ ∃ rc, rc ≠ some 0 ∧ r = .ok (none, rc)

theorem runCommand_cases (start : Str → Spawn) (cmds : List Str) :
    Answered (runCommand start cmds) ∨ runCommand start cmds = .error .unicodeDecodeError := by
  induction cmds with
  | nil => exact .inl (.inr ⟨none, by simp, rfl⟩)
  | cons c cs ih =>
    rw [runCommand]
    cases start c with
    | enoent => exact ih
    | osError => exact .inl (.inr ⟨none, by simp, rfl⟩)
    | process out rc =>
      cases hd : decode (stripBytes out) with
      | none => simp [hd]
      | some s =>
        by_cases h0 : rc = 0
        · subst h0
          exact .inl (.inl ⟨s, by simp [hd]⟩)
        · exact .inl (.inr ⟨some rc, by simpa using h0, by simp [hd, h0]⟩)

theorem piecesOf_valueError {tagPrefix describe full count : Str} {branch : Option Str}
    (h : piecesOf tagPrefix describe full branch count = .valueError) : isUntagged describe = true := by
  unfold piecesOf at h
  dsimp only at h
  unfold isUntagged
  generalize (if endsWith describe "-dirty".toList then describe.take (describe.length - 6) else describe)
    = d at *
  by_cases hd : d.contains '-'
  · exfalso
    simp only [hd, if_true] at h
    cases hm : matchDescribe [] d with
    | none => simp [hm] at h
    | some r =>
      obtain ⟨t, num, hash⟩ := r
      simp only [hm] at h
      obtain ⟨-, -, h2, h3, -⟩ := matchDescribe_sound hm
      split at h
      · cases h
      · rw [pyInt_digits h2 h3] at h
        cases h
  · simpa using hd

theorem piecesOf_count {tagPrefix describe full : Str} {branch : Option Str} (c c' : Str)
    (h : isUntagged describe = false) :
    piecesOf tagPrefix describe full branch c = piecesOf tagPrefix describe full branch c' := by
  unfold isUntagged at h
  unfold piecesOf
  simp only [Bool.not_eq_false'] at h
  simp only [h, if_true]

theorem branchRun_eq {run : GitCall → Except Exc (Option Str × Option Int)}
    (h : ∀ c, Answered (run c)) : branchRun run = branchOf (outOf run) := by
  unfold branchRun branchOf
  rcases h .abbrevRef with ⟨b, hb⟩ | ⟨rc, hrc, hb⟩
  · have e : (outOf run).abbrevRef = some b := by simp [outOf, okOut, hb]
    simp only [hb, e, bind, Except.bind]
    split
    · rcases h .contains with ⟨t, ht⟩ | ⟨rc, hrc, ht⟩
      · have e' : (outOf run).contains = some t := by simp [outOf, okOut, ht]
        simp only [ht, e']
        rfl
      · have e' : (outOf run).contains = none := by simp [outOf, okOut, ht]
        simp only [ht, e']
    · rfl
  · have e : (outOf run).abbrevRef = none := by simp [outOf, okOut, hb]
    simp only [hb, e, bind, Except.bind]

/-- When no call raises, the lookup is a function of the outputs. -/
theorem versionsFromRun_eq {run : GitCall → Except Exc (Option Str × Option Int)}
    (h : ∀ c, Answered (run c)) (tagPrefix : Str) (style : Option String) :
    versionsFromRun run tagPrefix style = versionsFromGit (outOf run) tagPrefix style := by
  have eb := branchRun_eq h
  have hfin : ∀ full r, r ≠ .valueError → finishRun run style full r = (match r with
      | .unparsable | .badPrefix =>
        .ok { version := "unknown".toList, fullRevisionid := some full, dirty := none, error := true,
              date := none }
      | .valueError => .error (if (outOf run).count = none then .typeError else .valueError)
      | .ok p =>
        match (outOf run).date with
        | none => .error .attributeError
        | some date0 =>
          match isoDate (strip date0) with
          | none => .error .indexError
          | some date =>
            match renderStyle p style with
            | none => .error .valueError
            | some v =>
              .ok { version := v, fullRevisionid := some p.long, dirty := some p.dirty, error := false,
                    date := some date }) := by
    intro full r hr
    cases r with
    | unparsable => rfl
    | badPrefix => rfl
    | valueError => exact absurd rfl hr
    | ok p =>
      rcases h .date with ⟨b, hb⟩ | ⟨rc, hrc, hb⟩
      · have e : (outOf run).date = some b := by simp [outOf, okOut, hb]
        simp only [finishRun, hb, e, bind, Except.bind]
        rfl
      · have e : (outOf run).date = none := by simp [outOf, okOut, hb]
        simp only [finishRun, hb, e, bind, Except.bind]
  unfold versionsFromRun versionsFromGit
  rcases h .gitDir with ⟨a, ha⟩ | ⟨rc, hrc, ha⟩
  swap
  · have e : (outOf run).gitDir = none := by simp [outOf, okOut, ha]
    simp only [ha, e, bind, Except.bind]
    cases rc with
    | none => rfl
    | some k =>
      split
      · rename_i he
        simp only [Prod.mk.injEq, Option.some.injEq] at he
        exact absurd (by rw [he.2]) hrc
      · rfl
  have e1 : (outOf run).gitDir = some a := by simp [outOf, okOut, ha]
  simp only [ha, e1, bind, Except.bind]
  rcases h .describe with ⟨d, hd⟩ | ⟨rc, hrc, hd⟩
  swap
  · have e : (outOf run).describe = none := by simp [outOf, okOut, hd]
    simp only [hd, e]
  have e2 : (outOf run).describe = some d := by simp [outOf, okOut, hd]
  simp only [hd, e2]
  rcases h .full with ⟨f, hf⟩ | ⟨rc, hrc, hf⟩
  swap
  · have e : (outOf run).full = none := by simp [outOf, okOut, hf]
    simp only [hf, e]
  have e3 : (outOf run).full = some f := by simp [outOf, okOut, hf]
  simp only [hf, e3, eb]
  have hbr : branchOf (outOf run) = .error .notThisMethod ∨ ∃ b, branchOf (outOf run) = .ok b := by
    unfold branchOf
    split
    · exact .inl rfl
    · split
      · split
        · exact .inl rfl
        · dsimp only
          refine .inr ?_
          split
          · split <;> split <;> exact ⟨_, rfl⟩
          · split <;> exact ⟨_, rfl⟩
      · exact .inr ⟨_, rfl⟩
  rcases hbr with hb | ⟨b, hb⟩
  · simp only [hb]
  simp only [hb]
  by_cases hu : isUntagged (strip d) = true
  · simp only [hu, if_true]
    rcases h .count with ⟨n, hn⟩ | ⟨rc, hrc, hn⟩
    · have e4 : (outOf run).count = some n := by simp [outOf, okOut, hn]
      simp only [hn, e4, Option.getD_some]
      by_cases hv : piecesOf tagPrefix (strip d) (strip f) b (strip n) = .valueError
      · simp only [hv, finishRun, reduceCtorEq, if_false]
      · rw [hfin _ _ hv]
        simp only [e4]
        rfl
    · have e4 : (outOf run).count = none := by simp [outOf, okOut, hn]
      have hp : piecesOf tagPrefix (strip d) (strip f) b (strip []) = .valueError := by
        unfold isUntagged at hu
        unfold piecesOf
        simp only [Bool.not_eq_true'] at hu
        simp only [hu]
        rfl
      simp only [hn, e4, Option.getD_none, hp, if_true]
  · simp only [hu]
    have hv : ∀ c, piecesOf tagPrefix (strip d) (strip f) b c ≠ .valueError := fun c hc =>
      hu (piecesOf_valueError hc)
    rw [if_neg (by simp), hfin _ _ (hv _), piecesOf_count [] (strip ((outOf run).count.getD []))
      (by simpa using hu)]
    rfl

end Verif.Ver
