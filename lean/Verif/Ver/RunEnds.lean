import Verif.Ver.RunLemmas
import Verif.Ver.RunBytes

/-!
# From what git does to what the calls return
-/

namespace Verif.Ver

/-- What a call returns. -/
def resultOf : Spawn → Except Exc (Option Str × Option Int)
  | .enoent => .ok (none, none)
  | .osError => .ok (none, none)
  | .process stdout rc => match decode (stripBytes stdout) with
    | none => .error .unicodeDecodeError
    | some out => if rc ≠ 0 then .ok (none, some rc) else .ok (some out, some rc)

theorem runCommand_ends {start : Str → Spawn} {commands : List Str} {s : Spawn} (h : Ends start commands s) :
    runCommand start commands = resultOf s := by
  rcases h with ⟨missing, command, rest, rfl, hm, rfl, hne⟩ | ⟨hm, rfl⟩
  · induction missing with
    | nil =>
      rw [List.nil_append, runCommand]
      cases hs : start command with
      | enoent => exact absurd hs hne
      | osError => rfl
      | process out rc => rfl
    | cons c cs ih =>
      rw [List.cons_append, runCommand, hm c List.mem_cons_self]
      exact ih fun d hd => hm d (List.mem_cons_of_mem _ hd)
  · induction commands with
    | nil => rfl
    | cons c cs ih =>
      rw [runCommand, hm c List.mem_cons_self]
      exact ih fun d hd => hm d (List.mem_cons_of_mem _ hd)

/-- The arguments of each call, as the specification spells them. -/
def askOf (windows : Bool) : GitCall → List Str
  | .gitDir => askDir
  | .describe => askDescribe windows
  | .full => askRevision
  | .abbrevRef => askBranch
  | .contains => askContaining
  | .count => askCount
  | .date => askDate

theorem run_eq (m : Machine) (root : Str) (c : GitCall) {s : Spawn} (h : GitEnds m root (askOf m.windows c) s) :
    m.run config.tagPrefix root c = resultOf s := by
  have e : c.args config.tagPrefix m.any = askOf m.windows c := by
    cases c <;> try rfl
    cases hw : m.windows <;> simp [GitCall.args, askOf, askDescribe, Machine.any, hw, config]
  have e2 : m.gits = gitNames m.windows := rfl
  unfold Machine.run
  rw [e, e2]
  exact runCommand_ends h

theorem run_says (m : Machine) (root : Str) (c : GitCall) {text : Str}
    (h : GitSays m root (askOf m.windows c) text) (ht : Trim text) :
    m.run config.tagPrefix root c = .ok (some text, some 0) := by
  obtain ⟨pre, post, h1, h2, h3⟩ := h
  rw [run_eq m root c h3]
  simp only [resultOf, decode_around h1 h2 ht, ne_eq, not_true_eq_false, if_false]

theorem run_says_some (m : Machine) (root : Str) (c : GitCall) {text : Str}
    (h : GitSays m root (askOf m.windows c) text) :
    ∃ t, m.run config.tagPrefix root c = .ok (some t, some 0) := by
  obtain ⟨pre, post, h1, h2, h3⟩ := h
  rw [run_eq m root c h3]
  cases hd : decode (stripBytes (pre ++ utf8 text ++ post)) with
  | none => exact absurd (readable_around h1 h2) ((decode_strip_none _).1 hd)
  | some t => exact ⟨t, by simp only [resultOf, hd, ne_eq, not_true_eq_false, if_false]⟩

theorem run_refuses (m : Machine) (root : Str) (c : GitCall) (h : GitRefuses m root (askOf m.windows c)) :
    ∃ rc, rc ≠ some 0 ∧ m.run config.tagPrefix root c = .ok (none, rc) := by
  rcases h with h | h | ⟨out, rc, h, h0, hr⟩
  · exact ⟨none, by simp, run_eq m root c h⟩
  · exact ⟨none, by simp, run_eq m root c h⟩
  · refine ⟨some rc, by simpa using h0, ?_⟩
    rw [run_eq m root c h]
    cases hd : decode (stripBytes out) with
    | none => exact absurd hr ((decode_strip_none _).1 hd)
    | some t => simp [resultOf, hd, h0]

theorem run_unreadable (m : Machine) (root : Str) (c : GitCall) {out : List UInt8} {rc : Int}
    (h : GitEnds m root (askOf m.windows c) (.process out rc)) (hr : ¬ Readable out) :
    m.run config.tagPrefix root c = .error .unicodeDecodeError := by
  rw [run_eq m root c h]
  simp [resultOf, (decode_strip_none out).2 hr]

/-- The calls, with those that raise made to fail instead. -/
def silence (run : GitCall → Except Exc (Option Str × Option Int)) (c : GitCall) :
    Except Exc (Option Str × Option Int) :=
  match run c with
  | .ok r => .ok r
  | .error _ => .ok (none, none)

theorem silence_ok {run : GitCall → Except Exc (Option Str × Option Int)} {c : GitCall}
    {r : Option Str × Option Int} (h : run c = .ok r) : silence run c = .ok r := by
  unfold silence; rw [h]

theorem silence_answered {run : GitCall → Except Exc (Option Str × Option Int)}
    (h : ∀ c, Answered (run c) ∨ run c = .error .unicodeDecodeError) (c : GitCall) :
    Answered (silence run c) := by
  rcases h c with (⟨s, hs⟩ | ⟨rc, hrc, hs⟩) | hs
  · exact .inl ⟨s, silence_ok hs⟩
  · exact .inr ⟨rc, hrc, silence_ok hs⟩
  · exact .inr ⟨none, by simp, by unfold silence; rw [hs]⟩

/-- A call that is not reached does not matter. -/
theorem versionsFromRun_silence {run : GitCall → Except Exc (Option Str × Option Int)} {a d f b : Str}
    (h1 : run .gitDir = .ok (some a, some 0)) (h2 : run .describe = .ok (some d, some 0))
    (h3 : run .full = .ok (some f, some 0)) (h4 : run .abbrevRef = .ok (some b, some 0))
    (h5 : strip b = "HEAD".toList → ∃ r, run .contains = .ok r)
    (h6 : isUntagged (strip d) = true → ∃ r, run .count = .ok r) (h7 : ∃ r, run .date = .ok r)
    (tagPrefix : Str) (style : Option String) :
    versionsFromRun run tagPrefix style = versionsFromRun (silence run) tagPrefix style := by
  have e4 : branchRun run = branchRun (silence run) := by
    unfold branchRun
    rw [h4, silence_ok h4]
    simp only [bind, Except.bind]
    by_cases hb : strip b = "HEAD".toList
    · obtain ⟨r, hr⟩ := h5 hb
      rw [if_pos hb, if_pos hb, hr, silence_ok hr]
    · rw [if_neg hb, if_neg hb]
  have e7 : ∀ style full r, finishRun run style full r = finishRun (silence run) style full r := by
    intro style full r
    obtain ⟨x, hx⟩ := h7
    cases r <;> try rfl
    simp only [finishRun]
    rw [hx, silence_ok hx]
  unfold versionsFromRun
  rw [h1, silence_ok h1]
  simp only [bind, Except.bind]
  rw [h2, silence_ok h2]
  simp only []
  rw [h3, silence_ok h3, e4]
  simp only [e7]
  by_cases hu : isUntagged (strip d) = true
  · obtain ⟨r, hr⟩ := h6 hu
    rw [hr, silence_ok hr]
  · simp only [hu]
    rfl

theorem getVersionsOn_eq {m : Machine} {dirs : List Str} (hn : ∀ d ∈ dirs, IsName d) {g : GitOut}
    (h : versionsFromRun (m.run config.tagPrefix (dirText dirs)) config.tagPrefix config.style =
      versionsFromGit g config.tagPrefix config.style) (k : Keywords) :
    getVersionsOn m config k (some (versionFile dirs)) =
      getVersions config k (some (versionFile dirs)) (fun _ => g) := by
  unfold getVersionsOn getVersions
  dsimp only
  rw [show config.parts = 2 from rfl, rootOf_versionFile hn, h]

/-- Every call ends somehow. -/
theorem ends_exists (start : Str → Spawn) (commands : List Str) : ∃ s, Ends start commands s := by
  induction commands with
  | nil => exact ⟨.enoent, .inr ⟨by simp, rfl⟩⟩
  | cons c cs ih =>
    by_cases hc : start c = .enoent
    · obtain ⟨s, h⟩ := ih
      refine ⟨s, ?_⟩
      rcases h with ⟨missing, command, rest, rfl, hm, hs, hne⟩ | ⟨hm, rfl⟩
      · refine .inl ⟨c :: missing, command, rest, rfl, ?_, hs, hne⟩
        intro d hd
        rcases List.mem_cons.1 hd with rfl | hd
        · exact hc
        · exact hm d hd
      · refine .inr ⟨?_, rfl⟩
        intro d hd
        rcases List.mem_cons.1 hd with rfl | hd
        · exact hc
        · exact hm d hd
    · exact ⟨start c, .inl ⟨[], c, cs, rfl, by simp, rfl, hc⟩⟩

end Verif.Ver
