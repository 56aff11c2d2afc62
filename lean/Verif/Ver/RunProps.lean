import Verif.Ver.RunEnds

/-!
# C88: the version whatever happens to the calls of git
-/

namespace Verif.Ver

theorem piecesOf_isUntagged {describe full : Str} (tagPrefix : Str) (branch : Option Str)
    (h : isUntagged describe = true) : piecesOf tagPrefix describe full branch [] = .valueError := by
  unfold isUntagged at h
  unfold piecesOf
  simp only [Bool.not_eq_true'] at h
  simp only [h]
  rfl

theorem isUntagged_tagged {tag : Str} (hnl : '\n' ∉ tag) (distance : Nat) {hash : Str} (hh : IsHash hash)
    (dirty : Bool) : isUntagged (strip (describeText ('v' :: tag) distance hash dirty)) = false := by
  by_contra h
  rw [Bool.not_eq_false, strip_trim (trim_tagged tag distance hh dirty)] at h
  have h0 := piecesOf_isUntagged (full := []) ['v'] none h
  rw [show describeText ('v' :: tag) distance hash dirty = describeText (['v'] ++ tag) distance hash dirty
    from rfl, C52_parse_tagged ['v'] tag (by simp) (by simpa using hnl) distance hh] at h0
  cases h0

/-- What git says about the branch, in the calls. -/
theorem branchSaid_run {m : Machine} {root : Str} (h : BranchSaid m root) :
    ∃ b, m.run config.tagPrefix root .abbrevRef = .ok (some b, some 0) ∧ Trim b ∧
      (b = ['H', 'E', 'A', 'D'] → ∃ t, m.run config.tagPrefix root .contains = .ok (some t, some 0)) := by
  obtain ⟨b, hb, ht, hc⟩ := h
  refine ⟨b, run_says m root .abbrevRef hb ht, ht, fun e => ?_⟩
  obtain ⟨t, ht⟩ := hc e
  exact run_says_some m root .contains ht

theorem run_cases (m : Machine) (root : Str) (c : GitCall) :
    Answered (m.run config.tagPrefix root c) ∨ m.run config.tagPrefix root c = .error .unicodeDecodeError :=
  runCommand_cases _ _

/-- When git describes the tree, the lookup is that of the outputs. -/
theorem describes_run {m : Machine} {dirs : List Str} (hn : ∀ d ∈ dirs, IsName d) {gitDir describe full : Str}
    (hd : GitSays m (dirText dirs) askDir gitDir)
    (hs : GitSays m (dirText dirs) (askDescribe m.windows) describe) (hts : Trim describe)
    (hf : GitSays m (dirText dirs) askRevision full) (htf : Trim full) (hb : BranchSaid m (dirText dirs))
    (hc : isUntagged (strip describe) = true → ∃ r, m.run config.tagPrefix (dirText dirs) .count = .ok r)
    (hdate : ∃ r, m.run config.tagPrefix (dirText dirs) .date = .ok r) :
    GitDescribes (outOf (silence (m.run config.tagPrefix (dirText dirs)))) describe full ∧
    getVersionsOn m config rawKeywords (some (versionFile dirs)) =
      getVersions config rawKeywords (some (versionFile dirs))
        (fun _ => outOf (silence (m.run config.tagPrefix (dirText dirs)))) := by
  obtain ⟨a, h1⟩ := run_says_some m _ .gitDir hd
  have h2 := run_says m _ .describe hs hts
  have h3 := run_says m _ .full hf htf
  obtain ⟨b, h4, htb, h5⟩ := branchSaid_run hb
  refine ⟨⟨?_, ?_, ?_, htf, b, ?_, htb, ?_⟩, getVersionsOn_eq hn ?_ _⟩
  · simp [outOf, silence_ok h1, okOut]
  · simp [outOf, silence_ok h2, okOut]
  · simp [outOf, silence_ok h3, okOut]
  · simp [outOf, silence_ok h4, okOut]
  · intro e
    obtain ⟨t, ht⟩ := h5 e
    simp [outOf, silence_ok ht, okOut]
  · rw [versionsFromRun_silence h1 h2 h3 h4 ?_ hc hdate,
      versionsFromRun_eq (silence_answered (run_cases m _))]
    intro e
    rw [strip_trim htb] at e
    obtain ⟨t, ht⟩ := h5 e
    exact ⟨_, ht⟩

/-- C88.  A tree that git describes by a tag: whichever of the commands git is installed as on the platform,
and whatever blanks and line ends it prints around its answers, the version, revision, flag and date are
those printed.  Git need not be able to count the commits.  Missing for the full property: the import
raises if git cannot print the date, and if an answer is not UTF-8 (`C88_unreadable_violated`). -/
theorem C88_tagged_partial (m : Machine) {dirs : List Str} (hn : ∀ d ∈ dirs, IsName d) {gitDir tag : Str}
    (hd : GitSays m (dirText dirs) askDir gitDir) (hne : tag ≠ []) (hnl : '\n' ∉ tag) (distance : Nat)
    {hash : Str} (hh : IsHash hash) (dirty : Bool)
    (hs : GitSays m (dirText dirs) (askDescribe m.windows) (describeText ('v' :: tag) distance hash dirty))
    {full : Str} (hf : GitSays m (dirText dirs) askRevision full) (htf : Trim full)
    (hb : BranchSaid m (dirText dirs)) :
    (∀ signature day time zone, Word day → Word time → Word zone → Trim (ciText signature day time zone) →
      GitSays m (dirText dirs) askDate (ciText signature day time zone) →
      getVersionsOn m config rawKeywords (some (versionFile dirs)) =
        .ok { version := taggedVersion tag distance hash dirty, fullRevisionid := some full,
              dirty := some dirty, error := false, date := some (isoText day time zone) }) ∧
    (GitRefuses m (dirText dirs) askDate →
      getVersionsOn m config rawKeywords (some (versionFile dirs)) = .error .attributeError) := by
  have hts := trim_tagged tag distance hh dirty
  have hc : isUntagged (strip (describeText ('v' :: tag) distance hash dirty)) = true →
      ∃ r, m.run config.tagPrefix (dirText dirs) .count = .ok r := by
    rw [isUntagged_tagged hnl distance hh dirty]
    exact fun h => nomatch h
  constructor
  · intro signature day time zone w1 w2 w3 ht hdate
    have h7 := run_says m _ .date hdate ht
    obtain ⟨hg, e⟩ := describes_run hn hd hs hts hf htf hb hc ⟨_, h7⟩
    rw [e]
    exact (C63_tagged_partial hn (fun _ => _) hne hnl distance hh dirty hg).1 signature day time zone w1 w2 w3
      (by simp [outOf, silence_ok h7, okOut])
  · intro hdate
    obtain ⟨rc, -, h7⟩ := run_refuses m _ .date hdate
    obtain ⟨hg, e⟩ := describes_run hn hd hs hts hf htf hb hc ⟨_, h7⟩
    rw [e]
    exact ((C63_tagged_partial hn (fun _ => _) hne hnl distance hh dirty hg).2 _).2
      (.inl ⟨by simp [outOf, silence_ok h7, okOut], rfl⟩)

theorem trim_digits (n : Nat) : Trim (Nat.toDigits 10 n) := by
  have h : ∀ c ∈ Nat.toDigits 10 n, ¬ White c := by
    intro c hc
    have := Nat.isDigit_of_mem_toDigits (by norm_num) (by norm_num) hc
    simp only [Char.isDigit, ge_iff_le, Bool.and_eq_true, decide_eq_true_eq, UInt32.le_iff_toNat_le] at this
    unfold White
    have e : c.toNat = c.val.toNat := rfl
    have e0 : '0'.toNat = 48 := rfl
    have e9 : '9'.toNat = 57 := rfl
    norm_num at this
    omega
  exact Word.trim ⟨Nat.toDigits_ne_nil, h⟩

/-- C88.  A tree that git describes without a tag: the version has the number of commits git prints, and the
import raises if git cannot count them or print the date. -/
theorem C88_untagged_partial (m : Machine) {dirs : List Str} (hn : ∀ d ∈ dirs, IsName d) {gitDir : Str}
    (hd : GitSays m (dirText dirs) askDir gitDir) {hash : Str} (hh : IsHash hash) (dirty : Bool)
    (hs : GitSays m (dirText dirs) (askDescribe m.windows) (describeUntagged hash dirty))
    {full : Str} (hf : GitSays m (dirText dirs) askRevision full) (htf : Trim full)
    (hb : BranchSaid m (dirText dirs)) :
    (∀ n, GitSays m (dirText dirs) askCount (Nat.toDigits 10 n) →
      (∀ signature day time zone, Word day → Word time → Word zone → Trim (ciText signature day time zone) →
        GitSays m (dirText dirs) askDate (ciText signature day time zone) →
        getVersionsOn m config rawKeywords (some (versionFile dirs)) =
          .ok { version := untaggedVersion n full dirty, fullRevisionid := some full,
                dirty := some dirty, error := false, date := some (isoText day time zone) }) ∧
      (GitRefuses m (dirText dirs) askDate →
        getVersionsOn m config rawKeywords (some (versionFile dirs)) = .error .attributeError)) ∧
    (GitRefuses m (dirText dirs) askCount →
      getVersionsOn m config rawKeywords (some (versionFile dirs)) = .error .typeError) := by
  have hts := trim_untagged hh dirty
  refine ⟨fun n hcount => ?_, fun hcount => ?_⟩
  · have h6 := run_says m _ .count hcount (trim_digits n)
    have e6 : (outOf (silence (m.run config.tagPrefix (dirText dirs)))).count = some (Nat.toDigits 10 n) := by
      simp [outOf, silence_ok h6, okOut]
    constructor
    · intro signature day time zone w1 w2 w3 ht hdate
      have h7 := run_says m _ .date hdate ht
      obtain ⟨hg, e⟩ := describes_run hn hd hs hts hf htf hb (fun _ => ⟨_, h6⟩) ⟨_, h7⟩
      rw [e]
      exact (C63_untagged_partial hn (fun _ => _) hh dirty hg (.inr ⟨n, e6⟩)).1 n signature day time zone e6
        w1 w2 w3 (by simp [outOf, silence_ok h7, okOut])
    · intro hdate
      obtain ⟨rc, -, h7⟩ := run_refuses m _ .date hdate
      obtain ⟨hg, e⟩ := describes_run hn hd hs hts hf htf hb (fun _ => ⟨_, h6⟩) ⟨_, h7⟩
      rw [e]
      refine ((C63_untagged_partial hn (fun _ => _) hh dirty hg (.inr ⟨n, e6⟩)).2 _).2 (.inr ⟨?_, .inl ⟨?_, rfl⟩⟩)
      · rw [e6]; simp
      · simp [outOf, silence_ok h7, okOut]
  · obtain ⟨rc, -, h6⟩ := run_refuses m _ .count hcount
    obtain ⟨a, h1⟩ := run_says_some m _ .gitDir hd
    have h2 := run_says m _ .describe hs hts
    have h3 := run_says m _ .full hf htf
    obtain ⟨b, h4, htb, h5⟩ := branchSaid_run hb
    obtain ⟨br, hbr⟩ : ∃ br, branchRun (m.run config.tagPrefix (dirText dirs)) = .ok br := by
      unfold branchRun
      rw [h4]
      simp only [bind, Except.bind, strip_trim htb]
      by_cases e : b = "HEAD".toList
      · obtain ⟨t, ht⟩ := h5 e
        rw [if_pos e, ht]
        dsimp only
        exact ⟨_, (apply_ite _ _ _ _).symm⟩
      · rw [if_neg e]; exact ⟨_, rfl⟩
    have hu : isUntagged (strip (describeUntagged hash dirty)) = true := by
      rw [strip_trim hts]
      exact piecesOf_valueError (piecesOf_untagged_none ['v'] hh dirty full none)
    have key : versionsFromRun (m.run config.tagPrefix (dirText dirs)) config.tagPrefix config.style =
        .error .typeError := by
      unfold versionsFromRun
      simp only [h1, h2, h3, h6, hbr, hu, bind, Except.bind, if_true]
    have hk : versionsFromKeywords rawKeywords config.tagPrefix = .error .notThisMethod := by decide
    unfold getVersionsOn
    dsimp only
    rw [show config.parts = 2 from rfl, rootOf_versionFile hn, key, hk]
    rfl

theorem stops_run {m : Machine} {root : Str} (h : GitStops m root) (style : Option String) :
    versionsFromRun (m.run config.tagPrefix root) config.tagPrefix style = .error .notThisMethod := by
  unfold versionsFromRun
  cases h with
  | dir h =>
    obtain ⟨rc, hrc, h⟩ := run_refuses m _ .gitDir h
    simp only [h, bind, Except.bind]
    split
    · rename_i he
      simp only [Prod.mk.injEq] at he
      exact absurd he.2 hrc
    · rfl
  | describe a h1 h =>
    obtain ⟨a, h1⟩ := run_says_some m _ .gitDir h1
    obtain ⟨rc, hrc, h⟩ := run_refuses m _ .describe h
    simp only [h, h1, bind, Except.bind]
  | revision a d h1 h2 h =>
    obtain ⟨a, h1⟩ := run_says_some m _ .gitDir h1
    obtain ⟨d, h2⟩ := run_says_some m _ .describe h2
    obtain ⟨rc, hrc, h⟩ := run_refuses m _ .full h
    simp only [h, h1, h2, bind, Except.bind]
  | branch a d f h1 h2 h3 h =>
    obtain ⟨a, h1⟩ := run_says_some m _ .gitDir h1
    obtain ⟨d, h2⟩ := run_says_some m _ .describe h2
    obtain ⟨f, h3⟩ := run_says_some m _ .full h3
    obtain ⟨rc, hrc, h⟩ := run_refuses m _ .abbrevRef h
    simp only [h, h1, h2, h3, branchRun, bind, Except.bind]
  | containing a d f h1 h2 h3 h4 h =>
    obtain ⟨a, h1⟩ := run_says_some m _ .gitDir h1
    obtain ⟨d, h2⟩ := run_says_some m _ .describe h2
    obtain ⟨f, h3⟩ := run_says_some m _ .full h3
    have h4 := run_says m _ .abbrevRef h4 (trim_of_plain (by decide))
    obtain ⟨rc, hrc, h⟩ := run_refuses m _ .contains h
    simp only [h, h1, h2, h3, h4, branchRun, bind, Except.bind, strip_head, if_true]

/-- C88.  When git is missing, cannot be started or fails in a call before the description is used, the
version is what follows the prefix in the name of the nearest of the tree's directory and the two above it
that has the prefix, and unknown if there is none.  Code without a file reports an unknown version on every
machine. -/
theorem C88_fallback (m : Machine) {dirs : List Str} (hn : ∀ d ∈ dirs, IsName d)
    (h : GitStops m (dirText dirs)) :
    (∀ near v far, dirs.reverse.take 3 = near ++ ("aemcmc-".toList ++ v) :: far →
      (∀ d ∈ near, ¬ "aemcmc-".toList <+: d) →
      getVersionsOn m config rawKeywords (some (versionFile dirs)) =
        .ok { version := v, fullRevisionid := none, dirty := some false, error := false, date := none }) ∧
    ((∀ d ∈ dirs.reverse.take 3, ¬ "aemcmc-".toList <+: d) →
      getVersionsOn m config rawKeywords (some (versionFile dirs)) =
        .ok { version := "0+unknown".toList, fullRevisionid := none, dirty := none, error := true,
              date := none }) ∧
    ∀ m' : Machine, getVersionsOn m' config rawKeywords none =
      .ok { version := "0+unknown".toList, fullRevisionid := none, dirty := none, error := true,
            date := none } := by
  have hf : GitFails noGit := .inl rfl
  have e := getVersionsOn_eq hn ((stops_run h config.style).trans (versionsFromGit_fails hf _ _).symm) rawKeywords
  have := C63_fallback_partial hn (fun _ => noGit) hf
  rw [e]
  exact ⟨this.1, this.2.1, fun _ => this.2.2⟩

/-- C88 fails when the branch has a name that is not UTF-8, for example one that ends with an accented
letter in Latin-1: git describes the tree, the version does not depend on the branch, and yet the import
raises `UnicodeDecodeError`.  It does so even if git then fails, where any other output leads to the name of
the directory. -/
theorem C88_unreadable_violated (m : Machine) {dirs : List Str} (hn : ∀ d ∈ dirs, IsName d)
    {gitDir describe full : Str} (hd : GitSays m (dirText dirs) askDir gitDir)
    (hs : GitSays m (dirText dirs) (askDescribe m.windows) describe)
    (hf : GitSays m (dirText dirs) askRevision full) {name lineEnd : List UInt8} {letter : UInt8}
    (hl : 192 ≤ letter) (he : BlankBytes lineEnd) {rc : Int}
    (hb : GitEnds m (dirText dirs) askBranch (.process (name ++ [letter] ++ lineEnd) rc)) :
    getVersionsOn m config rawKeywords (some (versionFile dirs)) = .error .unicodeDecodeError := by
  obtain ⟨a, h1⟩ := run_says_some m _ .gitDir hd
  obtain ⟨d, h2⟩ := run_says_some m _ .describe hs
  obtain ⟨f, h3⟩ := run_says_some m _ .full hf
  have h4 := run_unreadable m _ .abbrevRef hb (not_readable_latin hl he)
  have key : versionsFromRun (m.run config.tagPrefix (dirText dirs)) config.tagPrefix config.style =
      .error .unicodeDecodeError := by
    unfold versionsFromRun
    simp only [h1, h2, h3, h4, branchRun, bind, Except.bind]
  have hk : versionsFromKeywords rawKeywords config.tagPrefix = .error .notThisMethod := by decide
  unfold getVersionsOn
  dsimp only
  rw [show config.parts = 2 from rfl, rootOf_versionFile hn, key, hk]
  rfl

theorem getVersions_decodes (k : Keywords) (file : Option Str) (git : Str → GitOut) :
    getVersions config k file git ≠ .error .unicodeDecodeError := by
  have ho : ∀ {r s : Except Exc VersionInfo}, r ≠ .error .unicodeDecodeError → s ≠ .error .unicodeDecodeError →
      orElse r s ≠ .error .unicodeDecodeError := by
    intro r s h1 h2
    unfold orElse
    split
    · exact h2
    · exact h1
  have hkd : ∀ d, keywordDate d ≠ .error .unicodeDecodeError := by
    intro d
    unfold keywordDate
    split
    · simp
    · split <;> simp
  have hkw : versionsFromKeywords k config.tagPrefix ≠ .error .unicodeDecodeError := by
    unfold versionsFromKeywords
    split
    · simp
    · split
      · rename_i e he
        exact fun h => hkd _ (he.trans (by simpa using h))
      · split
        · simp
        · dsimp only
          split <;> simp
  have hpd : ∀ n root, fromParentdir config.parentdirPrefix n root ≠ .error .unicodeDecodeError := by
    intro n
    induction n with
    | zero => intro root; simp [fromParentdir]
    | succ n ih =>
      intro root
      rw [fromParentdir]
      split
      · simp
      · exact ih _
  have hgit : ∀ g, versionsFromGit g config.tagPrefix config.style ≠ .error .unicodeDecodeError := by
    intro g
    unfold versionsFromGit
    split
    · split
      · simp
      · simp
      · split <;> simp
      · split
        · simp
        · split
          · simp
          · split <;> simp
    · simp
  unfold getVersions
  refine ho hkw ?_
  split
  · simp
  · refine ho (hgit _) (ho ?_ (by simp))
    split
    · simp
    · exact hpd _ _

/-- C88.  Nothing else makes the import fail in that way: if it does, one of git's answers in the tree's
directory is not UTF-8. -/
theorem C88_unreadable_only (m : Machine) {dirs : List Str} (hn : ∀ d ∈ dirs, IsName d) (k : Keywords)
    (h : getVersionsOn m config k (some (versionFile dirs)) = .error .unicodeDecodeError) :
    ∃ args ∈ [askDir, askDescribe m.windows, askRevision, askBranch, askContaining, askCount, askDate],
      ∃ out rc, GitEnds m (dirText dirs) args (.process out rc) ∧ ¬ Readable out := by
  by_contra hno
  have hall : ∀ c, Answered (m.run config.tagPrefix (dirText dirs) c) := by
    intro c
    rcases run_cases m (dirText dirs) c with h | h
    · exact h
    exfalso
    apply hno
    obtain ⟨s, hs⟩ := ends_exists (m.start (dirText dirs) (askOf m.windows c)) (gitNames m.windows)
    refine ⟨askOf m.windows c, by cases c <;> simp [askOf], ?_⟩
    rw [run_eq m _ c hs] at h
    cases s with
    | enoent => cases h
    | osError => cases h
    | process out rc =>
      refine ⟨out, rc, hs, (decode_strip_none out).1 ?_⟩
      cases hd : decode (stripBytes out) with
      | none => rfl
      | some t =>
        simp only [resultOf, hd] at h
        split at h <;> cases h
  rw [getVersionsOn_eq hn (versionsFromRun_eq hall _ _)] at h
  exact getVersions_decodes _ _ _ h

/-! ## Cases -/

/-- A Windows machine where git is installed as `git.exe`, not `git.cmd`; it answers as listed and fails
otherwise. -/
def exMachine (answers : List (List Str × Spawn)) : Machine where
  windows := true
  start _ args command :=
    if command = "git.exe".toList then (answers.lookup args).getD (.process [] 128) else .enoent

theorem exOther (answers : List (List Str × Spawn)) (root : Str) (args : List Str) {c : Str}
    (h : c ≠ "git.exe".toList) : (exMachine answers).start root args c = .enoent := by
  unfold exMachine
  exact if_neg h

theorem exGit (answers : List (List Str × Spawn)) (root : Str) (args : List Str) :
    (exMachine answers).start root args "git.exe".toList = (answers.lookup args).getD (.process [] 128) := by
  simp only [exMachine, if_true]

theorem exEnds {answers : List (List Str × Spawn)} {args : List Str} {s : Spawn} (root : Str)
    (h : answers.lookup args = some s) (hs : s ≠ .enoent) : GitEnds (exMachine answers) root args s := by
  refine .inl ⟨["git.cmd".toList], "git.exe".toList, [], rfl, ?_, ?_, hs⟩
  · intro c hc
    rw [List.mem_singleton.1 hc]
    exact exOther answers root args (by decide)
  · rw [exGit, h]
    rfl

theorem exSays {answers : List (List Str × Spawn)} {args : List Str} {t : Str} (root : Str)
    (h : answers.lookup args = some (.process (utf8 t ++ [13, 10]) 0)) : GitSays (exMachine answers) root args t := by
  refine ⟨[], [13, 10], fun _ h => (nomatch h), fun x hx => ?_, exEnds root h (fun h => nomatch h)⟩
  simp only [List.mem_cons, List.not_mem_nil, or_false] at hx
  rcases hx with rfl | rfl <;> exact .inr (by decide)

theorem exRefuses {answers : List (List Str × Spawn)} {args : List Str} (root : Str)
    (h : answers.lookup args = none) : GitRefuses (exMachine answers) root args := by
  refine .inr (.inr ⟨[], 128, ?_, by decide, [], rfl⟩)
  refine .inl ⟨["git.cmd".toList], "git.exe".toList, [], rfl, ?_, ?_, fun h => nomatch h⟩
  · intro c hc
    rw [List.mem_singleton.1 hc]
    exact exOther answers root args (by decide)
  · rw [exGit, h]
    rfl

/-- The answers of a git that prints the text and a line end. -/
def exAnswer (t : Str) : Spawn := .process (utf8 t ++ [13, 10]) 0

/-- A directory. -/
def exDirs : List Str := ["src".toList, "aemcmc-0.0.6".toList]

theorem exDirs_name : ∀ d ∈ exDirs, IsName d := by
  intro d hd
  simp only [exDirs, List.mem_cons, List.not_mem_nil, or_false] at hd
  rcases hd with rfl | rfl <;> exact ⟨by decide, by decide⟩

/-- A tree three commits after a tag, on a branch with an accented letter in UTF-8; git cannot count. -/
def exTagged : List (List Str × Spawn) :=
  [(askDir, exAnswer ".git".toList), (askDescribe true, exAnswer "v0.1-3-gabc1234".toList),
   (askRevision, exAnswer "abc1234".toList), (askBranch, exAnswer "café".toList),
   (askDate, exAnswer "2022-11-01 10:00:00 +0100".toList)]

theorem exTagged_branch (root : Str) : BranchSaid (exMachine exTagged) root :=
  ⟨"café".toList, exSays root rfl, trim_of_plain (by decide), fun h => absurd h (by decide)⟩

/-- `C88_tagged_partial` on a Windows machine. -/
example : getVersionsOn (exMachine exTagged) config rawKeywords (some (versionFile exDirs)) =
    .ok { version := "0.1+3.gabc1234".toList, fullRevisionid := some "abc1234".toList, dirty := some false,
          error := false, date := some "2022-11-01T10:00:00+0100".toList } :=
  (C88_tagged_partial (exMachine exTagged) exDirs_name (gitDir := ".git".toList) (tag := "0.1".toList)
    (exSays _ rfl) (by decide) (by decide) 3 (hash := "abc1234".toList) exHash false (exSays _ rfl)
    (full := "abc1234".toList) (exSays _ rfl) (trim_of_plain (by decide)) (exTagged_branch _)).1 []
    "2022-11-01".toList "10:00:00".toList "+0100".toList (word_of_all (by decide) (by decide))
    (word_of_all (by decide) (by decide)) (word_of_all (by decide) (by decide)) (trim_of_plain (by decide))
    (exSays _ rfl)

/-- A modified tree without tags, not on a branch. -/
def exUntagged : List (List Str × Spawn) :=
  [(askDir, exAnswer ".git".toList), (askDescribe true, exAnswer "abc1234-dirty".toList),
   (askRevision, exAnswer "abc1234def".toList), (askBranch, exAnswer "HEAD".toList),
   (askContaining, exAnswer "* (no branch)\n  main".toList), (askCount, exAnswer "17".toList),
   (askDate, exAnswer "2022-11-01 10:00:00 +0100".toList)]

/-- `C88_untagged_partial` on a Windows machine. -/
example : getVersionsOn (exMachine exUntagged) config rawKeywords (some (versionFile exDirs)) =
    .ok { version := "0+untagged.17.gabc1234.dirty".toList, fullRevisionid := some "abc1234def".toList,
          dirty := some true, error := false, date := some "2022-11-01T10:00:00+0100".toList } :=
  ((C88_untagged_partial (exMachine exUntagged) exDirs_name (gitDir := ".git".toList) (exSays _ rfl)
    (hash := "abc1234".toList) exHash true (exSays _ rfl) (full := "abc1234def".toList) (exSays _ rfl)
    (trim_of_plain (by decide))
    ⟨"HEAD".toList, exSays _ rfl, trim_of_plain (by decide), fun _ => ⟨"* (no branch)\n  main".toList, exSays _ rfl⟩⟩).1
    17 (exSays _ rfl)).1 [] "2022-11-01".toList "10:00:00".toList "+0100".toList
    (word_of_all (by decide) (by decide)) (word_of_all (by decide) (by decide))
    (word_of_all (by decide) (by decide)) (trim_of_plain (by decide)) (exSays _ rfl)

/-- `C88_fallback` where git fails when asked for the tag. -/
example : getVersionsOn (exMachine [(askDir, exAnswer ".git".toList)]) config rawKeywords
      (some (versionFile exDirs)) =
    .ok { version := "0.0.6".toList, fullRevisionid := none, dirty := some false, error := false,
          date := none } :=
  (C88_fallback _ exDirs_name (.describe ".git".toList (exSays _ rfl) (exRefuses _ rfl))).1 [] "0.0.6".toList
    ["src".toList] (by decide) (by decide)

/-- `C88_fallback` where git is not installed. -/
example : getVersionsOn ⟨false, fun _ _ _ => .enoent⟩ config rawKeywords (some (versionFile exDirs)) =
    .ok { version := "0.0.6".toList, fullRevisionid := none, dirty := some false, error := false,
          date := none } :=
  (C88_fallback _ exDirs_name (.dir (.inl (.inr ⟨fun _ _ => rfl, rfl⟩)))).1 [] "0.0.6".toList
    ["src".toList] (by decide) (by decide)

/-- The tree of `exTagged` with the name of the branch in Latin-1. -/
def exLatin : List (List Str × Spawn) :=
  [(askDir, exAnswer ".git".toList), (askDescribe true, exAnswer "v0.1-3-gabc1234".toList),
   (askRevision, exAnswer "abc1234".toList), (askBranch, .process ([99, 97, 102] ++ [0xe9] ++ [13, 10]) 0)]

theorem exLatin_raises : getVersionsOn (exMachine exLatin) config rawKeywords (some (versionFile exDirs)) =
    .error .unicodeDecodeError :=
  C88_unreadable_violated _ exDirs_name (gitDir := ".git".toList) (describe := "v0.1-3-gabc1234".toList)
    (full := "abc1234".toList) (exSays _ rfl) (exSays _ rfl) (exSays _ rfl) (name := [99, 97, 102])
    (letter := 0xe9) (lineEnd := [13, 10]) (by decide) (by
      intro x hx
      simp only [List.mem_cons, List.not_mem_nil, or_false] at hx
      rcases hx with rfl | rfl <;> exact .inr (by decide)) (exEnds _ rfl fun h => nomatch h)

/-- `C88_unreadable_violated` and `C88_unreadable_only`. -/
example : ∃ args ∈ [askDir, askDescribe true, askRevision, askBranch, askContaining, askCount, askDate],
    ∃ out rc, GitEnds (exMachine exLatin) (dirText exDirs) args (.process out rc) ∧ ¬ Readable out :=
  C88_unreadable_only _ exDirs_name _ exLatin_raises

end Verif.Ver
