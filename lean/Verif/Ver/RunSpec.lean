import Verif.Ver.Run
import Verif.Ver.LookupSpec

/-!
# What is demanded of the calls of git
-/

namespace Verif.Ver

/-- Spec.  The bytes of a text in UTF-8. -/
def utf8 (text : Str) : List UInt8 := text.flatMap String.utf8EncodeChar

/-- Spec.  Blanks and line ends that a program may print around its answer. -/
def BlankBytes (b : List UInt8) : Prop := ∀ x ∈ b, x = 32 ∨ (9 ≤ x ∧ x ≤ 13)

/-- Spec.  Bytes that are UTF-8. -/
def Readable (b : List UInt8) : Prop := ∃ text, b = utf8 text

/-- Spec.  How running the first of the commands that exists ends, `enoent` if none exists. -/
def Ends (start : Str → Spawn) (commands : List Str) (s : Spawn) : Prop :=
  (∃ missing command rest, commands = missing ++ command :: rest ∧ (∀ c ∈ missing, start c = .enoent) ∧
    start command = s ∧ s ≠ .enoent) ∨ ((∀ c ∈ commands, start c = .enoent) ∧ s = .enoent)

/-- Spec.  The commands under which git may be installed: two on Windows, one elsewhere. -/
def gitNames (windows : Bool) : List Str :=
  if windows then ["git.cmd".toList, "git.exe".toList] else ["git".toList]

/-- Spec.  In the directory `root` of the machine, git with arguments `args` ends with `s`. -/
def GitEnds (m : Machine) (root : Str) (args : List Str) (s : Spawn) : Prop :=
  Ends (m.start root args) (gitNames m.windows) s

/-- Spec.  Git succeeds and prints the text, with any blanks around it. -/
def GitSays (m : Machine) (root : Str) (args : List Str) (text : Str) : Prop :=
  ∃ pre post, BlankBytes pre ∧ BlankBytes post ∧ GitEnds m root args (.process (pre ++ utf8 text ++ post) 0)

/-- Spec.  Git is missing, cannot be started, or fails, with readable output. -/
def GitRefuses (m : Machine) (root : Str) (args : List Str) : Prop :=
  GitEnds m root args .enoent ∨ GitEnds m root args .osError ∨
    ∃ out rc, GitEnds m root args (.process out rc) ∧ rc ≠ 0 ∧ Readable out

/-- Spec.  The arguments of git that ask whether the directory is in a repository. -/
def askDir : List Str := ["rev-parse".toList, "--git-dir".toList]

/-- Spec.  The arguments of git that ask for the nearest tag beginning with `v`. -/
def askDescribe (windows : Bool) : List Str :=
  ["describe".toList, "--tags".toList, "--dirty".toList, "--always".toList, "--long".toList, "--match".toList,
    if windows then "v\\*".toList else "v*".toList]

/-- Spec.  The arguments of git that ask for the revision. -/
def askRevision : List Str := ["rev-parse".toList, "HEAD".toList]

/-- Spec.  The arguments of git that ask for the branch. -/
def askBranch : List Str := ["rev-parse".toList, "--abbrev-ref".toList, "HEAD".toList]

/-- Spec.  The arguments of git that ask for the branches that contain the revision. -/
def askContaining : List Str := ["branch".toList, "--contains".toList]

/-- Spec.  The arguments of git that ask for the number of commits. -/
def askCount : List Str := ["rev-list".toList, "HEAD".toList, "--count".toList]

/-- Spec.  The arguments of git that ask for the date. -/
def askDate : List Str := ["show".toList, "-s".toList, "--format=%ci".toList, "HEAD".toList]

/-- Spec.  Git names the branch, or says that there is none and which branches contain the revision. -/
def BranchSaid (m : Machine) (root : Str) : Prop :=
  ∃ b, GitSays m root askBranch b ∧ Trim b ∧ (b = ['H', 'E', 'A', 'D'] → ∃ t, GitSays m root askContaining t)

/-- Spec.  Git refuses one of the calls that are made before the description is used. -/
inductive GitStops (m : Machine) (root : Str) : Prop
  | dir (h : GitRefuses m root askDir)
  | describe (a) (h1 : GitSays m root askDir a) (h : GitRefuses m root (askDescribe m.windows))
  | revision (a d) (h1 : GitSays m root askDir a) (h2 : GitSays m root (askDescribe m.windows) d)
      (h : GitRefuses m root askRevision)
  | branch (a d f) (h1 : GitSays m root askDir a) (h2 : GitSays m root (askDescribe m.windows) d)
      (h3 : GitSays m root askRevision f) (h : GitRefuses m root askBranch)
  | containing (a d f) (h1 : GitSays m root askDir a) (h2 : GitSays m root (askDescribe m.windows) d)
      (h3 : GitSays m root askRevision f) (h4 : GitSays m root askBranch ['H', 'E', 'A', 'D'])
      (h : GitRefuses m root askContaining)

end Verif.Ver
