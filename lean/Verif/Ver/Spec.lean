import Verif.Ver.Model

/-!
# What is demanded of the version strings
-/

namespace Verif.Ver

/-- Spec.  What `git describe --tags --long --dirty` prints. -/
def describeText (tag : Str) (distance : Nat) (hash : Str) (dirty : Bool) : Str :=
  tag ++ ['-'] ++ Nat.toDigits 10 distance ++ ['-', 'g'] ++ hash ++
    (if dirty then ['-', 'd', 'i', 'r', 't', 'y'] else [])

/-- Spec.  What `git describe --always --dirty` prints when there is no tag. -/
def describeUntagged (hash : Str) (dirty : Bool) : Str :=
  hash ++ (if dirty then ['-', 'd', 'i', 'r', 't', 'y'] else [])

/-- Spec.  A hash as git prints it. -/
def IsHash (h : Str) : Prop := h ≠ [] ∧ ∀ c ∈ h, c ∈ "0123456789abcdef".toList

/-- Spec.  The local version segment: distance, hash, dirty mark. -/
def localSegment (distance : Nat) (hash : Str) (dirty : Bool) : Str :=
  Nat.toDigits 10 distance ++ ['.', 'g'] ++ hash ++
    (if dirty then ['.', 'd', 'i', 'r', 't', 'y'] else [])

/-- Spec.  The styles `render` knows, apart from `pep440-pre`; `none` and the empty string are the default
style. -/
def KnownStyle (s : Option String) : Prop :=
  s = none ∨ ∃ t, s = some t ∧ (t = "" ∨ t = "default" ∨ t = "pep440" ∨ t = "pep440-branch" ∨
    t = "pep440-post" ∨ t = "pep440-post-branch" ∨ t = "pep440-old" ∨ t = "git-describe" ∨
    t = "git-describe-long")

/-- Spec.  The text of the post-release mark. -/
def postMark : Str := ['.', 'p', 'o', 's', 't']

end Verif.Ver
