import Verif.Ver.Lookup
import Verif.Ver.Spec

/-!
# What is demanded of the version lookup
-/

namespace Verif.Ver

/-- Spec.  The order of strings by code points. -/
def CodeLe (s t : Str) : Prop := s = t ∨ List.Lex (fun a b : Char => a.toNat < b.toNat) s t

/-- Spec.  White space. -/
def White (c : Char) : Prop :=
  (9 ≤ c.toNat ∧ c.toNat ≤ 13) ∨ (28 ≤ c.toNat ∧ c.toNat ≤ 32) ∨ c.toNat = 133 ∨ c.toNat = 160 ∨
  c.toNat = 5760 ∨ (8192 ≤ c.toNat ∧ c.toNat ≤ 8202) ∨ c.toNat = 8232 ∨ c.toNat = 8233 ∨ c.toNat = 8239 ∨
  c.toNat = 8287 ∨ c.toNat = 12288

/-- Spec.  A text with no white space at its ends, and not empty. -/
structure Trim (s : Str) : Prop where
  first : ∃ c r, s = c :: r ∧ ¬ White c
  last : ∃ r c, s = r ++ [c] ∧ ¬ White c

/-- Spec.  What `git archive` writes for `%d`: the references to the commit. -/
def archiveText : List Str → Str
  | [] => []
  | d :: ds => [' ', '('] ++ d ++ ds.flatMap ([',', ' '] ++ ·) ++ [')']

/-- Spec.  References that the text of `%d` separates: none has a comma, and no parenthesis is next to the
enclosing ones. -/
structure Separable (decs : List Str) : Prop where
  trim : ∀ d ∈ decs, Trim d
  comma : ∀ d ∈ decs, ',' ∉ d
  opening : ∀ d ds, decs = d :: ds → ∀ c r, d = c :: r → c ≠ '(' ∧ c ≠ ')'
  closing : ∀ ds d, decs = ds ++ [d] → ∀ r c, d = r ++ [c] → c ≠ '(' ∧ c ≠ ')'

/-- Spec.  How `%d` writes a tag. -/
def tagDec (t : Str) : Str := ['t', 'a', 'g', ':', ' '] ++ t

/-- Spec.  Begins with a digit. -/
def Numbered (v : Str) : Prop := ∃ c r, v = c :: r ∧ c ∈ "0123456789".toList

/-- Spec.  The names that count as tags: the marked ones if there are any, else every name with a digit. -/
def Candidate (decs : List Str) (t : Str) : Prop :=
  tagDec t ∈ decs ∨ ((∀ u, tagDec u ∉ decs) ∧ t ∈ decs ∧ ∃ c ∈ t, c ∈ "0123456789".toList)

/-- Spec.  A version that a commit with these references may get. -/
def Suitable (pre : Str) (decs : List Str) (v : Str) : Prop := Candidate decs (pre ++ v) ∧ Numbered v

/-- Spec.  The path with these components. -/
def pathText (parts : List Str) : Str := parts.flatMap ('/' :: ·)

/-- Spec.  A name of a file or directory. -/
def IsName (d : Str) : Prop := d ≠ [] ∧ '/' ∉ d

/-- Spec.  One of the calls of git that come before the description is used fails. -/
def GitFails (g : GitOut) : Prop :=
  g.gitDir = none ∨ g.describe = none ∨ g.full = none ∨ g.abbrevRef = none ∨
    (g.abbrevRef = some ['H', 'E', 'A', 'D'] ∧ g.contains = none)

/-- Spec.  Only white space. -/
def Blank (s : Str) : Prop := ∀ c ∈ s, White c

/-- Spec.  A text without white space, not empty. -/
def Word (s : Str) : Prop := s ≠ [] ∧ ∀ c ∈ s, ¬ White c

/-- Spec.  What git prints for `%ci`, after what it prints about a signature. -/
def ciText (signature : List Str) (day time zone : Str) : Str :=
  signature.flatMap (· ++ ['\n']) ++ day ++ [' '] ++ time ++ [' '] ++ zone

/-- Spec.  The same moment in ISO 8601. -/
def isoText (day time zone : Str) : Str := day ++ ['T'] ++ time ++ zone

/-- Spec.  The directory with these components; the root directory is a slash. -/
def dirText (dirs : List Str) : Str := if dirs = [] then ['/'] else pathText dirs

/-- Spec.  The path of the version file of a tree in the directory `dirs`. -/
def versionFile (dirs : List Str) : Str := pathText (dirs ++ ["aemcmc".toList, "_version.py".toList])

/-- Spec.  git describes the tree: the calls before the date and the number of commits succeed, and what
they print has no white space around it. -/
structure GitDescribes (g : GitOut) (describe full : Str) : Prop where
  inGit : g.gitDir ≠ none
  described : g.describe = some describe
  revision : g.full = some full
  trimFull : Trim full
  ref : ∃ b, g.abbrevRef = some b ∧ Trim b ∧ (b = ['H', 'E', 'A', 'D'] → g.contains ≠ none)

/-- Spec.  The version of a tree `distance` commits after a tag. -/
def taggedVersion (tag : Str) (distance : Nat) (hash : Str) (dirty : Bool) : Str :=
  if distance = 0 ∧ dirty = false then tag
  else tag ++ (if '+' ∈ tag then '.' else '+') :: localSegment distance hash dirty

/-- Spec.  The version of a tree without a tag. -/
def untaggedVersion (commits : Nat) (full : Str) (dirty : Bool) : Str :=
  "0+untagged.".toList ++ localSegment commits (full.take 7) dirty

end Verif.Ver
