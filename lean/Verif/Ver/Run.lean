import Verif.Ver.Lookup

/-!
# Model of `run_command` and of the calls of git (`/repo/aemcmc/_version.py:71-103`, `222-348`)

The operating system is a function that says how starting a command ends.  Output of programs is a list of
bytes, decoded as UTF-8; nothing is printed (`verbose` is false).
-/

namespace Verif.Ver

/-- How `subprocess.Popen` and the process it starts end (`/repo/aemcmc/_version.py:80-96`). -/
inductive Spawn
  /-- an `OSError` with `errno` `ENOENT` -/
  | enoent
  /-- another `OSError` -/
  | osError
  /-- the process ran: what it wrote to its standard output and its return code -/
  | process (stdout : List UInt8) (returncode : Int)

/-- White space for `bytes.strip()`. -/
def isByteSpace (b : UInt8) : Bool := [9, 10, 11, 12, 13, 32].contains b

/-- `b.strip()` on bytes (`/repo/aemcmc/_version.py:97`). -/
def stripBytes (b : List UInt8) : List UInt8 :=
  ((b.dropWhile isByteSpace).reverse.dropWhile isByteSpace).reverse

/-- `b.decode()` (`/repo/aemcmc/_version.py:97`): UTF-8, `none` is a `UnicodeDecodeError`. -/
def decode (b : List UInt8) : Option Str := b.toByteArray.utf8Decode?.map Array.toList

/-- `run_command(commands, args)` (`/repo/aemcmc/_version.py:71-103`): `start command` says what happens
when `[command] + args` is started.  The result is the output and the return code. -/
def runCommand (start : Str → Spawn) : List Str → Except Exc (Option Str × Option Int)
  | [] => .ok (none, none)
  | command :: commands =>
    match start command with
    | .enoent => runCommand start commands
    | .osError => .ok (none, none)
    | .process stdout returncode =>
      match decode (stripBytes stdout) with
      | none => .error .unicodeDecodeError
      | some out => if returncode ≠ 0 then .ok (none, some returncode) else .ok (some out, some returncode)

/-- The calls of git (`/repo/aemcmc/_version.py:235`, `244-247`, `253`, `263`, `274`, `334`, `341`). -/
inductive GitCall
  | gitDir | describe | full | abbrevRef | contains | count | date

/-- The arguments of the calls; `any` is `TAG_PREFIX_REGEX` (`/repo/aemcmc/_version.py:230`, `233`). -/
def GitCall.args (tagPrefix any : Str) : GitCall → List Str
  | .gitDir => ["rev-parse".toList, "--git-dir".toList]
  | .describe => ["describe".toList, "--tags".toList, "--dirty".toList, "--always".toList, "--long".toList,
      "--match".toList, tagPrefix ++ any]
  | .full => ["rev-parse".toList, "HEAD".toList]
  | .abbrevRef => ["rev-parse".toList, "--abbrev-ref".toList, "HEAD".toList]
  | .contains => ["branch".toList, "--contains".toList]
  | .count => ["rev-list".toList, "HEAD".toList, "--count".toList]
  | .date => ["show".toList, "-s".toList, "--format=%ci".toList, "HEAD".toList]

/-- A machine: its platform, and how starting a command with arguments in a directory ends. -/
structure Machine where
  /-- `sys.platform == "win32"` -/
  windows : Bool
  /-- `start cwd args command` is `subprocess.Popen([command] + args, cwd=cwd)` -/
  start : Str → List Str → Str → Spawn

/-- `GITS` (`/repo/aemcmc/_version.py:229`, `232`). -/
def Machine.gits (m : Machine) : List Str :=
  if m.windows then ["git.cmd".toList, "git.exe".toList] else ["git".toList]

/-- `TAG_PREFIX_REGEX` (`/repo/aemcmc/_version.py:230`, `233`). -/
def Machine.any (m : Machine) : Str := if m.windows then "\\*".toList else "*".toList

/-- `runner(GITS, args, cwd=root)` (`/repo/aemcmc/_version.py:235-341`). -/
def Machine.run (m : Machine) (tagPrefix root : Str) (c : GitCall) :
    Except Exc (Option Str × Option Int) :=
  runCommand (fun command => m.start root (c.args tagPrefix m.any) command) m.gits

/-- The branch, with the calls made on the way (`/repo/aemcmc/_version.py:263-292`). -/
def branchRun (run : GitCall → Except Exc (Option Str × Option Int)) : Except Exc (Option Str) := do
  match ← run .abbrevRef with
  | (some b, some 0) =>
    if strip b = "HEAD".toList then
      match ← run .contains with
      | (some text, some 0) =>
        let lines := match splitChar '\n' [] text with
          | l :: rest => if l.contains '(' then rest else l :: rest
          | [] => []
        let branches := lines.map (·.drop 2)
        if branches.contains "master".toList then .ok (some "master".toList) else .ok branches.head?
      | _ => .error .notThisMethod
    else .ok (some (strip b))
  | _ => .error .notThisMethod

/-- Whether the output of `git describe` has no hyphen left when the suffix `-dirty` is removed
(`/repo/aemcmc/_version.py:296-309`, `331`): then the commits are counted. -/
def isUntagged (describe : Str) : Bool :=
  !(if endsWith describe "-dirty".toList then describe.take (describe.length - 6) else describe).contains '-'

/-- The end of `git_pieces_from_vcs` and `render` (`/repo/aemcmc/_version.py:340-348`, `565-598`). -/
def finishRun (run : GitCall → Except Exc (Option Str × Option Int)) (style : Option String) (full : Str) :
    PiecesResult → Except Exc VersionInfo
  | .unparsable | .badPrefix =>
    .ok { version := "unknown".toList, fullRevisionid := some full, dirty := none, error := true,
          date := none }
  | .valueError => .error .valueError
  | .ok p => do
    match ← run .date with
    | (none, _) => .error .attributeError
    | (some date0, _) =>
      match isoDate (strip date0) with
      | none => .error .indexError
      | some date =>
        match renderStyle p style with
        | none => .error .valueError
        | some v =>
          .ok { version := v, fullRevisionid := some p.long, dirty := some p.dirty, error := false,
                date := some date }

/-- `git_pieces_from_vcs` followed by `render` (`/repo/aemcmc/_version.py:222-348`, `565-598`), with the
calls of git in the order in which they are made; a call that is not reached cannot fail. -/
def versionsFromRun (run : GitCall → Except Exc (Option Str × Option Int)) (tagPrefix : Str)
    (style : Option String) : Except Exc VersionInfo := do
  match ← run .gitDir with
  | (_, some 0) =>
    match ← run .describe with
    | (none, _) => .error .notThisMethod
    | (some describe, _) =>
      match ← run .full with
      | (none, _) => .error .notThisMethod
      | (some full, _) =>
        let branch ← branchRun run
        if isUntagged (strip describe) then
          match ← run .count with
          | (none, _) => .error .typeError
          | (some count, _) =>
            finishRun run style (strip full)
              (piecesOf tagPrefix (strip describe) (strip full) branch (strip count))
        else
          finishRun run style (strip full)
            (piecesOf tagPrefix (strip describe) (strip full) branch [])
  | _ => .error .notThisMethod

/-- `get_versions` on a machine (`/repo/aemcmc/_version.py:601-644`). -/
def getVersionsOn (m : Machine) (cfg : Config) (k : Keywords) (file : Option Str) :
    Except Exc VersionInfo :=
  orElse (versionsFromKeywords k cfg.tagPrefix)
    (match file with
    | none => .ok unknownVersion
    | some f =>
      let root := rootOf cfg.parts f
      orElse (versionsFromRun (m.run cfg.tagPrefix root) cfg.tagPrefix cfg.style)
        (orElse (if cfg.parentdirPrefix.isEmpty then .error .notThisMethod
          else fromParentdir cfg.parentdirPrefix 3 root) (.ok unknownVersion)))

end Verif.Ver
