import Verif.Ver.LookupLemmas
import Verif.Ver.Props

/-!
# Lemmas about paths and about git in the version lookup
-/

namespace Verif.Ver

/-! ## Paths -/

theorem takeWhile_name {x : Str} (hx : '/' ∉ x) (r : Str) :
    (x.reverse ++ '/' :: r).takeWhile (fun c => decide (c ≠ '/')) = x.reverse := by
  rw [List.takeWhile_append_of_pos]
  · simp
  · intro c hc
    have : c ≠ '/' := fun e => hx (e ▸ List.mem_reverse.1 hc)
    simpa using this

theorem dropWhile_name {x : Str} (hx : '/' ∉ x) (r : Str) :
    (x.reverse ++ '/' :: r).dropWhile (fun c => decide (c ≠ '/')) = '/' :: r := by
  rw [List.dropWhile_append_of_pos]
  · simp
  · intro c hc
    have : c ≠ '/' := fun e => hx (e ▸ List.mem_reverse.1 hc)
    simpa using this

theorem dirText_concat (ds : List Str) (x : Str) : dirText (ds ++ [x]) = pathText ds ++ '/' :: x := by
  rw [dirText, if_neg (by simp), pathText, pathText, List.flatMap_append]
  simp

theorem basename_concat (ds : List Str) {x : Str} (hx : IsName x) : basename (dirText (ds ++ [x])) = x := by
  rw [dirText_concat, basename]
  have : (pathText ds ++ '/' :: x).reverse = x.reverse ++ '/' :: (pathText ds).reverse := by simp
  rw [this, takeWhile_name hx.2, List.reverse_reverse]

theorem dirname_concat {ds : List Str} (hds : ∀ d ∈ ds, IsName d) {x : Str} (hx : IsName x) :
    dirname (dirText (ds ++ [x])) = dirText ds := by
  rw [dirText_concat, dirname]
  have h1 : (pathText ds ++ '/' :: x).reverse = x.reverse ++ '/' :: (pathText ds).reverse := by simp
  simp only [h1, dropWhile_name hx.2]
  have h2 : ('/' :: (pathText ds).reverse).reverse = pathText ds ++ ['/'] := by simp
  rw [h2]
  rcases List.eq_nil_or_concat ds with e | ⟨init, y, e⟩
  · subst e; rfl
  · have e : ds = init ++ [y] := by simpa using e
    have hy : IsName y := hds y (by rw [e]; simp)
    obtain ⟨z, c, hz⟩ : ∃ z c, y = z ++ [c] := by
      rcases List.eq_nil_or_concat y with h | ⟨z, c, h⟩
      · exact absurd h hy.1
      · exact ⟨z, c, by simpa using h⟩
    have hc : c ≠ '/' := fun h => hy.2 (by rw [hz, h]; simp)
    have hp : pathText ds = (pathText init ++ '/' :: z) ++ [c] := by
      rw [pathText, pathText, e, List.flatMap_append, hz]; simp
    have h3 : ((pathText ds ++ ['/']).reverse.dropWhile (· == '/')).reverse = pathText ds := by
      rw [hp]
      simp [hc]
    rw [h3, if_neg (by rw [List.isEmpty_iff, hp]; simp), dirText, if_neg (by rw [e]; simp)]

theorem dirname_nil : dirname (dirText []) = dirText [] := by decide

theorem basename_nil : basename (dirText []) = [] := by decide

theorem rootOf_versionFile {dirs : List Str} (h : ∀ d ∈ dirs, IsName d) :
    rootOf 2 (versionFile dirs) = dirText dirs := by
  have h1 : IsName "aemcmc".toList := ⟨by decide, by decide⟩
  have h2 : IsName "_version.py".toList := ⟨by decide, by decide⟩
  have e : versionFile dirs = dirText ((dirs ++ ["aemcmc".toList]) ++ ["_version.py".toList]) := by
    rw [versionFile, dirText, if_neg (by simp)]
    simp
  show dirname (dirname (versionFile dirs)) = _
  rw [e, dirname_concat _ h2, dirname_concat h h1]
  intro d hd
  rcases List.mem_append.1 hd with h' | h'
  · exact h d h'
  · rw [List.mem_singleton.1 h']; exact h1

/-- The search finds the nearest directory with the prefix. -/
theorem fromParentdir_eq {pre : Str} (hpre : pre ≠ []) (n : Nat) {ds : List Str} (h : ∀ d ∈ ds, IsName d) :
    fromParentdir pre n (dirText ds) =
      match (ds.reverse.take n).find? (fun d => pre.isPrefixOf d) with
      | some d => .ok { version := d.drop pre.length, fullRevisionid := none, dirty := some false,
                        error := false, date := none }
      | none => .error .notThisMethod := by
  induction n generalizing ds with
  | zero => rfl
  | succ n ih =>
    rcases List.eq_nil_or_concat ds with e | ⟨init, x, e⟩
    · subst e
      rw [fromParentdir, basename_nil, if_neg, dirname_nil, ih h]
      · simp
      · cases pre with
        | nil => exact absurd rfl hpre
        | cons a p => simp
    · have e : ds = init ++ [x] := by simpa using e
      subst e
      have hx := h x (by simp)
      have hi : ∀ d ∈ init, IsName d := fun d hd => h d (by simp [hd])
      rw [fromParentdir, basename_concat init hx, dirname_concat hi hx, ih hi, List.reverse_append,
        List.reverse_singleton, List.singleton_append, List.take_succ_cons, List.find?_cons]
      cases pre.isPrefixOf x <;> rfl

/-! ## git -/

theorem orElse_not (r : Except Exc VersionInfo) : orElse (.error .notThisMethod) r = r := rfl

theorem getVersions_raw (file : Option Str) (git : Str → GitOut) :
    getVersions config rawKeywords file git =
      match file with
      | none => .ok unknownVersion
      | some f =>
        orElse (versionsFromGit (git (rootOf 2 f)) ['v'] (some "pep440"))
          (orElse (fromParentdir "aemcmc-".toList 3 (rootOf 2 f)) (.ok unknownVersion)) := by
  have h : versionsFromKeywords rawKeywords config.tagPrefix = .error .notThisMethod := by decide
  have h2 : config.parentdirPrefix.isEmpty = false := by decide
  unfold getVersions
  rw [h, orElse_not]
  cases file with
  | none => rfl
  | some f =>
    simp only [h2, Bool.false_eq_true, if_false]
    rfl

theorem branchOf_ok {g : GitOut} {describe full : Str} (h : GitDescribes g describe full) :
    ∃ b, branchOf g = .ok b := by
  obtain ⟨b, hb, ht, hc⟩ := h.ref
  unfold branchOf
  simp only [hb, strip_trim ht]
  by_cases e : b = "HEAD".toList
  · obtain ⟨t, ht⟩ := Option.ne_none_iff_exists'.1 (hc e)
    rw [if_pos e, ht]
    dsimp only
    exact ⟨_, (apply_ite _ _ _ _).symm⟩
  · rw [if_neg e]; exact ⟨_, rfl⟩

theorem strip_head : strip ['H', 'E', 'A', 'D'] = "HEAD".toList := by decide

theorem versionsFromGit_fails {g : GitOut} (h : GitFails g) (pre : Str) (style : Option String) :
    versionsFromGit g pre style = .error .notThisMethod := by
  have hb : g.abbrevRef = none ∨ (g.abbrevRef = some ['H', 'E', 'A', 'D'] ∧ g.contains = none) →
      branchOf g = .error .notThisMethod := by
    rintro (h | ⟨h1, h2⟩)
    · rw [branchOf, h]
    · rw [branchOf, h1]
      simp only [strip_head, if_true, h2]
  unfold versionsFromGit
  rcases h with h | h | h | h
  · rw [h]
  · rw [h]; cases g.gitDir <;> rfl
  · rw [h]; cases g.gitDir <;> cases g.describe <;> rfl
  · rw [hb h]; cases g.gitDir <;> cases g.describe <;> cases g.full <;> rfl

/-- What happens once git has described the tree. -/
theorem versionsFromGit_describes {g : GitOut} {describe full : Str} (h : GitDescribes g describe full)
    (ht : Trim describe) (pre : Str) (style : Option String) :
    ∃ b, versionsFromGit g pre style =
      match piecesOf pre describe full b (strip (g.count.getD [])) with
      | .unparsable | .badPrefix =>
        .ok { version := "unknown".toList, fullRevisionid := some full, dirty := none, error := true,
              date := none }
      | .valueError => .error (if g.count = none then .typeError else .valueError)
      | .ok p =>
        match g.date with
        | none => .error .attributeError
        | some date0 =>
          match isoDate (strip date0) with
          | none => .error .indexError
          | some date =>
            match renderStyle p style with
            | none => .error .valueError
            | some v =>
              .ok { version := v, fullRevisionid := some p.long, dirty := some p.dirty, error := false,
                    date := some date } := by
  obtain ⟨b, hb⟩ := branchOf_ok h
  obtain ⟨x, hx⟩ := Option.ne_none_iff_exists'.1 h.inGit
  refine ⟨b, ?_⟩
  unfold versionsFromGit
  simp only [hx, h.described, h.revision, hb, strip_trim ht, strip_trim h.trimFull]
  cases piecesOf pre describe full b (strip (g.count.getD [])) <;> rfl

theorem not_white_hex {c : Char} (h : isHex c = true) : ¬ White c := by
  simp only [isHex, isDigit, Bool.or_eq_true, Bool.and_eq_true, decide_eq_true_eq] at h
  unfold White
  omega

theorem trim_hash_dirty {hash : Str} (hh : IsHash hash) (dirty : Bool) (pre : Str) :
    ∃ r c, pre ++ hash ++ (if dirty then ['-', 'd', 'i', 'r', 't', 'y'] else []) = r ++ [c] ∧ ¬ White c := by
  cases dirty with
  | true => exact ⟨pre ++ hash ++ ['-', 'd', 'i', 'r', 't'], 'y', by simp, by unfold White; decide⟩
  | false =>
    rcases List.eq_nil_or_concat hash with e | ⟨r, c, e⟩
    · exact absurd e hh.1
    · have e : hash = r ++ [c] := by simpa using e
      exact ⟨pre ++ r, c, by rw [e]; simp, not_white_hex (isHash_isHex hh c (by rw [e]; simp))⟩

theorem trim_tagged (tag : Str) (distance : Nat) {hash : Str} (hh : IsHash hash) (dirty : Bool) :
    Trim (describeText ('v' :: tag) distance hash dirty) :=
  ⟨⟨'v', _, rfl, by unfold White; decide⟩, trim_hash_dirty hh dirty _⟩

theorem trim_untagged {hash : Str} (hh : IsHash hash) (dirty : Bool) :
    Trim (describeUntagged hash dirty) := by
  refine ⟨?_, ?_⟩
  · cases hash with
    | nil => exact absurd rfl hh.1
    | cons c r =>
      exact ⟨c, _, rfl, not_white_hex (isHash_isHex hh c List.mem_cons_self)⟩
  · simpa [describeUntagged] using trim_hash_dirty hh dirty []

theorem renderStyle_tagged {tag : Str} (hne : tag ≠ []) (distance : Nat) (hash full : Str) (dirty : Bool)
    (b : Option Str) : renderStyle ⟨some tag, distance, hash, full, dirty, b⟩ (some "pep440") =
      some (taggedVersion tag distance hash dirty) := by
  have h := renderPep440_eq ⟨some tag, distance, hash, full, dirty, b⟩
  have ht : Pieces.tag? ⟨some tag, distance, hash, full, dirty, b⟩ = some tag := by
    cases tag with
    | nil => exact absurd rfl hne
    | cons _ _ => rfl
  simp only [ht] at h
  show some (renderPep440 _) = _
  rw [h]; rfl

theorem renderStyle_untagged (commits : Nat) (full : Str) (dirty : Bool) (b : Option Str) :
    renderStyle ⟨none, commits, full.take 7, full, dirty, b⟩ (some "pep440") =
      some (untaggedVersion commits full dirty) := by
  have h := renderPep440_eq ⟨none, commits, full.take 7, full, dirty, b⟩
  show some (renderPep440 _) = _
  rw [h]; rfl

theorem strip_digits (n : Nat) : strip (Nat.toDigits 10 n) = Nat.toDigits 10 n := by
  rw [← decimal_eq]
  have h := decimal_digits n
  exact strip_trim (Word.trim ⟨h.1, fun c hc => not_white_hex (by
    rw [isHex, h.2 c hc]; rfl)⟩)

theorem piecesOf_untagged_none (tagPrefix : Str) {hash : Str} (hh : IsHash hash) (dirty : Bool) (full : Str)
    (branch : Option Str) : piecesOf tagPrefix (describeUntagged hash dirty) full branch [] = .valueError := by
  rw [piecesOf_untagged tagPrefix hh]
  rfl

end Verif.Ver
