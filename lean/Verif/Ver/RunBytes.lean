import Verif.Ver.RunSpec
import Verif.Ver.LookupLemmas

/-!
# Lemmas about bytes, blanks and UTF-8
-/

namespace Verif.Ver

/-- The blanks that `bytes.strip()` removes, as characters. -/
def asciiSpace (c : Char) : Bool := decide (c.toNat = 32 ∨ (9 ≤ c.toNat ∧ c.toNat ≤ 13))

theorem isByteSpace_iff (b : UInt8) : isByteSpace b = true ↔ b = 32 ∨ (9 ≤ b ∧ b ≤ 13) := by
  simp only [isByteSpace, List.contains_iff_mem, List.mem_cons, List.not_mem_nil, or_false,
    UInt8.le_iff_toNat_le, ← UInt8.toNat_inj, UInt8.reduceToNat]
  omega

theorem encode_small {c : Char} (h : c.toNat ≤ 0x7f) :
    String.utf8EncodeChar c = [UInt8.ofNat c.toNat] := by
  unfold String.utf8EncodeChar
  exact if_pos h

theorem byteSpace_ofNat {n : Nat} (h : n < 256) :
    isByteSpace (UInt8.ofNat n) = decide (n = 32 ∨ (9 ≤ n ∧ n ≤ 13)) := by
  rw [Bool.eq_iff_iff, isByteSpace_iff, decide_eq_true_iff, UInt8.le_iff_toNat_le, UInt8.le_iff_toNat_le,
    ← UInt8.toNat_inj, UInt8.toNat_ofNat', Nat.mod_eq_of_lt h]
  simp only [UInt8.reduceToNat]

theorem encode_big {c : Char} (h : ¬ c.toNat ≤ 0x7f) :
    (∀ b ∈ String.utf8EncodeChar c, ∃ n, 128 ≤ n ∧ n < 256 ∧ b = UInt8.ofNat n) ∧
    ∃ r n, 128 ≤ n ∧ n < 192 ∧ String.utf8EncodeChar c = r ++ [UInt8.ofNat n] := by
  have e : c.val.toNat = c.toNat := rfl
  unfold String.utf8EncodeChar
  simp only [e]
  rw [if_neg h]
  split
  · refine ⟨fun b hb => ?_, [_], _, by omega, by omega, rfl⟩
    simp only [List.mem_cons, List.not_mem_nil, or_false] at hb
    rcases hb with rfl | rfl
    · exact ⟨_, by omega, by omega, rfl⟩
    · exact ⟨_, by omega, by omega, rfl⟩
  · split
    · refine ⟨fun b hb => ?_, [_, _], _, by omega, by omega, rfl⟩
      simp only [List.mem_cons, List.not_mem_nil, or_false] at hb
      rcases hb with rfl | rfl | rfl
      · exact ⟨_, by omega, by omega, rfl⟩
      · exact ⟨_, by omega, by omega, rfl⟩
      · exact ⟨_, by omega, by omega, rfl⟩
    · refine ⟨fun b hb => ?_, [_, _, _], _, by omega, by omega, rfl⟩
      simp only [List.mem_cons, List.not_mem_nil, or_false] at hb
      rcases hb with rfl | rfl | rfl | rfl
      · exact ⟨_, by omega, by omega, rfl⟩
      · exact ⟨_, by omega, by omega, rfl⟩
      · exact ⟨_, by omega, by omega, rfl⟩
      · exact ⟨_, by omega, by omega, rfl⟩

theorem encode_space {c : Char} (h : asciiSpace c = true) :
    ∀ b ∈ String.utf8EncodeChar c, isByteSpace b = true := by
  simp only [asciiSpace, decide_eq_true_eq] at h
  rw [encode_small (by omega)]
  intro b hb
  rw [List.mem_singleton.1 hb, byteSpace_ofNat (by omega)]
  simpa using h

theorem encode_nonspace {c : Char} (h : asciiSpace c = false) :
    ∀ b ∈ String.utf8EncodeChar c, isByteSpace b = false := by
  simp only [asciiSpace, decide_eq_false_iff_not] at h
  intro b hb
  by_cases hc : c.toNat ≤ 0x7f
  · rw [encode_small hc] at hb
    rw [List.mem_singleton.1 hb, byteSpace_ofNat (by omega)]
    simpa using h
  · obtain ⟨n, h1, h2, rfl⟩ := (encode_big hc).1 b hb
    rw [byteSpace_ofNat h2]
    simp only [decide_eq_false_iff_not]
    omega

theorem encode_ne_nil (c : Char) : String.utf8EncodeChar c ≠ [] := by
  intro h
  have := String.length_utf8EncodeChar c
  rw [h] at this
  have := c.utf8Size_pos
  simp_all

theorem utf8_append (s t : Str) : utf8 (s ++ t) = utf8 s ++ utf8 t := by simp [utf8]

theorem dropWhile_block {α : Type*} (p : α → Bool) {l : List α} (h : ∀ b ∈ l, p b = true) (r : List α) :
    (l ++ r).dropWhile p = r.dropWhile p := by
  induction l with
  | nil => rfl
  | cons a l ih =>
    rw [List.cons_append, List.dropWhile_cons_of_pos (h a List.mem_cons_self)]
    exact ih fun b hb => h b (List.mem_cons_of_mem _ hb)

theorem dropWhile_stop {α : Type*} (p : α → Bool) {l : List α} (hne : l ≠ []) (h : ∀ b ∈ l, p b = false)
    (r : List α) : (l ++ r).dropWhile p = l ++ r := by
  cases l with
  | nil => exact absurd rfl hne
  | cons a l =>
    rw [List.cons_append, List.dropWhile_cons_of_neg (by simp [h a List.mem_cons_self])]

theorem dropWhile_utf8 (t : Str) : (utf8 t).dropWhile isByteSpace = utf8 (t.dropWhile asciiSpace) := by
  induction t with
  | nil => rfl
  | cons c t ih =>
    have e : utf8 (c :: t) = String.utf8EncodeChar c ++ utf8 t := rfl
    cases hc : asciiSpace c with
    | true =>
      rw [List.dropWhile_cons_of_pos hc, e, dropWhile_block _ (encode_space hc), ih]
    | false =>
      rw [List.dropWhile_cons_of_neg (by simp [hc]), e,
        dropWhile_stop _ (encode_ne_nil c) (encode_nonspace hc)]

theorem dropWhile_utf8_reverse (t : Str) :
    ((utf8 t).reverse.dropWhile isByteSpace).reverse = utf8 ((t.reverse.dropWhile asciiSpace).reverse) := by
  induction t using List.reverseRecOn with
  | nil => rfl
  | append_singleton t c ih =>
    have e : utf8 (t ++ [c]) = utf8 t ++ String.utf8EncodeChar c := by simp [utf8]
    cases hc : asciiSpace c with
    | true =>
      rw [List.reverse_append, List.reverse_singleton, List.singleton_append,
        List.dropWhile_cons_of_pos hc, e, List.reverse_append,
        dropWhile_block _ (fun b hb => encode_space hc b (List.mem_reverse.1 hb)), ih]
    | false =>
      rw [List.reverse_append, List.reverse_singleton, List.singleton_append,
        List.dropWhile_cons_of_neg (by simp [hc]), e, List.reverse_append,
        dropWhile_stop _ (by simp [encode_ne_nil c])
          (fun b hb => encode_nonspace hc b (List.mem_reverse.1 hb))]
      simp [utf8]

theorem stripBytes_utf8 (t : Str) : stripBytes (utf8 t) = utf8 (stripBy asciiSpace t) := by
  unfold stripBytes stripBy
  rw [dropWhile_utf8, dropWhile_utf8_reverse]

theorem decode_utf8 (t : Str) : decode (utf8 t) = some t := by
  unfold decode
  rw [show (utf8 t).toByteArray = t.utf8Encode from rfl, List.utf8Decode?_utf8Encode]
  rfl

theorem toByteArray_inj {a b : List UInt8} (h : a.toByteArray = b.toByteArray) : a = b := by
  have := congrArg (fun x => x.data.toList) h
  simpa using this

theorem decode_eq_some {b : List UInt8} {t : Str} (h : decode b = some t) : b = utf8 t := by
  unfold decode at h
  rw [Option.map_eq_some_iff] at h
  obtain ⟨a, ha, rfl⟩ := h
  have hs : b.toByteArray.utf8Decode?.isSome := by rw [ha]; rfl
  have := ByteArray.utf8Encode_get_utf8Decode? (b := b.toByteArray) (h := hs)
  rw [Option.get_of_eq_some hs ha] at this
  exact (toByteArray_inj this).symm

theorem blank_utf8 {b : List UInt8} (h : ∀ x ∈ b, isByteSpace x = true) :
    ∃ p : Str, (∀ c ∈ p, asciiSpace c = true) ∧ b = utf8 p := by
  induction b with
  | nil => exact ⟨[], by simp, rfl⟩
  | cons x b ih =>
    obtain ⟨p, hp, rfl⟩ := ih fun y hy => h y (List.mem_cons_of_mem _ hy)
    have key : ∀ x : UInt8, isByteSpace x = true → asciiSpace (Char.ofNat x.toNat) = true ∧
        String.utf8EncodeChar (Char.ofNat x.toNat) = [x] := by
      intro x hx
      simp only [isByteSpace, List.contains_iff_mem, List.mem_cons, List.not_mem_nil, or_false] at hx
      rcases hx with rfl | rfl | rfl | rfl | rfl | rfl <;> exact ⟨by decide, by decide⟩
    obtain ⟨h1, h2⟩ := key x (h x List.mem_cons_self)
    refine ⟨Char.ofNat x.toNat :: p, ?_, ?_⟩
    · intro c hc
      rcases List.mem_cons.1 hc with rfl | hc
      · exact h1
      · exact hp c hc
    · rw [show utf8 (Char.ofNat x.toNat :: p) = String.utf8EncodeChar (Char.ofNat x.toNat) ++ utf8 p from rfl,
        h2]
      rfl

theorem mem_takeWhile {α : Type*} {p : α → Bool} {l : List α} {x : α} (h : x ∈ l.takeWhile p) :
    p x = true := List.all_eq_true.1 List.all_takeWhile x h

theorem stripBytes_split (b : List UInt8) : ∃ pre post, (∀ x ∈ pre, isByteSpace x = true) ∧
    (∀ x ∈ post, isByteSpace x = true) ∧ b = pre ++ stripBytes b ++ post := by
  refine ⟨b.takeWhile isByteSpace, ((b.dropWhile isByteSpace).reverse.takeWhile isByteSpace).reverse,
    fun x hx => mem_takeWhile hx,
    fun x hx => mem_takeWhile (List.mem_reverse.1 hx), ?_⟩
  unfold stripBytes
  rw [List.append_assoc, ← List.reverse_append, List.takeWhile_append_dropWhile, List.reverse_reverse,
    List.takeWhile_append_dropWhile]

/-- What the program printed can be decoded if and only if it is UTF-8. -/
theorem decode_strip_none (b : List UInt8) : decode (stripBytes b) = none ↔ ¬ Readable b := by
  constructor
  · rintro h ⟨t, rfl⟩
    rw [stripBytes_utf8, decode_utf8] at h
    cases h
  · intro h
    cases hd : decode (stripBytes b) with
    | none => rfl
    | some t =>
      obtain ⟨pre, post, h1, h2, h3⟩ := stripBytes_split b
      obtain ⟨p, -, rfl⟩ := blank_utf8 h1
      obtain ⟨q, -, rfl⟩ := blank_utf8 h2
      rw [decode_eq_some hd] at h3
      exact absurd ⟨p ++ t ++ q, by rw [h3, utf8_append, utf8_append]⟩ h

theorem asciiSpace_white {c : Char} (h : asciiSpace c = true) : White c := by
  simp only [asciiSpace, decide_eq_true_eq] at h
  unfold White; omega

theorem asciiSpace_of_nonwhite {c : Char} (h : ¬ White c) : asciiSpace c = false := by
  rw [← Bool.not_eq_true]
  exact fun h' => h (asciiSpace_white h')

theorem stripBy_around {pre text post : Str} (h1 : ∀ c ∈ pre, asciiSpace c = true)
    (h2 : ∀ c ∈ post, asciiSpace c = true) (h : Trim text) :
    stripBy asciiSpace (pre ++ text ++ post) = text := by
  obtain ⟨c, r, hc, hcw⟩ := h.first
  obtain ⟨r', c', hc', hcw'⟩ := h.last
  unfold stripBy
  rw [List.append_assoc, dropWhile_block _ h1, hc, List.cons_append,
    List.dropWhile_cons_of_neg (by simp [asciiSpace_of_nonwhite hcw]), ← List.cons_append, ← hc,
    List.reverse_append, dropWhile_block _ (fun b hb => h2 b (List.mem_reverse.1 hb)), hc',
    List.reverse_append, List.reverse_singleton, List.singleton_append,
    List.dropWhile_cons_of_neg (by simp [asciiSpace_of_nonwhite hcw'])]
  simp

theorem decode_around {pre post : List UInt8} {text : Str} (h1 : BlankBytes pre) (h2 : BlankBytes post)
    (h : Trim text) : decode (stripBytes (pre ++ utf8 text ++ post)) = some text := by
  obtain ⟨p, hp, rfl⟩ := blank_utf8 fun x hx => (isByteSpace_iff x).2 (h1 x hx)
  obtain ⟨q, hq, rfl⟩ := blank_utf8 fun x hx => (isByteSpace_iff x).2 (h2 x hx)
  rw [← utf8_append, ← utf8_append, stripBytes_utf8, decode_utf8, stripBy_around hp hq h]

theorem readable_around {pre post : List UInt8} {text : Str} (h1 : BlankBytes pre) (h2 : BlankBytes post) :
    Readable (pre ++ utf8 text ++ post) := by
  obtain ⟨p, hp, rfl⟩ := blank_utf8 fun x hx => (isByteSpace_iff x).2 (h1 x hx)
  obtain ⟨q, hq, rfl⟩ := blank_utf8 fun x hx => (isByteSpace_iff x).2 (h2 x hx)
  exact ⟨p ++ text ++ q, by rw [utf8_append, utf8_append]⟩

/-- A text in UTF-8 does not end with a byte above 191 and blanks. -/
theorem not_readable_latin {r post : List UInt8} {x : UInt8} (hx : 192 ≤ x) (hp : BlankBytes post) :
    ¬ Readable (r ++ [x] ++ post) := by
  rintro ⟨t, ht⟩
  obtain ⟨q, hq, rfl⟩ := blank_utf8 fun x hx => (isByteSpace_iff x).2 (hp x hx)
  have hstop : isByteSpace x = false := by
    rw [← Bool.not_eq_true, isByteSpace_iff]
    rw [UInt8.le_iff_toNat_le] at hx
    simp only [UInt8.le_iff_toNat_le, ← UInt8.toNat_inj, UInt8.reduceToNat] at hx ⊢
    omega
  have e := congrArg (fun l => (l.reverse.dropWhile isByteSpace).reverse) ht
  simp only [dropWhile_utf8_reverse] at e
  rw [List.reverse_append, dropWhile_block _ (fun b hb => by
      have hb' := List.mem_reverse.1 hb
      unfold utf8 at hb'
      obtain ⟨c, hc, hbc⟩ := List.mem_flatMap.1 hb'
      exact encode_space (hq c hc) b hbc),
    List.reverse_append, List.reverse_singleton, List.singleton_append,
    List.dropWhile_cons_of_neg (by simp [hstop])] at e
  generalize (t.reverse.dropWhile asciiSpace).reverse = u at e
  rcases List.eq_nil_or_concat u with rfl | ⟨u', c, rfl⟩
  · simp [utf8] at e
  · simp only [List.concat_eq_append, utf8_append] at e
    have e' : r ++ [x] = utf8 u' ++ String.utf8EncodeChar c := by simpa [utf8] using e
    by_cases hc : c.toNat ≤ 0x7f
    · rw [encode_small hc] at e'
      have := (List.append_inj' e' rfl).2
      simp only [List.cons.injEq, and_true] at this
      subst this
      have hn := UInt8.le_iff_toNat_le.1 hx
      rw [UInt8.toNat_ofNat'] at hn
      simp at hn
      omega
    · obtain ⟨-, r', n, h1, h2, hr⟩ := encode_big hc
      rw [hr, ← List.append_assoc] at e'
      have := (List.append_inj' e' rfl).2
      simp only [List.cons.injEq, and_true] at this
      subst this
      have hn := UInt8.le_iff_toNat_le.1 hx
      rw [UInt8.toNat_ofNat'] at hn
      simp at hn
      omega

end Verif.Ver
