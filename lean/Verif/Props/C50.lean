import Verif.Props.C35
import Verif.Spec.Chars

/-!
# C50: `Rope::to_string`

The rope cuts its text between arbitrary bytes, also within a character, and `to_string` puts the pieces together and checks that
they are UTF-8.  If every edit is at character boundaries, `to_string` gives the edited string.  Otherwise it may panic:
`C50_cut_panics`.
-/

namespace GB
open Tree

theorem utf8_append (a b : List Char) : utf8 (a ++ b) = utf8 a ++ utf8 b := List.flatMap_append

theorem utf8_take (cs : List Char) (k : Nat) : (utf8 cs).take (byteAt cs k) = utf8 (cs.take k) := by
  conv => lhs; rw [← List.take_append_drop k cs, utf8_append]
  rw [byteAt, List.take_append_drop]
  exact List.take_left' rfl

theorem utf8_drop (cs : List Char) (k : Nat) : (utf8 cs).drop (byteAt cs k) = utf8 (cs.drop k) := by
  conv => lhs; rw [← List.take_append_drop k cs, utf8_append]
  rw [byteAt, List.take_append_drop]
  exact List.drop_left' rfl

theorem byteAt_le (cs : List Char) (k : Nat) : byteAt cs k ≤ (utf8 cs).length := by
  have := congrArg List.length (utf8_take cs k)
  rw [List.length_take] at this
  rw [byteAt] at *
  omega

theorem utf8_str (s : String) : s.toUTF8.data.toList = utf8 s.toList := by
  show s.toByteArray.data.toList = _
  rw [← String.utf8Encode_toList (b := s)]
  exact List.toList_data_toByteArray

theorem byteAt_mono (cs : List Char) {a b : Nat} (h : a ≤ b) : byteAt cs a ≤ byteAt cs b := by
  have := byteAt_le (cs.take b) a
  rw [byteAt, List.take_take, Nat.min_eq_left h] at this
  exact this

/-- the byte-level edit behind a character-level edit -/
def CharOp.bytes (cs : List Char) : CharOp → RopeOp
  | .insert k s => .insert (byteAt cs k) (utf8 s.toList)
  | .delete a b => .delete (byteAt cs a) (byteAt cs b)

theorem CharOp.bytes_edit (cs : List Char) (o : CharOp) : (o.bytes cs).edit (utf8 cs) = utf8 (o.edit cs) := by
  cases o with
  | insert k s => simp only [bytes, edit, RopeOp.edit, utf8_append, utf8_take, utf8_drop]
  | delete a b =>
    simp only [bytes, edit, RopeOp.edit]
    by_cases hab : a < b
    · have hm := byteAt_mono cs (Nat.le_of_lt hab)
      rw [if_pos hab, utf8_append, ← utf8_take, ← utf8_drop]
      by_cases hb : byteAt cs a < byteAt cs b
      · rw [if_pos hb]
      · rw [if_neg hb, show byteAt cs b = byteAt cs a by omega, List.take_append_drop]
    · have hm := byteAt_mono cs (Nat.le_of_not_lt hab)
      rw [if_neg hab, if_neg (by omega)]

/-- the byte-level history -/
def bytesAll : List Char → List CharOp → List RopeOp
  | _, [] => []
  | cs, o :: os => o.bytes cs :: bytesAll (o.edit cs) os

theorem bytesAll_spec : ∀ (os : List CharOp) (cs : List Char), editAll (utf8 cs) (bytesAll cs os) = utf8 (charsAll cs os) ∧ validEdits (utf8 cs) (bytesAll cs os)
  | [], _ => ⟨rfl, trivial⟩
  | o :: os, cs => by
    have ih := bytesAll_spec os (o.edit cs)
    rw [← o.bytes_edit] at ih
    refine ⟨ih.1, ?_, ih.2⟩
    cases o with
    | insert k s => exact byteAt_le cs k
    | delete a b => trivial

theorem bytesAll_short {n : Nat} : ∀ (os : List CharOp) (cs : List Char), ShortText n cs os → ShortEdits n (utf8 cs) (bytesAll cs os)
  | [], _, h => h
  | o :: os, cs, h => by
    refine ⟨h.1, ?_⟩
    rw [o.bytes_edit]
    exact bytesAll_short os _ h.2

theorem charsRun_eq {cap : Nat} : ∀ (os : List CharOp) (r : Rope) (cs : List Char), charsRun cap r cs os = ropeRun cap r (bytesAll cs os)
  | [], _, _ => rfl
  | o :: os, r, cs => by
    have h : o.run cap r cs = (o.bytes cs).run cap r := by
      cases o with
      | insert k s => rw [CharOp.run, Rope.insertStr, utf8_str]; rfl
      | delete a b => rfl
    rw [charsRun, bytesAll, ropeRun, h]
    congr 1
    funext r'
    exact charsRun_eq os r' _

/-- `to_string` on any rope whose bytes can be read: the string with these bytes, or a panic if there is none. -/
theorem C50_to_string {r : Rope} {bytes : List UInt8} (hb : r.toBytes = .ok bytes) :
    (∀ s : String, r.toStr = .ok s ↔ utf8 s.toList = bytes) ∧ (r.toStr = .error .panic ↔ ¬ ∃ cs, utf8 cs = bytes) := by
  have hv : bytes.toByteArray.IsValidUTF8 ↔ ∃ cs, utf8 cs = bytes :=
    ⟨fun ⟨cs, h⟩ => ⟨cs, (List.toByteArray_inj.mp h).symm⟩, fun ⟨cs, h⟩ => ⟨cs, by rw [← h]; rfl⟩⟩
  simp only [Rope.toStr, hb, bind_ok, String.fromUTF8?]
  by_cases h : bytes.toByteArray.IsValidUTF8
  · rw [dif_pos h]
    refine ⟨fun s => ?_, ?_⟩
    · show Except.ok _ = Except.ok s ↔ _
      rw [Except.ok.injEq, String.fromUTF8, ← String.toByteArray_inj, ← List.toByteArray_inj]
      show bytes.toByteArray = _ ↔ s.toList.utf8Encode = _
      rw [String.utf8Encode_toList]
      exact eq_comm
    · exact ⟨fun hh => (by cases hh), fun hn => absurd (hv.mp h) hn⟩
  · rw [dif_neg h]
    refine ⟨fun s => ⟨fun h => (by cases h), fun hs => absurd (hv.mpr ⟨_, hs⟩) h⟩, fun _ hn => h (hv.mpr hn), fun _ => rfl⟩

/-- Every history of edits at character boundaries on a new rope, for every chunk capacity, with fewer than 390626 bytes at all times:
nothing panics, and `to_string` gives the edited string. -/
theorem C50_history {cap : Nat} (hcap : 0 < cap) (os : List CharOp) (hs : ShortText 390626 [] os) :
    ∃ r, charsRun cap Rope.new [] os = .ok r ∧ r.toStr = .ok (String.ofList (charsAll [] os)) := by
  obtain ⟨h1, h2⟩ := bytesAll_spec os []
  obtain ⟨r, h3, h4, -⟩ := C35_short_history_partial hcap _ h2 (bytesAll_short os [] hs)
  refine ⟨r, by rw [charsRun_eq]; exact h3, ?_⟩
  rw [(C50_to_string h4).1, String.toList_ofList]
  exact h1.symm

/-- a suffix of an encoding that is an encoding starts at a character -/
theorem utf8_suffix {cs cs' : List Char} {p : Nat} (hp : p ≤ (utf8 cs).length) (h : utf8 cs' = (utf8 cs).drop p) : ∃ k, p = byteAt cs k := by
  have hbytes : (String.ofList cs).toByteArray = (utf8 cs).toByteArray := String.toByteArray_ofList
  have ext : ∀ a b, ((utf8 cs).toByteArray).extract a b = (((utf8 cs).drop a).take (b - a)).toByteArray := by
    intro a b
    apply ByteArray.ext
    rw [ByteArray.data_extract, List.data_toByteArray, List.data_toByteArray]
    apply Array.toList_inj.mp
    rw [Array.toList_extract]
  have hsize : (String.ofList cs).utf8ByteSize = (utf8 cs).length := by
    rw [← String.size_toByteArray, hbytes, List.size_toByteArray]
  have hv : (⟨p⟩ : String.Pos.Raw).IsValid (String.ofList cs) := by
    rw [String.Pos.Raw.isValid_iff_isValidUTF8_extract_utf8ByteSize]
    refine ⟨by rw [String.Pos.Raw.le_iff, String.byteIdx_rawEndPos, hsize]; exact hp, cs', ?_⟩
    rw [hbytes, hsize, ext, List.take_of_length_le (by simp), ← h]
    rfl
  obtain ⟨m, hm⟩ := hv.isValidUTF8_extract_zero
  rw [hbytes, ext] at hm
  have hm : (utf8 cs).take p = utf8 m := by
    have : ((utf8 cs).drop 0).take (p - 0) = utf8 m := List.toByteArray_inj.mp hm
    simpa using this
  obtain ⟨t, ht⟩ := List.isPrefix_of_utf8Encode_append_eq_utf8Encode (l := m) (m := cs) ((utf8 cs).drop p).toByteArray (by
    show (utf8 m).toByteArray ++ _ = (utf8 cs).toByteArray
    rw [← hm, ← List.toByteArray_append, List.take_append_drop])
  refine ⟨m.length, ?_⟩
  rw [byteAt, ← ht, List.take_left' rfl, ← hm, List.length_take]
  omega

/-- Insert a string into a new rope and delete its first `p` bytes: `to_string` gives the rest of the string if `p` is a character
boundary and panics otherwise. -/
theorem C50_cut_panics {cap : Nat} (hcap : 0 < cap) (s : String) (hs : (utf8 s.toList).length < 390626) {p : Nat} (hp : p ≤ (utf8 s.toList).length) :
    ∃ r0 r, Rope.new.insertStr cap 0 s = .ok r0 ∧ r0.deleteRange 0 p = .ok r ∧
      (∀ k, p = byteAt s.toList k → r.toStr = .ok (String.ofList (s.toList.drop k))) ∧
      ((¬ ∃ k, p = byteAt s.toList k) → r.toStr = .error .panic) := by
  obtain ⟨r, h1, h2, -⟩ := C35_short_history_partial hcap [.insert 0 (utf8 s.toList), .delete 0 p] ⟨Nat.zero_le _, trivial, trivial⟩ (by
    refine ⟨by decide, ?_, ?_⟩
    · simpa [RopeOp.edit] using hs
    · show (RopeOp.edit (RopeOp.edit [] _) _).length < _
      simp only [RopeOp.edit, List.take_nil, List.drop_nil, List.nil_append, List.append_nil]
      split
      · simp; omega
      · exact hs)
  obtain ⟨r0, h3, h4⟩ := bind_inv h1
  obtain ⟨r1, h5, h6⟩ := bind_inv h4
  cases h6
  have he : editAll [] [.insert 0 (utf8 s.toList), .delete 0 p] = (utf8 s.toList).drop p := by
    simp only [editAll, RopeOp.edit, List.take_nil, List.drop_nil, List.nil_append, List.append_nil, List.take_zero]
    split
    · rfl
    · rw [show p = 0 by omega]; rfl
  rw [he] at h2
  have hts := C50_to_string h2
  refine ⟨r0, r, by rw [Rope.insertStr, utf8_str]; exact h3, h5, fun k hk => ?_, fun hn => ?_⟩
  · rw [hts.1, String.toList_ofList, hk, utf8_drop]
  · rw [hts.2]
    exact fun ⟨cs', h⟩ => hn (utf8_suffix hp h)

/-- chunks of two bytes, which cut the characters of three bytes -/
example : ∃ r, charsRun 2 Rope.new [] [.insert 0 "a€b", .insert 2 "ü", .delete 0 1] = .ok r ∧ r.toStr = .ok "€üb" :=
  C50_history (by decide) _ ⟨by decide, by decide +kernel, by decide +kernel,
    show (utf8 _).length < 390626 by decide +kernel⟩

/-- the first byte of a character of two bytes is deleted -/
example : ∃ r0 r, Rope.new.insertStr 128 0 "ü" = .ok r0 ∧ r0.deleteRange 0 1 = .ok r ∧ r.toStr = .error .panic := by
  obtain ⟨r0, r, h1, h2, -, h3⟩ := C50_cut_panics (cap := 128) (by decide) "ü" (by decide +kernel) (p := 1) (by decide +kernel)
  refine ⟨r0, r, h1, h2, h3 ?_⟩
  rintro ⟨k, hk⟩
  match k with
  | 0 => revert hk; decide +kernel
  | k + 1 =>
    rw [byteAt, List.take_of_length_le (by show 1 ≤ k + 1; omega)] at hk
    revert hk; decide +kernel

/-- five bytes of text -/
example : ∃ r : Rope, r.toStr = .ok "a€b" := by
  obtain ⟨r, h1, h2⟩ := show ∃ r : Rope, charsRun 2 Rope.new [] [.insert 0 "a€b"] = .ok r ∧ r.toStr = .ok "a€b" from
    C50_history (by decide) _ ⟨by decide, show (utf8 _).length < 390626 by decide +kernel⟩
  cases hb : r.toBytes with
  | error e => rw [Rope.toStr, hb] at h2; cases h2
  | ok bytes => exact ⟨r, ((C50_to_string hb).1 _).mpr (((C50_to_string hb).1 _).mp h2)⟩

end GB
