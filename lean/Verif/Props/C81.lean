import Verif.Model.Bench
import Verif.Props.C35
import Verif.Props.C55
import Verif.Props.C57

/-!
# C81: the benchmarks and the example compute what they are compared with

`benches/bench_rope.rs` runs the same random actions on a rope and on a `String`, `examples/rope.rs` runs them many times over, and both
replay the editing history of a text; `benches/bench_ord.rs` inserts the same keys into an `OrdTreeSet` and a `BTreeSet`.  Nothing is
compared there.  Here: for any actions the rope ends with the text of the `String`, and for any keys the two sets have the same members.
-/

namespace GB
open Tree

variable {cap : Nat} {r : Rope} {cs : List Char}

/-! ## Random actions -/

theorem benchAct_ok (hcap : 0 < cap) (ag : Agree cap r cs) (a : RopeAction)
    (hd : cs.length < 390626 ∨ (∃ p c, a = .insert p c) ∨ benchAct cap r a ≠ .error .panic) :
    ∃ r' cs', benchAct cap r a = .ok r' ∧ rawAct cs a = .ok cs' ∧ Agree cap r' cs' ∧ cs'.length ≤ cs.length + 3 := by
  have hl := ag.narrow.strLen
  have hrl : r.len = cs.length := by rw [ag.inv.len (Nat.le_refl 1), ag.len]
  cases a with
  | insert pos content =>
    obtain ⟨n1, n2⟩ := u8_narrow content
    have hp := Nat.mod_lt pos.toNat (Nat.zero_lt_succ cs.length)
    rw [benchAct, rawAct, hl, hrl]
    generalize pos.toNat % (cs.length + 1) = p at *
    obtain ⟨r', h1, h2, h3⟩ := C35_insert hcap (m := ⟨1, 4⟩) (by decide) ag.inv (i := p) (by rw [ag.len]; omega) (utf8 (u8ToString content).toList)
    refine ⟨r', cs.take p ++ (u8ToString content).toList ++ cs.drop p, ?_, ?_, ⟨h2, ?_, ((ag.narrow.take p).append n1).append (ag.narrow.drop p)⟩, ?_⟩
    · rw [Rope.insertStr, utf8_str]; exact h1
    · simp only [strInsert, ag.narrow.charIdx (show p ≤ cs.length by omega), unwrap, bind_ok, pure, Except.pure]
    · rw [h3, ag.text, utf8_append, utf8_append, ← utf8_take, ← utf8_drop, ag.narrow.byteAt (show p ≤ cs.length by omega)]
    · simp only [List.length_append, List.length_take, List.length_drop]; omega
  | delete pos len =>
    have hp := Nat.mod_lt pos.toNat (Nat.zero_lt_succ cs.length)
    rw [benchAct, hrl] at hd ⊢
    rw [rawAct, hl]
    generalize pos.toNat % (cs.length + 1) = p at *
    have hn : p + min (len.toNat % 10) (cs.length - p) ≤ cs.length := by omega
    generalize min (len.toNat % 10) (cs.length - p) = n at *
    obtain ⟨r', h1, h2, h3⟩ := ropeStep_spec hcap (by decide) ag.inv (o := .delete p (p + n)) (by
      rcases hd with hd | ⟨_, _, hd⟩ | hd
      · exact .inl fun _ => ag.inv.low (by rw [ag.len]; exact hd)
      · cases hd
      · exact .inr hd) trivial
    refine ⟨r', cs.take p ++ cs.drop (p + n), h1, ?_, ⟨?_, ?_, (ag.narrow.take p).append (ag.narrow.drop (p + n))⟩, ?_⟩
    · simp only [strDrain, ag.narrow.charIdx (show p ≤ cs.length by omega), ag.narrow.charIdx hn, unwrap, bind_ok, pure, Except.pure, assertM,
        decide_eq_true (show p ≤ p + n by omega), if_true]
    · rw [fillAfter] at h2
      split at h2 <;> exact h2
    · rw [h3, ag.text, RopeOp.edit, utf8_append, ← utf8_take, ← utf8_drop, ag.narrow.byteAt hn, ag.narrow.byteAt (show p ≤ cs.length by omega)]
      split
      · rfl
      · rw [show n = 0 by omega, Nat.add_zero, List.take_append_drop]
    · simp only [List.length_append, List.length_take, List.length_drop]; omega

theorem benchRope_ok (hcap : 0 < cap) : ∀ (as : List RopeAction) (r : Rope) (cs : List Char), Agree cap r cs →
    (∀ k raw, benchRaw cs (as.take k) = .ok raw → strLen raw < 390626) →
    ∃ r' raw, benchRope cap r as = .ok r' ∧ benchRaw cs as = .ok raw ∧ Agree cap r' raw ∧ raw.length < 390626
  | [], r, cs, ag, hs => ⟨r, cs, rfl, rfl, ag, by have := hs 0 cs rfl; rwa [ag.narrow.strLen] at this⟩
  | a :: as, r, cs, ag, hs => by
    have h0 := hs 0 cs rfl
    rw [ag.narrow.strLen] at h0
    obtain ⟨r1, cs1, h1, h2, h3, -⟩ := benchAct_ok hcap ag a (.inl h0)
    obtain ⟨r', raw, k1, k2, k3⟩ := benchRope_ok hcap as r1 cs1 h3 (by
      intro k raw hk
      exact hs (k + 1) raw (by rw [List.take_succ_cons, benchRaw, h2, bind_ok, hk]))
    exact ⟨r', raw, by rw [benchRope, h1, bind_ok, k1], by rw [benchRaw, h2, bind_ok, k2], k3⟩

theorem benchRope_any (hcap : 0 < cap) : ∀ (as : List RopeAction) (r : Rope) (cs : List Char), Agree cap r cs →
    (∀ a ∈ as, ∃ p c, a = .insert p c) ∨ benchRope cap r as ≠ .error .panic →
    ∃ r' raw, benchRope cap r as = .ok r' ∧ benchRaw cs as = .ok raw ∧ Agree cap r' raw
  | [], r, cs, ag, _ => ⟨r, cs, rfl, rfl, ag⟩
  | a :: as, r, cs, ag, hs => by
    obtain ⟨r1, cs1, h1, h2, h3, -⟩ := benchAct_ok hcap ag a (by
      rcases hs with hs | hs
      · exact .inr (.inl (hs a (by simp)))
      · exact .inr (.inr fun h => hs (by rw [benchRope, h]; rfl)))
    obtain ⟨r', raw, k1, k2, k3⟩ := benchRope_any hcap as r1 cs1 h3 (by
      rcases hs with hs | hs
      · exact .inl fun x hx => hs x (List.mem_cons_of_mem _ hx)
      · exact .inr fun h => hs (by rw [benchRope, h1, bind_ok, h]))
    exact ⟨r', raw, by rw [benchRope, h1, bind_ok, k1], by rw [benchRaw, h2, bind_ok, k2], k3⟩

theorem benchRaw_len : ∀ (as : List RopeAction) (cs raw : List Char), Narrow cs → benchRaw cs as = .ok raw → Narrow raw ∧ raw.length ≤ cs.length + 3 * as.length
  | [], cs, raw, hn, h => by cases h; exact ⟨hn, by simp⟩
  | a :: as, cs, raw, hn, h => by
    rw [benchRaw] at h
    obtain ⟨cs1, h1, h2⟩ := bind_inv h
    have : Narrow cs1 ∧ cs1.length ≤ cs.length + 3 := by
      cases a with
      | insert pos content =>
        obtain ⟨n1, n2⟩ := u8_narrow content
        have hp := Nat.mod_lt pos.toNat (Nat.zero_lt_succ cs.length)
        rw [rawAct, hn.strLen] at h1
        generalize pos.toNat % (cs.length + 1) = p at *
        simp only [strInsert, hn.charIdx (show p ≤ cs.length by omega), unwrap, bind_ok, pure, Except.pure] at h1
        cases h1
        refine ⟨((hn.take p).append n1).append (hn.drop p), ?_⟩
        simp only [List.length_append, List.length_take, List.length_drop]; omega
      | delete pos len =>
        have hp := Nat.mod_lt pos.toNat (Nat.zero_lt_succ cs.length)
        rw [rawAct, hn.strLen] at h1
        generalize pos.toNat % (cs.length + 1) = p at *
        have hq : p + min (len.toNat % 10) (cs.length - p) ≤ cs.length := by omega
        generalize min (len.toNat % 10) (cs.length - p) = n at *
        simp only [strDrain, hn.charIdx (show p ≤ cs.length by omega), hn.charIdx hq, unwrap, bind_ok, pure, Except.pure, assertM,
          decide_eq_true (show p ≤ p + n by omega), if_true] at h1
        cases h1
        refine ⟨(hn.take p).append (hn.drop (p + n)), ?_⟩
        simp only [List.length_append, List.length_take, List.length_drop]; omega
    obtain ⟨k1, k2⟩ := benchRaw_len as cs1 raw this.1 h2
    rw [List.length_cons]
    exact ⟨k1, by omega⟩

theorem Agree.str (ag : Agree cap r cs) (hs : cs.length < 390626) : r.toStr = .ok (String.ofList cs) := by
  obtain ⟨h, hh, hi⟩ := ag.inv.low (by rw [ag.len]; exact hs)
  have hb := (ag.inv.shows (Nat.le_refl 1) fun _ => ⟨h, by omega, hi⟩).bytes
  exact ((C50_to_string hb).1 (String.ofList cs)).mpr (by rw [String.toList_ofList, ag.text])

/-- "Rope 10K insert/delete" against "RawString": as long as the string is below 390626 bytes, neither panics and both have the same text. -/
theorem C81_random (hcap : 0 < cap) (as : List RopeAction) (hs : ∀ k raw, benchRaw [] (as.take k) = .ok raw → strLen raw < 390626) :
    ∃ r raw, benchRope cap Rope.new as = .ok r ∧ benchRaw [] as = .ok raw ∧ r.toStr = .ok (String.ofList raw) ∧ r.len = strLen raw := by
  obtain ⟨r, raw, h1, h2, h3, h4⟩ := benchRope_ok hcap as _ _ agree_new hs
  exact ⟨r, raw, h1, h2, h3.str h4, by rw [h3.inv.len (Nat.le_refl 1), h3.len, h3.narrow.strLen]⟩

/-- The benchmark as it is: whatever the ten thousand actions (up to 130208 would do). -/
theorem C81_random_10K (hcap : 0 < cap) (as : List RopeAction) (hs : as.length ≤ 130208) :
    ∃ r raw, benchRope cap Rope.new as = .ok r ∧ benchRaw [] as = .ok raw ∧ r.toStr = .ok (String.ofList raw) ∧ r.len = strLen raw := by
  refine C81_random hcap as fun k raw h => ?_
  obtain ⟨h1, h2⟩ := benchRaw_len _ _ _ (fun c hc => by cases hc) h
  have := List.length_take_le' k as
  rw [h1.strLen]
  rw [List.length_nil] at h2
  omega

theorem exampleRope_eq (as : List RopeAction) : ∀ k r, exampleRope cap k r as = benchRope cap r (List.replicate k as).flatten := by
  have happ : ∀ (xs ys : List RopeAction) r, benchRope cap r (xs ++ ys) = (benchRope cap r xs >>= fun r => benchRope cap r ys) := by
    intro xs
    induction xs with
    | nil => intro ys r; rfl
    | cons x xs ih =>
      intro ys r
      rw [List.cons_append, benchRope, benchRope]
      cases benchAct cap r x with
      | error e => rfl
      | ok r1 => rw [bind_ok, bind_ok, ih]
  intro k
  induction k with
  | zero => intro r; rfl
  | succ k ih =>
    intro r
    rw [exampleRope, List.replicate_succ, List.flatten_cons, happ]
    cases benchRope cap r as with
    | error e => rfl
    | ok r1 => exact ih r1

/-- The example: the actions `k` times over on one rope, as long as the string on which the same is done is below 390626 bytes. -/
theorem C81_example (hcap : 0 < cap) (as : List RopeAction) (k : Nat)
    (hs : ∀ j raw, benchRaw [] ((List.replicate k as).flatten.take j) = .ok raw → strLen raw < 390626) :
    ∃ r raw, exampleRope cap k Rope.new as = .ok r ∧ benchRaw [] (List.replicate k as).flatten = .ok raw ∧ r.toStr = .ok (String.ofList raw) ∧
      r.len = strLen raw := by
  rw [exampleRope_eq]
  exact C81_random hcap _ hs

/-- The example whatever the size of the text: if it does not panic the rope has the length and the bytes of the string; it does not panic if
nothing is deleted. -/
theorem C81_example_any (hcap : 0 < cap) (as : List RopeAction) (k : Nat)
    (hn : (∀ a ∈ as, ∃ p c, a = .insert p c) ∨ exampleRope cap k Rope.new as ≠ .error .panic) :
    ∃ r raw, exampleRope cap k Rope.new as = .ok r ∧ benchRaw [] (List.replicate k as).flatten = .ok raw ∧ r.len = strLen raw ∧
      (r.toBytes = .ok (utf8 raw) ∨ r.toBytes = .error .panic) := by
  rw [exampleRope_eq] at *
  obtain ⟨r, raw, h1, h2, h3⟩ := benchRope_any hcap _ _ _ agree_new (hn.imp_left fun h a ha => by
    obtain ⟨l, hl, ha⟩ := List.mem_flatten.mp ha
    rw [(List.mem_replicate.mp hl).2] at ha
    exact h a ha)
  refine ⟨r, raw, h1, h2, by rw [h3.inv.len (Nat.le_refl 1), h3.len, h3.narrow.strLen], ?_⟩
  obtain ⟨h, hi⟩ := h3.inv.inv
  obtain ⟨i1, i2⟩ := C35_read_iff (Nat.le_refl 1) h3.inv hi
  rw [← h3.text]
  by_cases hh : h ≤ 9 ∨ r.text = []
  · exact .inl (i1.mpr hh)
  · exact .inr (i2.mpr ⟨by omega, fun h => hh (.inr h)⟩)

/-! ## The editing history of a text -/

/-- the action on a byte string -/
def TextAction.edit (t : List UInt8) (a : TextAction) : List UInt8 := t.take a.pos ++ utf8 a.ins.toList ++ t.drop (a.pos + a.del)

/-- all actions on a byte string -/
def textAll : List UInt8 → List TextAction → List UInt8
  | t, [] => t
  | t, a :: as => textAll (a.edit t) as

/-- each insertion is within the text (deletions may reach beyond it) -/
def TextValid : List UInt8 → List TextAction → Prop
  | _, [] => True
  | t, a :: as => (a.ins = "" ∨ a.pos ≤ t.length) ∧ TextValid (a.edit t) as

theorem textAct_del (hcap : 0 < cap) (ri : RopeInv cap ⟨1, 4⟩ r) (hs : r.text.length < 390626) (a : TextAction) :
    ∃ r', (if 0 < a.del then r.deleteRangeB (.included a.pos) (.excluded (a.pos + a.del)) else pure r : M Rope) = .ok r' ∧ RopeInv cap ⟨1, 4⟩ r' ∧
      r'.text = r.text.take a.pos ++ r.text.drop (a.pos + a.del) := by
  split
  · obtain ⟨r', h1, h2, h3⟩ := ropeStep_spec hcap (by decide) ri (o := .delete a.pos (a.pos + a.del)) (.inl fun _ => ri.low hs) trivial
    refine ⟨r', h1, ?_, by rw [h3, RopeOp.edit, if_pos (by omega)]⟩
    rw [fillAfter] at h2
    split at h2 <;> exact h2
  · exact ⟨r, rfl, ri, by rw [show a.del = 0 by omega, Nat.add_zero, List.take_append_drop]⟩

theorem textAct_ok (hcap : 0 < cap) (ri : RopeInv cap ⟨1, 4⟩ r) (hs : r.text.length < 390626) (a : TextAction) (hv : a.ins = "" ∨ a.pos ≤ r.text.length) :
    ∃ r', textAct cap r a = .ok r' ∧ RopeInv cap ⟨1, 4⟩ r' ∧ r'.text = a.edit r.text := by
  obtain ⟨r1, h1, h2, h3⟩ := textAct_del hcap ri hs a
  rw [textAct, h1, bind_ok, TextAction.edit]
  by_cases he : a.ins = ""
  · exact ⟨r1, by rw [if_neg (fun h => h he)]; rfl, h2, by rw [h3, he]; simp [utf8]⟩
  · have hp : a.pos ≤ r.text.length := hv.resolve_left he
    obtain ⟨r', k1, k2, k3⟩ := C35_insert hcap (m := ⟨1, 4⟩) (by decide) h2 (i := a.pos)
      (by rw [h3, List.length_append, List.length_take]; omega) (utf8 a.ins.toList)
    refine ⟨r', ?_, k2, ?_⟩
    · rw [if_pos he, Rope.insertStr, utf8_str, k1]
    · rw [k3, h3, List.take_left' (by rw [List.length_take]; omega), List.drop_left' (by rw [List.length_take]; omega)]

theorem textAct_bad (hcap : 0 < cap) (ri : RopeInv cap ⟨1, 4⟩ r) (hs : r.text.length < 390626) (a : TextAction) (hi : a.ins ≠ "") (hp : r.text.length < a.pos) :
    textAct cap r a = .error .panic := by
  obtain ⟨r1, h1, h2, h3⟩ := textAct_del hcap ri hs a
  rw [textAct, h1, bind_ok, if_pos hi]
  refine C35_insert_out_of_range (Nat.le_refl 1) h2 ?_ _
  rw [h3, List.length_append, List.length_take, List.length_drop]
  omega

theorem textBench_ok (hcap : 0 < cap) : ∀ (as : List TextAction) (r : Rope), RopeInv cap ⟨1, 4⟩ r →
    (∀ k, (textAll r.text (as.take k)).length < 390626) → TextValid r.text as →
    ∃ r', textBench cap r as = .ok r' ∧ RopeInv cap ⟨1, 4⟩ r' ∧ r'.text = textAll r.text as
  | [], r, ri, _, _ => ⟨r, rfl, ri, rfl⟩
  | a :: as, r, ri, hs, hv => by
    obtain ⟨r1, h1, h2, h3⟩ := textAct_ok hcap ri (hs 0) a hv.1
    obtain ⟨r', k1, k2, k3⟩ := textBench_ok hcap as r1 h2 (fun k => by rw [h3]; exact hs (k + 1)) (by rw [h3]; exact hv.2)
    exact ⟨r', by rw [textBench, h1, bind_ok, k1], k2, by rw [k3, h3]; rfl⟩

theorem textBench_bad (hcap : 0 < cap) : ∀ (as : List TextAction) (r : Rope), RopeInv cap ⟨1, 4⟩ r →
    (∀ k, (textAll r.text (as.take k)).length < 390626) → ¬ TextValid r.text as → textBench cap r as = .error .panic
  | [], r, ri, _, hv => absurd trivial hv
  | a :: as, r, ri, hs, hv => by
    by_cases h : a.ins = "" ∨ a.pos ≤ r.text.length
    · obtain ⟨r1, h1, h2, h3⟩ := textAct_ok hcap ri (hs 0) a h
      have := textBench_bad hcap as r1 h2 (fun k => by rw [h3]; exact hs (k + 1)) (by rw [h3]; exact fun k => hv ⟨h, k⟩)
      rw [textBench, h1, bind_ok, this]
    · rw [textBench, textAct_bad hcap ri (hs 0) a (fun e => h (.inl e)) (by omega)]
      rfl

theorem ropeNew_text : Rope.new.text = [] := (ropeNew_inv (cap := 1) (m := 1) (by decide)).nil.mpr (by
  rw [show Rope.new.tree = newTree ropeTrait from rfl, new_entries])

/-- "Automerge paper" on any history of a text that stays below 390626 bytes: the rope has the bytes of the text. -/
theorem C81_text (hcap : 0 < cap) (as : List TextAction) (hs : ∀ k, (textAll [] (as.take k)).length < 390626) (hv : TextValid [] as) :
    ∃ r, textBench cap Rope.new as = .ok r ∧ r.toBytes = .ok (textAll [] as) ∧ r.len = (textAll [] as).length := by
  have ri : RopeInv cap ⟨1, 4⟩ Rope.new := ropeNew_inv (Nat.le_refl 1)
  obtain ⟨r, h1, h2, h3⟩ := textBench_ok hcap as Rope.new ri (by rw [ropeNew_text]; exact hs) (by rw [ropeNew_text]; exact hv)
  rw [ropeNew_text] at h3
  have hl := hs as.length
  rw [List.take_length] at hl
  obtain ⟨h, hh, hi⟩ := h2.low (by rw [h3]; exact hl)
  have sh := h2.shows (Nat.le_refl 1) fun _ => ⟨h, by omega, hi⟩
  rw [h3] at sh
  exact ⟨r, h1, sh.bytes, sh.len⟩

/-- It panics exactly if some insertion is beyond the end of the text. -/
theorem C81_text_panics_iff (hcap : 0 < cap) (as : List TextAction) (hs : ∀ k, (textAll [] (as.take k)).length < 390626) :
    textBench cap Rope.new as = .error .panic ↔ ¬ TextValid [] as := by
  constructor
  · intro h hv
    obtain ⟨r, h1, -⟩ := C81_text hcap as hs hv
    rw [h] at h1
    cases h1
  · intro hv
    exact textBench_bad hcap as Rope.new (ropeNew_inv (Nat.le_refl 1)) (by rw [ropeNew_text]; exact hs) (by rw [ropeNew_text]; exact hv)

/-- the action on a text whose positions count characters, as in the data set -/
def TextAction.editChars (t : List Char) (a : TextAction) : List Char := t.take a.pos ++ a.ins.toList ++ t.drop (a.pos + a.del)

/-- all actions on such a text -/
def textChars : List Char → List TextAction → List Char
  | t, [] => t
  | t, a :: as => textChars (a.editChars t) as

theorem textChars_utf8 : ∀ (as : List TextAction) (t : List Char), Narrow t → (∀ a ∈ as, Narrow a.ins.toList) → textAll (utf8 t) as = utf8 (textChars t as)
  | [], _, _, _ => rfl
  | a :: as, t, ht, ha => by
    have hn := ha a (by simp)
    have hlen : (utf8 t).length = t.length := by rw [strLen_utf8, ht.strLen]
    have tk : ∀ k, (utf8 t).take k = utf8 (t.take k) := by
      intro k
      rcases Nat.le_total k t.length with h | h
      · rw [← utf8_take, ht.byteAt h]
      · rw [List.take_of_length_le (by omega), List.take_of_length_le h]
    have dk : ∀ k, (utf8 t).drop k = utf8 (t.drop k) := by
      intro k
      rcases Nat.le_total k t.length with h | h
      · rw [← utf8_drop, ht.byteAt h]
      · rw [List.drop_of_length_le (by omega), List.drop_of_length_le h]; rfl
    have he : a.edit (utf8 t) = utf8 (a.editChars t) := by
      rw [TextAction.edit, TextAction.editChars, utf8_append, utf8_append, tk, dk]
    rw [textAll, textChars, he]
    exact textChars_utf8 as _ (((ht.take _).append hn).append (ht.drop _)) fun x hx => ha x (List.mem_cons_of_mem _ hx)

/-- If the inserted characters take one byte each, it does not matter that the rope counts bytes and the data set characters: the rope's
string is the text. -/
theorem C81_text_ascii (hcap : 0 < cap) (as : List TextAction) (ha : ∀ a ∈ as, ∀ c ∈ a.ins.toList, c.utf8Size = 1)
    (hs : ∀ k, (textAll [] (as.take k)).length < 390626) (hv : TextValid [] as) :
    ∃ r, textBench cap Rope.new as = .ok r ∧ r.toStr = .ok (String.ofList (textChars [] as)) := by
  obtain ⟨r, h1, h2, -⟩ := C81_text hcap as hs hv
  refine ⟨r, h1, ((C50_to_string h2).1 (String.ofList (textChars [] as))).mpr ?_⟩
  rw [String.toList_ofList]
  have := textChars_utf8 as [] (fun c hc => by cases hc) ha
  exact this.symm

/-- With other characters it does matter: "é" and then "x" at position 1 is the text "éx", but the rope puts the "x" between the two bytes
of "é" and `to_string` panics. -/
theorem C81_text_chars_false (hcap : 0 < cap) : textChars [] [⟨0, "é", 0⟩, ⟨1, "x", 0⟩] = ['é', 'x'] ∧
    ∃ r, textBench cap Rope.new [⟨0, "é", 0⟩, ⟨1, "x", 0⟩] = .ok r ∧ r.toStr = .error .panic := by
  refine ⟨rfl, ?_⟩
  obtain ⟨r, h1, h2, -⟩ := C81_text hcap [⟨0, "é", 0⟩, ⟨1, "x", 0⟩] (by
    intro k
    have : k = 0 ∨ k = 1 ∨ 2 ≤ k := by omega
    rcases this with rfl | rfl | h
    · decide
    · decide
    · rw [List.take_of_length_le (by exact h)]
      decide) ⟨.inr (by decide), .inr (by decide), trivial⟩
  refine ⟨r, h1, (C50_to_string h2).2.mpr ?_⟩
  rintro ⟨cs, h⟩
  have h : cs.flatMap String.utf8EncodeChar = [0xC3, 0x78, 0xA9] := h
  cases cs with
  | nil => cases h
  | cons c cs =>
    have hv : ([0xC3, 0x78, 0xA9] : List UInt8).toByteArray.IsValidUTF8 := ⟨c :: cs, (List.toByteArray_inj.mpr h).symm⟩
    revert hv
    decide

/-! ## Keys -/

section
variable {K : Type} [Ord K]

theorem stdInsert_keys (k : K) : ∀ l : List (K × Unit), (asInsert k () l).map Prod.fst = stdInsert k (l.map Prod.fst)
  | [] => rfl
  | (a, b) :: l => by
    rw [asInsert, List.map_cons, stdInsert]
    show _ = match compare k a with
      | .lt => _
      | .eq => _
      | .gt => _
    cases compare k a with
    | lt => rfl
    | eq => rfl
    | gt => exact congrArg (a :: ·) (stdInsert_keys k l)

theorem stdInsert_len (x : K) : ∀ l : List K, (stdInsert x l).length ≤ l.length + 1
  | [] => by simp [stdInsert]
  | y :: l => by
    rw [stdInsert]
    have := stdInsert_len x l
    split <;> simp only [List.length_cons] <;> omega

theorem benchStd_len : ∀ (data l : List K), (benchStd l data).length ≤ l.length + data.length
  | [], l => by simp [benchStd]
  | x :: xs, l => by
    have := benchStd_len xs (stdInsert x l)
    have := stdInsert_len x l
    rw [benchStd, List.length_cons]
    omega

variable [Std.TransOrd K]

theorem benchOrd_ok : ∀ (data : List K) (t : OrdSet K), t.map.Ok →
    ∃ t', setInsertAll t data = .ok t' ∧ t'.map.Ok ∧ t'.map.assoc.map Prod.fst = benchStd (t.map.assoc.map Prod.fst) data
  | [], t, ok => ⟨t, rfl, ok, rfl⟩
  | k :: ks, t, ok => by
    obtain ⟨m1, h1, h2, h3⟩ := OrdMap.insert_spec ok k ()
    obtain ⟨t', k1, k2, k3⟩ := benchOrd_ok ks ⟨m1⟩ h2
    refine ⟨t', ?_, k2, ?_⟩
    · rw [setInsertAll, OrdSet.insert, h1, bind_ok]
      exact k1
    · rw [k3, benchStd]
      show benchStd (m1.assoc.map Prod.fst) ks = _
      rw [h3, stdInsert_keys]

/-- "OrdTree 100K insert" against "std BTree 100K insert": the tree never panics, has as many members as the `BTreeSet`, and (below twenty million
keys) iterates over the same keys in the same order. -/
theorem C81_ord (data : List K) :
    ∃ t, benchOrd data = .ok t ∧ t.len = (benchStd [] data).length ∧ (data.length < 20155392 → t.iter = .ok (benchStd [] data)) := by
  obtain ⟨t, h1, h2, h3⟩ := benchOrd_ok data OrdSet.new OrdMap.new_ok
  rw [show (OrdSet.new : OrdSet K).map.assoc.map Prod.fst = [] by rw [OrdSet.new, OrdMap.new_assoc]; rfl] at h3
  have hl : t.len = (benchStd [] data).length := by rw [OrdSet.len, h2.len, ← h3, List.length_map]
  refine ⟨t, h1, hl, fun hd => ?_⟩
  have hb := benchStd_len data ([] : List K)
  rw [List.length_nil] at hb
  have h := OrdMap.iter_spec h2 (by rw [← OrdSet.len, hl]; omega)
  rw [OrdMap.iter] at h
  rw [OrdSet.iter, OrdMap.iterKey, h, bind_ok, ← h3]
  rfl

end

/-! ## Cases -/

example := C81_random_10K (cap := 4) (by decide) [.insert 9 200, .insert 5 72, .delete 2 12] (by decide)

/-- `"200"`, then `"72"` at byte `5 % 4 = 1`, then bytes `2..4` deleted -/
example : benchRaw [] [.insert 9 200, .insert 5 72, .delete 2 12] = .ok ['2', '7', '0'] := rfl

example := C81_example_any (cap := 4) (by decide) [.insert 9 200, .insert 5 72] 1000000 (.inl (by
  intro a ha
  simp only [List.mem_cons, List.not_mem_nil, or_false] at ha
  rcases ha with rfl | rfl
  · exact ⟨_, _, rfl⟩
  · exact ⟨_, _, rfl⟩))

/-- "abcd", "xy" for "bc", and the last character deleted with a range that reaches beyond the end -/
def historySample : List TextAction := [⟨0, "abcd", 0⟩, ⟨1, "xy", 2⟩, ⟨3, "", 7⟩]

theorem historySample_ok : (∀ a ∈ historySample, ∀ c ∈ a.ins.toList, c.utf8Size = 1) ∧ TextValid [] historySample ∧ textChars [] historySample = ['a', 'x', 'y'] := by
  refine ⟨?_, ?_, rfl⟩
  · intro a ha
    simp only [historySample, List.mem_cons, List.not_mem_nil, or_false] at ha
    rcases ha with rfl | rfl | rfl <;> decide
  · exact ⟨.inr (by decide), .inr (by decide), .inl rfl, trivial⟩

example := (C81_text_ascii (cap := 4) (by decide) historySample historySample_ok.1 (by
  intro k
  have : k = 0 ∨ k = 1 ∨ k = 2 ∨ 3 ≤ k := by omega
  rcases this with rfl | rfl | rfl | h
  · decide
  · decide
  · decide
  · rw [List.take_of_length_le (by exact h)]
    decide) historySample_ok.2.1)

/-- an insertion beyond the end -/
example : textBench 4 Rope.new [⟨1, "x", 0⟩] = .error .panic :=
  (C81_text_panics_iff (by decide) _ (by
    intro k
    have : k = 0 ∨ 1 ≤ k := by omega
    rcases this with rfl | h
    · decide
    · rw [List.take_of_length_le (by exact h)]
      decide)).mpr (fun h => by
    rcases h.1 with h | h
    · exact absurd h (by decide)
    · exact absurd h (by decide))

example : ∃ t, benchOrd [5, 3, 9, 3] = .ok t ∧ t.len = 3 ∧ t.iter = .ok [3, 5, 9] := by
  obtain ⟨t, h1, h2, h3⟩ := C81_ord [5, 3, 9, 3]
  exact ⟨t, h1, h2, h3 (by decide)⟩

end GB
