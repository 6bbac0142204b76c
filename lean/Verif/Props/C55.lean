import Verif.Model.Harness
import Verif.Proof.RopeHist
import Verif.Proof.Check
import Verif.Props.C06
import Verif.Props.C50

/-!
# C55: the crate's rope fuzzing cannot fail

`ropeFuzz` (the test function `fuzz` of src/generic_impl/rope.rs) and `ropeTarget` (fuzz/fuzz_targets/rope.rs) compare a rope with
a `String` under arbitrary insertions and deletions.  No list of at most 130208 actions makes either of them panic: the rope, its
length and its string agree with the `String`, and `check()` passes.
-/

namespace GB
open Tree

/-- all characters take one byte -/
def Narrow (cs : List Char) : Prop := ∀ c ∈ cs, c.utf8Size = 1

theorem Narrow.append {a b : List Char} (ha : Narrow a) (hb : Narrow b) : Narrow (a ++ b) := by
  intro c hc
  rcases List.mem_append.mp hc with h | h
  · exact ha c h
  · exact hb c h

theorem Narrow.take {a : List Char} (ha : Narrow a) (k : Nat) : Narrow (a.take k) := fun c hc => ha c (List.mem_of_mem_take hc)

theorem Narrow.drop {a : List Char} (ha : Narrow a) (k : Nat) : Narrow (a.drop k) := fun c hc => ha c (List.mem_of_mem_drop hc)

theorem Narrow.strLen : ∀ {cs : List Char}, Narrow cs → strLen cs = cs.length
  | [], _ => rfl
  | c :: cs, h => by
    have ih := Narrow.strLen (cs := cs) fun x hx => h x (List.mem_cons_of_mem _ hx)
    rw [GB.strLen, List.map_cons, List.sum_cons, h c (by simp), List.length_cons]
    rw [GB.strLen] at ih
    omega

theorem strLen_utf8 : ∀ cs : List Char, (utf8 cs).length = strLen cs
  | [] => rfl
  | c :: cs => by
    have ih := strLen_utf8 cs
    rw [utf8, List.flatMap_cons, List.length_append, String.length_utf8EncodeChar, strLen, List.map_cons, List.sum_cons]
    rw [utf8, strLen] at ih
    omega

theorem Narrow.charIdx : ∀ {cs : List Char} {p : Nat}, Narrow cs → p ≤ cs.length → charIdx cs p = some p
  | _, 0, _, _ => by rw [GB.charIdx.eq_def]
  | [], p + 1, _, hp => by simp at hp
  | c :: cs, p + 1, h, hp => by
    rw [GB.charIdx, h c (by simp), if_pos (by omega), Nat.add_sub_cancel, Narrow.charIdx (fun x hx => h x (List.mem_cons_of_mem _ hx)) (by simpa using hp)]
    rfl

theorem Narrow.byteAt {cs : List Char} (h : Narrow cs) {k : Nat} (hk : k ≤ cs.length) : byteAt cs k = k := by
  rw [GB.byteAt, strLen_utf8, (h.take k).strLen, List.length_take]
  omega

theorem digit_size {c : Char} (h : c.isDigit) : c.utf8Size = 1 := by
  have h : 48 ≤ c.val ∧ c.val ≤ 57 := by simpa [Char.isDigit] using h
  have := UInt32.le_iff_toNat_le.mp h.2
  rw [Char.utf8Size_eq_one_iff]
  exact UInt32.le_iff_toNat_le.mpr (Nat.le_trans this (by decide))

theorem u8_narrow (n : UInt8) : Narrow (u8ToString n).toList ∧ (u8ToString n).toList.length ≤ 3 := by
  have h : (u8ToString n).toList = Nat.toDigits 10 n.toNat := Nat.toList_repr
  rw [h]
  refine ⟨fun c hc => digit_size (Nat.isDigit_of_mem_toDigits (by decide) (by decide) hc), ?_⟩
  rw [Nat.length_toDigits_le_iff (by decide) (by decide)]
  have := n.toNat_lt
  omega

/-- the rope agrees with the reference string -/
structure Agree (cap : Nat) (r : Rope) (truth : List Char) : Prop where
  inv : RopeInv cap ⟨1, 4⟩ r
  text : r.text = utf8 truth
  narrow : Narrow truth

variable {cap : Nat} {r : Rope} {cs : List Char}

theorem Agree.len (a : Agree cap r cs) : r.text.length = cs.length := by
  rw [a.text, strLen_utf8, a.narrow.strLen]

theorem ropeAct_ok (hcap : 0 < cap) (ag : Agree cap r cs) (hs : cs.length < 390626) (a : RopeAction) :
    ∃ r' cs', ropeAct cap r cs a = .ok (r', cs') ∧ Agree cap r' cs' ∧ cs'.length ≤ cs.length + 3 := by
  have low : ∀ o : RopeOp, (r.text ≠ [] → ∃ h, h ≤ 8 ∧ InvH (ropeLaw cap) ⟨1, 4⟩ h r.tree) ∨ o.run cap r ≠ .error .panic := fun o =>
    .inl fun _ => ag.inv.low (by rw [ag.len]; exact hs)
  have hl := ag.narrow.strLen
  cases a with
  | insert pos content =>
    obtain ⟨n1, n2⟩ := u8_narrow content
    have hp := Nat.mod_lt pos.toNat (Nat.zero_lt_succ cs.length)
    rw [ropeAct, hl]
    generalize pos.toNat % (cs.length + 1) = p at *
    obtain ⟨r', h1, h2, h3⟩ := ropeStep_spec hcap (by decide) ag.inv (o := .insert p (utf8 (u8ToString content).toList)) (low _) (by
      show p ≤ r.text.length; rw [ag.len]; omega)
    refine ⟨r', cs.take p ++ (u8ToString content).toList ++ cs.drop p, ?_, ⟨h2, ?_, ((ag.narrow.take p).append n1).append (ag.narrow.drop p)⟩, ?_⟩
    · have h1 : r.insertStr cap p (u8ToString content) = .ok r' := by rw [Rope.insertStr, utf8_str]; exact h1
      simp only [strInsert, ag.narrow.charIdx (show p ≤ cs.length by omega), unwrap, bind_ok, h1, pure, Except.pure]
    · rw [h3, ag.text, RopeOp.edit, utf8_append, utf8_append, ← utf8_take, ← utf8_drop, ag.narrow.byteAt (show p ≤ cs.length by omega)]
    · simp only [List.length_append, List.length_take, List.length_drop]; omega
  | delete pos len =>
    have hp := Nat.mod_lt pos.toNat (Nat.zero_lt_succ cs.length)
    rw [ropeAct, hl]
    generalize pos.toNat % (cs.length + 1) = p at *
    have hn : p + min (len.toNat % 10) (cs.length - p) ≤ cs.length := by omega
    generalize min (len.toNat % 10) (cs.length - p) = n at *
    obtain ⟨r', h1, h2, h3⟩ := ropeStep_spec hcap (by decide) ag.inv (o := .delete p (p + n)) (low _) trivial
    refine ⟨r', cs.take p ++ cs.drop (p + n), ?_, ⟨?_, ?_, (ag.narrow.take p).append (ag.narrow.drop (p + n))⟩, ?_⟩
    · have h1 : r.deleteRangeB (.included p) (.excluded (p + n)) = .ok r' := h1
      simp only [h1, strDrain, ag.narrow.charIdx (show p ≤ cs.length by omega), ag.narrow.charIdx hn, unwrap, bind_ok, pure, Except.pure, assertM,
        decide_eq_true (show p ≤ p + n by omega), if_true]
    · rw [fillAfter] at h2
      split at h2 <;> exact h2
    · rw [h3, ag.text, RopeOp.edit, utf8_append, ← utf8_take, ← utf8_drop, ag.narrow.byteAt hn, ag.narrow.byteAt (show p ≤ cs.length by omega)]
      split
      · rfl
      · rw [show n = 0 by omega, Nat.add_zero, List.take_append_drop]
    · simp only [List.length_append, List.length_take, List.length_drop]; omega

theorem Agree.check (ag : Agree cap r cs) (hs : cs.length < 390626) : check ropeTrait r.tree = .ok () := by
  obtain ⟨h, hh, hi⟩ := ag.inv.low (by rw [ag.len]; exact hs)
  rw [C06_check_iff (Nat.le_refl 1) hi (by omega)]
  intro he
  refine ⟨0, ?_⟩
  have h0 : r.text = [] := ag.inv.nil.mpr he
  have h1 := C07_rope_length (Nat.le_refl 1) ag.inv.inv
  rw [he] at h1
  rw [h1]
  rfl

theorem Agree.assert (ag : Agree cap r cs) (hs : cs.length < 390626) : ropeAssert r cs = .ok () := by
  obtain ⟨h, hh, hi⟩ := ag.inv.low (by rw [ag.len]; exact hs)
  have hb := (ag.inv.shows (Nat.le_refl 1) fun _ => ⟨h, by omega, hi⟩).bytes
  have ht := ((C50_to_string hb).1 (String.ofList cs)).mpr (by rw [String.toList_ofList, ag.text])
  rw [ropeAssert, ht]
  simp [assertM]

theorem ropeFuzz_ok (hcap : 0 < cap) : ∀ (as : List RopeAction) (r : Rope) (cs : List Char), Agree cap r cs → cs.length + 3 * as.length < 390626 →
    ropeFuzz cap r cs as = .ok ()
  | [], r, cs, ag, hs => ag.assert hs
  | a :: as, r, cs, ag, hs => by
    rw [List.length_cons] at hs
    obtain ⟨r', cs', h1, h2, h3⟩ := ropeAct_ok hcap ag (by omega) a
    have hs' : cs'.length < 390626 := by omega
    have hlen : r'.len = strLen cs' := by rw [h2.inv.len (Nat.le_refl 1), h2.len, h2.narrow.strLen]
    simp only [ropeFuzz, h1, bind_ok, h2.check hs', hlen, decide_true, assertM, if_true, h2.assert hs']
    exact ropeFuzz_ok hcap as r' cs' h2 (by omega)

theorem ropeTarget_ok (hcap : 0 < cap) : ∀ (as : List RopeAction) (r : Rope) (cs : List Char), Agree cap r cs → cs.length + 3 * as.length < 390626 →
    ropeTarget cap r cs as = .ok ()
  | [], r, cs, ag, hs => by
    simp only [ropeTarget, ag.check hs, bind_ok]
    exact ag.assert hs
  | a :: as, r, cs, ag, hs => by
    rw [List.length_cons] at hs
    obtain ⟨r', cs', h1, h2, h3⟩ := ropeAct_ok hcap ag (by omega) a
    simp only [ropeTarget, h1, bind_ok]
    exact ropeTarget_ok hcap as r' cs' h2 (by omega)

theorem agree_new : Agree cap Rope.new [] := ⟨ropeNew_inv (Nat.le_refl 1), by rw [Rope.text]; show (abs (newTree ropeTrait)).es.flatMap _ = []; rw [new_entries]; rfl, fun c hc => by cases hc⟩

/-- The test function `fuzz` passes on every list of actions, whatever the capacity of a chunk. -/
theorem C55_rope_fuzz (hcap : 0 < cap) (as : List RopeAction) (hs : as.length ≤ 130208) : ropeFuzz cap Rope.new [] as = .ok () :=
  ropeFuzz_ok hcap as _ _ agree_new (by rw [List.length_nil]; omega)

/-- The fuzz target passes on every list of actions. -/
theorem C55_rope_target (hcap : 0 < cap) (as : List RopeAction) (hs : as.length ≤ 130208) : ropeTarget cap Rope.new [] as = .ok () :=
  ropeTarget_ok hcap as _ _ agree_new (by rw [List.length_nil]; omega)

/-- three actions with chunks of four bytes: `"200"`, then `"72"` inserted at byte `5 % 4 = 1`, then bytes `2..4` deleted -/
example := C55_rope_fuzz (cap := 4) (by decide) [.insert 9 200, .insert 5 72, .delete 2 12] (by decide)

example := C55_rope_target (cap := 4) (by decide) [.insert 9 200, .insert 5 72, .delete 2 12] (by decide)

/-- the assertions are real: a reference string that differs is noticed -/
example : ropeFuzz 4 Rope.new ['x'] [] = .error .panic := rfl

example : ∃ r, ropeAct 4 Rope.new [] (.insert 9 200) = .ok (r, ['2', '0', '0']) := ⟨_, rfl⟩

end GB
