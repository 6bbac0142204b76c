import Verif.Model.Harness
import Verif.Proof.RopeHist
import Verif.Props.C06
import Verif.Props.C17
import Verif.Props.C26
import Verif.Props.C38
import Verif.Props.C50
import Verif.Props.C55

/-!
# C58: the crate's tests of ropes built from strings, for all strings

The tests `from_str`, `from_iter` and `drain` of src/generic_impl/rope.rs run on the decimal numerals below 100000.  Here they run on
any strings.
-/

namespace GB
open Tree
variable {cap : Nat}

theorem str_size (s : String) : s.toUTF8.data.toList.length = s.utf8ByteSize := by
  show s.toByteArray.data.toList.length = s.toByteArray.size
  rw [Array.length_toList]; rfl

theorem fromStr_ok (hcap : 0 < cap) (s : List UInt8) : ∃ gs, GapBuf.fromStr cap s = .ok gs ∧ gs.flatMap GapBuf.toVec = s ∧
    (∀ g ∈ gs, g.WF ∧ g.capacity = cap ∧ g.toVec ≠ []) ∧ ∀ g ∈ gs.dropLast, g.toVec.length = cap :=
  GapBuf.fromStrF_spec cap hcap _ s (Nat.lt_succ_self _)

/-- The test `from_str` passes exactly on the strings that fit one chunk, other than the empty one. -/
theorem C58_from_str (hcap : 0 < cap) (s : String) :
    (0 < s.utf8ByteSize ∧ s.utf8ByteSize ≤ cap → fromStrTest cap s = .ok ()) ∧
    (¬ (0 < s.utf8ByteSize ∧ s.utf8ByteSize ≤ cap) → fromStrTest cap s = .error .panic) := by
  obtain ⟨gs, h1, h2, h3, h4⟩ := fromStr_ok hcap s.toUTF8.data.toList
  have hs := str_size s
  rw [fromStrTest, h1, bind_ok]
  match gs, h2, h3, h4 with
  | [], h2, _, _ =>
    rw [← hs, ← h2]
    exact ⟨fun h => absurd h.1 (by simp), fun _ => rfl⟩
  | [g], h2, h3, _ =>
    obtain ⟨w, c, ne⟩ := h3 g (by simp)
    have hl := GapBuf.toVec_length g w
    have h2 : g.toVec = s.toUTF8.data.toList := by simpa using h2
    have e : s.utf8ByteSize = g.len := by rw [← hs, ← h2, hl]
    have : g.len ≤ cap := by
      rw [← c, GapBuf.len, GapBuf.capacity]; omega
    have : 0 < g.len := by
      have := List.length_pos_iff.mpr ne
      omega
    refine ⟨fun _ => ?_, fun h => absurd ⟨by omega, by omega⟩ h⟩
    simp only [List.head?_cons, unwrap, bind_ok, e, decide_true, assertM, if_true]
  | g :: g' :: gs, h2, h3, h4 =>
    obtain ⟨w, c, ne⟩ := h3 g (by simp)
    obtain ⟨w', c', ne'⟩ := h3 g' (by simp)
    have hl := GapBuf.toVec_length g w
    have hg := h4 g (by simp)
    have : 0 < g'.toVec.length := List.length_pos_iff.mpr ne'
    have e : g.toVec.length + (g'.toVec.length + (gs.flatMap GapBuf.toVec).length) = s.utf8ByteSize := by
      rw [← hs, ← h2]; simp
    refine ⟨fun h => by omega, fun _ => ?_⟩
    simp only [List.head?_cons, unwrap, bind_ok, decide_eq_false (show ¬ s.utf8ByteSize = g.len by omega), assertM]
    rfl

theorem chunksAll_ok (hcap : 0 < cap) : ∀ v : List String, ∃ gs, chunksAll cap v = .ok gs ∧ gs.flatMap GapBuf.toVec = utf8 (String.join v).toList ∧
    ∀ g ∈ gs, g.WF ∧ g.capacity = cap ∧ g.toVec ≠ []
  | [] => ⟨[], rfl, rfl, by simp⟩
  | s :: ss => by
    obtain ⟨g, h1, h2, h3, -⟩ := fromStr_ok hcap s.toUTF8.data.toList
    obtain ⟨gs, k1, k2, k3⟩ := chunksAll_ok hcap ss
    refine ⟨g ++ gs, by simp only [chunksAll, h1, k1, bind_ok, pure_ok], ?_, ?_⟩
    · rw [List.flatMap_append, h2, k2, String.toList_join, String.toList_join, List.flatMap_cons, utf8_append, utf8_str]
    · intro x hx
      rcases List.mem_append.mp hx with hx | hx
      · exact h3 x hx
      · exact k3 x hx

theorem chunks_le : ∀ gs : List GapBuf, (∀ g ∈ gs, g.toVec ≠ []) → gs.length ≤ (gs.flatMap GapBuf.toVec).length
  | [], _ => Nat.zero_le _
  | g :: gs, h => by
    have := chunks_le gs fun x hx => h x (List.mem_cons_of_mem _ hx)
    have := List.length_pos_iff.mpr (h g (by simp))
    rw [List.flatMap_cons, List.length_append, List.length_cons]
    omega

/-- The test `from_iter` passes for all strings of together at most 10⁹ bytes. -/
theorem C58_from_iter (hcap : 0 < cap) (v : List String) (hn : (String.join v).utf8ByteSize ≤ 10 ^ 9) : fromIterTest cap v = .ok () := by
  obtain ⟨gs, h1, h2, h3⟩ := chunksAll_ok hcap v
  have hlen : (utf8 (String.join v).toList).length = (String.join v).utf8ByteSize := by rw [← utf8_str, str_size]
  obtain ⟨t, h, k1, k2, k3, k4⟩ := C26_from_iter (ropeLaw cap) gs fun g hg => ⟨(h3 g hg).1, (h3 g hg).2.1⟩
  obtain ⟨t', l1, l2, l3, l4⟩ := C26_rope cap gs fun g hg => ⟨(h3 g hg).1, (h3 g hg).2.1⟩
  rw [k1] at l1
  cases l1
  have h9 : h ≤ 9 := by
    apply Decidable.byContradiction
    intro hc
    have a1 := k4 (by omega)
    have a2 : 10 ^ 9 ≤ 10 ^ (h - 1) := Nat.pow_le_pow_right (by decide) (by omega)
    have a3 := chunks_le gs fun g hg => (h3 g hg).2.2
    rw [h2, hlen] at a3
    omega
  have htext : (Rope.mk t none).text = utf8 (String.join v).toList := by rw [← h2, ← l3]; rfl
  have hb := ropeBytes_spec (r := ⟨t, none⟩) (Nat.le_refl 1) k2 h9
  have hstr := ((C50_to_string hb).1 (String.join v)).mpr htext.symm
  have hl : (Rope.mk t none).len = (String.join v).utf8ByteSize := by
    rw [Rope.len, l4, h2, hlen]; rfl
  have hck : check ropeTrait t = .ok () := by
    rw [C06_check_iff (Nat.le_refl 1) k2 h9]
    intro he
    refine ⟨0, ?_⟩
    rw [C07_rope_length (Nat.le_refl 1) l2, he]
    rfl
  simp only [fromIterTest, h1, k1, bind_ok, hstr, hl, hck, decide_true, assertM, if_true]

theorem insertFront_ok (hcap : 0 < cap) : ∀ (ss : List String) (r : Rope), RopeInv cap ⟨1, 4⟩ r → ∃ r', insertFront cap r ss = .ok r' ∧ RopeInv cap ⟨1, 4⟩ r'
  | [], r, ri => ⟨r, rfl, ri⟩
  | s :: ss, r, ri => by
    obtain ⟨r1, h1, h2, -⟩ := ropeInsert_spec hcap (by decide) ri (Nat.zero_le _) s.toUTF8.data.toList
    obtain ⟨r2, k1, k2⟩ := insertFront_ok hcap ss r1 h2
    exact ⟨r2, by simp only [insertFront, Rope.insertStr, h1, bind_ok, k1], k2⟩

theorem drainLoop_ok : ∀ (n : Nat) (r : Rope), Inv (ropeLaw cap) ⟨1, 4⟩ r.tree → (∀ x ∈ (abs r.tree).es, 0 < x.2.len) → r.text.length < n →
    ∃ r', drainLoop n r = .ok r' ∧ r'.text = [] ∧ r'.len = 0
  | 0, _, _, _, hn => absurd hn (Nat.not_lt_zero _)
  | n + 1, r, hi, hpos, hn => by
    have hlen := C07_rope_length (Nat.le_refl 1) hi
    have hlen : r.tree.rootCache = r.text.length := hlen
    by_cases he : r.text = []
    · refine ⟨r, ?_, he, by rw [Rope.len, hlen, he]; rfl⟩
      rw [drainLoop, Rope.isEmpty, hlen, he, if_pos (by simp)]
    · obtain ⟨l, e, V, hes⟩ : ∃ l e V, (abs r.tree).es = (l, e) :: V := by
        match hx : (abs r.tree).es with
        | [] => exact absurd (by rw [Rope.text, hx]; rfl) he
        | (l, e) :: V => exact ⟨l, e, V, rfl⟩
      have hf := (C17_ends (Nat.le_refl 1) hi).1
      rw [hes] at hf
      obtain ⟨w, c⟩ := hi.okE (l, e) (by show _ ∈ (abs r.tree).es; rw [hes]; simp)
      have hp := hpos (l, e) (by rw [hes]; simp)
      have hv := GapBuf.toVec_length e w
      obtain ⟨g, g1, g2, g3, g4⟩ := C38_slice_in_place e w 1 1 (Nat.le_refl 1) (by rw [hv]; exact hp)
      have g4 : g.toVec = [] := by
        rw [g4]
        exact List.drop_eq_nil_of_le (by simp; omega)
      obtain ⟨b, ids, s', u1, u2, u3, u4, -⟩ := rope_updateLeaf (by decide) hi hpos (U := []) hes (f := fun e => do
        let g ← e.sliceMutB (.included 1) (.excluded 1)
        pure (g, true, none, none)) (by
          have : e.sliceMutB (.included 1) (.excluded 1) = .ok g := g1
          rw [this]; rfl) ⟨g2, by rw [g3]; exact c⟩ (by intro b h; cases h)
      have ht : (Rope.mk s' r.cursor).text.length < r.text.length := by
        have a1 : (Rope.mk s' r.cursor).text = content GapBuf.toVec V := by
          show content GapBuf.toVec (abs s').es = _
          rw [u4, g4]; simp [content]
        have a2 : r.text = e.toVec ++ content GapBuf.toVec V := by
          rw [Rope.text, hes]; rfl
        have hp : 0 < e.len := hp
        rw [a1, a2, List.length_append]
        omega
      obtain ⟨r', q1, q2⟩ := drainLoop_ok n ⟨s', r.cursor⟩ u2 u3 (by omega)
      refine ⟨r', ?_, q2⟩
      have h0 : r.isEmpty = false := by
        rw [Rope.isEmpty, hlen, decide_eq_false_iff_not]
        have := List.length_pos_iff.mpr he
        omega
      rw [drainLoop, h0, if_neg (by decide), hf]
      simp only [List.head?_cons, Option.map_some, unwrap, bind_ok, u1]
      exact q1

/-- The test `drain` ends without a panic for all strings: cutting the first chunk to nothing removes it, until the rope is empty. -/
theorem C58_drain (hcap : 0 < cap) (ss : List String) : drainTest cap ss = .ok () := by
  obtain ⟨r, h1, h2⟩ := insertFront_ok hcap ss Rope.new (ropeNew_inv (Nat.le_refl 1))
  obtain ⟨r', k1, -⟩ := drainLoop_ok (r.len + 1) r h2.inv h2.pos (by rw [h2.len (Nat.le_refl 1)]; omega)
  simp only [drainTest, h1, k1, bind_ok, pure_ok]

example : fromStrTest 4 "née" = .ok () := (C58_from_str (by decide) "née").1 (by decide)

/-- the numerals of the test fit a chunk, longer strings do not -/
example : fromStrTest 4 "12345" = .error .panic := (C58_from_str (by decide) "12345").2 (by decide)

example := C58_from_iter (cap := 4) (by decide) ["0", "", "12345", "née"] (by decide)

example := C58_drain (cap := 4) (by decide) ["0", "", "12345", "née"]

end GB
