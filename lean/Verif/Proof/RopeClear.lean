import Verif.Proof.RopeHist

/-!
# Ropes after `clear`
-/

namespace GB
open Tree
variable {cap : Nat} {m : Fill}

/-- pushing keeps the number of the first leaf -/
theorem push_head {t : Seq GapBuf} {g : GapBuf} {c : Cursor} {t' : Seq GapBuf} (h : specPush ropeTrait t g = .ok (c, t'))
    (h0 : (t.es = [] ∧ t.next = 0) ∨ ∃ e V, t.es = (0, e) :: V) : ∃ e V, t'.es = (0, e) :: V := by
  unfold specPush at h
  split at h
  · next l x hl =>
    obtain ⟨es, hes⟩ := getLast_split hl
    rcases h0 with ⟨h0, -⟩ | ⟨e, V, h0⟩
    · rw [h0] at hl; cases hl
    · split at h
      · obtain ⟨x', -, q⟩ := bind_inv h
        cases q
        cases V with
        | nil =>
          rw [h0] at hl
          cases hl
          exact ⟨x', [], by rw [h0]; rfl⟩
        | cons y V => exact ⟨e, (y :: V).dropLast ++ [(l, x')], by rw [h0]; rfl⟩
      · cases h
        exact ⟨e, V ++ [(t.next, g)], by rw [h0]; rfl⟩
  · next hl =>
    cases h
    rw [List.getLast?_eq_none_iff] at hl
    rcases h0 with ⟨-, h0⟩ | ⟨e, V, h0⟩
    · exact ⟨g, [], by rw [h0]⟩
    · rw [h0] at hl; cases hl

theorem pushAll_head (hm : 1 ≤ m.lo ∧ m.lo + m.d ≤ 6) : ∀ (gs : List GapBuf) (s s' : Tree GapBuf Int), Inv (ropeLaw cap) m s → (∀ g ∈ gs, g.WF ∧ g.capacity = cap) →
    Rope.pushAll s gs = .ok s' → (gs ≠ [] ∧ (abs s).es = [] ∧ (abs s).next = 0) ∨ (∃ e V, (abs s).es = (0, e) :: V) → ∃ e V, (abs s').es = (0, e) :: V := by
  intro gs
  induction gs with
  | nil =>
    intro s s' _ _ h h0
    cases h
    rcases h0 with ⟨h0, -⟩ | h0
    · exact absurd rfl h0
    · exact h0
  | cons g gs ih =>
    intro s s' hi hg h h0
    obtain ⟨c, s1, h1, h2, h3⟩ := C01_push (B := ropeTrait) (A := ropeLaw cap) (e := g) hm hi (hg g (by simp))
    rw [Rope.pushAll, h1, bind_ok] at h
    refine ih s1 s' h2 (fun x hx => hg x (by simp [hx])) h (.inr (push_head h3 ?_))
    rcases h0 with ⟨-, h0, h0'⟩ | h0
    · exact .inl ⟨h0, h0'⟩
    · exact .inr h0

/-- text in a cleared rope; whatever cursor was cached still is -/
theorem clear_insert (hcap : 0 < cap) (hm : 1 ≤ m.lo ∧ m.lo + m.d ≤ 5) (c : Option RopeCursor) (bytes : List UInt8) :
    ∃ t, Rope.insert cap ⟨newTree ropeTrait, c⟩ 0 bytes = .ok ⟨t, c⟩ ∧ RopeInv cap m ⟨t, none⟩ ∧ (⟨t, none⟩ : Rope).text = bytes ∧
      (bytes ≠ [] → ∃ e V, (abs t).es = (0, e) :: V) ∧ (bytes = [] → t = newTree ropeTrait) := by
  have ri0 := ropeNew_inv (cap := cap) (m := m) hm.1
  have he0 : (abs (newTree ropeTrait)).es = [] := by rw [new_entries]
  obtain ⟨gs, k3, k4, k5, -⟩ := GapBuf.fromStrF_spec cap hcap _ bytes (Nat.lt_succ_self _)
  have k3 : GapBuf.fromStr cap bytes = _ := k3
  obtain ⟨t, h1, h2, h3, h4⟩ := pushAll_spec hm gs (newTree ropeTrait) ri0.inv ri0.pos k5
  have hgs : gs = [] ↔ bytes = [] := by
    rw [← k4]
    constructor
    · rintro rfl; rfl
    · intro h
      cases gs with
      | nil => rfl
      | cons g gs =>
        rw [List.flatMap_cons, List.append_eq_nil_iff] at h
        exact absurd h.1 (k5 g (by simp)).2.2
  refine ⟨t, ?_, ⟨h2, h3, by intro c hc; cases hc⟩, ?_, ?_, ?_⟩
  · have hlen : (⟨newTree ropeTrait, c⟩ : Rope).len = 0 := rfl
    have hemp : (⟨newTree ropeTrait, c⟩ : Rope).isEmpty = true := rfl
    rw [Rope.insert, hlen, hemp, if_neg (by omega), if_pos rfl]
    simp only [k3, bind_ok, h1, pure_ok]
  · rw [Rope.text, h4, k4, he0]; rfl
  · intro hb
    exact pushAll_head ⟨hm.1, by omega⟩ gs _ _ ri0.inv (fun g hg => ⟨(k5 g hg).1, (k5 g hg).2.1⟩) h1
      (.inl ⟨fun h => hb (hgs.mp h), he0, rfl⟩)
  · intro hb
    rw [hgs.mpr hb] at h1
    exact (Except.ok.inj h1).symm

/-- the fast path looks only at the offset of the index to the position of the cursor -/
theorem insertFast_shift {t : Tree GapBuf Int} {leaf pos pos' k : Nat} {bytes : List UInt8} {success : Bool} {r : Rope}
    (h : Rope.insertFast cap ⟨t, some ⟨pos, leaf⟩⟩ (pos + k) bytes = .ok (some (success, r))) :
    ∃ c, Rope.insertFast cap ⟨t, some ⟨pos', leaf⟩⟩ (pos' + k) bytes = .ok (some (success, ⟨r.tree, c⟩)) := by
  simp only [Rope.insertFast] at h ⊢
  rw [if_pos (by omega)] at h ⊢
  obtain ⟨node, h1, h2⟩ := bind_inv h
  split at h2
  · next hle =>
    rw [show pos + k - pos = k by omega] at h2
    obtain ⟨⟨sc, z⟩, h3, h4⟩ := bind_inv h2
    obtain ⟨⟨v, ids, t'⟩, h5, h6⟩ := bind_inv h4
    cases h6
    rw [h1, bind_ok, if_pos (by omega), show pos' + k - pos' = k by omega, h3, bind_ok]
    simp only
    rw [h5]
    exact ⟨_, rfl⟩
  · cases h2

/-- a cursor that is out of place: the byte goes to the start of its leaf, not to the position of the cursor -/
theorem insertFast_astray (hcap : 2 ≤ cap) (hm : 1 ≤ m.lo ∧ m.lo + m.d ≤ 5) {t : Tree GapBuf Int} (ri : RopeInv cap m ⟨t, none⟩) {leaf pos : Nat} {U V : List (Nat × GapBuf)}
    {e : GapBuf} (hes : (abs t).es = U ++ (leaf, e) :: V) (x : UInt8) :
    ∃ r, Rope.insertFast cap ⟨t, some ⟨pos, leaf⟩⟩ pos [x] = .ok (some (true, r)) ∧ Inv (ropeLaw cap) m r.tree ∧ r.text = splice (⟨t, none⟩ : Rope).text (unitLen ropeTrait U) [x] := by
  have ri' : RopeInv cap m ⟨t, some ⟨unitLen ropeTrait U, leaf⟩⟩ := ⟨ri.inv, ri.pos, by intro c hc; cases hc; exact ⟨U, e, V, hes, rfl⟩⟩
  have hok := ri.okE (leaf, e) (by show _ ∈ (abs t).es; rw [hes]; simp)
  have hget : ∃ q, t.getLf leaf = .ok ⟨e, q⟩ := by
    obtain ⟨h, ⟨lvl, g⟩, sz⟩ := ri.inv
    exact getLf_entries g.wf (show (leaf, e) ∈ entries t by rw [show entries t = _ from hes]; simp)
  obtain ⟨q, hq⟩ := hget
  obtain ⟨success, e1, n1, k1, -, -, -, k5⟩ := insertClosure_spec hok (offset := 0) (Nat.zero_le _) [x]
  have hs : success = true := k5 (by simp only [List.length_singleton]; omega)
  subst hs
  rcases insertFast_spec hm ri' (unitLen ropeTrait U) [x] with hf | ⟨success, r', hf, ri2, ht⟩
  · exfalso
    simp only [Rope.insertFast, Nat.le_refl, if_true, hq, bind_ok, Nat.sub_self, k1] at hf
    rw [if_pos (by omega)] at hf
    obtain ⟨z, -, hz⟩ := bind_inv hf
    cases hz
  · have hs : success = true := by
      have hf' := hf
      simp only [Rope.insertFast, Nat.le_refl, if_true, hq, bind_ok, Nat.sub_self, k1] at hf'
      rw [if_pos (by omega)] at hf'
      obtain ⟨z, -, hz⟩ := bind_inv hf'
      cases hz
      rfl
    subst hs
    obtain ⟨c, hc⟩ := insertFast_shift (pos := unitLen ropeTrait U) (pos' := pos) (k := 0) hf
    exact ⟨_, hc, ri2.inv, ht⟩

/-- a cursor to a leaf that does not exist panics -/
theorem insertFast_dead {t : Tree GapBuf Int} {leaf pos index : Nat} {bytes : List UInt8} (h : t.lf.get leaf = none) (hp : pos ≤ index) :
    Rope.insertFast cap ⟨t, some ⟨pos, leaf⟩⟩ index bytes = .error .panic := by
  simp only [Rope.insertFast, if_pos hp, getLf, h]
  rfl

end GB
