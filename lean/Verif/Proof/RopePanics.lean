import Verif.Proof.NineLevels

/-!
# Exactly when `Rope::delete_range` panics
-/

namespace GB
open Tree

variable {cap : Nat} {m : Fill} {r : Rope}

/-- the cached cursor is at a chunk that has the whole range -/
def Rope.Cached (r : Rope) (start stop : Nat) : Prop :=
  ∃ c U e V, r.cursor = some c ∧ (abs r.tree).es = U ++ (c.leaf, e) :: V ∧ c.pos ≤ start ∧ stop ≤ c.pos + e.len

theorem deleteFast_none (ri : RopeInv cap m r) {start stop : Nat} (hc : ¬ r.Cached start stop) : Rope.deleteFast r start stop = .ok none := by
  unfold Rope.deleteFast
  cases hcur : r.cursor with
  | none => rfl
  | some c =>
    obtain ⟨pos, leaf⟩ := c
    obtain ⟨U, e, V, hes, hU⟩ := ri.cur _ hcur
    simp only at hes hU ⊢
    split
    · next hle =>
      obtain ⟨h, ⟨lvl, g⟩, sz⟩ := ri.inv
      have he := (entries_mem g.wf).mp (show (leaf, e) ∈ entries r.tree by rw [show entries r.tree = _ from hes]; simp)
      obtain ⟨q, hq⟩ : ∃ q, r.tree.lf.get leaf = some ⟨e, q⟩ := by
        unfold elm at he
        cases hL : r.tree.lf.get leaf with
        | none => rw [hL] at he; cases he
        | some L => rw [hL] at he; cases he; exact ⟨L.parent, rfl⟩
      simp only [getLf_ok hq, bind_ok]
      rw [if_neg (fun h => hc ⟨_, U, e, V, hcur, hes, hle, h⟩)]
      rfl
    · rfl

theorem deleteFast_some (hm : 1 ≤ m.lo ∧ m.lo + m.d ≤ 5) (ri : RopeInv cap m r) {start stop : Nat} (hlt : start < stop)
    (hc : r.Cached start stop) : ∃ r', Rope.deleteFast r start stop = .ok (some r') := by
  rcases deleteFast_spec hm ri hlt with hf | ⟨r', hf, -⟩
  · exfalso
    obtain ⟨⟨pos, leaf⟩, U, e, V, hcur, hes, h1, h2⟩ := hc
    have h1 : pos ≤ start := h1
    have h2 : stop ≤ pos + e.len := h2
    unfold Rope.deleteFast at hf
    rw [hcur] at hf
    simp only at hf
    rw [if_pos h1] at hf
    obtain ⟨h, ⟨lvl, g⟩, sz⟩ := ri.inv
    have he := (entries_mem g.wf).mp (show (leaf, e) ∈ entries r.tree by rw [show entries r.tree = _ from hes]; simp)
    obtain ⟨q, hq⟩ : ∃ q, r.tree.lf.get leaf = some ⟨e, q⟩ := by
      unfold elm at he
      cases hL : r.tree.lf.get leaf with
      | none => rw [hL] at he; cases he
      | some L => rw [hL] at he; cases he; exact ⟨L.parent, rfl⟩
    simp only [getLf_ok hq, bind_ok] at hf
    rw [if_pos h2] at hf
    obtain ⟨⟨v, i, t⟩, -, hf⟩ := bind_inv hf
    cases hf
  · exact ⟨r', hf⟩

/-- an unread `drain` panics exactly if `drain` panics -/
theorem drain_drop {s : Tree GapBuf Int} {a b : QueryResult} :
    (do let d ← drainNew ropeTrait s (some a) (some b)
        let (_, t) ← drainDrop ropeTrait d
        pure ⟨t, none⟩ : M Rope) = .error .panic ↔ drain ropeTrait s a b 0 = .error .panic := by
  rw [drain]
  simp only [drainTake, bind_ok]
  cases hd : drainNew ropeTrait s (some a) (some b) with
  | error x => constructor <;> (intro h; cases h; rfl)
  | ok d =>
    simp only [bind_ok]
    cases hx : drainDrop ropeTrait d with
    | error x => constructor <;> (intro h; cases h; rfl)
    | ok x => constructor <;> (intro h; cases h)

/-- `Rope::delete_range` panics exactly in these cases -/
theorem ropeDelete_panics (hm : 1 ≤ m.lo ∧ m.lo + m.d ≤ 5) (ri : RopeInv cap m r) {h : Nat} (hi : InvH (ropeLaw cap) m h r.tree) {start stop : Nat}
    (hlt : start < stop) (hle : stop ≤ r.text.length) :
    Rope.deleteRange r start stop = .error .panic ↔ ¬ r.Cached start stop ∧
      (stop = start + 1 ∧ 11 ≤ h ∨
       start + 1 < stop ∧ ∃ a b, query ropeQuery r.tree start = .ok (some a) ∧ query ropeQuery r.tree stop = .ok (some b) ∧
        a.cursor.leaf ≠ b.cursor.leaf ∧ (10 ≤ h ∨ h = 9 ∧ CutsRaise ropeTrait r.tree a.cursor b.cursor)) := by
  have hne : r.text ≠ [] := by intro h; rw [h] at hle; simp at hle; omega
  unfold Rope.deleteRange
  rw [ri.isEmpty hm.1]
  simp only [hne, decide_false, Bool.false_eq_true, if_false, ri.len hm.1, Nat.min_eq_left hle, Nat.min_eq_left (Nat.le_of_lt hlt)]
  rw [if_neg (by omega)]
  by_cases hc : r.Cached start stop
  · obtain ⟨r', hf⟩ := deleteFast_some hm ri hlt hc
    simp only [hf, bind_ok, hc, not_true_eq_false, false_and, iff_false]
    intro h; cases h
  simp only [deleteFast_none ri hc, bind_ok, hc, not_false_eq_true, true_and]
  by_cases h1 : stop = start + 1
  · rw [if_pos (by omega)]
    rw [or_iff_left (fun h => by omega)]
    simp only [h1, true_and]
    constructor
    · intro hp
      apply Decidable.byContradiction
      intro h11
      obtain ⟨c, ids, t, s1, s2, s3, s4⟩ := deleteOne_spec hm ri hi (start := start) (by omega) (.inl (by omega))
      rw [s1] at hp
      simp only [bind_ok] at hp
      cases c with
      | none => cases hp
      | some c =>
        have := s2 c rfl
        simp only [assertM, this, decide_true, if_true, bind_ok] at hp
        cases hp
    · intro h11
      have hlen := ri.text_length
      have hes0 : (abs r.tree).es ≠ [] := by intro h; rw [h] at hlen; simp at hlen; exact hne hlen
      obtain ⟨U, l, e, V, o, -, h2, -⟩ := C09_query_len (ropeLenLaw cap) hm.1 ri.inv hes0 start
      obtain ⟨lvl, g⟩ := hi.ex
      have h2 : query ropeQuery r.tree start = .ok (some ⟨⟨l, o⟩, _⟩) := h2
      rw [updateLeafBySearch_full g.wf h11 h2]
      rfl
  · rw [if_neg (by omega), or_iff_right (fun h => h1 h.1)]
    have hgt : start + 1 < stop := by omega
    simp only [hgt, true_and]
    have key : ∀ a b, query ropeQuery r.tree start = .ok (some a) → query ropeQuery r.tree stop = .ok (some b) →
        ((do let d ← drainNew ropeTrait r.tree (some a) (some b)
             let (_, t) ← drainDrop ropeTrait d
             pure ⟨t, none⟩ : M Rope) = .error .panic ↔ 10 ≤ h ∨ h = 9 ∧ CutsRaise ropeTrait r.tree a.cursor b.cursor) := by
      intro a b qa qb
      rw [drain_drop]
      have hle' := hle
      rw [ri.text_length] at hle'
      have hes0 : (abs r.tree).es ≠ [] := by intro h; rw [h] at hle'; simp at hle'; omega
      obtain ⟨Ua, la, ea, Va, oa, a1, a2, a3, a4, a5, a6⟩ := C09_query_len (ropeLenLaw cap) hm.1 ri.inv hes0 start
      obtain ⟨Ub, lb, eb, Vb, ob, b1, b2, b3, b4, b5, b6⟩ := C09_query_len (ropeLenLaw cap) hm.1 ri.inv hes0 stop
      have hoa : oa < ea.len := a4 (by omega)
      have hob : ob ≤ eb.len := by
        rcases Nat.lt_or_ge stop (unitLen ropeTrait (abs r.tree).es) with h | h
        · exact Nat.le_of_lt (b4 h)
        · exact Nat.le_of_eq (b6 (by omega))
      rw [show query ropeQuery r.tree start = _ from a2] at qa
      rw [show query ropeQuery r.tree stop = _ from b2] at qb
      cases qa
      cases qb
      exact C18_panics_iff hm hi (ropeContent cap).splitLen ri.pos (a := ⟨la, oa⟩) (b := ⟨lb, ob⟩) a1 (Nat.le_of_lt hoa) b1 hob
        (by show unitLen ropeTrait Ua + oa ≤ unitLen ropeTrait Ub + ob; omega) (by show unitLen ropeTrait Ua + oa < _; omega) _ _ 0
    constructor
    · intro hp
      refine Classical.byContradiction fun hcon => ?_
      obtain ⟨a, b, q1, q2, r', q3, -⟩ := deleteSlow_spec hm ri hi hlt hle (.inr fun a b qa qb hab hp => hcon ⟨a, b, qa, qb, hab, (key a b qa qb).mp hp⟩)
      rw [q1, bind_ok, q2, bind_ok] at hp
      have hp := q3.symm.trans hp
      cases hp
    · rintro ⟨a, b, qa, qb, hab, hd⟩
      rw [qa, bind_ok, qb, bind_ok]
      simp only
      rw [if_neg hab]
      exact (key a b qa qb).mpr hd

/-- in a rope with as many bytes as its chunks have room for, all chunks are full -/
theorem chunks_full {cap : Nat} : ∀ es : List (Nat × GapBuf), (∀ x ∈ es, x.2.WF ∧ x.2.capacity = cap) →
    unitLen ropeTrait es = cap * es.length → ∀ x ∈ es, x.2.len = cap := by
  intro es
  induction es with
  | nil => intro _ _ x hx; cases hx
  | cons y es ih =>
    intro hes hl
    have h1 := unitLen_le es (fun y hy => hes y (by simp [hy]))
    have h2 := hes y (by simp)
    have h3 : y.2.len ≤ cap := by
      rw [← h2.2]
      simp only [GapBuf.len, GapBuf.capacity]
      omega
    have h4 : unitLen ropeTrait (y :: es) = y.2.len + unitLen ropeTrait es := rfl
    rw [h4, List.length_cons, Nat.mul_succ] at hl
    intro x hx
    rcases List.mem_cons.mp hx with rfl | hx
    · omega
    · exact ih (fun y hy => hes y (by simp [hy])) (by omega) x hx

/-- nine levels, full right edge: the text can be read and deleted as a whole, but not without its last byte -/
theorem ropeNine_delete {cap : Nat} (hcap : 2 ≤ cap) (bytes : List UInt8) (hlen : bytes.length = cap * 20155391) {t : Tree GapBuf Int}
    (ri : RopeInv cap 5 ⟨t, none⟩) (ht : (⟨t, none⟩ : Rope).text = bytes) (hi : InvH (ropeLaw cap) 6 9 t) (hc : (abs t).es.length = 20155391)
    (hf : ∀ l, (order t).getLast? = some l → FullAbove t l) :
    (⟨t, none⟩ : Rope).deleteRange 0 (bytes.length - 1) = .error .panic ∧ (⟨t, none⟩ : Rope).deleteRange 0 bytes.length ≠ .error .panic := by
  have hi5 : InvH (ropeLaw cap) 5 9 t := ⟨hi.ex, Sz.mono hi.sz (by decide) (by decide)⟩
  have hul : bytes.length = unitLen ropeTrait (abs t).es := by rw [← ht]; exact ri.text_length
  have hes0 : (abs t).es ≠ [] := by intro h; rw [h] at hc; simp at hc
  have hfull := chunks_full (abs t).es ri.okE (by rw [← hul, hc, hlen])
  obtain ⟨lvl, g⟩ := hi.ex
  obtain ⟨Ua, la, ea, Va, oa, a1, a2, a3, a4, a5, a6⟩ := C09_query_len (ropeLenLaw cap) (by decide) ri.inv hes0 0
  have hoa : oa = 0 := by omega
  have hUa : Ua = [] := by
    cases Ua with
    | nil => rfl
    | cons x Ua =>
      exfalso
      have h1 := ri.pos x (by rw [show (abs (⟨t, none⟩ : Rope).tree).es = _ from a1]; simp)
      have : unitLen ropeTrait (x :: Ua) = x.2.len + unitLen ropeTrait Ua := rfl
      omega
  subst hUa hoa
  have hncache : ∀ a b, ¬ (⟨t, none⟩ : Rope).Cached a b := by rintro a b ⟨c, -, -, -, h, -⟩; cases h
  constructor
  · rw [ropeDelete_panics (by decide) ri hi5 (by omega) (by rw [ht]; omega)]
    refine ⟨hncache _ _, .inr ⟨by omega, ?_⟩⟩
    obtain ⟨Ub, lb, eb, Vb, ob, b1, b2, b3, b4, b5, b6⟩ := C09_query_len (ropeLenLaw cap) (by decide) ri.inv hes0 (bytes.length - 1)
    have b1 : (abs t).es = Ub ++ (lb, eb) :: Vb := b1
    have hob : ob < eb.len := b4 (by show _ < unitLen ropeTrait (abs t).es; omega)
    have hsum : unitLen ropeTrait (abs t).es = unitLen ropeTrait Ub + (eb.len + unitLen ropeTrait Vb) := by rw [b1, unitLen_append]; rfl
    have hVb : Vb = [] := by
      cases Vb with
      | nil => rfl
      | cons x Vb =>
        exfalso
        have h1 := ri.pos x (by show x ∈ (abs t).es; rw [b1]; simp)
        have : unitLen ropeTrait (x :: Vb) = x.2.len + unitLen ropeTrait Vb := rfl
        omega
    subst hVb
    have hebl : eb.len = cap := hfull (lb, eb) (by rw [b1]; simp)
    have hs0 : unitLen ropeTrait ([] : List (Nat × GapBuf)) = 0 := rfl
    refine ⟨_, _, a2, b2, ?_, .inr ⟨rfl, .inl ⟨eb, ?_, ?_, hob, hf lb ?_⟩⟩⟩
    · intro e
      have e : la = lb := e
      subst e
      have q1 := locate_split ri.inv.nodup a1
      have q2 := locate_split ri.inv.nodup b1
      rw [q1] at q2
      cases q2
      rw [show (abs t).es = _ from a1] at hc
      simp at hc
    · exact (entries_mem g.wf).mp (show (lb, eb) ∈ entries t by rw [show entries t = _ from b1]; simp)
    · show 0 < ob
      omega
    · rw [← entries_fst g.wf, show entries t = _ from b1]
      simp
  · rw [ne_eq, ropeDelete_panics (by decide) ri hi5 (by omega) (by rw [ht]; omega)]
    rintro ⟨-, ⟨h1, -⟩ | ⟨-, a, b, qa, qb, -, h | ⟨-, hr⟩⟩⟩
    · omega
    · omega
    obtain ⟨Ub, lb, eb, Vb, ob, b1, b2, b3, b4, b5, b6⟩ := C09_query_len (ropeLenLaw cap) (by decide) ri.inv hes0 bytes.length
    rw [show query ropeQuery (⟨t, none⟩ : Rope).tree 0 = _ from a2] at qa
    rw [show query ropeQuery (⟨t, none⟩ : Rope).tree bytes.length = _ from b2] at qb
    cases qa
    cases qb
    have hob : ob = eb.len := b6 (by show bytes.length = unitLen ropeTrait (abs t).es; omega)
    have heb : elm t lb = some eb := (entries_mem g.wf).mp (show (lb, eb) ∈ entries t by rw [show entries t = _ from b1]; simp)
    rcases hr with ⟨e, h1, -, h3, -⟩ | ⟨_, _, -, _, -, h2, -⟩
    · have h1 : elm t lb = some e := h1
      rw [heb] at h1
      cases h1
      have h3 : ob < eb.len := h3
      omega
    · exact absurd h2 (Nat.lt_irrefl 0)

end GB
