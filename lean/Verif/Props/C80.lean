import Verif.Proof.WritesMany
import Verif.Proof.SampleTwo
import Verif.Proof.OrdMap
import Verif.Props.C04
import Verif.Props.C20
import Verif.Props.C22
import Verif.Props.C29
import Verif.Props.C69
import Verif.Props.C73

/-!
# C80: an edit changes few of the stored nodes

`Writes s s' n` (Verif.Spec.Writes) says that the trees `s` and `s'` agree outside at most `n` stored nodes, internal nodes and leaves
counted together.  `Touches s s' n` says the same, but for nodes that have been freed: `drain` frees all those of the range, however many they are,
and changes few of the others; so does `Rope::delete_range`.
-/

namespace GB
variable {E C D : Type}
open Tree

section
variable {B : Trait E C D} {A : Law B} {m : Fill} {h : Nat} {s s' : Tree E C}

/-- `insert_by_path` at a position inside a leaf or at one of its ends -/
theorem C80_insert (hm : 1 ≤ m.lo ∧ m.lo + m.d ≤ 5) (hi : InvH A m h s) {c r : Cursor} {e data : E} (hc : (c.leaf, e) ∈ (abs s).es)
    (ho : c.offset ≤ B.rleLen e) {sp : List Nat} (hr : insertByPath B s c data = .ok ((r, sp), s')) : Writes s s' (45 * h + 35) := by
  obtain ⟨⟨lvl, g⟩, sz⟩ := hi
  obtain ⟨U, V, hUV⟩ := List.append_of_mem hc
  obtain ⟨u, v, -, -, -, hel⟩ := entries_split g.wf hUV
  exact insertByPath_writes hm.1 hm.2 g sz hel ho hr

/-- `push` -/
theorem C80_push (hi : InvH A m h s) {c : Cursor} {e : E} (hr : push B s e = .ok (c, s')) : Writes s s' (23 * h + 6) := by
  obtain ⟨⟨lvl, g⟩, sz⟩ := hi
  exact push_writes g sz hr

/-- `prepend` -/
theorem C80_prepend (hi : InvH A m h s) {c : Cursor} {e : E} (hr : prepend B s e = .ok (c, s')) : Writes s s' (23 * h + 6) := by
  obtain ⟨⟨lvl, g⟩, sz⟩ := hi
  exact prepend_writes g sz hr

/-- `remove_leaf`, whatever the cursor -/
theorem C80_remove (hi : InvH A m h s) {c : Cursor} {o : Option E} (hr : removeLeaf B s c = .ok (o, s')) : Writes s s' (30 * h + 16) := by
  obtain ⟨⟨lvl, g⟩, sz⟩ := hi
  exact removeLeaf_writes g sz hr

/-- `update_leaf`, where the closure asks for a new cache unless it keeps the cache of the element -/
theorem C80_update (hm : 1 ≤ m.lo ∧ m.lo + m.d ≤ 5) (hi : InvH A m h s) {l : Nat} {e : E} (hl : (l, e) ∈ (abs s).es)
    {f : E → M (E × Bool × Option E × Option E)} {e1 : E} {need : Bool} {n1 n2 : Option E} (hf : f e = .ok (e1, need, n1, n2))
    (ok : A.okE (normalizeUpd B e1 n1 n2).1) (hneed : need = true ∨ B.elemCache (normalizeUpd B e1 n1 n2).1 = B.elemCache e)
    {b : Bool} {ids : List Nat} (hr : updateLeaf B s l f = .ok (b, ids, s')) : Writes s s' (30 * h + 16) := by
  obtain ⟨⟨lvl, g⟩, sz⟩ := hi
  obtain ⟨U, V, hUV⟩ := List.append_of_mem hl
  obtain ⟨u, v, -, -, -, hel⟩ := entries_split g.wf hUV
  exact updateLeaf_writes hm g sz hel hf ok hneed hr

/-- `update_leaf_by_search`, whatever the closure answers -/
theorem C80_update_by_search {Q F : Type} (hi : InvH A m h s) {q : Query E C Q F} {arg : Q} {f : E → QueryResult → M (E × Option (D × Option E × Option E))}
    {c : Option Cursor} {ids : List Nat} (hr : updateLeafBySearch B q s arg f = .ok (c, ids, s')) : Writes s s' (30 * h + 16) := by
  obtain ⟨⟨lvl, g⟩, sz⟩ := hi
  exact updateLeafBySearch_writes g (g.ranked sz (fun _ h => h.elim)) hr

/-- `insert_many_by_cursor` at a position inside a leaf or at one of its ends -/
theorem C80_insert_many {X : Type} {cont : E → List X} (L : ContentLaw B A.okE cont) (hm : 1 ≤ m.lo ∧ m.lo + m.d ≤ 5) (hi : InvH A m h s) {c : Cursor}
    {e : E} (hc : (c.leaf, e) ∈ (abs s).es) (ho : c.offset ≤ B.rleLen e) {data : List E} (hok : ∀ d ∈ data, A.okE d)
    (hr : insertMany B s (some c) data = .ok s') : Writes s s' ((data.length + 1) * (45 * (h + data.length) + 80)) :=
  insertMany_writes L hm hi hok hc ho hr

/-- `drain` of a range that starts before the end of the sequence, however long the range is -/
theorem C80_drain (hm : 1 ≤ m.lo ∧ m.lo + m.d ≤ 5) (hi : InvH A m h s) (hsl : SplitLen B A.okE) {a b : Cursor} {Ua Va Ub Vb : List (Nat × E)} {ea eb : E}
    (ha : (abs s).es = Ua ++ (a.leaf, ea) :: Va) (hoa : a.offset ≤ B.rleLen ea)
    (hb : (abs s).es = Ub ++ (b.leaf, eb) :: Vb) (hob : b.offset ≤ B.rleLen eb)
    (hle : CursorLe B Ua a ea Ub b eb Vb) (hz : CutPos B (abs s) b)
    (hend : a.offset = 0 ∨ a.offset < B.rleLen ea ∨ Va ≠ []) {fa fb : Bool} {k : Nat} {es rest : List E}
    (hr : drain B s ⟨a, fa⟩ ⟨b, fb⟩ k = .ok (es, rest, s')) : Touches s s' (54 * h * (5 * h + 2) + 63 * h + 71) := by
  obtain ⟨⟨lvl, g⟩, sz⟩ := hi
  obtain ⟨ua, va, o1, rfl, e1, hea⟩ := entries_split g.wf ha
  obtain ⟨ub, vb, o2, rfl, e2, heb⟩ := entries_split g.wf hb
  subst e2
  exact drain_touches hm.1 hm.2 g sz hsl o1 hea hoa o2 heb hob (notBehind_of_le g.wf o1 o2 hle) (endPos_of_cut g.wf hb hob hz)
    (hend.imp id (Or.imp id fun hv hc => hv (by rw [e1, hc]; rfl))) hr

/-- The same where no element has length zero, so that the order of two cursors is that of their positions. -/
theorem C80_drain_pos (hm : 1 ≤ m.lo ∧ m.lo + m.d ≤ 5) (hi : InvH A m h s) (hsl : SplitLen B A.okE) (hpos : ∀ x ∈ (abs s).es, 0 < B.rleLen x.2)
    {a b : Cursor} {Ua Va Ub Vb : List (Nat × E)} {ea eb : E}
    (ha : (abs s).es = Ua ++ (a.leaf, ea) :: Va) (hoa : a.offset ≤ B.rleLen ea)
    (hb : (abs s).es = Ub ++ (b.leaf, eb) :: Vb) (hob : b.offset ≤ B.rleLen eb)
    (hle : unitLen B Ua + a.offset ≤ unitLen B Ub + b.offset) (hend : unitLen B Ua + a.offset < unitLen B (abs s).es) {fa fb : Bool} {k : Nat}
    {es rest : List E} (hr : drain B s ⟨a, fa⟩ ⟨b, fb⟩ k = .ok (es, rest, s')) : Touches s s' (54 * h * (5 * h + 2) + 63 * h + 71) := by
  obtain ⟨⟨lvl, g⟩, sz⟩ := hi
  obtain ⟨ua, va, o1, rfl, -, hea⟩ := entries_split g.wf ha
  obtain ⟨ub, vb, o2, rfl, -, heb⟩ := entries_split g.wf hb
  have hpos : ∀ l x, elm s l = some x → 0 < B.rleLen x := fun l x hx => hpos (l, x) ((entries_mem g.wf).mpr hx)
  exact drain_touches hm.1 hm.2 g sz hsl o1 hea hoa o2 heb hob (notBehind_of_pos g.wf hpos o1 o2 heb hob hle) (endPos_of_pos hpos heb)
    (start_before_end o1 hea hend) hr

/-- The height is at most one more than the binary logarithm of the number of elements. -/
theorem C80_height (hm : 2 ≤ m.lo) (hi : InvH A m h s) : h ≤ (abs s).es.length.log2 + 1 := by
  rcases Nat.lt_or_ge h 2 with h2 | h2
  · omega
  · have h3 := C29_depth hi h2
    have h4 : 2 ^ (h - 1) ≤ m.lo ^ (h - 1) := Nat.pow_le_pow_left hm _
    have h5 : 2 ^ (h - 1) ≤ (abs s).es.length := by omega
    have h6 : (abs s).es.length ≠ 0 := by
      have : 0 < 2 ^ (h - 1) := Nat.pow_pos (by omega)
      omega
    have := (Nat.le_log2 h6).mpr h5
    omega

/-- So an insertion changes a number of nodes that is logarithmic in the number of elements. -/
theorem C80_insert_log (hm : 2 ≤ m.lo ∧ m.lo + m.d ≤ 5) (hi : Inv A m s) {c r : Cursor} {e data : E} (hc : (c.leaf, e) ∈ (abs s).es)
    (ho : c.offset ≤ B.rleLen e) {sp : List Nat} (hr : insertByPath B s c data = .ok ((r, sp), s')) :
    Writes s s' (45 * (abs s).es.length.log2 + 80) := by
  obtain ⟨h, hi⟩ := hi
  have := C80_height hm.1 hi
  exact (C80_insert ⟨by omega, hm.2⟩ hi hc ho hr).mono (by omega)

/-- And so does a removal. -/
theorem C80_remove_log (hm : 2 ≤ m.lo) (hi : Inv A m s) {c : Cursor} {o : Option E} (hr : removeLeaf B s c = .ok (o, s')) :
    Writes s s' (30 * (abs s).es.length.log2 + 46) := by
  obtain ⟨h, hi⟩ := hi
  have := C80_height hm hi
  exact (C80_remove hi hr).mono (by omega)

/-- The bound for `drain` is the square of a logarithm. -/
theorem C80_drain_log (hm : 2 ≤ m.lo ∧ m.lo + m.d ≤ 5) (hi : Inv A m s) (hsl : SplitLen B A.okE) (hpos : ∀ x ∈ (abs s).es, 0 < B.rleLen x.2)
    {a b : Cursor} {Ua Va Ub Vb : List (Nat × E)} {ea eb : E}
    (ha : (abs s).es = Ua ++ (a.leaf, ea) :: Va) (hoa : a.offset ≤ B.rleLen ea)
    (hb : (abs s).es = Ub ++ (b.leaf, eb) :: Vb) (hob : b.offset ≤ B.rleLen eb)
    (hle : unitLen B Ua + a.offset ≤ unitLen B Ub + b.offset) (hend : unitLen B Ua + a.offset < unitLen B (abs s).es) {fa fb : Bool} {k : Nat}
    {es rest : List E} (hr : drain B s ⟨a, fa⟩ ⟨b, fb⟩ k = .ok (es, rest, s')) : Touches s s' (513 * ((abs s).es.length.log2 + 1) ^ 2) := by
  obtain ⟨h, hi⟩ := hi
  have hh := C80_height hm.1 hi
  refine (C80_drain_pos ⟨by omega, hm.2⟩ hi hsl hpos ha hoa hb hob hle hend hr).mono ?_
  obtain ⟨⟨lvl, g⟩, -⟩ := hi
  have hp := g.wf.h_pos
  have hq : h * h ≤ ((abs s).es.length.log2 + 1) ^ 2 := by rw [Nat.pow_two]; exact Nat.mul_le_mul hh hh
  have h1 : h ≤ h * h := Nat.le_mul_of_pos_left h (by omega)
  have h2 : 54 * h * (5 * h + 2) = 270 * (h * h) + 108 * h := by
    rw [Nat.mul_add, show 54 * h * (5 * h) = 270 * (h * h) by rw [Nat.mul_assoc, Nat.mul_left_comm h 5 h, ← Nat.mul_assoc]]
    omega
  omega

end

section
variable {K V : Type} [Ord K] {m m' : OrdMap K V}

private theorem ordSplit_same {t t' : Tree (K × V) (Option (K × K))} {c : Cursor} {info : SplitInfo}
    (e : splitLeafIfNeeded (ordTrait K V) t c = .ok (info, t')) : t' = t := by
  rw [splitLeafIfNeeded, splitLeafIfNeededF] at e
  obtain ⟨leaf, -, e⟩ := bind_inv e
  obtain ⟨par, -, e⟩ := bind_inv e
  obtain ⟨slot, -, e⟩ := bind_inv e
  obtain ⟨nb, -, e⟩ := bind_inv e
  split at e
  · cases e; rfl
  · split at e
    · obtain ⟨np, -, e⟩ := bind_inv e
      cases e; rfl
    · obtain ⟨_, h1, -⟩ := bind_inv e
      have h1 : c.offset < 1 := of_decide_eq_true (assertM_inv h1)
      omega

/-- `OrdTreeMap::insert` changes a number of nodes that is logarithmic in the number of entries. -/
theorem C80_map_insert (ok : m.Ok) {k : K} {v : V} (hr : m.insert k v = .ok m') : Writes m.tree m'.tree (23 * m.len.log2 + 29) := by
  obtain ⟨h, hi⟩ := ok.tree
  have hh := C80_height (by decide) hi
  have hlen : m.len = (abs m.tree).es.length := by rw [ok.len, OrdMap.assoc, List.length_map]
  rw [← hlen] at hh
  obtain ⟨⟨lvl, g⟩, sz⟩ := id hi
  have r : Ranked lvl h m.tree := g.ranked sz (fun _ h => h.elim)
  refine Writes.mono (m := 23 * h + 6) ?_ (by omega)
  unfold OrdMap.insert at hr
  obtain ⟨q, -, hr⟩ := bind_inv hr
  split at hr
  · obtain ⟨⟨c, t⟩, h1, hr⟩ := bind_inv hr
    cases hr
    exact push_writes g sz h1
  · split at hr
    · obtain ⟨leaf, hL, hr⟩ := bind_inv hr
      simp only at hr
      obtain ⟨⟨info, t⟩, h1, hr⟩ := bind_inv hr
      rw [ordSplit_same h1] at hr
      obtain ⟨par, hp, hr⟩ := bind_inv hr
      obtain ⟨cs, hv, hr⟩ := bind_inv hr
      obtain ⟨t2, h2, hr⟩ := bind_inv hr
      obtain ⟨t3, h3, hr⟩ := bind_inv hr
      cases hr
      obtain ⟨i, hed⟩ := g.wf.lpar_edge (lpar_of (unwrap_inv hL))
      have hl := (g.wf.klf hed).1
      obtain ⟨N, hN⟩ := lnk_isSome.mp (edge_live hed)
      have htop := (r _ N hN).top
      have hp : m.tree.inn.get info.parentIdx = some par := getIn_inv hp
      have w1 : Writes m.tree ((allocLeafChild (ordTrait K V) m.tree (k, v) leaf.parent).2.setIn info.parentIdx { par with children := cs }) 2 :=
        (Writes.insertLf m.tree ⟨(k, v), leaf.parent⟩).trans (Writes.setIn _ _ _)
      have r1 : Ranked lvl h ((allocLeafChild (ordTrait K V) m.tree (k, v) leaf.parent).2.setIn info.parentIdx { par with children := cs }) :=
        Ranked.setIn (s := (allocLeafChild (ordTrait K V) m.tree (k, v) leaf.parent).2) (r.inn rfl) (vinsert_leaf_ranks (r _ par hp) hv)
      obtain ⟨w2, r2⟩ := recursiveUpdateCache_writes r1 h2
      split at h3
      · exact (w1.trans w2).seq (split_writes r2 h3) (by omega)
      · cases h3
        exact (w1.trans w2).mono (by omega)
    · obtain ⟨leaf, -, hr⟩ := bind_inv hr
      cases hr
      exact (Writes.setLf _ _ _).mono (by omega)

/-- So does `OrdTreeMap::delete`. -/
theorem C80_map_delete (ok : m.Ok) {k : K} {o : Option (K × V)} (hr : m.delete k = .ok (o, m')) :
    Writes m.tree m'.tree (30 * m.len.log2 + 46) := by
  have hlen : m.len = (abs m.tree).es.length := by rw [ok.len, OrdMap.assoc, List.length_map]
  rw [hlen]
  unfold OrdMap.delete at hr
  obtain ⟨q, -, hr⟩ := bind_inv hr
  split at hr
  · cases hr
    exact (Writes.refl _).mono (by omega)
  · obtain ⟨⟨v, t⟩, h1, hr⟩ := bind_inv hr
    have w := C80_remove_log (by decide) ok.tree h1
    simp only at hr
    split at hr
    · obtain ⟨_, -, hr⟩ := bind_inv hr
      cases hr
      exact w
    · cases hr
      exact w

end

section
variable {cap : Nat} {m : Fill} {h : Nat} {r r' : Rope}

/-- `Rope::insert`: the bound depends on the height and on the number of chunks that the new bytes fill. -/
theorem C80_rope_insert (hcap : 0 < cap) (hm : 1 ≤ m.lo ∧ m.lo + m.d ≤ 5) (ri : RopeInv cap m r) (hi : InvH (ropeLaw cap) m h r.tree) {index : Nat}
    {bytes : List UInt8} (hr : r.insert cap index bytes = .ok r') :
    Writes r.tree r'.tree ((bytes.length / cap + 3) * (45 * (h + bytes.length / cap) + 170)) :=
  ropeInsert_writes hcap hm ri hi hr

/-- `Rope::delete_range`: the bound depends on the height only, not on the length of the range. -/
theorem C80_rope_delete (hm : 1 ≤ m.lo ∧ m.lo + m.d ≤ 5) (ri : RopeInv cap m r) (hi : InvH (ropeLaw cap) m h r.tree) {start stop : Nat}
    (hr : r.deleteRange start stop = .ok r') : Touches r.tree r'.tree (54 * h * (5 * h + 2) + 63 * h + 71) :=
  ropeDelete_touches hm ri hi hr

end

/-- a rope of 30 chunks, of height 2: an insertion in the middle of a chunk changes at most 125 of the stored nodes, … -/
example (data : GapBuf) (hd : (ropeLaw 4).okE data) : ∃ r s', insertByPath ropeTrait ropeSample ⟨17, 2⟩ data = .ok (r, s') ∧ Writes ropeSample s' 125 := by
  have hc : (17, chunk 17) ∈ (abs ropeSample).es := by rw [ropeSample_at (k := 17) (by decide)]; simp
  obtain ⟨⟨lvl, g⟩, sz⟩ := id ropeSample_two
  obtain ⟨U, V, hUV⟩ := List.append_of_mem hc
  obtain ⟨c, sp, s', -, -, h1, -⟩ := insertByPath_spec (by decide) (by decide) g sz hUV (o := 2) (by decide) (.inl (by decide)) hd
  exact ⟨_, s', h1, C80_insert (by decide) ropeSample_two hc (by decide) h1⟩

/-- … `push` at most 52, … -/
example (data : GapBuf) (hd : (ropeLaw 4).okE data) : ∃ c s', push ropeTrait ropeSample data = .ok (c, s') ∧ Writes ropeSample s' 52 := by
  obtain ⟨⟨lvl, g⟩, sz⟩ := id ropeSample_two
  obtain ⟨c, s', -, -, h1, -⟩ := push_spec (by decide) (by decide) g sz hd
  exact ⟨c, s', h1, C80_push ropeSample_two h1⟩

/-- … `prepend` too, … -/
example (data : GapBuf) (hd : (ropeLaw 4).okE data) : ∃ c s', prepend ropeTrait ropeSample data = .ok (c, s') ∧ Writes ropeSample s' 52 := by
  obtain ⟨⟨lvl, g⟩, sz⟩ := id ropeSample_two
  have hn : order ropeSample ≠ [] := fun h => by
    have := (abs_nil ropeSample_two).mpr h
    rw [ropeSample_at (k := 3) (by decide)] at this
    simp at this
  obtain ⟨c, s', -, -, h1, -⟩ := prepend_spec (by decide) (by decide) g sz hd hn
  exact ⟨c, s', h1, C80_prepend ropeSample_two h1⟩

/-- … the removal of a chunk at most 76, … -/
example : ∃ o s', removeLeaf ropeTrait ropeSample ⟨12, 0⟩ = .ok (o, s') ∧ Writes ropeSample s' 76 := by
  obtain ⟨o, s', h1, -⟩ := C04_remove_any (s := ropeSample) (A := ropeLaw 4) (m := 5) ⟨12, 0⟩ (by decide) (Or.inl (by decide)) ropeSample_spec.1
  exact ⟨o, s', h1, C80_remove ropeSample_two h1⟩

/-- … taking out the chunks from 3 to 20 at most 1493, apart from those that are freed, … -/
example : ∃ es rest s', drain ropeTrait ropeSample ⟨⟨3, 1⟩, true⟩ ⟨⟨20, 2⟩, true⟩ 2 = .ok (es, rest, s') ∧ Touches ropeSample s' 1493 := by
  have hpos : ∀ x ∈ (abs ropeSample).es, 0 < ropeTrait.rleLen x.2 := by rw [ropeSample_es]; decide
  have h3 := ropeSample_at (k := 3) (by decide)
  have h20 := ropeSample_at (k := 20) (by decide)
  obtain ⟨Y, s', h', d1, -⟩ := C18_drain (by decide) ropeSample_two (ropeContent 4).splitLen hpos (a := ⟨3, 1⟩) (b := ⟨20, 2⟩)
    h3 (by decide) h20 (by decide) (by decide) (by rw [ropeSample_es]; decide) true true 2 (.inl (by decide))
  exact ⟨_, _, s', d1, C80_drain_pos (by decide) ropeSample_two (ropeContent 4).splitLen hpos (a := ⟨3, 1⟩) (b := ⟨20, 2⟩)
    h3 (by decide) h20 (by decide) (by decide) (by rw [ropeSample_es]; decide) d1⟩

/-- … and so does a chunk that is replaced by three. -/
example : ∃ b ids s', updateLeaf ropeTrait ropeSample 11 (fun _ => .ok (chunk 1, true, some (chunk 2), some (chunk 3))) = .ok (b, ids, s') ∧
    Writes ropeSample s' 76 := by
  have hc := ropeSample_at (k := 11) (by decide)
  obtain ⟨b, ids, s', h1, -⟩ := C20_update_leaf (B := ropeTrait) (A := ropeLaw 4) (m := 5) (by decide) ropeSample_spec.1 hc
    (f := fun _ => .ok (chunk 1, true, some (chunk 2), some (chunk 3))) rfl (chunk_ok 1) (by intro b h; cases h; exact chunk_ok 2)
    (by intro b h; cases h; exact chunk_ok 3) (Or.inl rfl) (by intro h; cases h)
  exact ⟨b, ids, s', h1, C80_update (e := chunk 11) (by decide) ropeSample_two (by rw [hc]; simp) (f := fun _ => .ok (chunk 1, true, some (chunk 2), some (chunk 3))) rfl
    (chunk_ok 1) (.inl rfl) h1⟩

/-- A search for position 34, where the chunk is emptied and so removed. -/
example : ∃ cur ids s', updateLeafBySearch ropeTrait ropeQuery ropeSample 34
      (fun _ _ => .ok (⟨[0, 0, 0, 0], 0, 4⟩, some (-3, none, none))) = .ok (cur, ids, s') ∧ Writes ropeSample s' 76 := by
  obtain ⟨h, h10, hi, hq⟩ := ropeSample_query
  obtain ⟨fnd, -, key⟩ := C22_update_leaf_by_search (by decide) hi h10 hq (ropeSample_at (k := 11) (by decide))
  obtain ⟨cur, ids, s', k1, -⟩ := key (fun _ _ => .ok (⟨[0, 0, 0, 0], 0, 4⟩, some (-3, none, none))) ⟨[0, 0, 0, 0], 0, 4⟩ (-3) none rfl
    ⟨by unfold GapBuf.WF; decide, rfl⟩ (by intro a h; cases h) (fun _ => ⟨rfl, ropeLawE 4⟩) (by exact rope_exact 4 3 [])
  exact ⟨cur, ids, s', k1, C80_update_by_search ropeSample_two k1⟩

/-- Three chunks are inserted in the middle of one. -/
example : ∃ s', insertMany ropeTrait ropeSample (some ⟨17, 1⟩) [chunk 1, chunk 2, chunk 3] = .ok s' ∧ Writes ropeSample s' 1220 := by
  have hok : ∀ d ∈ [chunk 1, chunk 2, chunk 3], (ropeLaw 4).okE d := by
    intro d hd
    simp only [List.mem_cons, List.not_mem_nil, or_false] at hd
    rcases hd with rfl | rfl | rfl <;> exact chunk_ok _
  have hes := ropeSample_at (k := 17) (by decide)
  obtain ⟨_, s', _, _, -, h2, -⟩ := C24_exact (ropeContent 4) (m := 5) (s := ropeSample) (c := ⟨17, 1⟩) (by decide) ropeSample_spec.1 hes (by decide) hok (by simp)
  exact ⟨_, h2, C80_insert_many (ropeContent 4) (m := 5) (by decide) ropeSample_two (c := ⟨17, 1⟩) (e := chunk 17) (by rw [hes]; simp) (by decide) hok h2⟩

private theorem ropeSample_inv : RopeInv 4 5 ⟨ropeSample, none⟩ :=
  ⟨ropeSample_spec.1, by intro x hx; revert x; rw [show (⟨ropeSample, none⟩ : Rope).tree = ropeSample from rfl, ropeSample_es]; decide, by intro c hc; cases hc⟩

/-- The rope of ninety bytes: inserting ten bytes at position 40, and deleting those from 20 to 70. -/
example : ∃ r1 r2, (⟨ropeSample, none⟩ : Rope).insert 4 40 [1, 2, 3, 4, 5, 6, 7, 8, 9, 10] = .ok r1 ∧ Writes ropeSample r1.tree 1750 ∧
    (⟨ropeSample, none⟩ : Rope).deleteRange 20 70 = .ok r2 ∧ Touches ropeSample r2.tree 1493 := by
  have hlen : (⟨ropeSample, none⟩ : Rope).text.length = 90 := by
    rw [ropeSample_inv.text_length, show (⟨ropeSample, none⟩ : Rope).tree = ropeSample from rfl, ropeSample_es]; decide
  obtain ⟨r1, h1, -⟩ := ropeInsert_spec (by decide) (by decide) ropeSample_inv (index := 40) (by rw [hlen]; decide) [1, 2, 3, 4, 5, 6, 7, 8, 9, 10]
  obtain ⟨r2, h2, -⟩ := ropeDelete_spec (by decide) ropeSample_inv ropeSample_two 20 70 (.inl (by decide))
  exact ⟨r1, r2, h1, C80_rope_insert (by decide) (by decide) ropeSample_inv ropeSample_two h1, h2, C80_rope_delete (by decide) ropeSample_inv ropeSample_two h2⟩

/-- A map that was filled with twenty keys, and the insertion and the deletion of one more. -/
example : ∃ rs m m' m'' o, ordRun (OrdMap.new : OrdMap Nat Nat) ((List.range 20).map (fun i => .insert (i * 7 % 20) i)) = .ok (rs, m) ∧
    m.insert 33 1 = .ok m' ∧ Writes m.tree m'.tree (23 * m.len.log2 + 29) ∧
    m'.delete 33 = .ok (o, m'') ∧ Writes m'.tree m''.tree (30 * m'.len.log2 + 46) := by
  obtain ⟨rs, m, h1, ok⟩ := ordRun_ok (OrdMap.new_ok (K := Nat) (V := Nat)) ((List.range 20).map (fun i => .insert (i * 7 % 20) i))
  obtain ⟨m', h2, ok', -⟩ := OrdMap.insert_spec ok 33 1
  obtain ⟨o, m'', h3⟩ : ∃ o m'', m'.delete 33 = .ok (o, m'') := by
    rcases OrdMap.delete_spec ok' 33 with ⟨-, h⟩ | ⟨_, _, _, _, -, -, -, h, -⟩
    · exact ⟨_, _, h⟩
    · exact ⟨_, _, h⟩
  exact ⟨rs, m, m', m'', o, h1, h2, C80_map_insert ok h2, h3, C80_map_delete ok' h3⟩

/-- Two trees that differ in three leaves are more than two writes apart. -/
example : ¬ Writes (⟨⟨[]⟩, ⟨[]⟩, 0, ()⟩ : Tree Nat Unit) ⟨⟨[]⟩, ⟨[some ⟨1, 0⟩, some ⟨2, 0⟩, some ⟨3, 0⟩]⟩, 0, ()⟩ 2 := by
  rintro ⟨X, L, h1, -, h2⟩
  have key : ∀ l, l < 3 → l ∈ L := by
    intro l hl
    refine Classical.byContradiction fun hn => ?_
    have := h2 l hn
    match l, hl with
    | 0, _ => cases this
    | 1, _ => cases this
    | 2, _ => cases this
  have h0 := key 0 (by decide)
  have h1' := key 1 (by decide)
  have h2' := key 2 (by decide)
  match L, h1 with
  | [], _ => cases h0
  | [a], _ =>
    simp only [List.mem_singleton] at h0 h1'
    omega
  | [a, b], _ =>
    simp only [List.mem_cons, List.not_mem_nil, or_false] at h0 h1' h2'
    omega
  | a :: b :: c :: L, h1 =>
    simp only [List.length_cons] at h1
    omega

/-- the logarithmic bounds on the sample, of thirty chunks -/
example : 2 ≤ (abs ropeSample).es.length.log2 + 1 := C80_height (by decide) ropeSample_two
example (data : GapBuf) (hd : (ropeLaw 4).okE data) : ∃ r s', insertByPath ropeTrait ropeSample ⟨17, 2⟩ data = .ok (r, s') ∧ Writes ropeSample s' 260 := by
  have hc : (17, chunk 17) ∈ (abs ropeSample).es := by rw [ropeSample_at (k := 17) (by decide)]; simp
  obtain ⟨⟨lvl, g⟩, sz⟩ := id ropeSample_two
  obtain ⟨U, V, hUV⟩ := List.append_of_mem hc
  obtain ⟨c, sp, s', -, -, h1, -⟩ := insertByPath_spec (by decide) (by decide) g sz hUV (o := 2) (by decide) (.inl (by decide)) hd
  have := C80_insert_log (by decide) ⟨_, ropeSample_two⟩ hc (show (⟨17, 2⟩ : Cursor).offset ≤ _ by decide) h1
  rw [ropeSample_es] at this
  exact ⟨_, s', h1, this⟩
example : ∃ o s', removeLeaf ropeTrait ropeSample ⟨12, 0⟩ = .ok (o, s') ∧ Writes ropeSample s' 166 := by
  obtain ⟨o, s', h1, -⟩ := C04_remove_any (s := ropeSample) (A := ropeLaw 4) (m := 5) ⟨12, 0⟩ (by decide) (Or.inl (by decide)) ropeSample_spec.1
  have := C80_remove_log (by decide) ⟨_, ropeSample_two⟩ h1
  rw [ropeSample_es] at this
  exact ⟨o, s', h1, this⟩
example : ∃ es rest s', drain ropeTrait ropeSample ⟨⟨3, 1⟩, true⟩ ⟨⟨20, 2⟩, true⟩ 2 = .ok (es, rest, s') ∧ Touches ropeSample s' 12825 := by
  have hpos : ∀ x ∈ (abs ropeSample).es, 0 < ropeTrait.rleLen x.2 := by rw [ropeSample_es]; decide
  have h3 := ropeSample_at (k := 3) (by decide)
  have h20 := ropeSample_at (k := 20) (by decide)
  have hend : unitLen ropeTrait (chunks 0 3) + 1 < unitLen ropeTrait (abs ropeSample).es := by rw [ropeSample_es]; decide
  obtain ⟨Y, s', h', h1, -⟩ := C18_drain (by decide) ropeSample_two (ropeContent 4).splitLen hpos (a := ⟨3, 1⟩) (b := ⟨20, 2⟩) h3 (by decide) h20 (by decide)
    (by decide) hend true true 2 (.inl (by decide))
  have := C80_drain_log (by decide) ⟨_, ropeSample_two⟩ (ropeContent 4).splitLen hpos (a := ⟨3, 1⟩) (b := ⟨20, 2⟩) h3 (by decide) h20 (by decide) (by decide) hend h1
  rw [ropeSample_es] at this
  exact ⟨_, _, s', h1, this⟩

end GB
