import Verif.Props.C09
import Verif.Proof.Context
import Verif.Proof.SampleTwo

/-!
# C70: every stored cache belongs to a block of the sequence; fields of fixed width do not overflow

The model uses natural numbers and integers where the code has `u8`, `u16`, `usize` and `isize`, and lists where it has `heapless::Vec`s.  The
theorems here bound what is stored in a valid tree, so that the casts `as u8` and `as u16` lose nothing and lengths stay below the length of the
whole content.  That every operation keeps trees valid is proved with the operations.
-/

namespace GB
variable {E C D X Q F σ : Type}
open Tree

/-- The cache stored for any child of any node is the combination of the caches of a contiguous, non-empty block of the sequence; for a leaf
the block is that leaf.  So no inner cache is ever stale. -/
theorem C70_caches {B : Trait E C D} {A : Law B} {m : Fill} {s : Tree E C} (hm : 1 ≤ m.lo) (hi : Inv A m s) {x : Nat} {N : Node C}
    (hx : s.inn.get x = some N) {c : Child C} (hc : c ∈ N.children) :
    ∃ U b V, (abs s).es = U ++ b ++ V ∧ b ≠ [] ∧ c.cache = A.total (b.map fun y => B.elemCache y.2) ∧
      (∀ l, c.arena = .leaf l → b.map Prod.fst = [l]) := by
  obtain ⟨h, hi⟩ := hi
  have ne := hi.ne hm
  obtain ⟨⟨lvl, g⟩, sz⟩ := hi
  have hx' : lnk s x ≠ none := by rw [lnk_of hx]; simp
  obtain ⟨u, v, ho, -⟩ := order_context g.wf g.wf hx' rfl (fun _ _ _ _ => rfl)
  obtain ⟨n, hn⟩ : ∃ n, lvl x = n + 1 := ⟨lvl x - 1, by have := g.wf.lvl_pos x N hx; omega⟩
  have hc' : c ∈ chs s x := by rw [chs_of hx]; exact hc
  have hk : c.arena ∈ kids s x := by rw [kids_chs]; exact List.mem_map_of_mem hc'
  obtain ⟨i, hi⟩ := mem_kids.mp hk
  obtain ⟨k1, k2, hk⟩ := List.append_of_mem hk
  rw [hn, leavesAt_succ, hk, List.flatMap_append, List.flatMap_cons] at ho
  refine ⟨entriesOf s (u ++ k1.flatMap (sub s n)), entriesOf s (sub s n c.arena), entriesOf s (k2.flatMap (sub s n) ++ v), ?_,
    sub_ne g.wf ne n x i c.arena hn hi, cache_block g ne hn hc', ?_⟩
  · show entries s = _
    rw [entries, ho]
    simp only [entriesOf_append, List.append_assoc]
  · intro l hl
    rw [hl] at hi ⊢
    obtain ⟨e, he⟩ := elm_some (show lpar s l ≠ none by rw [(g.wf.klf hi).2]; simp)
    cases n with
    | zero => simp [sub, entriesOf_cons he]
    | succ n => have := (g.wf.klf hi).1; omega

/-- If the caches hold lengths, none is zero or above the length of the whole, provided no element has length zero. -/
theorem C70_lengths {B : Trait E C D} {A : Law B} {getLen : C → Nat} (L : LenLaw A getLen) {m : Fill} {s : Tree E C} (hm : 1 ≤ m.lo) (hi : Inv A m s)
    {x : Nat} {N : Node C} (hx : s.inn.get x = some N) {c : Child C} (hc : c ∈ N.children) :
    getLen c.cache ≤ unitLen B (abs s).es ∧ ((∀ y ∈ (abs s).es, 0 < B.rleLen y.2) → 0 < getLen c.cache) := by
  obtain ⟨U, b, V, h1, h2, h3, -⟩ := C70_caches hm hi hx hc
  have hok : ∀ y ∈ b, A.okE y.2 := fun y hy => hi.okE y (show y ∈ (abs s).es by rw [h1]; simp [hy])
  have hb : getLen c.cache = unitLen B b := by rw [h3]; exact L.block h2 hok
  rw [hb, h1, unitLen_append, unitLen_append]
  refine ⟨by omega, fun hp => ?_⟩
  cases b with
  | nil => exact absurd rfl h2
  | cons y b =>
    rw [unitLen_cons]
    have := hp y (by simp)
    omega

/-- the caches of a rope, `isize` in the code, are between 0 and the number of bytes -/
theorem C70_rope {cap : Nat} {m : Fill} {s : Tree GapBuf Int} (hm : 1 ≤ m.lo) (hi : Inv (ropeLaw cap) m s)
    {x : Nat} {N : Node Int} (hx : s.inn.get x = some N) {c : Child Int} (hc : c ∈ N.children) :
    0 ≤ c.cache ∧ c.cache ≤ (content GapBuf.toVec (abs s).es).length := by
  have h1 := (C70_lengths (ropeLenLaw cap) hm hi hx hc).1
  rw [← content_length (ropeContent cap) (es := (abs s).es) hi.okE] at h1
  have h0 : 0 ≤ c.cache := by
    obtain ⟨h, ⟨⟨lvl, g⟩, sz⟩⟩ := hi
    exact g.cok x c (by rw [chs_of hx]; exact hc)
  simp only [ropeLen] at h1
  omega

/-- Slots: at most 11 children per node; the slot stored in a node other than the root is its place among the children of its parent, so it
fits into a `u8` and differs from the placeholder 255. -/
theorem C70_slots {B : Trait E C D} {A : Law B} {m : Fill} {s : Tree E C} (hi : Inv A m s) {x : Nat} {N : Node C} (hx : s.inn.get x = some N) :
    N.children.length ≤ 11 ∧
      (x ≠ s.root → ∃ p P c, N.parent = some p ∧ s.inn.get p = some P ∧ P.children[N.slot]? = some c ∧ c.arena = .internal x ∧ N.slot < 11) := by
  obtain ⟨h, ⟨⟨lvl, g⟩, sz⟩⟩ := hi
  have hlen : ∀ {y : Nat} {P : Node C}, s.inn.get y = some P → P.children.length ≤ 11 := fun {y P} hy => by
    have := (sz y (by rw [lnk_of hy]; simp) (fun h => h)).1
    rwa [chs_of hy] at this
  refine ⟨hlen hx, fun hr => ?_⟩
  obtain ⟨p, h1, h2, -⟩ := g.wf.parent_in hx hr
  obtain ⟨c, h3, h4⟩ := edge_chs.mp h2
  cases hp : s.inn.get p with
  | none => simp [chs, hp] at h3
  | some P =>
    rw [chs_of hp] at h3
    have := hlen hp
    have := (List.getElem?_eq_some_iff.mp h3).1
    exact ⟨p, P, c, h1, hp, h3, h4, by omega⟩

/-- The `u16` fields of every gap buffer in a rope: with a capacity that fits into 16 bits they, and their sum, do too. -/
theorem C70_gap {cap : Nat} (hcap : cap < 2 ^ 16) {m : Fill} {s : Tree GapBuf Int} (hi : Inv (ropeLaw cap) m s) {l : Nat} {g : GapBuf}
    (hl : (l, g) ∈ (abs s).es) : g.gapStart + g.gapLen < 2 ^ 16 ∧ g.len ≤ cap := by
  obtain ⟨h1, h2⟩ := hi.okE (l, g) hl
  simp only [GapBuf.WF, GapBuf.capacity] at h1 h2
  refine ⟨by omega, ?_⟩
  simp only [GapBuf.len]
  omega

/-- `SplittedLeaves` has room for two leaves (src/lib.rs:276-278).  No operation puts more into it, whatever the tree: `insert_by_path` -/
theorem C70_splitted_insert {B : Trait E C D} {s s' : Tree E C} {c c' : Cursor} {e : E} {ids : List Nat}
    (h : insertByPath B s c e = .ok ((c', ids), s')) : ids.length ≤ 1 := by
  simp only [insertByPath] at h
  obtain ⟨leaf, -, h⟩ := bind_inv h
  obtain ⟨r, -, h⟩ := bind_inv h
  cases r with
  | inl e' =>
    obtain ⟨s1, -, h⟩ := bind_inv h
    cases h
    simp
  | inr data =>
    simp only at h
    split at h
    · obtain ⟨e', -, h⟩ := bind_inv h
      obtain ⟨s1, -, h⟩ := bind_inv h
      cases h
      simp
    · split at h
      · obtain ⟨e', -, h⟩ := bind_inv h
        obtain ⟨s1, -, h⟩ := bind_inv h
        cases h
        simp
      · obtain ⟨⟨info, s1⟩, -, h⟩ := bind_inv h
        obtain ⟨P, -, h⟩ := bind_inv h
        obtain ⟨cs, -, h⟩ := bind_inv h
        obtain ⟨s2, -, h⟩ := bind_inv h
        obtain ⟨s3, -, h⟩ := bind_inv h
        cases h
        cases info.newLeaf <;> simp

/-- `update` -/
theorem C70_splitted_update {B : Trait E C D} {ho : HashOrd E} {f : σ → E → M (σ × E × Option D)} {st st' : σ} {s s' : Tree E C} {a b : Cursor}
    {ids : List Nat} (h : update B ho f st s a b = .ok (st', ids, s')) : ids.length ≤ 2 := by
  simp only [update] at h
  obtain ⟨⟨i1, s1⟩, -, h⟩ := bind_inv h
  obtain ⟨⟨i2, s2⟩, -, h⟩ := bind_inv h
  have hl : (i1.newLeaf.toList ++ i2.newLeaf.toList).length ≤ 2 := by
    cases i1.newLeaf <;> cases i2.newLeaf <;> simp
  simp only at h
  split at h
  · cases h
    exact hl
  · obtain ⟨path, -, h⟩ := bind_inv h
    obtain ⟨⟨st1, s3, rm, dm⟩, -, h⟩ := bind_inv h
    obtain ⟨s4, -, h⟩ := bind_inv h
    obtain ⟨s5, -, h⟩ := bind_inv h
    cases h
    exact hl

/-- `update_leaf` -/
theorem C70_splitted_update_leaf {B : Trait E C D} {s s' : Tree E C} {l : Nat} {f : E → M (E × Bool × Option E × Option E)} {b : Bool}
    {ids : List Nat} (h : updateLeaf B s l f = .ok (b, ids, s')) : ids.length ≤ 2 := by
  simp only [updateLeaf] at h
  obtain ⟨node, -, h⟩ := bind_inv h
  obtain ⟨⟨e, need, n1, n2⟩, -, h⟩ := bind_inv h
  simp only at h
  generalize normalizeUpd B e n1 n2 = r at h
  obtain ⟨e, n1, n2⟩ := r
  obtain ⟨s1, -, h⟩ := bind_inv h
  split at h
  · obtain ⟨_, -, h⟩ := bind_inv h
    obtain ⟨par, -, h⟩ := bind_inv h
    obtain ⟨slot, -, h⟩ := bind_inv h
    obtain ⟨⟨_, cs⟩, -, h⟩ := bind_inv h
    obtain ⟨s2, -, h⟩ := bind_inv h
    cases h
    simp
  · split at h
    · obtain ⟨_, -, h⟩ := bind_inv h
      cases h
      simp
    · obtain ⟨mg, hmg, h⟩ := bind_inv h
      cases mg with
      | some r =>
        obtain ⟨b', ids', s2⟩ := r
        cases h
        split at hmg
        · obtain ⟨par, -, hmg⟩ := bind_inv hmg
          obtain ⟨slot, -, hmg⟩ := bind_inv hmg
          split at hmg
          · obtain ⟨next, -, hmg⟩ := bind_inv hmg
            split at hmg
            · obtain ⟨e', -, hmg⟩ := bind_inv hmg
              obtain ⟨s3, -, hmg⟩ := bind_inv hmg
              cases hmg
              simp
            · cases hmg
          · cases hmg
        · cases hmg
      | none =>
        obtain ⟨par, -, h⟩ := bind_inv h
        obtain ⟨⟨p, s2⟩, -, h⟩ := bind_inv h
        obtain ⟨par2, -, h⟩ := bind_inv h
        obtain ⟨slot, -, h⟩ := bind_inv h
        obtain ⟨cs, -, h⟩ := bind_inv h
        obtain ⟨cs2, -, h⟩ := bind_inv h
        obtain ⟨_, -, h⟩ := bind_inv h
        obtain ⟨s3, -, h⟩ := bind_inv h
        cases h
        cases n2 <;> simp

/-- `update_leaf_by_search` -/
theorem C70_splitted_search {B : Trait E C D} {q : Query E C Q F} {s s' : Tree E C} {arg : Q} {f : E → QueryResult → M (E × Option (D × Option E × Option E))}
    {c : Option Cursor} {ids : List Nat} (h : updateLeafBySearch B q s arg f = .ok (c, ids, s')) : ids.length ≤ 1 := by
  simp only [updateLeafBySearch] at h
  obtain ⟨em, -, h⟩ := bind_inv h
  split at h
  · cases h
  · obtain ⟨⟨l, arr, path, fd⟩, -, h⟩ := bind_inv h
    obtain ⟨leaf, -, h⟩ := bind_inv h
    obtain ⟨⟨⟨off, found⟩, fd2⟩, -, h⟩ := bind_inv h
    obtain ⟨⟨e, r⟩, -, h⟩ := bind_inv h
    simp only at h
    split at h
    · cases h
      simp
    · cases h
    · split at h
      · obtain ⟨_, -, h⟩ := bind_inv h
        obtain ⟨⟨lack, s1⟩, -, h⟩ := bind_inv h
        obtain ⟨rc, -, h⟩ := bind_inv h
        obtain ⟨root, -, h⟩ := bind_inv h
        obtain ⟨s2, -, h⟩ := bind_inv h
        cases h
        simp
      · obtain ⟨⟨nc, spl, s1⟩, hn, h⟩ := bind_inv h
        have hl : spl.length ≤ 1 := by
          split at hn
          · obtain ⟨top, -, hn⟩ := bind_inv hn
            cases hn
            simp
          · cases hn
            simp
        obtain ⟨⟨nc2, s2⟩, -, h⟩ := bind_inv h
        simp only at h
        split at h
        · obtain ⟨s3, -, h⟩ := bind_inv h
          cases h
          exact hl
        · obtain ⟨rc, -, h⟩ := bind_inv h
          cases h
          exact hl

/-- the root of the sample has children, whose caches are between 0 and 90 -/
example : ∃ N, ropeSample.inn.get ropeSample.root = some N ∧ N.children ≠ [] ∧
    ∀ c ∈ N.children, 0 ≤ c.cache ∧ c.cache ≤ (content GapBuf.toVec (abs ropeSample).es).length := by
  have h : (ropeSample.inn.get ropeSample.root).any (fun N => !N.children.isEmpty) = true := by decide +kernel
  cases h1 : ropeSample.inn.get ropeSample.root with
  | none => simp [h1] at h
  | some N => exact ⟨N, rfl, by simpa [h1] using h, fun _ hc => C70_rope (by decide) ropeSample_spec.1 h1 hc⟩

example : ∀ l g, (l, g) ∈ (abs ropeSample).es → g.gapStart + g.gapLen < 2 ^ 16 := fun _ _ h => (C70_gap (by decide) ropeSample_spec.1 h).1

/-- a node of the sample that is not the root, at slot 2 -/
example : ∃ x N, ropeSample.inn.get x = some N ∧ x ≠ ropeSample.root ∧ N.slot = 2 ∧ N.children.length ≤ 11 := by
  have h : ((List.range ropeSample.inn.items.length).any fun x => (ropeSample.inn.get x).any fun N => x != ropeSample.root && N.slot == 2) = true := by decide +kernel
  obtain ⟨x, -, hx⟩ := List.any_eq_true.mp h
  cases hN : ropeSample.inn.get x with
  | none => simp [hN] at hx
  | some N =>
    simp [hN] at hx
    exact ⟨x, N, hN, hx.1, hx.2, (C70_slots ropeSample_spec.1 hN).1⟩

/-- the caches of the root of the sample: sums over blocks of its chunks -/
example : ∃ N, ropeSample.inn.get ropeSample.root = some N ∧ N.children ≠ [] ∧ ∀ c ∈ N.children,
    (∃ U b V, chunks 0 30 = U ++ b ++ V ∧ b ≠ [] ∧ c.cache = (ropeLaw 4).total (b.map fun y => ropeTrait.elemCache y.2)) ∧ 0 < ropeLen c.cache := by
  have h : (ropeSample.inn.get ropeSample.root).any (fun N => !N.children.isEmpty) = true := by decide +kernel
  cases h1 : ropeSample.inn.get ropeSample.root with
  | none => simp [h1] at h
  | some N =>
    refine ⟨N, rfl, by simpa [h1] using h, fun c hc => ⟨?_, ?_⟩⟩
    · obtain ⟨U, b, V, k1, k2, k3, -⟩ := C70_caches (by decide) ropeSample_spec.1 h1 hc
      exact ⟨U, b, V, ropeSample_es ▸ k1, k2, k3⟩
    · exact (C70_lengths (ropeLenLaw 4) (by decide) ropeSample_spec.1 h1 hc).2 (by rw [ropeSample_es]; decide)

/-- an insertion into the middle of a full chunk makes one leaf besides the inserted one -/
example : ∃ s c ids s', pushList ropeTrait (newTree ropeTrait) [⟨[1, 2, 3, 4], 4, 0⟩] = .ok s ∧
    insertByPath ropeTrait s ⟨0, 2⟩ ⟨[9, 9, 0, 0], 2, 2⟩ = .ok ((c, ids), s') ∧ ids.length = 1 ∧ ids.length ≤ 1 := by
  obtain ⟨s, c, ids, s', h1, h2, h3⟩ := show ∃ s c ids s', pushList ropeTrait (newTree ropeTrait) [⟨[1, 2, 3, 4], 4, 0⟩] = .ok s ∧
    insertByPath ropeTrait s ⟨0, 2⟩ ⟨[9, 9, 0, 0], 2, 2⟩ = .ok ((c, ids), s') ∧ ids.length = 1 from ⟨_, _, _, _, rfl, rfl, rfl⟩
  exact ⟨s, c, ids, s', h1, h2, h3, C70_splitted_insert h2⟩

/-- an update of the middle of a chunk makes two leaves -/
example : ∃ s st ids s', pushList ropeTrait (newTree ropeTrait) [⟨[1, 2, 3, 4], 4, 0⟩] = .ok s ∧
    update ropeTrait ⟨id, id, id⟩ (fun (n : Nat) e => .ok (n + 1, e, none)) 0 s ⟨0, 1⟩ ⟨0, 3⟩ = .ok (st, ids, s') ∧ ids.length = 2 ∧ ids.length ≤ 2 := by
  obtain ⟨s, st, ids, s', h1, h2, h3⟩ := show ∃ s st ids s', pushList ropeTrait (newTree ropeTrait) [⟨[1, 2, 3, 4], 4, 0⟩] = .ok s ∧
    update ropeTrait ⟨id, id, id⟩ (fun (n : Nat) e => .ok (n + 1, e, none)) 0 s ⟨0, 1⟩ ⟨0, 3⟩ = .ok (st, ids, s') ∧ ids.length = 2 from ⟨_, _, _, _, rfl, rfl, rfl⟩
  exact ⟨s, st, ids, s', h1, h2, h3, C70_splitted_update h2⟩

example : ∃ s b ids s', pushList ropeTrait (newTree ropeTrait) [⟨[1, 2, 3, 4], 4, 0⟩] = .ok s ∧
    updateLeaf ropeTrait s 0 (fun e => .ok (e, true, some ⟨[5, 6, 7, 8], 4, 0⟩, some ⟨[9, 9, 9, 9], 4, 0⟩)) = .ok (b, ids, s') ∧ ids.length = 2 ∧ ids.length ≤ 2 := by
  obtain ⟨s, b, ids, s', h1, h2, h3⟩ := show ∃ s b ids s', pushList ropeTrait (newTree ropeTrait) [⟨[1, 2, 3, 4], 4, 0⟩] = .ok s ∧
    updateLeaf ropeTrait s 0 (fun e => .ok (e, true, some ⟨[5, 6, 7, 8], 4, 0⟩, some ⟨[9, 9, 9, 9], 4, 0⟩)) = .ok (b, ids, s') ∧ ids.length = 2 from ⟨_, _, _, _, rfl, rfl, rfl⟩
  exact ⟨s, b, ids, s', h1, h2, h3, C70_splitted_update_leaf h2⟩

example : ∃ s c ids s', pushList ropeTrait (newTree ropeTrait) [⟨[1, 2, 3, 4], 4, 0⟩] = .ok s ∧
    updateLeafBySearch ropeTrait ropeQuery s 2 (fun e _ => .ok (e, some (4, some ⟨[5, 6, 7, 8], 4, 0⟩, none))) = .ok (c, ids, s') ∧ ids.length = 1 ∧ ids.length ≤ 1 := by
  obtain ⟨s, c, ids, s', h1, h2, h3⟩ := show ∃ s c ids s', pushList ropeTrait (newTree ropeTrait) [⟨[1, 2, 3, 4], 4, 0⟩] = .ok s ∧
    updateLeafBySearch ropeTrait ropeQuery s 2 (fun e _ => .ok (e, some (4, some ⟨[5, 6, 7, 8], 4, 0⟩, none))) = .ok (c, ids, s') ∧ ids.length = 1 from ⟨_, _, _, _, rfl, rfl, rfl⟩
  exact ⟨s, c, ids, s', h1, h2, h3, C70_splitted_search h2⟩

end GB
