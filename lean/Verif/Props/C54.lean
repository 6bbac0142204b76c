import Verif.Proof.NineLevels
import Verif.Props.C46
import Verif.Proof.SampleTwo

/-!
# C54: the tree grows by a level exactly when all nodes above the new leaf are full

`FullAbove s l`: the node above the leaf `l` has 11 children and so have all nodes from there to the root.  `NearFull s l`: the same, but
the node directly above the leaf has 10 children; this matters to an insertion that also splits the leaf, which adds two leaves.
The height is what `BTree::depth` returns (on trees that are not empty).  A tree built by `push` alone has the least possible
height, `h` for `2 * 6 ^ (h - 1)` to `2 * 6 ^ h - 1` elements (`C54_push_height`).
-/

namespace GB
variable {E C D X : Type}
open Tree

/-- `BTree::depth` is the height of the invariant. -/
theorem C54_depth {B : Trait E C D} {A : Law B} {m : Fill} {h : Nat} {s : Tree E C} (hm : 1 ≤ m.lo) (hi : InvH A m h s) (hne : (abs s).es ≠ []) :
    depth s = .ok h := by
  have hn : order s ≠ [] := fun h => hne ((abs_nil hi).mpr h)
  obtain ⟨lvl, g⟩ := hi.ex
  exact depth_spec g.wf (hi.ne hm) hn

/-- `push` to a tree that is not empty: one level more if the element is not merged with the last one and all nodes above that are full,
otherwise the same height. -/
theorem C54_push {B : Trait E C D} {A : Law B} {m : Fill} {s : Tree E C} {l : Nat} {e x : E} {U : List (Nat × E)} {d : Nat}
    (hm : 1 ≤ m.lo ∧ m.lo + m.d ≤ 6) (hi : Inv A m s) (hes : (abs s).es = U ++ [(l, x)]) (hd : depth s = .ok d) (he : A.okE e) :
    ∃ c s', push B s e = .ok (c, s') ∧
      ((B.canMerge x e = false ∧ FullAbove s l) → depth s' = .ok (d + 1)) ∧
      (¬ (B.canMerge x e = false ∧ FullAbove s l) → depth s' = .ok d) := by
  obtain ⟨h, hi⟩ := hi
  have hne : (abs s).es ≠ [] := by rw [hes]; simp
  rw [C54_depth hm.1 hi hne] at hd
  cases hd
  have hn : order s ≠ [] := fun h => hne ((abs_nil hi).mpr h)
  obtain ⟨⟨lvl, g⟩, sz⟩ := hi
  obtain ⟨c, s', lvl', h', h1, g', sz', st, r⟩ := push_spec hm.1 hm.2 g sz he
  have hd' : depth s' = .ok h' := by
    refine C54_depth (A := A) hm.1 ⟨⟨lvl', g'⟩, sz'⟩ ?_
    intro h0
    have h0 : entries s' = [] := h0
    cases r with
    | new _ _ h3 _ => rw [h3] at h0; simp at h0
    | merged u l x x' h3 _ _ _ h4 _ => rw [h4] at h0; simp at h0
  have st := (st.resolve_left (fun k => hn k.1)).iff (Q := B.canMerge x e = false ∧ FullAbove s l) ⟨?_, ?_⟩
  · refine ⟨c, s', h1, ?_, ?_⟩
    · intro hq
      rcases st with ⟨-, st⟩ | ⟨rfl, -⟩
      · exact absurd hq st
      · exact hd'
    · intro hq
      rcases st with ⟨rfl, -⟩ | ⟨-, st⟩
      · exact hd'
      · exact absurd st hq
  · rintro ⟨l', x', k1, k2⟩
    rw [show entries s = _ from hes, List.getLast?_concat, Option.some.injEq, Prod.mk.injEq] at k1
    obtain ⟨rfl, rfl⟩ := k1
    exact k2
  · intro k
    exact ⟨l, x, by rw [show entries s = _ from hes, List.getLast?_concat], k⟩

/-- `prepend` to a tree that is not empty: the same at the left edge. -/
theorem C54_prepend {B : Trait E C D} {A : Law B} {m : Fill} {s : Tree E C} {l : Nat} {e x : E} {V : List (Nat × E)} {d : Nat}
    (hm : 1 ≤ m.lo ∧ m.lo + m.d ≤ 6) (hi : Inv A m s) (hes : (abs s).es = (l, x) :: V) (hd : depth s = .ok d) (he : A.okE e) :
    ∃ c s', prepend B s e = .ok (c, s') ∧
      ((B.canMerge e x = false ∧ FullAbove s l) → depth s' = .ok (d + 1)) ∧
      (¬ (B.canMerge e x = false ∧ FullAbove s l) → depth s' = .ok d) := by
  obtain ⟨h, hi⟩ := hi
  have hne : (abs s).es ≠ [] := by rw [hes]; simp
  rw [C54_depth hm.1 hi hne] at hd
  cases hd
  have hn : order s ≠ [] := fun h => hne ((abs_nil hi).mpr h)
  obtain ⟨⟨lvl, g⟩, sz⟩ := hi
  obtain ⟨c, s', lvl', h', h1, g', sz', st, r⟩ := prepend_spec hm.1 hm.2 g sz he hn
  have hd' : depth s' = .ok h' := by
    refine C54_depth (A := A) hm.1 ⟨⟨lvl', g'⟩, sz'⟩ ?_
    intro h0
    have h0 : entries s' = [] := h0
    cases r <;> simp_all
  have st := st.iff (Q := B.canMerge e x = false ∧ FullAbove s l) ⟨?_, ?_⟩
  · refine ⟨c, s', h1, ?_, ?_⟩
    · intro hq
      rcases st with ⟨-, st⟩ | ⟨rfl, -⟩
      · exact absurd hq st
      · exact hd'
    · intro hq
      rcases st with ⟨rfl, -⟩ | ⟨-, st⟩
      · exact hd'
      · exact absurd st hq
  · rintro ⟨l', x', k1, k2⟩
    rw [show entries s = _ from hes, List.head?_cons, Option.some.injEq, Prod.mk.injEq] at k1
    obtain ⟨rfl, rfl⟩ := k1
    exact k2
  · intro k
    exact ⟨l, x, by rw [show entries s = _ from hes, List.head?_cons], k⟩

/-- `insert_by_path` anywhere: `M` is the number of new leaves.  No new leaf: the same height.  One new leaf: one level more exactly if all
nodes above are full.  Two new leaves (the leaf was split): one level more exactly if all nodes above are full, or all but the
lowest are and that has 10 children. -/
theorem C54_insert {B : Trait E C D} {A : Law B} {m : Fill} {s : Tree E C} {cur : Cursor} {e data : E} {U V : List (Nat × E)} {d : Nat}
    (hm : 1 ≤ m.lo ∧ m.lo + m.d ≤ 6) (hi : Inv A m s) (hes : (abs s).es = U ++ (cur.leaf, e) :: V) (hd : depth s = .ok d)
    (ho : cur.offset ≤ B.rleLen e) (h5 : m.lo + m.d ≤ 5 ∨ cur.offset = 0 ∨ cur.offset = B.rleLen e) (hok : A.okE data) :
    ∃ r s' n d', insertByPath B s cur data = .ok (r, s') ∧ (abs s').es.length = (abs s).es.length + n ∧ n ≤ 2 ∧ depth s' = .ok d' ∧
      (n = 0 → d' = d) ∧
      (n = 1 → (FullAbove s cur.leaf → d' = d + 1) ∧ (¬ FullAbove s cur.leaf → d' = d)) ∧
      (n = 2 → (FullAbove s cur.leaf ∨ NearFull s cur.leaf → d' = d + 1) ∧ (¬ (FullAbove s cur.leaf ∨ NearFull s cur.leaf) → d' = d)) := by
  obtain ⟨h, hi⟩ := hi
  have hne : (abs s).es ≠ [] := by rw [hes]; simp
  rw [C54_depth hm.1 hi hne] at hd
  cases hd
  obtain ⟨⟨lvl, g⟩, sz⟩ := hi
  obtain ⟨l, o⟩ := cur
  have hes : entries s = U ++ (l, e) :: V := hes
  obtain ⟨c, sp, s', lvl', h', h1, g', sz', st, r⟩ := insertByPath_spec hm.1 hm.2 g sz hes ho h5 hok
  have hlt : l < s.lf.items.length := entries_lt (e := e) (by rw [hes]; simp)
  have hi' : InvH A m h' s' := ⟨⟨lvl', g'⟩, sz'⟩
  have hd' : entries s' ≠ [] → depth s' = .ok h' := C54_depth hm.1 hi'
  show ∃ r t n d', _ ∧ (entries t).length = (entries s).length + n ∧ _
  cases r with
  | inplace e' _ hc hsp hen _ =>
    refine ⟨_, s', 0, h', h1, by rw [hen, hes]; simp, by omega, hd' (by rw [hen]; simp), fun _ => ?_, by omega, by omega⟩
    rcases st with ⟨st, -⟩ | ⟨-, st, -⟩
    · exact st
    · rw [hc] at st; exact absurd rfl st
  | left e' _ _ _ _ hc hsp hen _ =>
    refine ⟨_, s', 0, h', h1, by rw [hen, hes]; simp, by omega, hd' (by rw [hen]; simp), fun _ => ?_, by omega, by omega⟩
    rcases st with ⟨st, -⟩ | ⟨-, st, -⟩
    · exact st
    · rw [hc] at st; exact absurd rfl st
  | right e' _ _ _ _ _ hc hsp hen _ =>
    refine ⟨_, s', 0, h', h1, by rw [hen, hes]; simp, by omega, hd' (by rw [hen]; simp), fun _ => ?_, by omega, by omega⟩
    rcases st with ⟨st, -⟩ | ⟨-, st, -⟩
    · exact st
    · rw [hc] at st; exact absurd rfl st
  | before _ _ _ _ hc hsp hen _ =>
    refine ⟨_, s', 1, h', h1, by rw [hen, hes]; simp; omega, by omega, hd' (by rw [hen]; simp), by omega, fun _ => ⟨fun k => ?_, fun k => ?_⟩, by omega⟩
    · rcases st with ⟨-, st⟩ | ⟨st, -⟩
      · exact absurd ⟨by rw [hc]; simp only; omega, .inl k⟩ st
      · exact st
    · rcases st with ⟨st, -⟩ | ⟨-, -, st | ⟨st, -⟩⟩
      · exact st
      · exact absurd st k
      · exact absurd hsp st
  | after _ _ _ _ hc hsp hen _ =>
    refine ⟨_, s', 1, h', h1, by rw [hen, hes]; simp; omega, by omega, hd' (by rw [hen]; simp), by omega, fun _ => ⟨fun k => ?_, fun k => ?_⟩, by omega⟩
    · rcases st with ⟨-, st⟩ | ⟨st, -⟩
      · exact absurd ⟨by rw [hc]; simp only; omega, .inl k⟩ st
      · exact st
    · rcases st with ⟨st, -⟩ | ⟨-, -, st | ⟨st, -⟩⟩
      · exact st
      · exact absurd st k
      · exact absurd hsp st
  | cut a b _ _ _ _ hc hsp hen _ =>
    refine ⟨_, s', 2, h', h1, by rw [hen, hes]; simp; omega, by omega, hd' (by rw [hen]; simp), by omega, by omega, fun _ => ⟨fun k => ?_, fun k => ?_⟩⟩
    · rcases st with ⟨-, st⟩ | ⟨st, -⟩
      · exact absurd ⟨by rw [hc]; simp only; omega, k.imp id fun k => ⟨by rw [hsp]; simp, k⟩⟩ st
      · exact st
    · rcases st with ⟨st, -⟩ | ⟨-, -, st⟩
      · exact st
      · exact absurd (st.imp id fun k => k.2) k

/-- A tree built by `push` alone has the least height that its number of elements allows: `h` with `2 * 6 ^ (h - 1) ≤ n < 2 * 6 ^ h`. -/
theorem C54_push_height {B : Trait E C D} (A : Law B) (es : List E) (hne : es ≠ []) (hes : ∀ e ∈ es, A.okE e) :
    ∃ s d, pushList B (newTree B) es = .ok s ∧ depth s = .ok d ∧ 1 ≤ d ∧ (abs s).es.length < 2 * 6 ^ d ∧ (2 ≤ d → 2 * 6 ^ (d - 1) ≤ (abs s).es.length) := by
  obtain ⟨s, h1, ⟨h, hi⟩, pk⟩ := pushList_packed (A := A) (m := 6) (by decide) (by decide) es (newTree B)
    ⟨1, new_inv A 6⟩ (new_packed B) hes
  have hne' : (abs s).es ≠ [] := by
    obtain ⟨e, es', rfl⟩ := List.exists_cons_of_ne_nil hne
    rw [pushList] at h1
    obtain ⟨⟨c, s1⟩, k1, k2⟩ := bind_inv h1
    obtain ⟨lvl, g⟩ := (new_inv A 6).ex
    obtain ⟨c', s1', lvl1, h1', e1, g1, sz1, -, r⟩ := push_spec (m := 6) (by decide) (by decide) g (new_inv A 6).sz (hes e (by simp))
    rw [k1] at e1
    cases e1
    have hs1 : entries s1 ≠ [] := by
      cases r with
      | new _ _ h3 _ => rw [h3]; simp
      | merged u l x x' h3 _ _ _ h4 _ => rw [h4]; simp
    exact pushList_ne (A := A) (m := 6) (by decide) (by decide) es' s1 s ⟨h1', ⟨lvl1, g1⟩, sz1⟩ (fun x hx => hes x (by simp [hx])) k2 hs1
  have hd := C54_depth (by decide) hi hne'
  obtain ⟨lvl, g⟩ := hi.ex
  exact ⟨s, h, h1, hd, g.wf.h_pos, packed_length (m := 6) (by decide) g.wf hi.sz pk, fun h2 => height_bound g.wf hi.sz h2⟩

/-- 71 full chunks make two levels with a full right edge, the next chunk makes three -/
theorem rope71 : ∃ (s : Tree GapBuf Int) (U : List (Nat × GapBuf)) (l : Nat),
    pushList ropeTrait (newTree ropeTrait) (List.replicate 71 (⟨[1, 2, 3, 4], 4, 0⟩ : GapBuf)) = .ok s ∧ Inv (ropeLaw 4) 6 s ∧ depth s = .ok 2 ∧
    (abs s).es = U ++ [(l, ⟨[1, 2, 3, 4], 4, 0⟩)] ∧ FullAbove s l := by
  have hok : ∀ e ∈ List.replicate 71 (⟨[1, 2, 3, 4], 4, 0⟩ : GapBuf), (ropeLaw 4).okE e := by
    intro e he
    rw [(List.mem_replicate.mp he).2]
    exact ⟨by simp [GapBuf.WF], rfl⟩
  obtain ⟨s, h1, hi, h2, -⟩ := C46_push_limit (ropeLaw 4) _ hok (by
    intro x hx y hy
    rw [(List.mem_replicate.mp hx).2, (List.mem_replicate.mp hy).2]
    rfl)
  obtain ⟨s', h3, ⟨h, hi'⟩, pk⟩ := pushList_packed (A := ropeLaw 4) (m := 6) (by decide) (by decide) _ (newTree ropeTrait) ⟨1, new_inv _ 6⟩ (new_packed _) hok
  rw [h1] at h3
  cases h3
  have hlen : (entries s).length = 71 := by
    have := congrArg List.length h2
    rwa [List.length_map, List.length_replicate] at this
  obtain ⟨U, ⟨l, x⟩, hU⟩ : ∃ U x, (abs s).es = U ++ [x] := by
    have hne : (abs s).es ≠ [] := by intro h; have : entries s = [] := h; rw [this] at hlen; simp at hlen
    exact ⟨_, _, (List.dropLast_concat_getLast hne).symm⟩
  have hx : x = ⟨[1, 2, 3, 4], 4, 0⟩ := by
    have : x ∈ (abs s).es.map Prod.snd := by rw [hU]; simp
    rw [h2] at this
    exact (List.mem_replicate.mp this).2
  subst hx
  obtain ⟨lvl, g⟩ := hi'.ex
  have h2 : h = 2 := by
    apply Nat.le_antisymm
    · apply Nat.le_of_not_lt
      intro h3
      have k1 : 2 * 6 ^ (h - 1) ≤ _ := height_bound g.wf hi'.sz (by omega)
      have k2 : 6 ^ 2 ≤ 6 ^ (h - 1) := Nat.pow_le_pow_right (by omega) (by omega)
      omega
    · apply Nat.le_of_not_lt
      intro h3
      have k1 := packed_length (m := 6) (by decide) g.wf hi'.sz pk
      have k2 : 6 ^ h ≤ 6 ^ 1 := Nat.pow_le_pow_right (by omega) (by omega)
      omega
  subst h2
  refine ⟨s, U, l, h1, hi, C54_depth (by decide) hi' (by rw [hU]; simp), hU, packed_full (m := 6) (by decide) g.wf hi'.sz pk (by rw [hlen]) ?_⟩
  rw [← entries_fst g.wf, show entries s = _ from hU]
  simp

/-- the 72nd chunk, pushed or inserted behind the last, makes a third level; one that merges does not exist here, since all are full -/
example : ∃ s c s', pushList ropeTrait (newTree ropeTrait) (List.replicate 71 (⟨[1, 2, 3, 4], 4, 0⟩ : GapBuf)) = .ok s ∧ depth s = .ok 2 ∧
    push ropeTrait s ⟨[5, 0, 0, 0], 1, 3⟩ = .ok (c, s') ∧ depth s' = .ok 3 := by
  obtain ⟨s, U, l, h1, hi, hd, hes, hf⟩ := rope71
  obtain ⟨c, s', k1, k2, -⟩ := C54_push (by decide) hi hes hd (e := ⟨[5, 0, 0, 0], 1, 3⟩) ⟨by simp [GapBuf.WF], rfl⟩
  exact ⟨s, c, s', h1, hd, k1, k2 ⟨rfl, hf⟩⟩

/-- the same by an insertion into the middle of the last chunk, which adds two leaves -/
example : ∃ s r s' l n d', pushList ropeTrait (newTree ropeTrait) (List.replicate 71 (⟨[1, 2, 3, 4], 4, 0⟩ : GapBuf)) = .ok s ∧ depth s = .ok 2 ∧
    insertByPath ropeTrait s ⟨l, 2⟩ ⟨[5, 0, 0, 0], 1, 3⟩ = .ok (r, s') ∧ (abs s').es.length = (abs s).es.length + n ∧ depth s' = .ok d' ∧ (n ≠ 0 → d' = 3) := by
  obtain ⟨s, U, l, h1, hi, hd, hes, hf⟩ := rope71
  obtain ⟨r, s', n, d', k1, k2, k3, k4, k5, k6, k7⟩ := C54_insert (m := 5) (cur := ⟨l, 2⟩) (by decide) (hi.mono (by decide)) hes hd (show 2 ≤ 4 by decide) (.inl (by decide))
    (data := ⟨[5, 0, 0, 0], 1, 3⟩) ⟨by simp [GapBuf.WF], rfl⟩
  refine ⟨s, r, s', l, n, d', h1, hd, k1, k2, k4, fun hn => ?_⟩
  rcases (by omega : n = 1 ∨ n = 2) with rfl | rfl
  · exact (k6 rfl).1 hf
  · exact (k7 rfl).1 (.inl hf)

/-- the sample, of two levels, does not grow: its root has few children -/
example : ∃ s', (∃ c, prepend (ordTrait Nat Nat) ordSample (0, 0) = .ok (c, s')) ∧ depth s' = .ok 2 := by
  have hd : depth ordSample = .ok 2 := by rfl
  obtain ⟨c, s', k1, -, k2⟩ := C54_prepend (m := 6) (by decide) ordSample_spec.1 (by rw [ordSample_spec.2]; rfl) hd (e := (0, 0)) trivial
  refine ⟨s', ⟨c, k1⟩, k2 ?_⟩
  rintro ⟨-, hf⟩
  exact absurd hf.root_full (by decide)

example := C54_push_height (ropeLaw 4) (List.replicate 71 (⟨[1, 2, 3, 4], 4, 0⟩ : GapBuf)) (by simp) (fun e he => by
  cases List.eq_of_mem_replicate he; exact ⟨by simp [GapBuf.WF], rfl⟩)

example : depth ropeSample = .ok 2 := C54_depth (by decide) ropeSample_two (by rw [ropeSample_es]; decide)

end GB
