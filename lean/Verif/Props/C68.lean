import Verif.Proof.Rounds
import Verif.Proof.LackRounds
import Verif.Props.C54
import Verif.Props.C29
import Verif.Props.C63

/-!
# C68: no loop of the tree takes more rounds than the tree has levels

`d` is what `BTree::depth` returns.  A descent (`query`, `first_leaf`, `last_leaf`, `depth`), a climb (the caches above a leaf, the path of
a node, the neighbours of a node, `compare_pos`) and a repair (splitting from a node that is full, merging from a node that lacks
children, removing a chain of empty nodes, dropping levels) each end within `d` rounds, from every node of the tree, whatever the
number of elements; building a path of the leftmost or rightmost leaf takes `d + 1`, the length of the path.  The depth itself is
logarithmic: `2 * 5 ^ (d - 1)` is at most the number of elements (`C68_log`).  A call of `next` on the iterator of `iter()` takes at most two
rounds and climbs at most the path.  The repair at the end of `drain` walks down the path to a leaf on either side of the gap until nothing
is left to do, each walk as long as the path; it takes at most `5 * d - 3` walks.

The callbacks of the trait are assumed to end.
-/

namespace GB
variable {E C D Q F : Type}
open Tree

section
variable {B : Trait E C D} {A : Law B} {m : Fill} {s : Tree E C} {d : Nat}

private theorem depth_inv (hm : 1 ≤ m.lo) (hi : Inv A m s) (hne : (abs s).es ≠ []) (hd : depth s = .ok d) : InvH A m d s := by
  obtain ⟨h, hi⟩ := hi
  rw [C54_depth hm hi hne] at hd
  cases hd
  exact hi

/-- Looking for a position or a key. -/
theorem C68_query (hm : 1 ≤ m.lo) (hi : Inv A m s) (hne : (abs s).es ≠ []) (hd : depth s = .ok d) (q : Query E C Q F) (arg : Q)
    (hf : ∀ fd cs, q.findNode fd arg cs ≠ .error .fuel) (hc : ∀ fd e, q.confirm fd arg e ≠ .error .fuel) (fd : F) (b : Bool) :
    EndsWithin (fun n => queryF q arg n s s.root fd b) d := by
  obtain ⟨⟨lvl, g⟩, -⟩ := depth_inv hm hi hne hd
  refine endsWithin_of_mono (fun n => queryF_mono s q arg n s.root fd b) ?_
  exact queryF_nf g.wf q arg hf hc d s.root fd b (lnk_isSome.mpr ⟨_, g.wf.root.choose_spec.1⟩) (Nat.le_of_eq g.wf.root_lvl)

/-- Going down one side of the tree. -/
theorem C68_descend (hm : 1 ≤ m.lo) (hi : Inv A m s) (hne : (abs s).es ≠ []) (hd : depth s = .ok d) :
    EndsWithin (fun n => firstLeafF n s s.root) d ∧ EndsWithin (fun n => lastLeafF n s s.root) d ∧ EndsWithin (fun n => depthF n s s.root 0) d ∧
    EndsWithin (fun n => firstPathF n s (.internal s.root) []) (d + 1) ∧ EndsWithin (fun n => lastPathF n s (.internal s.root) 0 []) (d + 1) := by
  have hi' := depth_inv hm hi hne hd
  have hn : order s ≠ [] := fun h => hne ((abs_nil hi').mpr h)
  have ne := hi'.ne hm
  obtain ⟨⟨lvl, g⟩, -⟩ := hi'
  have hr : lnk s s.root ≠ none := lnk_isSome.mpr ⟨_, g.wf.root.choose_spec.1⟩
  have hl := g.wf.root_lvl
  refine ⟨endsWithin_of_mono (fun n => firstLeafF_mono s n s.root) ?_, endsWithin_of_mono (fun n => lastLeafF_mono s n s.root) ?_,
    endsWithin_of_mono (fun n => depthF_mono s n s.root 0) ?_, endsWithin_of_mono (fun n => firstPathF_mono s n _ _) ?_,
    endsWithin_of_mono (fun n => lastPathF_mono s n _ _ _) ?_⟩
  · rw [(firstLeafF_spec g.wf ne d s.root hr (by omega)).1]; exact nf_ok _
  · rw [(lastLeafF_spec g.wf ne d s.root hr (by omega)).1]; exact nf_ok _
  · rw [depthF_spec g.wf ne d s.root 0 hr (by omega) (fun h0 => hn ((empty_iff g.wf ne).mpr h0))]; exact nf_ok _
  · exact firstPathF_nf g.wf _ _ _ hr (by omega)
  · exact lastPathF_nf g.wf _ _ _ _ hr (by omega)

/-- Climbing from a node to the root, or to the lowest node above two others. -/
theorem C68_climb (hm : 1 ≤ m.lo) (hi : Inv A m s) (hne : (abs s).es ≠ []) (hd : depth s = .ok d) {x : Nat} {X : Node C} (hx : s.inn.get x = some X) :
    EndsWithin (fun n => nextSameLevelIn n s x) d ∧ EndsWithin (fun n => prevSameLevelIn n s x) d ∧
    (∀ acc, EndsWithin (fun n => getPathF n s x acc) d) ∧ (∀ len, EndsWithin (fun n => levelF n s x len) d) ∧
    (∀ y Y, s.inn.get y = some Y → EndsWithin (fun n => cmpClimb n s X Y) d) := by
  have hi' := depth_inv hm hi hne hd
  have ne := hi'.ne hm
  obtain ⟨⟨lvl, g⟩, -⟩ := hi'
  have hl := g.wf.lvl_pos x X hx
  have hlk : lnk s x ≠ none := lnk_isSome.mpr ⟨X, hx⟩
  refine ⟨endsWithin_of_mono (fun n => nextSameLevelIn_mono s n x) ?_, endsWithin_of_mono (fun n => prevSameLevelIn_mono s n x) ?_,
    fun acc => endsWithin_of_mono (fun n => getPathF_mono s n x acc) ?_, fun len => endsWithin_of_mono (fun n => levelF_mono s n x len) ?_,
    fun y Y hy => endsWithin_of_mono (fun n => cmpClimb_mono s n X Y) ?_⟩
  · obtain ⟨u, v, -, h⟩ := nextSameLevelIn_spec g.wf ne d x hlk (by omega)
    rw [h]; exact nf_ok _
  · obtain ⟨u, v, -, h⟩ := prevSameLevelIn_spec g.wf ne d x hlk (by omega)
    rw [h]; exact nf_ok _
  · exact getPathF_nf g.wf _ _ _ hlk (by omega)
  · letI : DecidableEq C := fun _ _ => Classical.propDecidable _
    rw [levelF_spec g.wf d x len hlk (by omega)]; exact nf_ok _
  · exact cmpClimb_nf g.wf _ x y X Y hx hy (by omega)

/-- The depth is logarithmic in the number of elements. -/
theorem C68_log (hm : 1 ≤ m.lo) (hi : Inv A m s) (hne : (abs s).es ≠ []) (hd : depth s = .ok d) :
    d ≤ 1 ∨ 2 * m.lo ^ (d - 1) ≤ (abs s).es.length := by
  rcases Nat.lt_or_ge d 2 with h2 | h2
  · left; omega
  · right; exact C29_depth (depth_inv hm hi hne hd) h2

/-- Iteration: each call of `next` on the iterator of `iter()` takes at most two rounds, whatever state the iterator is in. -/
theorem C68_iter (hm : 1 ≤ m.lo) (hi : Inv A m s) (hne : (abs s).es ≠ []) (it : ElemIter C) : EndsWithin (fun n => elemNextF s n it) 2 := by
  obtain ⟨h, hi⟩ := hi
  have hn : order s ≠ [] := fun h => hne ((abs_nil hi).mpr h)
  have ne := hi.ne hm
  obtain ⟨⟨lvl, g⟩, -⟩ := hi
  have hc : ∀ x N, s.inn.get x = some N → N.children ≠ [] := by
    intro x N hx
    have : chs s x ≠ [] := by
      by_cases hr : x = s.root
      · rw [hr]; exact fun hc => hn ((empty_iff g.wf ne).mpr hc)
      · exact ne x (lnk_isSome.mpr ⟨N, hx⟩) hr
    intro h0
    exact this (by rw [chs_of hx, h0])
  refine ⟨(elemNextF_two s hc it 0).1, fun n hn => ?_⟩
  obtain ⟨k, rfl⟩ : ∃ k, n = k + 2 := ⟨n - 2, by omega⟩
  exact (elemNextF_two s hc it k).2

/-- Bringing the caches above a node up to date. -/
theorem C68_caches (hm : 1 ≤ m.lo) (hi : Inv A m s) (hne : (abs s).es ≠ []) (hd : depth s = .ok d) (ha : ∀ c z, B.apply c z ≠ .error .fuel)
    (hc : ∀ c l, B.calcC c l ≠ .error .fuel) {x : Nat} {X : Node C} (hx : s.inn.get x = some X) :
    (∀ z, EndsWithin (fun n => recUpdDiff B n s x z) d) ∧ EndsWithin (fun n => recUpdCalc B n s x) d := by
  obtain ⟨⟨lvl, g⟩, -⟩ := depth_inv hm hi hne hd
  have hl := g.wf.lvl_pos x X hx
  have hlk : lnk s x ≠ none := lnk_isSome.mpr ⟨X, hx⟩
  exact ⟨fun z => endsWithin_of_mono (fun n => recUpdDiff_mono B n s x z) (recUpdDiff_nf B ha _ s x z g.wf hlk (by omega)),
    endsWithin_of_mono (fun n => recUpdCalc_mono B n s x) (recUpdCalc_nf B hc _ s x g.wf hlk (by omega))⟩

end

section
variable {B : Trait E C D} {A : Law B} {m : Fill} {s : Tree E C} {lvl : Nat → Nat} {h x : Nat}

/-- Splitting from a node that is full: the tree is valid up to the number of children of that node. -/
theorem C68_split (hm : 1 ≤ m.lo ∧ m.lo + m.d ≤ 6) (g : Good A s lvl h) (hx : lnk s x ≠ none) (sz : SzX m s h (fun y => y = x))
    (hl : 2 * (m.lo + m.d) ≤ (chs s x).length ∧ 2 ≤ (chs s x).length ∧ (chs s x).length ≤ 12) :
    EndsWithin (fun n => splitF B n s x) h := by
  have hl1 := g.wf.lvl_pos' hx
  refine endsWithin_of_mono (fun n => splitF_mono B n s x) ?_
  obtain ⟨s', _, _, h1, -⟩ := splitF_spec hm.1 hm.2 h s lvl h x g hx sz hl.1 hl.2.1 hl.2.2 (by omega)
  rw [h1]; exact nf_ok _

/-- Merging or balancing from a node that lacks children, and dropping levels at the root. -/
theorem C68_lack (hm : 1 ≤ m.lo ∧ m.lo + m.d ≤ 6) (g : Good A s lvl h) (hx : lnk s x ≠ none) (sz : SzX m s h (fun y => y = x))
    (hl : (chs s x).length ≤ 11) (hne : chs s x ≠ [] ∨ LawE A) :
    EndsWithin (fun n => handleLackF B n s x) h := by
  have hl1 := g.wf.lvl_pos' hx
  refine endsWithin_of_mono (fun n => handleLackF_mono B n s x) ?_
  obtain ⟨s', _, _, h1, -⟩ := handleLackF_spec hm.1 hm.2 h s lvl h x g hx sz hl hne (by omega)
  rw [h1]; exact nf_ok _

/-- Removing a node without children and the nodes above that lose their last child. -/
theorem C68_remove (hm : 1 ≤ m.lo ∧ m.lo + m.d ≤ 6) (le : LawE A) (g : Good A s lvl h) (hx : lnk s x ≠ none) (sz : SzX m s h (fun y => y = x))
    (h0 : chs s x = []) : EndsWithin (fun n => removeInternalF B n s x) h := by
  have hl1 := g.wf.lvl_pos' hx
  refine endsWithin_of_mono (fun n => removeInternalF_mono B n s x) ?_
  obtain ⟨s', _, _, h1, -⟩ := removeInternalF_spec hm.1 hm.2 le h s lvl h x g hx sz h0 (by omega)
  rw [h1]; exact nf_ok _

/-- The repair at the end of `drain`, along the path to a leaf on either side of the gap: the tree is valid, but its nodes may have any number of
children from 1 to 11.  The code walks down the path until nothing is left to do; it walks at most `5 * h - 3` times. -/
theorem C68_seal (hh : h ≤ 9) (g : Good A s lvl h) (th : Thin s) {l : Nat} {L : LeafNode E} (hl : s.lf.get l = some L) :
    EndsWithin (fun n => handleLackPathF B n s (.leaf l) 0) (5 * h - 3) := by
  have hp := g.wf.h_pos
  refine endsWithin_of_mono (fun n => handleLackPathF_mono B n s (.leaf l) 0) ?_
  refine handleLackPathF_rounds hh _ s 0 g th (lpar_isSome.mpr ⟨L, hl⟩) (Or.inl ⟨0, 1, by omega, ?_, fun y hy _ => hy.ne, by omega⟩)
  intro y hy hly
  have := (g.wf.lvl_pos' hy.live).1
  omega

/-- The same for every tree that `check()` accepts and that lists its leaves properly; `d` is what `BTree::depth` returns. -/
theorem C68_seal_checked [DecidableEq C] (hck : check B s = .ok ()) (hli : Listed s) (hok : ∀ l L, s.lf.get l = some L → A.okE L.elem)
    (h11 : ∀ x N, s.inn.get x = some N → N.children.length ≤ 11) {d : Nat} (hd : depth s = .ok d) {l : Nat} {L : LeafNode E}
    (hl : s.lf.get l = some L) : EndsWithin (fun n => handleLackPathF B n s (.leaf l) 0) (5 * d - 3) := by
  obtain ⟨lvl, h, g, ne, h9, -⟩ := (C63_check_partial A hok).mp ⟨hck, hli⟩
  have th : Thin s := by
    intro y hy
    obtain ⟨N, hN⟩ := lnk_isSome.mp hy
    exact ⟨by rw [chs_of hN]; exact h11 y N hN, ne y hy⟩
  have hdh : depth s = .ok h := by
    refine depth_spec g.wf ne fun h0 => ?_
    have := (entries_mem g.wf (l := l) (e := L.elem)).mpr (by simp [elm, hl])
    rw [entries, h0] at this
    simp at this
  rw [hdh] at hd
  cases hd
  exact C68_seal h9 g th hl

end

section
variable {α K V : Type}

private theorem binSearchF_mono (f : α → M Ordering) (l : List α) : ∀ n a b, FLe (binSearchF f l n a b) (binSearchF f l (n + 1) a b) := by
  intro n
  induction n with
  | zero => intro a b; exact Or.inl rfl
  | succ n ih =>
    intro a b
    rw [binSearchF, binSearchF.eq_def f l (n + 1 + 1)]
    dsimp only
    split
    · refine FLe.bind_same fun x => FLe.bind_same fun o => ?_
      cases o
      · exact ih _ _
      · exact .refl _
      · exact ih _ _
    · exact .refl _

/-- The binary search over `l` ends within `k + 1` rounds if `l` has less than `2 ^ k` members. -/
theorem C68_search (f : α → M Ordering) (l : List α) (hf : ∀ x, f x ≠ .error .fuel) {k : Nat} (hk : l.length < 2 ^ k) :
    EndsWithin (fun n => binSearchF f l n 0 l.length) (k + 1) := by
  refine endsWithin_of_mono (fun n => binSearchF_mono f l n 0 l.length) ?_
  have key : ∀ k a b, b - a < 2 ^ k → binSearchF f l (k + 1) a b ≠ .error .fuel := by
    intro k
    induction k with
    | zero =>
      intro a b h
      rw [binSearchF, if_neg (by rw [Nat.pow_zero] at h; omega)]
      exact nf_ok _
    | succ k ih =>
      intro a b h
      rw [Nat.pow_succ] at h
      rw [binSearchF]
      split
      · refine nf_bind (nf_vget _ _) fun x _ => nf_bind (hf x) fun o _ => ?_
        cases o
        · exact ih _ _ (by omega)
        · exact nf_ok _
        · exact ih _ _ (by omega)
      · exact nf_ok _
  exact key k 0 l.length (by omega)

/-- Looking up a position of a rope. -/
theorem C68_rope {cap : Nat} {m : Fill} {s : Tree GapBuf Int} {d : Nat} (hm : 1 ≤ m.lo) (hi : Inv (ropeLaw cap) m s) (hne : (abs s).es ≠ [])
    (hd : depth s = .ok d) (pos : Nat) (fd : LenFinder) (b : Bool) : EndsWithin (fun n => queryF ropeQuery pos n s s.root fd b) d := by
  refine C68_query hm hi hne hd ropeQuery pos (fun fd cs => ?_) (fun fd e => nf_ok _) fd b
  refine nf_bind (nf_unwrap _) fun c _ => ?_
  dsimp only
  split
  · exact nf_ok _
  · exact nf_bind (nf_unwrap _) fun _ _ => nf_ok _

/-- Looking up a key of a map. -/
theorem C68_ord [Ord K] {A : Law (ordTrait K V)} {m : Fill} {s : Tree (K × V) (OrdCache K)} {d : Nat} (hm : 1 ≤ m.lo) (hi : Inv A m s)
    (hne : (abs s).es ≠ []) (hd : depth s = .ok d) (key : K) (b : Bool) : EndsWithin (fun n => queryF (ordQuery K V) key n s s.root () b) d := by
  refine C68_query hm hi hne hd (ordQuery K V) key (fun fd cs => ?_) (fun fd e => nf_ok _) () b
  have hcmp : ∀ c : Child (OrdCache K), ordCmpChild key c ≠ .error .fuel := by
    intro c
    refine nf_bind (nf_unwrap _) fun r _ => ?_
    dsimp only
    split
    · exact nf_ok _
    · split <;> exact nf_ok _
  have hb : binSearch (ordCmpChild key) cs ≠ .error .fuel := (C68_search (ordCmpChild key) cs hcmp (Nat.lt_two_pow_self (n := cs.length))).1
  refine nf_bind (nf_bind hb fun r _ => ?_) fun _ _ => nf_ok _
  cases r with
  | inl i => exact nf_ok _
  | inr i => exact nf_bind (nf_assertM _) fun _ _ => nf_ok _

end

/-! ## Concrete cases -/

/-- A rope of 30 chunks has two levels: looking up byte 61 takes two rounds, not one. -/
example : EndsWithin (fun n => queryF ropeQuery 61 n ropeSample ropeSample.root (ropeQuery.init 61) true) 2 ∧
    ¬ EndsWithin (fun n => queryF ropeQuery 61 n ropeSample ropeSample.root (ropeQuery.init 61) true) 1 :=
  ⟨C68_rope (m := 5) (by decide) ropeSample_spec.1 (by rw [ropeSample_spec.2]; simp) (by rfl) 61 _ true, fun h => h.1 (by rfl)⟩

example : EndsWithin (fun n => queryF (ordQuery Nat Nat) 33 n ordSample ordSample.root () true) 2 :=
  C68_ord (m := 6) (by decide) ordSample_spec.1 (by rw [ordSample_spec.2]; simp) (by rfl) 33 true

example : EndsWithin (fun n => binSearchF (fun x => .ok (compare x 7)) [1, 3, 5, 7, 9, 11, 13] n 0 7) 4 :=
  C68_search _ [1, 3, 5, 7, 9, 11, 13] (fun _ => nf_ok _) (k := 3) (by decide)

/-- Behind the last child of the first node of the sample, `next` takes the second round. -/
example : EndsWithin (fun n => elemNextF ropeSample n ⟨[⟨.internal 1, 0⟩, ⟨.internal ropeSample.root, 0⟩], []⟩) 2 ∧
    ¬ EndsWithin (fun n => elemNextF ropeSample n ⟨[⟨.internal 1, 0⟩, ⟨.internal ropeSample.root, 0⟩], []⟩) 1 :=
  ⟨C68_iter (m := 5) (by decide) ropeSample_spec.1 (by rw [ropeSample_spec.2]; simp) _, fun h => h.1 (by rfl)⟩

example := C68_descend (m := 5) (by decide) ropeSample_spec.1 (by rw [ropeSample_spec.2]; simp) (d := 2) (by rfl)

example : ∃ x X, ropeSample.inn.get x = some X ∧ x ≠ ropeSample.root ∧ EndsWithin (fun n => nextSameLevelIn n ropeSample x) 2 ∧
    (∀ z, EndsWithin (fun n => recUpdDiff ropeTrait n ropeSample x z) 2) := by
  have hd : depth ropeSample = .ok 2 := by rfl
  refine ⟨1, _, rfl, by decide, (C68_climb (m := 5) (by decide) ropeSample_spec.1 (by rw [ropeSample_spec.2]; simp) hd rfl).1,
    (C68_caches (m := 5) (by decide) ropeSample_spec.1 (by rw [ropeSample_spec.2]; simp) hd (fun _ _ => nf_ok _) (fun _ _ => nf_ok _) rfl).1⟩

example : (2 : Nat) ≤ 1 ∨ 2 * 5 ^ (2 - 1) ≤ (abs ropeSample).es.length :=
  C68_log (m := 5) (by decide) ropeSample_spec.1 (by rw [ropeSample_spec.2]; simp) (by rfl)

/-- Splitting and merging from a node of the sample, at its second level. -/
example : ∃ h x, x ≠ ropeSample.root ∧ EndsWithin (fun n => splitF ropeTrait n ropeSample x) h ∧ EndsWithin (fun n => handleLackF ropeTrait n ropeSample x) h := by
  obtain ⟨h, ⟨lvl, g⟩, sz⟩ := ropeSample_spec.1
  have sz1 : SzX 1 ropeSample h (fun y => y = 1) := fun y hy _ => Sz.mono (m' := 1) sz (by decide) (by decide) y hy (fun h => h)
  have hc : 2 ≤ (chs ropeSample 1).length ∧ (chs ropeSample 1).length ≤ 11 := by decide +kernel
  have hx : lnk ropeSample 1 ≠ none := by decide +kernel
  refine ⟨h, 1, by decide, C68_split (m := 1) (by decide) g hx sz1 ⟨hc.1, hc.1, by omega⟩,
    C68_lack (m := 1) (by decide) g hx sz1 hc.2 (Or.inl (fun h0 => by rw [h0] at hc; simp at hc))⟩

/-- Two levels of nodes with two children each below the root, and eight letters. -/
def treeThin : Tree GapBuf Int :=
  ⟨⟨[some ⟨none, 0, [⟨.internal 1, 4⟩, ⟨.internal 2, 4⟩]⟩,
     some ⟨some 0, 0, [⟨.internal 3, 2⟩, ⟨.internal 4, 2⟩]⟩, some ⟨some 0, 1, [⟨.internal 5, 2⟩, ⟨.internal 6, 2⟩]⟩,
     some ⟨some 1, 0, [⟨.leaf 0, 1⟩, ⟨.leaf 1, 1⟩]⟩, some ⟨some 1, 1, [⟨.leaf 2, 1⟩, ⟨.leaf 3, 1⟩]⟩,
     some ⟨some 2, 0, [⟨.leaf 4, 1⟩, ⟨.leaf 5, 1⟩]⟩, some ⟨some 2, 1, [⟨.leaf 6, 1⟩, ⟨.leaf 7, 1⟩]⟩]⟩,
   ⟨(List.range 8).map fun i => some ⟨letter (UInt8.ofNat i), 3 + i / 2⟩⟩, 0, 8⟩

private theorem treeThin_listed : Listed treeThin := by
  have key : ∀ x N, treeThin.inn.get x = some N → N.children.length = 2 ∧
      (∀ i c l, N.children[i]? = some c → c.arena = .leaf l → 3 ≤ x ∧ x ≤ 6 ∧ l = 2 * (x - 3) + i) := by
    intro x N hx
    match x, hx with
    | 0, hx | 1, hx | 2, hx | 3, hx | 4, hx | 5, hx | 6, hx =>
      cases hx
      refine ⟨rfl, fun i c l hi hc => ?_⟩
      match i, hi with
      | 0, hi | 1, hi => cases hi; cases hc <;> decide
      | i + 2, hi => cases hi
    | x + 7, hx => cases hx
  refine ⟨fun p N i c l hp hi hc => ?_, fun p N i j c c' l hp hi hc hj hc' => ?_, fun N hN => by cases hN; rfl⟩
  · obtain ⟨h1, h2⟩ := key p N hp
    obtain ⟨h3, h4, h5⟩ := h2 i c l hi hc
    have h6 : i < 2 := by rw [← h1]; exact (List.getElem?_eq_some_iff.mp hi).1
    have h7 : l < 8 := by omega
    match p, i, h3, h4, h6 with
    | 3, 0, _, _, _ | 3, 1, _, _, _ | 4, 0, _, _, _ | 4, 1, _, _, _ | 5, 0, _, _, _ | 5, 1, _, _, _ | 6, 0, _, _, _ | 6, 1, _, _, _ =>
      subst h5; exact ⟨_, rfl, rfl⟩
  · have h1 := (key p N hp).2 i c l hi hc
    have h2 := (key p N hp).2 j c' l hj hc'
    omega

/-- For it, the path to leaf 3 takes a second walk. -/
example : EndsWithin (fun n => handleLackPathF ropeTrait n treeThin (.leaf 3) 0) 12 ∧
    ¬ EndsWithin (fun n => handleLackPathF ropeTrait n treeThin (.leaf 3) 0) 1 := by
  refine ⟨C68_seal_checked (A := ropeLaw 4) (d := 3) rfl treeThin_listed (fun l L hL => ?_) (fun x N hx => ?_) rfl rfl, fun h => h.1 (by rfl)⟩
  · match l, hL with
    | 0, hL | 1, hL | 2, hL | 3, hL | 4, hL | 5, hL | 6, hL | 7, hL => cases hL; exact ⟨by simp [GapBuf.WF, letter], rfl⟩
    | l + 8, hL => cases hL
  · match x, hx with
    | 0, hx | 1, hx | 2, hx | 3, hx | 4, hx | 5, hx | 6, hx => cases hx; decide
    | x + 7, hx => cases hx

/-- the path to a chunk of the sample -/
example : ∃ h L, ropeSample.lf.get 17 = some L ∧ EndsWithin (fun n => handleLackPathF ropeTrait n ropeSample (.leaf 17) 0) (5 * h - 3) := by
  obtain ⟨⟨lvl, g⟩, sz⟩ := ropeSample_two
  exact ⟨2, _, rfl, C68_seal (by decide) g (Thin.of_sz (by decide) sz) rfl⟩

/-- A tree without elements: its root has no children. -/
example : EndsWithin (fun n => removeInternalF ropeTrait n (newTree ropeTrait) 0) 1 := by
  obtain ⟨⟨lvl, g⟩, sz⟩ := new_inv (ropeLaw 4) 5
  exact C68_remove (m := 5) (by decide) (ropeLawE 4) g (by decide +kernel) (fun y hy _ => sz y hy (fun h => h)) rfl

example : EndsWithin (fun n => queryF ropeQuery 34 n ropeSample ropeSample.root (ropeQuery.init 34) true) 2 :=
  C68_query (m := 5) (by decide) ropeSample_spec.1 (by rw [ropeSample_spec.2]; simp) (by rfl) ropeQuery 34
    (fun fd cs => by
      intro h
      cases cs with
      | nil => cases h
      | cons c cs =>
        have h : lenFindNode ropeLen fd (c :: cs) = .error .fuel := h
        simp only [lenFindNode, List.head?_cons, unwrap, bind_ok] at h
        cases hl : lenLoop ropeLen (c :: cs) 0 fd.left fd.left with
        | inl x => rw [hl] at h; cases h
        | inr x => rw [hl, List.getLast?_eq_some_getLast (List.cons_ne_nil c cs)] at h; cases h) (fun _ _ h => by cases h) _ _

end GB
