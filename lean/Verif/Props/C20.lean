import Verif.Proof.UpdateLeaf
import Verif.Props.C24
import Verif.Proof.SampleTwo

/-!
# C20: `update_leaf` applies the closure in place
-/

namespace GB
variable {E C D X : Type}
open Tree

theorem headD_norm (B : Trait E C D) (e : E) (n1 n2 : Option E) : (normalizeUpd B e n1 n2).1 = (survivors B e n1 n2).headD e := by
  rcases normalizeUpd_spec B e n1 n2 with ⟨-, h2, h3⟩ | ⟨-, h2, -⟩
  · rw [h2, h3]; rfl
  · rw [h2]; rfl

/-- Every valid tree, every live leaf `l` with element `e`, every result `(e1, need, n1, n2)` of the closure: no panic,
the result is valid, and by `UpdRel` the entry of `l` is replaced by the results that are not removable, in order: the
first keeps the index `l`, the others get new indices, a single one may be merged into the next element instead, and
if none is left the leaf is removed and `false` is returned.

Conditions on the closure: the results are valid elements; it asks for a cache update unless the cache of the new
element of the leaf is that of the old; and if everything is removable, `e1` contributes nothing to caches, as the code
removes the leaf without an update of the caches above (src/lib.rs:1310-1326, see `C20_neutral_needed`). -/
theorem C20_update_leaf {B : Trait E C D} {A : Law B} {m : Fill} {s : Tree E C} {l : Nat} {e : E} {U V : List (Nat × E)}
    {f : E → M (E × Bool × Option E × Option E)} {e1 : E} {need : Bool} {n1 n2 : Option E}
    (hm : 1 ≤ m.lo ∧ m.lo + m.d ≤ 5) (hi : Inv A m s) (hes : (abs s).es = U ++ (l, e) :: V)
    (hf : f e = .ok (e1, need, n1, n2)) (ok1 : A.okE e1) (okn1 : ∀ b, n1 = some b → A.okE b) (okn2 : ∀ b, n2 = some b → A.okE b)
    (hneed : need = true ∨ B.elemCache ((survivors B e1 n1 n2).headD e1) = B.elemCache e)
    (hrem : survivors B e1 n1 n2 = [] → LawE A ∧ Neutral A e1) :
    ∃ b ids s', updateLeaf B s l f = .ok (b, ids, s') ∧ Inv A m s' ∧
      UpdRel B (abs s).next l U V (survivors B e1 n1 n2) b ids (abs s').next (abs s').es := by
  obtain ⟨h, ⟨lvl, g⟩, sz⟩ := hi
  obtain ⟨b, ids, s', lvl', h', h1, h2, h3, -, h4⟩ := updateLeaf_spec hm g sz hes hf ok1 okn1 okn2 (by rw [headD_norm]; exact hneed) hrem
  exact ⟨b, ids, s', h1, ⟨h', ⟨lvl', h2⟩, h3⟩, h4⟩

/-- The contents: those of the removable elements are dropped, everything else stays in order. -/
theorem C20_content {B : Trait E C D} {ok : E → Prop} {cont : E → List X} (L : ContentLaw B ok cont) {next l next' : Nat} {e : E} {U V es' : List (Nat × E)}
    {b : Bool} {ids : List Nat} {surv : List E} (hok : ∀ x ∈ surv, ok x) (hV : ∀ x ∈ V, ok x.2)
    (h : UpdRel B next l U V surv b ids next' es') :
    content cont es' = content cont U ++ surv.flatMap cont ++ content cont V := by
  cases h with
  | gone => simp [content]
  | one x => simp [content]
  | two x a => simp [content]
  | three x a c => simp [content]
  | merged x a k z z' V' hV' hc hz =>
    subst hV'
    have := L.merge_left a z z' (hok a (by simp)) (hV _ List.mem_cons_self) hc hz
    simp [content, this]

/-- the answer tells whether the leaf is still in the tree -/
theorem C20_alive {B : Trait E C D} {next l next' : Nat} {U V es' : List (Nat × E)} {b : Bool} {ids : List Nat} {surv : List E}
    (hnd : l ∉ (U ++ V).map Prod.fst) (h : UpdRel B next l U V surv b ids next' es') : b = true ↔ l ∈ es'.map Prod.fst := by
  cases h <;> simp_all

/-- a rope buffer that may be removed is empty and contributes nothing -/
theorem rope_neutral {cap : Nat} {g : GapBuf} (h : ropeTrait.canRemove g = true) : Neutral (ropeLaw cap) g := by
  intro l r
  have h0 : g.len = 0 := by simpa [ropeTrait, GapBuf.canRemove] using h
  simp [ropeLaw, int_sum_append, ropeTrait, h0]

/-- Entries of the ordered map are never removable: whatever value is written, the entry keeps its leaf, and nothing else changes. -/
theorem C20_ord_kept {K V : Type} {m : Fill} {s : Tree (K × V) (OrdCache K)} {l : Nat} {k : K} {v w : V} {P S : List (Nat × (K × V))}
    (hm : 1 ≤ m.lo ∧ m.lo + m.d ≤ 5) (hi : Inv (ordLaw K V) m s) (hes : (abs s).es = P ++ (l, (k, v)) :: S) (need : Bool) :
    ∃ s', updateLeaf (ordTrait K V) s l (fun e => .ok ((e.1, w), need, none, none)) = .ok (true, [], s') ∧ Inv (ordLaw K V) m s' ∧
      (abs s').es = P ++ (l, (k, w)) :: S := by
  obtain ⟨b, ids, s', h1, h2, h3⟩ := C20_update_leaf hm hi hes (f := fun e => .ok ((e.1, w), need, none, none)) rfl trivial (by intro b h; cases h) (by intro b h; cases h)
    (.inr (by exact rfl)) (by intro h; exact absurd h (by simp [survivors, ordTrait]))
  have h4 : survivors (ordTrait K V) (k, w) none none = [(k, w)] := rfl
  rw [h4] at h3
  generalize hx : (abs s').es = es', (abs s').next = nx at h3
  cases h3
  exact ⟨s', h1, h2, hx⟩

/-- entry 11 of the sample -/
example : ∃ s', updateLeaf (ordTrait Nat Nat) ordSample 11 (fun e => .ok ((e.1, 77), true, none, none)) = .ok (true, [], s') := by
  have hs : ∃ P v S, (abs ordSample).es = P ++ (11, v) :: S := by
    have : (11 : Nat) ∈ (abs ordSample).es.map Prod.fst := by rw [ordSample_spec.2]; decide +kernel
    obtain ⟨x, hx, hx1⟩ := List.mem_map.mp this
    obtain ⟨P, S, h⟩ := List.append_of_mem hx
    exact ⟨P, x.2, S, by rw [h, ← hx1]⟩
  obtain ⟨P, v, S, h⟩ := hs
  obtain ⟨s', h1, -⟩ := C20_ord_kept (m := 5) (w := 77) (by decide) (ordSample_spec.1.imp fun _ h => ⟨h.ex, h.sz.mono (show 5 ≤ 6 by decide) (show 5 ≤ 6 by decide)⟩) h true
  exact ⟨s', h1⟩

/-- a chunk of the sample is split in three -/
example := C20_update_leaf (B := ropeTrait) (A := ropeLaw 4) (s := ropeSample) (l := 11) (m := 5) (by decide) ropeSample_spec.1
  (U := (List.range 11).map fun i => (i, ⟨[UInt8.ofNat i, 1, 2, 0], 3, 1⟩)) (V := (List.range 18).map fun i => (i + 12, ⟨[UInt8.ofNat (i + 12), 1, 2, 0], 3, 1⟩))
  (by rw [ropeSample_spec.2]; rfl) (f := fun _ => .ok (⟨[11, 0, 0, 0], 1, 3⟩, true, some ⟨[1, 0, 0, 0], 1, 3⟩, some ⟨[2, 0, 0, 0], 1, 3⟩)) rfl
  ⟨by unfold GapBuf.WF; decide, rfl⟩ (by intro b h; cases h; exact ⟨by unfold GapBuf.WF; decide, rfl⟩) (by intro b h; cases h; exact ⟨by unfold GapBuf.WF; decide, rfl⟩)
  (Or.inl rfl) (by intro h; cases h)

/-- and emptied -/
example := C20_update_leaf (B := ropeTrait) (A := ropeLaw 4) (s := ropeSample) (l := 11) (m := 5) (by decide) ropeSample_spec.1
  (U := (List.range 11).map fun i => (i, ⟨[UInt8.ofNat i, 1, 2, 0], 3, 1⟩)) (V := (List.range 18).map fun i => (i + 12, ⟨[UInt8.ofNat (i + 12), 1, 2, 0], 3, 1⟩))
  (by rw [ropeSample_spec.2]; rfl) (f := fun _ => .ok (⟨[0, 0, 0, 0], 0, 4⟩, true, none, none)) rfl
  ⟨by unfold GapBuf.WF; decide, rfl⟩ (by intro b h; cases h) (by intro b h; cases h)
  (Or.inl rfl) (fun _ => ⟨ropeLawE 4, rope_neutral rfl⟩)

/-- An element type whose cache counts elements; `0` is removable. -/
def countTrait : Trait Nat Nat Unit where
  rleLen := fun _ => 1
  split := fun _ _ => .error .panic
  canMerge := fun _ _ => false
  mergeRight := fun _ _ => .error .panic
  mergeLeft := fun _ _ => .error .panic
  tryInsert := fun _ _ d => .ok (.inr d)
  canRemove := fun e => e == 0
  useDiff := false
  dflt := 0
  calcC := fun _ cs => .ok (cs.sum, ())
  apply := fun c _ => .ok c
  mergeDiff := fun _ _ => ()
  elemCache := fun _ => 1
  newCacheToDiff := fun _ => ()
  subCache := fun _ _ => ()

/-- Without the condition that a removable element has a neutral cache the caches go wrong: of two elements one is
replaced by `0` and so removed; one element is left, but the root cache still counts two. -/
theorem C20_neutral_needed :
    (do
      let (_, s) ← push countTrait (newTree countTrait) 5
      let (_, s) ← push countTrait s 6
      let (alive, ids, s) ← updateLeaf countTrait s 0 (fun _ => .ok (0, true, none, none))
      let es ← iter s
      pure (alive, ids, es, s.rootCache) : M (Bool × List Nat × List Nat × Nat)) = .ok (false, [], [6], 2) := by
  rfl

/-- a split in two, and a split whose second part is merged with the next chunk -/
example := C20_content (ropeContent 4) (e := chunk 3) (hok := fun x hx => by
    simp only [List.mem_cons, List.not_mem_nil, or_false] at hx
    rcases hx with rfl | rfl <;> exact chunk_ok _)
  (hV := fun x hx => by cases List.mem_singleton.mp hx; exact chunk_ok 9) (UpdRel.two (next := 30) (l := 3) (U := chunks 0 3) (V := [(9, chunk 9)]) (B := ropeTrait) (chunk 7) (chunk 8))

example := C20_alive (by decide) (UpdRel.two (next := 30) (l := 3) (U := chunks 0 3) (V := [(9, chunk 9)]) (B := ropeTrait) (chunk 7) (chunk 8))

example := C20_alive (by decide) (UpdRel.merged (next := 30) (l := 3) (U := chunks 0 3) (V := [(9, chunk 9)]) (B := ropeTrait) (chunk 7) ⟨[5, 0, 0, 0], 1, 3⟩ 9 (chunk 9) _ [] rfl rfl rfl)

end GB
