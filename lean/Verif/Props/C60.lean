import Verif.Model.Harness
import Verif.Proof.RopeHist
import Verif.Proof.Check
import Verif.Props.C07
import Verif.Props.C09
import Verif.Props.C15
import Verif.Proof.SampleTwo

/-!
# C60: the lengths stored in a rope's tree stay between zero and the length of the text

So none of the stored `isize` lengths overflows or turns into a huge `usize` as long as the text is shorter than `isize::MAX`; the helper
`test_index` of src/generic_impl/rope.rs, which adds such lengths up, passes on every rope.
-/

namespace GB
open Tree
variable {cap : Nat} {m : Fill} {s : Tree GapBuf Int}

theorem sum_nonneg : ∀ l : List Int, (∀ x ∈ l, 0 ≤ x) → 0 ≤ l.sum
  | [], _ => Int.le_refl 0
  | x :: l, h => by
    have := sum_nonneg l fun y hy => h y (List.mem_cons_of_mem _ hy)
    have := h x (by simp)
    rw [List.sum_cons]; omega

theorem le_sum : ∀ (l : List Int), (∀ x ∈ l, 0 ≤ x) → ∀ x ∈ l, x ≤ l.sum
  | y :: l, h, x, hx => by
    have h0 := sum_nonneg l fun y hy => h y (List.mem_cons_of_mem _ hy)
    have h1 := h y (by simp)
    rw [List.sum_cons]
    rcases List.mem_cons.mp hx with rfl | hx
    · omega
    · have := le_sum l (fun y hy => h y (List.mem_cons_of_mem _ hy)) x hx
      omega

/-- the caches of a node add up to at most the root cache -/
theorem cch_le {lvl : Nat → Nat} {h : Nat} (g : Good (ropeLaw cap) s lvl h) : ∀ (n y : Nat) (N : Node Int), s.inn.get y = some N → lvl y + n = h →
    (cch s y).sum ≤ s.rootCache := by
  have nn : ∀ y, ∀ x ∈ cch s y, 0 ≤ x := by
    intro y x hx
    obtain ⟨c, hc, rfl⟩ := List.mem_map.mp hx
    exact g.cok y c hc
  intro n
  induction n with
  | zero =>
    intro y N hN hl
    have hy : y = s.root := by
      apply Decidable.byContradiction
      intro hy
      obtain ⟨p, h1, h2, h3⟩ := g.wf.parent_in hN hy
      obtain ⟨P, hP⟩ := live_of_kid h2
      have := (g.wf.lvl_pos p P hP).2
      omega
    subst hy
    by_cases hr : chs s s.root = []
    · have : s.rootCache = 0 := g.rok.2 hr
      rw [this, cch, hr]
      exact Int.le_refl _
    · rw [g.rok.1 hr]
      exact Int.le_refl _
  | succ n ih =>
    intro y N hN hl
    have hy : y ≠ s.root := by
      intro hy
      subst hy
      have := g.wf.root_lvl
      omega
    obtain ⟨p, h1, h2, h3⟩ := g.wf.parent_in hN hy
    obtain ⟨P, hP⟩ := live_of_kid h2
    have hk : Idx.internal y ∈ kids s p := List.mem_of_getElem? h2
    rw [kids_chs] at hk
    obtain ⟨c, hc, hca⟩ := List.mem_map.mp hk
    have he := g.cinv p c hc (fun h => h)
    simp only [EntryOK, hca] at he
    have he : c.cache = (cch s y).sum := he
    rw [← he]
    exact Int.le_trans (le_sum _ (nn p) _ (List.mem_map.mpr ⟨c, hc, rfl⟩)) (ih p P hP (by omega))

/-- Every length stored in the tree of a rope lies between zero and the root cache, which is the number of bytes of the text. -/
theorem C60_cache_bounds (hm : 1 ≤ m.lo) (hi : Inv (ropeLaw cap) m s) {x : Nat} {N : Node Int} (hN : s.inn.get x = some N) {c : Child Int} (hc : c ∈ N.children) :
    0 ≤ c.cache ∧ c.cache ≤ s.rootCache ∧ s.rootCache = (content GapBuf.toVec (abs s).es).length := by
  refine ⟨?_, ?_, C07_rope_length hm hi⟩
  · obtain ⟨h, hi⟩ := hi
    obtain ⟨lvl, g⟩ := hi.ex
    exact g.cok x c (by rw [chs_of hN]; exact hc)
  · obtain ⟨h, hi⟩ := hi
    obtain ⟨lvl, g⟩ := hi.ex
    have hc : c ∈ chs s x := by rw [chs_of hN]; exact hc
    have nn : ∀ y ∈ cch s x, 0 ≤ y := by
      intro y hy
      obtain ⟨c, hc, rfl⟩ := List.mem_map.mp hy
      exact g.cok x c hc
    have hl := g.wf.lvl_pos x N hN
    exact Int.le_trans (le_sum _ nn _ (List.mem_map.mpr ⟨c, hc, rfl⟩)) (cch_le g (h - lvl x) x N hN (by omega))

theorem cachesUpTo_mem {C : Type} (cs : List (Child C)) : ∀ (k i : Nat) (l : List C), cachesUpTo cs i k = .ok l → ∀ c ∈ l, ∃ d ∈ cs, c = d.cache
  | 0, _, l, h, c, hc => by cases h; cases hc
  | k + 1, i, l, h, c, hc => by
    rw [cachesUpTo] at h
    obtain ⟨d, h1, h⟩ := bind_inv h
    obtain ⟨r, h2, h⟩ := bind_inv h
    cases h
    rcases List.mem_cons.mp hc with rfl | hc
    · exact ⟨d, List.mem_of_getElem? (vget_inv h1), rfl⟩
    · exact cachesUpTo_mem cs k (i + 1) r h2 c hc

theorem visitPath_mem {E C : Type} {s : Tree E C} : ∀ (p : List PIdx) (l : List C), visitPath s p = .ok l → ∀ c ∈ l, ∃ x N, s.inn.get x = some N ∧ ∃ d ∈ N.children, c = d.cache
  | [], l, h, c, hc => by cases h; cases hc
  | [_], l, h, c, hc => by cases h; cases hc
  | p :: q :: rest, l, h, c, hc => by
    rw [visitPath] at h
    obtain ⟨N, h1, h⟩ := bind_inv h
    obtain ⟨cs, h2, h⟩ := bind_inv h
    obtain ⟨tl, h3, h⟩ := bind_inv h
    cases h
    rcases List.mem_append.mp hc with hc | hc
    · obtain ⟨x, h4, h5⟩ := bind_inv h1
      exact ⟨x, N, getIn_inv h5, cachesUpTo_mem _ _ _ _ h2 c hc⟩
    · exact visitPath_mem (q :: rest) tl h3 c hc

theorem sum_toNat : ∀ l : List Int, (∀ x ∈ l, 0 ≤ x) → (l.map Int.toNat).sum = l.sum.toNat
  | [], _ => rfl
  | x :: l, h => by
    have h0 := sum_nonneg l fun y hy => h y (List.mem_cons_of_mem _ hy)
    have h1 := h x (by simp)
    rw [List.map_cons, List.sum_cons, List.sum_cons, sum_toNat l fun y hy => h y (List.mem_cons_of_mem _ hy)]
    omega

theorem sum_lens : ∀ U : List (Nat × GapBuf), (U.map fun x => ropeTrait.elemCache x.2).sum = ((unitLen ropeTrait U : Nat) : Int)
  | [] => rfl
  | x :: U => by simp only [List.map_cons, List.sum_cons, sum_lens U, unitLen_cons, Int.natCast_add]; rfl

/-- The helper `test_index` passes on every rope whose tree has at most nine levels. -/
theorem C60_test_index {r : Rope} {h : Nat} (hm : 1 ≤ m.lo) (hi : InvH (ropeLaw cap) m h r.tree) (hh : h ≤ 9) : testIndex r = .ok () := by
  apply checkAll_ok
  intro i hi'
  have hi' := List.mem_range.mp hi'
  have hlen := C07_rope_length hm hi.inv
  have hul := content_length (ropeContent cap) (es := (abs r.tree).es) hi.inv.okE
  have hlt : i < unitLen ropeTrait (abs r.tree).es := by
    rw [Rope.len, hlen] at hi'
    rw [← hul]; exact hi'
  have hne : (abs r.tree).es ≠ [] := by
    intro e
    rw [e] at hlt
    exact absurd hlt (Nat.not_lt_zero _)
  obtain ⟨U, l, e, V, o, h1, h2, h3, -⟩ := C09_query_len (ropeLenLaw cap) hm hi.inv hne i
  have h2 : query ropeQuery r.tree i = _ := h2
  obtain ⟨cs, k1, k2⟩ := C15_visit (c := ⟨l, o⟩) hm hi hh h1
  have hnn : ∀ x ∈ cs, 0 ≤ x := by
    intro x hx
    obtain ⟨path, p1, p2⟩ := bind_inv (show (getPath r.tree (.leaf l) >>= _) = _ from k1)
    obtain ⟨cs', p3, p4⟩ := bind_inv p2
    obtain ⟨L, p5, p6⟩ := bind_inv p4
    cases p6
    obtain ⟨y, N, q1, d, q2, rfl⟩ := visitPath_mem _ _ p3 x hx
    exact (C60_cache_bounds hm hi.inv q1 q2).1
  have hsum : cs.sum = ((unitLen ropeTrait U : Nat) : Int) := by
    have h3 := k2 []
    simp only [List.append_nil] at h3
    have h3 : cs.sum = (U.map fun x => ropeTrait.elemCache x.2).sum := h3
    rw [h3]
    exact sum_lens U
  simp only [testIndexAt, h2, unwrap, bind_ok, testPrevLength, k1, pure_ok, sum_toNat cs hnn, hsum, Int.toNat_natCast, h3, decide_true, assertM, if_true]

theorem shortEdits_end {n : Nat} : ∀ (os : List RopeOp) (t : List UInt8), ShortEdits n t os → (editAll t os).length < n
  | [], _, h => h
  | o :: os, t, h => shortEdits_end os (o.edit t) h.2

/-- After every history of edits that keeps the text below 390626 bytes. -/
theorem C60_test_index_history (hcap : 0 < cap) (os : List RopeOp) (hv : validEdits [] os) (hs : ShortEdits 390626 [] os) :
    ∃ r, ropeRun cap Rope.new os = .ok r ∧ testIndex r = .ok () := by
  have h0 : Rope.new.text = [] := by
    rw [Rope.text]; show (abs (newTree ropeTrait)).es.flatMap _ = []; rw [new_entries]; rfl
  obtain ⟨r, h1, h2, h3⟩ := ropeRun_short hcap os Rope.new (ropeNew_inv (Nat.le_refl 1)) (by rw [h0]; exact hv) (by rw [h0]; exact hs)
  have hl : r.text.length < 390626 := by
    rw [← h2.len (Nat.le_refl 1), h3.len, h0]
    exact shortEdits_end os [] hs
  obtain ⟨h, hh, hi⟩ := h2.low hl
  exact ⟨r, h1, C60_test_index (Nat.le_refl 1) hi (by omega)⟩

/-- the sample: three levels of chunks of three bytes -/
example {x : Nat} {N : Node Int} (hN : ropeSample.inn.get x = some N) {c : Child Int} (hc : c ∈ N.children) : 0 ≤ c.cache ∧ c.cache ≤ 90 := by
  obtain ⟨h1, h2, h3⟩ := C60_cache_bounds (m := 5) (by decide) ropeSample_spec.1 hN hc
  rw [ropeSample_spec.2] at h3
  refine ⟨h1, ?_⟩
  rw [h3] at h2
  exact h2

/-- the text of the crate's test `test_insert_repeatedly` -/
example := C60_test_index_history (cap := 4) (by decide) [.insert 0 [49, 50, 51], .insert 1 [120], .insert 2 [121], .insert 3 [122]]
  ⟨Nat.zero_le _, show 1 ≤ 3 by decide, show 2 ≤ 4 by decide, show 3 ≤ 5 by decide, trivial⟩
  ⟨by decide, by decide, by decide, by decide, show 6 < 390626 by decide⟩

example : testIndex ⟨ropeSample, none⟩ = .ok () := C60_test_index (r := ⟨ropeSample, none⟩) (by decide) ropeSample_two (by decide)

end GB
