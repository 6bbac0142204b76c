import Verif.Proof.CheckComplete
import Verif.Spec.Listed
import Verif.Props.C62
import Verif.Props.C06

/-!
# C63: `check()` accepts a tree only if it is valid

For an arbitrary state of the two arenas, reachable or not.

False: `check()` skips the leaves that nodes list (src/lib.rs:2781), so it accepts a node that lists a leaf that is gone (`C62_leak_false`), a leaf of
another node (`C63_foreign_false`), or a leaf twice (`C63_twice_false`), and a root that is its own descendant (`C63_cycle_false`).

These are all: with the condition `Listed` on these entries, `check()` succeeds exactly on the valid trees (`C63_check_partial`), and a tree that
passes can be read (`C63_read_partial`).
-/

namespace GB
variable {E C D : Type}
open Tree

theorem Listed.edges {s : Tree E C} (hl : Listed s) : (∀ p i l, Edge s p i (.leaf l) → ∃ L, s.lf.get l = some L ∧ L.parent = p) ∧
    ∀ p i j l, Edge s p i (.leaf l) → Edge s p j (.leaf l) → i = j := by
  constructor
  · intro p i l he
    obtain ⟨N, hN⟩ := live_of_kid he
    obtain ⟨c, hc, hca⟩ := edge_chs.mp he
    rw [chs_of hN] at hc
    exact hl.live p N i c l hN hc hca
  · intro p i j l he he'
    obtain ⟨N, hN⟩ := live_of_kid he
    obtain ⟨c, hc, hca⟩ := edge_chs.mp he
    obtain ⟨c', hc', hca'⟩ := edge_chs.mp he'
    rw [chs_of hN] at hc hc'
    exact hl.once p N i j c c' l hN hc hca hc' hca'

theorem listed_of {s : Tree E C} {lvl : Nat → Nat} {h : Nat} (w : WF s lvl h) : Listed s := by
  have he : ∀ (p : Nat) (N : Node C) (i : Nat) (c : Child C) (l : Nat), s.inn.get p = some N → N.children[i]? = some c → c.arena = .leaf l → Edge s p i (.leaf l) :=
    fun p N i c l hN hc hca => edge_chs.mpr ⟨c, by rw [chs_of hN]; exact hc, hca⟩
  refine ⟨fun p N i c l hN hc hca => (w.kid_lf p i l (he p N i c l hN hc hca)).2,
    fun p N i j c c' l hN hc hca hc' hca' => w.uniq p i j l (he p N i c l hN hc hca) (he p N j c' l hN hc' hca'), fun N hN => ?_⟩
  obtain ⟨R, hR, hp⟩ := w.root
  rw [hN] at hR
  cases hR
  exact hp

/-- With right lists of leaves, `check()` accepts exactly the valid trees (of at most 9 levels, no empty node but the root, and if the
root is empty its cache is the recomputed one). -/
theorem C63_check_partial [DecidableEq C] {B : Trait E C D} (A : Law B) {s : Tree E C} (hok : ∀ l L, s.lf.get l = some L → A.okE L.elem) :
    (check B s = .ok () ∧ Listed s) ↔
    ∃ lvl h, Good A s lvl h ∧ NE s ∧ h ≤ 9 ∧ ((abs s).es = [] → ∃ d, B.calcC B.dflt [] = .ok (s.rootCache, d)) := by
  constructor
  · rintro ⟨hck, hl⟩
    obtain ⟨lvl, h, g, ne, h9⟩ := check_good A hck (fun l e he => by
      cases hL : s.lf.get l with
      | none => simp [elm, hL] at he
      | some L =>
        have : L.elem = e := by simpa [elm, hL] using he
        rw [← this]
        exact hok l L hL) hl.top hl.edges.1 hl.edges.2
    refine ⟨lvl, h, g, ne, h9, fun he => ?_⟩
    obtain ⟨R, d, q1, q2⟩ := (check_sound hck).root
    have ho : order s = [] := by
      have := entries_fst g.wf
      rw [show entries s = [] from he] at this
      exact this.symm
    have hc := (empty_iff g.wf ne).mp ho
    rw [chs_of q1] at hc
    rw [hc] at q2
    exact ⟨d, q2⟩
  · rintro ⟨lvl, h, g, ne, h9, hE⟩
    refine ⟨check_ok g ne h9 fun ho => hE ?_, listed_of g.wf⟩
    show entries s = []
    rw [entries, ho]
    rfl

/-- A tree that passes can be read: `iter` yields every stored leaf exactly once, and the root cache combines their caches. -/
theorem C63_read_partial [DecidableEq C] {B : Trait E C D} (A : Law B) {s : Tree E C} (hok : ∀ l L, s.lf.get l = some L → A.okE L.elem)
    (hck : check B s = .ok ()) (hl : Listed s) :
    ∃ es : List (Nat × E), iter s = .ok (es.map Prod.snd) ∧ (es.map Prod.fst).Nodup ∧ (∀ l e, (l, e) ∈ es ↔ ∃ p, s.lf.get l = some ⟨e, p⟩) ∧
      (es ≠ [] → s.rootCache = A.total (es.map fun x => B.elemCache x.2)) := by
  obtain ⟨lvl, h, g, ne, h9, -⟩ := (C63_check_partial A hok).mp ⟨hck, hl⟩
  refine ⟨entries s, iter_spec g.wf ne h9, entries_nodup g.wf, fun l e => ?_, fun hne => rootCache_spec g ne fun ho => hne ?_⟩
  · rw [entries_mem g.wf]
    cases hL : s.lf.get l with
    | none => simp [elm, hL]
    | some L =>
      obtain ⟨x, p⟩ := L
      simp [elm, hL]
  · rw [entries, ho]
    rfl

/-! ## Witnesses -/

def letter (b : UInt8) : GapBuf := ⟨[b, 0, 0, 0], 1, 3⟩

/-- one leaf, listed twice -/
def treeTwice : Tree GapBuf Int :=
  ⟨⟨[some ⟨none, 0, [⟨.leaf 0, 1⟩, ⟨.leaf 0, 1⟩]⟩]⟩, ⟨[some ⟨letter 65, 0⟩]⟩, 0, 2⟩

/-- `check` accepts it, though the only stored element is read twice. -/
theorem C63_twice_false : check ropeTrait treeTwice = .ok () ∧ iter treeTwice = .ok [letter 65, letter 65] ∧ treeTwice.lf.len = 1 := by
  refine ⟨rfl, rfl, rfl⟩

/-- a root with two nodes; the second lists its leaf 1 and leaf 0 of the first, with a wrong cache -/
def treeForeign : Tree GapBuf Int :=
  ⟨⟨[some ⟨none, 0, [⟨.internal 1, 1⟩, ⟨.internal 2, 8⟩]⟩, some ⟨some 0, 0, [⟨.leaf 0, 1⟩]⟩, some ⟨some 0, 1, [⟨.leaf 1, 1⟩, ⟨.leaf 0, 7⟩]⟩]⟩,
    ⟨[some ⟨letter 65, 1⟩, some ⟨letter 66, 2⟩]⟩, 0, 9⟩

theorem C63_foreign_false : check ropeTrait treeForeign = .ok () ∧ iter treeForeign = .ok [letter 65, letter 66, letter 65] ∧ treeForeign.rootCache = 9 := by
  refine ⟨rfl, rfl, rfl⟩

/-- a root that is the child of its child -/
def treeCycle : Tree GapBuf Int :=
  ⟨⟨[some ⟨some 1, 0, [⟨.internal 1, 5⟩]⟩, some ⟨some 0, 0, [⟨.internal 0, 5⟩]⟩]⟩, ⟨[]⟩, 0, 5⟩

theorem C63_cycle_false : check ropeTrait treeCycle = .ok () ∧ treeCycle.lf.len = 0 ∧ treeCycle.rootCache = 5 ∧ ∀ es, iter treeCycle ≠ .ok es := by
  refine ⟨rfl, rfl, rfl, fun es h => ?_⟩
  have : (match iter treeCycle with | .ok _ => true | .error _ => false) = false := by decide +kernel
  rw [h] at this
  cases this

/-- the sample rope -/
example : ∃ es : List (Nat × GapBuf), iter ropeSample = .ok (es.map Prod.snd) ∧ (es ≠ [] → ropeSample.rootCache = (ropeLaw 4).total (es.map fun x => ropeTrait.elemCache x.2)) := by
  obtain ⟨h, h7, hi⟩ := C18_height ropeSample_spec.1 (by decide) (by rw [ropeSample_spec.2]; decide)
  have hck := (C06_check_iff (by decide) hi (by omega)).mpr fun he => by rw [ropeSample_spec.2] at he; exact absurd he (by decide)
  obtain ⟨lvl, g⟩ := hi.ex
  obtain ⟨es, h1, -, -, h2⟩ := C63_read_partial (ropeLaw 4) (fun l L hL => g.okE l L.elem (by simp [elm, hL])) hck (listed_of g.wf)
  exact ⟨es, h1, h2⟩

example : check ropeTrait ropeSample = .ok () ∧ Listed ropeSample := by
  obtain ⟨h, h7, hi⟩ := C18_height ropeSample_spec.1 (by decide) (by rw [ropeSample_spec.2]; decide)
  have ne := hi.ne (by decide)
  obtain ⟨lvl, g⟩ := hi.ex
  exact (C63_check_partial (ropeLaw 4) (fun l L hL => g.okE l L.elem (by simp [elm, hL]))).mpr
    ⟨lvl, h, g, ne, by omega, fun he => by rw [ropeSample_spec.2] at he; exact absurd he (by decide)⟩

end GB
