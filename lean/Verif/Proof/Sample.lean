import Verif.Proof.Abs

/-!
# Concrete trees used to show that the hypotheses of the property theorems are satisfiable
-/

namespace GB
variable {E C D : Type}
open Tree

/-- push all elements of a list -/
def pushList (B : Trait E C D) : Tree E C → List E → M (Tree E C)
  | s, [] => .ok s
  | s, e :: es => do
    let (_, s) ← push B s e
    pushList B s es

theorem new_get (B : Trait E C D) (x : Nat) : (newTree B).inn.get x = if x = 0 then some ⟨none, SLOT_MAX, []⟩ else none := by
  cases x with
  | zero => rfl
  | succ x => rfl

theorem new_lf (B : Trait E C D) (l : Nat) : (newTree B).lf.get l = none := rfl

/-- the empty tree is valid -/
theorem new_inv {B : Trait E C D} (A : Law B) (m : Fill) : InvH A m 1 (newTree B) := by
  have hk : ∀ p, kids (newTree B) p = [] := by
    intro p
    simp only [kids, new_get]
    split
    · next h => split at h <;> simp_all <;> (cases h; rfl)
    · rfl
  have hc : ∀ p, chs (newTree B) p = [] := by
    intro p
    have := hk p
    rw [kids_chs] at this
    simpa using this
  have he : ∀ p i a, ¬ Edge (newTree B) p i a := by
    intro p i a h
    rw [Edge, hk] at h
    simp at h
  refine ⟨⟨fun _ => 1, ⟨⟨⟨_, rfl, rfl⟩, rfl, Nat.le_refl _, Nat.le_refl _, fun p i y h => absurd h (he _ _ _), fun p i y h => absurd h (he _ _ _),
    fun p i j l h => absurd h (he _ _ _), fun _ _ _ => ⟨Nat.le_refl _, Nat.le_refl _⟩, ?_, ?_⟩, ?_, ?_, ?_, ?_⟩⟩, ?_⟩
  · intro y M hy hr
    rw [new_get] at hy
    split at hy
    · next h => exact absurd h hr
    · cases hy
  · intro l L hl; rw [new_lf] at hl; cases hl
  · intro p c hm; rw [hc] at hm; cases hm
  · intro p c hm; rw [hc] at hm; cases hm
  · exact ⟨fun h => absurd (hc _) h, fun _ => A.dflt_empty⟩
  · intro l e h; simp [elm, new_lf] at h
  · intro y _ _
    rw [hc]
    refine ⟨by simp, ?_, ?_⟩
    · intro hr
      exfalso
      rename_i h _
      obtain ⟨N, hN⟩ := lnk_isSome.mp h
      rw [new_get] at hN
      split at hN
      · next h => exact hr h
      · cases hN
    · intro _ h; omega

theorem new_entries (B : Trait E C D) : abs (newTree B) = ⟨0, []⟩ := by
  simp [abs, newTree, entries, entriesOf, order, leavesAt, kids, Arena.new, Arena.insert, Arena.get]

/-- pushing elements that never merge -/
theorem pushList_spec {B : Trait E C D} {A : Law B} {m : Fill} (hm1 : 1 ≤ m.lo) (hm6 : m.lo + m.d ≤ 6) (P : E → Prop)
    (hno : ∀ x y, P x → P y → B.canMerge x y = false) : ∀ (es : List E) (s : Tree E C), Inv A m s → (∀ e ∈ es, P e ∧ A.okE e) →
    (∀ x ∈ (abs s).es, P x.2) →
    ∃ s', pushList B s es = .ok s' ∧ Inv A m s' ∧
      abs s' = ⟨(abs s).next + es.length, (abs s).es ++ es.zipIdx.map fun x => ((abs s).next + x.2, x.1)⟩ := by
  intro es
  induction es with
  | nil => intro s hi _ _; exact ⟨s, rfl, hi, by simp⟩
  | cons e es ih =>
    intro s ⟨h, ⟨lvl, g⟩, sz⟩ hes hP
    obtain ⟨c, s1, lvl1, h1, e1, g1, sz1, -, r⟩ := push_spec hm1 hm6 g sz (hes e (by simp)).2
    have hsp := r.spec
    have habs : abs s1 = ⟨(abs s).next + 1, (abs s).es ++ [((abs s).next, e)]⟩ := by
      unfold specPush at hsp
      split at hsp
      · next l x hl =>
        have hx : P x := hP (l, x) (List.mem_of_getLast? hl)
        rw [if_neg (by rw [hno x e hx (hes e (by simp)).1]; simp)] at hsp
        simp only [Except.ok.injEq, Prod.mk.injEq] at hsp
        exact hsp.2.symm
      · next hl =>
        simp only [Except.ok.injEq, Prod.mk.injEq] at hsp
        rw [List.getLast?_eq_none_iff.mp hl]
        exact hsp.2.symm
    obtain ⟨s2, e2, i2, a2⟩ := ih s1 ⟨h1, ⟨lvl1, g1⟩, sz1⟩ (fun x hx => hes x (by simp [hx])) (by
      rw [habs]
      intro x hx
      rcases List.mem_append.mp hx with hx | hx
      · exact hP x hx
      · simp only [List.mem_singleton] at hx
        subst hx
        exact (hes e (by simp)).1)
    refine ⟨s2, by simp only [pushList, e1, bind_ok, e2], i2, ?_⟩
    rw [a2, habs]
    simp only [List.length_cons, List.zipIdx_cons, List.map_cons, List.append_assoc, List.singleton_append, Nat.add_zero, Nat.zero_add]
    congr 1
    · omega
    · congr 2
      rw [List.zipIdx_succ, List.map_map]
      apply List.map_congr_left
      intro x _
      simp only [Function.comp]
      congr 1
      omega

/-- an ordered map with thirty entries, keys 0, 2, …, 58 -/
def ordSample : Tree (Nat × Nat) (OrdCache Nat) :=
  match pushList (ordTrait Nat Nat) (newTree (ordTrait Nat Nat)) ((List.range 30).map fun i => (2 * i, i)) with
  | .ok s => s
  | .error _ => newTree (ordTrait Nat Nat)

theorem ordSample_spec : Inv (ordLaw Nat Nat) 6 ordSample ∧
    abs ordSample = ⟨30, (List.range 30).map fun i => (i, (2 * i, i))⟩ := by
  obtain ⟨s, h1, h2, h3⟩ := pushList_spec (A := ordLaw Nat Nat) (m := 6) (by decide) (by decide) (fun _ => True) (fun _ _ _ _ => rfl)
    ((List.range 30).map fun i => (2 * i, i)) (newTree (ordTrait Nat Nat)) ⟨1, new_inv _ _⟩ (fun _ _ => ⟨trivial, trivial⟩) (fun _ _ => trivial)
  have : ordSample = s := by rw [ordSample, h1]
  rw [this]
  refine ⟨h2, ?_⟩
  rw [h3, new_entries]
  rfl

/-- a rope of thirty three-byte chunks of capacity four -/
def ropeSample : Tree GapBuf Int :=
  match pushList ropeTrait (newTree ropeTrait) ((List.range 30).map fun i => (⟨[UInt8.ofNat i, 1, 2, 0], 3, 1⟩ : GapBuf)) with
  | .ok s => s
  | .error _ => newTree ropeTrait

theorem ropeSample_spec : Inv (ropeLaw 4) 5 ropeSample ∧
    abs ropeSample = ⟨30, (List.range 30).map fun i => (i, ⟨[UInt8.ofNat i, 1, 2, 0], 3, 1⟩)⟩ := by
  obtain ⟨s, h1, h2, h3⟩ := pushList_spec (B := ropeTrait) (A := ropeLaw 4) (m := 5) (by decide) (by decide) (fun g => g.buffer.length = 4 ∧ g.gapLen = 1)
    (fun x y hx hy => by
      simp only [ropeTrait, GapBuf.canMerge, GapBuf.len, GapBuf.capacity, hx, hy]
      rfl)
    ((List.range 30).map fun i => (⟨[UInt8.ofNat i, 1, 2, 0], 3, 1⟩ : GapBuf)) (newTree ropeTrait) ⟨1, new_inv _ _⟩ (by
      intro e he
      obtain ⟨i, _, rfl⟩ := List.mem_map.mp he
      exact ⟨⟨rfl, rfl⟩, ⟨by simp [GapBuf.WF], rfl⟩⟩) (by rw [new_entries]; intro x hx; cases hx)
  have : ropeSample = s := by rw [ropeSample, h1]
  rw [this]
  refine ⟨h2, ?_⟩
  rw [h3, new_entries]
  rfl

end GB
