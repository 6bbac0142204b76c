import Verif.Proof.GenArena

/-!
# C71: reusing slots cannot be observed

The model of the tree keeps its nodes in arenas whose positions are never reused.  The arenas of the crate
reuse slots and tell old indices from new ones by a generation.  A program that uses an arena the way src/lib.rs does
cannot tell the two apart, as long as it does not insert more often than there are generations; with one
insertion more it can.
-/

namespace GB
variable {V R : Type}

/-- **C71.** Every client, also one whose further course depends on what it reads, gets the same result from an arena that
reuses slots (src/lib.rs:62-71) as from one that does not, if it inserts at most `2 ^ 32 - 1` times. In particular an index of a removed
entry reads nothing for ever, and indices from different insertions differ. -/
theorem C71_arena (c : Client V R) {n : Nat} (hn : n ≤ GMAX) (hf : c.runA n Arena.new ≠ .error .fuel) :
    c.runG [] GArena.new = c.runA n Arena.new :=
  ASim.new.run c (by simpa using hn) hf

/-- fill one slot and empty it again, `n` times, then go on -/
def churn (v : V) : Nat → Nat → Client V R → Client V R
  | 0, _, c => c
  | n + 1, i, c => .insert v (.remove i fun _ => churn v n (i + 1) c)

/-- insert, then churn through all the other generations, insert, and read through the first index -/
def wrapClient : Client Unit (Option Unit) :=
  churn () GMAX 0 (.insert () (.get 0 .ret))

theorem churn_runG (v : V) (c : Client V R) : ∀ (n : Nat) (hs : List GIdx) (g : Nat), g + n ≤ GMAX →
    ∃ hs', hs'.length = hs.length + n ∧ hs'.take hs.length = hs ∧
      (churn v n hs.length c).runG hs ⟨[.emp g none], 0, some 0⟩ = c.runG hs' ⟨[.emp (g + n) none], 0, some 0⟩
  | 0, hs, g, _ => ⟨hs, rfl, by simp, rfl⟩
  | n + 1, hs, g, h => by
    obtain ⟨hs', h1, h2, h3⟩ := churn_runG v c n (hs ++ [⟨0, g + 1⟩]) (g + 1) (by omega)
    have hng : nextGen g = g + 1 := by
      unfold nextGen
      rw [if_neg (by omega)]
    refine ⟨hs', by simp at h1; omega, ?_, ?_⟩
    · have := congrArg (List.take hs.length) h2
      simpa [List.take_take] using this
    · rw [show g + (n + 1) = g + 1 + n by omega, ← h3]
      have h0 : ¬ GMAX ≤ 0 := by decide
      have hins : (⟨[.emp g none], 0, some 0⟩ : GArena V).insert v = .ok (⟨0, g + 1⟩, ⟨[.occ (g + 1) v], 1, none⟩) := by
        simp [GArena.insert, h0, hng]
      have hrm : (⟨[.occ (g + 1) v], 1, none⟩ : GArena V).remove ⟨0, g + 1⟩ = (some v, ⟨[.emp (g + 1) none], 0, some 0⟩) := by
        simp [GArena.remove, GArena.get]
      rw [churn]
      show (do let (h, g) ← (⟨[.emp g none], 0, some 0⟩ : GArena V).insert v; Client.runG _ (hs ++ [h]) g) = _
      rw [hins]
      show Client.runG (.remove hs.length fun _ => churn v n (hs.length + 1) c) (hs ++ [⟨0, g + 1⟩]) ⟨[.occ (g + 1) v], 1, none⟩ = _
      rw [Client.runG]
      simp only [List.getElem?_append_right (Nat.le_refl _), Nat.sub_self, List.getElem?_cons_zero, hrm,
        List.length_append, List.length_singleton]

theorem churn_runA (v : V) (c : Client V R) : ∀ (n m : Nat) (a : Arena V), (∀ i, a.get i = none) →
    ∃ a' : Arena V, (∀ i, a'.get i = none) ∧ a'.items.length = a.items.length + n ∧
      (churn v n a.items.length c).runA (n + m) a = c.runA m a'
  | 0, m, a, h => ⟨a, h, rfl, by rw [Nat.zero_add]; rfl⟩
  | n + 1, m, a, h => by
    have hnone : ∀ i, (((a.insert v).2).remove a.items.length).get i = none := by
      intro i
      rw [Arena.get_remove]
      split
      · rfl
      · rename_i hne
        rw [Arena.get_insert, if_neg hne]
        exact h i
    obtain ⟨a', h1, h2, h3⟩ := churn_runA v c n m (((a.insert v).2).remove a.items.length) hnone
    have hl : (((a.insert v).2).remove a.items.length).items.length = a.items.length + 1 := by simp
    rw [hl] at h2 h3
    refine ⟨a', h1, by omega, ?_⟩
    rw [← h3, show n + 1 + m = (n + m) + 1 by omega, churn]
    rw [Client.runA]
    rw [Client.runA, if_pos (by simp)]

/-- The bound is sharp: with one insertion more the first index, long removed, reads the newest entry. -/
theorem C71_wrap : wrapClient.runA (GMAX + 1) Arena.new = .ok none ∧ wrapClient.runG [] GArena.new = .ok (some ()) := by
  constructor
  · obtain ⟨a', h1, h2, h3⟩ := churn_runA () (.insert () (.get 0 .ret) : Client Unit (Option Unit)) GMAX 1 Arena.new (by simp)
    rw [show (Arena.new : Arena Unit).items.length = 0 from rfl] at h2 h3
    rw [wrapClient, h3]
    rw [Client.runA]
    have hG : 0 < GMAX := by decide
    rw [Client.runA, if_pos (by simp), Arena.get_insert, if_neg (by omega), h1]
    rfl
  · obtain ⟨K, hK⟩ : ∃ K, GMAX = K + 1 := ⟨4294967294, rfl⟩
    have h0 : ¬ GMAX ≤ 0 := by decide
    rw [wrapClient, hK, churn]
    have hins : (GArena.new : GArena Unit).insert () = .ok (⟨0, 1⟩, ⟨[.occ 1 ()], 1, none⟩) := by
      simp [GArena.insert, GArena.new, h0]
    show (do let (h, g) ← (GArena.new : GArena Unit).insert (); Client.runG _ ([] ++ [h]) g) = _
    rw [hins]
    show Client.runG (churn () K ([⟨0, 1⟩] : List GIdx).length _) [⟨0, 1⟩] ⟨[.emp 1 none], 0, some 0⟩ = _
    obtain ⟨hs', h1, h2, h3⟩ := churn_runG () (.insert () (.get 0 .ret) : Client Unit (Option Unit)) K [⟨0, 1⟩] 1 (by omega)
    rw [h3, show 1 + K = GMAX by omega]
    have hins2 : (⟨[.emp GMAX none], 0, some 0⟩ : GArena Unit).insert () = .ok (⟨0, 1⟩, ⟨[.occ 1 ()], 1, none⟩) := by
      simp [GArena.insert, h0, nextGen]
    show (do let (h, g) ← (⟨[.emp GMAX none], 0, some 0⟩ : GArena Unit).insert (); Client.runG _ (hs' ++ [h]) g) = _
    rw [hins2]
    show Client.runG (.get 0 .ret) (hs' ++ [⟨0, 1⟩]) ⟨[.occ 1 ()], 1, none⟩ = _
    have hz : (hs' ++ [⟨0, 1⟩])[0]? = some (⟨0, 1⟩ : GIdx) := by
      cases hs' with
      | nil => rfl
      | cons x xs =>
        simp only [List.length_singleton, List.take_succ_cons, List.take_zero, List.cons.injEq, and_true] at h2
        rw [h2]
        rfl
    rw [Client.runG]
    simp only [hz]
    rfl

/-- a client that reuses a slot: the second insertion takes the slot of the first -/
def reuseClient : Client Nat (Option Nat × Option Nat × Bool) :=
  .insert 7 (.remove 0 fun _ => .insert 8 (.get 0 fun x => .get 1 fun y => .same 0 1 fun b => .ret (x, y, b)))

/-- The hypotheses of `C71_arena` hold for it, and the first index stays dead. -/
example : 2 ≤ GMAX ∧ reuseClient.runA 2 Arena.new = .ok (none, some 8, false) ∧
    reuseClient.runG [] GArena.new = .ok (none, some 8, false) := ⟨by decide, rfl, rfl⟩

/-- Both insertions are in slot 0. -/
example : ∃ g g' g'' : GArena Nat, (GArena.new.insert 7) = .ok (⟨0, 1⟩, g) ∧ (g.remove ⟨0, 1⟩) = (some 7, g') ∧
    g'.insert 8 = .ok (⟨0, 2⟩, g'') := ⟨_, _, _, rfl, rfl, rfl⟩

example : reuseClient.runG [] GArena.new = .ok (none, some 8, false) :=
  (C71_arena reuseClient (n := 2) (by decide) (by rw [show reuseClient.runA 2 Arena.new = .ok (none, some 8, false) from rfl]; exact fun h => by cases h)).trans rfl

end GB
