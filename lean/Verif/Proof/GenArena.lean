import Verif.Model.GenArena
import Verif.Proof.Arena

/-!
# Simulation of arenas with generations by arenas without reuse
-/

namespace GB
variable {V R : Type}

/-- generation of an entry -/
def GEntry.gen : GEntry V → Nat
  | .occ g _ => g
  | .emp g _ => g

/-- `fl` is the free list that starts at a pointer -/
def FreeChain (es : List (GEntry V)) : Option Nat → List Nat → Prop
  | none, [] => True
  | some s, t :: fl => s = t ∧ ∃ g nx, es[s]? = some (.emp g nx) ∧ FreeChain es nx fl
  | _, _ => False

theorem FreeChain.set {es : List (GEntry V)} {s : Nat} (e : GEntry V) :
    ∀ {fl : List Nat} {p : Option Nat}, s ∉ fl → FreeChain es p fl → FreeChain (es.set s e) p fl := by
  intro fl
  induction fl with
  | nil => intro p _ h; cases p <;> simp_all [FreeChain]
  | cons t fl ih =>
    intro p hs h
    cases p with
    | none => simp [FreeChain] at h
    | some q =>
      obtain ⟨rfl, g, nx, h1, h2⟩ := h
      simp only [List.mem_cons, not_or] at hs
      exact ⟨rfl, g, nx, by rw [List.getElem?_set_ne hs.1]; exact h1, ih hs.2 h2⟩

theorem FreeChain.append {es : List (GEntry V)} (e : GEntry V) :
    ∀ {fl : List Nat} {p : Option Nat}, FreeChain es p fl → FreeChain (es ++ [e]) p fl := by
  intro fl
  induction fl with
  | nil => intro p h; cases p <;> simp_all [FreeChain]
  | cons t fl ih =>
    intro p h
    cases p with
    | none => simp [FreeChain] at h
    | some q =>
      obtain ⟨rfl, g, nx, h1, h2⟩ := h
      have hlt : q < es.length := (List.getElem?_eq_some_iff.mp h1).1
      exact ⟨rfl, g, nx, by rw [List.getElem?_append_left hlt]; exact h1, ih h2⟩

theorem FreeChain.mem {es : List (GEntry V)} :
    ∀ {fl : List Nat} {p : Option Nat}, FreeChain es p fl → ∀ t ∈ fl, ∃ g nx, es[t]? = some (.emp g nx) := by
  intro fl
  induction fl with
  | nil => intro p _ t ht; cases ht
  | cons t fl ih =>
    intro p h u hu
    cases p with
    | none => simp [FreeChain] at h
    | some q =>
      obtain ⟨rfl, g, nx, h1, h2⟩ := h
      rcases List.mem_cons.mp hu with rfl | hu
      · exact ⟨g, nx, h1⟩
      · exact ih h2 u hu

/-- the two arenas hold the same, `hs` are the indices in the order of insertion -/
structure ASim (a : Arena V) (hs : List GIdx) (g : GArena V) : Prop where
  size : hs.length = a.items.length
  get : ∀ i h, hs[i]? = some h → g.get h = a.get i
  nodup : hs.Nodup
  bound : ∀ h ∈ hs, ∃ e, g.entries[h.slot]? = some e ∧ h.gen ≤ e.gen
  gens : ∀ (s : Nat) e, g.entries[s]? = some e → e.gen ≤ hs.length
  slots : g.entries.length ≤ hs.length
  chain : ∃ fl : List Nat, fl.Nodup ∧ FreeChain g.entries g.free fl
  len : g.len = a.len
  lenLe : g.len ≤ hs.length

theorem ASim.new : ASim (Arena.new : Arena V) [] GArena.new where
  size := rfl
  get := by intro i h hi; simp at hi
  nodup := List.nodup_nil
  bound := by intro h hm; cases hm
  gens := by intro s e he; simp [GArena.new] at he
  slots := Nat.le_refl _
  chain := ⟨[], List.nodup_nil, trivial⟩
  len := rfl
  lenLe := Nat.le_refl _

theorem Arena.len_insert (a : Arena V) (v : V) : (a.insert v).2.len = a.len + 1 := by
  simp [Arena.insert, Arena.len, List.countP_append]

theorem ASim.insert {a : Arena V} {hs : List GIdx} {g : GArena V} (S : ASim a hs g) (hn : hs.length < GMAX) (v : V) :
    ∃ h g', g.insert v = .ok (h, g') ∧ ASim (a.insert v).2 (hs ++ [h]) g' := by
  have hl : ¬ GMAX ≤ g.len := by have := S.lenLe; omega
  obtain ⟨fl, hnd, hc⟩ := S.chain
  cases hf : g.free with
  | some s =>
    rw [hf] at hc
    cases fl with
    | nil => simp [FreeChain] at hc
    | cons t fl =>
      obtain ⟨rfl, k, nx, h1, h2⟩ := hc
      have hlt : s < g.entries.length := (List.getElem?_eq_some_iff.mp h1).1
      have hk : k ≤ hs.length := S.gens s _ h1
      have hng : nextGen k = k + 1 := by
        unfold nextGen
        rw [if_neg (by omega)]
      have hfresh : (⟨s, k + 1⟩ : GIdx) ∉ hs := by
        intro hm
        obtain ⟨e, he, hle⟩ := S.bound _ hm
        simp only at he hle
        rw [h1] at he
        cases he
        simp only [GEntry.gen] at hle
        omega
      refine ⟨⟨s, k + 1⟩, ⟨g.entries.set s (.occ (k + 1) v), g.len + 1, nx⟩, ?_, ?_⟩
      · simp only [GArena.insert, if_neg hl, hf, h1, hng]
      · refine ⟨by simp [S.size], ?_, ?_, ?_, ?_, by simp; have := S.slots; omega,
          ⟨fl, (List.nodup_cons.mp hnd).2, h2.set _ (List.nodup_cons.mp hnd).1⟩, ?_, by simp; exact S.lenLe⟩
        · intro i h hi
          rw [Arena.get_insert]
          rw [List.getElem?_append] at hi
          split at hi
          · rename_i hlt'
            have hm : h ∈ hs := List.mem_of_getElem? hi
            rw [if_neg (by rw [← S.size]; omega), ← S.get i h hi]
            unfold GArena.get
            by_cases he : s = h.slot
            · obtain ⟨e, he', hle⟩ := S.bound h hm
              rw [← he, h1] at he'
              cases he'
              simp only [GEntry.gen] at hle
              rw [← he, h1]
              simp only [List.getElem?_set_self hlt]
              rw [if_neg (by omega)]
            · rw [List.getElem?_set_ne he]
          · rename_i hge
            rw [List.getElem?_singleton] at hi
            split at hi
            · rename_i h0
              cases hi
              rw [if_pos (by rw [← S.size]; omega)]
              simp [GArena.get, hlt]
            · cases hi
        · rw [List.nodup_append]
          refine ⟨S.nodup, by simp, ?_⟩
          intro x hx y hy
          simp only [List.mem_singleton] at hy
          rintro rfl
          rw [hy] at hx
          exact hfresh hx
        · intro h hm
          rcases List.mem_append.mp hm with hm | hm
          · obtain ⟨e, he, hle⟩ := S.bound h hm
            by_cases hs' : s = h.slot
            · refine ⟨.occ (k + 1) v, by rw [← hs']; simp [hlt], ?_⟩
              rw [← hs', h1] at he
              cases he
              simp only [GEntry.gen] at hle ⊢
              omega
            · exact ⟨e, by simp only [List.getElem?_set_ne hs']; exact he, hle⟩
          · simp only [List.mem_singleton] at hm
            subst hm
            exact ⟨.occ (k + 1) v, by simp [hlt], Nat.le_refl _⟩
        · intro t e he
          simp only [List.length_append, List.length_singleton]
          simp only [List.getElem?_set] at he
          split at he
          · cases he
            simp only [GEntry.gen]
            omega
          · have := S.gens t e he
            omega
        · show g.len + 1 = _
          rw [Arena.len_insert, S.len]
  | none =>
    refine ⟨⟨g.entries.length, 1⟩, ⟨g.entries ++ [.occ 1 v], g.len + 1, none⟩, ?_, ?_⟩
    · have := S.slots
      simp only [GArena.insert, if_neg hl, hf]
      rw [if_neg (by omega)]
    · have hslot : ∀ h ∈ hs, h.slot < g.entries.length := by
        intro h hm
        obtain ⟨e, he, -⟩ := S.bound h hm
        exact (List.getElem?_eq_some_iff.mp he).1
      refine ⟨by simp [S.size], ?_, ?_, ?_, ?_, by simp; exact S.slots, ⟨[], List.nodup_nil, trivial⟩, ?_,
        by simp; exact S.lenLe⟩
      · intro i h hi
        rw [Arena.get_insert]
        rw [List.getElem?_append] at hi
        split at hi
        · have hm : h ∈ hs := List.mem_of_getElem? hi
          rw [if_neg (by rw [← S.size]; omega), ← S.get i h hi]
          unfold GArena.get
          simp only [List.getElem?_append_left (hslot h hm)]
        · rename_i hge
          rw [List.getElem?_singleton] at hi
          split at hi
          · cases hi
            rw [if_pos (by rw [← S.size]; omega)]
            simp [GArena.get]
          · cases hi
      · rw [List.nodup_append]
        refine ⟨S.nodup, by simp, ?_⟩
        intro x hx y hy
        simp only [List.mem_singleton] at hy
        rintro rfl
        have := hslot x hx
        rw [hy] at this
        simp at this
      · intro h hm
        rcases List.mem_append.mp hm with hm | hm
        · obtain ⟨e, he, hle⟩ := S.bound h hm
          exact ⟨e, by simp only [List.getElem?_append_left (hslot h hm)]; exact he, hle⟩
        · simp only [List.mem_singleton] at hm
          subst hm
          exact ⟨.occ 1 v, by simp, Nat.le_refl _⟩
      · intro t e he
        simp only [List.length_append, List.length_singleton]
        simp only [List.getElem?_append] at he
        split at he
        · have := S.gens t e he
          omega
        · rw [List.getElem?_singleton] at he
          split at he
          · cases he
            simp [GEntry.gen]
          · cases he
      · show g.len + 1 = _
        rw [Arena.len_insert, S.len]

/-- what a successful read says about the slot -/
theorem GArena.get_some {g : GArena V} {h : GIdx} {v : V} (hg : g.get h = some v) : g.entries[h.slot]? = some (.occ h.gen v) := by
  unfold GArena.get at hg
  split at hg
  · rename_i k w he
    split at hg
    · rename_i hk
      cases hg
      rw [he, hk]
    · cases hg
  · cases hg

theorem GArena.get_set {g : GArena V} {h : GIdx} {w : V} (hg : g.get h = some w) (v : V) (h' : GIdx) :
    (g.set h v).get h' = if h' = h then some v else g.get h' := by
  have he := GArena.get_some hg
  have hlt : h.slot < g.entries.length := (List.getElem?_eq_some_iff.mp he).1
  simp only [GArena.set, hg]
  by_cases h1 : h' = h
  · subst h1
    rw [if_pos rfl]
    simp [GArena.get, hlt]
  · rw [if_neg h1]
    unfold GArena.get
    by_cases hs : h.slot = h'.slot
    · rw [← hs, he, List.getElem?_set_self hlt]
      have : h.gen ≠ h'.gen := by
        intro hc
        apply h1
        cases h; cases h'
        simp_all
      simp only [if_neg this]
    · rw [List.getElem?_set_ne hs]

theorem GArena.get_remove {g : GArena V} {h : GIdx} {w : V} (hg : g.get h = some w) (h' : GIdx) :
    (g.remove h).2.get h' = if h'.slot = h.slot then none else g.get h' := by
  have he := GArena.get_some hg
  have hlt : h.slot < g.entries.length := (List.getElem?_eq_some_iff.mp he).1
  simp only [GArena.remove, hg]
  unfold GArena.get
  simp only [List.getElem?_set]
  by_cases hs : h.slot = h'.slot
  · rw [if_pos hs, if_pos hs.symm, if_pos hlt]
  · rw [if_neg hs, if_neg (Ne.symm hs)]

theorem Arena.len_set {a : Arena V} {i : Nat} {w : V} (h : a.get i = some w) (v : V) : (a.set i v).len = a.len := by
  unfold Arena.len Arena.set
  have hlt := Arena.get_lt h
  have hw : a.items[i] = some w := by
    simpa [Arena.get, List.getElem?_eq_getElem hlt] using h
  simp only [List.countP_set hlt, hw]
  have : 0 < a.items.countP Option.isSome := List.countP_pos_iff.mpr ⟨a.items[i], List.getElem_mem hlt, by rw [hw]; rfl⟩
  simp
  omega

theorem Arena.len_remove {a : Arena V} {i : Nat} {w : V} (h : a.get i = some w) : (a.remove i).len = a.len - 1 := by
  unfold Arena.len Arena.remove
  have hlt := Arena.get_lt h
  have hw : a.items[i] = some w := by
    simpa [Arena.get, List.getElem?_eq_getElem hlt] using h
  simp only [List.countP_set hlt, hw]
  simp

theorem ASim.set {a : Arena V} {hs : List GIdx} {g : GArena V} (S : ASim a hs g) {i : Nat} {h : GIdx} (hi : hs[i]? = some h) (v : V) :
    ASim (if a.contains i then a.set i v else a) hs (g.set h v) := by
  have hg := S.get i h hi
  cases ha : a.get i with
  | none =>
    rw [if_neg (by simp [Arena.contains, ha])]
    rw [ha] at hg
    simpa [GArena.set, hg] using S
  | some w =>
    rw [if_pos (by simp [Arena.contains, ha])]
    rw [ha] at hg
    have he := GArena.get_some hg
    have hlt : h.slot < g.entries.length := (List.getElem?_eq_some_iff.mp he).1
    have hset : g.set h v = { g with entries := g.entries.set h.slot (.occ h.gen v) } := by simp [GArena.set, hg]
    refine ⟨by simp [S.size], ?_, S.nodup, ?_, ?_, ?_, ?_, ?_, ?_⟩
    · intro j h' hj
      rw [GArena.get_set hg, Arena.get_set_live ha, S.get j h' hj]
      have : h' = h ↔ j = i := by
        constructor
        · rintro rfl
          have h1 := List.getElem?_eq_some_iff.mp hi
          have h2 := List.getElem?_eq_some_iff.mp hj
          exact (List.getElem?_inj h2.1 S.nodup).mp (hj.trans hi.symm)
        · rintro rfl
          rw [hi] at hj
          cases hj
          rfl
      simp only [this]
    · intro h' hm
      obtain ⟨e, he', hle⟩ := S.bound h' hm
      rw [hset]
      by_cases hs' : h.slot = h'.slot
      · rw [← hs', he] at he'
        cases he'
        exact ⟨.occ h.gen v, by simp [← hs', hlt], hle⟩
      · exact ⟨e, by simp only [List.getElem?_set_ne hs']; exact he', hle⟩
    · intro t e het
      rw [hset] at het
      simp only [List.getElem?_set] at het
      split at het
      · cases het
        have h1 := S.gens h.slot _ he
        exact h1
      · exact S.gens _ _ het
    · rw [hset]; simpa using S.slots
    · obtain ⟨fl, hnd, hc⟩ := S.chain
      rw [hset]
      refine ⟨fl, hnd, hc.set _ ?_⟩
      intro hm
      obtain ⟨k, nx, h1⟩ := hc.mem _ hm
      rw [he] at h1
      cases h1
    · rw [hset, Arena.len_set ha]; exact S.len
    · rw [hset]; exact S.lenLe

theorem ASim.remove {a : Arena V} {hs : List GIdx} {g : GArena V} (S : ASim a hs g) {i : Nat} {h : GIdx} (hi : hs[i]? = some h) :
    (g.remove h).1 = a.get i ∧ ASim (a.remove i) hs (g.remove h).2 := by
  have hg := S.get i h hi
  have hlti : i < a.items.length := by
    rw [← S.size]
    exact (List.getElem?_eq_some_iff.mp hi).1
  cases ha : a.get i with
  | none =>
    rw [ha] at hg
    have hr : g.remove h = (none, g) := by simp [GArena.remove, hg]
    have ha' : a.remove i = a := by
      have : a.items[i] = none := by simpa [Arena.get, List.getElem?_eq_getElem hlti] using ha
      unfold Arena.remove
      rw [← this, List.set_getElem_self]
    rw [hr, ha']
    exact ⟨rfl, S⟩
  | some w =>
    rw [ha] at hg
    have he := GArena.get_some hg
    have hlt : h.slot < g.entries.length := (List.getElem?_eq_some_iff.mp he).1
    have hr : g.remove h = (some w, ⟨g.entries.set h.slot (.emp h.gen g.free), g.len - 1, some h.slot⟩) := by
      simp [GArena.remove, hg]
    refine ⟨by rw [hr], ⟨by simp [S.size], ?_, S.nodup, ?_, ?_, ?_, ?_, ?_, ?_⟩⟩
    · intro j h' hj
      rw [GArena.get_remove hg, Arena.get_remove]
      by_cases hs' : h'.slot = h.slot
      · rw [if_pos hs']
        by_cases hij : j = i
        · rw [if_pos hij]
        · rw [if_neg hij, ← S.get j h' hj]
          unfold GArena.get
          rw [hs', he]
          have : h.gen ≠ h'.gen := by
            intro hc
            apply hij
            have heq : h' = h := by
              cases h; cases h'
              simp_all
            subst heq
            have h1 := List.getElem?_eq_some_iff.mp hi
            have h2 := List.getElem?_eq_some_iff.mp hj
            exact (List.getElem?_inj h2.1 S.nodup).mp (hj.trans hi.symm)
          simp only [if_neg this]
      · rw [if_neg hs', if_neg, S.get j h' hj]
        rintro rfl
        rw [hi] at hj
        cases hj
        exact hs' rfl
    · intro h' hm
      obtain ⟨e, he', hle⟩ := S.bound h' hm
      rw [hr]
      by_cases hs' : h.slot = h'.slot
      · rw [← hs', he] at he'
        cases he'
        exact ⟨.emp h.gen g.free, by simp [← hs', hlt], hle⟩
      · exact ⟨e, by simp only [List.getElem?_set_ne hs']; exact he', hle⟩
    · intro t e het
      rw [hr] at het
      simp only [List.getElem?_set] at het
      split at het
      · cases het
        have h1 := S.gens h.slot _ he
        exact h1
      · exact S.gens _ _ het
    · rw [hr]; simpa using S.slots
    · obtain ⟨fl, hnd, hc⟩ := S.chain
      have hni : h.slot ∉ fl := by
        intro hm
        obtain ⟨k, nx, h1⟩ := hc.mem _ hm
        rw [he] at h1
        cases h1
      rw [hr]
      exact ⟨h.slot :: fl, List.nodup_cons.mpr ⟨hni, hnd⟩, rfl, h.gen, g.free, by simp [hlt], hc.set _ hni⟩
    · rw [hr, Arena.len_remove ha, ← S.len]
    · rw [hr]; have := S.lenLe; simp only; omega

/-- related arenas give every client the same results -/
theorem ASim.run (c : Client V R) : ∀ {n : Nat} {a : Arena V} {hs : List GIdx} {g : GArena V}, ASim a hs g → hs.length + n ≤ GMAX →
    c.runA n a ≠ .error .fuel → c.runG hs g = c.runA n a := by
  induction c with
  | ret r => intros; rfl
  | insert v k ih =>
    intro n a hs g S hn hf
    cases n with
    | zero => exact absurd rfl hf
    | succ n =>
      obtain ⟨h, g', h1, S'⟩ := S.insert (by omega) v
      simp only [Client.runG, h1]
      exact ih S' (by simp; omega) hf
  | get i k ih =>
    intro n a hs g S hn hf
    simp only [Client.runA, Client.runG] at hf ⊢
    cases hi : hs[i]? with
    | none =>
      rw [if_neg]
      rw [← S.size]
      exact Nat.not_lt.mpr (List.getElem?_eq_none_iff.mp hi)
    | some h =>
      have hlt : i < a.items.length := by rw [← S.size]; exact (List.getElem?_eq_some_iff.mp hi).1
      rw [if_pos hlt] at hf ⊢
      simp only [S.get i h hi]
      exact ih _ S hn hf
  | set i v k ih =>
    intro n a hs g S hn hf
    simp only [Client.runA, Client.runG] at hf ⊢
    cases hi : hs[i]? with
    | none =>
      rw [if_neg]
      rw [← S.size]
      exact Nat.not_lt.mpr (List.getElem?_eq_none_iff.mp hi)
    | some h =>
      have hlt : i < a.items.length := by rw [← S.size]; exact (List.getElem?_eq_some_iff.mp hi).1
      rw [if_pos hlt] at hf ⊢
      exact ih (S.set hi v) hn hf
  | remove i k ih =>
    intro n a hs g S hn hf
    simp only [Client.runA, Client.runG] at hf ⊢
    cases hi : hs[i]? with
    | none =>
      rw [if_neg]
      rw [← S.size]
      exact Nat.not_lt.mpr (List.getElem?_eq_none_iff.mp hi)
    | some h =>
      have hlt : i < a.items.length := by rw [← S.size]; exact (List.getElem?_eq_some_iff.mp hi).1
      rw [if_pos hlt] at hf ⊢
      obtain ⟨h1, S'⟩ := S.remove hi
      simp only [h1]
      exact ih _ S' hn hf
  | same i j k ih =>
    intro n a hs g S hn hf
    simp only [Client.runA, Client.runG] at hf ⊢
    cases hi : hs[i]? with
    | none =>
      rw [if_neg]
      rw [← S.size]
      have := List.getElem?_eq_none_iff.mp hi
      omega
    | some h =>
      have h1 := List.getElem?_eq_some_iff.mp hi
      cases hj : hs[j]? with
      | none =>
        rw [if_neg]
        rw [← S.size]
        have := List.getElem?_eq_none_iff.mp hj
        omega
      | some h' =>
        have h2 := List.getElem?_eq_some_iff.mp hj
        have hlt : i < a.items.length ∧ j < a.items.length := by rw [← S.size]; exact ⟨h1.1, h2.1⟩
        rw [if_pos hlt] at hf ⊢
        have : decide (h = h') = decide (i = j) := by
          apply decide_eq_decide.mpr
          constructor
          · rintro rfl
            exact (List.getElem?_inj h1.1 S.nodup).mp (hi.trans hj.symm)
          · rintro rfl
            rw [hi] at hj
            cases hj
            rfl
        simp only [this]
        exact ih _ S hn hf
  | len k ih =>
    intro n a hs g S hn hf
    simp only [Client.runA, Client.runG, S.len] at hf ⊢
    exact ih _ S hn hf

end GB
