import Verif.Proof.OrdHist
import Verif.Spec.Search

/-!
# Any `binary_search_by` finds the same place
-/

namespace GB
open Tree

section
variable {α : Type}

theorem partitioned_of_mono (cmp : α → Ordering) (l : List α)
    (hlt : ∀ (i j : Nat) (x y : α), i ≤ j → l[i]? = some x → l[j]? = some y → cmp y = .lt → cmp x = .lt)
    (hgt : ∀ (i j : Nat) (x y : α), i ≤ j → l[i]? = some x → l[j]? = some y → cmp x = .gt → cmp y = .gt) : Partitioned cmp l := by
  induction l with
  | nil => exact ⟨[], [], [], rfl, by simp, by simp, by simp⟩
  | cons z l ih =>
    obtain ⟨a, b, c, e, ha, hb, hc⟩ := ih
      (fun i j x y hij hx hy => hlt (i + 1) (j + 1) x y (by omega) (by simpa using hx) (by simpa using hy))
      (fun i j x y hij hx hy => hgt (i + 1) (j + 1) x y (by omega) (by simpa using hx) (by simpa using hy))
    have hz : ∀ y ∈ l, (cmp y = .lt → cmp z = .lt) ∧ (cmp z = .gt → cmp y = .gt) := by
      intro y hy
      obtain ⟨j, hj⟩ := List.mem_iff_getElem?.mp hy
      exact ⟨hlt 0 (j + 1) z y (by omega) rfl (by simpa using hj), hgt 0 (j + 1) z y (by omega) rfl (by simpa using hj)⟩
    cases hcz : cmp z with
    | lt =>
      refine ⟨z :: a, b, c, by rw [e]; rfl, ?_, hb, hc⟩
      intro x hx
      rcases List.mem_cons.mp hx with rfl | hx
      · exact hcz
      · exact ha x hx
    | eq =>
      have ha0 : a = [] := by
        cases a with
        | nil => rfl
        | cons x a =>
          have := (hz x (by rw [e]; simp)).1 (ha x (by simp))
          rw [hcz] at this; cases this
      subst ha0
      refine ⟨[], z :: b, c, by rw [e]; rfl, by simp, ?_, hc⟩
      intro x hx
      rcases List.mem_cons.mp hx with rfl | hx
      · exact hcz
      · exact hb x hx
    | gt =>
      refine ⟨[], [], z :: l, rfl, by simp, by simp, ?_⟩
      intro x hx
      rcases List.mem_cons.mp hx with rfl | hx
      · exact hcz
      · exact (hz x hx).2 hcz

theorem mono_of_partitioned {cmp : α → Ordering} {l : List α} (h : Partitioned cmp l) :
    (∀ (i j : Nat) (x y : α), i ≤ j → l[i]? = some x → l[j]? = some y → cmp y = .lt → cmp x = .lt) ∧
    (∀ (i j : Nat) (x y : α), i ≤ j → l[i]? = some x → l[j]? = some y → cmp x = .gt → cmp y = .gt) := by
  obtain ⟨a, b, c, rfl, ha, hb, hc⟩ := h
  have key : ∀ (j : Nat) (y : α), (a ++ (b ++ c))[j]? = some y →
      (j < a.length ∧ cmp y = .lt) ∨ (a.length ≤ j ∧ j < a.length + b.length ∧ cmp y = .eq) ∨ (a.length + b.length ≤ j ∧ cmp y = .gt) := by
    intro j y hy
    rw [List.getElem?_append] at hy
    split at hy
    · exact Or.inl ⟨by assumption, ha y (List.mem_of_getElem? hy)⟩
    · rw [List.getElem?_append] at hy
      split at hy
      · exact Or.inr (Or.inl ⟨by omega, by omega, hb y (List.mem_of_getElem? hy)⟩)
      · exact Or.inr (Or.inr ⟨by omega, hc y (List.mem_of_getElem? hy)⟩)
  constructor
  · intro i j x y hij hx hy hl
    rcases key j y hy with h1 | ⟨-, -, h1⟩ | ⟨-, h1⟩
    · rcases key i x hx with h2 | h2 | h2
      · exact h2.2
      · omega
      · omega
    · rw [hl] at h1; cases h1
    · rw [hl] at h1; cases h1
  · intro i j x y hij hx hy hl
    rcases key i x hx with ⟨-, h1⟩ | ⟨-, -, h1⟩ | h1
    · rw [hl] at h1; cases h1
    · rw [hl] at h1; cases h1
    · rcases key j y hy with h2 | h2 | h2
      · omega
      · omega
      · exact h2.2

/-- the documented contract is enough -/
theorem SearchContract.once {search : SearchFn α} (hs : SearchContract search) : SearchOnce search := by
  intro f l cmp hf hlt hgt _
  rcases hs f l cmp hf (partitioned_of_mono cmp l hlt hgt) with ⟨a, x, b, rfl, h1, h2⟩ | ⟨a, b, rfl, h1, h2, h3⟩
  · exact Or.inl ⟨a.length, x, h2, by simp, h1⟩
  · refine Or.inr ⟨a.length, h3, by simp, ?_, ?_⟩
    · intro j x hj hx
      rw [List.getElem?_append_left hj] at hx
      exact h1 x (List.mem_of_getElem? hx)
    · intro j x hj hx
      rw [List.getElem?_append_right hj] at hx
      exact h2 x (List.mem_of_getElem? hx)

/-- the contract, from the form with positions -/
theorem contract_of_index {search : SearchFn α}
    (h : ∀ (f : α → M Ordering) (l : List α) (cmp : α → Ordering), (∀ x ∈ l, f x = .ok (cmp x)) →
      (∀ (i j : Nat) (x y : α), i ≤ j → l[i]? = some x → l[j]? = some y → cmp y = .lt → cmp x = .lt) →
      (∀ (i j : Nat) (x y : α), i ≤ j → l[i]? = some x → l[j]? = some y → cmp x = .gt → cmp y = .gt) →
      (∃ i x, search f l = .ok (.inl i) ∧ l[i]? = some x ∧ cmp x = .eq) ∨
      (∃ i, search f l = .ok (.inr i) ∧ i ≤ l.length ∧ (∀ (j : Nat) (x : α), j < i → l[j]? = some x → cmp x = .lt) ∧
        (∀ (j : Nat) (x : α), i ≤ j → l[j]? = some x → cmp x = .gt))) : SearchContract search := by
  intro f l cmp hf hp
  obtain ⟨hlt, hgt⟩ := mono_of_partitioned hp
  rcases h f l cmp hf hlt hgt with ⟨i, x, h1, h2, h3⟩ | ⟨i, h1, h2, h3, h4⟩
  · have hi := (List.getElem?_eq_some_iff.mp h2).1
    exact Or.inl ⟨l.take i, x, l.drop (i + 1), get_split h2, h3, by rw [h1, List.length_take, Nat.min_eq_left (by omega)]⟩
  · refine Or.inr ⟨l.take i, l.drop i, (List.take_append_drop i l).symm, ?_, ?_, by rw [h1, List.length_take, Nat.min_eq_left h2]⟩
    · intro x hx
      obtain ⟨j, hj⟩ := List.mem_iff_getElem?.mp hx
      have hjl := (List.getElem?_eq_some_iff.mp hj).1
      rw [List.length_take] at hjl
      rw [List.getElem?_take, if_pos (by omega)] at hj
      exact h3 j x (by omega) hj
    · intro x hx
      obtain ⟨j, hj⟩ := List.mem_iff_getElem?.mp hx
      rw [List.getElem?_drop] at hj
      exact h4 (i + j) x (by omega) hj

theorem binSearch2F_spec (f : α → M Ordering) (l : List α) (cmp : α → Ordering) (hf : ∀ x ∈ l, f x = .ok (cmp x))
    (hlt : ∀ (i j : Nat) (x y : α), i ≤ j → l[i]? = some x → l[j]? = some y → cmp y = .lt → cmp x = .lt)
    (hgt : ∀ (i j : Nat) (x y : α), i ≤ j → l[i]? = some x → l[j]? = some y → cmp x = .gt → cmp y = .gt) :
    ∀ n base size, size ≤ n → 0 < size → base + size ≤ l.length →
      (0 < base → ∃ x, l[base]? = some x ∧ cmp x ≠ .gt) → (∀ (j : Nat) (x : α), base + size ≤ j → l[j]? = some x → cmp x = .gt) →
      ∃ r, binSearch2F f l (n + 1) base size = .ok r ∧ r < l.length ∧ (0 < r → ∃ x, l[r]? = some x ∧ cmp x ≠ .gt) ∧
        (∀ (j : Nat) (x : α), r < j → l[j]? = some x → cmp x = .gt) := by
  intro n
  induction n with
  | zero => intro base size h1 h2; omega
  | succ n ih =>
    intro base size h1 h2 h3 h4 h5
    rw [binSearch2F]
    split
    · next hs =>
      have hm : base + size / 2 < l.length := by omega
      have hx : l[base + size / 2]? = some l[base + size / 2] := List.getElem?_eq_getElem hm
      have hv : vget l (base + size / 2) = .ok l[base + size / 2] := by simp [vget, hx]
      simp only [hv, bind_ok, hf _ (List.getElem_mem hm)]
      apply ih
      · omega
      · omega
      · split <;> omega
      · split
        · exact h4
        · next hg => exact fun _ => ⟨_, hx, hg⟩
      · split
        · next hg =>
          intro j x hj hjx
          exact hgt (base + size / 2) j _ x (by omega) hx hjx hg
        · intro j x hj hjx
          exact h5 j x (by omega) hjx
    · refine ⟨base, rfl, by omega, h4, ?_⟩
      intro j x hj hjx
      exact h5 j x (by omega) hjx

theorem binSearch2_contract : SearchContract (binSearch2 (α := α)) := by
  apply contract_of_index
  intro f l cmp hf hlt hgt
  rw [binSearch2]
  split
  · next h0 =>
    have : l = [] := List.length_eq_zero_iff.mp h0
    subst this
    exact Or.inr ⟨0, rfl, by simp, by simp, by simp⟩
  · next h0 =>
    obtain ⟨r, h1, h2, h3, h4⟩ := binSearch2F_spec f l cmp hf hlt hgt l.length 0 l.length (Nat.le_refl _) (by omega) (by omega) (by omega)
      (by
        intro j x hj hx
        have := (List.getElem?_eq_some_iff.mp hx).1
        omega)
    have hx : l[r]? = some l[r] := List.getElem?_eq_getElem h2
    have hv : vget l r = .ok l[r] := by simp [vget, hx]
    simp only [h1, bind_ok, hv, hf _ (List.getElem_mem h2)]
    cases hc : cmp l[r] with
    | eq => exact Or.inl ⟨r, l[r], rfl, hx, hc⟩
    | lt =>
      refine Or.inr ⟨r + 1, rfl, h2, ?_, fun j x hj => h4 j x (by omega)⟩
      intro j x hj hjx
      exact hlt j r x _ (by omega) hjx hx hc
    | gt =>
      have hr : r = 0 := by
        rcases Nat.eq_zero_or_pos r with h | h
        · exact h
        · obtain ⟨x, hx', hx2⟩ := h3 h
          rw [hx] at hx'; cases hx'
          exact absurd hc hx2
      subst hr
      refine Or.inr ⟨0, rfl, by omega, by omega, ?_⟩
      intro j x hj hjx
      exact hgt 0 j _ x (by omega) hx hjx hc

/-- run two searches and compare the results -/
def bothSearch (s1 s2 : SearchFn α) : SearchFn α := fun f l => do
  let a ← s1 f l
  let b ← s2 f l
  if a = b then pure a else .error .panic

theorem bothSearch_once {s1 s2 : SearchFn α} (h1 : SearchOnce s1) (h2 : SearchOnce s2) : SearchOnce (bothSearch s1 s2) := by
  intro f l cmp hf hlt hgt hu
  rcases h1 f l cmp hf hlt hgt hu with ⟨i, x, a1, a2, a3⟩ | ⟨i, a1, a2, a3, a4⟩ <;>
  rcases h2 f l cmp hf hlt hgt hu with ⟨j, y, b1, b2, b3⟩ | ⟨j, b1, b2, b3, b4⟩
  · have hij : i = j := by
      rcases Nat.lt_trichotomy i j with h | h | h
      · exact absurd b3 (hu i j x y h a2 b2 a3)
      · exact h
      · exact absurd a3 (hu j i y x h b2 a2 b3)
    subst hij
    exact Or.inl ⟨i, x, by simp [bothSearch, a1, b1], a2, a3⟩
  · exfalso
    rcases Nat.lt_or_ge i j with h | h
    · have := b3 i x h a2; rw [a3] at this; cases this
    · have := b4 i x h a2; rw [a3] at this; cases this
  · exfalso
    rcases Nat.lt_or_ge j i with h | h
    · have := a3 j y h b2; rw [b3] at this; cases this
    · have := a4 j y h b2; rw [b3] at this; cases this
  · have hij : i = j := by
      rcases Nat.lt_trichotomy i j with h | h | h
      · have e : l[i]? = some l[i] := List.getElem?_eq_getElem (by omega)
        have c1 := b3 i _ h e
        have c2 := a4 i _ (Nat.le_refl _) e
        rw [c1] at c2; cases c2
      · exact h
      · have e : l[j]? = some l[j] := List.getElem?_eq_getElem (by omega)
        have c1 := a3 j _ h e
        have c2 := b4 j _ (Nat.le_refl _) e
        rw [c1] at c2; cases c2
    subst hij
    exact Or.inr ⟨i, by simp [bothSearch, a1, b1], a2, a3, a4⟩

theorem bothSearch_ok {s1 s2 : SearchFn α} {f : α → M Ordering} {l : List α} {r : Nat ⊕ Nat} (h : bothSearch s1 s2 f l = .ok r) :
    s1 f l = .ok r ∧ s2 f l = .ok r := by
  simp only [bothSearch] at h
  cases h1 : s1 f l with
  | error e => rw [h1] at h; cases h
  | ok a =>
    cases h2 : s2 f l with
    | error e => rw [h1, h2] at h; cases h
    | ok b =>
      simp only [h1, h2, bind_ok] at h
      split at h
      · next e => subst e; cases h; exact ⟨rfl, rfl⟩
      · cases h

end

section
variable {K V : Type} [Ord K]

/-- a search that succeeds is followed by any search that agrees with it -/
theorem queryF_agree {s1 s2 : SearchFn (Child (OrdCache K))} (hag : ∀ f l r, s1 f l = .ok r → s2 f l = .ok r) (k : K) (s : Tree (K × V) (OrdCache K)) :
    ∀ n x fd found r, queryF (ordQueryWith V s1) k n s x fd found = .ok r → queryF (ordQueryWith V s2) k n s x fd found = .ok r := by
  intro n
  induction n with
  | zero => intro x fd found r h; cases h
  | succ n ih =>
    intro x fd found r h
    rw [queryF] at h ⊢
    cases hn : s.getIn x with
    | error e => rw [hn] at h; cases h
    | ok node =>
      simp only [hn, bind_ok] at h ⊢
      simp only [ordQueryWith, ordFindNodeWith] at h ⊢
      cases hr : s1 (ordCmpChild k) node.children with
      | error e => rw [hr] at h; cases h
      | ok v =>
        rw [hr] at h
        rw [hag _ _ _ hr]
        cases v with
        | inl i =>
          simp only [bind_ok, pure_ok] at h ⊢
          cases ha : assertM (!node.isEmpty) with
          | error e => rw [ha] at h; cases h
          | ok u =>
            simp only [ha, bind_ok] at h ⊢
            cases hv : vget node.children i with
            | error e => rw [hv] at h; cases h
            | ok c =>
              simp only [hv, bind_ok] at h ⊢
              split at h
              · exact ih _ _ _ _ h
              · exact h
        | inr i =>
          simp only [bind_ok, pure_ok] at h ⊢
          cases hb : assertM (decide (0 < node.children.length)) with
          | error e => rw [hb] at h; cases h
          | ok u =>
            simp only [hb, bind_ok] at h ⊢
            cases ha : assertM (!node.isEmpty) with
            | error e => rw [ha] at h; cases h
            | ok u =>
              simp only [ha, bind_ok] at h ⊢
              cases hv : vget node.children (min i (node.children.length - 1)) with
              | error e => rw [hv] at h; cases h
              | ok c =>
                simp only [hv, bind_ok] at h ⊢
                split at h
                · exact ih _ _ _ _ h
                · exact h

theorem query_agree {s1 s2 : SearchFn (Child (OrdCache K))} (hag : ∀ f l r, s1 f l = .ok r → s2 f l = .ok r) {k : K} {s : Tree (K × V) (OrdCache K)}
    {r : Option QueryResult} (h : query (ordQueryWith V s1) s k = .ok r) : query (ordQueryWith V s2) s k = .ok r := by
  simp only [query, queryWithFinder] at h ⊢
  cases he : isEmpty s with
  | error e => rw [he] at h; cases h
  | ok b =>
    rw [he] at h
    cases b with
    | true => exact h
    | false =>
      simp only [bind_ok, Bool.false_eq_true, if_false] at h ⊢
      cases hq : queryF (ordQueryWith V s1) k s.fuel s s.root ((ordQueryWith V s1).init k) true with
      | error e => rw [hq] at h; cases h
      | ok p =>
        rw [hq] at h
        have := queryF_agree hag k s _ _ _ _ _ hq
        rw [show (ordQueryWith V s2).init k = (ordQueryWith V s1).init k from rfl, this]
        exact h

variable [Std.TransOrd K]

theorem ordQuery_any {s1 s2 : SearchFn (Child (OrdCache K))} (h1 : SearchOnce s1) (h2 : SearchOnce s2) {m : OrdMap K V} (hm : m.Ok) (k : K) :
    query (ordQueryWith V s1) m.tree k = query (ordQueryWith V s2) m.tree k := by
  obtain ⟨h, hi⟩ := id hm.tree
  obtain ⟨⟨lvl, g⟩, -⟩ := id hi
  have ne := hi.ne (by decide)
  by_cases hne : order m.tree = []
  · have he : isEmpty m.tree = .ok true := by
      rw [isEmpty_spec g.wf ne]; simp [hne]
    simp only [query, queryWithFinder, he, bind_ok]
    rfl
  · obtain ⟨U, l, e, W, -, -, -, hq, -⟩ := ordQueryWith_spec (bothSearch_once h1 h2) g ne hne hm.sorted k
    rw [query_agree (fun f l r h => (bothSearch_ok h).1) hq, query_agree (fun f l r h => (bothSearch_ok h).2) hq]

end
end GB
