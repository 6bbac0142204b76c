import Verif.Proof.Content
import Verif.Model.Search
import Verif.Spec.Assoc

/-!
# The ordered search
-/

namespace GB
open Tree

/-! ## Binary search -/

section
variable {α : Type}

/-- bisection of a list on which the comparison is monotone -/
theorem binSearchF_spec (f : α → M Ordering) (l : List α) (cmp : α → Ordering) (hf : ∀ x ∈ l, f x = .ok (cmp x))
    (hlt : ∀ (i j : Nat) (x y : α), i ≤ j → l[i]? = some x → l[j]? = some y → cmp y = .lt → cmp x = .lt)
    (hgt : ∀ (i j : Nat) (x y : α), i ≤ j → l[i]? = some x → l[j]? = some y → cmp x = .gt → cmp y = .gt) :
    ∀ (n a b : Nat), b - a < n → a ≤ b → b ≤ l.length → (∀ (j : Nat) (x : α), j < a → l[j]? = some x → cmp x = .lt) →
      (∀ (j : Nat) (x : α), b ≤ j → l[j]? = some x → cmp x = .gt) →
      (∃ i x, binSearchF f l n a b = .ok (.inl i) ∧ l[i]? = some x ∧ cmp x = .eq) ∨
      (∃ i, binSearchF f l n a b = .ok (.inr i) ∧ i ≤ l.length ∧ (∀ (j : Nat) (x : α), j < i → l[j]? = some x → cmp x = .lt) ∧
        (∀ (j : Nat) (x : α), i ≤ j → l[j]? = some x → cmp x = .gt)) := by
  intro n
  induction n with
  | zero => intro a b hn; omega
  | succ n ih =>
    intro a b hn hab hbl ha hb
    simp only [binSearchF]
    by_cases hlt' : a < b
    · rw [if_pos hlt']
      obtain ⟨x, hx⟩ : ∃ x, l[a + (b - a) / 2]? = some x := ⟨_, List.getElem?_eq_getElem (by omega)⟩
      simp only [vget_ok hx, bind_ok, hf x (List.mem_of_getElem? hx)]
      cases hc : cmp x with
      | lt =>
        simp only []
        refine ih _ b (by omega) (by omega) hbl ?_ hb
        intro j y hj hy
        exact hlt j (a + (b - a) / 2) y x (by omega) hy hx hc
      | gt =>
        simp only []
        refine ih a _ (by omega) (by omega) (by omega) ha ?_
        intro j y hj hy
        exact hgt (a + (b - a) / 2) j x y hj hx hy hc
      | eq => exact Or.inl ⟨_, x, rfl, hx, hc⟩
    · rw [if_neg hlt']
      refine Or.inr ⟨a, rfl, by omega, ha, ?_⟩
      intro j x hj
      exact hb j x (by omega)

theorem binSearch_spec (f : α → M Ordering) (l : List α) (cmp : α → Ordering) (hf : ∀ x ∈ l, f x = .ok (cmp x))
    (hlt : ∀ (i j : Nat) (x y : α), i ≤ j → l[i]? = some x → l[j]? = some y → cmp y = .lt → cmp x = .lt)
    (hgt : ∀ (i j : Nat) (x y : α), i ≤ j → l[i]? = some x → l[j]? = some y → cmp x = .gt → cmp y = .gt) :
    (∃ i x, binSearch f l = .ok (.inl i) ∧ l[i]? = some x ∧ cmp x = .eq) ∨
    (∃ i, binSearch f l = .ok (.inr i) ∧ i ≤ l.length ∧ (∀ (j : Nat) (x : α), j < i → l[j]? = some x → cmp x = .lt) ∧
      (∀ (j : Nat) (x : α), i ≤ j → l[j]? = some x → cmp x = .gt)) := by
  apply binSearchF_spec f l cmp hf hlt hgt (l.length + 1) 0 l.length (by omega) (by omega) (Nat.le_refl _)
  · intro j x hj; omega
  · intro j x hj hx
    have := (List.getElem?_eq_some_iff.mp hx).1
    omega

end

/-- what the search in a tree needs of `binary_search_by`: only lists on which the comparison is monotone and at most one element is
equal matter -/
def SearchOnce {α : Type} (search : SearchFn α) : Prop :=
  ∀ (f : α → M Ordering) (l : List α) (cmp : α → Ordering), (∀ x ∈ l, f x = .ok (cmp x)) →
    (∀ (i j : Nat) (x y : α), i ≤ j → l[i]? = some x → l[j]? = some y → cmp y = .lt → cmp x = .lt) →
    (∀ (i j : Nat) (x y : α), i ≤ j → l[i]? = some x → l[j]? = some y → cmp x = .gt → cmp y = .gt) →
    (∀ (i j : Nat) (x y : α), i < j → l[i]? = some x → l[j]? = some y → cmp x = .eq → cmp y ≠ .eq) →
    (∃ i x, search f l = .ok (.inl i) ∧ l[i]? = some x ∧ cmp x = .eq) ∨
    (∃ i, search f l = .ok (.inr i) ∧ i ≤ l.length ∧ (∀ (j : Nat) (x : α), j < i → l[j]? = some x → cmp x = .lt) ∧
      (∀ (j : Nat) (x : α), i ≤ j → l[j]? = some x → cmp x = .gt))

theorem binSearch_once {α : Type} : SearchOnce (binSearch (α := α)) :=
  fun f l cmp hf hlt hgt _ => binSearch_spec f l cmp hf hlt hgt

/-! ## Search in a sorted tree -/

section
variable {K V : Type} [Ord K] [Std.TransOrd K]

theorem KeySorted.of_append {a b : List (K × V)} (h : KeySorted (a ++ b)) :
    KeySorted a ∧ KeySorted b ∧ ∀ x ∈ a, ∀ y ∈ b, compare x.1 y.1 = .lt := List.pairwise_append.mp h

/-- the cache of a non-empty block: its first and last key -/
theorem ord_block {b : List (Nat × (K × V))} (hb : b ≠ []) :
    ∃ x y, b.head? = some x ∧ b.getLast? = some y ∧ blockCache (ordLaw K V) b = some (x.2.1, y.2.1) := by
  obtain ⟨x, b, rfl⟩ := List.exists_cons_of_ne_nil hb
  obtain ⟨a, z, h1, h2, h3⟩ := ordTotal_some ((b.map fun x : Nat × (K × V) => (some (x.2.1, x.2.1) : OrdCache K))) (some (x.2.1, x.2.1)) (by
    intro c hc
    rcases List.mem_cons.mp hc with rfl | hc
    · rfl
    · obtain ⟨y, -, rfl⟩ := List.mem_map.mp hc; rfl)
  obtain ⟨y, hy⟩ : ∃ y, (x :: b).getLast? = some y := ⟨_, List.getLast?_eq_some_getLast (by simp)⟩
  refine ⟨x, y, rfl, hy, ?_⟩
  have h2' : ((x :: b).map fun x : Nat × (K × V) => (some (x.2.1, x.2.1) : OrdCache K)).getLast? = some (some z) := h2
  rw [List.getLast?_map, hy, Option.map_some, Option.some.injEq, Option.some.injEq] at h2'
  cases h1
  rw [← h2'] at h3
  exact h3

/-- how a block lies relative to a key -/
def blockCmp (k : K) (b : List (Nat × (K × V))) : Ordering :=
  match b.head?, b.getLast? with
  | some x, some y => if compare k x.2.1 = .lt then .gt else if compare k y.2.1 = .gt then .lt else .eq
  | _, _ => .eq

theorem ordCmpChild_block {k : K} {b : List (Nat × (K × V))} (hb : b ≠ []) {c : Child (OrdCache K)}
    (hc : c.cache = blockCache (ordLaw K V) b) : ordCmpChild k c = .ok (blockCmp k b) := by
  obtain ⟨x, y, h1, h2, h3⟩ := ord_block hb
  simp only [ordCmpChild, hc, h3, unwrap_some, bind_ok, blockCmp, h1, h2]
  split
  · rfl
  · split <;> rfl

theorem cmp_lt_of_lt_of_le {a b c : K} (h1 : compare a b = .lt) (h2 : b = c ∨ compare b c = .lt) : compare a c = .lt := by
  rcases h2 with rfl | h2
  · exact h1
  · exact Std.TransCmp.lt_trans h1 h2

/-- elements of a sorted block lie between its ends -/
theorem block_ends {b : List (Nat × (K × V))} (hs : KeySorted (b.map Prod.snd)) {x y z : Nat × (K × V)} (hx : b.head? = some x)
    (hy : b.getLast? = some y) (hz : z ∈ b) : (x = z ∨ compare x.2.1 z.2.1 = .lt) ∧ (z = y ∨ compare z.2.1 y.2.1 = .lt) := by
  rw [KeySorted, List.pairwise_map] at hs
  constructor
  · cases b with
    | nil => cases hz
    | cons a b =>
      cases hx
      rcases List.mem_cons.mp hz with rfl | hz
      · exact Or.inl rfl
      · exact Or.inr ((List.pairwise_cons.mp hs).1 z hz)
  · obtain ⟨ys, rfl⟩ := List.getLast?_eq_some_iff.mp hy
    rcases List.mem_append.mp hz with hz | hz
    · exact Or.inr ((List.pairwise_append.mp hs).2.2 z hz y (by simp))
    · left; simpa using hz

theorem blockCmp_gt {k : K} {b : List (Nat × (K × V))} (hs : KeySorted (b.map Prod.snd)) (h : blockCmp k b = .gt) :
    ∀ z ∈ b, compare k z.2.1 = .lt := by
  intro z hz
  obtain ⟨x, hx⟩ : ∃ x, b.head? = some x := by cases b with | nil => cases hz | cons a b => exact ⟨a, rfl⟩
  obtain ⟨y, hy⟩ : ∃ y, b.getLast? = some y := ⟨_, List.getLast?_eq_some_getLast (List.ne_nil_of_mem hz)⟩
  simp only [blockCmp, hx, hy] at h
  split at h
  · next h1 =>
    rcases (block_ends hs hx hy hz).1 with rfl | h2
    · exact h1
    · exact Std.TransCmp.lt_trans h1 h2
  · split at h <;> cases h

theorem blockCmp_lt {k : K} {b : List (Nat × (K × V))} (hs : KeySorted (b.map Prod.snd)) (h : blockCmp k b = .lt) :
    ∀ z ∈ b, compare k z.2.1 = .gt := by
  intro z hz
  obtain ⟨x, hx⟩ : ∃ x, b.head? = some x := by cases b with | nil => cases hz | cons a b => exact ⟨a, rfl⟩
  obtain ⟨y, hy⟩ : ∃ y, b.getLast? = some y := ⟨_, List.getLast?_eq_some_getLast (List.ne_nil_of_mem hz)⟩
  simp only [blockCmp, hx, hy] at h
  split at h
  · cases h
  · split at h
    · next h1 =>
      rcases (block_ends hs hx hy hz).2 with rfl | h2
      · exact h1
      · exact Std.TransCmp.gt_trans h1 (Std.OrientedCmp.gt_of_lt h2)
    · cases h

omit [Std.TransOrd K] in
theorem blockCmp_reach {k : K} {b : List (Nat × (K × V))} (hb : b ≠ []) (h : blockCmp k b ≠ .lt) : ∃ y ∈ b, compare k y.2.1 ≠ .gt := by
  obtain ⟨y, hy⟩ : ∃ y, b.getLast? = some y := ⟨_, List.getLast?_eq_some_getLast hb⟩
  obtain ⟨x, hx⟩ : ∃ x, b.head? = some x := ⟨_, List.head?_eq_some_head hb⟩
  simp only [blockCmp, hx, hy] at h
  by_cases h1 : compare k x.2.1 = .lt
  · exact ⟨x, List.mem_of_mem_head? hx, by rw [h1]; simp⟩
  · rw [if_neg h1] at h
    by_cases h2 : compare k y.2.1 = .gt
    · rw [if_pos h2] at h; exact absurd rfl h
    · exact ⟨y, List.mem_of_getLast? hy, h2⟩

/-- every block in front of a block that is not above the key is below the key -/
theorem blocks_before {k : K} {a b : List (Nat × (K × V))} (ha : a ≠ []) (hb : b ≠ []) (hs : KeySorted ((a ++ b).map Prod.snd))
    (h : blockCmp k b ≠ .gt) : ∀ z ∈ a, compare k z.2.1 = .gt := by
  intro z hz
  obtain ⟨x, b, rfl⟩ := List.exists_cons_of_ne_nil hb
  obtain ⟨y, hy⟩ : ∃ y, (x :: b).getLast? = some y := ⟨_, List.getLast?_eq_some_getLast (by simp)⟩
  have hzx : compare z.2.1 x.2.1 = .lt := by
    rw [KeySorted, List.pairwise_map, List.pairwise_append] at hs
    exact hs.2.2 z hz x (by simp)
  have : compare k x.2.1 ≠ .lt := by
    intro hlt
    apply h
    simp only [blockCmp, hy, List.head?_cons, hlt, if_true]
  cases hc : compare k x.2.1 with
  | lt => exact absurd hc this
  | eq =>
    have := Std.TransCmp.congr_left (c := z.2.1) hc
    rw [this]
    exact Std.OrientedCmp.gt_of_lt hzx
  | gt => exact Std.TransCmp.gt_trans hc (Std.OrientedCmp.gt_of_lt hzx)

theorem blocks_after {k : K} {a b : List (Nat × (K × V))} (ha : a ≠ []) (hs : KeySorted ((a ++ b).map Prod.snd))
    (h : blockCmp k a ≠ .lt) : ∀ z ∈ b, compare k z.2.1 = .lt := by
  intro z hz
  obtain ⟨x, hx⟩ : ∃ x, a.head? = some x := by cases a with | nil => exact absurd rfl ha | cons x a => exact ⟨x, rfl⟩
  obtain ⟨y, hy⟩ : ∃ y, a.getLast? = some y := ⟨_, List.getLast?_eq_some_getLast ha⟩
  have hsa : KeySorted (a.map Prod.snd) := by
    rw [List.map_append] at hs; exact hs.of_append.1
  have hya : y ∈ a := List.mem_of_getLast? hy
  have hyz : compare y.2.1 z.2.1 = .lt := by
    rw [KeySorted, List.pairwise_map, List.pairwise_append] at hs
    exact hs.2.2 y hya z hz
  have hxy := (block_ends hsa hx hy hya).1
  have hle : compare k y.2.1 ≠ .gt := by
    intro hgt
    apply h
    simp only [blockCmp, hx, hy, hgt, if_true]
    split
    · next hlt =>
      have : compare k y.2.1 = .lt := by
        rcases hxy with rfl | h2
        · exact hlt
        · exact Std.TransCmp.lt_trans hlt h2
      rw [this] at hgt; cases hgt
    · rfl
  cases hc : compare k y.2.1 with
  | lt => exact Std.TransCmp.lt_trans hc hyz
  | eq => rw [Std.TransCmp.congr_left (c := z.2.1) hc]; exact hyz
  | gt => exact absurd hc hle

theorem blockCmp_mono {k : K} {bs : List (List (Nat × (K × V)))} (hn : ∀ b ∈ bs, b ≠ []) (hs : KeySorted (bs.flatten.map Prod.snd))
    {i j : Nat} {a b : List (Nat × (K × V))} (hij : i ≤ j) (ha : bs[i]? = some a) (hb : bs[j]? = some b) :
    (blockCmp k b = .lt → blockCmp k a = .lt) ∧ (blockCmp k a = .gt → blockCmp k b = .gt) := by
  rcases Nat.eq_or_lt_of_le hij with rfl | hlt
  · rw [ha] at hb; cases hb; exact ⟨id, id⟩
  · have hsub : (a ++ b).Sublist bs.flatten := by
      rw [get_split ha, List.flatten_append, List.flatten_cons]
      apply List.Sublist.trans _ (List.sublist_append_right _ _)
      apply List.Sublist.append_left
      apply List.sublist_flatten_of_mem
      have : bs[i + 1 + (j - (i + 1))]? = some b := by rw [← hb]; congr 1; omega
      rw [← List.getElem?_drop] at this
      exact List.mem_of_getElem? this
    have hsab : KeySorted ((a ++ b).map Prod.snd) := List.Pairwise.sublist (hsub.map Prod.snd) hs
    have hae := hn a (List.mem_of_getElem? ha)
    have hbe := hn b (List.mem_of_getElem? hb)
    obtain ⟨x, hx⟩ : ∃ x, a.head? = some x := by cases a with | nil => exact absurd rfl hae | cons x a => exact ⟨x, rfl⟩
    obtain ⟨y, hy⟩ : ∃ y, a.getLast? = some y := ⟨_, List.getLast?_eq_some_getLast hae⟩
    obtain ⟨x', hx'⟩ : ∃ x, b.head? = some x := by cases b with | nil => exact absurd rfl hbe | cons x a => exact ⟨x, rfl⟩
    obtain ⟨y', hy'⟩ : ∃ y, b.getLast? = some y := ⟨_, List.getLast?_eq_some_getLast hbe⟩
    constructor
    · intro h
      have h1 := blocks_before hae hbe hsab (by rw [h]; simp)
      simp only [blockCmp, hx, hy]
      rw [if_neg (by rw [h1 x (by cases a with | nil => cases hx | cons => cases hx; simp)]; simp),
        if_pos (h1 y (List.mem_of_getLast? hy))]
    · intro h
      have h1 := blocks_after hae hsab (by rw [h]; simp)
      simp only [blockCmp, hx', hy']
      rw [if_pos (h1 x' (by cases b with | nil => cases hx' | cons => cases hx'; simp))]

/-- a key lies within at most one block -/
theorem blockCmp_once {k : K} {bs : List (List (Nat × (K × V)))} (hn : ∀ b ∈ bs, b ≠ []) (hs : KeySorted (bs.flatten.map Prod.snd))
    {i j : Nat} {a b : List (Nat × (K × V))} (hij : i < j) (ha : bs[i]? = some a) (hb : bs[j]? = some b) (h1 : blockCmp k a = .eq)
    (h2 : blockCmp k b = .eq) : False := by
  have hsub : (a ++ b).Sublist bs.flatten := by
    rw [get_split ha, List.flatten_append, List.flatten_cons]
    apply List.Sublist.trans _ (List.sublist_append_right _ _)
    apply List.Sublist.append_left
    apply List.sublist_flatten_of_mem
    have : bs[i + 1 + (j - (i + 1))]? = some b := by rw [← hb]; congr 1; omega
    rw [← List.getElem?_drop] at this
    exact List.mem_of_getElem? this
  have hsab : KeySorted ((a ++ b).map Prod.snd) := List.Pairwise.sublist (hsub.map Prod.snd) hs
  have hae := hn a (List.mem_of_getElem? ha)
  have hbe := hn b (List.mem_of_getElem? hb)
  have hgt := blocks_before hae hbe hsab (by rw [h2]; simp)
  obtain ⟨x, hx⟩ : ∃ x, a.head? = some x := by cases a with | nil => exact absurd rfl hae | cons x a => exact ⟨x, rfl⟩
  obtain ⟨y, hy⟩ : ∃ y, a.getLast? = some y := ⟨_, List.getLast?_eq_some_getLast hae⟩
  simp only [blockCmp, hx, hy] at h1
  rw [if_neg (by rw [hgt x (List.mem_of_mem_head? hx)]; simp), if_pos (hgt y (List.mem_of_getLast? hy))] at h1
  cases h1

variable {s : Tree (K × V) (OrdCache K)} {lvl : Nat → Nat} {h : Nat}

/-- The search ends at a leaf with all smaller keys in front and all larger keys behind: at the first key that is not below `k`, or at
the last leaf. -/
theorem ordQueryWith_spec {search : SearchFn (Child (OrdCache K))} (hse : SearchOnce search) (g : Good (ordLaw K V) s lvl h) (ne : NE s) (hne : order s ≠ []) (hs : KeySorted ((entries s).map Prod.snd)) (k : K) :
    ∃ U l e W, entries s = U ++ (l, e) :: W ∧ (∀ x ∈ U, compare k x.2.1 = .gt) ∧ (∀ x ∈ W, compare k x.2.1 = .lt) ∧
      query (ordQueryWith V search) s k = .ok (some ⟨⟨l, if compare k e.1 = .gt then 1 else 0⟩, decide (compare k e.1 = .eq)⟩) ∧ (compare k e.1 = .gt → W = []) := by
  obtain ⟨U, l, e, W, fd, found, h1, ⟨h2, h3, h4, h6⟩, h5⟩ := queryWithFinder_spec g ne hne (ordQueryWith V search) k
    (fun U v W _ found => (∀ x ∈ U, compare k x.2.1 = .gt) ∧ (∀ x ∈ W, compare k x.2.1 = .lt) ∧
      (found = false → ∀ x ∈ v, compare k x.2.1 ≠ .eq) ∧ (W = [] ∨ ∃ y ∈ v, compare k y.2.1 ≠ .gt))
    (by simp)
    (by
      intro cs bs U W fd found hbs hbn hcs hent ⟨hU, hW, hf, hz⟩
      have hl : cs.length = bs.length := by
        have := congrArg List.length hcs
        simpa using this
      have hcb : ∀ (i : Nat) (c : Child (OrdCache K)), cs[i]? = some c → ∃ b, bs[i]? = some b ∧ b ≠ [] ∧ ordCmpChild k c = .ok (blockCmp k b) := by
        intro i c hc
        have := congrArg (fun l => l[i]?) hcs
        simp only [List.getElem?_map, hc, Option.map_some] at this
        obtain ⟨b, hb, hbc⟩ := Option.map_eq_some_iff.mp this.symm
        have hb0 := hbn b (List.mem_of_getElem? hb)
        exact ⟨b, hb, hb0, ordCmpChild_block hb0 hbc.symm⟩
      have hsb : KeySorted (bs.flatten.map Prod.snd) := by
        rw [hent, List.map_append, List.map_append] at hs
        exact hs.of_append.1.of_append.2.1
      -- a comparison function on the children themselves
      let cmp : Child (OrdCache K) → Ordering := fun c => match ordCmpChild k c with
        | .ok o => o
        | .error _ => .eq
      have hcmp : ∀ (i : Nat) (c : Child (OrdCache K)), cs[i]? = some c → ∃ b, bs[i]? = some b ∧ cmp c = blockCmp k b ∧ ordCmpChild k c = .ok (cmp c) := by
        intro i c hc
        obtain ⟨b, h1, h2, h3⟩ := hcb i c hc
        refine ⟨b, h1, ?_, ?_⟩
        · simp only [cmp, h3]
        · simp only [cmp, h3]
      have hcb' : ∀ (i : Nat) (b : List (Nat × (K × V))), bs[i]? = some b → ∃ c, cs[i]? = some c ∧ cmp c = blockCmp k b := by
        intro i b hb
        have hlt := (List.getElem?_eq_some_iff.mp hb).1
        obtain ⟨b', h1, h2, -⟩ := hcmp i cs[i] (List.getElem?_eq_getElem (by omega))
        rw [hb] at h1; cases h1
        exact ⟨_, List.getElem?_eq_getElem (by omega), h2⟩
      -- splitting at an index
      have hsplit : ∀ (i : Nat), i < bs.length → ∃ b, bs[i]? = some b ∧ bs = bs.take i ++ b :: bs.drop (i + 1) ∧ i = (bs.take i).length := by
        intro i hi
        refine ⟨bs[i], List.getElem?_eq_getElem hi, get_split (List.getElem?_eq_getElem hi), ?_⟩
        rw [List.length_take]; omega
      have hbelow : ∀ (i : Nat), (∀ (j : Nat) (b : List (Nat × (K × V))), j < i → bs[j]? = some b → blockCmp k b = .lt) → ∀ x ∈ (bs.take i).flatten, compare k x.2.1 = .gt := by
        intro i hj x hx
        obtain ⟨b, hb, hxb⟩ := List.mem_flatten.mp hx
        obtain ⟨j, hjl, hjb⟩ := List.mem_iff_getElem.mp hb
        have hjb' : bs[j]? = some b := by
          rw [List.getElem_take] at hjb
          rw [List.length_take] at hjl
          rw [← hjb]; exact List.getElem?_eq_getElem (by omega)
        have hsb' : KeySorted (b.map Prod.snd) := List.Pairwise.sublist ((List.sublist_flatten_of_mem (List.mem_of_getElem? hjb')).map Prod.snd) hsb
        rw [List.length_take] at hjl
        exact blockCmp_lt hsb' (hj j b (by omega) hjb') x hxb
      have habove : ∀ (i : Nat), (∀ (j : Nat) (b : List (Nat × (K × V))), i ≤ j → bs[j]? = some b → blockCmp k b = .gt) → ∀ x ∈ (bs.drop i).flatten, compare k x.2.1 = .lt := by
        intro i hj x hx
        obtain ⟨b, hb, hxb⟩ := List.mem_flatten.mp hx
        obtain ⟨j, hjl, hjb⟩ := List.mem_iff_getElem.mp hb
        have hjb' : bs[i + j]? = some b := by
          rw [List.getElem_drop] at hjb
          rw [List.length_drop] at hjl
          rw [← hjb]; exact List.getElem?_eq_getElem (by omega)
        have hsb' : KeySorted (b.map Prod.snd) := List.Pairwise.sublist ((List.sublist_flatten_of_mem (List.mem_of_getElem? hjb')).map Prod.snd) hsb
        exact blockCmp_gt hsb' (hj (i + j) b (by omega) hjb') x hxb
      have hmono : ∀ (i j : Nat) (x y : Child (OrdCache K)), i ≤ j → cs[i]? = some x → cs[j]? = some y → (cmp y = .lt → cmp x = .lt) ∧ (cmp x = .gt → cmp y = .gt) := by
        intro i j x y hij hx hy
        obtain ⟨a, ha, ha2, -⟩ := hcmp i x hx
        obtain ⟨b, hb, hb2, -⟩ := hcmp j y hy
        rw [ha2, hb2]
        exact blockCmp_mono hbn hsb hij ha hb
      have huniq : ∀ (i j : Nat) (x y : Child (OrdCache K)), i < j → cs[i]? = some x → cs[j]? = some y → cmp x = .eq → cmp y ≠ .eq := by
        intro i j x y hij hx hy ex ey
        obtain ⟨a, ha, ha2, -⟩ := hcmp i x hx
        obtain ⟨b, hb, hb2, -⟩ := hcmp j y hy
        exact blockCmp_once hbn hsb hij ha hb (by rw [← ha2, ex]) (by rw [← hb2, ey])
      rcases hse (ordCmpChild k) cs cmp
        (by
          intro x hx
          obtain ⟨i, hi⟩ := List.mem_iff_getElem?.mp hx
          obtain ⟨b, -, -, h3⟩ := hcmp i x hi
          exact h3)
        (fun i j x y hij hx hy => (hmono i j x y hij hx hy).1) (fun i j x y hij hx hy => (hmono i j x y hij hx hy).2) huniq
        with ⟨i, c, e1, e2, e3⟩ | ⟨i, e1, e2, e3, e4⟩
      · obtain ⟨b, hb, hb2, -⟩ := hcmp i c e2
        rw [e3] at hb2
        have hi := (List.getElem?_eq_some_iff.mp hb).1
        obtain ⟨b', hb', hsp, hlen⟩ := hsplit i hi
        rw [hb] at hb'; cases hb'
        have hs2 := hsb
        rw [hsp, List.flatten_append, List.flatten_cons, List.map_append, List.map_append] at hs2
        obtain ⟨hs3, hs4, hs5⟩ := hs2.of_append
        have hb0 := hbn b (List.mem_of_getElem? hb)
        refine ⟨⟨i, 0, true⟩, (), bs.take i, b, bs.drop (i + 1), ?_, hsp, hlen, ?_, ?_, ?_, ?_⟩
        · simp only [ordQueryWith, ordFindNodeWith, e1, bind_ok, pure_ok]
        · intro x hx
          rcases List.mem_append.mp hx with hx | hx
          · exact hU x hx
          · have hs6 : KeySorted (((bs.take i).flatten ++ b).map Prod.snd) := by
              rw [List.map_append]
              rw [← List.append_assoc] at hs2
              exact hs2.of_append.1
            exact blocks_before (List.ne_nil_of_mem hx) hb0 hs6 (by rw [← hb2]; simp) x hx
        · intro x hx
          rcases List.mem_append.mp hx with hx | hx
          · refine blocks_after hb0 ?_ (by rw [← hb2]; simp) x hx
            rw [List.map_append]; exact hs4
          · exact hW x hx
        · intro hfd x hx
          simp only [Bool.and_true] at hfd
          refine hf hfd x ?_
          rw [hsp]; simp [hx]
        · exact Or.inr (blockCmp_reach hb0 (by rw [← hb2]; simp))
      · have e3' : ∀ (j : Nat) (b : List (Nat × (K × V))), j < i → bs[j]? = some b → blockCmp k b = .lt := by
          intro j b hj hb
          obtain ⟨c, hc, hc2⟩ := hcb' j b hb
          rw [← hc2]; exact e3 j c hj hc
        have e4' : ∀ (j : Nat) (b : List (Nat × (K × V))), i ≤ j → bs[j]? = some b → blockCmp k b = .gt := by
          intro j b hj hb
          obtain ⟨c, hc, hc2⟩ := hcb' j b hb
          rw [← hc2]; exact e4 j c hj hc
        have hpos : 0 < cs.length := by
          have : bs.length ≠ 0 := fun e => hbs (List.length_eq_zero_iff.mp e)
          omega
        obtain ⟨b, hb, hsp, hlen⟩ := hsplit (min i (cs.length - 1)) (by omega)
        refine ⟨⟨min i (cs.length - 1), if i = cs.length then 1 else 0, false⟩, (), bs.take (min i (cs.length - 1)), b, bs.drop (min i (cs.length - 1) + 1), ?_, hsp, hlen, ?_, ?_, ?_, ?_⟩
        · simp only [ordQueryWith, ordFindNodeWith, e1, bind_ok, pure_ok, hpos, assertM_triv]
        · intro x hx
          rcases List.mem_append.mp hx with hx | hx
          · exact hU x hx
          · exact hbelow _ (fun j b hj => e3' j b (by omega)) x hx
        · intro x hx
          rcases List.mem_append.mp hx with hx | hx
          · exact habove _ (fun j b hj hb => e4' j b (by
              have := (List.getElem?_eq_some_iff.mp hb).1
              omega) hb) x hx
          · exact hW x hx
        · intro _ x hx
          have hsb' : KeySorted (b.map Prod.snd) := List.Pairwise.sublist ((List.sublist_flatten_of_mem (List.mem_of_getElem? hb)).map Prod.snd) hsb
          by_cases hi : i < cs.length
          · rw [blockCmp_gt hsb' (e4' _ b (by omega) hb) x hx]; simp
          · rw [blockCmp_lt hsb' (e3' _ b (by omega) hb) x hx]; simp
        · by_cases hi : i < cs.length
          · exact Or.inr (blockCmp_reach (hbn b (List.mem_of_getElem? hb)) (by rw [e4' _ b (by omega) hb]; simp))
          · refine Or.inl ?_
            have hall : ∀ y ∈ bs.flatten, compare k y.2.1 = .gt := by
              intro y hy
              have := hbelow bs.length (fun j b hj => e3' j b (by omega)) y (by rw [List.take_length]; exact hy)
              exact this
            rcases hz with hz | ⟨y, hy, hyc⟩
            · rw [hz, List.drop_eq_nil_of_le (by omega)]; rfl
            · exact absurd (hall y hy) hyc)
  refine ⟨U, l, e, W, h1, h2, h3, ?_, ?_⟩
  rotate_left
  · intro hc
    rcases h6 with h6 | ⟨y, hy, hyc⟩
    · exact h6
    · rw [List.mem_singleton.mp hy] at hyc
      exact absurd hc hyc
  rw [query, h5]
  simp only [ordQueryWith, ordConfirm, bind_ok, pure_ok]
  cases hc : compare k e.1 with
  | lt => simp
  | gt => simp
  | eq =>
    have : found = true := by
      cases found with
      | true => rfl
      | false => exact absurd hc (h4 rfl (l, e) (by simp))
    simp [this]

theorem ordQuery_spec (g : Good (ordLaw K V) s lvl h) (ne : NE s) (hne : order s ≠ []) (hs : KeySorted ((entries s).map Prod.snd)) (k : K) :
    ∃ U l e W, entries s = U ++ (l, e) :: W ∧ (∀ x ∈ U, compare k x.2.1 = .gt) ∧ (∀ x ∈ W, compare k x.2.1 = .lt) ∧
      query (ordQuery K V) s k = .ok (some ⟨⟨l, if compare k e.1 = .gt then 1 else 0⟩, decide (compare k e.1 = .eq)⟩) ∧ (compare k e.1 = .gt → W = []) :=
  ordQueryWith_spec binSearch_once g ne hne hs k

end
end GB
