import Verif.Proof.RopeFull

/-!
# A rope of nine levels whose right edge is full
-/

namespace GB
variable {E C D : Type}
open Tree

section
variable {s s' : Tree E C} {lvl : Nat → Nat} {h p : Nat} {B : Trait E C D} {A : Law B}

/-- each level has six nodes per node above, except below the last -/
theorem row_width_last (w : WF s lvl h) (pk : Packed s) {d : Nat} (hd : d < h) {x : Nat} (hx : (rowI s d).getLast? = some (.internal x)) :
    (rowI s (d + 1)).length + 6 ≤ 6 * (rowI s d).length + (chs s x).length := by
  obtain ⟨u, hu⟩ := getLast_split hx
  have nd := row_nodup w d
  have hfront : ∀ b ∈ u, (kidsI s b).length ≤ 6 := by
    intro b hb
    obtain ⟨y, rfl, hy, hly⟩ := rowI_internal w d hd b (by rw [hu]; simp [hb])
    rcases pk y hy with hsp | h6
    · exfalso
      have := spine_row w hsp hy
      rw [show h - lvl y = d by omega, hu, List.getLast?_concat, Option.some.injEq] at this
      rw [hu, this] at nd
      exact (List.nodup_append.mp nd).2.2 _ hb _ (by simp) rfl
    · simpa [kidsI, kids_chs] using h6
  have hsum : ∀ v : List Idx, (∀ b ∈ v, (kidsI s b).length ≤ 6) → (v.flatMap (kidsI s)).length ≤ 6 * v.length := by
    intro v
    induction v with
    | nil => intro _; simp
    | cons b v ih =>
      intro hv
      have h1 := hv b (by simp)
      have h2 := ih (fun c hc => hv c (by simp [hc]))
      simp only [List.flatMap_cons, List.length_append, List.length_cons]
      omega
  have h3 := hsum u hfront
  have h4 : (kidsI s (.internal x)).length = (chs s x).length := by simp [kidsI, kids_chs]
  rw [rowI, hu, List.flatMap_append, List.flatMap_singleton]
  simp only [List.length_append, List.length_cons, List.length_nil]
  omega

/-- a packed tree with the greatest number of elements: all levels are as wide as possible -/
theorem packed_rows {m : Fill} (w : WF s lvl h) (sz : Sz m s h) (pk : Packed s) (hn : (entries s).length + 1 = 2 * 6 ^ h) :
    ∀ k, k ≤ h → (rowI s (h - k)).length + 1 = 2 * 6 ^ (h - k) := by
  have hup : ∀ d, d ≤ h → (rowI s d).length + 1 ≤ 2 * 6 ^ d := by
    intro d
    induction d with
    | zero => intro _; simp [rowI]
    | succ d ih =>
      intro hd
      have h1 := ih (by omega)
      by_cases hne : rowI s d = []
      · rw [rowI, hne]
        have := Nat.pow_pos (n := d + 1) (show 0 < 6 by omega)
        simp only [List.flatMap_nil, List.length_nil]
        omega
      · have := row_width w sz pk (by omega) hne
        rw [Nat.pow_succ]
        omega
  intro k
  induction k with
  | zero =>
    intro _
    rw [Nat.sub_zero, row_order w, List.length_map]
    rw [← entries_fst w, List.length_map]
    exact hn
  | succ k ih =>
    intro hk
    have h1 := ih (by omega)
    obtain ⟨d, hd⟩ : ∃ d, h - k = d + 1 := ⟨h - k - 1, by omega⟩
    rw [hd] at h1
    rw [show h - (k + 1) = d by omega]
    have h2 := hup d (by omega)
    have hne : rowI s d ≠ [] := by
      intro hc
      rw [rowI, hc] at h1
      have := Nat.pow_pos (n := d) (show 0 < 6 by omega)
      rw [Nat.pow_succ] at h1
      simp at h1
      omega
    have h3 := row_width w sz pk (by omega : d < h) hne
    rw [Nat.pow_succ] at h1
    omega

/-- then all nodes of the right edge are full -/
theorem packed_spine {m : Fill} (w : WF s lvl h) (sz : Sz m s h) (pk : Packed s) (hn : (entries s).length + 1 = 2 * 6 ^ h)
    {x : Nat} (hx : Spine s x) (hl : lnk s x ≠ none) : 11 ≤ (chs s x).length := by
  have hlv := w.lvl_pos' hl
  have h1 := spine_row w hx hl
  have h2 := packed_rows w sz pk hn (lvl x) hlv.2
  have h3 := packed_rows w sz pk hn (lvl x - 1) (by omega)
  have h4 := row_width_last w pk (by omega : h - lvl x < h) h1
  rw [show h - (lvl x - 1) = h - lvl x + 1 by omega, Nat.pow_succ] at h3
  omega

theorem spine_jam {m : Fill} (w : WF s lvl h) (sz : Sz m s h) (pk : Packed s) (hn : (entries s).length + 1 = 2 * 6 ^ h)
    {x : Nat} (hx : Spine s x) : Jam s x := by
  induction hx with
  | root => exact .root
  | last hp hl ih =>
    have he := getLast?_edge hl
    exact .up he (packed_spine w sz pk hn hp (edge_live he)) ih

/-- and so is everything above the last leaf -/
theorem packed_full {m : Fill} (hm : 1 ≤ m.lo) (w : WF s lvl h) (sz : Sz m s h) (pk : Packed s) (hn : (entries s).length + 1 = 2 * 6 ^ h)
    {l : Nat} (hl : (order s).getLast? = some l) : FullAbove s l := by
  obtain ⟨x, q, i, N, hL, hx, hed, hN, hl1, hiN⟩ := leaf_get w (l := l) (List.mem_of_getLast? hl)
  have hs := last_leaf_spine w (Sz.ne sz hm) hl hed
  exact ⟨q, i, hed, packed_spine w sz pk hn hs (edge_live hed), spine_jam w sz pk hn hs⟩

end

/-- a push adds at most one element -/
theorem pushList_count {B : Trait E C D} {A : Law B} {m : Fill} (hm1 : 1 ≤ m.lo) (hm6 : m.lo + m.d ≤ 6) : ∀ (es : List E) (s s' : Tree E C),
    Inv A m s → (∀ e ∈ es, A.okE e) → pushList B s es = .ok s' → (entries s').length ≤ (entries s).length + es.length := by
  intro es
  induction es with
  | nil => intro s s' _ _ hs; cases hs; simp
  | cons e es ih =>
    intro s s' ⟨h, ⟨lvl, g⟩, sz⟩ hes hs
    obtain ⟨c, s1, lvl', h', e1, g1, sz1, -, r⟩ := push_spec hm1 hm6 g sz (hes e (by simp))
    simp only [pushList, e1, bind_ok] at hs
    have h1 := ih s1 s' ⟨h', ⟨lvl', g1⟩, sz1⟩ (fun x hx => hes x (by simp [hx])) hs
    have h2 : (entries s1).length ≤ (entries s).length + 1 := by
      cases r with
      | new _ _ h3 _ => rw [h3]; simp
      | merged u l x x' h3 _ _ _ h4 _ => rw [h4, h3]; simp
    simp only [List.length_cons]
    omega

/-- pushing does not empty a tree -/
theorem pushList_ne {B : Trait E C D} {A : Law B} {m : Fill} (hm1 : 1 ≤ m.lo) (hm6 : m.lo + m.d ≤ 6) : ∀ (es : List E) (s s' : Tree E C),
    Inv A m s → (∀ e ∈ es, A.okE e) → pushList B s es = .ok s' → entries s ≠ [] → entries s' ≠ [] := by
  intro es
  induction es with
  | nil => intro s s' _ _ hs hne; cases hs; exact hne
  | cons e es ih =>
    intro s s' ⟨h, ⟨lvl, g⟩, sz⟩ hes hs _
    obtain ⟨c, s1, lvl', h', e1, g1, sz1, -, r⟩ := push_spec hm1 hm6 g sz (hes e (by simp))
    simp only [pushList, e1, bind_ok] at hs
    refine ih s1 s' ⟨h', ⟨lvl', g1⟩, sz1⟩ (fun x hx => hes x (by simp [hx])) hs ?_
    cases r with
    | new _ _ h3 _ => rw [h3]; simp
    | merged u l x x' h3 _ _ _ h4 _ => rw [h4]; simp

/-- all chunks but the last are full -/
theorem chunks_count {cap : Nat} (hcap : 0 < cap) : ∀ (gs : List GapBuf), (∀ g ∈ gs, g.toVec ≠ []) → (∀ g ∈ gs.dropLast, g.toVec.length = cap) →
    gs ≠ [] → cap * (gs.length - 1) < (gs.flatMap GapBuf.toVec).length := by
  intro gs
  induction gs with
  | nil => intro _ _ h; exact absurd rfl h
  | cons g gs ih =>
    intro h1 h2 _
    cases gs with
    | nil =>
      have := List.length_pos_iff.mpr (h1 g (by simp))
      simpa using this
    | cons g2 gs =>
      have h3 := ih (fun x hx => h1 x (by simp [hx])) (fun x hx => h2 x (by simp only [List.dropLast_cons_cons, List.mem_cons]; exact .inr hx)) (by simp)
      have h4 := h2 g (by simp)
      rw [List.flatMap_cons, List.length_append, h4]
      simp only [List.length_cons, Nat.add_sub_cancel, Nat.mul_add, Nat.mul_one] at h3 ⊢
      omega

/-- `6 ^ 9 * 2 - 1` chunks make nine levels with a full right edge -/
theorem ropeNine {cap : Nat} (hcap : 0 < cap) (bytes : List UInt8) (hlen : bytes.length = cap * 20155391) :
    ∃ t, Rope.insert cap Rope.new 0 bytes = .ok ⟨t, none⟩ ∧ RopeInv cap 5 ⟨t, none⟩ ∧ (⟨t, none⟩ : Rope).text = bytes ∧
      InvH (ropeLaw cap) 6 9 t ∧ (abs t).es.length = 20155391 ∧ ∀ l, (order t).getLast? = some l → FullAbove t l := by
  have ri0 := ropeNew_inv (cap := cap) (m := 5) (by decide)
  have h0 : Rope.new.text = [] := (ropeNew_inv (cap := cap) (m := 1) (by decide)).nil.mpr (by
    rw [show Rope.new.tree = newTree ropeTrait from rfl, new_entries])
  obtain ⟨r', e1, ri, ht⟩ := ropeInsert_spec hcap (m := 5) (by decide) ri0 (index := 0) (by omega) bytes
  rw [h0] at ht
  have ht : r'.text = bytes := by rw [ht]; simp [splice]
  have e2 := e1
  unfold Rope.insert at e2
  rw [if_neg (by omega)] at e2
  rw [ri0.isEmpty (by decide), h0] at e2
  simp only [decide_true, if_true] at e2
  obtain ⟨gs, k3, k4, k5, k6⟩ := GapBuf.fromStrF_spec cap hcap _ bytes (Nat.lt_succ_self _)
  simp only [show GapBuf.fromStr cap bytes = _ from k3, bind_ok] at e2
  obtain ⟨t, e3, e4⟩ := bind_inv e2
  cases e4
  rw [pushAll_eq] at e3
  have hok : ∀ e ∈ gs, (ropeLaw cap).okE e := fun e he => ⟨(k5 e he).1, (k5 e he).2.1⟩
  obtain ⟨s, q1, ⟨h, hi⟩, pk⟩ := pushList_packed (A := ropeLaw cap) (m := 6) (by decide) (by decide) gs (newTree ropeTrait)
    ⟨1, new_inv _ 6⟩ (new_packed _) hok
  rw [show Rope.new.tree = newTree ropeTrait from rfl, q1] at e3
  have hst : s = t := Except.ok.inj e3
  clear e3
  subst hst
  have hcount : (abs s).es.length = 20155391 := by
    apply Nat.le_antisymm
    · have h1 := pushList_count (A := ropeLaw cap) (m := 6) (by decide) (by decide) gs _ _ ⟨1, new_inv _ 6⟩ hok q1
      have h2 : (entries (newTree ropeTrait)).length = 0 := by
        have : entries (newTree ropeTrait) = [] := congrArg Seq.es (new_entries (B := ropeTrait))
        rw [this]; rfl
      have h3 : (entries s).length ≤ gs.length := by omega
      refine Nat.le_trans h3 ?_
      by_cases hg : gs = []
      · rw [hg]; simp
      · have h4 := chunks_count hcap gs (fun g hg => (k5 g hg).2.2) k6 hg
        rw [k4, hlen] at h4
        have := Nat.lt_of_mul_lt_mul_left h4
        omega
    · have h1 := ri.text_length
      rw [ht] at h1
      have h2 := unitLen_le _ ri.okE
      have h3 : cap * 20155391 ≤ cap * (abs s).es.length := by
        have : unitLen ropeTrait (abs s).es ≤ cap * (abs s).es.length := h2
        have : bytes.length = unitLen ropeTrait (abs s).es := h1
        omega
      exact Nat.le_of_mul_le_mul_left h3 hcap
  have hcount' : (entries s).length = 20155391 := hcount
  obtain ⟨lvl, g⟩ := hi.ex
  have h9 : h = 9 := by
    apply Nat.le_antisymm
    · apply Nat.le_of_not_lt
      intro h10
      have h1 : 2 * 6 ^ (h - 1) ≤ _ := height_bound g.wf hi.sz (by omega)
      have h2 : 6 ^ 9 ≤ 6 ^ (h - 1) := Nat.pow_le_pow_right (by omega) (by omega)
      have : 6 ^ 9 = 10077696 := by decide
      omega
    · apply Nat.le_of_not_lt
      intro h8
      have hb := packed_length (m := 6) (by decide) g.wf hi.sz pk
      have hpow : 6 ^ h ≤ 6 ^ 8 := Nat.pow_le_pow_right (by omega) (by omega)
      have : 6 ^ 8 = 1679616 := by decide
      omega
  subst h9
  exact ⟨s, e1, ri, ht, hi, hcount, fun l hl => packed_full (m := 6) (by decide) g.wf hi.sz pk (by rw [hcount']) hl⟩

end GB
