import Verif.Spec.Edit
import Verif.Spec.Update
import Verif.Proof.Abs

/-!
# Edits of sequences
-/

namespace GB
variable {E C D σ Arg : Type} {B : Trait E C D} {S : Nat → Prop} {t t' : Seq E}
open Tree

/-- all numbers are below the next one, and there are no duplicates -/
structure SeqOK (t : Seq E) : Prop where
  nd : (t.es.map Prod.fst).Nodup
  lt : ∀ x ∈ t.es, x.1 < t.next

theorem SeqOK.filter_all (h : SeqOK t) {l : List (Nat × E)} (hl : ∀ x ∈ l, x ∈ t.es) : ((l.map Prod.fst).filter fun k => decide (k < t.next)) = l.map Prod.fst := by
  rw [List.filter_eq_self]
  intro k hk
  obtain ⟨x, hx, rfl⟩ := List.mem_map.mp hk
  exact decide_eq_true (h.lt x (hl x hx))

theorem filter_new {n : Nat} {l : List (Nat × E)} (h : ∀ x ∈ l, n ≤ x.1) : ((l.map Prod.fst).filter fun k => decide (k < n)) = [] := by
  rw [List.filter_eq_nil_iff]
  intro k hk
  obtain ⟨x, hx, rfl⟩ := List.mem_map.mp hk
  have := h x hx
  simp only [decide_eq_true_eq]
  omega

/-- replace the middle by something with at most the same numbers and new ones -/
theorem Edit.middle (h : SeqOK t) {U Y Y' V : List (Nat × E)} {n : Nat} (ht : t.es = U ++ Y ++ V) (hn : t.next ≤ n)
    (hS : ∀ l e, ¬ S l → (l, e) ∈ Y → (l, e) ∈ Y')
    (ho : ((Y'.map Prod.fst).filter fun l => decide (l < t.next)).Sublist (Y.map Prod.fst)) : Edit S t ⟨n, U ++ Y' ++ V⟩ where
  keep := by
    intro l e hl he
    rw [ht] at he
    simp only [List.mem_append] at he ⊢
    rcases he with (he | he) | he
    · exact .inl (.inl he)
    · exact .inl (.inr (hS l e hl he))
    · exact .inr he
  order := by
    simp only [List.map_append, List.filter_append]
    rw [h.filter_all (l := U) (by intro x hx; rw [ht]; simp [hx]), h.filter_all (l := V) (by intro x hx; rw [ht]; simp [hx]), ht]
    simp only [List.map_append]
    exact ((List.Sublist.refl _).append ho).append (List.Sublist.refl _)
  next := hn

theorem Edit.refl (h : SeqOK t) : Edit S t t where
  keep := fun _ _ _ h => h
  order := List.filter_sublist
  next := Nat.le_refl _

theorem push_edit (h : SeqOK t) {e : E} {c : Cursor} (hp : specPush B t e = .ok (c, t')) :
    Edit (fun l => ∃ U x, t.es = U ++ [(l, x)] ∧ B.canMerge x e = true) t t' := by
  unfold specPush at hp
  split at hp
  · next l x hl =>
    obtain ⟨U, hU⟩ : ∃ U, t.es = U ++ [(l, x)] := by
      obtain ⟨ys, hys⟩ := List.getLast?_eq_some_iff.mp hl
      exact ⟨ys, hys⟩
    split at hp
    · next hc =>
      obtain ⟨x', -, h2⟩ := bind_inv hp
      cases h2
      have := Edit.middle (S := fun l => ∃ U x, t.es = U ++ [(l, x)] ∧ B.canMerge x e = true) h (U := U) (Y := [(l, x)]) (Y' := [(l, x')]) (V := []) (n := t.next) (by rw [hU]; simp) (Nat.le_refl _)
        (by
          intro k y hk hy
          simp at hy
          obtain ⟨rfl, rfl⟩ := hy
          exact absurd ⟨U, y, hU, hc⟩ hk)
        List.filter_sublist
      have hd : t.es.dropLast = U := by rw [hU, List.dropLast_concat]
      show Edit _ t ⟨_, t.es.dropLast ++ _⟩
      rw [hd]
      simpa using this
    · cases hp
      have := Edit.middle (S := fun l => ∃ U x, t.es = U ++ [(l, x)] ∧ B.canMerge x e = true) h (U := t.es) (Y := []) (Y' := [(t.next, e)]) (V := []) (n := t.next + 1) (by simp) (by omega)
        (by simp) (by simp)
      simpa using this
  · cases hp
    next hl =>
    have he : t.es = [] := List.getLast?_eq_none_iff.mp hl
    refine ⟨by rw [he]; simp, by simp, by simp⟩

theorem prepend_edit (h : SeqOK t) {e : E} {c : Cursor} (hp : specPrepend B t e = .ok (c, t')) :
    Edit (fun l => ∃ x V, t.es = (l, x) :: V ∧ B.canMerge e x = true) t t' := by
  unfold specPrepend at hp
  split at hp
  · next l x V hV =>
    split at hp
    · next hc =>
      obtain ⟨x', -, h2⟩ := bind_inv hp
      cases h2
      exact Edit.middle (S := fun l => ∃ x V, t.es = (l, x) :: V ∧ B.canMerge e x = true) h (U := []) (Y := [(l, x)]) (Y' := [(l, x')]) (V := V) (n := t.next) (by rw [hV]; simp) (Nat.le_refl _)
        (by
          intro k y hk hy
          simp at hy
          obtain ⟨rfl, rfl⟩ := hy
          exact absurd ⟨y, V, hV, hc⟩ hk)
        List.filter_sublist
    · cases hp
      exact Edit.middle h (U := []) (Y := []) (Y' := [(t.next, e)]) (V := t.es) (n := t.next + 1) (by simp) (by omega) (by simp) (by simp)
  · cases hp
    next he => refine ⟨by rw [he]; simp, by simp, by simp⟩

theorem insert_edit (h : SeqOK t) {cur : Cursor} {e : E} {r : Cursor × List Nat} (hp : specInsert B t cur e = .ok (r, t')) :
    Edit (fun l => l = cur.leaf) t t' := by
  unfold specInsert at hp
  split at hp
  · cases hp
  next U x V hl =>
  have hes := locate_some hl
  have hlt : cur.leaf < t.next := h.lt (cur.leaf, x) (by rw [hes]; simp)
  -- any replacement that keeps the number once
  have key : ∀ Y' n, t.next ≤ n → ((Y'.map Prod.fst).filter fun l => decide (l < t.next)) = [cur.leaf] →
      Edit (fun l => l = cur.leaf) t ⟨n, U ++ Y' ++ V⟩ := by
    intro Y' n hn hY
    refine Edit.middle h (Y := [(cur.leaf, x)]) (by rw [hes]; simp) hn ?_ ?_
    · intro k y hk hy
      simp at hy
      exact absurd hy.1 hk
    · rw [hY]; simp
  split at hp
  · cases hp
  obtain ⟨w, hw, hp⟩ := bind_inv hp
  cases w with
  | inl e' =>
    cases hp
    simpa using key [(cur.leaf, e')] t.next (Nat.le_refl _) (by simp [hlt])
  | inr d =>
    simp only at hp
    split at hp
    · obtain ⟨e', -, h2⟩ := bind_inv hp
      cases h2
      simpa using key [(cur.leaf, e')] t.next (Nat.le_refl _) (by simp [hlt])
    split at hp
    · obtain ⟨e', -, h2⟩ := bind_inv hp
      cases h2
      simpa using key [(cur.leaf, e')] t.next (Nat.le_refl _) (by simp [hlt])
    split at hp
    · cases hp
      simpa using key [(t.next, d), (cur.leaf, x)] (t.next + 1) (by omega) (by simp [hlt])
    split at hp
    · cases hp
      simpa using key [(cur.leaf, x), (t.next, d)] (t.next + 1) (by omega) (by simp [hlt])
    obtain ⟨⟨a, b⟩, -, h2⟩ := bind_inv hp
    cases h2
    have : ¬ (t.next + 1 < t.next) := by omega
    simpa using key [(cur.leaf, a), (t.next + 1, d), (t.next, b)] (t.next + 2) (by omega) (by simp [hlt])

theorem remove_edit (h : SeqOK t) (l : Nat) : Edit (fun k => k = l) t (specRemove t l).2 := by
  unfold specRemove
  cases hl : locate l t.es with
  | none => exact Edit.refl h
  | some x =>
    obtain ⟨U, e, V⟩ := x
    have := Edit.middle (S := fun k => k = l) h (U := U) (Y := [(l, e)]) (Y' := []) (V := V) (n := t.next) (by rw [locate_some hl]; simp) (Nat.le_refl _) (by
      intro k y hk hy
      simp at hy
      exact absurd hy.1 hk) (by simp)
    simpa using this

theorem updateLeaf_edit (h : SeqOK t) {l : Nat} {e : E} {U V es' : List (Nat × E)} (hes : t.es = U ++ (l, e) :: V) {surv : List E} {b : Bool} {ids : List Nat} {n : Nat}
    (r : UpdRel B t.next l U V surv b ids n es') : Edit (fun k => k = l ∨ ∃ U x z V, t.es = U ++ (l, x) :: (k, z) :: V) t ⟨n, es'⟩ := by
  have hlt : l < t.next := h.lt (l, e) (by rw [hes]; simp)
  have key : ∀ Y' n, t.next ≤ n → ((Y'.map Prod.fst).filter fun k => decide (k < t.next)).Sublist [l] →
      Edit (fun k => k = l ∨ ∃ U x z V, t.es = U ++ (l, x) :: (k, z) :: V) t ⟨n, U ++ Y' ++ V⟩ := by
    intro Y' n hn hY
    refine Edit.middle h (Y := [(l, e)]) (by rw [hes]; simp) hn ?_ hY
    intro k y hk hy
    simp at hy
    exact absurd (.inl hy.1) hk
  have n1 : ¬ (t.next + 1 < t.next) := by omega
  cases r with
  | gone => simpa using key [] t.next (Nat.le_refl _) (by simp)
  | one x => simpa using key [(l, x)] t.next (Nat.le_refl _) (by simp [hlt])
  | two x a => simpa using key [(l, x), (t.next, a)] (t.next + 1) (by omega) (by simp [hlt])
  | three x a b => simpa using key [(l, x), (t.next, a), (t.next + 1, b)] (t.next + 2) (by omega) (by simp [hlt])
  | merged x a k z z' V' hV hc hm =>
    subst hV
    have := Edit.middle (S := fun k => k = l ∨ ∃ U x z V, t.es = U ++ (l, x) :: (k, z) :: V) h (U := U) (Y := [(l, e), (k, z)]) (Y' := [(l, x), (k, z')]) (V := V')
      (n := t.next) (by rw [hes]; simp) (Nat.le_refl _) (by
        intro j y hj hy
        simp at hy
        rcases hy with hy | hy
        · exact absurd (.inl hy.1) hj
        · obtain ⟨rfl, rfl⟩ := hy
          exact absurd (.inr ⟨U, e, y, V', hes⟩) hj) List.filter_sublist
    simpa using this

/-- a cut -/
theorem cut_shape {c : Cursor} {L R : List (Nat × E)} {n : Nat} (hc : specCut B t c = .ok (L, R, n)) :
    ∃ U e V, t.es = U ++ (c.leaf, e) :: V ∧ c.offset ≤ B.rleLen e ∧
      ((L = U ∧ R = (c.leaf, e) :: V ∧ n = t.next ∧ c.offset = 0) ∨ (L = U ++ [(c.leaf, e)] ∧ R = V ∧ n = t.next ∧ c.offset = B.rleLen e) ∨
        ∃ a b, L = U ++ [(c.leaf, a)] ∧ R = (t.next, b) :: V ∧ n = t.next + 1 ∧ 0 < c.offset ∧ c.offset < B.rleLen e) := by
  unfold specCut at hc
  split at hc
  · cases hc
  next U e V hl =>
  refine ⟨U, e, V, locate_some hl, ?_⟩
  split at hc
  · cases hc
  next h1 =>
  refine ⟨by omega, ?_⟩
  split at hc
  · next h2 => cases hc; exact .inl ⟨rfl, rfl, rfl, h2⟩
  next h2 =>
  split at hc
  · next h3 => cases hc; exact .inr (.inl ⟨rfl, rfl, rfl, h3⟩)
  next h3 =>
  obtain ⟨⟨a, b⟩, -, h4⟩ := bind_inv hc
  cases h4
  exact .inr (.inr ⟨a, b, rfl, rfl, rfl, by omega, by omega⟩)

theorem cut_ids (h : SeqOK t) {c : Cursor} {L R : List (Nat × E)} {n : Nat} (hc : specCut B t c = .ok (L, R, n)) :
    (((L ++ R).map Prod.fst).filter fun k => decide (k < t.next)) = t.es.map Prod.fst ∧ t.next ≤ n ∧ SeqOK ⟨n, L ++ R⟩ := by
  obtain ⟨U, e, V, hes, -, hcase⟩ := cut_shape hc
  have hU := h.filter_all (l := U) (by intro x hx; rw [hes]; simp [hx])
  have hV := h.filter_all (l := V) (by intro x hx; rw [hes]; simp [hx])
  have hlt : c.leaf < t.next := h.lt (c.leaf, e) (by rw [hes]; simp)
  have hall := h.filter_all (l := t.es) (fun _ h => h)
  rcases hcase with ⟨rfl, rfl, rfl, -⟩ | ⟨rfl, rfl, rfl, -⟩ | ⟨a, b, rfl, rfl, rfl, -, -⟩
  · rw [← hes]
    exact ⟨hall, Nat.le_refl _, h.nd, h.lt⟩
  · rw [List.append_assoc, List.singleton_append, ← hes]
    exact ⟨hall, Nat.le_refl _, h.nd, h.lt⟩
  · refine ⟨?_, by omega, ?_, ?_⟩
    · rw [hes]
      simp only [List.map_append, List.map_cons, List.map_nil, List.filter_append, hU, List.filter_cons, hlt, decide_true, if_true, hV, List.filter_nil]
      simp
    · have hnd := h.nd
      have hlt' := h.lt
      rw [hes] at hnd hlt'
      simp only [List.map_append, List.map_cons, List.map_nil, List.append_assoc, List.singleton_append] at hnd ⊢
      rw [List.nodup_append] at hnd ⊢
      have hn : ∀ x ∈ U ++ (c.leaf, e) :: V, t.next ≠ x.1 := fun x hx => by have := hlt' x hx; omega
      obtain ⟨k1, k2, k3⟩ := hnd
      rw [List.nodup_cons] at k2
      refine ⟨k1, ?_, ?_⟩
      · rw [List.nodup_cons, List.nodup_cons, List.mem_cons, not_or]
        refine ⟨⟨by omega, k2.1⟩, ?_, k2.2⟩
        intro hm
        obtain ⟨x, hx, hxe⟩ := List.mem_map.mp hm
        exact hn x (by simp [hx]) hxe.symm
      · intro k hk j hj
        rw [List.mem_cons, List.mem_cons] at hj
        rcases hj with rfl | rfl | hj
        · exact k3 k hk _ (by simp)
        · obtain ⟨x, hx, hxe⟩ := List.mem_map.mp hk
          intro hkk
          exact hn x (by simp [hx]) (by rw [hxe, hkk])
        · exact k3 k hk j (by simp [hj])
    · intro x hx
      show x.1 < t.next + 1
      simp only [List.mem_append, List.mem_cons, List.not_mem_nil, or_false] at hx
      rcases hx with (hx | rfl) | rfl | hx
      · have := h.lt x (by rw [hes]; simp [hx]); omega
      · simp only; omega
      · simp only; omega
      · have := h.lt x (by rw [hes]; simp [hx]); omega

theorem before_mem {l k : Nat} (hb : Before t k l) (h : SeqOK t) {U V : List (Nat × E)} {e : E} (hes : t.es = U ++ (l, e) :: V) : k ∈ U.map Prod.fst := by
  obtain ⟨U', e', V', h1, h2⟩ := hb
  have h3 := locate_split h.nd h1
  rw [locate_split h.nd hes] at h3
  cases h3
  exact h2

theorem after_mem {l k : Nat} (hb : Before t l k) (h : SeqOK t) {U V : List (Nat × E)} {e : E} (hes : t.es = U ++ (l, e) :: V) : k ∈ V.map Prod.fst := by
  obtain ⟨U', e', V', h1, h2⟩ := hb
  obtain ⟨⟨y1, y2⟩, hy, rfl⟩ := List.mem_map.mp h2
  obtain ⟨P, Q, rfl⟩ := List.append_of_mem hy
  rw [List.append_assoc, List.cons_append] at h1
  have h3 := locate_split h.nd h1
  rw [locate_split h.nd hes] at h3
  cases h3
  simp

theorem unitLen_pos {W : List (Nat × E)} (h : ∀ x ∈ W, 0 < B.rleLen x.2) (h0 : unitLen B W = 0) : W = [] := by
  cases W with
  | nil => rfl
  | cons x W =>
    have := h x (by simp)
    rw [unitLen, List.map_cons, List.sum_cons] at h0
    omega

/-- two cuts, and a new middle with numbers of the old one -/
theorem cuts_edit (h : SeqOK t) (hpos : ∀ x ∈ t.es, 0 < B.rleLen x.2) {a b : Cursor} {Ua Va Ub Vb : List (Nat × E)} {ea eb : E}
    (ha : t.es = Ua ++ (a.leaf, ea) :: Va) (hb : t.es = Ub ++ (b.leaf, eb) :: Vb)
    (hle : unitLen B Ua + a.offset ≤ unitLen B Ub + b.offset) {L R X Y Y' : List (Nat × E)} {n n' : Nat}
    (h1 : specCut B t b = .ok (L, R, n)) (h2 : specCut B ⟨n, L ++ R⟩ a = .ok (X, Y ++ R, n')) (hY : (Y'.map Prod.fst).Sublist (Y.map Prod.fst)) :
    Edit (fun l => ¬ Before t l a.leaf ∧ ¬ Before t b.leaf l) t ⟨n', X ++ Y' ++ R⟩ := by
  obtain ⟨i1, i2, i3⟩ := cut_ids h h1
  obtain ⟨j1, j2, j3⟩ := cut_ids i3 h2
  have j2 : n ≤ n' := j2
  refine ⟨?_, ?_, by show t.next ≤ n'; omega⟩
  · intro l e hl he
    obtain ⟨Ub', eb', Vb', hb', hob, hcase⟩ := cut_shape h1
    have hx := locate_split h.nd hb
    rw [locate_split h.nd hb'] at hx
    cases hx
    -- the remaining entries after `b` are in `R`
    have hR : ∀ x ∈ Vb, x ∈ R := by
      intro x hx
      rcases hcase with ⟨-, rfl, -⟩ | ⟨-, rfl, -⟩ | ⟨_, _, -, rfl, -⟩ <;> simp [hx]
    have hnn : ¬ (¬ Before t l a.leaf ∧ ¬ Before t b.leaf l) := hl
    show (l, e) ∈ X ++ Y' ++ R
    by_cases hba : Before t b.leaf l
    · have h3 := after_mem hba h hb
      obtain ⟨⟨y1, y2⟩, hy, rfl⟩ := List.mem_map.mp h3
      have : y2 = e := by
        have hm : (y1, y2) ∈ t.es := by rw [hb]; simp [hy]
        obtain ⟨P, Q, hPQ⟩ := List.append_of_mem hm
        obtain ⟨P', Q', hPQ'⟩ := List.append_of_mem he
        have h4 := locate_split h.nd hPQ
        rw [locate_split h.nd hPQ'] at h4
        cases h4
        rfl
      subst this
      simp [hR _ hy]
    · have hbf : Before t l a.leaf := by
        apply Classical.byContradiction
        intro hc
        exact hnn ⟨hc, hba⟩
      have h3 := before_mem hbf h ha
      have hUa : (l, e) ∈ Ua := by
        obtain ⟨⟨y1, y2⟩, hy, rfl⟩ := List.mem_map.mp h3
        have : y2 = e := by
          have hm : (y1, y2) ∈ t.es := by rw [ha]; simp [hy]
          obtain ⟨P, Q, hPQ⟩ := List.append_of_mem hm
          obtain ⟨P', Q', hPQ'⟩ := List.append_of_mem he
          have h4 := locate_split h.nd hPQ
          rw [locate_split h.nd hPQ'] at h4
          cases h4
          rfl
        subst this
        exact hy
      -- the entries before `a` after the first cut
      obtain ⟨Ua', ea', Va', ha', -, hcase'⟩ := cut_shape h2
      have ha' : L ++ R = Ua' ++ (a.leaf, ea') :: Va' := ha'
      have hX : ∀ x ∈ Ua', x ∈ X := by
        intro x hx
        rcases hcase' with ⟨rfl, -⟩ | ⟨rfl, -⟩ | ⟨_, _, rfl, -⟩ <;> simp [hx]
      suffices hs : (l, e) ∈ Ua' by simp [hX _ hs]
      -- compare the two ways to split
      have heq := ha.symm.trans hb
      have hnd' : ((L ++ R).map Prod.fst).Nodup := i3.nd
      rcases List.append_eq_append_iff.mp heq with ⟨W, hW1, hW2⟩ | ⟨W, hW1, hW2⟩
      · -- `a` not after `b`: the prefix is the same
        have hpre : ∃ e'' Z, L ++ R = Ua ++ (a.leaf, e'') :: Z := by
          cases W with
          | nil =>
            simp only [List.nil_append, List.cons.injEq, Prod.mk.injEq] at hW2
            obtain ⟨⟨hl1, rfl⟩, rfl⟩ := hW2
            rw [List.append_nil] at hW1
            subst hW1
            rw [hl1]
            rcases hcase with ⟨rfl, rfl, -⟩ | ⟨rfl, rfl, -⟩ | ⟨_, _, rfl, rfl, -⟩
            · exact ⟨_, _, rfl⟩
            · exact ⟨_, _, by rw [List.append_assoc]; rfl⟩
            · exact ⟨_, _, by rw [List.append_assoc]; rfl⟩
          | cons w W =>
            simp only [List.cons_append, List.cons.injEq] at hW2
            obtain ⟨rfl, -⟩ := hW2
            have hpL : ∃ Z, L = Ub ++ Z := by
              rcases hcase with ⟨rfl, -⟩ | ⟨rfl, -⟩ | ⟨_, _, rfl, -⟩
              · exact ⟨[], by simp⟩
              · exact ⟨_, rfl⟩
              · exact ⟨_, rfl⟩
            obtain ⟨Z, rfl⟩ := hpL
            exact ⟨ea, W ++ Z ++ R, by rw [hW1]; simp⟩
        obtain ⟨e'', Z, hZ⟩ := hpre
        have h5 := locate_split hnd' hZ
        rw [locate_split hnd' ha'] at h5
        cases h5
        exact hUa
      · -- `a` after `b`: nothing lies between
        cases W with
        | nil =>
          simp only [List.nil_append, List.cons.injEq, Prod.mk.injEq] at hW2
          obtain ⟨⟨hl1, rfl⟩, rfl⟩ := hW2
          rw [List.append_nil] at hW1
          subst hW1
          have hpre : ∃ e'' Z, L ++ R = Ua ++ (a.leaf, e'') :: Z := by
            rw [← hl1]
            rcases hcase with ⟨rfl, rfl, -⟩ | ⟨rfl, rfl, -⟩ | ⟨_, _, rfl, rfl, -⟩
            · exact ⟨_, _, rfl⟩
            · exact ⟨_, _, by rw [List.append_assoc]; rfl⟩
            · exact ⟨_, _, by rw [List.append_assoc]; rfl⟩
          obtain ⟨e'', Z, hZ⟩ := hpre
          have h5 := locate_split hnd' hZ
          rw [locate_split hnd' ha'] at h5
          cases h5
          exact hUa
        | cons w W =>
          simp only [List.cons_append, List.cons.injEq] at hW2
          obtain ⟨rfl, hW2⟩ := hW2
          have hlen : unitLen B Ua = unitLen B Ub + B.rleLen eb + unitLen B W := by
            rw [hW1]; simp [unitLen]; omega
          have hebp : 0 < B.rleLen eb := hpos (b.leaf, eb) (by rw [hb]; simp)
          have hoff : b.offset = B.rleLen eb := by omega
          have hLR : L ++ R = t.es := by
            rcases hcase with ⟨rfl, rfl, -⟩ | ⟨rfl, rfl, -⟩ | ⟨_, _, rfl, rfl, -, h6, h7⟩
            · rw [hb]
            · rw [hb]; simp
            · omega
          rw [hLR, ha] at ha'
          have hnd2 : ((Ua ++ (a.leaf, ea) :: Va).map Prod.fst).Nodup := by rw [← ha]; exact h.nd
          have h5 := locate_split hnd2 ha'
          rw [locate_split hnd2 rfl] at h5
          cases h5
          exact hUa
  · have hsub : ((X ++ Y' ++ R).map Prod.fst).Sublist ((X ++ (Y ++ R)).map Prod.fst) := by
      simp only [List.map_append, List.append_assoc]
      exact (List.Sublist.refl _).append (hY.append (List.Sublist.refl _))
    have k1 : (((X ++ (Y ++ R)).map Prod.fst).filter fun k => decide (k < n)) = (L ++ R).map Prod.fst := j1
    have k2 : ((((X ++ (Y ++ R)).map Prod.fst).filter fun k => decide (k < n)).filter fun k => decide (k < t.next)) = t.es.map Prod.fst := by rw [k1, i1]
    rw [List.filter_filter] at k2
    have k3 : (((X ++ (Y ++ R)).map Prod.fst).filter fun k => decide (k < t.next)) = t.es.map Prod.fst := by
      rw [← k2]
      apply List.filter_congr
      intro x _
      by_cases hx : x < t.next
      · have : x < n := by omega
        simp [hx, this]
      · simp [hx]
    rw [← k3]
    exact hsub.filter _

theorem runOn_fst {f : σ → E → M (σ × E × Option D)} : ∀ (es : List (Nat × E)) (st st' : σ) (es' : List (Nat × E)), runOn f st es = .ok (st', es') →
    es'.map Prod.fst = es.map Prod.fst := by
  intro es
  induction es with
  | nil => intro st st' es' h; cases h; rfl
  | cons x es ih =>
    intro st st' es' h
    obtain ⟨l, e⟩ := x
    simp only [runOn] at h
    obtain ⟨⟨st1, e1, d⟩, h1, h2⟩ := bind_inv h
    obtain ⟨⟨st2, es2⟩, h3, h4⟩ := bind_inv h2
    cases h4
    simp [ih _ _ _ h3]

/-- only leaves of `t` count -/
theorem Edit.weaken {S' : Nat → Prop} (h : SeqOK t) (hs : ∀ l, l < t.next → S l → S' l) (e : Edit S t t') : Edit S' t t' where
  keep := fun l x hl hx => e.keep l x (fun hS => hl (hs l (h.lt _ hx) hS)) hx
  order := e.order
  next := e.next

theorem search_edit (h : SeqOK t) {cur : Cursor} {e : E} {U V es' : List (Nat × E)} (hes : t.es = U ++ (cur.leaf, e) :: V) {res : List E} {c : Option Cursor} {ids : List Nat} {n : Nat}
    (r : SearchRel t.next cur U V res c ids n es') : Edit (fun k => k = cur.leaf) t ⟨n, es'⟩ := by
  have hlt : cur.leaf < t.next := h.lt (cur.leaf, e) (by rw [hes]; simp)
  have key : ∀ Y' n, t.next ≤ n → ((Y'.map Prod.fst).filter fun k => decide (k < t.next)).Sublist [cur.leaf] → Edit (fun k => k = cur.leaf) t ⟨n, U ++ Y' ++ V⟩ := by
    intro Y' n hn hY
    refine Edit.middle h (Y := [(cur.leaf, e)]) (by rw [hes]; simp) hn ?_ hY
    intro k y hk hy
    simp at hy
    exact absurd hy.1 hk
  cases r with
  | gone => simpa using key [] t.next (Nat.le_refl _) (by simp)
  | one x => simpa using key [(cur.leaf, x)] t.next (Nat.le_refl _) (by simp [hlt])
  | two x a => simpa using key [(cur.leaf, x), (t.next, a)] (t.next + 1) (by omega) (by simp [hlt])

/-- edits compose -/
theorem Edit.trans {S' : Nat → Prop} {t'' : Seq E} (h1 : Edit S t t') (h2 : Edit S' t' t'') : Edit (fun l => S l ∨ S' l) t t'' where
  keep := fun l e hl he => h2.keep l e (fun h => hl (.inr h)) (h1.keep l e (fun h => hl (.inl h)) he)
  order := by
    have h3 := h2.order.filter (fun l => decide (l < t.next))
    rw [List.filter_filter] at h3
    have h4 : ((t''.es.map Prod.fst).filter fun l => decide (l < t.next)) = ((t''.es.map Prod.fst).filter fun l => decide (l < t.next) && decide (l < t'.next)) := by
      apply List.filter_congr
      intro x _
      have := h1.next
      by_cases hx : x < t.next
      · have : x < t'.next := by omega
        simp [hx, this]
      · simp [hx]
    rw [h4]
    exact h3.trans h1.order
  next := Nat.le_trans h1.next h2.next

end GB
