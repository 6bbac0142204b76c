import Verif.Proof.Edit
import Verif.Proof.InsertMany

/-!
# `insert_many_by_cursor` as an edit

Unlike `insertMany_spec` this does not ask that the elements end up in the right order.
-/

namespace GB
variable {E C D X : Type} {B : Trait E C D} {A : Law B} {cont : E → List X}
open Tree

theorem insertAll_edit (L : ContentLaw B A.okE cont) {m : Fill} (hm : 1 ≤ m.lo ∧ m.lo + m.d ≤ 5) :
    ∀ (data : List E) {s : Tree E C} {c : Cursor} {n : Nat}, (∀ d ∈ data, A.okE d) → Inv A m s → At B (abs s) c n →
      ∃ s', insertAll B s c data = .ok s' ∧ Inv A m s' ∧ Edit (fun l => l = c.leaf) (abs s) (abs s') := by
  intro data
  induction data with
  | nil =>
    intro s c n _ hi _
    exact ⟨s, rfl, hi, Edit.refl ⟨hi.nodup, fun _ hx => entries_lt hx⟩⟩
  | cons d data ih =>
    intro s c n hok hi hat
    have sok : SeqOK (abs s) := ⟨hi.nodup, fun _ hx => entries_lt hx⟩
    obtain ⟨U, e, V, hes, ho, hn⟩ := id hat
    obtain ⟨c', sp, s', h1, h2, h3⟩ := C03_insert_by_path (B := B) ⟨hm.1, by omega⟩ hi (by rw [hes]; simp) ho (.inl hm.2) (hok d (by simp))
    obtain ⟨k1, -⟩ := inserted_step L hi.nodup hi.okE h2.okE (hok d (by simp)) hat h3
    obtain ⟨s'', j1, j2, j3⟩ := ih (fun x hx => hok x (by simp [hx])) h2 k1
    refine ⟨s'', ?_, j2, ?_⟩
    · simp only [insertAll, h1, bind_ok]
      exact j1
    · refine ((insert_edit sok h3).trans j3).weaken sok ?_
      intro l hl hS
      rcases hS with hS | hS
      · exact hS
      · have hc := specInsert_cases A (locate_split hi.nodup hes) (hi.okE (c.leaf, e) (by rw [show entries s = _ from hes]; simp)) (hok d (by simp)) h3
        have hS : l = c'.leaf := hS
        cases hc with
        | absorb _ _ q _ => have q : c' = c := q; rw [hS, q]
        | before _ q _ => have q : c' = _ := q; rw [hS, q] at hl; exact absurd hl (Nat.lt_irrefl _)
        | after _ _ q _ => have q : c' = _ := q; rw [hS, q] at hl; exact absurd hl (Nat.lt_irrefl _)
        | inside _ _ _ _ _ _ _ q _ =>
          have q : c' = _ := q
          rw [hS, q] at hl
          have hl : (abs s).next + 1 < (abs s).next := hl
          omega

theorem manyTail_edit (L : ContentLaw B A.okE cont) {m : Fill} (hm : 1 ≤ m.lo ∧ m.lo + m.d ≤ 5)
    {s : Tree E C} {c : Cursor} {U V : List (Nat × E)} {e : E} {data : List E} (hok : ∀ d ∈ data, A.okE d) (hi : Inv A m s)
    (hes : (abs s).es = U ++ (c.leaf, e) :: V) (ho : c.offset ≤ B.rleLen e) :
    ∃ s', manyTail B s c data = .ok s' ∧ Inv A m s' ∧
      Edit (fun l => l = c.leaf ∨ (∃ U x z V, (abs s).es = U ++ (l, x) :: (c.leaf, z) :: V) ∨ ∃ U x z V, (abs s).es = U ++ (c.leaf, x) :: (l, z) :: V) (abs s) (abs s') := by
  obtain ⟨h, ⟨lvl, g⟩, sz⟩ := id hi
  have sok : SeqOK (abs s) := ⟨hi.nodup, fun _ hx => entries_lt hx⟩
  have hes' : entries s = U ++ (c.leaf, e) :: V := hes
  obtain ⟨-, -, -, -, -, hel⟩ := entries_split g.wf hes'
  obtain ⟨info, s1, lvl1, h1, hsp, g1, sz1, -, -, r⟩ := splitLeafIfNeeded_spec hm.1 (by omega : m.lo + m.d ≤ 6) g sz hel ho (.inl hm.2)
  obtain ⟨i, hI, hcase⟩ := cut_entries g g1 hes' r
  have hi1 : Inv A m s1 := ⟨h1, ⟨lvl1, g1⟩, sz1⟩
  have sok1 : SeqOK (abs s1) := ⟨hi1.nodup, fun _ hx => entries_lt hx⟩
  have he : A.okE e := hi.okE (c.leaf, e) (by rw [hes']; simp)
  -- after the cut
  have key : ∃ e1 V1 n, entries s1 = U ++ (c.leaf, e1) :: V1 ∧ At B (abs s1) (info.newPos.getD c) n ∧ Edit (fun l => l = c.leaf) (abs s) (abs s1) ∧
      (∀ l, l < (abs s).next → l = (info.newPos.getD c).leaf → l = c.leaf ∨ ∃ U x z V, (abs s).es = U ++ (c.leaf, x) :: (l, z) :: V) := by
    rcases hcase with ⟨a1, a2, a3⟩ | ⟨a1, a2, a3, a4⟩ | ⟨a, b, a1, a2, a3, a4, a5, a6⟩
    · subst a2
      rw [a3]
      exact ⟨e, V, _, hes', ⟨U, e, V, hes, ho, rfl⟩, Edit.refl sok, fun l _ hl => .inl hl⟩
    · subst a3
      rw [a4]
      cases V with
      | nil => exact ⟨e, [], _, hes', ⟨U, e, [], hes, ho, rfl⟩, Edit.refl sok, fun l _ hl => .inl hl⟩
      | cons x V =>
        refine ⟨e, x :: V, _, hes', ⟨U ++ [(c.leaf, e)], x.2, V, by rw [hes]; simp, by simp, rfl⟩, Edit.refl sok, ?_⟩
        intro l _ hl
        have hl : l = x.1 := hl
        exact .inr ⟨U, e, x.2, V, by rw [hes, hl]⟩
    · rw [a4]
      have hlt : c.leaf < (abs s).next := sok.lt (c.leaf, e) (by rw [hes]; simp)
      refine ⟨a, _, _, a6, ⟨U ++ [(c.leaf, a)], b, V, by rw [show (abs s1).es = _ from a6]; simp, by simp, rfl⟩, ?_, ?_⟩
      · have hed := Edit.middle (S := fun l => l = c.leaf) sok (U := U) (Y := [(c.leaf, e)]) (Y' := [(c.leaf, a), ((abs s).next, b)]) (V := V) (n := (abs s).next + 1)
          (by rw [hes]; simp) (by omega) (by
            intro k y hk hy
            simp at hy
            exact absurd hy.1 hk) (by simp [hlt])
        have heq : abs s1 = ⟨(abs s).next + 1, U ++ [(c.leaf, a), ((abs s).next, b)] ++ V⟩ := by
          show (⟨s1.lf.items.length, entries s1⟩ : Seq E) = _
          rw [a5, a6]
          simp [abs]
        rw [heq]
        exact hed
      · intro l hl hq
        have hq : l = s.lf.items.length := hq
        have hl : l < s.lf.items.length := hl
        omega
  obtain ⟨e1, V1, n, k1, k2, k3, k4⟩ := key
  unfold manyTail
  simp only [hsp, bind_ok]
  cases hnb : info.leftNeighbour with
  | none =>
    obtain ⟨s', j1, j2, j3⟩ := insertAll_edit L hm data.reverse (fun d hd => hok d (by simpa using hd)) hi1 k2
    refine ⟨s', by simpa only [pure_ok, bind_ok] using j1, j2, (k3.trans j3).weaken sok ?_⟩
    intro l hl hS
    rcases hS with hS | hS
    · exact .inl hS
    · rcases k4 l hl hS with h | h
      · exact .inl h
      · exact .inr (.inr h)
  | some k =>
    obtain ⟨U', x, hU'⟩ := leftNb_entries g1.wf hI hnb k1
    have hmem : (k, x) ∈ entries s1 := by rw [k1, hU']; simp
    have hxk := (mem_entries_elm hmem).2
    obtain ⟨⟨y, q⟩, hL, rfl⟩ : ∃ L, s1.lf.get k = some L ∧ L.elem = x := by
      unfold elm at hxk
      cases hL : s1.lf.get k with
      | none => rw [hL] at hxk; cases hxk
      | some L => rw [hL] at hxk; exact ⟨L, rfl, by simpa using hxk⟩
    obtain ⟨y', rest, took, m1, m2, m3, m4, m5⟩ := mergeIntoLeft_spec L data y (g1.okE _ _ hxk) hok
    obtain ⟨s2, n1, g2, sh, n4, n5⟩ := g1.upd hL m2 none (by intro d _ h; cases h)
    have hi2 : Inv A m s2 := ⟨h1, ⟨lvl1, g2⟩, SzX.congr sh sz1⟩
    have hent2 : entries s2 = U' ++ (k, y') :: (c.leaf, e1) :: V1 :=
      entries_upd (e := y) g1.wf sh.order n4 (by rw [k1, hU', List.append_assoc]; rfl)
    simp only [getLf_ok hL, bind_ok, m1, n1, pure_ok]
    have ed2 : Edit (fun l => l = k) (abs s1) (abs s2) := by
      have hed := Edit.middle (S := fun l => l = k) sok1 (U := U') (Y := [(k, y)]) (Y' := [(k, y')]) (V := (c.leaf, e1) :: V1) (n := (abs s1).next)
        (by rw [show (abs s1).es = _ from k1, hU']) (Nat.le_refl _) (by
          intro j z hj hz
          simp at hz
          exact absurd hz.1 hj) List.filter_sublist
      have heq : abs s2 = ⟨(abs s1).next, U' ++ [(k, y')] ++ (c.leaf, e1) :: V1⟩ := by
        show (⟨s2.lf.items.length, entries s2⟩ : Seq E) = _
        rw [n5, hent2]
        simp [abs]
      rw [heq]
      exact hed
    have hat2 : ∃ n, At B (abs s2) (info.newPos.getD c) n := by
      obtain ⟨P, z, Q, hz, hoz, -⟩ := k2
      by_cases hk : (info.newPos.getD c).leaf = k
      · have hz' := locate_split hi1.nodup hz
        have hk' : entries s1 = U' ++ (k, y) :: (c.leaf, e1) :: V1 := by rw [k1, hU']; simp
        rw [← hk] at hk'
        rw [locate_split hi1.nodup hk'] at hz'
        cases hz'
        refine ⟨_, U', y', (c.leaf, e1) :: V1, by rw [show (abs s2).es = _ from hent2, hk], ?_, rfl⟩
        have q1 := L.len y' m2
        have q2 := L.len y (g1.okE _ _ hxk)
        rw [m4, List.length_append] at q1
        omega
      · have hm2 := ed2.keep (info.newPos.getD c).leaf z hk (by rw [hz]; simp)
        obtain ⟨P', Q', hPQ⟩ := List.append_of_mem hm2
        exact ⟨_, P', z, Q', hPQ, hoz, rfl⟩
    obtain ⟨n2, hat2⟩ := hat2
    obtain ⟨s', j1, j2, j3⟩ := insertAll_edit L hm rest.reverse (fun d hd => hok d (by rw [m3]; simp only [List.mem_reverse] at hd; simp [hd])) hi2 hat2
    refine ⟨s', j1, j2, (k3.trans (ed2.trans j3)).weaken sok ?_⟩
    intro l hl hS
    rcases hS with hS | hS | hS
    · exact .inl hS
    · have hS : l = k := hS
      exact .inr (.inl ⟨U', y, e, V, by rw [hes, hU', hS]; simp⟩)
    · rcases k4 l hl hS with h | h
      · exact .inl h
      · exact .inr (.inr h)

theorem insertMany_edit (L : ContentLaw B A.okE cont) {m : Fill} (hm : 1 ≤ m.lo ∧ m.lo + m.d ≤ 5)
    {s : Tree E C} {c : Cursor} {U V : List (Nat × E)} {e : E} {data data' : List E} (hne : data ≠ []) (hok : ∀ d ∈ data, A.okE d)
    (hadj : mergeAdj B data = .ok data') (hok' : ∀ d ∈ data', A.okE d) (hi : Inv A m s)
    (hes : (abs s).es = U ++ (c.leaf, e) :: V) (ho : c.offset ≤ B.rleLen e) :
    ∃ s', insertMany B s (some c) data = .ok s' ∧ Inv A m s' ∧
      Edit (fun l => l = c.leaf ∨ (∃ U x z V, (abs s).es = U ++ (l, x) :: (c.leaf, z) :: V) ∨ ∃ U x z V, (abs s).es = U ++ (c.leaf, x) :: (l, z) :: V) (abs s) (abs s') := by
  have sok : SeqOK (abs s) := ⟨hi.nodup, fun _ hx => entries_lt hx⟩
  have single : ∀ d, A.okE d → ∃ r s', insertByPath B s c d = .ok (r, s') ∧ Inv A m s' ∧
      Edit (fun l => l = c.leaf ∨ (∃ U x z V, (abs s).es = U ++ (l, x) :: (c.leaf, z) :: V) ∨ ∃ U x z V, (abs s).es = U ++ (c.leaf, x) :: (l, z) :: V) (abs s) (abs s') := by
    intro d hd
    obtain ⟨c', sp, s', h1, h2, h3⟩ := C03_insert_by_path (B := B) ⟨hm.1, by omega⟩ hi (by rw [hes]; simp) ho (.inl hm.2) hd
    exact ⟨_, s', h1, h2, (insert_edit sok h3).weaken sok (fun _ _ h => .inl h)⟩
  match data, hne with
  | [d], _ =>
    obtain ⟨r, s', h1, h2, h3⟩ := single d (hok d (by simp))
    refine ⟨s', ?_, h2, h3⟩
    simp only [insertMany, h1, bind_ok]
    rfl
  | d1 :: d2 :: ds, _ =>
    by_cases hl1 : ∃ d, data' = [d]
    · obtain ⟨d, rfl⟩ := hl1
      obtain ⟨r, s', h1, h2, h3⟩ := single d (hok' d (by simp))
      refine ⟨s', ?_, h2, h3⟩
      simp only [insertMany, hadj, bind_ok, h1]
      rfl
    · have heq : insertMany B s (some c) (d1 :: d2 :: ds) = manyTail B s c data' := by
        obtain ⟨h, ⟨lvl, g⟩, sz⟩ := id hi
        have hemp : ∃ b, isEmpty s = .ok b := by
          unfold isEmpty
          obtain ⟨N, hN, -⟩ := g.wf.root
          rw [getIn_ok hN]
          exact ⟨_, rfl⟩
        obtain ⟨b, hb⟩ := hemp
        simp only [insertMany, hadj, bind_ok]
        match data', hl1 with
        | [], _ => simp only [hb, bind_ok]; rfl
        | [d], h => exact absurd ⟨d, rfl⟩ h
        | _ :: _ :: _, _ => simp only [hb, bind_ok]; rfl
      rw [heq]
      exact manyTail_edit L hm hok' hi hes ho

end GB
