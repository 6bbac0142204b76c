import Verif.Proof.EditMany
import Verif.Proof.Moves

/-!
# `insert_many_by_cursor` changes only the neighbourhood of the cursor
-/

namespace GB
variable {E C D X : Type} {B : Trait E C D} {A : Law B} {cont : E → List X}
open Tree

/-- The sequence is `U ++ … ++ V` with leaf `l` in the middle. -/
def Inside (U V : List (Nat × E)) (l : Nat) (es : List (Nat × E)) : Prop := ∃ P e Q, es = U ++ P ++ (l, e) :: (Q ++ V)

theorem insertAll_local (L : ContentLaw B A.okE cont) {m : Fill} (hm : 1 ≤ m.lo ∧ m.lo + m.d ≤ 5) {U V : List (Nat × E)} :
    ∀ (data : List E) {s : Tree E C} {c : Cursor} {n : Nat}, (∀ d ∈ data, A.okE d) → Inv A m s → At B (abs s) c n → Inside U V c.leaf (abs s).es →
      ∃ s', insertAll B s c data = .ok s' ∧ ∃ M, (abs s').es = U ++ M ++ V := by
  intro data
  induction data with
  | nil =>
    intro s c n _ _ _ hw
    obtain ⟨P, e, Q, hw⟩ := hw
    exact ⟨s, rfl, P ++ (c.leaf, e) :: Q, by rw [hw]; simp⟩
  | cons d data ih =>
    intro s c n hok hi hat hw
    obtain ⟨P, x, Q, hw⟩ := hw
    obtain ⟨U1, e, V1, hes, ho, hn⟩ := id hat
    obtain ⟨c', sp, s', h1, h2, h3⟩ := C03_insert_by_path (B := B) ⟨hm.1, by omega⟩ hi (by rw [hes]; simp) ho (.inl hm.2) (hok d (by simp))
    obtain ⟨k1, -⟩ := inserted_step L hi.nodup hi.okE h2.okE (hok d (by simp)) hat h3
    have hl := locate_split hi.nodup hes
    have hl2 := locate_split hi.nodup hw
    rw [hl] at hl2
    injection hl2 with hl2
    obtain rfl : U1 = U ++ P := congrArg Prod.fst hl2
    obtain rfl : V1 = Q ++ V := congrArg (fun z => z.2.2) hl2
    have hc := specInsert_cases A hl (hi.okE (c.leaf, e) (by rw [show entries s = _ from hes]; simp)) (hok d (by simp)) h3
    have hw' : Inside U V c'.leaf (abs s').es := by
      cases hc with
      | absorb e' _ q r =>
        have q : c' = c := q
        rw [r, q]
        exact ⟨P, e', Q, rfl⟩
      | before _ q r =>
        have q : c' = _ := q
        rw [r, q]
        exact ⟨P, d, (c.leaf, e) :: Q, by simp⟩
      | after _ _ q r =>
        have q : c' = _ := q
        rw [r, q]
        exact ⟨P ++ [(c.leaf, e)], d, Q, by simp⟩
      | inside a b _ _ _ _ _ q r =>
        have q : c' = _ := q
        rw [r, q]
        exact ⟨P ++ [(c.leaf, a)], d, ((abs s).next, b) :: Q, by simp⟩
    obtain ⟨s'', j1, j2⟩ := ih (fun x hx => hok x (by simp [hx])) h2 k1 hw'
    refine ⟨s'', ?_, j2⟩
    simp only [insertAll, h1, bind_ok]
    exact j1

/-- The leaf of the cursor and its neighbours are in the middle, `P ++ (c.leaf, e) :: Q`. -/
theorem manyTail_local (L : ContentLaw B A.okE cont) {m : Fill} (hm : 1 ≤ m.lo ∧ m.lo + m.d ≤ 5)
    {s : Tree E C} {c : Cursor} {U P Q V : List (Nat × E)} {e : E} {data : List E} (hok : ∀ d ∈ data, A.okE d) (hi : Inv A m s)
    (hes : (abs s).es = U ++ P ++ (c.leaf, e) :: (Q ++ V)) (hP : P = [] → U = []) (hQ : Q = [] → V = []) (ho : c.offset ≤ B.rleLen e) :
    ∃ s', manyTail B s c data = .ok s' ∧ ∃ M, (abs s').es = U ++ M ++ V := by
  obtain ⟨h, ⟨lvl, g⟩, sz⟩ := id hi
  have hes' : entries s = U ++ P ++ (c.leaf, e) :: (Q ++ V) := hes
  obtain ⟨-, -, -, -, -, hel⟩ := entries_split g.wf hes'
  obtain ⟨info, s1, lvl1, h1, hsp, g1, sz1, -, -, r⟩ := splitLeafIfNeeded_spec hm.1 (by omega : m.lo + m.d ≤ 6) g sz hel ho (.inl hm.2)
  obtain ⟨i, hI, hcase⟩ := cut_entries g g1 hes' r
  have hi1 : Inv A m s1 := ⟨h1, ⟨lvl1, g1⟩, sz1⟩
  -- after the cut
  have key : ∃ e1 Q1 n, entries s1 = U ++ P ++ (c.leaf, e1) :: (Q1 ++ V) ∧ At B (abs s1) (info.newPos.getD c) n ∧
      ((info.newPos.getD c).leaf = c.leaf ∨ (info.newPos.getD c).leaf ∈ Q1.map Prod.fst) := by
    rcases hcase with ⟨a1, a2, a3⟩ | ⟨a1, a2, a3, a4⟩ | ⟨a, b, a1, a2, a3, a4, a5, a6⟩
    · subst a2
      rw [a3]
      exact ⟨e, Q, _, hes', ⟨U ++ P, e, Q ++ V, hes, ho, rfl⟩, .inl rfl⟩
    · subst a3
      rw [a4]
      cases Q with
      | nil =>
        obtain rfl := hQ rfl
        exact ⟨e, [], _, hes', ⟨U ++ P, e, [], hes, ho, rfl⟩, .inl rfl⟩
      | cons x Q =>
        exact ⟨e, x :: Q, _, hes', ⟨U ++ P ++ [(c.leaf, e)], x.2, Q ++ V, by rw [hes]; simp, by simp, rfl⟩, .inr (by simp)⟩
    · rw [a4]
      exact ⟨a, (s.lf.items.length, b) :: Q, _, by rw [a6]; simp,
        ⟨U ++ P ++ [(c.leaf, a)], b, Q ++ V, by rw [show (abs s1).es = _ from a6]; simp, by simp, rfl⟩, .inr (by simp)⟩
  obtain ⟨e1, Q1, n, k1, k2, k3⟩ := key
  have inside : ∀ (P' : List (Nat × E)), Inside U V (info.newPos.getD c).leaf (U ++ P' ++ (c.leaf, e1) :: (Q1 ++ V)) := by
    intro P'
    rcases k3 with h | h
    · exact ⟨P', e1, Q1, by rw [h]⟩
    · obtain ⟨x, hx, hx1⟩ := List.mem_map.mp h
      obtain ⟨a, b, rfl⟩ := List.append_of_mem hx
      exact ⟨P' ++ (c.leaf, e1) :: a, x.2, b, by rw [← hx1]; simp⟩
  unfold manyTail
  simp only [hsp, bind_ok]
  cases hnb : info.leftNeighbour with
  | none =>
    obtain ⟨s', j1, j2⟩ := insertAll_local L hm (U := U) (V := V) data.reverse (fun d hd => hok d (by simpa using hd)) hi1 k2
      (by rw [show (abs s1).es = _ from k1]; exact inside P)
    exact ⟨s', by simpa only [pure_ok, bind_ok] using j1, j2⟩
  | some k =>
    obtain ⟨U', x, hU'⟩ := leftNb_entries g1.wf hI hnb k1
    have hmem : (k, x) ∈ entries s1 := by rw [k1, hU']; simp
    have hxk := (mem_entries_elm hmem).2
    obtain ⟨⟨y, q⟩, hL, rfl⟩ : ∃ L, s1.lf.get k = some L ∧ L.elem = x := by
      unfold elm at hxk
      cases hL : s1.lf.get k with
      | none => rw [hL] at hxk; cases hxk
      | some L => rw [hL] at hxk; exact ⟨L, rfl, by simpa using hxk⟩
    -- the left neighbour is in the middle
    obtain ⟨P', rfl⟩ : ∃ P', P = P' ++ [(k, y)] := by
      rcases List.eq_nil_or_concat P with hp | ⟨P', z, hp⟩
      · rw [hp, hP hp] at hU'
        simp at hU'
      · rw [List.concat_eq_append] at hp
        subst hp
        rw [← List.append_assoc] at hU'
        have := List.append_inj_right' hU' (by simp)
        exact ⟨P', by rw [this]⟩
    have hUP : U ++ P' = U' := by
      rw [← List.append_assoc] at hU'
      exact List.append_inj_left' hU' (by simp)
    subst hUP
    obtain ⟨y', rest, took, m1, m2, m3, m4, m5⟩ := mergeIntoLeft_spec L data y (g1.okE _ _ hxk) hok
    obtain ⟨s2, n1, g2, sh, n4, n5⟩ := g1.upd hL m2 none (by intro d _ h; cases h)
    have hi2 : Inv A m s2 := ⟨h1, ⟨lvl1, g2⟩, SzX.congr sh sz1⟩
    have hent2 : entries s2 = U ++ P' ++ (k, y') :: (c.leaf, e1) :: (Q1 ++ V) :=
      entries_upd (e := y) g1.wf sh.order n4 (by rw [k1]; simp)
    simp only [getLf_ok hL, bind_ok, m1, n1, pure_ok]
    have hw2 : Inside U V (info.newPos.getD c).leaf (abs s2).es := by
      have := inside (P' ++ [(k, y')])
      rw [show (abs s2).es = _ from hent2]
      simpa using this
    have hne : (info.newPos.getD c).leaf ≠ k := by
      have nd := hi1.nodup
      rw [k1] at nd
      intro hk
      rw [hk] at k3
      rcases k3 with h | h
      · rw [h] at nd
        simp [List.nodup_append] at nd
      · obtain ⟨z, hz, hz1⟩ := List.mem_map.mp h
        simp only [List.map_append, List.map_cons, List.map_nil, List.nodup_append, List.nodup_cons] at nd
        exact nd.2.2 k (by simp) k (by rw [← hz1]; exact List.mem_cons_of_mem _ (List.mem_append_left _ (List.mem_map_of_mem hz))) rfl
    have hat2 : ∃ n, At B (abs s2) (info.newPos.getD c) n := by
      obtain ⟨R, z, S, hz, hoz, -⟩ := k2
      have hzm : ((info.newPos.getD c).leaf, z) ∈ entries s1 := by rw [show entries s1 = (abs s1).es from rfl, hz]; simp
      have hz2 : ((info.newPos.getD c).leaf, z) ∈ (abs s2).es := by
        rw [show (abs s2).es = _ from hent2]
        rw [k1] at hzm
        simp only [List.mem_append, List.mem_cons, List.not_mem_nil, or_false] at hzm ⊢
        rcases hzm with (h | h | h) | h
        · exact .inl (.inl h)
        · exact .inl (.inr h)
        · exact absurd (congrArg Prod.fst h) hne
        · exact .inr (.inr h)
      obtain ⟨R', S', hRS⟩ := List.append_of_mem hz2
      exact ⟨_, R', z, S', hRS, hoz, rfl⟩
    obtain ⟨n2, hat2⟩ := hat2
    exact insertAll_local L hm (U := U) (V := V) rest.reverse (fun d hd => hok d (by rw [m3]; simp only [List.mem_reverse] at hd; simp [hd])) hi2 hat2 hw2

theorem insertMany_local (L : ContentLaw B A.okE cont) {m : Fill} (hm : 1 ≤ m.lo ∧ m.lo + m.d ≤ 5)
    {s : Tree E C} {c : Cursor} {U P Q V : List (Nat × E)} {e : E} {data data' : List E} (hok : ∀ d ∈ data, A.okE d)
    (hadj : mergeAdj B data = .ok data') (hok' : ∀ d ∈ data', A.okE d) (hi : Inv A m s)
    (hes : (abs s).es = U ++ P ++ (c.leaf, e) :: (Q ++ V)) (hP : P = [] → U = []) (hQ : Q = [] → V = []) (ho : c.offset ≤ B.rleLen e) :
    ∃ s', insertMany B s (some c) data = .ok s' ∧ ∃ M, (abs s').es = U ++ M ++ V := by
  have single : ∀ d, A.okE d → ∃ r s', insertByPath B s c d = .ok (r, s') ∧ ∃ M, (abs s').es = U ++ M ++ V := by
    intro d hd
    obtain ⟨c', sp, s', h1, h2, h3⟩ := C03_insert_by_path (B := B) ⟨hm.1, by omega⟩ hi (by rw [hes]; simp) ho (.inl hm.2) hd
    obtain ⟨M, hM, -⟩ := specInsert_local (locate_split hi.nodup hes) h3
    exact ⟨_, s', h1, P ++ M ++ Q, by rw [hM]; simp⟩
  match data with
  | [] => exact ⟨s, rfl, P ++ (c.leaf, e) :: Q, by rw [hes]; simp⟩
  | [d] =>
    obtain ⟨r, s', h1, h2⟩ := single d (hok d (by simp))
    refine ⟨s', ?_, h2⟩
    simp only [insertMany, h1, bind_ok]
    rfl
  | d1 :: d2 :: ds =>
    by_cases hl1 : ∃ d, data' = [d]
    · obtain ⟨d, rfl⟩ := hl1
      obtain ⟨r, s', h1, h2⟩ := single d (hok' d (by simp))
      refine ⟨s', ?_, h2⟩
      simp only [insertMany, hadj, bind_ok, h1]
      rfl
    · have heq : insertMany B s (some c) (d1 :: d2 :: ds) = manyTail B s c data' := by
        obtain ⟨h, ⟨lvl, g⟩, sz⟩ := id hi
        have hemp : ∃ b, isEmpty s = .ok b := by
          unfold isEmpty
          obtain ⟨N, hN, -⟩ := g.wf.root
          rw [getIn_ok hN]
          exact ⟨_, rfl⟩
        obtain ⟨b, hb⟩ := hemp
        simp only [insertMany, hadj, bind_ok]
        match data', hl1 with
        | [], _ => simp only [hb, bind_ok]; rfl
        | [d], h => exact absurd ⟨d, rfl⟩ h
        | _ :: _ :: _, _ => simp only [hb, bind_ok]; rfl
      rw [heq]
      exact manyTail_local L hm hok' hi hes hP hQ ho

end GB
