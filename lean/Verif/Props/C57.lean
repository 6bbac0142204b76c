import Verif.Model.Harness
import Verif.Proof.OrdHist
import Verif.Props.C06
import Verif.Props.C14
import Verif.Props.C45

/-!
# C57: the crate's tests of ordered maps, for all data

The tests `test`, `test_compare_pos` and `move_event_test::test` of src/generic_impl/ord.rs run on fixed keys.  Here they run on any
keys: exactly which data make them pass.
-/

namespace GB
open Tree

variable {K V : Type} [Ord K] [Std.TransOrd K] [Std.LawfulEqOrd K]

theorem asInsert_perm (k : K) (v : V) : ∀ l : List (K × V), k ∉ l.map Prod.fst → ((asInsert k v l).map Prod.fst).Perm (k :: l.map Prod.fst)
  | [], _ => .refl _
  | (a, b) :: l, h => by
    rw [asInsert]
    split
    · exact .refl _
    · next hc => exact absurd (Std.LawfulEqOrd.eq_of_compare hc) (fun e => h (by simp [e]))
    · rw [List.map_cons, List.map_cons]
      exact ((asInsert_perm k v l (fun hm => h (List.mem_cons_of_mem _ hm))).cons a).trans (List.Perm.swap _ _ _)

theorem asInsert_keys (k : K) (v : V) : ∀ l : List (K × V), k ∈ l.map Prod.fst → KeySorted l → (asInsert k v l).map Prod.fst = l.map Prod.fst
  | [], h, _ => by cases h
  | (a, b) :: l, h, hs => by
    obtain ⟨h1, h2⟩ := List.pairwise_cons.mp hs
    rw [asInsert]
    split
    · next hc =>
      exfalso
      rcases List.mem_cons.mp h with h | h
      · have h : k = a := h
        subst h
        rw [Std.ReflOrd.compare_self] at hc; cases hc
      · obtain ⟨z, hz, rfl⟩ := List.mem_map.mp h
        have := Std.TransCmp.lt_trans hc (h1 z hz)
        rw [Std.ReflOrd.compare_self] at this; cases this
    · rfl
    · next hc =>
      rw [List.map_cons, List.map_cons, asInsert_keys k v l _ h2]
      rcases List.mem_cons.mp h with h | h
      · have h : k = a := h
        subst h
        rw [Std.ReflOrd.compare_self] at hc; cases hc
      · exact h

theorem mapInsertAll_ok (v : V) : ∀ (ks : List K) (m : OrdMap K V), m.Ok →
    ∃ m', mapInsertAll v m ks = .ok m' ∧ m'.Ok ∧ (∀ k, k ∈ m'.assoc.map Prod.fst ↔ k ∈ m.assoc.map Prod.fst ∨ k ∈ ks) ∧ m'.len ≤ m.len + ks.length
  | [], m, ok => ⟨m, rfl, ok, by simp, by simp⟩
  | k :: ks, m, ok => by
    obtain ⟨m1, h1, h2, h3⟩ := OrdMap.insert_spec ok k v
    obtain ⟨m2, h4, h5, h6, h7⟩ := mapInsertAll_ok v ks m1 h2
    refine ⟨m2, by simp only [mapInsertAll, h1, bind_ok, h4], h5, ?_, ?_⟩
    · intro x
      rw [h6, h3]
      by_cases hk : k ∈ m.assoc.map Prod.fst
      · rw [asInsert_keys k v _ hk ok.sorted, List.mem_cons]
        constructor
        · rintro (h | h)
          · exact .inl h
          · exact .inr (.inr h)
        · rintro (h | h | h)
          · exact .inl h
          · exact .inl (h ▸ hk)
          · exact .inr h
      · rw [(asInsert_perm k v _ hk).mem_iff, List.mem_cons, List.mem_cons]
        constructor
        · rintro ((h | h) | h) <;> simp [h]
        · rintro (h | h | h) <;> simp [h]
    · have : m1.len ≤ m.len + 1 := by
        rw [h2.len, ok.len, h3, ← List.length_map (f := Prod.fst), ← List.length_map (f := Prod.fst) (as := m.assoc)]
        by_cases hk : k ∈ m.assoc.map Prod.fst
        · rw [asInsert_keys k v _ hk ok.sorted]; omega
        · rw [(asInsert_perm k v _ hk).length_eq, List.length_cons]; omega
      rw [List.length_cons]
      omega

theorem setInsertAll_eq : ∀ (ks : List K) (t : OrdSet K), setInsertAll t ks = (mapInsertAll () t.map ks >>= fun m => .ok ⟨m⟩)
  | [], _ => rfl
  | k :: ks, t => by
    rw [setInsertAll, mapInsertAll, OrdSet.insert]
    cases t.map.insert k () with
    | error e => rfl
    | ok m => exact setInsertAll_eq ks ⟨m⟩

theorem keys_nodup {l : List (K × V)} (h : KeySorted l) : (l.map Prod.fst).Nodup := by
  rw [List.Nodup, List.pairwise_map]
  refine List.Pairwise.imp ?_ h
  intro a b hab e
  rw [e, Std.ReflOrd.compare_self] at hab
  cases hab

theorem sorted_eq {l : List (K × V)} (h : KeySorted l) {ks : List K} (hp : (l.map Prod.fst).Perm ks) (hs : ks.Pairwise fun a b => compare a b ≠ .gt) :
    l.map Prod.fst = ks := by
  refine List.Perm.eq_of_pairwise (le := fun a b => compare a b ≠ .gt) ?_ ?_ hs hp
  · intro a b _ _ h1 h2
    apply Std.LawfulEqOrd.eq_of_compare
    have := Std.OrientedCmp.gt_iff_lt (cmp := compare) (a := b) (b := a)
    cases hc : compare a b with
    | eq => rfl
    | gt => exact absurd hc h1
    | lt => exact absurd (this.mpr hc) h2
  · rw [List.pairwise_map]
    exact List.Pairwise.imp (fun h => by rw [h]; decide) h

theorem check_nonempty [DecidableEq K] {m : OrdMap K V} (ok : m.Ok) (hn : m.len < 20155392) (hne : m.assoc ≠ []) : check (ordTrait K V) m.tree = .ok () := by
  obtain ⟨h, hh, hi⟩ := ok.low hn
  rw [C06_check_iff (by decide) hi hh]
  intro he
  exact absurd (by rw [OrdMap.assoc, he]; rfl) hne

/-- The test `test`: the data are inserted, read back in order and compared with the sorted data, and `check()` is called.
It passes exactly if no key occurs twice. -/
theorem C57_ord_test [DecidableEq K] {data sorted : List K} (hp : sorted.Perm data) (hs : sorted.Pairwise fun a b => compare a b ≠ .gt)
    (hn : data.length < 20155392) :
    (data.Nodup → ordTest data sorted = .ok ()) ∧ (¬ data.Nodup → ordTest data sorted = .error .panic) := by
  obtain ⟨m, h1, h2, h3, h4⟩ := mapInsertAll_ok () data (OrdMap.new : OrdMap K Unit) OrdMap.new_ok
  have hl : m.len < 20155392 := Nat.lt_of_le_of_lt h4 (by show 0 + data.length < _; omega)
  have hi : (OrdSet.mk m).iter = .ok (m.assoc.map Prod.fst) := by
    have h := OrdMap.iter_spec h2 hl
    rw [OrdMap.iter] at h
    simp only [OrdSet.iter, OrdMap.iterKey, h, bind_ok, pure_ok]
  have h3 : ∀ k, k ∈ m.assoc.map Prod.fst ↔ k ∈ data := by
    intro k
    rw [h3, OrdMap.new_assoc]
    simp
  have hin : setInsertAll (OrdSet.new : OrdSet K) data = .ok ⟨m⟩ := by
    rw [setInsertAll_eq]
    show (mapInsertAll () OrdMap.new data >>= _) = _
    rw [h1]; rfl
  have hnd := keys_nodup h2.sorted
  constructor
  · intro hd
    have he := sorted_eq h2.sorted (((List.perm_ext_iff_of_nodup hnd hd).mpr h3).trans hp.symm) hs
    simp only [ordTest, hin, hi, he, bind_ok, decide_true, assertM, if_true]
    by_cases hne : m.assoc = []
    · have : data = [] := by
        rw [hne] at h3
        exact List.eq_nil_iff_forall_not_mem.mpr fun k hk => by simpa using (h3 k).mpr hk
      subst this
      cases h1
      rfl
    · exact check_nonempty h2 hl hne
  · intro hd
    have he : m.assoc.map Prod.fst ≠ sorted := fun e => hd (hp.nodup_iff.mp (e ▸ hnd))
    simp only [ordTest, hin, hi, bind_ok, decide_eq_false he, assertM]
    rfl

theorem asDelete_keys (k : K) : ∀ l : List (K × V), KeySorted l → ∀ x, x ∈ (asDelete k l).map Prod.fst ↔ x ∈ l.map Prod.fst ∧ x ≠ k
  | [], _, x => by simp [asDelete]
  | (a, b) :: l, hs, x => by
    obtain ⟨h1, h2⟩ := List.pairwise_cons.mp hs
    rw [asDelete, List.map_cons, List.mem_cons]
    by_cases h : compare k a = .eq
    · have e := Std.LawfulEqOrd.eq_of_compare h
      subst e
      rw [if_pos h]
      constructor
      · intro hx
        refine ⟨.inr hx, ?_⟩
        intro e
        subst e
        obtain ⟨z, hz, hz'⟩ := List.mem_map.mp hx
        have := h1 z hz
        rw [hz', Std.ReflOrd.compare_self] at this
        cases this
      · rintro ⟨h | h, hne⟩
        · exact absurd h hne
        · exact h
    · rw [if_neg h, List.map_cons, List.mem_cons, asDelete_keys k l h2]
      constructor
      · rintro (e | e)
        · exact ⟨.inl e, fun e' => h (by rw [← e', e]; exact Std.ReflOrd.compare_self)⟩
        · exact ⟨.inr e.1, e.2⟩
      · rintro ⟨e | e, hne⟩
        · exact .inl e
        · exact .inr ⟨e, hne⟩

theorem asFind_key {x : K} : ∀ {l : List (K × V)}, x ∈ l.map Prod.fst → asFind x l ≠ none
  | [], h => by cases h
  | (a, b) :: l, h => by
    rw [asFind]
    split
    · simp
    · next hc =>
      rcases List.mem_cons.mp h with h | h
      · have h : x = a := h
        rw [h, Std.ReflOrd.compare_self] at hc
        exact absurd rfl hc
      · exact asFind_key h

omit [Std.TransOrd K] [Std.LawfulEqOrd K] in
theorem asDelete_le (k : K) : ∀ l : List (K × V), (asDelete k l).length ≤ l.length
  | [] => Nat.le_refl _
  | (a, b) :: l => by
    rw [asDelete]
    split
    · simp
    · have := asDelete_le k l
      simp only [List.length_cons]
      omega

theorem mapDeleteAll_ok : ∀ (ks : List K) (m : OrdMap K V), m.Ok → ks.Nodup → (∀ k ∈ ks, k ∈ m.assoc.map Prod.fst) →
    ∃ m', mapDeleteAll m ks = .ok m' ∧ m'.Ok ∧ (∀ k, k ∈ m'.assoc.map Prod.fst ↔ k ∈ m.assoc.map Prod.fst ∧ k ∉ ks) ∧ m'.len ≤ m.len
  | [], m, ok, _, _ => ⟨m, rfl, ok, by simp, Nat.le_refl _⟩
  | k :: ks, m, ok, hd, hs => by
    obtain ⟨d1, d2⟩ := List.nodup_cons.mp hd
    obtain ⟨m1, h1, h2, h3⟩ := OrdMap.delete_present ok (asFind_key (hs k (by simp)))
    have hk := asDelete_keys k m.assoc ok.sorted
    rw [← h3] at hk
    obtain ⟨m2, h4, h5, h6, h7⟩ := mapDeleteAll_ok ks m1 h2 d2 fun x hx => (hk x).mpr ⟨hs x (List.mem_cons_of_mem _ hx), fun e => d1 (e ▸ hx)⟩
    refine ⟨m2, by simp only [mapDeleteAll, h1, bind_ok, h4], h5, ?_, ?_⟩
    · intro x
      rw [h6, hk, List.mem_cons, not_or, and_assoc]
    · have : m1.len ≤ m.len := by
        rw [h2.len, ok.len, h3]
        exact asDelete_le k _
      omega

theorem mapDeleteAll_append : ∀ (as bs : List K) (m : OrdMap K V), mapDeleteAll m (as ++ bs) = (mapDeleteAll m as >>= fun m => mapDeleteAll m bs)
  | [], _, _ => rfl
  | k :: as, bs, m => by
    rw [List.cons_append, mapDeleteAll, mapDeleteAll]
    cases m.delete k with
    | error e => rfl
    | ok x => exact mapDeleteAll_append as bs x.2

/-- removing the only key leaves a tree that does not pass `check()` -/
theorem delete_only [DecidableEq K] {m : OrdMap K V} (ok : m.Ok) {k : K} (hk : ∀ x, x ∈ m.assoc.map Prod.fst ↔ x = k) :
    ∃ r m', m.delete k = .ok (r, m') ∧ check (ordTrait K V) m'.tree ≠ .ok () := by
  have h1 : m.assoc.map Prod.fst = [k] :=
    List.perm_singleton.mp ((List.perm_ext_iff_of_nodup (keys_nodup ok.sorted) (by simp)).mpr (by simpa using hk))
  obtain ⟨l, e, hes, he⟩ : ∃ l e, (abs m.tree).es = [(l, e)] ∧ e.1 = k := by
    rw [OrdMap.assoc, List.map_map] at h1
    match hx : (abs m.tree).es, h1 with
    | [(l, e)], h1 => exact ⟨l, e, rfl, by simpa using h1⟩
  have hq := C45_ord_lookup_present (by decide) ok.tree ok.sorted (l := l) (e := e) (by rw [hes]; simp) (k := k) (by rw [he]; exact Std.ReflOrd.compare_self)
  obtain ⟨s', r1, -, -, r4⟩ := C06_ord_false_always (o := 0) (by decide) ok.tree hes
  have hpos : 0 < m.len := by rw [ok.len, OrdMap.assoc, hes]; exact Nat.one_pos
  exact ⟨some e, ⟨s', m.len - 1⟩, by simp only [OrdMap.delete, hq, r1, bind_ok, decide_eq_true hpos, assertM, if_true, pure_ok], r4⟩

/-- The test `move_event_test::test`: all data are inserted, the first part is deleted, `check()` is called, and the rest is deleted from the end.
On data without repetition it passes exactly if `check()` does not meet a tree emptied by deletions. -/
theorem C57_move_test [DecidableEq K] (v : V) {first last : List K} (hd : (first ++ last).Nodup) (hn : (first ++ last).length < 20155392) :
    moveTest v first last = .ok () ↔ (last = [] → first = []) := by
  obtain ⟨m, h1, h2, h3, h4⟩ := mapInsertAll_ok v (first ++ last) (OrdMap.new : OrdMap K V) OrdMap.new_ok
  have hl : m.len < 20155392 := Nat.lt_of_le_of_lt h4 (by show 0 + (first ++ last).length < _; omega)
  have h3 : ∀ k, k ∈ m.assoc.map Prod.fst ↔ k ∈ first ++ last := by
    intro k
    rw [h3, OrdMap.new_assoc]
    simp
  obtain ⟨d1, d2, d3⟩ := List.nodup_append.mp hd
  obtain ⟨m1, k1, k2, k3, k4⟩ := mapDeleteAll_ok first m h2 d1 fun k hk => (h3 k).mpr (List.mem_append_left _ hk)
  have k3 : ∀ k, k ∈ m1.assoc.map Prod.fst ↔ k ∈ last := by
    intro k
    rw [k3, h3, List.mem_append]
    constructor
    · rintro ⟨h | h, hne⟩
      · exact absurd h hne
      · exact h
    · exact fun h => ⟨.inr h, fun h' => d3 k h' k h rfl⟩
  obtain ⟨m2, l1, -⟩ := mapDeleteAll_ok last.reverse m1 k2 ((List.reverse_perm last).nodup_iff.mpr d2) fun k hk => (k3 k).mpr (List.mem_reverse.mp hk)
  have hrun : moveTest v first last = (check (ordTrait K V) m1.tree >>= fun _ => .ok ()) := by
    simp only [moveTest, h1, k1, l1, bind_ok, pure_ok]
  rw [hrun]
  by_cases hlast : last = []
  · subst hlast
    by_cases hfirst : first = []
    · subst hfirst
      cases h1
      cases k1
      exact iff_of_true rfl fun _ => rfl
    · refine iff_of_false ?_ (fun h => hfirst (h rfl))
      obtain ⟨init, k, rfl⟩ : ∃ init k, first = init ++ [k] := ⟨_, _, (List.dropLast_concat_getLast hfirst).symm⟩
      obtain ⟨e1, -, e3⟩ := List.nodup_append.mp d1
      obtain ⟨m0, p1, p2, p3, -⟩ := mapDeleteAll_ok init m h2 e1 fun x hx => (h3 x).mpr (by simp [hx])
      obtain ⟨r, m', q1, q2⟩ := delete_only p2 (k := k) (by
        intro x
        rw [p3, h3]
        constructor
        · rintro ⟨h, hne⟩
          simpa [hne] using h
        · rintro rfl
          exact ⟨by simp, fun h => e3 x h x (by simp) rfl⟩)
      rw [mapDeleteAll_append, p1, bind_ok, mapDeleteAll, q1] at k1
      cases k1
      cases hc : check (ordTrait K V) m1.tree with
      | error e => intro h; cases h
      | ok u => exact absurd hc q2
  · refine iff_of_true ?_ (fun h => absurd h hlast)
    rw [check_nonempty k2 (Nat.lt_of_le_of_lt k4 hl)]
    · rfl
    · intro e
      obtain ⟨x, hx⟩ := List.exists_mem_of_ne_nil _ hlast
      have := (k3 x).mpr hx
      rw [e] at this
      cases this

/-- the order of two members of a strictly increasing list is the order of their positions -/
theorem sorted_pos {l U W U' W' : List (K × V)} (hs : KeySorted l) {a b : K × V} (h1 : l = U ++ a :: W) (h2 : l = U' ++ b :: W') :
    compare U.length U'.length = compare a.1 b.1 := by
  have ea : l[U.length]? = some a := by rw [h1]; simp
  have eb : l[U'.length]? = some b := by rw [h2]; simp
  obtain ⟨la, ea⟩ := List.getElem?_eq_some_iff.mp ea
  obtain ⟨lb, eb⟩ := List.getElem?_eq_some_iff.mp eb
  have hp := List.pairwise_iff_getElem.mp hs
  rcases Nat.lt_trichotomy U.length U'.length with h | h | h
  · have := hp _ _ la lb h
    rw [ea, eb] at this
    rw [this, Nat.compare_eq_lt]; exact h
  · have e : a = b := by
      rw [← ea, ← eb]
      congr 1
    rw [e, h, Std.ReflOrd.compare_self, Std.ReflOrd.compare_self]
  · have := hp _ _ lb la h
    rw [ea, eb] at this
    rw [Std.OrientedCmp.gt_iff_lt.mpr this, Nat.compare_eq_gt]; exact h

/-- comparison of the cursors of two keys -/
theorem C57_compare_keys {m : OrdMap K V} (ok : m.Ok) {a b : K} (ha : a ∈ m.assoc.map Prod.fst) (hb : b ∈ m.assoc.map Prod.fst) :
    ∃ x y, query (ordQuery K V) m.tree a = .ok (some x) ∧ query (ordQuery K V) m.tree b = .ok (some y) ∧
      comparePos m.tree x.cursor y.cursor = .ok (compare a b) := by
  have loc : ∀ {k : K}, k ∈ m.assoc.map Prod.fst → ∃ U l e W, (abs m.tree).es = U ++ (l, e) :: W ∧ e.1 = k ∧
      query (ordQuery K V) m.tree k = .ok (some ⟨⟨l, 0⟩, true⟩) := by
    intro k hk
    obtain ⟨e, he, rfl⟩ := List.mem_map.mp hk
    obtain ⟨⟨l, e'⟩, hx, rfl⟩ := List.mem_map.mp he
    obtain ⟨U, W, hUW⟩ := List.append_of_mem hx
    exact ⟨U, l, e', W, hUW, rfl, C45_ord_lookup_present (by decide) ok.tree ok.sorted hx Std.ReflOrd.compare_self⟩
  obtain ⟨U, l, e, W, h1, rfl, h3⟩ := loc ha
  obtain ⟨U', l', e', W', k1, rfl, k3⟩ := loc hb
  refine ⟨_, _, h3, k3, ?_⟩
  rw [C14_compare_pos ok.tree (a := ⟨l, 0⟩) (b := ⟨l', 0⟩) h1 k1]
  have := sorted_pos ok.sorted (U := U.map Prod.snd) (U' := U'.map Prod.snd) (by rw [OrdMap.assoc, h1, List.map_append, List.map_cons]) (by
    rw [OrdMap.assoc, k1, List.map_append, List.map_cons])
  rw [List.length_map, List.length_map] at this
  rw [this]
  cases compare e.1 e'.1 <;> rfl

theorem compareRow_ok {t : OrdSet K} (ok : t.map.Ok) {i : K} {js : List K} (hi : i ∈ t.map.assoc.map Prod.fst)
    (hj : ∀ j ∈ js, j ∈ t.map.assoc.map Prod.fst ∧ compare i j = .lt) : compareRow t i js = .ok () := by
  obtain ⟨x, x', h1, h2, h3⟩ := C57_compare_keys ok hi hi
  rw [h1] at h2
  cases h2
  rw [Std.ReflOrd.compare_self] at h3
  simp only [compareRow, h1, unwrap, bind_ok, h3, decide_true, assertM, if_true]
  apply checkAll_ok
  intro j hj'
  obtain ⟨j1, j2⟩ := hj j hj'
  obtain ⟨x1, y, k1, k2, k3⟩ := C57_compare_keys ok hi j1
  obtain ⟨y1, x2, l1, l2, l3⟩ := C57_compare_keys ok j1 hi
  rw [h1] at k1 l2
  rw [k2] at l1
  cases k1
  cases l1
  cases l2
  rw [j2] at k3
  rw [Std.OrientedCmp.gt_iff_lt.mpr j2] at l3
  simp only [comparePair, k2, unwrap, bind_ok, k3, l3, decide_true, assertM, if_true]

theorem compareRows_ok {t : OrdSet K} (ok : t.map.Ok) : ∀ (ks : List K), (∀ k ∈ ks, k ∈ t.map.assoc.map Prod.fst) → ks.Pairwise (fun a b => compare a b = .lt) →
    compareRows t ks = .ok ()
  | [], _, _ => rfl
  | [_], _, _ => rfl
  | i :: j :: js, hk, hs => by
    obtain ⟨h1, h2⟩ := List.pairwise_cons.mp hs
    rw [compareRows, compareRow_ok ok (hk i (by simp)) fun x hx => ⟨hk x (List.mem_cons_of_mem _ hx), h1 x hx⟩, bind_ok]
    · exact compareRows_ok ok (j :: js) (fun x hx => hk x (List.mem_cons_of_mem _ hx)) h2
    · simp

/-- The test `test_compare_pos` passes for all keys inserted in increasing order, however many. -/
theorem C57_compare_test {ks : List K} (hs : ks.Pairwise fun a b => compare a b = .lt) : compareTest ks = .ok () := by
  obtain ⟨m, h1, h2, h3, -⟩ := mapInsertAll_ok () ks (OrdMap.new : OrdMap K Unit) OrdMap.new_ok
  have hin : setInsertAll (OrdSet.new : OrdSet K) ks = .ok ⟨m⟩ := by
    rw [setInsertAll_eq]
    show (mapInsertAll () OrdMap.new ks >>= _) = _
    rw [h1]; rfl
  rw [compareTest, hin, bind_ok]
  exact compareRows_ok (t := ⟨m⟩) h2 ks (fun k hk => (h3 k).mpr (.inr hk)) hs

/-- the data of `test_compare_pos` -/
example : compareTest (List.range 100) = .ok () :=
  C57_compare_test (List.Pairwise.imp Nat.compare_eq_lt.mpr List.pairwise_lt_range)

example : ordTest [5, 1, 9, 3] [1, 3, 5, 9] = .ok () :=
  (C57_ord_test (by decide) (by decide) (by decide)).1 (by decide)

/-- with a repetition the test fails -/
example : ordTest [5, 1, 9, 5] [1, 5, 5, 9] = .error .panic :=
  (C57_ord_test (by decide) (by decide) (by decide)).2 (by decide)

example : moveTest 0 [5, 1] [9, 3] = .ok () := (C57_move_test 0 (by decide) (by decide)).mpr (by decide)

/-- deleting everything before the check makes the test fail -/
example : moveTest 0 [5, 1, 9, 3] [] ≠ .ok () := fun h => by
  have := (C57_move_test 0 (by decide) (by decide)).mp h rfl
  cases this

example : ∃ x y, query (ordQuery Nat Nat) ordSample 22 = .ok (some x) ∧ query (ordQuery Nat Nat) ordSample 40 = .ok (some y) ∧
    comparePos ordSample x.cursor y.cursor = .ok .lt :=
  C57_compare_keys ordMapSample_ok.1 (by rw [ordMapSample_ok.2]; decide) (by rw [ordMapSample_ok.2]; decide)

end GB
