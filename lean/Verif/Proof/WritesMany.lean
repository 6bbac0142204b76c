import Verif.Proof.WritesRope
import Verif.Props.C24

/-!
# Nodes changed by `insert_many_by_cursor` and `Rope::insert`
-/

namespace GB
open Tree

section
variable {E C D X : Type} {B : Trait E C D} {A : Law B} {m : Fill} {s s' : Tree E C} {h : Nat}

/-- merging neighbours yields no more elements -/
theorem greedy_length (B : Trait E C D) : ∀ (n : Nat) (data t : List E), data.length ≤ n → greedy B data = .ok t → t.length ≤ data.length := by
  intro n
  induction n with
  | zero =>
    intro data t hl e
    cases data with
    | nil => rw [greedy] at e; cases e; exact Nat.le_refl _
    | cons => simp at hl
  | succ n ih =>
    intro data t hl e
    match data, hl, e with
    | [], _, e => rw [greedy] at e; cases e; exact Nat.le_refl _
    | [a], _, e => rw [greedy] at e; cases e; exact Nat.le_refl _
    | a :: b :: l, hl, e =>
      simp only [List.length_cons] at hl
      rw [greedy] at e
      split at e
      · obtain ⟨c, -, e⟩ := bind_inv e
        obtain ⟨r, h1, e⟩ := bind_inv e
        cases e
        have := ih l r (by omega) h1
        simp only [List.length_cons]
        omega
      · obtain ⟨r, h1, e⟩ := bind_inv e
        cases e
        have := ih (b :: l) r (by simp; omega) h1
        simp only [List.length_cons] at this ⊢
        omega

theorem mergeAdj_length {data data' : List E} (hne : data ≠ []) (e : mergeAdj B data = .ok data') : data'.length ≤ data.length := by
  rw [mergeAdj_eq B hne] at e
  obtain ⟨t, h1, h2⟩ := (adjSpec_perm B data.length true [] [] data (Nat.le_refl _) (fun _ => rfl)).1 _ e
  have := h2.length_eq
  have := greedy_length B _ data t (Nat.le_refl _) h1
  simp_all

theorem normalizeUpd_ok {e : E} {n1 n2 : Option E} (ok1 : A.okE e) (okn1 : ∀ b, n1 = some b → A.okE b) (okn2 : ∀ b, n2 = some b → A.okE b) :
    A.okE (normalizeUpd B e n1 n2).1 := by
  rcases normalizeUpd_spec B e n1 n2 with ⟨-, h2, -⟩ | ⟨-, h2, -⟩
  · rw [h2]; exact ok1
  · have : (normalizeUpd B e n1 n2).1 ∈ survivors B e n1 n2 := by rw [h2]; simp
    have := (List.mem_filter.mp this).1
    simp only [List.cons_append, List.mem_cons, List.mem_append, Option.mem_toList] at this
    rcases this with h | h | h
    · rw [h]; exact ok1
    · exact okn1 _ h
    · exact okn2 _ h

/-- one insertion raises the height by at most one -/
theorem insert_height (hm : 1 ≤ m.lo ∧ m.lo + m.d ≤ 5) (hi : InvH A m h s) {c : Cursor} {e data : E} (hc : (c.leaf, e) ∈ (abs s).es)
    (ho : c.offset ≤ B.rleLen e) (hd : A.okE data) {r : Cursor × List Nat} (hr : insertByPath B s c data = .ok (r, s')) :
    ∃ h', InvH A m h' s' ∧ h' ≤ h + 1 ∧ specInsert B (abs s) c data = .ok (r, abs s') := by
  obtain ⟨⟨lvl, g⟩, sz⟩ := hi
  obtain ⟨U, V, hent⟩ := List.append_of_mem hc
  obtain ⟨l, o⟩ := c
  obtain ⟨c', sp, s1, lvl', h', h1, g', sz', st, ir⟩ := insertByPath_spec hm.1 (by omega) g sz hent ho (.inl hm.2) hd
  rw [h1] at hr
  cases hr
  exact ⟨h', ⟨⟨lvl', g'⟩, sz'⟩, st.le.2, ir.spec g.wf hent ho⟩

theorem insertAll_writes {cont : E → List X} (L : ContentLaw B A.okE cont) (hm : 1 ≤ m.lo ∧ m.lo + m.d ≤ 5) :
    ∀ (data : List E) {s s' : Tree E C} {c : Cursor} {n h : Nat}, (∀ d ∈ data, A.okE d) → InvH A m h s → At B (abs s) c n →
      insertAll B s c data = .ok s' → Writes s s' (data.length * (45 * (h + data.length) + 35)) := by
  intro data
  induction data with
  | nil =>
    intro s s' c n h _ hi _ e
    rw [insertAll] at e
    cases e
    exact (Writes.refl s).mono (by omega)
  | cons d data ih =>
    intro s s' c n h hok hi hat e
    rw [insertAll] at e
    obtain ⟨⟨⟨c1, sp⟩, s1⟩, h1, e⟩ := bind_inv e
    obtain ⟨U, x, V, hes, ho, hn⟩ := id hat
    have hmem : (c.leaf, x) ∈ (abs s).es := by rw [hes]; simp
    obtain ⟨h', hi1, hle, hsp⟩ := insert_height hm hi hmem ho (hok d (by simp)) h1
    have i0 : Inv A m s := ⟨h, hi⟩
    have i1 : Inv A m s1 := ⟨h', hi1⟩
    obtain ⟨k1, -⟩ := inserted_step L i0.nodup i0.okE i1.okE (hok d (by simp)) hat hsp
    have w2 := ih (fun y hy => hok y (by simp [hy])) hi1 k1 e
    obtain ⟨⟨lvl, g⟩, sz⟩ := hi
    obtain ⟨_, _, -, -, -, hel⟩ := entries_split g.wf hes
    have w1 := insertByPath_writes hm.1 hm.2 g sz hel ho h1
    refine w1.seq w2 ?_
    rw [List.length_cons, Nat.add_mul data.length 1, Nat.one_mul]
    have : data.length * (45 * (h' + data.length) + 35) ≤ data.length * (45 * (h + (data.length + 1)) + 35) := Nat.mul_le_mul_left _ (by omega)
    exact Nat.le_trans (Nat.le_of_eq (Nat.add_comm _ _)) (Nat.add_le_add this (by omega))

theorem manyTail_writes {cont : E → List X} (L : ContentLaw B A.okE cont) (hm : 1 ≤ m.lo ∧ m.lo + m.d ≤ 5) (hi : InvH A m h s) {c : Cursor}
    {U V : List (Nat × E)} {e : E} {data : List E} (hok : ∀ d ∈ data, A.okE d)
    (hes : (abs s).es = U ++ (c.leaf, e) :: V) (ho : c.offset ≤ B.rleLen e) (hr : manyTail B s c data = .ok s') :
    Writes s s' ((data.length + 1) * (45 * (h + data.length) + 80)) := by
  obtain ⟨⟨lvl, g⟩, sz⟩ := id hi
  have hes' : entries s = U ++ (c.leaf, e) :: V := hes
  obtain ⟨-, -, -, -, -, hel⟩ := entries_split g.wf hes'
  obtain ⟨info, s1, lvl1, h1, hsp, g1, sz1, -, hrise, r⟩ := splitLeafIfNeeded_spec hm.1 (by omega : m.lo + m.d ≤ 6) g sz hel ho (.inl hm.2)
  have hh1 := hrise.le
  have w1 := splitLeafIfNeeded_writes hm.1 hm.2 g sz hel hsp
  obtain ⟨i, hI, hcase⟩ := cut_entries g g1 hes' r
  -- the gap after the cut
  have key : ∃ e1 V1, entries s1 = U ++ (c.leaf, e1) :: V1 ∧
      ∃ P z Q, (c.leaf, e1) :: V1 = P ++ ((info.newPos.getD c).leaf, z) :: Q ∧ (info.newPos.getD c).offset ≤ B.rleLen z := by
    rcases hcase with ⟨a1, a2, a3⟩ | ⟨a1, a2, a3, a4⟩ | ⟨a, b, a1, a2, a3, a4, a5, a6⟩
    · subst a2
      rw [a3]
      exact ⟨e, V, hes', [], e, V, rfl, ho⟩
    · subst a3
      refine ⟨e, V, hes', ?_⟩
      rw [a4]
      cases V with
      | nil => exact ⟨[], e, [], rfl, ho⟩
      | cons x V => exact ⟨[(c.leaf, e)], x.2, V, rfl, by simp⟩
    · rw [a4]
      exact ⟨a, _, a6, [(c.leaf, a)], b, V, rfl, by simp⟩
  obtain ⟨e1, V1, k1, P, z, Q, k2, k3⟩ := key
  unfold manyTail at hr
  simp only [hsp, bind_ok] at hr
  have fin : ∀ {t t' : Tree E C} {rest : List E} {n : Nat}, Writes s1 t (h + 3) → InvH A m h1 t → At B (abs t) (info.newPos.getD c) n →
      (∀ d ∈ rest, d ∈ data) → rest.length ≤ data.length → insertAll B t (info.newPos.getD c) rest.reverse = .ok t' →
      Writes s t' ((data.length + 1) * (45 * (h + data.length) + 80)) := by
    intro t t' rest n w2 hit hat hsub hlen e
    have w3 := insertAll_writes L hm rest.reverse (fun d hd => hok d (hsub d (by simpa using hd))) hit hat e
    rw [List.length_reverse] at w3
    refine (w1.trans w2).seq w3 ?_
    have hb : rest.length * (45 * (h1 + rest.length) + 35) ≤ data.length * (45 * (h + data.length) + 80) := Nat.mul_le_mul hlen (by omega)
    rw [Nat.add_mul]
    omega
  cases hnb : info.leftNeighbour with
  | none =>
    simp only [hnb, pure_ok, bind_ok] at hr
    exact fin (n := unitLen B (U ++ P) + (info.newPos.getD c).offset) ((Writes.refl s1).mono (by omega)) ⟨⟨lvl1, g1⟩, sz1⟩
      ⟨U ++ P, z, Q, by show entries s1 = _; rw [k1, k2]; simp, k3, rfl⟩ (fun d hd => hd) (Nat.le_refl _) hr
  | some k =>
    simp only [hnb] at hr
    obtain ⟨⟨rest, s2⟩, q, hr⟩ := bind_inv hr
    obtain ⟨leaf, hL, q⟩ := bind_inv q
    obtain ⟨⟨y', rest'⟩, q1, q⟩ := bind_inv q
    obtain ⟨s2', q2, q⟩ := bind_inv q
    cases q
    obtain ⟨U', x, hU'⟩ := leftNb_entries g1.wf hI hnb k1
    have hxk := (mem_entries_elm (show (k, x) ∈ entries s1 by rw [k1, hU']; simp)).2
    have hL : s1.lf.get k = some leaf := unwrap_inv hL
    obtain ⟨y, p⟩ := leaf
    obtain ⟨y1, rest1, took, m1, m2, m3, -, -⟩ := mergeIntoLeft_spec L data y (g1.okE _ _ (elm_of hL)) hok
    rw [m1] at q1
    obtain ⟨rfl, rfl⟩ : y1 = y' ∧ rest1 = rest' := by cases q1; exact ⟨rfl, rfl⟩
    obtain ⟨s3, n1, g2, sh, n4, n5⟩ := g1.upd hL m2 none (by intro d _ h; cases h)
    have n1' := n1.symm.trans q2
    cases n1'
    have hent2 : entries s2 = U' ++ (k, y1) :: (c.leaf, e1) :: V1 := by
      rw [elm_of hL] at hxk
      cases hxk
      exact entries_upd (e := y) g1.wf sh.order n4 (by rw [k1, hU', List.append_assoc]; rfl)
    have rk : Ranked lvl1 h1 s1 := g1.ranked sz1 (fun _ h => h.elim)
    have rk1 : ∀ l L, Ranked lvl1 h1 (s1.setLf l L) := fun _ _ => rk.inn rfl
    have w2 : Writes s1 s2 (h + 3) := (Writes.setLf _ _ _).seq (recursiveUpdateCache_writes (rk1 _ _) q2).1 (by omega)
    exact fin (n := unitLen B (U' ++ (k, y1) :: P) + (info.newPos.getD c).offset) w2 ⟨⟨lvl1, g2⟩, SzX.congr sh sz1⟩
      ⟨U' ++ (k, y1) :: P, z, Q, by show entries s2 = _; rw [hent2, k2]; simp, k3, rfl⟩ (fun d hd => by rw [m3]; simp [hd])
      (by rw [m3]; simp) hr

/-- `insert_many_by_cursor` at a cursor -/
theorem insertMany_writes {cont : E → List X} (L : ContentLaw B A.okE cont) (hm : 1 ≤ m.lo ∧ m.lo + m.d ≤ 5) (hi : InvH A m h s) {c : Cursor}
    {e : E} {data : List E} (hok : ∀ d ∈ data, A.okE d) (hc : (c.leaf, e) ∈ (abs s).es) (ho : c.offset ≤ B.rleLen e)
    (hr : insertMany B s (some c) data = .ok s') : Writes s s' ((data.length + 1) * (45 * (h + data.length) + 80)) := by
  obtain ⟨U, V, hes⟩ := List.append_of_mem hc
  have hes' : entries s = U ++ (c.leaf, e) :: V := hes
  have single : ∀ {d : E} {n : Nat} {r : Cursor × List Nat} {t : Tree E C}, insertByPath B s c d = .ok (r, t) →
      Writes s t ((n + 1) * (45 * (h + n) + 80)) := by
    intro d n r t e
    obtain ⟨⟨lvl, g⟩, sz⟩ := hi
    obtain ⟨_, _, -, -, -, hel⟩ := entries_split g.wf hes'
    refine (insertByPath_writes hm.1 hm.2 g sz hel ho (show insertByPath B s c d = .ok ((r.1, r.2), t) from e)).mono ?_
    rw [Nat.add_mul]
    omega
  match data, hok, hr with
  | [], _, hr => cases hr; exact (Writes.refl s).mono (Nat.zero_le _)
  | [d], _, hr =>
    simp only [insertMany] at hr
    obtain ⟨⟨r, t⟩, h1, hr⟩ := bind_inv hr
    cases hr
    exact single h1
  | d1 :: d2 :: ds, hok, hr =>
    obtain ⟨data', hadj, hok'⟩ := mergeAdj_ok A (by simp) hok
    have hlen := mergeAdj_length (by simp) hadj
    by_cases hl1 : ∃ d, data' = [d]
    · obtain ⟨d, rfl⟩ := hl1
      simp only [insertMany, hadj, bind_ok] at hr
      obtain ⟨⟨r, t⟩, h1, hr⟩ := bind_inv hr
      cases hr
      exact single h1
    · have heq : insertMany B s (some c) (d1 :: d2 :: ds) = manyTail B s c data' := by
        obtain ⟨⟨lvl, g⟩, sz⟩ := id hi
        have hemp : ∃ b, isEmpty s = .ok b := by
          unfold isEmpty
          obtain ⟨N, hN, -⟩ := g.wf.root
          rw [getIn_ok hN]
          exact ⟨_, rfl⟩
        obtain ⟨b, hb⟩ := hemp
        simp only [insertMany, hadj, bind_ok]
        match data', hl1 with
        | [], _ => simp only [hb, bind_ok]; rfl
        | [d], h => exact absurd ⟨d, rfl⟩ h
        | _ :: _ :: _, _ => simp only [hb, bind_ok]; rfl
      rw [heq] at hr
      exact (manyTail_writes L hm hi hok' hes ho hr).mono (Nat.mul_le_mul (by omega) (by omega))

end

variable {cap : Nat} {m : Fill} {r r' : Rope} {h : Nat}

theorem pushAll_writes (hm : 1 ≤ m.lo ∧ m.lo + m.d ≤ 5) : ∀ (gs : List GapBuf) {s s' : Tree GapBuf Int} {h : Nat}, InvH (ropeLaw cap) m h s →
    (∀ g ∈ gs, (ropeLaw cap).okE g) → Rope.pushAll s gs = .ok s' → Writes s s' (gs.length * (23 * (h + gs.length) + 6)) := by
  intro gs
  induction gs with
  | nil => intro s s' h _ _ e; cases e; exact (Writes.refl s).mono (Nat.zero_le _)
  | cons g gs ih =>
    intro s s' h hi hok e
    rw [Rope.pushAll] at e
    obtain ⟨⟨c, s1⟩, h1, e⟩ := bind_inv e
    obtain ⟨⟨lvl, gd⟩, sz⟩ := hi
    have w1 := push_writes gd sz h1
    obtain ⟨c', s2, lvl', h', k1, k2, k3, k4, -⟩ := push_spec hm.1 (by omega : m.lo + m.d ≤ 6) gd sz (hok g (by simp))
    rw [k1] at h1
    cases h1
    have hle : h' ≤ h + 1 := by
      rcases k4 with k4 | k4
      · exact k4.2
      · exact k4.le.2
    refine w1.seq (ih ⟨⟨lvl', k2⟩, k3⟩ (fun x hx => hok x (by simp [hx])) e) ?_
    rw [List.length_cons, Nat.add_mul gs.length 1, Nat.one_mul]
    have : gs.length * (23 * (h' + gs.length) + 6) ≤ gs.length * (23 * (h + (gs.length + 1)) + 6) := Nat.mul_le_mul_left _ (by omega)
    exact Nat.le_trans (Nat.le_of_eq (Nat.add_comm _ _)) (Nat.add_le_add this (by omega))

/-- all chunks but the last are full -/
theorem fromStr_length {bytes : List UInt8} (hcap : 0 < cap) {gs : List GapBuf} (e : GapBuf.fromStr cap bytes = .ok gs) :
    gs.length ≤ bytes.length / cap + 1 ∧ ∀ g ∈ gs, (ropeLaw cap).okE g := by
  obtain ⟨gs', h1, h2, h3, h4⟩ := GapBuf.fromStrF_spec cap hcap _ bytes (Nat.lt_succ_self _)
  have : gs' = gs := by rw [GapBuf.fromStr, h1] at e; cases e; rfl
  subst this
  refine ⟨?_, fun g hg => ⟨(h3 g hg).1, (h3 g hg).2.1⟩⟩
  have key : ∀ l : List GapBuf, (∀ g ∈ l, g.toVec.length = cap) → (l.flatMap GapBuf.toVec).length = l.length * cap := by
    intro l
    induction l with
    | nil => intro _; simp
    | cons g l ih =>
      intro hl
      rw [List.flatMap_cons, List.length_append, hl g (by simp), ih (fun x hx => hl x (by simp [hx])), List.length_cons, Nat.add_mul, Nat.one_mul]
      omega
  rcases List.eq_nil_or_concat gs' with rfl | ⟨l, g, rfl⟩
  · simp
  · have k1 := key l (by simpa using h4)
    have k2 : l.length * cap ≤ bytes.length := by
      rw [← k1, ← h2]; simp
    have := (Nat.le_div_iff_mul_le hcap).mpr k2
    simp only [List.concat_eq_append, List.length_append, List.length_cons, List.length_nil]
    omega

/-- the slow path of `Rope::insert` -/
theorem insertSlow_writes (hcap : 0 < cap) (hm : 1 ≤ m.lo ∧ m.lo + m.d ≤ 5) (ri : RopeInv cap m r) (hi : InvH (ropeLaw cap) m h r.tree) (hne : r.text ≠ [])
    {index : Nat} (hidx : index ≤ r.text.length) {bytes : List UInt8} (hr : Rope.insertSlow cap r index bytes = .ok r') :
    Writes r.tree r'.tree ((bytes.length / cap + 2) * (45 * (h + (bytes.length / cap + 1)) + 80)) := by
  have hes0 : (abs r.tree).es ≠ [] := fun h => hne (ri.nil.mpr h)
  rw [ri.text_length] at hidx
  obtain ⟨U, l, e, V, o, h1, h2, h3, h4, h5, h6⟩ := C09_query_len (ropeLenLaw cap) hm.1 ri.inv hes0 index
  have ho : o ≤ e.len := by
    rcases Nat.lt_or_ge index (unitLen ropeTrait (abs r.tree).es) with h | h
    · exact Nat.le_of_lt (h4 h)
    · exact Nat.le_of_eq (h6 (by omega))
  obtain ⟨fd, hq⟩ := query_with h2
  unfold Rope.insertSlow at hr
  obtain ⟨⟨q, f⟩, k1, hr⟩ := bind_inv hr
  rw [show queryWithFinder ropeQuery r.tree index = _ from hq] at k1
  cases k1
  obtain ⟨cur, -, hr⟩ := bind_inv hr
  obtain ⟨gs, k2, hr⟩ := bind_inv hr
  obtain ⟨t, k3, hr⟩ := bind_inv hr
  cases hr
  obtain ⟨k4, k5⟩ := fromStr_length hcap k2
  exact (insertMany_writes (ropeContent cap) hm hi (c := ⟨l, o⟩) (e := e) k5 (by rw [h1]; simp) ho k3).mono (Nat.mul_le_mul (by omega) (by omega))

/-- the fast path of `Rope::insert` -/
theorem insertFast_writes (hm : 1 ≤ m.lo ∧ m.lo + m.d ≤ 5) (ri : RopeInv cap m r) (hi : InvH (ropeLaw cap) m h r.tree) {index : Nat} {bytes : List UInt8}
    {b : Bool} (hr : Rope.insertFast cap r index bytes = .ok (some (b, r'))) :
    Writes r.tree r'.tree (30 * h + 16) ∧ ∃ h', InvH (ropeLaw cap) m h' r'.tree ∧ h' ≤ h + 1 := by
  obtain ⟨⟨lvl, g⟩, sz⟩ := hi
  unfold Rope.insertFast at hr
  split at hr
  · cases hr
  · next pos leaf hc =>
    obtain ⟨U, e, V, hes, hU⟩ := ri.cur _ hc
    have hes : (abs r.tree).es = U ++ (leaf, e) :: V := hes
    have hok := ri.okE (leaf, e) (by rw [hes]; simp)
    obtain ⟨u, v, -, -, -, hel⟩ := entries_split g.wf hes
    split at hr
    · obtain ⟨node, hL, hr⟩ := bind_inv hr
      have hL : r.tree.lf.get leaf = some node := unwrap_inv hL
      have hne : node.elem = e := by
        rw [elm_of hL] at hel
        exact Option.some.inj hel
      split at hr
      · next hle =>
        rw [hne] at hle hr
        simp only at hr
        obtain ⟨success, e1, n1, k1, k2, k3, k4, -⟩ := insertClosure_spec hok (offset := index - pos) (by show index - pos ≤ e.len; omega) bytes
        simp only [k1, bind_ok] at hr
        obtain ⟨⟨v, ids, t⟩, h1, hr⟩ := bind_inv hr
        cases hr
        have hrem : survivors ropeTrait e1 n1 none = [] → LawE (ropeLaw cap) ∧ Neutral (ropeLaw cap) e1 := by
          intro h
          refine ⟨ropeLawE cap, rope_neutral ?_⟩
          have := List.filter_eq_nil_iff.mp h e1 (by simp)
          simpa using this
        obtain ⟨b', ids', s', lvl', h', q1, q2, q3, q4, -⟩ := updateLeaf_spec (e1 := e1) (need := true) (n1 := n1) (n2 := none) hm g sz hes
          (f := fun e => do let (_, res) ← Rope.insertClosure cap (index - pos) bytes e; pure res) (by simp only [k1, bind_ok, pure_ok]) k2 k3
          (by intro b h; cases h) (Or.inl rfl) hrem
        have w := updateLeaf_writes (e1 := e1) (need := true) (n1 := n1) (n2 := none) hm g sz hel
          (f := fun e => do let (_, res) ← Rope.insertClosure cap (index - pos) bytes e; pure res) (by simp only [k1, bind_ok, pure_ok])
          (normalizeUpd_ok (A := ropeLaw cap) k2 k3 (by intro b h; cases h)) (.inl rfl) h1
        have q1' := q1.symm.trans h1
        cases q1'
        exact ⟨w, h', ⟨⟨lvl', q2⟩, q3⟩, q4⟩
      · cases hr
    · cases hr

/-- `Rope::insert` -/
theorem ropeInsert_writes (hcap : 0 < cap) (hm : 1 ≤ m.lo ∧ m.lo + m.d ≤ 5) (ri : RopeInv cap m r) (hi : InvH (ropeLaw cap) m h r.tree) {index : Nat}
    {bytes : List UInt8} (hr : r.insert cap index bytes = .ok r') :
    Writes r.tree r'.tree ((bytes.length / cap + 3) * (45 * (h + bytes.length / cap) + 170)) := by
  unfold Rope.insert at hr
  split at hr
  · cases hr
  next hidx =>
  rw [ri.len hm.1] at hidx
  generalize hn : bytes.length / cap = n
  split at hr
  · obtain ⟨gs, k1, hr⟩ := bind_inv hr
    obtain ⟨t, k2, hr⟩ := bind_inv hr
    cases hr
    obtain ⟨k4, k5⟩ := fromStr_length hcap k1
    exact (pushAll_writes hm gs hi k5 k2).mono (Nat.mul_le_mul (by omega) (by omega))
  · next hemp =>
    rw [ri.isEmpty hm.1, decide_eq_true_eq] at hemp
    obtain ⟨o, k1, hr⟩ := bind_inv hr
    have hslow : ∀ {r1 : Rope} {h1 : Nat}, RopeInv cap m r1 → InvH (ropeLaw cap) m h1 r1.tree → h1 ≤ h + 1 → r1.text = r.text →
        Rope.insertSlow cap r1 index bytes = .ok r' → Writes r1.tree r'.tree ((n + 2) * (45 * (h + n) + 170)) := by
      intro r1 h1 ri1 hi1 hle ht e
      refine (insertSlow_writes hcap hm ri1 hi1 (by rw [ht]; exact hemp) (by rw [ht]; omega) e).mono ?_
      rw [hn]
      exact Nat.mul_le_mul_left _ (by omega)
    have hsum : (n + 3) * (45 * (h + n) + 170) = (n + 2) * (45 * (h + n) + 170) + (45 * (h + n) + 170) := by
      rw [Nat.add_mul (n + 2) 1, Nat.one_mul]
    split at hr
    · next r1 =>
      cases hr
      exact (insertFast_writes hm ri hi k1).1.mono (by rw [hsum]; omega)
    · next r1 =>
      obtain ⟨w, h1, hi1, hle⟩ := insertFast_writes hm ri hi k1
      rcases insertFast_spec hm ri index bytes with hf | ⟨su, r2, hf, ri2, ht⟩
      · rw [hf] at k1; cases k1
      · rw [hf] at k1
        cases k1
        refine w.seq (hslow ri2 hi1 hle (by simpa using ht) hr) (by rw [hsum]; omega)
    · exact (hslow ri hi (by omega) rfl hr).mono (by rw [hsum]; omega)

end GB
