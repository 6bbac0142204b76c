import Verif.Proof.RopeInv
import Verif.Proof.Finder

/-!
# The rope: `insert`
-/

namespace GB
open Tree

variable {cap : Nat} {m : Fill} {r : Rope}

/-- the cursor that `Rope::insert` remembers: a leaf strictly before the place of insertion, with its position -/
theorem insertCursor_spec (hm : 1 ≤ m.lo) (hi : Inv (ropeLaw cap) m r.tree) {index : Nat} {q : QueryResult} {fd : LenFinder} {U V : List (Nat × GapBuf)}
    {e : GapBuf} (hq : queryWithFinder ropeQuery r.tree index = .ok (some q, fd)) (hes : (abs r.tree).es = U ++ (q.cursor.leaf, e) :: V)
    (hU : unitLen ropeTrait U + q.cursor.offset = index) :
    ∃ c, Rope.insertCursor r.tree index (some q) fd = .ok c ∧
      ∀ c', c = some c' → ∃ P, Behind (abs r.tree) P c'.leaf q.cursor ∧ unitLen ropeTrait P = c'.pos := by
  unfold Rope.insertCursor
  simp only
  split
  · next h0 =>
    cases hp : fd.parent with
    | none => exact ⟨none, rfl, by intro c' h; cases h⟩
    | some p =>
      simp only
      split
      · exact ⟨none, rfl, by intro c' h; cases h⟩
      · next hs =>
        obtain ⟨h, hiH⟩ := hi
        have ne := hiH.ne hm
        obtain ⟨⟨lvl, g⟩, sz⟩ := hiH
        have he := lenQuery_memo g.wf hq hp
        obtain ⟨hl1, hlp⟩ := g.wf.klf he
        obtain ⟨x, hL, hx⟩ := getLf_of hlp
        obtain ⟨N, hN⟩ := lnk_isSome.mp (edge_live he)
        obtain ⟨c, hc, hca⟩ := edge_chs.mp he
        have hslot := getLeafSlot_wf g.wf he
        rw [chs_of hN] at hc hslot
        have hlt : fd.slot < N.children.length := by
          rw [List.getElem?_eq_some_iff] at hc
          exact hc.1
        obtain ⟨c1, hc1⟩ : ∃ c1, N.children[fd.slot - 1]? = some c1 := ⟨_, List.getElem?_eq_getElem (by omega)⟩
        have hv : vget N.children (fd.slot - 1) = .ok c1 := vget_ok hc1
        have he1 : Edge r.tree p (fd.slot - 1) c1.arena := edge_chs.mpr ⟨c1, by rw [chs_of hN]; exact hc1, rfl⟩
        obtain ⟨u, v, o1, o2⟩ := prevSameLevelLeaf_spec g.wf ne (l := q.cursor.leaf) (by rw [hlp]; simp)
        have ho2 : prevSameLevelLeaf r.tree q.cursor.leaf = .ok (some c1.arena) := by
          simp only [prevSameLevelLeaf, getLf_ok hL, bind_ok, getIn_ok hN, hslot, hv]
          rw [if_pos (by omega)]
          rfl
        rw [o2] at ho2
        have ho2 : u.getLast?.map Idx.leaf = some c1.arena := by injection ho2
        obtain ⟨l1, hl1', hl1a⟩ := Option.map_eq_some_iff.mp ho2
        obtain ⟨u', hu⟩ := getLast_split hl1'
        obtain ⟨e1, he1'⟩ : ∃ e1, elm r.tree l1 = some e1 := by
          rw [← hl1a] at he1
          have := (g.wf.klf he1).2
          obtain ⟨x, -, hx⟩ := getLf_of this
          exact ⟨x, hx⟩
        have hcache : c1.cache = (e1.len : Int) := by
          have := g.cinv p c1 (by rw [chs_of hN]; exact List.mem_of_getElem? hc1) (by intro h; exact h)
          rw [EntryOK, ← hl1a] at this
          exact this e1 he1'
        have hent : (abs r.tree).es = entriesOf r.tree u' ++ (l1, e1) :: (q.cursor.leaf, x) :: entriesOf r.tree v := by
          show entries r.tree = _
          rw [entries, o1, hu, List.append_assoc, entriesOf_append, List.cons_append, List.nil_append, entriesOf_cons he1', entriesOf_cons hx]
        have hUu : U = entriesOf r.tree u' ++ [(l1, e1)] := by
          obtain ⟨u2, v2, w1, w2, -, -⟩ := entries_split g.wf hes
          have nd := order_nodup g.wf
          rw [o1] at nd
          obtain ⟨rfl, -⟩ := nodup_append_cons_inj (o1.symm.trans w1) nd
          rw [w2, hu, entriesOf_append, entriesOf_cons he1']
          rfl
        have hpos : unitLen ropeTrait (entriesOf r.tree u') + e1.len = index := by
          rw [hUu, unitLen_append, unitLen_cons, unitLen_nil] at hU
          rw [h0] at hU
          exact hU
        refine ⟨some ⟨index - c1.cache.toNat, l1⟩, ?_, ?_⟩
        · simp only [getIn_ok hN, bind_ok, hv]
          rw [assertM, if_pos (by rw [hcache]; simp; omega), bind_ok, ← hl1a]
          rfl
        · intro c' hc'
          cases hc'
          refine ⟨entriesOf r.tree u', ⟨e1, _, hent, Or.inl (by simp)⟩, ?_⟩
          rw [hcache]
          simp only [Int.toNat_natCast]
          omega
  · next h0 =>
    refine ⟨some ⟨index - q.cursor.offset, q.cursor.leaf⟩, ?_, ?_⟩
    · rw [assertM, if_pos (by simp; omega), bind_ok]; rfl
    · intro c' hc'
      cases hc'
      exact ⟨U, ⟨e, V, hes, Or.inr ⟨rfl, h0⟩⟩, by simp only; omega⟩

/-- the slow path of `Rope::insert` -/
theorem insertSlow_spec (hcap : 0 < cap) (hm : 1 ≤ m.lo ∧ m.lo + m.d ≤ 5) (ri : RopeInv cap m r) (hne : r.text ≠ []) {index : Nat} (hidx : index ≤ r.text.length)
    (bytes : List UInt8) : ∃ r', Rope.insertSlow cap r index bytes = .ok r' ∧ RopeInv cap m r' ∧ r'.text = splice r.text index bytes := by
  have hes0 : (abs r.tree).es ≠ [] := fun h => hne (ri.nil.mpr h)
  rw [ri.text_length] at hidx
  obtain ⟨U, l, e, V, o, h1, h2, h3, h4, h5, h6⟩ := C09_query_len (ropeLenLaw cap) hm.1 ri.inv hes0 index
  have ho : o ≤ e.len := by
    rcases Nat.lt_or_ge index (unitLen ropeTrait (abs r.tree).es) with h | h
    · exact Nat.le_of_lt (h4 h)
    · exact Nat.le_of_eq (h6 (by omega))
  obtain ⟨fd, hq⟩ := query_with h2
  obtain ⟨c, k1, k2⟩ := insertCursor_spec hm.1 ri.inv hq h1 h3
  obtain ⟨gs, k3, -⟩ := GapBuf.fromStrF_spec cap hcap _ bytes (Nat.lt_succ_self _)
  obtain ⟨s', w1, w2, w3, w4, w5⟩ := C24_rope_chunks hcap (c := ⟨l, o⟩) hm ri.inv h1 ho ri.pos k3
  refine ⟨⟨s', c⟩, ?_, ⟨w2, w5, ?_⟩, ?_⟩
  · have hq' : queryWithFinder ropeQuery r.tree index = _ := hq
    simp only [Rope.insertSlow, hq', bind_ok, k1, show GapBuf.fromStr cap bytes = _ from k3, Option.map_some, w1, pure_ok]
  · intro c' hc'
    obtain ⟨P, hP, hp⟩ := k2 c' hc'
    obtain ⟨e', Q, hQ⟩ := w4 P c'.leaf hP
    exact ⟨P, e', Q, hQ, hp⟩
  · rw [Rope.text, w3, show unitLen ropeTrait U + (⟨l, o⟩ : Cursor).offset = index from h3]; rfl

theorem pushAll_spec (hm : 1 ≤ m.lo ∧ m.lo + m.d ≤ 5) : ∀ (gs : List GapBuf) (s : Tree GapBuf Int), Inv (ropeLaw cap) m s → (∀ x ∈ (abs s).es, 0 < x.2.len) →
    (∀ g ∈ gs, g.WF ∧ g.capacity = cap ∧ g.toVec ≠ []) →
    ∃ s', Rope.pushAll s gs = .ok s' ∧ Inv (ropeLaw cap) m s' ∧ (∀ x ∈ (abs s').es, 0 < x.2.len) ∧
      content GapBuf.toVec (abs s').es = content GapBuf.toVec (abs s).es ++ gs.flatMap GapBuf.toVec := by
  intro gs
  induction gs with
  | nil => intro s hi hp _; exact ⟨s, rfl, hi, hp, by simp⟩
  | cons g gs ih =>
    intro s hi hp hg
    obtain ⟨g1, g2, g3⟩ := hg g (by simp)
    have hgl : 0 < g.len := by
      rw [← GapBuf.toVec_length g g1]; exact List.length_pos_iff.mpr g3
    obtain ⟨c, s', h1, h2, h3⟩ := C01_push (B := ropeTrait) (A := ropeLaw cap) (e := g) ⟨hm.1, by omega⟩ hi ⟨g1, g2⟩
    have h4 := specPush_content (ropeContent cap) hi.okE ⟨g1, g2⟩ h3
    have hp' : ∀ x ∈ (abs s').es, 0 < x.2.len := by
      generalize abs s' = t' at h3
      unfold specPush at h3
      split at h3
      · next l x hl =>
        obtain ⟨es, hes⟩ := getLast_split hl
        split at h3
        · next hcm =>
          have hx := hi.okE (l, x) (List.mem_of_getLast? hl)
          obtain ⟨x', q1, q2, q3, q4⟩ := GapBuf.mergeRight_spec x g hx.1 g1 hcm
          rw [show ropeTrait.mergeRight x g = x.mergeRight g from rfl, q1] at h3
          cases h3
          intro y hy
          simp only [List.mem_append, List.mem_singleton] at hy
          rcases hy with hy | rfl
          · exact hp y (List.dropLast_subset _ hy)
          · show 0 < x'.len
            rw [← GapBuf.toVec_length x' q2, q4, List.length_append, GapBuf.toVec_length g g1]
            omega
        · cases h3
          intro y hy
          simp only [List.mem_append, List.mem_singleton] at hy
          rcases hy with hy | rfl
          · exact hp y hy
          · exact hgl
      · cases h3
        intro y hy
        simp only [List.mem_singleton] at hy
        subst hy
        exact hgl
    obtain ⟨s'', k1, k2, k3, k4⟩ := ih s' h2 hp' (fun x hx => hg x (by simp [hx]))
    refine ⟨s'', ?_, k2, k3, ?_⟩
    · rw [Rope.pushAll, h1, bind_ok]; exact k1
    · rw [k4, h4]; simp

/-- `Rope::insert` splices the string in; every state, every position up to the length, every string -/
theorem ropeInsert_spec (hcap : 0 < cap) (hm : 1 ≤ m.lo ∧ m.lo + m.d ≤ 5) (ri : RopeInv cap m r) {index : Nat} (hidx : index ≤ r.text.length) (bytes : List UInt8) :
    ∃ r', Rope.insert cap r index bytes = .ok r' ∧ RopeInv cap m r' ∧ r'.text = splice r.text index bytes := by
  unfold Rope.insert
  rw [if_neg (by rw [ri.len hm.1]; omega)]
  by_cases hne : r.text = []
  · rw [ri.isEmpty hm.1, hne]
    simp only [decide_true, if_true]
    obtain ⟨gs, k3, k4, k5, -⟩ := GapBuf.fromStrF_spec cap hcap _ bytes (Nat.lt_succ_self _)
    obtain ⟨s', h1, h2, h3, h4⟩ := pushAll_spec hm gs r.tree ri.inv ri.pos k5
    refine ⟨⟨s', r.cursor⟩, ?_, ⟨h2, h3, ?_⟩, ?_⟩
    · simp only [show GapBuf.fromStr cap bytes = _ from k3, bind_ok, h1, pure_ok]
    · intro c hc
      obtain ⟨U, e, V, hes, -⟩ := ri.cur c hc
      rw [ri.nil.mp hne] at hes
      simp at hes
    · have h0 : index = 0 := by rw [hne] at hidx; simpa using hidx
      rw [Rope.text, h4, k4, show content GapBuf.toVec (abs r.tree).es = [] from hne, h0]
      simp [splice]
  · rw [ri.isEmpty hm.1]
    simp only [hne, decide_false, Bool.false_eq_true, if_false]
    rcases insertFast_spec hm ri index bytes with hf | ⟨success, r', hf, ri', ht⟩
    · simp only [hf, bind_ok]
      exact insertSlow_spec hcap hm ri hne hidx bytes
    · simp only [hf, bind_ok]
      cases success with
      | true => exact ⟨r', rfl, ri', by simpa using ht⟩
      | false =>
        simp only [Bool.false_eq_true, if_false] at ht
        obtain ⟨r'', k1, k2, k3⟩ := insertSlow_spec hcap hm ri' (by rw [ht]; exact hne) (index := index) (by rw [ht]; exact hidx) bytes
        exact ⟨r'', k1, k2, by rw [k3, ht]⟩

end GB
