import Verif.Props.C22
import Verif.Props.C18
import Verif.Props.C07
import Verif.Props.C08

/-!
# The rope: invariant and the cached-cursor fast paths
-/

namespace GB
open Tree

/-- the text of a rope -/
def Rope.text (r : Rope) : List UInt8 := content GapBuf.toVec (abs r.tree).es

/-- A reachable rope: the tree is valid, no chunk is empty, and the cached cursor (if any) points to a leaf of the tree that
starts at the cached position. -/
structure RopeInv (cap : Nat) (m : Fill) (r : Rope) : Prop where
  inv : Inv (ropeLaw cap) m r.tree
  pos : ∀ x ∈ (abs r.tree).es, 0 < x.2.len
  cur : ∀ c, r.cursor = some c → ∃ U e V, (abs r.tree).es = U ++ (c.leaf, e) :: V ∧ unitLen ropeTrait U = c.pos

variable {cap : Nat} {m : Fill} {r : Rope}

theorem RopeInv.okE (ri : RopeInv cap m r) : ∀ x ∈ (abs r.tree).es, x.2.WF ∧ x.2.capacity = cap := ri.inv.okE

theorem RopeInv.text_length (ri : RopeInv cap m r) : r.text.length = unitLen ropeTrait (abs r.tree).es :=
  content_length (ropeContent cap) ri.inv.okE

theorem RopeInv.len (hm : 1 ≤ m.lo) (ri : RopeInv cap m r) : r.len = r.text.length := by
  rw [Rope.len, C07_rope_length hm ri.inv]; rfl

theorem RopeInv.isEmpty (hm : 1 ≤ m.lo) (ri : RopeInv cap m r) : r.isEmpty = decide (r.text = []) := by
  rw [Rope.isEmpty, C07_rope_length hm ri.inv, decide_eq_decide]
  show ((r.text.length : Int) = 0) ↔ _
  rw [← List.length_eq_zero_iff]; omega

theorem RopeInv.nil (ri : RopeInv cap m r) : r.text = [] ↔ (abs r.tree).es = [] := by
  constructor
  · intro h
    cases he : (abs r.tree).es with
    | nil => rfl
    | cons x es =>
      have h1 := ri.text_length
      have h2 := ri.pos x (by rw [he]; simp)
      rw [h, he, unitLen_cons] at h1
      simp [ropeTrait] at h1
      omega
  · intro h; rw [Rope.text, h]; rfl

theorem ropeNew_inv (hm : 1 ≤ m.lo) : RopeInv cap m Rope.new := by
  refine ⟨⟨1, new_inv _ _⟩, ?_, by intro c h; cases h⟩
  intro x hx
  rw [show (abs Rope.new.tree).es = [] from by rw [show Rope.new.tree = newTree ropeTrait from rfl, new_entries]] at hx
  cases hx

theorem toVec_nil {g : GapBuf} (h : g.WF) : g.toVec = [] ↔ g.len = 0 := by
  rw [← GapBuf.toVec_length g h, List.length_eq_zero_iff]

/-- `update_leaf` on a rope tree, for a closure that returns at most one new chunk -/
theorem rope_updateLeaf (hm : 1 ≤ m.lo ∧ m.lo + m.d ≤ 5) {s : Tree GapBuf Int} (hi : Inv (ropeLaw cap) m s) (hpos : ∀ x ∈ (abs s).es, 0 < x.2.len)
    {U V : List (Nat × GapBuf)} {l : Nat} {e e1 : GapBuf} {n1 : Option GapBuf} {f : GapBuf → M (GapBuf × Bool × Option GapBuf × Option GapBuf)}
    (hes : (abs s).es = U ++ (l, e) :: V) (hf : f e = .ok (e1, true, n1, none)) (ok1 : e1.WF ∧ e1.capacity = cap)
    (okn : ∀ b, n1 = some b → b.WF ∧ b.capacity = cap) :
    ∃ b ids s', updateLeaf ropeTrait s l f = .ok (b, ids, s') ∧ Inv (ropeLaw cap) m s' ∧ (∀ x ∈ (abs s').es, 0 < x.2.len) ∧
      content GapBuf.toVec (abs s').es = content GapBuf.toVec U ++ (e1.toVec ++ n1.toList.flatMap GapBuf.toVec) ++ content GapBuf.toVec V ∧
      (b = true → ∃ x W, (abs s').es = U ++ (l, x) :: W) := by
  have hrem : survivors ropeTrait e1 n1 none = [] → LawE (ropeLaw cap) ∧ Neutral (ropeLaw cap) e1 := by
    intro h
    refine ⟨ropeLawE cap, rope_neutral ?_⟩
    have := List.filter_eq_nil_iff.mp h e1 (by simp)
    simpa using this
  obtain ⟨b, ids, s', h1, h2, h3⟩ := C20_update_leaf (B := ropeTrait) (A := ropeLaw cap) hm hi hes hf ok1 okn (by intro b h; cases h) (Or.inl rfl) hrem
  have hsok : ∀ x ∈ survivors ropeTrait e1 n1 none, (x.WF ∧ x.capacity = cap) ∧ 0 < x.len := by
    intro x hx
    rw [survivors, List.mem_filter] at hx
    obtain ⟨hx, hr⟩ := hx
    have : 0 < x.len := by
      have : ¬ x.len = 0 := by simpa [ropeTrait, GapBuf.canRemove] using hr
      omega
    refine ⟨?_, this⟩
    simp only [List.cons_append, List.mem_cons, List.mem_append, Option.mem_toList, Option.toList_none, List.not_mem_nil, or_false] at hx
    rcases hx with rfl | hx
    · exact ok1
    · exact okn x hx
  have hVok : ∀ x ∈ V, (x.2.WF ∧ x.2.capacity = cap) ∧ 0 < x.2.len := fun x hx =>
    ⟨hi.okE x (by show x ∈ (abs s).es; rw [hes]; simp [hx]), hpos x (by rw [hes]; simp [hx])⟩
  have hUok : ∀ x ∈ U, 0 < x.2.len := fun x hx => hpos x (by rw [hes]; simp [hx])
  have hc := C20_content (e := e1) (ropeContent cap) (fun x hx => (hsok x hx).1) (fun x hx => (hVok x hx).1) h3
  have hs : (survivors ropeTrait e1 n1 none).flatMap GapBuf.toVec = e1.toVec ++ n1.toList.flatMap GapBuf.toVec := by
    have key : ∀ xs : List GapBuf, (∀ x ∈ xs, x.WF) → (xs.filter fun x => !ropeTrait.canRemove x).flatMap GapBuf.toVec = xs.flatMap GapBuf.toVec := by
      intro xs
      induction xs with
      | nil => intro _; rfl
      | cons x xs ih =>
        intro h
        rw [List.filter_cons]
        split
        · simp [ih (fun y hy => h y (by simp [hy]))]
        · next hr =>
          rw [ih (fun y hy => h y (by simp [hy])), List.flatMap_cons]
          have : x.toVec = [] := by
            rw [toVec_nil (h x (by simp))]
            simpa [ropeTrait, GapBuf.canRemove] using hr
          rw [this, List.nil_append]
    rw [survivors, key]
    · simp
    · intro x hx
      simp only [List.cons_append, List.mem_cons, List.mem_append, Option.mem_toList, Option.toList_none, List.not_mem_nil, or_false] at hx
      rcases hx with rfl | hx
      · exact ok1.1
      · exact (okn x hx).1
  refine ⟨b, ids, s', h1, h2, ?_, by rw [hc, hs], ?_⟩
  · generalize hsv : survivors ropeTrait e1 n1 none = sv at h3 hsok
    generalize (abs s').es = es' at h3
    generalize (abs s').next = nx at h3
    cases h3 with
    | gone =>
      intro x hx
      rcases List.mem_append.mp hx with hx | hx
      · exact hUok x hx
      · exact (hVok x hx).2
    | one y =>
      intro x hx
      simp only [List.mem_append, List.mem_cons] at hx
      rcases hx with hx | rfl | hx
      · exact hUok x hx
      · exact (hsok y (by simp)).2
      · exact (hVok x hx).2
    | two y a =>
      intro x hx
      simp only [List.mem_append, List.mem_cons] at hx
      rcases hx with hx | rfl | rfl | hx
      · exact hUok x hx
      · exact (hsok y (by simp)).2
      · exact (hsok a (by simp)).2
      · exact (hVok x hx).2
    | three y a c =>
      intro x hx
      simp only [List.mem_append, List.mem_cons] at hx
      rcases hx with hx | rfl | rfl | rfl | hx
      · exact hUok x hx
      · exact (hsok y (by simp)).2
      · exact (hsok a (by simp)).2
      · exact (hsok c (by simp)).2
      · exact (hVok x hx).2
    | merged y a k z z' V' hV' hcm hz =>
      subst hV'
      intro x hx
      simp only [List.mem_append, List.mem_cons] at hx
      rcases hx with hx | rfl | rfl | hx
      · exact hUok x hx
      · exact (hsok y (by simp)).2
      · have hz1 := hVok (k, z) (by simp)
        have hcap : a.len + z.len ≤ a.capacity := by simpa [ropeTrait, GapBuf.canMerge] using hcm
        obtain ⟨z'', q1, q2, q3, q4⟩ := GapBuf.mergeLeft_spec z a hz1.1.1 (hsok a (by simp)).1.1 (by
          have := hz1.1.2
          have := (hsok a (by simp)).1.2
          simp only at *
          omega)
        rw [show ropeTrait.mergeLeft z a = z.mergeLeft a from rfl, q1] at hz
        cases hz
        show 0 < z'.len
        rw [← GapBuf.toVec_length _ q2, q4, List.length_append, GapBuf.toVec_length _ hz1.1.1]
        have := hz1.2
        simp only at this
        omega
      · exact (hVok x (by simp [hx])).2
  · intro hb
    subst hb
    generalize (abs s').es = es' at h3
    generalize (abs s').next = nx at h3
    generalize survivors ropeTrait e1 n1 none = sv at h3
    cases h3 with
    | one y => exact ⟨_, _, rfl⟩
    | two y a => exact ⟨_, _, rfl⟩
    | three y a c => exact ⟨_, _, rfl⟩
    | merged y a k z z' V' hV' hcm hz => exact ⟨_, _, rfl⟩

/-- the closure of the fast path of `Rope::insert` -/
theorem insertClosure_spec {e : GapBuf} (ok : e.WF ∧ e.capacity = cap) {offset : Nat} (ho : offset ≤ e.len) (bytes : List UInt8) :
    ∃ success e1 n1, Rope.insertClosure cap offset bytes e = .ok (success, (e1, true, n1, none)) ∧ (e1.WF ∧ e1.capacity = cap) ∧
      (∀ b, n1 = some b → b.WF ∧ b.capacity = cap) ∧
      e1.toVec ++ n1.toList.flatMap GapBuf.toVec = (if success then splice e.toVec offset bytes else e.toVec) ∧
      (offset + bytes.length < cap → success = true) := by
  have hl := GapBuf.toVec_length e ok.1
  unfold Rope.insertClosure
  split
  · next hlt =>
    obtain ⟨g, h1, h2, h3, h4⟩ := GapBuf.insertBytes_spec e ok.1 offset ho bytes (by rw [ok.2]; omega)
    refine ⟨true, g, none, ?_, ⟨h2, by rw [h3, ok.2]⟩, (by intro b h; cases h), ?_⟩
    · rw [h1]; rfl
    · exact ⟨by simp [h4, splice], fun _ => rfl⟩
  · next hlt =>
    obtain ⟨l, right, h1, h2, h3, h4, h5, h6, h7⟩ := GapBuf.split_spec e ok.1 offset ho
    have hll := GapBuf.toVec_length l h2
    simp only [h1, bind_ok]
    split
    · next hlt2 =>
      obtain ⟨g, k1, k2, k3, k4⟩ := GapBuf.pushBytes_spec l h2 bytes (by rw [h4, ok.2]; omega)
      refine ⟨true, g, some right, ?_, ⟨k2, by rw [k3, h4, ok.2]⟩, by intro b h; cases h; exact ⟨h3, by rw [h5, ok.2]⟩, ?_⟩
      · rw [k1]; rfl
      · exact ⟨by simp [k4, h6, h7, splice], fun _ => rfl⟩
    · next hlt2 =>
      by_cases hb : right.len + bytes.length ≤ right.capacity
      · obtain ⟨g, k1, k2, k3, k4⟩ := GapBuf.insertBytes_spec right h3 0 (by omega) bytes hb
        refine ⟨true, l, some g, ?_, ⟨h2, by rw [h4, ok.2]⟩, by intro b h; cases h; exact ⟨k2, by rw [k3, h5, ok.2]⟩, ?_⟩
        · rw [k1]; rfl
        · exact ⟨by simp [k4, h6, h7, splice], fun _ => rfl⟩
      · have k1 := GapBuf.insertBytes_full right h3 0 bytes (by omega)
        refine ⟨false, l, some right, ?_, ⟨h2, by rw [h4, ok.2]⟩, by intro b h; cases h; exact ⟨h3, by rw [h5, ok.2]⟩, ?_⟩
        · rw [k1]; rfl
        · refine ⟨by simp [h6, h7], fun hlt3 => ?_⟩
          have : l.len ≤ offset := by rw [← hll, h6, List.length_take]; omega
          omega

/-- the fast path of `Rope::insert` -/
theorem insertFast_spec (hm : 1 ≤ m.lo ∧ m.lo + m.d ≤ 5) (ri : RopeInv cap m r) (index : Nat) (bytes : List UInt8) :
    Rope.insertFast cap r index bytes = .ok none ∨
      ∃ success r', Rope.insertFast cap r index bytes = .ok (some (success, r')) ∧ RopeInv cap m r' ∧
        r'.text = if success then splice r.text index bytes else r.text := by
  unfold Rope.insertFast
  cases hc : r.cursor with
  | none => exact Or.inl rfl
  | some c =>
    obtain ⟨pos, leaf⟩ := c
    obtain ⟨U, e, V, hes, hU⟩ := ri.cur _ hc
    simp only at hes hU ⊢
    split
    · next hle =>
      have hok := ri.okE (leaf, e) (by rw [hes]; simp)
      have hget : ∃ q, r.tree.getLf leaf = .ok ⟨e, q⟩ := by
        obtain ⟨h, ⟨lvl, g⟩, sz⟩ := ri.inv
        have he := (entries_mem g.wf).mp (show (leaf, e) ∈ entries r.tree by rw [show entries r.tree = _ from hes]; simp)
        unfold elm at he
        cases hL : r.tree.lf.get leaf with
        | none => rw [hL] at he; cases he
        | some L => rw [hL] at he; cases he; exact ⟨L.parent, by simp only [getLf, hL, unwrap_some]⟩
      obtain ⟨q, hq⟩ := hget
      rw [hq]
      simp only [bind_ok]
      split
      · next hle2 =>
        have hle2 : index ≤ pos + e.len := hle2
        obtain ⟨success, e1, n1, k1, k2, k3, k4, -⟩ := insertClosure_spec hok (offset := index - pos) (by show index - pos ≤ e.len; omega) bytes
        obtain ⟨b, ids, s', u1, u2, u3, u4, u5⟩ := rope_updateLeaf hm ri.inv ri.pos hes
          (f := fun e => do let (_, res) ← Rope.insertClosure cap (index - pos) bytes e; pure res) (by simp only [k1, bind_ok, pure_ok]) k2 k3
        right
        refine ⟨success, ⟨s', if b then some ⟨pos, leaf⟩ else none⟩, ?_, ⟨u2, u3, ?_⟩, ?_⟩
        · simp only [k1, bind_ok]
          rw [u1]
          rfl
        · intro c hc
          simp only at hc
          split at hc
          · next hb =>
            cases hc
            obtain ⟨x, W, hx⟩ := u5 hb
            exact ⟨U, x, W, hx, hU⟩
          · cases hc
        · rw [Rope.text, u4, k4, Rope.text, hes]
          simp only [content_append, content_cons]
          split
          · next hs =>
            have hUl : (content GapBuf.toVec U).length = pos := by
              rw [content_length (ropeContent cap) (fun x hx => ri.inv.okE x (by show x ∈ (abs r.tree).es; rw [hes]; simp [hx]))]
              exact hU
            have hel := GapBuf.toVec_length e hok.1
            have := splice_at (content GapBuf.toVec U) e.toVec (content GapBuf.toVec V) (index - pos) (by omega) bytes
            rw [show (content GapBuf.toVec U).length + (index - pos) = index by omega] at this
            rw [this, splice]
            simp
          · simp
      · exact Or.inl rfl
    · exact Or.inl rfl

/-- the fast path of `Rope::delete_range` -/
theorem deleteFast_spec (hm : 1 ≤ m.lo ∧ m.lo + m.d ≤ 5) (ri : RopeInv cap m r) {start stop : Nat} (hlt : start < stop) :
    Rope.deleteFast r start stop = .ok none ∨
      ∃ r', Rope.deleteFast r start stop = .ok (some r') ∧ RopeInv cap m r' ∧ r'.text = r.text.take start ++ r.text.drop stop := by
  unfold Rope.deleteFast
  cases hc : r.cursor with
  | none => exact Or.inl rfl
  | some c =>
    obtain ⟨pos, leaf⟩ := c
    obtain ⟨U, e, V, hes, hU⟩ := ri.cur _ hc
    simp only at hes hU ⊢
    split
    · next hle =>
      have hok := ri.okE (leaf, e) (by rw [hes]; simp)
      have hget : ∃ q, r.tree.getLf leaf = .ok ⟨e, q⟩ := by
        obtain ⟨h, ⟨lvl, g⟩, sz⟩ := ri.inv
        have he := (entries_mem g.wf).mp (show (leaf, e) ∈ entries r.tree by rw [show entries r.tree = _ from hes]; simp)
        unfold elm at he
        cases hL : r.tree.lf.get leaf with
        | none => rw [hL] at he; cases he
        | some L => rw [hL] at he; cases he; exact ⟨L.parent, by simp only [getLf, hL, unwrap_some]⟩
      obtain ⟨q, hq⟩ := hget
      rw [hq]
      simp only [bind_ok]
      split
      · next hle2 =>
        have hle2 : stop ≤ pos + e.len := hle2
        obtain ⟨g, k1, k2, k3, k4⟩ := GapBuf.delete_spec e hok.1 (start - pos) (stop - pos)
        obtain ⟨b, ids, s', u1, u2, u3, u4, u5⟩ := rope_updateLeaf hm ri.inv ri.pos hes (n1 := none)
          (f := fun e => do let g ← e.delete (start - pos) (stop - pos); pure (g, true, none, none)) (by simp only [k1, bind_ok, pure_ok])
          ⟨k2, by rw [k3, hok.2]⟩ (by intro b h; cases h)
        right
        refine ⟨⟨s', if b then some ⟨pos, leaf⟩ else none⟩, ?_, ⟨u2, u3, ?_⟩, ?_⟩
        · rw [u1]
          rfl
        · intro c hc
          simp only at hc
          split at hc
          · next hb =>
            cases hc
            obtain ⟨x, W, hx⟩ := u5 hb
            exact ⟨U, x, W, hx, hU⟩
          · cases hc
        · rw [Rope.text, u4, k4, Rope.text, hes]
          simp only [content_append, content_cons, Option.toList_none, List.flatMap_nil, List.append_nil]
          have hUl : (content GapBuf.toVec U).length = pos := by
            rw [content_length (ropeContent cap) (fun x hx => ri.inv.okE x (by show x ∈ (abs r.tree).es; rw [hes]; simp [hx]))]
            exact hU
          have hel : e.toVec.length = e.len := GapBuf.toVec_length e hok.1
          rw [show min (start - pos) (stop - pos) = start - pos by omega]
          rw [List.take_append, List.drop_append, hUl, List.take_append_of_le_length (by omega),
            List.drop_append_of_le_length (by omega), List.take_of_length_le (l := content GapBuf.toVec U) (by omega),
            List.drop_of_length_le (l := content GapBuf.toVec U) (by omega)]
          simp
      · exact Or.inl rfl
    · exact Or.inl rfl

end GB
