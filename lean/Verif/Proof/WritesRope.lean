import Verif.Proof.WritesSearch
import Verif.Proof.WritesUpdate
import Verif.Proof.WritesDrain
import Verif.Proof.RopePanics

/-!
# Nodes changed by `Rope::delete_range`
-/

namespace GB
open Tree

variable {cap : Nat} {m : Fill} {r r' : Rope} {h : Nat}

/-- the fast path at the cached cursor -/
theorem deleteFast_writes (hm : 1 ≤ m.lo ∧ m.lo + m.d ≤ 5) (ri : RopeInv cap m r) (hi : InvH (ropeLaw cap) m h r.tree) {start stop : Nat}
    (hr : Rope.deleteFast r start stop = .ok (some r')) : Writes r.tree r'.tree (30 * h + 16) := by
  obtain ⟨⟨lvl, g⟩, sz⟩ := hi
  unfold Rope.deleteFast at hr
  split at hr
  · cases hr
  · next pos leaf hc =>
    obtain ⟨U, e, V, hes, hU⟩ := ri.cur _ hc
    have hok := ri.okE (leaf, e) (by rw [hes]; simp)
    obtain ⟨u, v, -, -, -, hel⟩ := entries_split g.wf hes
    split at hr
    · obtain ⟨node, -, hr⟩ := bind_inv hr
      split at hr
      · obtain ⟨⟨b, ids, t⟩, h1, hr⟩ := bind_inv hr
        cases hr
        obtain ⟨x, k1, k2, k3, k4⟩ := GapBuf.delete_spec e hok.1 (start - pos) (stop - pos)
        exact updateLeaf_writes (e1 := x) (need := true) (n1 := none) (n2 := none) hm g sz hel (by simp only [k1, bind_ok, pure_ok])
          (by have hx : (ropeLaw cap).okE x := ⟨k2, by rw [k3, hok.2]⟩
              cases hcr : ropeTrait.canRemove x <;> simpa [normalizeUpd, hcr] using hx) (.inl rfl) h1
      · cases hr
    · cases hr

/-- an unread `drain` of a range of bytes -/
theorem ropeDrain_touches (hm : 1 ≤ m.lo ∧ m.lo + m.d ≤ 5) (ri : RopeInv cap m r) (hi : InvH (ropeLaw cap) m h r.tree) {start stop : Nat}
    (hlt : start < stop) (hle : stop ≤ r.text.length) {a b : QueryResult} (qa : query ropeQuery r.tree start = .ok (some a))
    (qb : query ropeQuery r.tree stop = .ok (some b)) {d : Drain GapBuf Int} {es : List GapBuf} {t : Tree GapBuf Int}
    (h1 : drainNew ropeTrait r.tree (some a) (some b) = .ok d) (h2 : drainDrop ropeTrait d = .ok (es, t)) :
    Touches r.tree t (54 * h * (5 * h + 2) + 63 * h + 71) := by
  have hd : drain ropeTrait r.tree a b 0 = .ok ([], es, t) := by
    rw [drain, h1]
    simp only [bind_ok, drainTake, h2, pure_ok]
  have hle' := hle
  rw [ri.text_length] at hle'
  have hes0 : (abs r.tree).es ≠ [] := by intro h; rw [h] at hle'; simp at hle'; omega
  obtain ⟨Ua, la, ea, Va, oa, a1, a2, a3, a4, a5, a6⟩ := C09_query_len (ropeLenLaw cap) hm.1 ri.inv hes0 start
  obtain ⟨Ub, lb, eb, Vb, ob, b1, b2, b3, b4, b5, b6⟩ := C09_query_len (ropeLenLaw cap) hm.1 ri.inv hes0 stop
  have hoa : oa < ea.len := a4 (by omega)
  have hob : ob ≤ eb.len := by
    rcases Nat.lt_or_ge stop (unitLen ropeTrait (abs r.tree).es) with h | h
    · exact Nat.le_of_lt (b4 h)
    · exact Nat.le_of_eq (b6 (by omega))
  rw [show query ropeQuery r.tree start = _ from a2] at qa
  rw [show query ropeQuery r.tree stop = _ from b2] at qb
  cases qa
  cases qb
  obtain ⟨⟨lvl, g⟩, sz⟩ := hi
  obtain ⟨ua, va, o1, rfl, -, hea⟩ := entries_split g.wf a1
  obtain ⟨ub, vb, o2, rfl, -, heb⟩ := entries_split g.wf b1
  have hpos : ∀ l x, elm r.tree l = some x → 0 < ropeTrait.rleLen x := fun l x hx => ri.pos (l, x) ((entries_mem g.wf).mpr hx)
  exact drain_touches hm.1 hm.2 g sz (ropeContent cap).splitLen o1 hea (Nat.le_of_lt hoa) o2 heb hob
    (notBehind_of_pos g.wf hpos o1 o2 heb hob (by show unitLen ropeTrait _ + oa ≤ unitLen ropeTrait _ + ob; omega)) (endPos_of_pos hpos heb)
    (.inr (.inl hoa)) hd

/-- `Rope::delete_range` -/
theorem ropeDelete_touches (hm : 1 ≤ m.lo ∧ m.lo + m.d ≤ 5) (ri : RopeInv cap m r) (hi : InvH (ropeLaw cap) m h r.tree) {start stop : Nat}
    (hr : r.deleteRange start stop = .ok r') : Touches r.tree r'.tree (54 * h * (5 * h + 2) + 63 * h + 71) := by
  obtain ⟨⟨lvl, g⟩, sz⟩ := id hi
  have rk : Ranked lvl h r.tree := g.ranked sz (fun _ h => h.elim)
  have hpos := g.wf.h_pos
  have small : ∀ {t : Tree GapBuf Int}, Writes r.tree t (30 * h + 16) → Touches r.tree t (54 * h * (5 * h + 2) + 63 * h + 71) :=
    fun w => Touches.of_writes (w.mono (by omega))
  have htl := ri.text_length
  unfold Rope.deleteRange at hr
  split at hr
  · cases hr; exact (Touches.refl _).mono (by omega)
  have hlen := ri.len hm.1
  simp only at hr
  split at hr
  · cases hr; exact (Touches.refl _).mono (by omega)
  next hne =>
  rw [hlen] at hr hne
  have hlt : min start (min stop r.text.length) < min stop r.text.length := by omega
  have hle : min stop r.text.length ≤ r.text.length := by omega
  generalize min stop r.text.length = hi' at hr hlt hle
  generalize min start hi' = lo at hr hlt
  obtain ⟨o, h1, hr⟩ := bind_inv hr
  split at hr
  · cases hr
    exact small (deleteFast_writes hm ri hi h1)
  · split at hr
    · obtain ⟨⟨c, ids, t⟩, h2, hr⟩ := bind_inv hr
      have w := updateLeafBySearch_writes g rk h2
      simp only at hr
      split at hr
      · cases hr; exact small w
      · obtain ⟨_, -, hr⟩ := bind_inv hr
        cases hr; exact small w
    · obtain ⟨a, qa, hr⟩ := bind_inv hr
      obtain ⟨b, qb, hr⟩ := bind_inv hr
      split at hr
      · next a b =>
        split at hr
        · obtain ⟨leaf, -, hr⟩ := bind_inv hr
          split at hr
          · obtain ⟨⟨o, t⟩, h2, hr⟩ := bind_inv hr
            cases hr
            exact small (removeLeaf_writes g sz h2)
          · obtain ⟨x, -, hr⟩ := bind_inv hr
            obtain ⟨t, h2, hr⟩ := bind_inv hr
            cases hr
            have rk1 : ∀ l L, Ranked lvl h (r.tree.setLf l L) := fun _ _ => rk.inn rfl
            exact small ((Writes.setLf _ _ _).seq (recursiveUpdateCache_writes (rk1 _ _) h2).1 (by omega))
        · obtain ⟨d, h2, hr⟩ := bind_inv hr
          obtain ⟨⟨es, t⟩, h3, hr⟩ := bind_inv hr
          cases hr
          exact ropeDrain_touches hm ri hi hlt hle qa qb h2 h3
      · next hno =>
        exfalso
        have hle' := hle
        rw [htl] at hle'
        have hes0 : (abs r.tree).es ≠ [] := by intro h; rw [h] at hle'; simp at hle'; omega
        obtain ⟨Ua, la, ea, Va, oa, -, a2, -⟩ := C09_query_len (ropeLenLaw cap) hm.1 ri.inv hes0 lo
        obtain ⟨Ub, lb, eb, Vb, ob, -, b2, -⟩ := C09_query_len (ropeLenLaw cap) hm.1 ri.inv hes0 hi'
        rw [show query ropeQuery r.tree lo = _ from a2] at qa
        rw [show query ropeQuery r.tree hi' = _ from b2] at qb
        cases qa
        cases qb
        exact hno _ _ rfl rfl

end GB
