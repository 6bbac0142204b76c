import Verif.Proof.RopeText
import Verif.Proof.SpineHeight
import Verif.Spec.Text

/-!
# The rope: histories
-/

namespace GB
open Tree

variable {cap : Nat} {m : Fill} {r : Rope}

/-- the tree of a rope that is not empty has `depth` levels -/
theorem RopeInv.depth_low (hm : 1 ≤ m.lo) (ri : RopeInv cap m r) (hne : r.text ≠ []) {n : Nat} (hd : ∀ d, depth r.tree = .ok d → d ≤ n) :
    ∃ h, h ≤ n ∧ InvH (ropeLaw cap) m h r.tree := by
  obtain ⟨h, hi⟩ := ri.inv
  have ne := hi.ne hm
  obtain ⟨lvl, g⟩ := hi.ex
  refine ⟨h, hd h (depth_spec g.wf ne ?_), hi⟩
  intro ho
  exact hne (ri.nil.mpr (by show entries r.tree = []; simp [entries, ho]))

theorem ropeBytes_empty (hm : 1 ≤ m.lo) (ri : RopeInv cap m r) (hne : r.text = []) : r.toBytes = .ok [] := by
  obtain ⟨h, hi⟩ := ri.inv
  have ne := hi.ne hm
  obtain ⟨lvl, g⟩ := hi.ex
  have ho : order r.tree = [] := by
    rw [← abs_nil hi]; exact ri.nil.mp hne
  rw [Rope.toBytes, Rope.iter, firstPath_empty g.wf ne ho]
  rfl

/-- the fill bound after an edit: only deletes of two or more bytes lower it -/
def fillAfter (m : Fill) : RopeOp → Fill
  | .insert _ _ => m
  | .delete a b => if b ≤ a + 1 then m else m.drained

theorem ropeStep_spec (hcap : 0 < cap) (hm : 1 ≤ m.lo ∧ m.lo + m.d ≤ 5) (ri : RopeInv cap m r) {o : RopeOp}
    (hd : (r.text ≠ [] → ∃ h, h ≤ 8 ∧ InvH (ropeLaw cap) m h r.tree) ∨ o.run cap r ≠ .error .panic) (hv : o.valid r.text) : ∃ r', o.run cap r = .ok r' ∧ RopeInv cap (fillAfter m o) r' ∧ r'.text = o.edit r.text := by
  cases o with
  | insert i bytes => exact ropeInsert_spec hcap hm ri hv bytes
  | delete a b =>
    have hed : (RopeOp.delete a b).edit r.text = r.text.take a ++ r.text.drop (max a b) := by
      rw [RopeOp.edit]
      split
      · rw [show max a b = b by omega]
      · rw [show max a b = a by omega]; simp
    by_cases hne : r.text = []
    · refine ⟨r, ?_, ri.mono (by
        rw [fillAfter]; split
        · exact ⟨Nat.le_refl _, Nat.le_refl _⟩
        · exact Fill.drained_le hm.1), by rw [hed, hne]; simp⟩
      rw [RopeOp.run, Rope.deleteRange, ri.isEmpty hm.1, hne]
      rfl
    · obtain ⟨h, hh, hi⟩ : ∃ h, (h ≤ 8 ∨ Rope.deleteRange r a b ≠ .error .panic) ∧ InvH (ropeLaw cap) m h r.tree := by
        rcases hd with hd | hd
        · obtain ⟨h, hh, hi⟩ := hd hne
          exact ⟨h, .inl hh, hi⟩
        · obtain ⟨h, hi⟩ := ri.inv
          exact ⟨h, .inr hd, hi⟩
      obtain ⟨r', h1, h2, h3⟩ := ropeDelete_spec hm ri hi a b hh
      exact ⟨r', h1, h2, by rw [h3, hed]⟩

/-- what is observed of a rope agrees with a text -/
structure RopeShows (r : Rope) (t : List UInt8) : Prop where
  bytes : r.toBytes = .ok t
  len : r.len = t.length
  empty : r.isEmpty = decide (t = [])

theorem RopeInv.shows (hm : 1 ≤ m.lo) (ri : RopeInv cap m r) (hd : r.text ≠ [] → ∃ h, h ≤ 9 ∧ InvH (ropeLaw cap) m h r.tree) : RopeShows r r.text := by
  refine ⟨?_, ri.len hm, ri.isEmpty hm⟩
  by_cases hne : r.text = []
  · rw [hne]; exact ropeBytes_empty hm ri hne
  · obtain ⟨h, hh, hi⟩ := hd hne
    exact ropeBytes_spec hm hi hh

theorem ropeRun_spec (hcap : 0 < cap) : ∀ (os : List RopeOp) (r : Rope), RopeInv cap ⟨1, 4⟩ r → validEdits r.text os →
    (∀ k r' d, ropeRun cap r (os.take k) = .ok r' → depth r'.tree = .ok d → d ≤ 8) →
    ∃ r', ropeRun cap r os = .ok r' ∧ RopeInv cap ⟨1, 4⟩ r' ∧ r'.text = editAll r.text os ∧ RopeShows r' (editAll r.text os) := by
  intro os
  induction os with
  | nil =>
    intro r ri _ hd
    refine ⟨r, rfl, ri, rfl, ri.shows (Nat.le_refl 1) fun hne => ?_⟩
    obtain ⟨h, hh, hi⟩ := ri.depth_low (Nat.le_refl 1) hne (fun d => hd 0 r d rfl)
    exact ⟨h, by omega, hi⟩
  | cons o os ih =>
    intro r ri hv hd
    obtain ⟨r1, h1, h2, h3⟩ := ropeStep_spec hcap (by decide) ri (.inl fun hne => ri.depth_low (Nat.le_refl 1) hne (fun d => hd 0 r d rfl)) hv.1
    have hf : fillAfter ⟨1, 4⟩ o = ⟨1, 4⟩ := by
      cases o with
      | insert => rfl
      | delete a b => simp [fillAfter, Fill.drained]
    rw [hf] at h2
    obtain ⟨r', k1, k2, k3, k4⟩ := ih r1 h2 (by rw [h3]; exact hv.2) (by
      intro k r' d hk
      refine hd (k + 1) r' d ?_
      rw [List.take_succ_cons, ropeRun, h1, bind_ok]
      exact hk)
    rw [h3] at k3 k4
    refine ⟨r', ?_, k2, k3, k4⟩
    rw [ropeRun, h1, bind_ok]
    exact k1

/-- inserts and deletes of single bytes, the text always below `n` bytes -/
def SmallEdits (n : Nat) : List UInt8 → List RopeOp → Prop
  | t, [] => t.length < n
  | t, o :: os => t.length < n ∧ (∀ a b, o = .delete a b → b ≤ a + 1) ∧ SmallEdits n (o.edit t) os

theorem RopeInv.entries_le (ri : RopeInv cap m r) : (abs r.tree).es.length ≤ r.text.length := by
  rw [ri.text_length]
  have := ri.pos
  generalize (abs r.tree).es = es at this
  induction es with
  | nil => simp
  | cons x es ih =>
    have h1 := ih (fun y hy => this y (by simp [hy]))
    have h2 : 0 < ropeTrait.rleLen x.2 := this x (by simp)
    rw [unitLen_cons, List.length_cons]
    omega

theorem ropeRun_small (hcap : 0 < cap) : ∀ (os : List RopeOp) (r : Rope), RopeInv cap 5 r → validEdits r.text os → SmallEdits 781250 r.text os →
    ∃ r', ropeRun cap r os = .ok r' ∧ RopeInv cap 5 r' ∧ RopeShows r' (editAll r.text os) := by
  intro os
  induction os with
  | nil =>
    intro r ri _ hs
    refine ⟨r, rfl, ri, ri.shows (by decide) fun hne => ?_⟩
    obtain ⟨h, hh, hi⟩ := C18_height ri.inv (by decide) (Nat.lt_of_le_of_lt ri.entries_le hs)
    exact ⟨h, by omega, hi⟩
  | cons o os ih =>
    intro r ri hv hs
    obtain ⟨s1, s2, s3⟩ := hs
    obtain ⟨r1, h1, h2, h3⟩ := ropeStep_spec hcap (by decide) ri (.inl fun hne => C18_height ri.inv (by decide) (Nat.lt_of_le_of_lt ri.entries_le s1)) hv.1
    have hf : fillAfter 5 o = 5 := by
      cases o with
      | insert => rfl
      | delete a b => simp [fillAfter, s2 a b rfl]
    rw [hf] at h2
    obtain ⟨r', k1, k2, k3⟩ := ih r1 h2 (by rw [h3]; exact hv.2) (by rw [h3]; exact s3)
    rw [h3] at k3
    refine ⟨r', ?_, k2, k3⟩
    rw [ropeRun, h1, bind_ok]
    exact k1

/-- histories without a bound: unless an edit panics -/
theorem ropeRun_any (hcap : 0 < cap) : ∀ (os : List RopeOp) (r : Rope), RopeInv cap ⟨1, 4⟩ r → validEdits r.text os → ropeRun cap r os ≠ .error .panic →
    ∃ r', ropeRun cap r os = .ok r' ∧ RopeInv cap ⟨1, 4⟩ r' ∧ r'.text = editAll r.text os := by
  intro os
  induction os with
  | nil => intro r ri _ _; exact ⟨r, rfl, ri, rfl⟩
  | cons o os ih =>
    intro r ri hv hn
    obtain ⟨r1, h1, h2, h3⟩ := ropeStep_spec hcap (by decide) ri (.inr fun h => hn (by rw [ropeRun, h]; rfl)) hv.1
    have hf : fillAfter ⟨1, 4⟩ o = ⟨1, 4⟩ := by
      cases o with
      | insert => rfl
      | delete a b => simp [fillAfter, Fill.drained]
    rw [hf] at h2
    have hr : ropeRun cap r (o :: os) = ropeRun cap r1 os := by rw [ropeRun, h1, bind_ok]
    rw [hr] at hn ⊢
    obtain ⟨r', k1, k2, k3⟩ := ih r1 h2 (by rw [h3]; exact hv.2) hn
    exact ⟨r', k1, k2, by rw [k3, h3]; rfl⟩

/-- the text always below `n` bytes -/
def ShortEdits (n : Nat) : List UInt8 → List RopeOp → Prop
  | t, [] => t.length < n
  | t, o :: os => t.length < n ∧ ShortEdits n (o.edit t) os

theorem RopeInv.low (ri : RopeInv cap ⟨1, 4⟩ r) (hs : r.text.length < 390626) : ∃ h, h ≤ 8 ∧ InvH (ropeLaw cap) ⟨1, 4⟩ h r.tree :=
  ri.inv.height (Nat.le_refl 1) (k := 8) (by decide) (Nat.lt_of_le_of_lt ri.entries_le hs)

theorem ropeRun_short (hcap : 0 < cap) : ∀ (os : List RopeOp) (r : Rope), RopeInv cap ⟨1, 4⟩ r → validEdits r.text os → ShortEdits 390626 r.text os →
    ∃ r', ropeRun cap r os = .ok r' ∧ RopeInv cap ⟨1, 4⟩ r' ∧ RopeShows r' (editAll r.text os) := by
  intro os
  induction os with
  | nil =>
    intro r ri _ hs
    refine ⟨r, rfl, ri, ri.shows (Nat.le_refl 1) fun _ => ?_⟩
    obtain ⟨h, hh, hi⟩ := ri.low hs
    exact ⟨h, by omega, hi⟩
  | cons o os ih =>
    intro r ri hv hs
    obtain ⟨r1, h1, h2, h3⟩ := ropeStep_spec hcap (by decide) ri (.inl fun _ => ri.low hs.1) hv.1
    have hf : fillAfter ⟨1, 4⟩ o = ⟨1, 4⟩ := by
      cases o with
      | insert => rfl
      | delete a b => simp [fillAfter, Fill.drained]
    rw [hf] at h2
    obtain ⟨r', k1, k2, k3⟩ := ih r1 h2 (by rw [h3]; exact hv.2) (by rw [h3]; exact hs.2)
    rw [h3] at k3
    refine ⟨r', ?_, k2, k3⟩
    rw [ropeRun, h1, bind_ok]
    exact k1

end GB
