import Verif.Proof.WritesInsert
import Verif.Proof.WritesRemove
import Verif.Proof.UpdateLeaf

/-!
# The nodes written by `update_leaf`
-/

namespace GB
variable {E C D : Type}
open Tree

section
variable {s s' s1 : Tree E C} {lvl : Nat → Nat} {h : Nat} {B : Trait E C D} {A : Law B}

theorem updateLeaf_writes {m : Fill} (hm : 1 ≤ m.lo ∧ m.lo + m.d ≤ 5) (g : Good A s lvl h) (sz : Sz m s h) {l : Nat} {e : E}
    (hel : elm s l = some e) {f : E → M (E × Bool × Option E × Option E)} {e1 : E} {need : Bool} {n1 n2 : Option E}
    (hf : f e = .ok (e1, need, n1, n2)) (okX : A.okE (normalizeUpd B e1 n1 n2).1)
    (hneed : need = true ∨ B.elemCache (normalizeUpd B e1 n1 n2).1 = B.elemCache e) {b : Bool} {ids : List Nat}
    (hr : updateLeaf B s l f = .ok (b, ids, s')) : Writes s s' (30 * h + 16) := by
  have r : Ranked lvl h s := g.ranked sz (fun _ h => h.elim)
  obtain ⟨p, hq⟩ := Option.ne_none_iff_exists'.mp (elm_live hel)
  obtain ⟨e2, hL, he2⟩ := getLf_of hq
  rw [hel] at he2
  cases he2
  unfold updateLeaf at hr
  simp only [getLf_ok hL, bind_ok, hf] at hr
  obtain ⟨⟨x, a1, a2⟩, ht⟩ : ∃ t, t = normalizeUpd B e1 n1 n2 := ⟨_, rfl⟩
  simp only [← ht] at hr okX hneed
  obtain ⟨s1, k, hr⟩ := bind_inv hr
  -- the element is replaced in place
  have step : Good A s1 lvl h ∧ Sz m s1 h ∧ lpar s1 l = some p ∧ Writes s s1 (h + 2) := by
    split at k
    · have w := (Writes.setLf s l ⟨x, p⟩).seq (recursiveUpdateCache_writes (r.setLf _ _) k).1 (Nat.le_refl _)
      obtain ⟨s2, k1, k2, k3, k4, k5⟩ := Good.upd g hL okX none (by intro d _ hd; cases hd)
      rw [k] at k1
      cases k1
      exact ⟨k2, SzX.congr k3 sz, (k3.lf l).trans (lpar_of hL), w.mono (by omega)⟩
    · rename_i hnd
      obtain ⟨k2, k3, k4⟩ := Good.same_cache g hL okX (hneed.resolve_left hnd)
      cases k
      exact ⟨k2, SzX.congr k3 sz, (k3.lf l).trans (lpar_of hL), (Writes.setLf _ _ _).mono (by omega)⟩
  obtain ⟨g1, sz1, hpar, w1⟩ := step
  have r1 : Ranked lvl h s1 := g1.ranked sz1 (fun _ h => h.elim)
  obtain ⟨i, hed⟩ := g1.wf.lpar_edge hpar
  obtain ⟨N, hN⟩ := lnk_isSome.mp (edge_live hed)
  have hl := (g1.wf.klf hed).1
  have htop := (r1 p N hN).top
  split at hr
  · obtain ⟨_, -, hr⟩ := bind_inv hr
    obtain ⟨par, hp, hr⟩ := bind_inv hr
    obtain ⟨slot, -, hr⟩ := bind_inv hr
    obtain ⟨⟨c, cs⟩, hrm, hr⟩ := bind_inv hr
    obtain ⟨s2, e2, hr⟩ := bind_inv hr
    cases hr
    have r2 : Ranked lvl h { s1 with lf := s1.lf.remove l } := r1.inn rfl
    have f2 := r2 p par (getIn_inv hp)
    have r3 := r2.setIn (f2.erase (N := par) hrm)
    have w2 := (w1.trans (Writes.removeLf s1 l)).trans (Writes.setIn _ p { par with children := cs })
    split at e2
    · exact w2.seq (handleLackF_writes _ _ _ _ r3 e2) (by omega)
    · cases e2
      exact w2.mono (by omega)
  · cases a1 with
    | none =>
      obtain ⟨_, -, hr⟩ := bind_inv hr
      cases hr
      exact w1.mono (by omega)
    | some a =>
      obtain ⟨mg, hmg, hr⟩ := bind_inv hr
      cases mg with
      | some rr =>
        cases hr
        cases a2 with
        | some _ => cases hmg
        | none =>
          obtain ⟨par, -, hmg⟩ := bind_inv hmg
          obtain ⟨slot, -, hmg⟩ := bind_inv hmg
          split at hmg
          · obtain ⟨next, -, hmg⟩ := bind_inv hmg
            split at hmg
            · obtain ⟨e', -, hmg⟩ := bind_inv hmg
              obtain ⟨s2, k2, hmg⟩ := bind_inv hmg
              cases hmg
              exact (w1.trans (Writes.setLf s1 _ _)).seq (recursiveUpdateCache_writes (r1.setLf _ _) k2).1 (by omega)
            · cases hmg
          · cases hmg
      | none =>
        obtain ⟨par, hp, hr⟩ := bind_inv hr
        obtain ⟨⟨p2, s2⟩, hsp, hr⟩ := bind_inv hr
        have hp := getIn_inv hp
        rw [hN] at hp
        rw [← Option.some.inj hp] at hsp
        have room : ∃ lvl2 h2, h2 ≤ h + 1 ∧ Ranked lvl2 h2 s2 ∧ Writes s1 s2 (22 * h + 3) := by
          have szq := (sz1 p (edge_live hed) (fun h => h)).1
          split at hsp
          · rename_i hfull
            have hten : 10 ≤ (chs s1 p).length := by
              rw [chs_of hN]
              simp only [MAXC, List.length_cons] at hfull
              have : a2.toList.length ≤ 1 := by cases a2 <;> simp
              omega
            obtain ⟨s3, lvl2, h2, q1, q2, q3, -, -, q6, -⟩ := split_spec hm.1 (by omega) g1 (edge_live hed)
              (fun y hy hyx => sz1 y hy (fun h => h)) (by omega) (by omega) (by omega)
            rw [q1] at hsp
            simp only [bind_ok] at hsp
            obtain ⟨nd, -, hsp⟩ := bind_inv hsp
            cases hsp
            refine ⟨lvl2, h2, ?_, q2.ranked q3 (fun _ h => h.elim), (split_writes r1 q1).mono (by omega)⟩
            rcases q6 with q6 | q6 <;> omega
          · cases hsp
            exact ⟨lvl, h, by omega, r1, (Writes.refl _).mono (by omega)⟩
        obtain ⟨lvl2, h2, hh, r2, w2⟩ := room
        simp only at hr
        obtain ⟨par2, hp2, hr⟩ := bind_inv hr
        have hp2 := getIn_inv hp2
        obtain ⟨slot, -, hr⟩ := bind_inv hr
        obtain ⟨cs, hv, hr⟩ := bind_inv hr
        obtain ⟨cs2, hv2, hr⟩ := bind_inv hr
        obtain ⟨_, -, hr⟩ := bind_inv hr
        obtain ⟨s3, k3, hr⟩ := bind_inv hr
        cases hr
        have f1 := vinsert_leaf_ranks (r2 p2 par2 hp2) hv
        have w3 := w1.trans w2
        cases a2 with
        | none =>
          cases hv2
          have w4 := (w3.trans (Writes.insertLf s2 ⟨a, p2⟩)).trans (Writes.setIn _ p2 { par2 with children := cs })
          have r4 : Ranked lvl2 h2 ((allocLeafChild B s2 a p2).2.setIn p2 { par2 with children := cs }) :=
            Ranked.setIn (s := (allocLeafChild B s2 a p2).2) (r2.inn rfl) f1
          exact w4.seq (recursiveUpdateCache_writes r4 k3).1 (by omega)
        | some b =>
          have f2 := vinsert_leaf_ranks f1 hv2
          have w4 := ((w3.trans (Writes.insertLf s2 ⟨a, p2⟩)).trans (Writes.insertLf _ ⟨b, p2⟩)).trans (Writes.setIn _ p2 { par2 with children := cs2 })
          have r4 : Ranked lvl2 h2 ((allocLeafChild B (allocLeafChild B s2 a p2).2 b p2).2.setIn p2 { par2 with children := cs2 }) :=
            Ranked.setIn (s := (allocLeafChild B (allocLeafChild B s2 a p2).2 b p2).2) (r2.inn rfl) f2
          exact w4.seq (recursiveUpdateCache_writes r4 k3).1 (by omega)

end
end GB
