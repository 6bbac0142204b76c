import Verif.Proof.Heal
import Verif.Proof.UpdateRange
import Verif.Proof.RangesTree
import Verif.Proof.EditHistory

/-!
# The iteration order of the hash maps makes no difference
-/

namespace GB
variable {E C D σ Arg : Type} {B : Trait E C D} {A : Law B} {R : C → D → C → Prop} {s s' : Tree E C} {lvl : Nat → Nat} {h : Nat}
open Tree

theorem dirtyStep_rc {dm dm' : List (Idx × D)} {v v' : List Idx} {k : Idx} (hd : dirtyStep B s dm v k = .ok (s', dm', v')) : s'.rootCache = s.rootCache := by
  cases k with
  | leaf l =>
    obtain ⟨leaf, -, hd⟩ := bind_inv hd
    obtain ⟨par, -, hd⟩ := bind_inv hd
    obtain ⟨d, -, hd⟩ := bind_inv hd
    obtain ⟨cs, -, hd⟩ := bind_inv hd
    cases hd
    rfl
  | internal x =>
    obtain ⟨node, -, hd⟩ := bind_inv hd
    cases hp : node.parent with
    | none => rw [hp] at hd; cases hd; rfl
    | some p =>
      rw [hp] at hd
      obtain ⟨-, -, hd⟩ := bind_inv hd
      obtain ⟨par, -, hd⟩ := bind_inv hd
      obtain ⟨ch, -, hd⟩ := bind_inv hd
      obtain ⟨⟨c, d⟩, -, hd⟩ := bind_inv hd
      cases hd
      rfl

theorem dirtyLevel_rc : ∀ (ks : List Idx) {s s' : Tree E C} {dm dm' : List (Idx × D)} {v v' : List Idx}, dirtyLevel B s dm v ks = .ok (s', dm', v') → s'.rootCache = s.rootCache
  | [], _, _, _, _, _, _, hd => by cases hd; rfl
  | _ :: ks, _, _, _, _, _, _, hd => by
    obtain ⟨⟨s1, dm1, v1⟩, h1, hd⟩ := bind_inv hd
    exact (dirtyLevel_rc ks hd).trans (dirtyStep_rc h1)

theorem dirtyF_rc {ho : HashOrd E} : ∀ (n : Nat) {s s' : Tree E C} {dm : List (Idx × D)} {v : List Idx}, dirtyF B ho n s dm v = .ok s' → s'.rootCache = s.rootCache
  | 0, _, _, _, _, hd => by cases hd
  | n + 1, _, _, _, v, hd => by
    cases v with
    | nil => cases hd; rfl
    | cons k v =>
      obtain ⟨⟨s1, dm1, v1⟩, h1, hd⟩ := bind_inv hd
      exact (dirtyF_rc n hd).trans (dirtyLevel_rc _ h1)

/-- the propagation of the differences ends with the same tree in whatever order the nodes of a level are visited -/
theorem updateDirty_order (L : DiffLaw A R) {ho ho' : HashOrd E} (hho : ∀ l, (ho.idx l).Perm l) (hho' : ∀ l, (ho'.idx l).Perm l) {dm : List (Idx × D)}
    (di : DI A R s lvl h dm (dm.map Prod.fst) [] 0) : updateDirty B ho s dm = updateDirty B ho' s dm := by
  have hf : h + 1 < s.fuel + 2 + 0 := by
    have := di.good.wf.h_le
    simp only [Tree.fuel]
    omega
  obtain ⟨s1, e1, o1, g1⟩ := dirtyF_spec L hho (s.fuel + 2) s dm _ 0 di (Nat.zero_le _) hf
  obtain ⟨s2, e2, o2, g2⟩ := dirtyF_spec L hho' (s.fuel + 2) s dm _ 0 di (Nat.zero_le _) hf
  have ts := (o1.1.treeSame o1.2).symm.trans (o2.1.treeSame o2.2)
  have : s1 = s2 := tree_ext ts ((dirtyF_rc _ e1).trans (dirtyF_rc _ e2).symm) fun p hp => same_chs ts g1.wf g1.cinv g2.cinv _ p (Nat.le_refl _) hp
  simp only [updateDirty, e1, e2, bind_ok, this]

/-- `update` gives the same result, or the same panic -/
theorem update_order {m : Fill} (hm1 : 1 ≤ m.lo) (hm5 : m.lo + m.d ≤ 5) (L : DiffLaw A R) {ho ho' : HashOrd E} (hho : ∀ l, (ho.idx l).Perm l) (hho' : ∀ l, (ho'.idx l).Perm l)
    {f : σ → E → M (σ × E × Option D)} (hf : ClosureOK A R f) (st : σ) (g : Good A s lvl h) (sz : Sz m s h) (hsl : SplitLen B A.okE)
    {a b : Cursor} {ea eb : E} {Ua Va Ub Vb : List Nat}
    (ha : order s = Ua ++ a.leaf :: Va) (hea : elm s a.leaf = some ea) (hoa : a.offset ≤ B.rleLen ea)
    (hb : order s = Ub ++ b.leaf :: Vb) (heb : elm s b.leaf = some eb) (hob : b.offset ≤ B.rleLen eb)
    (hle : NotBehind B Ua Ub Vb a b eb) : update B ho f st s a b = update B ho' f st s a b := by
  obtain ⟨ei, s1, si, s2, lvl2, h2, X, Y, Z, c1, c2, g2, sz2, hst, hord, n1, n2, -⟩ := drain_cuts hm1 hm5 g sz hsl ha hea hoa hb heb hob hle
  simp only [update, c1, bind_ok, c2]
  cases hnp : si.newPos with
  | none => rfl
  | some c =>
    rw [hnp] at n2
    obtain ⟨l, hl, hcl⟩ : ∃ l, (Y ++ Z).head? = some l ∧ c = ⟨l, 0⟩ := by
      cases hc : Y ++ Z with
      | nil => rw [hc] at n2; simp at n2
      | cons x t => rw [hc] at n2; simp at n2; exact ⟨x, rfl, n2⟩
    subst hcl
    have hlm : l ∈ order s2 := by
      rw [hord, List.append_assoc]
      exact List.mem_append_right _ (List.mem_of_head? hl)
    by_cases h9 : h2 ≤ 9
    · have hstop : ei.newPos.map Cursor.leaf = Z.head? := by
        rw [n1, Option.map_map]
        cases Z.head? <;> rfl
      have nd := order_nodup g2.wf
      rw [hord, List.nodup_append] at nd
      obtain ⟨i, rest, p1, p2, p3⟩ := getPath_leaf g2.wf h9 ((mem_order g2.wf).mp hlm)
      have di : DI A R s2 lvl2 h2 [] (([] : List (Idx × D)).map Prod.fst) [] 0 :=
        ⟨⟨g2.wf, g2.cinv.mono (fun _ h => h.elim), g2.cok, fun hn => absurd trivial hn, g2.okE⟩, Sz.ne sz2 hm1, by simp, by simp, by simp, by simp, by simp,
          fun _ _ => rfl, by simp [dmGet]⟩
      have hfuel : Y.length < leafFuel s2 := by
        have := order_length_le g2.wf
        rw [hord] at this
        simp only [List.length_append] at this
        simp only [leafFuel]
        omega
      obtain ⟨st3, s3, dm, Y', r1, r2, r3, r4, r5⟩ := updateF_spec hf (stop := Z.head?) (fun _ => rfl) Y (leafFuel s2) s2 st X [] [] l i rest di hord hl
        (fun y hy hc => nd.2.2 y (by simp [hy]) y (List.mem_of_head? hc) rfl) (by simp) p2 p3 hfuel
      simp only [hstop, p1, bind_ok, r1]
      cases dm with
      | nil => rfl
      | cons x dm =>
        have : updateDirty B ho s3 (x :: dm) = updateDirty B ho' s3 (x :: dm) := updateDirty_order L hho hho' r3
        simp only [this]
    · simp only [getPath_full g2.wf (by omega : 10 ≤ h2) ((mem_order g2.wf).mp hlm)]
      rfl

/-- `update_leaves_with_arg_in_ranges` up to the insertion of the new pieces: the tree and the pieces are the same -/
theorem ranges_order {m : Fill} (hm1 : 1 ≤ m.lo) (L : DiffLaw A R) (hsub : SubLaw A R) {ho ho' : HashOrd E} (hho : ∀ l, (ho.idx l).Perm l) (hho' : ∀ l, (ho'.idx l).Perm l)
    {args : List (Nat × Nat × Nat × Arg)} (hgr : (ho.grp (args.map fun a => a.1).eraseDups).Perm (args.map fun a => a.1).eraseDups)
    (hgg : ho'.grp (args.map fun a => a.1).eraseDups = ho.grp (args.map fun a => a.1).eraseDups)
    {f : σ → E → Arg → M (σ × E)} (hf : ArgOK A f) (st : σ) (g : Good A s lvl h) (sz : Sz m s h) (hsl : SplitLen B A.okE)
    (hargs : ∀ a ∈ args, ∃ e, (a.1, e) ∈ entries s ∧ Fits a.2.1 a.2.2.1 (B.rleLen e)) :
    ∃ st1 s2 out, specRanges B f args (entries s) (ho.grp (args.map fun a => a.1).eraseDups) st = .ok (st1, out) ∧
      out.map Prod.fst = ho.grp (args.map fun a => a.1).eraseDups ∧
      updateLeavesWithArg B ho f st s args = (insertChains B s2 (ho.cur (chains B out)) [] >>= fun x => pure (st1, x.1, x.2)) ∧
      updateLeavesWithArg B ho' f st s args = (insertChains B s2 (ho'.cur (chains B out)) [] >>= fun x => pure (st1, x.1, x.2)) := by
  have hgnd : (ho.grp (args.map fun a => a.1).eraseDups).Nodup := hgr.nodup_iff.mpr (nodup_eraseDups' _)
  have hgm : ∀ l, l ∈ ho.grp (args.map fun a => a.1).eraseDups ↔ l ∈ args.map (fun a => a.1) := fun l => by rw [hgr.mem_iff, List.mem_eraseDups]
  have di : DI A R s lvl h [] (([] : List (Idx × D)).map Prod.fst) [] 0 :=
    ⟨⟨g.wf, g.cinv.mono (fun _ h => h.elim), g.cok, fun hn => absurd trivial hn, g.okE⟩, Sz.ne sz hm1, by simp, by simp, by simp, by simp, by simp,
      fun _ _ => rfl, by simp [dmGet]⟩
  have hwit : ∀ l ∈ ho.grp (args.map fun a => a.1).eraseDups, ∃ U e V, locate l (entries s) = some (U, e, V) ∧ elm s l = some e ∧
      GroupOK (B.rleLen e) ((args.filter fun a => a.1 = l).map Prod.snd) := by
    intro l hl
    obtain ⟨a, ha, rfl⟩ := List.mem_map.mp ((hgm l).mp hl)
    obtain ⟨e, he, -⟩ := hargs a ha
    obtain ⟨U, V, huv⟩ := List.append_of_mem he
    refine ⟨U, e, V, (locate_entries g.wf).mpr huv, (entries_mem g.wf).mp he, ?_⟩
    intro y hy
    obtain ⟨b, hb, rfl⟩ := List.mem_map.mp hy
    rw [List.mem_filter] at hb
    obtain ⟨e', he', h1⟩ := hargs b hb.1
    have hba : b.1 = a.1 := by simpa using hb.2
    rw [hba] at he'
    have hee : e' = e := by
      have h3 := (entries_mem g.wf).mp he
      rw [(entries_mem g.wf).mp he'] at h3
      simpa using h3
    rw [hee] at h1
    exact h1
  obtain ⟨st1, s1, dm, out, u1, u2, u3, u4, u5, u6, u7⟩ := updGroups_spec hf hsl hsub (es := entries s) (args := args) (ho.grp (args.map fun a => a.1).eraseDups) st s [] [] di hgnd
    (by simp) hwit
  obtain ⟨s2, e2, o2, g2⟩ := updateDirty_spec L hho u3
  have e2' := e2
  rw [updateDirty_order L hho hho' u3] at e2'
  refine ⟨st1, s2, out, u2, u5, ?_, ?_⟩
  · simp only [updateLeavesWithArg, u1, bind_ok, e2, List.nil_append]
  · simp only [updateLeavesWithArg, hgg, u1, bind_ok, e2', List.nil_append]

/-- the operations that visit new pieces in the order of a hash map -/
def BOp.isRanges : BOp E C D → Prop
  | .ranges .. => True
  | _ => False

/-- one step -/
theorem bstep_order {m : Fill} (hm : 1 ≤ m.lo ∧ m.lo + m.d ≤ 5) (hsl : SplitLen B A.okE) (L : DiffLaw A R) {ho ho' : HashOrd E}
    (hho : ∀ l, (ho.idx l).Perm l) (hho' : ∀ l, (ho'.idx l).Perm l) (hgrp : ∀ l, (ho.grp l).Perm l) {s : Tree E C} (hi : Inv A m s) {o : BOp E C D} (hv : o.valid A R m s)
    (hr : o.isRanges → ho'.cur = ho.cur ∧ ho'.grp = ho.grp) : o.run B ho s = o.run B ho' s := by
  cases o with
  | update f st a b =>
    obtain ⟨hd, ⟨hpos, Ua, ea, Va, Ub, eb, Vb, ha, hoa, hb, hob, hle⟩, hf⟩ := hv
    obtain ⟨h, ⟨lvl, g⟩, sz⟩ := hi
    obtain ⟨ua, va, o1, rfl, -, hea⟩ := entries_split g.wf ha
    obtain ⟨ub, vb, o2, rfl, -, heb⟩ := entries_split g.wf hb
    have := update_order hm.1 hm.2 L hho hho' hf st g sz hsl o1 hea hoa o2 heb hob
      (notBehind_of_pos g.wf (fun l x hx => hpos (l, x) ((entries_mem g.wf).mpr hx)) o1 o2 heb hob hle)
    simp only [BOp.run, this]
  | ranges f st args =>
    obtain ⟨hsub, hf, hargs⟩ := hv
    obtain ⟨h, ⟨lvl, g⟩, sz⟩ := hi
    obtain ⟨hc, hg⟩ := hr trivial
    obtain ⟨st1, s2, out, -, -, e1, e2⟩ := ranges_order (ho := ho) (ho' := ho') hm.1 L hsub hho hho' (args := args) (hgrp _) (by rw [hg]) hf st g sz hsl hargs
    have : updateLeavesWithArg B ho f st s args = updateLeavesWithArg B ho' f st s args := by rw [e1, e2, hc]
    simp only [BOp.run, this]
  | _ => rfl

end GB
