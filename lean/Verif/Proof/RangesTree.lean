import Verif.Proof.RangesPieces

/-!
# `update_leaves_with_arg_in_ranges`: the whole tree
-/

namespace GB
variable {E C D σ Arg : Type} {B : Trait E C D} {A : Law B} {R : C → D → C → Prop} {s s' : Tree E C} {lvl : Nat → Nat} {h : Nat}
open Tree

/-- the insertions that are left to do for the given pieces -/
def chains (B : Trait E C D) (out : List (Nat × List E)) : List (Cursor × List E) :=
  out.filterMap fun x => match x.2 with
    | p :: q :: ps => some (⟨x.1, B.rleLen p⟩, q :: ps)
    | _ => none

/-- differences of caches are diffs -/
def SubLaw (A : Law B) (R : C → D → C → Prop) : Prop :=
  ∀ e e', A.okE e → A.okE e' → R (B.elemCache e) (B.subCache (B.elemCache e') (B.elemCache e)) (B.elemCache e')

theorem dmInsert_keys (dm : List (Idx × D)) (k : Idx) (d : D) {a : Idx} (h : a ∈ (dmInsert dm k d).map Prod.fst) : a = k ∨ a ∈ dm.map Prod.fst := by
  rw [dmInsert, List.map_cons, List.mem_cons] at h
  rcases h with h | h
  · exact .inl h
  · right
    obtain ⟨x, hx, rfl⟩ := List.mem_map.mp h
    exact List.mem_map.mpr ⟨x, (List.mem_filter.mp hx).1, rfl⟩

theorem updGroups_spec {f : σ → E → Arg → M (σ × E)} (hf : ArgOK A f) (hsl : SplitLen B A.okE) (hsub : SubLaw A R) {args : List (Nat × Nat × Nat × Arg)}
    {es : List (Nat × E)} : ∀ (ls : List Nat) (st : σ) (s : Tree E C) (dm : List (Idx × D)) (nw : List (Cursor × List E)),
    DI A R s lvl h dm (dm.map Prod.fst) [] 0 → ls.Nodup → (∀ l ∈ ls, Idx.leaf l ∉ dm.map Prod.fst) →
    (∀ l ∈ ls, ∃ U e V, locate l es = some (U, e, V) ∧ elm s l = some e ∧ GroupOK (B.rleLen e) ((args.filter fun a => a.1 = l).map Prod.snd)) →
    ∃ st' s' dm' out, updGroups B f args ls st s dm nw = .ok (st', s', dm', nw ++ chains B out) ∧ specRanges B f args es ls st = .ok (st', out) ∧
      DI A R s' lvl h dm' (dm'.map Prod.fst) [] 0 ∧ SameShape s s' ∧ out.map Prod.fst = ls ∧
      (∀ x ∈ out, x.2 ≠ [] ∧ (∀ p ∈ x.2, A.okE p) ∧ elm s' x.1 = x.2.head?) ∧ ∀ l, l ∉ ls → elm s' l = elm s l := by
  intro ls
  induction ls with
  | nil => intro st s dm nw di _ _ _; exact ⟨st, s, dm, [], by simp [updGroups, chains], rfl, di, SameShape.refl _, rfl, by simp, fun _ _ => rfl⟩
  | cons l ls ih =>
    intro st s dm nw di nd hdm hls
    obtain ⟨U, e, V, loc, he, hg⟩ := hls l (by simp)
    rw [List.nodup_cons] at nd
    obtain ⟨⟨e0, q⟩, hL⟩ : ∃ L, s.lf.get l = some L := by
      cases hx : s.lf.get l with
      | none => simp [elm, hx] at he
      | some L => exact ⟨L, rfl⟩
    have : e0 = e := by rw [elm_of hL] at he; simpa using he
    subst this
    have hok := di.good.okE l e0 he
    obtain ⟨st1, P, p1, p2, p3⟩ := specPieces_ok hf hsl (group := (args.filter fun a => a.1 = l).map Prod.snd) (len := B.rleLen e0)
      (cutPoints (B.rleLen e0) ((args.filter fun a => a.1 = l).map Prod.snd)) st 0 e0 hok (by omega)
      (List.pairwise_cons.mpr ⟨fun x hx => (mem_cutPoints.mp hx).1, cutPoints_sorted _ _⟩) (fun x hx => (mem_cutPoints.mp hx).2.1)
    obtain ⟨p, ps, rfl, hu⟩ := updOneLeaf_eq hg p1
    have hokp := p3 p (by simp)
    obtain ⟨di1, sh1⟩ := di.leaf hL (hdm l (by simp)) hokp (d := some (B.subCache (B.elemCache p) (B.elemCache e0)))
      (by intro x hx; cases hx; exact hsub e0 p hok hokp) (by intro hx; cases hx)
      (dm' := dmInsert dm (.leaf l) (B.subCache (B.elemCache p) (B.elemCache e0))) (by intro x hx; cases hx; rfl) (by intro hx; cases hx)
    obtain ⟨st2, s2, dm2, out, u1, u2, u3, u4, u5, u6, u7⟩ := ih st1 (s.setLf l ⟨p, q⟩) _ (nw ++ chains B [(l, p :: ps)]) di1 nd.2 (by
        intro k hk hc
        rcases dmInsert_keys _ _ _ hc with hc | hc
        · cases hc; exact nd.1 hk
        · exact hdm k (by simp [hk]) hc) (by
        intro k hk
        obtain ⟨U', e', V', h1, h2, h3⟩ := hls k (by simp [hk])
        refine ⟨U', e', V', h1, ?_, h3⟩
        rw [elm_upd hL, if_neg (by rintro rfl; exact nd.1 hk)]
        exact h2)
    refine ⟨st2, s2, dm2, (l, p :: ps) :: out, ?_, ?_, u3, sh1.trans u4, by simp [u5], ?_, ?_⟩
    · have hch : chains B ((l, p :: ps) :: out) = chains B [(l, p :: ps)] ++ chains B out := by
        rw [show (l, p :: ps) :: out = [(l, p :: ps)] ++ out from rfl, chains, List.filterMap_append]; rfl
      rw [hch, ← List.append_assoc, ← u1]
      simp only [updGroups, getLf_ok hL, bind_ok, hu]
      cases ps with
      | nil => simp [chains]
      | cons q ps => simp [chains]
    · simp only [specRanges, loc, p1, bind_ok, u2, pure_ok]
    · intro x hx
      rcases List.mem_cons.mp hx with rfl | hx
      · refine ⟨by simp, p3, ?_⟩
        rw [u7 l nd.1, elm_upd hL, if_pos rfl]; rfl
      · exact u6 x hx
    · intro k hk
      rw [List.mem_cons, not_or] at hk
      rw [u7 k hk.2, elm_upd hL, if_neg hk.1]

/-- one chain of insertions -/
theorem insertChain_spec {m : Fill} (hm1 : 1 ≤ m.lo) (hm6 : m.lo + m.d ≤ 6) : ∀ (ps : List E) (s : Tree E C) (lvl : Nat → Nat) (h : Nat) (l : Nat) (e : E) (U V : List (Nat × E))
    (out : List Nat), Good A s lvl h → Sz m s h → entries s = U ++ (l, e) :: V → (∀ p ∈ ps, A.okE p) →
    ∃ mid out' s' lvl' h', insertChain B s ⟨l, B.rleLen e⟩ ps out = .ok (out ++ out', s') ∧ Good A s' lvl' h' ∧ Sz m s' h' ∧
      entries s' = U ++ mid ++ V ∧ glue B e ps = .ok (mid.map Prod.snd) ∧ l ∈ mid.map Prod.fst ∧ (∀ k ∈ out', k ∈ mid.map Prod.fst) ∧ out'.length = ps.length ∧
      s.lf.items.length ≤ s'.lf.items.length ∧ ∀ k ∈ mid.map Prod.fst, k = l ∨ s.lf.items.length ≤ k := by
  intro ps
  induction ps with
  | nil =>
    intro s lvl h l e U V out g sz hent _
    exact ⟨[(l, e)], [], s, lvl, h, by simp [insertChain], g, sz, by simp [hent], rfl, by simp, by simp, rfl, Nat.le_refl _, by simp⟩
  | cons p ps ih =>
    intro s lvl h l e U V out g sz hent hok
    obtain ⟨c, sp, s1, lvl1, h1, e1, g1, sz1, -, r⟩ := insertByPath_spec hm1 hm6 g sz hent (Nat.le_refl _) (.inr (.inr rfl)) (hok p (by simp))
    have hok' : ∀ p ∈ ps, A.okE p := fun x hx => hok x (by simp [hx])
    have hsp : assertM sp.isEmpty = .ok () := by
      have : sp = [] := by
        cases r <;> first | assumption | (next h => exact absurd h (Nat.lt_irrefl _)) | omega
      rw [this]; rfl
    -- merged into the leaf
    have same : ∀ e', c.leaf = l → entries s1 = U ++ (l, e') :: V → s1.lf.items.length = s.lf.items.length → glue B e (p :: ps) = glue B e' ps →
        ∃ mid out' s' lvl' h', insertChain B s ⟨l, B.rleLen e⟩ (p :: ps) out = .ok (out ++ out', s') ∧ Good A s' lvl' h' ∧ Sz m s' h' ∧
          entries s' = U ++ mid ++ V ∧ glue B e (p :: ps) = .ok (mid.map Prod.snd) ∧ l ∈ mid.map Prod.fst ∧ (∀ k ∈ out', k ∈ mid.map Prod.fst) ∧
          out'.length = (p :: ps).length ∧ s.lf.items.length ≤ s'.lf.items.length ∧ ∀ k ∈ mid.map Prod.fst, k = l ∨ s.lf.items.length ≤ k := by
      intro e' hc hen hlen hgl
      obtain ⟨mid, out', s2, lvl2, h2, i1, i2, i3, i4, i5, i6, i7, i8, i9, i10⟩ := ih s1 lvl1 h1 l e' U V (out ++ [l]) g1 sz1 hen hok'
      have hel : elm s1 l = some e' := (entries_mem g1.wf).mp (by rw [hen]; simp)
      have hel : getElem s1 l = some e' := hel
      refine ⟨mid, l :: out', s2, lvl2, h2, ?_, i2, i3, i4, by rw [hgl, i5], i6, ?_, by simp [i8], by omega, by rw [← hlen]; exact i10⟩
      · simp only [insertChain, e1, bind_ok, hc, hel, unwrap, hsp, i1]
        simp
      · intro k hk
        rcases List.mem_cons.mp hk with rfl | hk
        · exact i6
        · exact i7 k hk
    cases r with
    | inplace e' q1 q2 q3 q4 q5 =>
      exact same e' (by rw [q2]) q4 q5 (by simp only [glue, q1, bind_ok])
    | left e' q1 q2 q3 q4 q5 q6 q7 q8 =>
      exact same e' (by rw [q5]) q7 q8 (by simp only [glue, q1, bind_ok, if_pos (And.intro q2 q3), q4])
    | right e' q1 q2 q3 q4 q5 q6 q7 q8 q9 =>
      exact same e' (by rw [q6]) q8 q9 (by simp only [glue, q1, bind_ok, if_neg q2, if_pos q4, q5])
    | before q1 q2 q3 q4 q5 q6 q7 q8 =>
      subst q5
      have q3 : ¬ B.canMerge e p = true := fun hc => q3 ⟨rfl, hc⟩
      obtain ⟨mid, out', s2, lvl2, h2, i1, i2, i3, i4, i5, i6, i7, i8, i9, i10⟩ := ih s1 lvl1 h1 s.lf.items.length p U ((l, e) :: V) (out ++ [s.lf.items.length]) g1 sz1 q7 hok'
      have hel : elm s1 s.lf.items.length = some p := (entries_mem g1.wf).mp (by rw [q7]; simp)
      have hel : getElem s1 s.lf.items.length = some p := hel
      refine ⟨mid ++ [(l, e)], s.lf.items.length :: out', s2, lvl2, h2, ?_, i2, i3, by rw [i4]; simp, ?_, by simp, ?_, by simp [i8], by omega, ?_⟩
      · simp only [insertChain, e1, bind_ok, hel, unwrap, hsp, i1]
        simp
      · simp only [glue, q1, bind_ok, if_neg q2, if_neg q3, if_pos q4, i5, pure_ok]
        simp
      · intro k hk
        rw [List.map_append, List.mem_append]
        left
        rcases List.mem_cons.mp hk with rfl | hk
        · exact i6
        · exact i7 k hk
      · intro k hk
        rw [List.map_append, List.mem_append] at hk
        rcases hk with hk | hk
        · rcases i10 k hk with h | h
          · right; omega
          · right; omega
        · left; simpa using hk
    | after q1 q2 q3 q4 q5 q6 q7 q8 =>
      subst q5
      have q2 : ¬ B.canMerge e p = true := fun hc => q2 ⟨rfl, hc⟩
      obtain ⟨mid, out', s2, lvl2, h2, i1, i2, i3, i4, i5, i6, i7, i8, i9, i10⟩ := ih s1 lvl1 h1 s.lf.items.length p (U ++ [(l, e)]) V (out ++ [s.lf.items.length]) g1 sz1
        (by rw [q7]; simp) hok'
      have hel : elm s1 s.lf.items.length = some p := (entries_mem g1.wf).mp (by rw [q7]; simp)
      have hel : getElem s1 s.lf.items.length = some p := hel
      refine ⟨(l, e) :: mid, s.lf.items.length :: out', s2, lvl2, h2, ?_, i2, i3, by rw [i4]; simp, ?_, by simp, ?_, by simp [i8], by omega, ?_⟩
      · simp only [insertChain, e1, bind_ok, hel, unwrap, hsp, i1]
        simp
      · simp only [glue, q1, bind_ok, if_neg (fun h : B.rleLen e = 0 ∧ _ => q3 h.1), if_neg q2, if_neg q3, i5, pure_ok]
        simp
      · intro k hk
        rw [List.map_cons, List.mem_cons]
        right
        rcases List.mem_cons.mp hk with rfl | hk
        · exact i6
        · exact i7 k hk
      · intro k hk
        rw [List.map_cons, List.mem_cons] at hk
        rcases hk with hk | hk
        · exact .inl hk
        · rcases i10 k hk with h | h
          · right; omega
          · right; omega
    | cut a b q1 q2 q3 => exact absurd q3 (Nat.lt_irrefl _)

/-- all insertions: every chain replaces the block of its leaf -/
theorem insertChains_spec {m : Fill} (hm1 : 1 ≤ m.lo) (hm6 : m.lo + m.d ≤ 6) {ls : List Nat} (hnd : ls.Nodup) : ∀ (cs : List (Cursor × List E)) (s : Tree E C) (lvl : Nat → Nat) (h : Nat)
    (blk : Nat → List (Nat × E)) (out : List Nat), Good A s lvl h → Sz m s h → entries s = ls.flatMap blk → (cs.map fun x => x.1.leaf).Nodup →
    (∀ x ∈ cs, x.1.leaf ∈ ls ∧ (∃ e, blk x.1.leaf = [(x.1.leaf, e)] ∧ x.1.offset = B.rleLen e) ∧ ∀ p ∈ x.2, A.okE p) →
    ∃ blk' out' s' lvl' h', insertChains B s cs out = .ok (out ++ out', s') ∧ Good A s' lvl' h' ∧ Sz m s' h' ∧ entries s' = ls.flatMap blk' ∧
      (∀ l, l ∉ cs.map (fun x => x.1.leaf) → blk' l = blk l) ∧
      (∀ x ∈ cs, ∀ e, blk x.1.leaf = [(x.1.leaf, e)] → glue B e x.2 = .ok ((blk' x.1.leaf).map Prod.snd) ∧ x.1.leaf ∈ (blk' x.1.leaf).map Prod.fst ∧
        ∀ k ∈ (blk' x.1.leaf).map Prod.fst, k = x.1.leaf ∨ s.lf.items.length ≤ k) ∧
      s.lf.items.length ≤ s'.lf.items.length ∧ (∀ k ∈ out', ∃ x ∈ cs, k ∈ (blk' x.1.leaf).map Prod.fst) ∧
      out'.length = (cs.map fun x => x.2.length).sum := by
  intro cs
  induction cs with
  | nil =>
    intro s lvl h blk out g sz hent _ _
    exact ⟨blk, [], s, lvl, h, by simp [insertChains], g, sz, hent, fun _ _ => rfl, by simp, Nat.le_refl _, by simp, rfl⟩
  | cons c cs ih =>
    intro s lvl h blk out g sz hent nd hcs
    obtain ⟨⟨l, o⟩, ps⟩ := c
    obtain ⟨hl, ⟨e, hb, ho⟩, hok⟩ := hcs (⟨l, o⟩, ps) (by simp)
    have hb : blk l = [(l, e)] := hb
    have ho : o = B.rleLen e := ho
    subst ho
    obtain ⟨u, v, rfl⟩ := List.append_of_mem hl
    rw [List.map_cons, List.nodup_cons] at nd
    have hlu : l ∉ u := by
      intro hc
      rw [List.nodup_append] at hnd
      exact hnd.2.2 l hc l (by simp) rfl
    have hlv : l ∉ v := by
      intro hc
      rw [List.nodup_append, List.nodup_cons] at hnd
      exact hnd.2.1.1 hc
    obtain ⟨mid, out1, s1, lvl1, h1, i1, i2, i3, i4, i5, i6, i7, i8, i9, i10⟩ := insertChain_spec hm1 hm6 ps s lvl h l e (u.flatMap blk) (v.flatMap blk) out g sz
      (by rw [hent]; simp [hb]) hok
    have hcongr : ∀ w : List Nat, l ∉ w → w.flatMap (fun k => if k = l then mid else blk k) = w.flatMap blk := by
      intro w hw
      induction w with
      | nil => rfl
      | cons a w ihw =>
        rw [List.mem_cons, not_or] at hw
        rw [List.flatMap_cons, List.flatMap_cons, ihw hw.2, if_neg (fun h => hw.1 h.symm)]
    have hne : ∀ x ∈ cs, x.1.leaf ≠ l := fun x hx hc => nd.1 (List.mem_map.mpr ⟨x, hx, hc⟩)
    obtain ⟨blk', out', s2, lvl2, h2, j1, j2, j3, j4, j5, j6, j7, j8, j9⟩ := ih s1 lvl1 h1 (fun k => if k = l then mid else blk k) (out ++ out1) i2 i3
      (by rw [i4, List.flatMap_append, List.flatMap_cons, hcongr u hlu, hcongr v hlv, if_pos rfl, List.append_assoc]) nd.2
      (by
        intro x hx
        have := hcs x (by simp [hx])
        rw [if_neg (hne x hx)]
        exact this)
    have hbl : blk' l = mid := by rw [j5 l nd.1, if_pos rfl]
    refine ⟨blk', out1 ++ out', s2, lvl2, h2, ?_, j2, j3, j4, ?_, ?_, by omega, ?_, by simp [i8, j9]⟩
    · simp only [insertChains, i1, bind_ok, j1, List.append_assoc]
    · intro k hk
      rw [List.map_cons, List.mem_cons, not_or] at hk
      rw [j5 k hk.2, if_neg hk.1]
    · intro x hx e' he'
      rcases List.mem_cons.mp hx with rfl | hx
      · have he' : blk l = [(l, e')] := he'
        rw [hb] at he'
        cases he'
        show glue B e ps = .ok ((blk' l).map Prod.snd) ∧ l ∈ (blk' l).map Prod.fst ∧ ∀ k ∈ (blk' l).map Prod.fst, k = l ∨ s.lf.items.length ≤ k
        rw [hbl]
        exact ⟨i5, i6, i10⟩
      · obtain ⟨k1, k2, k3⟩ := j6 x hx e' (by rw [if_neg (hne x hx)]; exact he')
        refine ⟨k1, k2, fun k hk => ?_⟩
        rcases k3 k hk with h | h
        · exact .inl h
        · right; omega
    · intro k hk
      rcases List.mem_append.mp hk with hk | hk
      · refine ⟨(⟨l, B.rleLen e⟩, ps), by simp, ?_⟩
        show k ∈ (blk' l).map Prod.fst
        rw [hbl]
        exact i7 k hk
      · obtain ⟨x, hx, h⟩ := j8 k hk
        exact ⟨x, by simp [hx], h⟩

theorem mem_chains {out : List (Nat × List E)} {x : Cursor × List E} :
    x ∈ chains B out ↔ ∃ p q ps, (x.1.leaf, p :: q :: ps) ∈ out ∧ x = (⟨x.1.leaf, B.rleLen p⟩, q :: ps) := by
  unfold chains
  rw [List.mem_filterMap]
  constructor
  · rintro ⟨⟨l, P⟩, h1, h2⟩
    match P, h2 with
    | p :: q :: ps, h2 =>
      cases h2
      exact ⟨p, q, ps, h1, rfl⟩
  · rintro ⟨p, q, ps, h1, h2⟩
    exact ⟨_, h1, by simp only; rw [← h2]⟩

theorem chains_leaves : ∀ {out : List (Nat × List E)}, (out.map Prod.fst).Nodup → ((chains B out).map fun x => x.1.leaf).Nodup := by
  intro out
  induction out with
  | nil => intro _; exact .nil
  | cons y out ih =>
    intro h
    rw [List.map_cons, List.nodup_cons] at h
    obtain ⟨l, P⟩ := y
    match P with
    | [] => exact ih h.2
    | [_] => exact ih h.2
    | p :: q :: ps =>
      show ((⟨l, B.rleLen p⟩, q :: ps) :: chains B out |>.map fun x : Cursor × List E => x.1.leaf).Nodup
      rw [List.map_cons, List.nodup_cons]
      refine ⟨?_, ih h.2⟩
      intro hc
      obtain ⟨x, hx, hxl⟩ := List.mem_map.mp hc
      obtain ⟨p', q', ps', h1, -⟩ := mem_chains.mp hx
      refine h.1 (List.mem_map.mpr ⟨_, h1, ?_⟩)
      exact hxl

theorem nodup_eraseDups' : ∀ (l : List Nat), l.eraseDups.Nodup := by
  intro l
  generalize hn : l.length = n
  induction n using Nat.strongRecOn generalizing l with
  | ind n ih =>
    cases l with
    | nil => simp
    | cons a l =>
      rw [List.eraseDups_cons, List.nodup_cons]
      refine ⟨?_, ih _ ?_ _ rfl⟩
      · rw [List.mem_eraseDups, List.mem_filter]
        simp
      · have := List.length_filter_le (fun b => !b == a) l
        simp only [List.length_cons] at hn
        omega

theorem nodup_keys_eq {X : Type} : ∀ {l : List (Nat × X)} {k : Nat} {x y : X}, (l.map Prod.fst).Nodup → (k, x) ∈ l → (k, y) ∈ l → x = y := by
  intro l
  induction l with
  | nil => intro k x y _ h; simp at h
  | cons a l ih =>
    intro k x y nd h1 h2
    rw [List.map_cons, List.nodup_cons] at nd
    rcases List.mem_cons.mp h1 with e1 | e1 <;> rcases List.mem_cons.mp h2 with e2 | e2
    · rw [← e1] at e2; cases e2; rfl
    · exact (nd.1 (List.mem_map.mpr ⟨(k, y), e2, by rw [← e1]⟩)).elim
    · exact (nd.1 (List.mem_map.mpr ⟨(k, x), e1, by rw [← e2]⟩)).elim
    · exact ih nd.2 e1 e2

/-- the whole of `update_leaves_with_arg_in_ranges` -/
theorem updateLeavesWithArg_spec {m : Fill} (hm1 : 1 ≤ m.lo) (hm6 : m.lo + m.d ≤ 6) (L : DiffLaw A R) (hsub : SubLaw A R) {ho : HashOrd E} (hi : ∀ l, (ho.idx l).Perm l)
    (hc : ∀ l, (ho.cur l).Perm l) (hgr : ∀ l, (ho.grp l).Perm l) {f : σ → E → Arg → M (σ × E)} (hf : ArgOK A f) (st : σ) (g : Good A s lvl h) (sz : Sz m s h)
    (hsl : SplitLen B A.okE) {args : List (Nat × Nat × Nat × Arg)}
    (hargs : ∀ a ∈ args, ∃ e, (a.1, e) ∈ entries s ∧ Fits a.2.1 a.2.2.1 (B.rleLen e)) :
    ∃ st' new s' lvl' h' out, ∃ blk : Nat → List (Nat × E), updateLeavesWithArg B ho f st s args = .ok (st', new, s') ∧ Good A s' lvl' h' ∧ Sz m s' h' ∧
      specRanges B f args (entries s) (ho.grp (args.map fun a => a.1).eraseDups) st = .ok (st', out) ∧
      out.map Prod.fst = ho.grp (args.map fun a => a.1).eraseDups ∧ (∀ x ∈ out, x.2 ≠ [] ∧ ∀ p ∈ x.2, A.okE p) ∧
      entries s' = (entries s).flatMap (fun x => blk x.1) ∧
      (∀ x ∈ entries s, x.1 ∉ args.map (fun a => a.1) → blk x.1 = [x]) ∧
      (∀ x ∈ out, glueAll B x.2 = .ok ((blk x.1).map Prod.snd) ∧ x.1 ∈ (blk x.1).map Prod.fst ∧ ∀ k ∈ (blk x.1).map Prod.fst, k = x.1 ∨ s.lf.items.length ≤ k) ∧
      s.lf.items.length ≤ s'.lf.items.length ∧ (∀ k ∈ new, ∃ x ∈ out, k ∈ (blk x.1).map Prod.fst) ∧
      new.length = (out.map fun x => x.2.length - 1).sum := by
  have hgp := hgr (args.map fun a => a.1).eraseDups
  have hgnd : (ho.grp (args.map fun a => a.1).eraseDups).Nodup := hgp.nodup_iff.mpr (nodup_eraseDups' _)
  have hgm : ∀ l, l ∈ ho.grp (args.map fun a => a.1).eraseDups ↔ l ∈ args.map (fun a => a.1) := fun l => by rw [hgp.mem_iff, List.mem_eraseDups]
  have di : DI A R s lvl h [] (([] : List (Idx × D)).map Prod.fst) [] 0 :=
    ⟨⟨g.wf, g.cinv.mono (fun _ h => h.elim), g.cok, fun hn => absurd trivial hn, g.okE⟩, Sz.ne sz hm1, by simp, by simp, by simp, by simp, by simp,
      fun _ _ => rfl, by simp [dmGet]⟩
  have hwit : ∀ l ∈ ho.grp (args.map fun a => a.1).eraseDups, ∃ U e V, locate l (entries s) = some (U, e, V) ∧ elm s l = some e ∧
      GroupOK (B.rleLen e) ((args.filter fun a => a.1 = l).map Prod.snd) := by
    intro l hl
    obtain ⟨a, ha, rfl⟩ := List.mem_map.mp ((hgm l).mp hl)
    obtain ⟨e, he, -⟩ := hargs a ha
    obtain ⟨U, V, huv⟩ := List.append_of_mem he
    refine ⟨U, e, V, (locate_entries g.wf).mpr huv, (entries_mem g.wf).mp he, ?_⟩
    intro y hy
    obtain ⟨b, hb, rfl⟩ := List.mem_map.mp hy
    rw [List.mem_filter] at hb
    obtain ⟨e', he', h1⟩ := hargs b hb.1
    have hba : b.1 = a.1 := by simpa using hb.2
    rw [hba] at he'
    have hee : e' = e := by
      have h3 := (entries_mem g.wf).mp he
      rw [(entries_mem g.wf).mp he'] at h3
      simpa using h3
    rw [hee] at h1
    exact h1
  obtain ⟨st1, s1, dm, out, u1, u2, u3, u4, u5, u6, u7⟩ := updGroups_spec hf hsl hsub (es := entries s) (args := args) (ho.grp (args.map fun a => a.1).eraseDups) st s [] [] di hgnd
    (by simp) hwit
  obtain ⟨s2, e2, o2, g2⟩ := updateDirty_spec L hi u3
  have hsh := u4.trans o2.1
  have sz2 : Sz m s2 h := SzX.congr hsh sz
  have helm2 : ∀ k, elm s2 k = elm s1 k := fun k => by simp only [elm, o2.2]
  have hord : order s2 = order s := hsh.order
  have hond : (out.map Prod.fst).Nodup := by rw [u5]; exact hgnd
  -- every leaf is a block
  have hen2 : entries s2 = (order s).flatMap (fun k => entriesOf s2 [k]) := by
    rw [entries, hord]
    generalize order s = w
    induction w with
    | nil => rfl
    | cons a w ih => rw [List.flatMap_cons, ← ih, ← entriesOf_append]; rfl
  have hone : ∀ k e, elm s2 k = some e → entriesOf s2 [k] = [(k, e)] := fun k e he => by rw [entriesOf_cons he, entriesOf_nil]
  have hcp := hc (chains B out)
  have hhead : ∀ x ∈ out, ∃ p ps, x.2 = p :: ps ∧ entriesOf s2 [x.1] = [(x.1, p)] ∧ x.1 ∈ order s := by
    intro x hx
    obtain ⟨h1, h2, h3⟩ := u6 x hx
    cases hx2 : x.2 with
    | nil => exact absurd hx2 h1
    | cons p ps =>
      rw [hx2] at h3
      have h4 : elm s2 x.1 = some p := by rw [helm2, h3]; rfl
      refine ⟨p, ps, rfl, hone _ _ h4, ?_⟩
      rw [← hord, mem_order g2.wf]
      intro hn
      rw [elm_none.mpr hn] at h4
      cases h4
  obtain ⟨blk, new, s3, lvl3, h3, i1, i2, i3, i4, i5, i6, i7, i8, i9⟩ := insertChains_spec hm1 hm6 (order_nodup g.wf) (ho.cur (chains B out)) s2 lvl h
    (fun k => entriesOf s2 [k]) [] g2 sz2 hen2 ((hcp.map _).nodup_iff.mpr (chains_leaves hond)) (by
      intro x hx
      obtain ⟨p, q, ps, h1, h2⟩ := mem_chains.mp (hcp.mem_iff.mp hx)
      obtain ⟨p', ps', k1, k2, k3⟩ := hhead _ h1
      cases k1
      refine ⟨k3, ⟨p, k2, by rw [h2]⟩, ?_⟩
      intro y hy
      rw [h2] at hy
      exact (u6 _ h1).2.1 y (List.mem_cons_of_mem _ hy))
  have hnotin : ∀ l, l ∉ args.map (fun a => a.1) → l ∉ (ho.cur (chains B out)).map (fun x => x.1.leaf) := by
    intro l hl hc
    obtain ⟨x, hx, rfl⟩ := List.mem_map.mp hc
    obtain ⟨p, q, ps, h1, -⟩ := mem_chains.mp (hcp.mem_iff.mp hx)
    apply hl
    rw [← hgm, ← u5]
    exact List.mem_map.mpr ⟨_, h1, rfl⟩
  have hlen2 : s2.lf.items.length = s.lf.items.length := hsh.lfitems
  refine ⟨st1, new, s3, lvl3, h3, out, blk, ?_, i2, i3, u2, u5, fun x hx => ⟨(u6 x hx).1, (u6 x hx).2.1⟩, ?_, ?_, ?_, by omega, ?_, ?_⟩
  · simp only [updateLeavesWithArg, u1, List.nil_append, bind_ok, e2, i1, pure_ok]
  · rw [i4, ← entries_fst g.wf, List.flatMap_map]
  · intro x hx hxa
    rw [i5 x.1 (hnotin x.1 hxa)]
    apply hone
    rw [helm2, u7 x.1 (by rw [hgm]; exact hxa)]
    exact (entries_mem g.wf).mp hx
  · intro x hx
    obtain ⟨p, ps, h1, h2, h3⟩ := hhead x hx
    rw [h1]
    cases ps with
    | nil =>
      have : x.1 ∉ (ho.cur (chains B out)).map (fun x => x.1.leaf) := by
        intro hc
        obtain ⟨y, hy, hyx⟩ := List.mem_map.mp hc
        obtain ⟨p', q', ps', k1, -⟩ := mem_chains.mp (hcp.mem_iff.mp hy)
        have hyx : y.1.leaf = x.1 := hyx
        rw [hyx] at k1
        have hx' : (x.1, [p]) ∈ out := by rw [← h1]; exact hx
        have := nodup_keys_eq hond k1 hx'
        simp at this
      rw [i5 _ this]
      refine ⟨by rw [h2]; rfl, by rw [h2]; simp, ?_⟩
      intro k hk
      rw [h2] at hk
      left; simpa using hk
    | cons q ps =>
      have hm : ((⟨x.1, B.rleLen p⟩, q :: ps) : Cursor × List E) ∈ ho.cur (chains B out) := by
        rw [hcp.mem_iff, mem_chains]
        exact ⟨p, q, ps, by rw [← h1]; exact hx, rfl⟩
      obtain ⟨k1, k2, k3⟩ := i6 _ hm p h2
      exact ⟨k1, k2, by rw [← hlen2]; exact k3⟩
  · intro k hk
    obtain ⟨x, hx, hkx⟩ := i8 k hk
    obtain ⟨p, q, ps, h1, -⟩ := mem_chains.mp (hcp.mem_iff.mp hx)
    exact ⟨_, h1, hkx⟩
  · rw [i9, ((hcp.map fun x : Cursor × List E => x.2.length).sum_nat)]
    clear u6 u5 u2 u1 i6 i5 hnotin hhead i8 i9 hm1 hm6 i1 i3 i2 i4 hond hcp
    induction out with
    | nil => rfl
    | cons y out ih =>
      obtain ⟨l, P⟩ := y
      match P with
      | [] => simpa [chains] using ih
      | [_] => simpa [chains] using ih
      | p :: q :: ps =>
        show ((⟨l, B.rleLen p⟩, q :: ps) :: chains B out |>.map fun x : Cursor × List E => x.2.length).sum = _
        rw [List.map_cons, List.sum_cons, ih]
        simp

end GB
