import Verif.Proof.Lack

/-!
# `handle_lack_single_layer`: borrowing and merging
-/

namespace GB
variable {E C D : Type}
open Tree

section
variable {B : Trait E C D} {A : Law B} {s : Tree E C} {lvl : Nat → Nat} {h p : Nat}

/-- Replace the children of two nodes and of their parent. -/
theorem views3 {a b : Nat} {Na Nb Np : Node C} (ha : s.inn.get a = some Na) (hb : s.inn.get b = some Nb)
    (hp : s.inn.get p = some Np) (hab : a ≠ b) (hap : a ≠ p) (hbp : b ≠ p) (al bl pl : List (Child C)) :
    let t := ((s.setIn a { Na with children := al }).setIn b { Nb with children := bl }).setIn p { Np with children := pl }
    (∀ y, lnk t y = lnk s y) ∧
    (∀ y, chs t y = if y = p then pl else if y = b then bl else if y = a then al else chs s y) ∧
    ((s.setIn a { Na with children := al }).setIn b { Nb with children := bl }).inn.get p = some Np := by
  have la : lnk s a ≠ none := lnk_isSome.mpr ⟨_, ha⟩
  have lb : lnk s b ≠ none := lnk_isSome.mpr ⟨_, hb⟩
  have lp : lnk s p ≠ none := lnk_isSome.mpr ⟨_, hp⟩
  have l1 : ∀ y, lnk (s.setIn a { Na with children := al }) y = lnk s y := by
    intro y; rw [lnk_setIn s la]; split
    · next e => subst e; exact (lnk_of ha).symm
    · rfl
  have l2 : ∀ y, lnk ((s.setIn a { Na with children := al }).setIn b { Nb with children := bl }) y = lnk s y := by
    intro y; rw [lnk_setIn _ (by rw [l1]; exact lb)]; split
    · next e => subst e; exact (lnk_of hb).symm
    · exact l1 y
  refine ⟨?_, ?_, ?_⟩
  · intro y
    rw [lnk_setIn _ (by rw [l2]; exact lp)]; split
    · next e => subst e; exact (lnk_of hp).symm
    · exact l2 y
  · intro y
    rw [chs_setIn _ (by rw [l2]; exact lp), chs_setIn _ (by rw [l1]; exact lb), chs_setIn _ la]
  · obtain ⟨Ma, hMa⟩ := lnk_isSome.mp la
    simp only [setIn_inn]
    rw [Arena.get_set_live (by
      rw [Arena.get_set_live hMa, if_neg (Ne.symm hab)]; exact hb), if_neg (Ne.symm hbp),
      Arena.get_set_live hMa, if_neg (Ne.symm hap), hp]

/-- The borrowing branch of `handle_lack_single_layer` (src/lib.rs:2029-2073). -/
def lackBorrow (B : Trait E C D) (s : Tree E C) (p ai bi aArr bArr : Nat) (chA chB : Child C) (a b : Node C) :
    M (Option Nat × Tree E C) := do
  let (aCh, bCh) :=
    if a.children.length < b.children.length then
      let m := (b.children.length - a.children.length) / 2
      (a.children ++ b.children.take m, b.children.drop m)
    else
      let m := (a.children.length - b.children.length) / 2
      (a.children.take (a.children.length - m),
        a.children.drop (a.children.length - m) ++ b.children)
  let rp :=
    if a.children.length < b.children.length then
      let m := (b.children.length - a.children.length) / 2
      reparentEntries (b.children.take m) ai a.children.length ++ reparentEntries bCh bi 0
    else
      let m := (a.children.length - b.children.length) / 2
      reparentEntries b.children bi m ++ reparentEntries bCh bi 0
  assertM (decide (aCh.length ≤ MAXC ∧ bCh.length ≤ MAXC))
  let a' := { a with children := aCh }
  let b' := { b with children := bCh }
  let s := (s.setIn ai a').setIn bi b'
  let (ac, _) ← calcCache B a' chA.cache none
  let (bc, _) ← calcCache B b' chB.cache none
  let par ← s.getIn p
  let par := { par with children :=
    (par.children.set aArr { chA with cache := ac }).set bArr { chB with cache := bc } }
  let s := s.setIn p par
  let s ← applyReparent s rp
  pure (if par.isLack then some p else none, s)

/-- `lackBorrow` with the new child lists as parameters -/
def lackMove (B : Trait E C D) (s : Tree E C) (p ai bi aArr bArr : Nat) (chA chB : Child C) (a b : Node C)
    (aCh bCh : List (Child C)) (rp : List (Idx × Nat × Nat)) : M (Option Nat × Tree E C) := do
  assertM (decide (aCh.length ≤ MAXC ∧ bCh.length ≤ MAXC))
  let a' := { a with children := aCh }
  let b' := { b with children := bCh }
  let s := (s.setIn ai a').setIn bi b'
  let (ac, _) ← calcCache B a' chA.cache none
  let (bc, _) ← calcCache B b' chB.cache none
  let par ← s.getIn p
  let par := { par with children :=
    (par.children.set aArr { chA with cache := ac }).set bArr { chB with cache := bc } }
  let s := s.setIn p par
  let s ← applyReparent s rp
  pure (if par.isLack then some p else none, s)

theorem lackBorrow_eq (B : Trait E C D) (s : Tree E C) (p ai bi aArr bArr : Nat) (chA chB : Child C) (a b : Node C) :
    lackBorrow B s p ai bi aArr bArr chA chB a b =
    if a.children.length < b.children.length then
      lackMove B s p ai bi aArr bArr chA chB a b
        (a.children ++ b.children.take ((b.children.length - a.children.length) / 2))
        (b.children.drop ((b.children.length - a.children.length) / 2))
        (reparentEntries (b.children.take ((b.children.length - a.children.length) / 2)) ai a.children.length ++
          reparentEntries (b.children.drop ((b.children.length - a.children.length) / 2)) bi 0)
    else
      lackMove B s p ai bi aArr bArr chA chB a b
        (a.children.take (a.children.length - (a.children.length - b.children.length) / 2))
        (a.children.drop (a.children.length - (a.children.length - b.children.length) / 2) ++ b.children)
        (reparentEntries b.children bi ((a.children.length - b.children.length) / 2) ++
          reparentEntries (a.children.drop (a.children.length - (a.children.length - b.children.length) / 2) ++ b.children) bi 0) := by
  unfold lackBorrow lackMove
  by_cases hlt : a.children.length < b.children.length
  · simp only [if_pos hlt]
  · simp only [if_neg hlt]

theorem lackMove_spec {X : Idx → Prop} {Q : Prop} (g : GoodX A s lvl h X Q) (hX : ∀ a ∈ kids s p, ¬ X a) 
    (hl : 2 ≤ lvl p) {a b i : Nat} {ca cb : Child C} {Na Nb : Node C}
    {L R : List (Child C)} (hk : chs s p = L ++ [ca, cb] ++ R) (hi : L.length = i)
    (hca : ca.arena = .internal a) (hcb : cb.arena = .internal b)
    (ha : s.inn.get a = some Na) (hb : s.inn.get b = some Nb)
    (hne : ∀ x, .internal x ∈ kids s p → chs s x ≠ [] ∨ LawE A)
    {aCh bCh : List (Child C)} (hcat : aCh ++ bCh = Na.children ++ Nb.children)
    (la : 6 ≤ aCh.length ∧ aCh.length ≤ 11) (lb : 6 ≤ bCh.length ∧ bCh.length ≤ 11)
    {rp : List (Idx × Nat × Nat)}
    (Ra : ∀ (j : Nat) (c : Child C), aCh[j]? = some c →
      look rp c.arena = some (a, j) ∨ (look rp c.arena = none ∧ Na.children[j]? = some c))
    (Rb : ∀ (j : Nat) (c : Child C), bCh[j]? = some c →
      look rp c.arena = some (b, j) ∨ (look rp c.arena = none ∧ Nb.children[j]? = some c))
    (R2 : ∀ e ∈ rp, e.1 ∈ Na.children.map Child.arena ∨ e.1 ∈ Nb.children.map Child.arena) :
    ∃ s', lackMove B s p a b i (i + 1) ca cb Na Nb aCh bCh rp =
        .ok (if (chs s' p).length < 6 then some p else none, s') ∧ PairPost A s s' lvl h p a b X Q := by
  have hea : Edge s p i (.internal a) := by
    rw [edge_chs]; exact ⟨ca, by rw [hk, ← hi]; simp, hca⟩
  have heb : Edge s p (i + 1) (.internal b) := by
    rw [edge_chs]; exact ⟨cb, by rw [hk, ← hi]; simp, hcb⟩
  have hap : a ≠ p := kid_ne_self g.wf hea
  have hbp : b ≠ p := kid_ne_self g.wf heb
  have hab : a ≠ b := by rintro rfl; have := (g.wf.kid_inj hea heb).2; omega
  obtain ⟨Np, hNp⟩ := lnk_isSome.mp (edge_live hea)
  have hpc : Np.children = L ++ [ca, cb] ++ R := by rw [← chs_of hNp, hk]
  have cokN : ∀ c ∈ aCh ++ bCh, A.okC c.cache := by
    intro c hc
    rw [hcat, List.mem_append] at hc
    rcases hc with h | h
    · exact g.cok a c (by rw [chs_of ha]; exact h)
    · exact g.cok b c (by rw [chs_of hb]; exact h)
  have hane : aCh ≠ [] := by intro e; rw [e] at la; simp at la
  have hbne : bCh ≠ [] := by intro e; rw [e] at lb; simp at lb
  obtain ⟨da, hca1, -⟩ := calcCache_ok (A := A) (N := { Na with children := aCh }) (Or.inl hane)
    (fun c hc => cokN c (List.mem_append.mpr (Or.inl hc))) ca.cache
  obtain ⟨db, hcb1, -⟩ := calcCache_ok (A := A) (N := { Nb with children := bCh }) (Or.inl hbne)
    (fun c hc => cokN c (List.mem_append.mpr (Or.inr hc))) cb.cache
  let ca' : Child C := { ca with cache := A.total (aCh.map Child.cache) }
  let cb' : Child C := { cb with cache := A.total (bCh.map Child.cache) }
  have hset : ((Np.children.set i ca').set (i + 1) cb') = L ++ [ca', cb'] ++ R := by
    rw [hpc, ← hi]
    simp [List.set_append]
  obtain ⟨v1, v2, v3⟩ := views3 ha hb hNp hab hap hbp aCh bCh (L ++ [ca', cb'] ++ R)
  generalize ht : ((s.setIn a { Na with children := aCh }).setIn b { Nb with children := bCh }).setIn p
    { Np with children := L ++ [ca', cb'] ++ R } = t at v1 v2
  have troot : t.root = s.root := by rw [← ht]; rfl
  have titems : t.inn.items.length = s.inn.items.length := by rw [← ht]; simp
  have tlf : t.lf = s.lf := by rw [← ht]; rfl
  have trc : t.rootCache = s.rootCache := by rw [← ht]; rfl
  have ta : chs t a = aCh := by rw [v2, if_neg hap, if_neg hab, if_pos rfl]
  have tb : chs t b = bCh := by rw [v2, if_neg hbp, if_pos rfl]
  have tp : chs t p = L ++ [ca', cb'] ++ R := by rw [v2, if_pos rfl]
  have kp : kids t p = kids s p := by
    rw [kids_chs, kids_chs, tp, hk]; simp [ca', cb']
  obtain ⟨s6, e1, e2, e3, e4, e5, e6, e7⟩ := pair_finish (s5 := t) g.wf hl hca hcb hk tp
    (by
      intro x hx
      simp only [List.map_cons, List.map_nil, List.mem_cons, List.not_mem_nil, or_false, ca', cb', hca, hcb] at hx
      exact hx)
    troot titems tlf (v1 p)
    (by
      intro j x he
      rw [Edge, kp] at he
      rw [v1]
      exact (g.wf.kin he).2)
    (by
      intro x hx hn
      exfalso
      apply hn
      simp only [List.map_cons, List.map_nil, List.mem_cons, List.not_mem_nil, or_false, ca', cb', hca, hcb,
        Idx.internal.injEq]
      exact hx)
    (by intro y h1 h2 h3; rw [v2, if_neg h1, if_neg h3, if_neg h2])
    (by
      simp only [List.flatMap_cons, List.flatMap_nil, List.append_nil, ca', cb', hca, hcb, chsI, ta, tb]
      rw [hcat, chs_of ha, chs_of hb])
    (fun y _ => v1 y)
    (rp := rp)
    (by
      intro x hx j c hc
      simp only [List.map_cons, List.map_nil, List.mem_cons, List.not_mem_nil, or_false, ca', cb', hca, hcb,
        Idx.internal.injEq] at hx
      rcases hx with rfl | rfl
      · rw [ta] at hc
        rw [chs_of ha]
        exact Ra j c hc
      · rw [tb] at hc
        rw [chs_of hb]
        exact Rb j c hc)
    (by
      intro e he
      rw [kids_of ha, kids_of hb]
      exact R2 e he)
  have s6a : chs s6 a = aCh := by rw [e3, ta]
  have s6b : chs s6 b = bCh := by rw [e3, tb]
  have g6 := pair_good (s6 := s6) g hX hl hca hcb hk (by rw [e3, tp]) (by simp)
    (by
      intro c hc
      simp only [List.mem_cons, List.not_mem_nil, or_false] at hc
      rcases hc with rfl | rfl
      · exact ⟨a, hca, Or.inl rfl, by rw [s6a]; exact hane, by simp only [ca', cch, s6a]⟩
      · exact ⟨b, hcb, Or.inr rfl, by rw [s6b]; exact hbne, by simp only [cb', cch, s6b]⟩)
    e2 (by rw [e5, trc]) hne
    (by intro y h1 h2 h3; rw [e3, v2, if_neg h1, if_neg h3, if_neg h2])
    (by
      intro x hx c hc
      have : c ∈ aCh ++ bCh := by
        rw [List.mem_append]
        rcases hx with rfl | rfl
        · rw [s6a] at hc; exact Or.inl hc
        · rw [s6b] at hc; exact Or.inr hc
      rw [hcat, List.mem_append, ← chs_of ha, ← chs_of hb] at this
      exact this)
    (by
      intro y hy hn
      exact hy ((e4 y).mpr (by rw [v1]; exact hn)))
  refine ⟨s6, ?_, ?_⟩
  · unfold lackMove
    rw [show decide (aCh.length ≤ MAXC ∧ bCh.length ≤ MAXC) = true by
      rw [decide_eq_true_eq]
      exact ⟨Nat.le_trans la.2 (by decide), Nat.le_trans lb.2 (by decide)⟩]
    simp only [assertM, if_true, bind_ok, pure_ok, hca1, hcb1, getIn_ok v3]
    have hset' := hset
    simp only [ca', cb'] at hset'
    simp only [hset', ca', cb'] at ht ⊢
    rw [ht, e1]
    simp only [bind_ok, Node.isLack, pure_ok]
    rw [e3, tp]
    simp [ca', cb', MAXC]
  · refine ⟨g6.1, g6.2.1, g6.2.2, ⟨e2.order g.wf (edge_live hea) hl ?_, e2.elm, by rw [e2.root], e6⟩, ?_, ?_, ?_, ?_, ?_, e7, Or.inl ⟨?_, ?_, ?_, ?_, ?_⟩, e2,
      ⟨L.map Child.arena, R.map Child.arena, [.internal a, .internal b], ?_, ?_, Or.inl rfl, ?_⟩⟩
    · rw [e7]; exact g.wf.h_le
    · intro y hy hn; exact hy ((e4 y).mpr (by rw [v1]; exact hn))
    · intro y hy _ _; rw [Ne, e4 y, v1]; exact hy
    · intro y h1 h2 h3; rw [e3, v2, if_neg h1, if_neg h3, if_neg h2]
    · intro y hy hyab
      rcases hyab with rfl | rfl
      · rw [s6a]; exact ⟨la.2, Or.inl la.1⟩
      · rw [s6b]; exact ⟨lb.2, Or.inl lb.1⟩
    · rw [e3, tp, hk]; simp
    · rw [Ne, e4 a, v1]; exact kids_live_in g.wf (mem_kids.mpr ⟨_, hea⟩)
    · rw [Ne, e4 b, v1]; exact kids_live_in g.wf (mem_kids.mpr ⟨_, heb⟩)
    · rw [s6a]; exact la.1
    · rw [s6b]; exact lb.1
    · rw [e3, tp, hk]; simp
    · rw [kids_chs, hk]; simp [hca, hcb]
    · rw [kids_chs, e3, tp]; simp [ca', cb', hca, hcb]
    · intro x hx
      simp only [List.mem_cons, List.not_mem_nil, or_false, Idx.internal.injEq] at hx
      rcases hx with rfl | rfl
      · rw [s6a]; exact hane
      · rw [s6b]; exact hbne

end
end GB
