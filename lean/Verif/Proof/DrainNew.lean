import Verif.Proof.DrainClimb
import Verif.Proof.Content
import Verif.Spec.Drain

/-!
# The two cuts made by `Drain::new`
-/

namespace GB
variable {E C D : Type} {B : Trait E C D} {A : Law B}
open Tree

section
variable {s s' : Tree E C} {lvl lvl' : Nat → Nat} {h h' : Nat}

theorem fresh_order (w : WF s lvl h) : s.lf.items.length ∉ order s := by
  intro hm
  have := (mem_order w).mp hm
  exact this (by rw [lpar, Arena.get_ge _ (Nat.le_refl _)]; rfl)

theorem cutRel_lists (w : WF s lvl h) {pos : Cursor} {info : SplitInfo} {e : E} (rel : CutRel B s pos info s') (hel : elm s pos.leaf = some e)
    (hoff : pos.offset ≤ B.rleLen e) :
    ∃ U V L R, order s = U ++ pos.leaf :: V ∧ order s' = L ++ R ∧ info.newPos = R.head?.map (fun l => ⟨l, 0⟩) ∧
      specCut B (abs s) pos = .ok (entriesOf s' L, entriesOf s' R, s'.lf.items.length) ∧
      ((pos.offset = 0 ∧ L = U ∧ R = pos.leaf :: V ∧ s' = s) ∨
       (pos.offset ≠ 0 ∧ pos.offset = B.rleLen e ∧ L = U ++ [pos.leaf] ∧ R = V ∧ s' = s) ∨
       (0 < pos.offset ∧ pos.offset < B.rleLen e ∧ L = U ++ [pos.leaf] ∧ R = s.lf.items.length :: V ∧
        ∃ x y, B.split e pos.offset = .ok (x, y) ∧
          ∀ k, elm s' k = if k = s.lf.items.length then some y else if k = pos.leaf then some x else elm s k)) := by
  have hmem : pos.leaf ∈ order s := (mem_order w).mpr (by
    intro hc
    rw [elm_none.mpr hc] at hel
    cases hel)
  have hloc : ∀ U V, order s = U ++ pos.leaf :: V → locate pos.leaf (abs s).es = some (entriesOf s U, e, entriesOf s V) := by
    intro U V ho
    refine (locate_entries w).mpr ?_
    rw [entries, ho, entriesOf_append, entriesOf_cons hel]
  cases rel with
  | start i h0 hs hi h2 h3 h4 =>
    subst hs
    obtain ⟨U, V, ho⟩ := List.append_of_mem hmem
    refine ⟨U, V, U, pos.leaf :: V, ho, ho, ?_, ?_, Or.inl ⟨h0, rfl, rfl, rfl⟩⟩
    · rw [h4, List.head?_cons, Option.map_some, ← h0]
    · simp only [specCut, hloc U V ho]
      rw [if_neg (by omega), if_pos h0, entriesOf_cons hel]
      rfl
  | stop i e' U V h0 h1 h2 hs hi h3 h4 ho h5 =>
    subst hs
    rw [hel] at h1
    cases h1
    refine ⟨U, V, U ++ [pos.leaf], V, ho, by rw [ho]; simp, h5, ?_, Or.inr (Or.inl ⟨h0, h2, rfl, rfl, rfl⟩)⟩
    simp only [specCut, hloc U V ho]
    rw [if_neg (by omega), if_neg h0, if_pos h2, entriesOf_append, entriesOf_cons hel]
    rfl
  | cut i e' x y U V h0 h1 h2 h3 h4 h5 h6 h7 h8 h9 ho ho' hk =>
    rw [hel] at h1
    cases h1
    refine ⟨U, V, U ++ [pos.leaf], s.lf.items.length :: V, ho, by rw [ho']; simp, h8, ?_, Or.inr (Or.inr ⟨h0, h2, rfl, rfl, x, y, h3, hk⟩)⟩
    have hfr := fresh_order w
    have nd := order_nodup w
    rw [ho] at hfr nd
    have hsame : ∀ l, l ∈ U ∨ l ∈ V → elm s' l = elm s l := by
      intro l hl
      rw [hk, if_neg, if_neg]
      · rintro rfl
        rw [List.nodup_append] at nd
        rcases hl with hl | hl
        · exact nd.2.2 pos.leaf hl pos.leaf (by simp) rfl
        · exact (List.nodup_cons.mp nd.2.1).1 hl
      · rintro rfl
        apply hfr
        rcases hl with hl | hl <;> simp [hl]
    have hne : pos.leaf ≠ s.lf.items.length := by rintro e; apply hfr; simp [e]
    have e1 : elm s' pos.leaf = some x := by rw [hk, if_neg hne, if_pos rfl]
    have e2 : elm s' s.lf.items.length = some y := by rw [hk, if_pos rfl]
    simp only [specCut, hloc U V ho]
    rw [if_neg (by omega), if_neg (by omega), if_neg (by omega), h3]
    simp only [bind_ok, pure_ok]
    rw [entriesOf_append, entriesOf_cons e1, entriesOf_cons e2, entriesOf_nil, entriesOf_congr (fun l hl => hsame l (Or.inl hl)),
      entriesOf_congr (fun l hl => hsame l (Or.inr hl)), h9]
    rfl

theorem unitLen_zero {es : List (Nat × E)} (hp : ∀ x ∈ es, 0 < B.rleLen x.2) (h0 : unitLen B es = 0) : es = [] := by
  cases es with
  | nil => rfl
  | cons x es =>
    have := hp x (by simp)
    simp only [unitLen, List.map_cons, List.sum_cons] at h0
    omega

theorem ContentLaw.splitLen {X : Type} {cont : E → List X} (K : ContentLaw B A.okE cont) : SplitLen B A.okE := by
  intro e i x y he h0 h1 hs
  obtain ⟨x', y', h2, h3, h4, -⟩ := A.split e i he h0 h1
  rw [h2] at hs
  cases hs
  obtain ⟨k1, k2⟩ := K.split e i x y he h0 h1 h2
  have l1 := K.len x h3
  have l2 := K.len y h4
  have l3 := K.len e he
  rw [k1, List.length_take] at l1
  rw [k2, List.length_drop] at l2
  omega

/-- the new leaf of a cut -/
theorem CutRel.newLeaf {pos : Cursor} {info : SplitInfo} (r : CutRel B s pos info s') :
    s.lf.items.length ≤ s'.lf.items.length ∧ info.newLeaf.toList = List.range' s.lf.items.length (s'.lf.items.length - s.lf.items.length) := by
  cases r with
  | start i _ hs _ _ h _ => subst hs; rw [h]; simp
  | stop i e u v _ _ _ hs _ _ h _ _ => subst hs; rw [h]; simp
  | cut i e a b u v _ _ _ _ _ _ _ h _ hl _ _ _ => rw [h, hl]; simp

/-- one of the two cuts (first at the end `b`, then at the start `a`) finds only full nodes above the leaf it cuts -/
def CutsRaise (B : Trait E C D) (s : Tree E C) (a b : Cursor) : Prop :=
  CutRaises B s b ∨ ∃ info s1, splitLeafIfNeeded B s b = .ok (info, s1) ∧ CutRaises B s1 a

/-- the cursor `a` is not behind the cursor `b`: its leaf is before that of `b`, or it is the same leaf and the offset is not larger, or `b`
is the end of a leaf and `a` the start of the next -/
def NotBehind (B : Trait E C D) (Ua Ub Vb : List Nat) (a b : Cursor) (eb : E) : Prop :=
  (∃ p, Ub = Ua ++ a.leaf :: p) ∨ (a.leaf = b.leaf ∧ a.offset ≤ b.offset) ∨
    (b.offset ≠ 0 ∧ b.offset = B.rleLen eb ∧ a.offset = 0 ∧ ∃ r, Vb = a.leaf :: r)

/-- the element behind the cursor `b` is not of length 0 -/
def EndPos (B : Trait E C D) (s : Tree E C) (Vb : List Nat) (b : Cursor) (eb : E) : Prop :=
  (b.offset = 0 → 0 < B.rleLen eb) ∧
    (b.offset ≠ 0 → b.offset = B.rleLen eb → ∀ l, Vb.head? = some l → ∀ x, elm s l = some x → 0 < B.rleLen x)

/-- for elements of positive length the order of cursors is that of their positions -/
theorem notBehind_of_pos (w : WF s lvl h) (hpos : ∀ l x, elm s l = some x → 0 < B.rleLen x) {a b : Cursor} {eb : E} {Ua Va Ub Vb : List Nat}
    (ha : order s = Ua ++ a.leaf :: Va) (hb : order s = Ub ++ b.leaf :: Vb) (heb : elm s b.leaf = some eb) (hob : b.offset ≤ B.rleLen eb)
    (hle : unitLen B (entriesOf s Ua) + a.offset ≤ unitLen B (entriesOf s Ub) + b.offset) : NotBehind B Ua Ub Vb a b eb := by
  have nd := order_nodup w
  have hmem : a.leaf ∈ Ub ++ b.leaf :: Vb := by rw [← hb, ha]; simp
  rw [List.mem_append, List.mem_cons] at hmem
  rcases hmem with hm | hm | hm
  · obtain ⟨u, v, rfl⟩ := List.append_of_mem hm
    have ho := hb
    rw [List.append_assoc, List.cons_append] at ho
    have nd' := nd
    rw [ha] at ho nd'
    obtain ⟨rfl, -⟩ := nodup_append_cons_inj ho nd'
    exact .inl ⟨v, rfl⟩
  · have ho := hb
    rw [← hm] at ho
    have nd' := nd
    rw [ha] at ho nd'
    obtain ⟨rfl, -⟩ := nodup_append_cons_inj ho nd'
    exact .inr (.inl ⟨hm, by omega⟩)
  · obtain ⟨u, v, rfl⟩ := List.append_of_mem hm
    have ho := hb
    rw [show Ub ++ b.leaf :: (u ++ a.leaf :: v) = (Ub ++ b.leaf :: u) ++ a.leaf :: v by simp] at ho
    have nd' := nd
    rw [ha] at ho nd'
    obtain ⟨rfl, -⟩ := nodup_append_cons_inj ho nd'
    rw [entriesOf_append, unitLen_append, entriesOf_cons heb, unitLen_cons] at hle
    simp only at hle
    have hun : entriesOf s u = [] := unitLen_zero (B := B) (es := entriesOf s u) (by
      intro x hx
      simp only [entriesOf, List.mem_filterMap, Option.map_eq_some_iff] at hx
      obtain ⟨l, -, e, he, rfl⟩ := hx
      exact hpos l e he) (by omega)
    have hu0 : u = [] := by
      have := entriesOf_fst w (ls := u) (fun x hx => (mem_order w).mp (by rw [ha]; simp [hx]))
      rw [hun] at this
      simpa using this.symm
    subst hu0
    have := hpos _ _ heb
    rw [hun] at hle
    simp only [unitLen, List.map_nil, List.sum_nil] at hle
    exact .inr (.inr ⟨by omega, by omega, by omega, v, rfl⟩)

theorem endPos_of_pos (hpos : ∀ l x, elm s l = some x → 0 < B.rleLen x) {b : Cursor} {eb : E} {Vb : List Nat} (heb : elm s b.leaf = some eb) :
    EndPos B s Vb b eb := ⟨fun _ => hpos _ _ heb, fun _ _ l _ x hx => hpos l x hx⟩

/-- a start position before the end of the tree -/
theorem start_before_end {s : Tree E C} {a : Cursor} {ea : E} {Ua Va : List Nat} (ha : order s = Ua ++ a.leaf :: Va) (hea : elm s a.leaf = some ea)
    (hend : unitLen B (entriesOf s Ua) + a.offset < unitLen B (entries s)) : a.offset = 0 ∨ a.offset < B.rleLen ea ∨ Va ≠ [] := by
  rw [entries, ha, entriesOf_append, unitLen_append, entriesOf_cons hea, unitLen_cons] at hend
  simp only at hend
  by_cases hv : Va = []
  · subst hv
    simp only [entriesOf_nil, unitLen, List.map_nil, List.sum_nil] at hend
    exact .inr (.inl (by omega))
  · exact .inr (.inr hv)

/-- Both cuts: `X` before, `Y` between and `Z` after them. -/
theorem drain_cuts {m : Fill} (hm1 : 1 ≤ m.lo) (hm5 : m.lo + m.d ≤ 5) (g : Good A s lvl h) (sz : Sz m s h) (hsl : SplitLen B A.okE)
    {a b : Cursor} {ea eb : E} {Ua Va Ub Vb : List Nat}
    (ha : order s = Ua ++ a.leaf :: Va) (hea : elm s a.leaf = some ea) (hoa : a.offset ≤ B.rleLen ea)
    (hb : order s = Ub ++ b.leaf :: Vb) (heb : elm s b.leaf = some eb) (hob : b.offset ≤ B.rleLen eb)
    (hle : NotBehind B Ua Ub Vb a b eb) :
    ∃ ei s1 si s2 lvl2 h2 X Y Z, splitLeafIfNeeded B s b = .ok (ei, s1) ∧ splitLeafIfNeeded B s1 a = .ok (si, s2) ∧ Good A s2 lvl2 h2 ∧
      Sz m s2 h2 ∧ Steps (CutsRaise B s a b) h h2 ∧ order s2 = X ++ Y ++ Z ∧ ei.newPos = Z.head?.map (fun l => ⟨l, 0⟩) ∧
      si.newPos = (Y ++ Z).head?.map (fun l => ⟨l, 0⟩) ∧ (EndPos B s Vb b eb → ∀ l, Z.head? = some l → ∀ x, elm s2 l = some x → 0 < B.rleLen x) ∧
      (a.offset = 0 ∨ a.offset < B.rleLen ea ∨ Va ≠ [] → Y ++ Z ≠ []) ∧
      ∃ L n, specCut B (abs s) b = .ok (L, entriesOf s2 Z, n) ∧
        specCut B ⟨n, L ++ entriesOf s2 Z⟩ a = .ok (entriesOf s2 X, entriesOf s2 Y ++ entriesOf s2 Z, s2.lf.items.length) ∧
        s.lf.items.length ≤ s2.lf.items.length ∧
        ei.newLeaf.toList ++ si.newLeaf.toList = List.range' s.lf.items.length (s2.lf.items.length - s.lf.items.length) := by
  have hm6 : m.lo + m.d ≤ 6 := by omega
  obtain ⟨ei, s1, lvl1, h1, q1, g1, sz1, hh1, hh1', rel1⟩ := splitLeafIfNeeded_spec hm1 hm6 g sz heb hob (Or.inl hm5)
  obtain ⟨U, V, L, R, o1, o2, n1, c1, cs1⟩ := cutRel_lists g.wf rel1 heb hob
  have nd := order_nodup g.wf
  have hUV : U = Ub ∧ V = Vb := by
    have := hb
    rw [o1] at this nd
    obtain ⟨e1, e2⟩ := nodup_append_cons_inj this nd
    exact ⟨e1, e2⟩
  obtain ⟨rfl, rfl⟩ := hUV
  have nd1 := order_nodup g1.wf
  have same : a.leaf = b.leaf → Ua = U ∧ Va = V ∧ ea = eb := by
    intro hc
    have ho := o1
    rw [← hc] at ho
    have nd' := nd
    rw [ha] at ho nd'
    obtain ⟨e1, e2⟩ := nodup_append_cons_inj ho nd'
    rw [hc, heb] at hea
    exact ⟨e1, e2, by cases hea; rfl⟩
  -- where the start is
  have place : (∃ ea', elm s1 a.leaf = some ea' ∧ a.offset ≤ B.rleLen ea' ∧ ((ea' = ea ∧ order s1 = order s) ∨ R ≠ [])) ∧
      ((∃ p', L = Ua ++ a.leaf :: p') ∨ (a.offset = 0 ∧ ∃ r', R = a.leaf :: r')) ∧
      (EndPos B s V b eb → ∀ l, R.head? = some l → ∀ x, elm s1 l = some x → 0 < B.rleLen x) := by
    rcases cs1 with ⟨h0, rfl, rfl, rfl⟩ | ⟨h0, h2, rfl, rfl, rfl⟩ | ⟨h0, h2, rfl, rfl, x, y, hs, hk⟩
    · refine ⟨⟨ea, hea, hoa, .inl ⟨rfl, rfl⟩⟩, ?_, fun hz l hl x hx => ?_⟩
      · rcases hle with hp | ⟨hc, ho⟩ | ⟨hc, -⟩
        · exact .inl hp
        · exact .inr ⟨by omega, V, by rw [hc]⟩
        · exact absurd h0 hc
      · cases hl
        rw [heb] at hx
        cases hx
        exact hz.1 h0
    · refine ⟨⟨ea, hea, hoa, .inl ⟨rfl, rfl⟩⟩, ?_, fun hz l hl x hx => hz.2 h0 h2 l hl x hx⟩
      rcases hle with ⟨p, hp⟩ | ⟨hc, ho⟩ | ⟨-, -, ho, hr⟩
      · exact .inl ⟨p ++ [b.leaf], by rw [hp]; simp⟩
      · exact .inl ⟨[], by rw [(same hc).1, hc]⟩
      · exact .inr ⟨ho, hr⟩
    · obtain ⟨k1, k2⟩ := hsl eb b.offset x y (g.okE _ _ heb) h0 h2 hs
      have hfr := fresh_order g.wf
      have hane : a.leaf ≠ s.lf.items.length := by intro hc; apply hfr; rw [← hc, ha]; simp
      have hposR : EndPos B s V b eb → ∀ l, (s.lf.items.length :: V).head? = some l → ∀ z, elm s1 l = some z → 0 < B.rleLen z := by
        intro _ l hl z hz
        cases hl
        rw [hk, if_pos rfl] at hz
        cases hz; omega
      rcases hle with ⟨p, hp⟩ | ⟨hc, ho⟩ | ⟨-, hc, -⟩
      · refine ⟨⟨ea, ?_, hoa, .inr (by simp)⟩, Or.inl ⟨p ++ [b.leaf], by rw [hp]; simp⟩, hposR⟩
        rw [hk, if_neg hane, if_neg, hea]
        intro hc
        have nd' := nd
        rw [o1, hp, List.nodup_append] at nd'
        exact nd'.2.2 a.leaf (by simp) a.leaf (by rw [hc]; simp) rfl
      · exact ⟨⟨x, by rw [hk, if_neg hane, if_pos hc], by omega, .inr (by simp)⟩, Or.inl ⟨[], by rw [hc, (same hc).1]⟩, hposR⟩
      · omega
  obtain ⟨⟨ea', hea', hoa', hrest⟩, hpl, hposR⟩ := place
  obtain ⟨si, s2, lvl2, h2, q2, g2, sz2, hh2, hh2', rel2⟩ := splitLeafIfNeeded_spec hm1 hm6 g1 sz1 hea' hoa' (Or.inl hm5)
  have hst : Steps (CutsRaise B s a b) h h2 := by
    have hle2 := hh1'.le2 hh2'
    rcases hh1' with ⟨e1, e2⟩ | ⟨e1, e2, -⟩
    · rcases hh2' with ⟨e3, e4⟩ | ⟨e3, e4, -⟩
      · refine .inl ⟨by omega, ?_⟩
        rintro (hc | ⟨ei', s1', hs, hc⟩)
        · exact e2 hc
        · rw [q1] at hs
          cases hs
          exact e4 hc
      · exact .inr ⟨by omega, .inr ⟨_, _, q1, e4⟩⟩
    · exact .inr ⟨by omega, .inl e2⟩
  obtain ⟨U2, V2, L2, R2, o3, o4, n2, c2, cs2⟩ := cutRel_lists g1.wf rel2 hea' hoa'
  have key : ∃ X Y, L2 = X ∧ R2 = Y ++ R ∧ (∀ l ∈ R, elm s2 l = elm s1 l) := by
    rcases hpl with ⟨p', rfl⟩ | ⟨h0, r', rfl⟩
    · have ho := o2
      rw [List.append_assoc, List.cons_append] at ho
      have nd' := nd1
      rw [o3] at ho nd'
      obtain ⟨rfl, rfl⟩ := nodup_append_cons_inj ho nd'
      rcases cs2 with ⟨h0, rfl, rfl, rfl⟩ | ⟨h0, h3, rfl, rfl, rfl⟩ | ⟨h0, h3, rfl, rfl, x, y, hs, hk⟩
      · exact ⟨_, a.leaf :: p', rfl, by simp, fun _ _ => rfl⟩
      · exact ⟨_, p', rfl, rfl, fun _ _ => rfl⟩
      · refine ⟨_, s1.lf.items.length :: p', rfl, by simp, ?_⟩
        intro l hl
        have hfr := fresh_order g1.wf
        rw [hk, if_neg, if_neg]
        · rintro rfl
          rw [List.nodup_append] at nd'
          exact (List.nodup_cons.mp nd'.2.1).1 (by simp [hl])
        · rintro rfl
          apply hfr
          rw [o3]; simp [hl]
    · have nd' := nd1
      have ho := o2
      rw [o3] at ho nd'
      obtain ⟨rfl, rfl⟩ := nodup_append_cons_inj ho nd'
      rcases cs2 with ⟨-, rfl, rfl, rfl⟩ | ⟨h3, -⟩ | ⟨h3, -⟩
      · exact ⟨_, [], rfl, rfl, fun _ _ => rfl⟩
      · exact absurd h0 h3
      · omega
  obtain ⟨X, Y, rfl, rfl, hkeep⟩ := key
  have hR : entriesOf s2 R = entriesOf s1 R := entriesOf_congr hkeep
  refine ⟨ei, s1, si, s2, lvl2, h2, L2, Y, R, q1, q2, g2, sz2, hst, by rw [o4]; simp, n1, n2, ?_, ?_, ?_⟩
  · intro hz l hl x hx
    rw [hkeep l (List.mem_of_head? hl)] at hx
    exact hposR hz l hl x hx
  · intro hend hc
    rcases hrest with ⟨rfl, hoo⟩ | hR0
    · rcases cs2 with ⟨h0, -, hr, -⟩ | ⟨h0, h3, -, hr, -⟩ | ⟨h0, h3, -, hr, -⟩
      · rw [hc] at hr; cases hr
      · have ho := o3
        rw [hoo, ha] at ho
        have nd' := nd
        rw [ha] at nd'
        obtain ⟨-, e2⟩ := nodup_append_cons_inj ho nd'
        rcases hend with hend | hend | hend
        · exact h0 hend
        · omega
        · rw [e2, ← hr] at hend; exact hend hc
      · rw [hc] at hr; cases hr
    · exact hR0 (List.append_eq_nil_iff.mp hc).2
  · have habs : abs s1 = ⟨s1.lf.items.length, entriesOf s1 L ++ entriesOf s1 R⟩ := by rw [abs, entries, o2, entriesOf_append]
    rw [habs] at c2
    rw [hR]
    refine ⟨entriesOf s1 L, s1.lf.items.length, c1, ?_⟩
    rw [c2, entriesOf_append, hR]
    obtain ⟨a1, a2⟩ := rel1.newLeaf
    obtain ⟨b1, b2⟩ := rel2.newLeaf
    refine ⟨rfl, by omega, ?_⟩
    rw [a2, b2, show s2.lf.items.length - s.lf.items.length =
      (s1.lf.items.length - s.lf.items.length) + (s2.lf.items.length - s1.lf.items.length) by omega, ← List.range'_append_1,
      show s.lf.items.length + (s1.lf.items.length - s.lf.items.length) = s1.lf.items.length by omega]

/-! ## Units -/

section
variable {W : Type} {ok : E → Prop} {cont : E → List W}

/-- cutting a sequence cuts its units -/
theorem specCut_content (hl : ∀ e, ok e → (cont e).length = B.rleLen e)
    (hs : ∀ e i x y, ok e → 0 < i → i < B.rleLen e → B.split e i = .ok (x, y) → cont x = (cont e).take i ∧ cont y = (cont e).drop i)
    {t : Seq E} {c : Cursor} {L R : List (Nat × E)} {n i : Nat} (hok : ∀ x ∈ t.es, ok x.2) (hc : specCut B t c = .ok (L, R, n))
    (hp : posOf B t c = some i) : content cont L = (content cont t.es).take i ∧ content cont R = (content cont t.es).drop i := by
  simp only [specCut] at hc
  simp only [posOf, Option.map_eq_some_iff] at hp
  obtain ⟨⟨U, e, V⟩, hloc, rfl⟩ := hp
  rw [hloc] at hc
  have hes := locate_some hloc
  have hU : (content cont U).length = unitLen B U := by
    have : ∀ es : List (Nat × E), (∀ x ∈ es, ok x.2) → (content cont es).length = unitLen B es := by
      intro es
      induction es with
      | nil => intro _; rfl
      | cons x es ih => intro h; rw [content_cons, List.length_append, ih (fun y hy => h y (by simp [hy])), hl _ (h x (by simp)), unitLen_cons]
    exact this U (fun x hx => hok x (by rw [hes]; simp [hx]))
  have he : ok e := hok (c.leaf, e) (by rw [hes]; simp)
  have hel := hl e he
  simp only at hc ⊢
  have hcont : content cont t.es = content cont U ++ (cont e ++ content cont V) := by rw [hes]; simp
  rw [hcont, ← hU, List.take_length_add_append, List.drop_length_add_append]
  split at hc
  · cases hc
  · next hlt =>
    split at hc
    · next h0 => cases hc; rw [h0]; simp
    · next h0 =>
      split at hc
      · next h1 =>
        cases hc
        rw [h1, ← hel, List.take_left, List.drop_left]
        simp
      · next h1 =>
        cases hsp : B.split e c.offset with
        | error er => rw [hsp] at hc; cases hc
        | ok r =>
          obtain ⟨x, y⟩ := r
          rw [hsp] at hc
          cases hc
          obtain ⟨k1, k2⟩ := hs e c.offset x y he (by omega) (by omega) hsp
          rw [List.take_append_of_le_length (by omega), List.drop_append_of_le_length (by omega)]
          simp [k1, k2]

/-- cutting elsewhere does not move a cursor -/
theorem posOf_cut (hsl : SplitLen B ok) {t : Seq E} {a b : Cursor} {L R : List (Nat × E)} {n i : Nat} (hok : ∀ x ∈ t.es, ok x.2)
    (nd : (t.es.map Prod.fst).Nodup) (hfr : t.next ∉ t.es.map Prod.fst) (hc : specCut B t b = .ok (L, R, n)) (hp : posOf B t a = some i) :
    posOf B ⟨n, L ++ R⟩ a = some i := by
  simp only [specCut] at hc
  cases hloc : locate b.leaf t.es with
  | none => rw [hloc] at hc; cases hc
  | some r =>
    obtain ⟨U, e, V⟩ := r
    rw [hloc] at hc
    have hes := locate_some hloc
    have hsame : L ++ R = t.es → posOf B ⟨n, L ++ R⟩ a = some i := by
      intro h; rw [← hp]; simp only [posOf, h]
    simp only at hc
    split at hc
    · cases hc
    · split at hc
      · next h0 => cases hc; exact hsame hes.symm
      · split at hc
        · next h1 => cases hc; exact hsame (by rw [hes]; simp)
        · next h0 h1 =>
          cases hsp : B.split e b.offset with
          | error er => rw [hsp] at hc; cases hc
          | ok r =>
            obtain ⟨x, y⟩ := r
            rw [hsp] at hc
            cases hc
            obtain ⟨k1, k2⟩ := hsl e b.offset x y (hok (b.leaf, e) (by rw [hes]; simp)) (by omega) (by omega) hsp
            simp only [posOf, Option.map_eq_some_iff] at hp ⊢
            obtain ⟨⟨Ua, ea, Va⟩, hla, rfl⟩ := hp
            have hea := locate_some hla
            have nd' : ((U ++ [(b.leaf, x)] ++ (t.next, y) :: V).map Prod.fst).Nodup := by
              rw [hes] at nd hfr
              simp only [List.map_append, List.map_cons, List.map_nil, List.append_assoc, List.singleton_append] at nd hfr ⊢
              rw [List.nodup_append, List.nodup_cons] at nd
              rw [List.nodup_append, List.nodup_cons, List.nodup_cons]
              simp only [List.mem_append, List.mem_cons, not_or] at hfr nd ⊢
              refine ⟨nd.1, ⟨⟨fun hc => hfr.2.1 hc.symm, nd.2.1.1⟩, hfr.2.2, nd.2.1.2⟩, ?_⟩
              intro p hp q hq
              rcases hq with rfl | rfl | hq
              · exact nd.2.2 p hp _ (Or.inl rfl)
              · rintro rfl; exact hfr.1 hp
              · exact nd.2.2 p hp q (Or.inr hq)
            have hm : (a.leaf, ea) ∈ U ++ (b.leaf, e) :: V := by rw [← hes, hea]; simp
            rw [List.mem_append, List.mem_cons] at hm
            rcases hm with hm | hm | hm
            · obtain ⟨u, v, rfl⟩ := List.append_of_mem hm
              have := hes
              rw [List.append_assoc, List.cons_append] at this
              rw [locate_split nd this] at hla
              cases hla
              refine ⟨_, locate_split nd' (U := Ua) (e := ea) (V := v ++ [(b.leaf, x)] ++ (t.next, y) :: V) (by simp), rfl⟩
            · have hbl : a.leaf = b.leaf := congrArg Prod.fst hm
              rw [hbl, hloc] at hla
              cases hla
              rw [hbl]
              refine ⟨_, locate_split nd' (U := U) (e := x) (V := (t.next, y) :: V) (by simp), rfl⟩
            · obtain ⟨u, v, rfl⟩ := List.append_of_mem hm
              have : t.es = (U ++ (b.leaf, e) :: u) ++ (a.leaf, ea) :: v := by rw [hes]; simp
              rw [locate_split nd this] at hla
              cases hla
              refine ⟨_, locate_split nd' (U := U ++ (b.leaf, x) :: (t.next, y) :: u) (e := ea) (V := Va) (by simp), ?_⟩
              simp only [unitLen_append, unitLen_cons, k1, k2]
              omega

theorem specCut_ok (hs : ∀ e i x y, ok e → 0 < i → i < B.rleLen e → B.split e i = .ok (x, y) → ok x ∧ ok y)
    {t : Seq E} {c : Cursor} {L R : List (Nat × E)} {n : Nat} (hok : ∀ x ∈ t.es, ok x.2) (hc : specCut B t c = .ok (L, R, n)) :
    ∀ x ∈ L ++ R, ok x.2 := by
  simp only [specCut] at hc
  cases hloc : locate c.leaf t.es with
  | none => rw [hloc] at hc; cases hc
  | some r =>
    obtain ⟨U, e, V⟩ := r
    rw [hloc] at hc
    have hes := locate_some hloc
    simp only at hc
    split at hc
    · cases hc
    · split at hc
      · next h0 => cases hc; rw [← hes]; exact hok
      · split at hc
        · next h1 => cases hc; rw [List.append_assoc, List.singleton_append, ← hes]; exact hok
        · next h0 h1 =>
          cases hsp : B.split e c.offset with
          | error er => rw [hsp] at hc; cases hc
          | ok r =>
            obtain ⟨x, y⟩ := r
            rw [hsp] at hc
            cases hc
            obtain ⟨k1, k2⟩ := hs e c.offset x y (hok (c.leaf, e) (by rw [hes]; simp)) (by omega) (by omega) hsp
            intro z hz
            simp only [List.mem_append, List.mem_cons, List.not_mem_nil, or_false] at hz
            rcases hz with (hz | rfl) | rfl | hz
            · exact hok z (by rw [hes]; simp [hz])
            · exact k1
            · exact k2
            · exact hok z (by rw [hes]; simp [hz])

/-- draining in units: `Y` are the units from `i` to `j` -/
theorem drain_content (hl : ∀ e, ok e → (cont e).length = B.rleLen e)
    (hs : ∀ e i x y, ok e → 0 < i → i < B.rleLen e → B.split e i = .ok (x, y) → ok x ∧ ok y ∧ cont x = (cont e).take i ∧ cont y = (cont e).drop i)
    {t : Seq E} {a b : Cursor} {L X Y R : List (Nat × E)} {n n' i j : Nat} (hok : ∀ x ∈ t.es, ok x.2)
    (nd : (t.es.map Prod.fst).Nodup) (hfr : t.next ∉ t.es.map Prod.fst) (h1 : specCut B t b = .ok (L, R, n))
    (h2 : specCut B ⟨n, L ++ R⟩ a = .ok (X, Y ++ R, n')) (hi : posOf B t a = some i) (hj : posOf B t b = some j) :
    content cont X = (content cont t.es).take i ∧ content cont R = (content cont t.es).drop j ∧
      content cont (Y ++ R) = (content cont t.es).drop i := by
  have hok' := specCut_ok (fun e i x y h1 h2 h3 h4 => ⟨(hs e i x y h1 h2 h3 h4).1, (hs e i x y h1 h2 h3 h4).2.1⟩) hok h1
  have hs' : ∀ e i x y, ok e → 0 < i → i < B.rleLen e → B.split e i = .ok (x, y) → cont x = (cont e).take i ∧ cont y = (cont e).drop i :=
    fun e i x y h1 h2 h3 h4 => (hs e i x y h1 h2 h3 h4).2.2
  have hsl : SplitLen B ok := by
    intro e i x y he h0 hlt hsp
    obtain ⟨o1, o2, k1, k2⟩ := hs e i x y he h0 hlt hsp
    have l1 := hl x o1
    have l2 := hl y o2
    have l3 := hl e he
    rw [k1, List.length_take] at l1
    rw [k2, List.length_drop] at l2
    omega
  obtain ⟨c1, c2⟩ := specCut_content hl hs' hok h1 hj
  have hp := posOf_cut hsl hok nd hfr h1 hi
  obtain ⟨c3, c4⟩ := specCut_content hl hs' hok' h2 hp
  have hcc : content cont (L ++ R) = content cont t.es := by rw [content_append, c1, c2, List.take_append_drop]
  simp only [hcc] at c3 c4
  exact ⟨c3, c2, c4⟩

end

end

end GB
