import Verif.Proof.Content
import Verif.Proof.MergeAdj
import Verif.Props.C03

/-!
# Inserting several elements at a cursor
-/

namespace GB
variable {E C D X : Type}
open Tree

/-- the cursor is at position `n` of the sequence -/
def At (B : Trait E C D) (t : Seq E) (c : Cursor) (n : Nat) : Prop :=
  ∃ U e V, t.es = U ++ (c.leaf, e) :: V ∧ c.offset ≤ B.rleLen e ∧ n = unitLen B U + c.offset

/-- the entries `P` followed by leaf `l` come strictly before the cursor -/
def Behind (t : Seq E) (P : List (Nat × E)) (l : Nat) (c : Cursor) : Prop :=
  ∃ e Q, t.es = P ++ (l, e) :: Q ∧ (c.leaf ∈ Q.map Prod.fst ∨ (c.leaf = l ∧ c.offset ≠ 0))

/-- no element is empty -/
def NonEmp (B : Trait E C D) (t : Seq E) : Prop := ∀ x ∈ t.es, 0 < B.rleLen x.2

/-- the possible outcomes of inserting one element -/
inductive InsCase (B : Trait E C D) (okE : E → Prop) (t : Seq E) (c : Cursor) (data : E) (U : List (Nat × E)) (e : E)
    (V : List (Nat × E)) (c' : Cursor) (t' : Seq E) : Prop
  | absorb (e' : E) : okE e' → c' = c → t'.es = U ++ (c.leaf, e') :: V → InsCase B okE t c data U e V c' t'
  | before : c.offset = 0 → c' = ⟨t.next, 0⟩ → t'.es = U ++ (t.next, data) :: (c.leaf, e) :: V → InsCase B okE t c data U e V c' t'
  | after : c.offset ≠ 0 → c.offset = B.rleLen e → c' = ⟨t.next, 0⟩ → t'.es = U ++ (c.leaf, e) :: (t.next, data) :: V →
      InsCase B okE t c data U e V c' t'
  | inside (a b : E) : 0 < c.offset → c.offset < B.rleLen e → B.split e c.offset = .ok (a, b) → okE a → okE b → c' = ⟨t.next + 1, 0⟩ →
      t'.es = U ++ (c.leaf, a) :: (t.next + 1, data) :: (t.next, b) :: V → InsCase B okE t c data U e V c' t'

theorem specInsert_cases {B : Trait E C D} (A : Law B) {t t' : Seq E} {c : Cursor} {data : E} {r : Cursor × List Nat}
    {U V : List (Nat × E)} {e : E} (hl : locate c.leaf t.es = some (U, e, V)) (he : A.okE e) (hd : A.okE data)
    (h : specInsert B t c data = .ok (r, t')) : InsCase B A.okE t c data U e V r.1 t' := by
  unfold specInsert at h
  rw [hl] at h
  simp only at h
  split at h
  · cases h
  · next ho =>
    rcases A.tryInsert e c.offset data he hd (by omega) with ⟨e', h1, h2, -⟩ | h1
    · rw [h1, bind_ok] at h
      simp only [pure_ok, Except.ok.injEq, Prod.mk.injEq] at h
      obtain ⟨rfl, rfl⟩ := h
      exact .absorb e' h2 rfl rfl
    · rw [h1, bind_ok] at h
      simp only at h
      split at h
      · next hc =>
        obtain ⟨e', hm, h2, -⟩ := A.merge_left data e hd he hc.2
        rw [hm, bind_ok] at h
        simp only [pure_ok, Except.ok.injEq, Prod.mk.injEq] at h
        obtain ⟨rfl, rfl⟩ := h
        exact .absorb e' h2 (by rw [← hc.1]) rfl
      · split at h
        · next hc =>
          obtain ⟨e', hm, h2, -⟩ := A.merge_right e data he hd hc.2
          rw [hm, bind_ok] at h
          simp only [pure_ok, Except.ok.injEq, Prod.mk.injEq] at h
          obtain ⟨rfl, rfl⟩ := h
          exact .absorb e' h2 (by rw [← hc.1]) rfl
        · split at h
          · next hc =>
            simp only [pure_ok, Except.ok.injEq, Prod.mk.injEq] at h
            obtain ⟨rfl, rfl⟩ := h
            exact .before hc rfl rfl
          · split at h
            · next h0 hc =>
              simp only [pure_ok, Except.ok.injEq, Prod.mk.injEq] at h
              obtain ⟨rfl, rfl⟩ := h
              exact .after h0 hc rfl rfl
            · next h0 hc =>
              obtain ⟨a, b, hm, ha, hb, -⟩ := A.split e c.offset he (by omega) (by omega)
              rw [hm, bind_ok] at h
              simp only [pure_ok, Except.ok.injEq, Prod.mk.injEq] at h
              obtain ⟨rfl, rfl⟩ := h
              exact .inside a b (by omega) (by omega) hm ha hb rfl rfl

/-- two decompositions of a list without duplicate leaves -/
theorem es_decomp {es U V P Q : List (Nat × E)} {l k : Nat} {e x : E} (nd : (es.map Prod.fst).Nodup)
    (h1 : es = U ++ (l, e) :: V) (h2 : es = P ++ (k, x) :: Q) (hl : l ∈ Q.map Prod.fst) :
    ∃ Q1, U = P ++ (k, x) :: Q1 ∧ Q = Q1 ++ (l, e) :: V := by
  obtain ⟨⟨l', e'⟩, hm, rfl⟩ := List.mem_map.mp hl
  obtain ⟨Q1, Q2, hq⟩ := List.append_of_mem hm
  subst hq
  have a1 := locate_split nd h1
  have a2 := locate_split (l := l') (e := e') (U := P ++ (k, x) :: Q1) (V := Q2) nd (by rw [h2]; simp)
  rw [a1] at a2
  simp only [Option.some.injEq, Prod.mk.injEq] at a2
  obtain ⟨rfl, rfl, rfl⟩ := a2
  exact ⟨Q1, rfl, rfl⟩

/-- everything the batch loop needs to know about one insertion -/
structure Step (B : Trait E C D) (A : Law B) (cont : E → List X) (n : Nat) (add : List X) (t t' : Seq E) (c c' : Cursor) : Prop where
  content : content cont t'.es = splice (content cont t.es) n add
  behind : ∀ P l, Behind t P l c → Behind t' P l c'
  ids : ∀ i, i ∈ t.es.map Prod.fst → i ∈ t'.es.map Prod.fst
  nonEmp : NonEmp B t → NonEmp B t'

theorem inserted_step {B : Trait E C D} {A : Law B} {cont : E → List X} (L : ContentLaw B A.okE cont) {t t' : Seq E} {c : Cursor}
    {data : E} {r : Cursor × List Nat} (nd : (t.es.map Prod.fst).Nodup) (hok : ∀ x ∈ t.es, A.okE x.2) (hok' : ∀ x ∈ t'.es, A.okE x.2)
    (hd : A.okE data) {n : Nat} (hat : At B t c n) (h : specInsert B t c data = .ok (r, t')) :
    At B t' r.1 n ∧ content cont t'.es = splice (content cont t.es) n (cont data) ∧
      (∀ P l, Behind t P l c → Behind t' P l r.1) ∧ (∀ i, i ∈ t.es.map Prod.fst → i ∈ t'.es.map Prod.fst) ∧
      (NonEmp B t → 0 < B.rleLen data → NonEmp B t') := by
  obtain ⟨U, e, V, hes, ho, hn⟩ := hat
  have hloc := locate_split nd hes
  have he : A.okE e := hok (c.leaf, e) (by rw [hes]; simp)
  have hU : ∀ x ∈ U, A.okE x.2 := fun x hx => hok x (by rw [hes]; simp [hx])
  have hcon := specInsert_content' L hloc hok hd A rfl h
  rw [← hn] at hcon
  have hlen := content_length L hok'
  rw [hcon] at hlen
  have hl0 := content_length L hok
  have hbeh : ∀ P l, Behind t P l c → (c.leaf = l ∧ c.offset ≠ 0 ∧ P = U) ∨ ∃ x Q1, U = P ++ (l, x) :: Q1 := by
    rintro P l ⟨x, Q, hq, hcl⟩
    rcases hcl with hcl | ⟨hcl, h0⟩
    · obtain ⟨Q1, hQ1, -⟩ := es_decomp nd hes hq hcl
      exact .inr ⟨x, Q1, hQ1⟩
    · subst hcl
      have := locate_split nd hq
      rw [hloc] at this
      cases this
      exact .inl ⟨rfl, h0, rfl⟩
  cases specInsert_cases A hloc he hd h with
  | absorb e' h1 h2 h3 =>
    have hlt' : (content cont t'.es).length = unitLen B t'.es := content_length L hok'
    have e1 : B.rleLen e' = B.rleLen e + (cont data).length := by
      have e2 := content_length L hok'
      rw [hcon, h3] at e2
      have e3 := hl0
      rw [hes] at e3
      have : n ≤ (content cont t.es).length := by rw [hl0, hes, hn]; simp; omega
      simp only [splice, List.length_append, List.length_take, List.length_drop] at e2
      simp only [hes] at e2 this
      simp at e2 e3 this
      omega
    refine ⟨⟨U, e', V, by rw [h2]; exact h3, by rw [h2]; omega, by rw [h2]; exact hn⟩, hcon, ?_, ?_, ?_⟩
    · intro P l hb
      rw [h2]
      rcases hbeh P l hb with ⟨a1, a2, a3⟩ | ⟨x, Q1, hQ⟩
      · exact ⟨e', V, by rw [h3, a3, a1], .inr ⟨a1, a2⟩⟩
      · exact ⟨x, Q1 ++ (c.leaf, e') :: V, by rw [h3, hQ]; simp, .inl (by simp)⟩
    · intro i hi; rw [hes] at hi; rw [h3]; simpa using hi
    · intro hne _ x hx
      rw [h3] at hx
      rcases List.mem_append.mp hx with hx | hx
      · exact hne x (by rw [hes]; simp [hx])
      · rcases List.mem_cons.mp hx with rfl | hx
        · have := hne (c.leaf, e) (by rw [hes]; simp)
          simp only at this ⊢; omega
        · exact hne x (by rw [hes]; simp [hx])
  | before h1 h2 h3 =>
    refine ⟨⟨U, data, (c.leaf, e) :: V, by rw [h2]; exact h3, by rw [h2]; simp, by rw [h2, hn, h1]⟩, hcon, ?_, ?_, ?_⟩
    · intro P l hb
      rw [h2]
      rcases hbeh P l hb with ⟨a1, a2, a3⟩ | ⟨x, Q1, hQ⟩
      · exact absurd h1 a2
      · exact ⟨x, Q1 ++ (t.next, data) :: (c.leaf, e) :: V, by rw [h3, hQ]; simp, .inl (by simp)⟩
    · intro i hi
      rw [hes] at hi; rw [h3]
      simp only [List.map_append, List.map_cons, List.mem_append, List.mem_cons] at hi ⊢
      rcases hi with hi | hi | hi
      · exact .inl hi
      · exact .inr (.inr (.inl hi))
      · exact .inr (.inr (.inr hi))
    · intro hne h0 x hx
      rw [h3] at hx
      rcases List.mem_append.mp hx with hx | hx
      · exact hne x (by rw [hes]; simp [hx])
      · rcases List.mem_cons.mp hx with rfl | hx
        · exact h0
        · exact hne x (by rw [hes]; simp only [List.mem_append]; exact .inr hx)
  | after h1 h2 h3 h4 =>
    refine ⟨⟨U ++ [(c.leaf, e)], data, V, by rw [h3, h4]; simp, by rw [h3]; simp, by rw [h3, hn, h2]; simp⟩, hcon, ?_, ?_, ?_⟩
    · intro P l hb
      rw [h3]
      rcases hbeh P l hb with ⟨a1, a2, a3⟩ | ⟨x, Q1, hQ⟩
      · exact ⟨e, (t.next, data) :: V, by rw [h4, a3, a1], .inl (by simp)⟩
      · exact ⟨x, Q1 ++ (c.leaf, e) :: (t.next, data) :: V, by rw [h4, hQ]; simp, .inl (by simp)⟩
    · intro i hi
      rw [hes] at hi; rw [h4]
      simp only [List.map_append, List.map_cons, List.mem_append, List.mem_cons] at hi ⊢
      rcases hi with hi | hi | hi
      · exact .inl hi
      · exact .inr (.inl hi)
      · exact .inr (.inr (.inr hi))
    · intro hne h0 x hx
      rw [h4] at hx
      rcases List.mem_append.mp hx with hx | hx
      · exact hne x (by rw [hes]; simp [hx])
      · rcases List.mem_cons.mp hx with rfl | hx
        · exact hne _ (by rw [hes]; simp)
        · rcases List.mem_cons.mp hx with rfl | hx
          · exact h0
          · exact hne x (by rw [hes]; simp [hx])
  | inside a b h1 h2 h3 ha hb' h4 h5 =>
    obtain ⟨hca, hcb⟩ := L.split e c.offset a b he h1 h2 h3
    have hle := L.len e he
    have hla := L.len a ha
    have hlb := L.len b hb'
    rw [hca, List.length_take] at hla
    rw [hcb, List.length_drop] at hlb
    refine ⟨⟨U ++ [(c.leaf, a)], data, (t.next, b) :: V, by rw [h4, h5]; simp, by rw [h4]; simp, by rw [h4, hn]; simp; omega⟩, hcon, ?_, ?_, ?_⟩
    · intro P l hb
      rw [h4]
      rcases hbeh P l hb with ⟨a1, a2, a3⟩ | ⟨x, Q1, hQ⟩
      · exact ⟨a, (t.next + 1, data) :: (t.next, b) :: V, by rw [h5, a3, a1], .inl (by simp)⟩
      · exact ⟨x, Q1 ++ (c.leaf, a) :: (t.next + 1, data) :: (t.next, b) :: V, by rw [h5, hQ]; simp, .inl (by simp)⟩
    · intro i hi
      rw [hes] at hi; rw [h5]
      simp only [List.map_append, List.map_cons, List.mem_append, List.mem_cons] at hi ⊢
      rcases hi with hi | hi | hi
      · exact .inl hi
      · exact .inr (.inl hi)
      · exact .inr (.inr (.inr (.inr hi)))
    · intro hne h0 x hx
      rw [h5] at hx
      rcases List.mem_append.mp hx with hx | hx
      · exact hne x (by rw [hes]; simp [hx])
      · rcases List.mem_cons.mp hx with rfl | hx
        · simp only; omega
        · rcases List.mem_cons.mp hx with rfl | hx
          · exact h0
          · rcases List.mem_cons.mp hx with rfl | hx
            · simp only; omega
            · exact hne x (by rw [hes]; simp [hx])

theorem splice_splice (xs : List X) {n : Nat} (hn : n ≤ xs.length) (a b : List X) :
    splice (splice xs n b) n a = splice xs n (a ++ b) := by
  unfold splice
  have h1 : (xs.take n ++ b ++ xs.drop n).take n = xs.take n := by
    rw [List.append_assoc, List.take_append_of_le_length (by rw [List.length_take]; omega), List.take_take]
    simp
  have h2 : (xs.take n ++ b ++ xs.drop n).drop n = b ++ xs.drop n := by
    rw [List.append_assoc, List.drop_append_of_le_length (by rw [List.length_take]; omega), List.drop_eq_nil_of_le (by rw [List.length_take]; omega)]
    simp
  rw [h1, h2]
  simp

theorem splice_mid (u v d : List X) : splice (u ++ v) u.length d = u ++ d ++ v := by simp [splice]

@[simp] theorem splice_nil (xs : List X) (n : Nat) : splice xs n [] = xs := by simp [splice]

theorem splice_after (xs : List X) {n : Nat} (hn : n ≤ xs.length) (a b : List X) :
    splice (splice xs n a) (n + a.length) b = splice xs n (a ++ b) := by
  have h1 : n + a.length = (xs.take n ++ a).length := by rw [List.length_append, List.length_take]; omega
  have h2 : splice xs n a = (xs.take n ++ a) ++ xs.drop n := rfl
  rw [h2, h1, splice_mid]
  simp [splice]

theorem At.le {B : Trait E C D} {okE : E → Prop} {cont : E → List X} (L : ContentLaw B okE cont) {t : Seq E} {c : Cursor} {n : Nat}
    (hok : ∀ x ∈ t.es, okE x.2) (h : At B t c n) : n ≤ (content cont t.es).length := by
  obtain ⟨U, e, V, hes, ho, hn⟩ := h
  rw [content_length L hok, hes, hn]
  simp; omega

/-- the loop at the end of `insert_many_by_cursor` -/
theorem insertAll_spec {B : Trait E C D} {A : Law B} {cont : E → List X} (L : ContentLaw B A.okE cont) {m : Fill} (hm : 1 ≤ m.lo ∧ m.lo + m.d ≤ 5) :
    ∀ (data : List E) {s : Tree E C} {c : Cursor} {n : Nat}, (∀ d ∈ data, A.okE d) → Inv A m s → At B (abs s) c n →
      ∃ s', insertAll B s c data = .ok s' ∧ Inv A m s' ∧
        content cont (abs s').es = splice (content cont (abs s).es) n (data.reverse.flatMap cont) ∧
        (∀ P l, Behind (abs s) P l c → ∃ e Q, (abs s').es = P ++ (l, e) :: Q) ∧
        (∀ i, i ∈ (abs s).es.map Prod.fst → i ∈ (abs s').es.map Prod.fst) ∧
        (NonEmp B (abs s) → (∀ d ∈ data, 0 < B.rleLen d) → NonEmp B (abs s')) := by
  intro data
  induction data with
  | nil =>
    intro s c n _ hi _
    refine ⟨s, rfl, hi, by simp [splice], ?_, fun i h => h, fun h _ => h⟩
    rintro P l ⟨e, Q, h, -⟩
    exact ⟨e, Q, h⟩
  | cons d data ih =>
    intro s c n hok hi hat
    obtain ⟨U, e, V, hes, ho, hn⟩ := id hat
    obtain ⟨c', sp, s', h1, h2, h3⟩ := C03_insert_by_path (B := B) ⟨hm.1, by omega⟩ hi (by rw [hes]; simp) ho (.inl hm.2) (hok d (by simp))
    obtain ⟨k1, k2, k3, k4, k5⟩ := inserted_step L hi.nodup hi.okE h2.okE (hok d (by simp)) hat h3
    obtain ⟨s'', j1, j2, j3, j4, j5, j6⟩ := ih (fun x hx => hok x (by simp [hx])) h2 k1
    refine ⟨s'', ?_, j2, ?_, ?_, fun i hi => j5 i (k4 i hi), ?_⟩
    · simp only [insertAll, h1, bind_ok]
      exact j1
    · have hlen := At.le L hi.okE hat
      rw [j3, k2, splice_splice _ hlen]
      simp
    · intro P l hb
      exact j4 P l (k3 P l hb)
    · intro hne hpos
      exact j6 (k5 hne (hpos d (by simp))) (fun x hx => hpos x (by simp [hx]))

/-- merging data into the left neighbour -/
theorem mergeIntoLeft_spec {B : Trait E C D} {A : Law B} {cont : E → List X} (L : ContentLaw B A.okE cont) :
    ∀ (data : List E) (e : E), A.okE e → (∀ d ∈ data, A.okE d) →
      ∃ e' rest took, mergeIntoLeft B e data = .ok (e', rest) ∧ A.okE e' ∧ data = took ++ rest ∧ cont e' = cont e ++ took.flatMap cont ∧
        (took = [] → e' = e) := by
  intro data
  induction data with
  | nil => intro e he _; exact ⟨e, [], [], rfl, he, rfl, by simp, fun _ => rfl⟩
  | cons d data ih =>
    intro e he hok
    by_cases hc : B.canMerge e d = true
    · obtain ⟨e1, h1, h2, -⟩ := A.merge_right e d he (hok d (by simp)) hc
      obtain ⟨e', rest, took, h3, h4, h5, h6, -⟩ := ih e1 h2 (fun x hx => hok x (by simp [hx]))
      refine ⟨e', rest, d :: took, ?_, h4, by rw [h5]; rfl, ?_, fun h => by cases h⟩
      · simp only [mergeIntoLeft, hc, if_true, h1, bind_ok]
        exact h3
      · rw [h6, L.merge_right e d e1 he (hok d (by simp)) hc h1]
        simp
    · refine ⟨e, d :: data, [], ?_, he, rfl, by simp, fun _ => rfl⟩
      simp only [mergeIntoLeft, hc]
      rfl

/-- the leaf reported as left neighbour is the one right before the leaf of the cursor -/
theorem leftNb_entries {s : Tree E C} {lvl : Nat → Nat} {h : Nat} (w : WF s lvl h) {info : SplitInfo} {l i k : Nat} (hI : InfoOK s info l i)
    (hk : info.leftNeighbour = some k) {U V : List (Nat × E)} {e : E} (hes : entries s = U ++ (l, e) :: V) :
    ∃ U' x, U = U' ++ [(k, x)] := by
  obtain ⟨a, b, hab⟩ := edge_order w hI.edge
  rw [hI.left] at hk
  split at hk
  · cases hk
  · next h0 =>
    obtain ⟨hlt, -⟩ := List.getElem?_eq_some_iff.mp hI.edge
    have hlt' : i - 1 < (kids s info.parentIdx).length := by omega
    rw [List.getElem?_eq_getElem hlt'] at hk
    simp only [Option.map_some, Option.some.injEq] at hk
    obtain ⟨u, v, h1, h2, -, -⟩ := entries_split w hes
    have nd := order_nodup w
    rw [h1] at hab nd
    have hu := (nodup_append_cons_inj hab nd).1
    have htake : (kids s info.parentIdx).take i = (kids s info.parentIdx).take (i - 1) ++ [(kids s info.parentIdx)[i - 1]] := by
      have := List.take_succ_eq_append_getElem hlt'
      rwa [show i - 1 + 1 = i by omega] at this
    rw [htake, List.map_append, ← List.append_assoc] at hu
    have hkl : k ∈ order s := by rw [h1, hu]; simp [hk]
    have hx : ∃ x, elm s k = some x := by
      have := (mem_order w).mp hkl
      cases hel : elm s k with
      | none => exact absurd (elm_none.mp hel) this
      | some x => exact ⟨x, rfl⟩
    obtain ⟨x, hx⟩ := hx
    refine ⟨entriesOf s (a ++ ((kids s info.parentIdx).take (i - 1)).map Idx.raw), x, ?_⟩
    rw [h2, hu, entriesOf_append]
    simp only [List.map_cons, List.map_nil, hk]
    rw [entriesOf_cons hx]
    rfl

/-- `split_leaf_if_needed` seen on the sequence -/
theorem cut_entries {B : Trait E C D} {A : Law B} {s s' : Tree E C} {lvl : Nat → Nat} {h : Nat} (g : Good A s lvl h) {lvl' : Nat → Nat} {h' : Nat}
    (g' : Good A s' lvl' h') {c : Cursor} {info : SplitInfo} {U V : List (Nat × E)} {e : E} (hes : entries s = U ++ (c.leaf, e) :: V)
    (r : CutRel B s c info s') :
    ∃ i, InfoOK s' info c.leaf i ∧
      ((c.offset = 0 ∧ s' = s ∧ info.newPos = some c) ∨
       (c.offset ≠ 0 ∧ c.offset = B.rleLen e ∧ s' = s ∧ info.newPos = V.head?.map (fun x => ⟨x.1, 0⟩)) ∨
       (∃ a b, 0 < c.offset ∧ c.offset < B.rleLen e ∧ B.split e c.offset = .ok (a, b) ∧ info.newPos = some ⟨s.lf.items.length, 0⟩ ∧
         s'.lf.items.length = s.lf.items.length + 1 ∧ entries s' = U ++ (c.leaf, a) :: (s.lf.items.length, b) :: V)) := by
  obtain ⟨u, v, h1, h2, h3, h4⟩ := entries_split g.wf hes
  have nd := order_nodup g.wf
  cases r with
  | start i h0 hs hI _ _ hnp => exact ⟨i, hI, .inl ⟨h0, hs, hnp⟩⟩
  | stop i e' u' v' h0 he hlen hs hI _ _ ho hnp =>
    rw [h4] at he
    cases he
    refine ⟨i, hI, .inr (.inl ⟨h0, hlen, hs, ?_⟩)⟩
    rw [h1] at ho nd
    obtain ⟨-, rfl⟩ := nodup_append_cons_inj ho nd
    have hv : V.map Prod.fst = v := by
      rw [h3]
      exact entriesOf_fst g.wf (fun l hl => (mem_order g.wf).mp (by rw [h1]; simp [hl]))
    rw [hnp, ← hv]
    cases V <;> rfl
  | cut i e' a b u' v' h0 he hlt hsp hI _ _ _ hnp hlen ho ho' hel =>
    rw [h4] at he
    cases he
    refine ⟨i, hI, .inr (.inr ⟨a, b, h0, hlt, hsp, hnp, hlen, ?_⟩)⟩
    rw [h1] at ho nd
    obtain ⟨rfl, rfl⟩ := nodup_append_cons_inj ho nd
    have fresh : ∀ l ∈ order s, l ≠ s.lf.items.length := by
      intro l hl he
      have := (mem_order g.wf).mp hl
      rw [he] at this
      apply this
      simp [lpar, Arena.get]
    have hne : ∀ l, l ∈ u ∨ l ∈ v → l ≠ c.leaf ∧ l ≠ s.lf.items.length := by
      intro l hl
      refine ⟨?_, fresh l (by rw [h1]; rcases hl with hl | hl <;> simp [hl])⟩
      rintro rfl
      rcases hl with hl | hl
      · exact (List.nodup_append.mp nd).2.2 _ hl _ (by simp) rfl
      · exact (List.nodup_cons.mp (List.nodup_append.mp nd).2.1).1 hl
    have hc : c.leaf ≠ s.lf.items.length := fresh c.leaf (by rw [h1]; simp)
    have e1 : elm s' c.leaf = some a := by rw [hel, if_neg hc, if_pos rfl]
    have e2 : elm s' s.lf.items.length = some b := by rw [hel, if_pos rfl]
    have e3 : ∀ l, l ∈ u ∨ l ∈ v → elm s' l = elm s l := by
      intro l hl
      rw [hel, if_neg (hne l hl).2, if_neg (hne l hl).1]
    rw [entries, ho', entriesOf_append, entriesOf_cons e1, entriesOf_cons e2, h2, h3,
      entriesOf_congr (fun l hl => e3 l (.inl hl)), entriesOf_congr (fun l hl => e3 l (.inr hl))]

/-- the part of `insert_many_by_cursor` after the pre-merge -/
def manyTail (B : Trait E C D) (s : Tree E C) (c : Cursor) (data : List E) : M (Tree E C) := do
  let (info, s) ← splitLeafIfNeeded B s c
  let (rest, s) ← (match info.leftNeighbour with
    | some l => do
      let leaf ← s.getLf l
      let (e', rest) ← mergeIntoLeft B leaf.elem data
      let s := s.setLf l { leaf with elem := e' }
      let s ← recursiveUpdateCache B s (.leaf l) B.useDiff none
      pure (rest, s)
    | none => pure (data, s) : M (List E × Tree E C))
  insertAll B s (info.newPos.getD c) rest.reverse

/-- everything after the pre-merge: a prefix of the data may go to the end of the leaf before the cursor's leaf, the rest goes to the cursor -/
theorem manyTail_all {B : Trait E C D} {A : Law B} {cont : E → List X} (L : ContentLaw B A.okE cont) {m : Fill} (hm : 1 ≤ m.lo ∧ m.lo + m.d ≤ 5)
    {s : Tree E C} {c : Cursor} {U V : List (Nat × E)} {e : E} {data : List E} (hok : ∀ d ∈ data, A.okE d) (hi : Inv A m s)
    (hes : (abs s).es = U ++ (c.leaf, e) :: V) (ho : c.offset ≤ B.rleLen e) :
    ∃ s' took rest, manyTail B s c data = .ok s' ∧ Inv A m s' ∧ data = took ++ rest ∧
      (took = [] ∨ ∃ U' k y y', U = U' ++ [(k, y)] ∧ mergeIntoLeft B y data = .ok (y', rest)) ∧
      content cont (abs s').es = splice (splice (content cont (abs s).es) (unitLen B U) (took.flatMap cont))
        (unitLen B U + (took.flatMap cont).length + c.offset) (rest.flatMap cont) ∧
      (took = [] ∨ c.offset = 0 → ∀ P l, Behind (abs s) P l c → ∃ e Q, (abs s').es = P ++ (l, e) :: Q) ∧
      (∀ i, i ∈ (abs s).es.map Prod.fst → i ∈ (abs s').es.map Prod.fst) ∧
      (NonEmp B (abs s) → (∀ d ∈ data, 0 < B.rleLen d) → NonEmp B (abs s')) := by
  obtain ⟨h, ⟨lvl, g⟩, sz⟩ := id hi
  have hes' : entries s = U ++ (c.leaf, e) :: V := hes
  obtain ⟨-, -, -, -, -, hel⟩ := entries_split g.wf hes'
  obtain ⟨info, s1, lvl1, h1, hsp, g1, sz1, -, -, r⟩ := splitLeafIfNeeded_spec hm.1 (by omega : m.lo + m.d ≤ 6) g sz hel ho (.inl hm.2)
  obtain ⟨i, hI, hcase⟩ := cut_entries g g1 hes' r
  have hi1 : Inv A m s1 := ⟨h1, ⟨lvl1, g1⟩, sz1⟩
  have nd := hi.nodup
  have he : A.okE e := hi.okE (c.leaf, e) (by rw [hes']; simp)
  have hbeh : ∀ P l, Behind (abs s) P l c → (c.leaf = l ∧ c.offset ≠ 0 ∧ P = U) ∨ ∃ x Q1, U = P ++ (l, x) :: Q1 := by
    rintro P l ⟨x, Q, hq, hcl⟩
    rcases hcl with hcl | ⟨hcl, h0⟩
    · obtain ⟨Q1, hQ1, -⟩ := es_decomp nd hes hq hcl
      exact .inr ⟨x, Q1, hQ1⟩
    · subst hcl
      have a1 := locate_split nd hq
      have a2 := locate_split nd hes
      rw [a1] at a2
      cases a2
      exact .inl ⟨rfl, h0, rfl⟩
  -- the tree after the cut: the gap is at the new cursor
  have key : ∃ e1 V1, entries s1 = U ++ (c.leaf, e1) :: V1 ∧ content cont (entries s1) = content cont (entries s) ∧
      At B (abs s1) (info.newPos.getD c) (unitLen B U + c.offset) ∧
      (∀ P l, Behind (abs s) P l c → Behind (abs s1) P l (info.newPos.getD c)) ∧
      (∀ i, i ∈ (abs s).es.map Prod.fst → i ∈ (abs s1).es.map Prod.fst) ∧
      (NonEmp B (abs s) → NonEmp B (abs s1)) ∧ (∃ P z Q, (c.leaf, e1) :: V1 = P ++ ((info.newPos.getD c).leaf, z) :: Q ∧ (info.newPos.getD c).offset ≤ B.rleLen z ∧
        unitLen B P + (info.newPos.getD c).offset = c.offset) := by
    rcases hcase with ⟨a1, a2, a3⟩ | ⟨a1, a2, a3, a4⟩ | ⟨a, b, a1, a2, a3, a4, a5, a6⟩
    · subst a2
      rw [a3]
      exact ⟨e, V, hes', rfl, ⟨U, e, V, hes, ho, rfl⟩, fun P l hb => hb, fun i hi => hi, fun hn => hn, ⟨[], e, V, rfl, ho, by simp⟩⟩
    · subst a3
      refine ⟨e, V, hes', rfl, ?_, ?_, fun i hi => hi, fun hn => hn, ?_⟩
      · rw [a4]
        cases V with
        | nil => exact ⟨U, e, [], hes, ho, rfl⟩
        | cons x V =>
          exact ⟨U ++ [(c.leaf, e)], x.2, V, by rw [hes]; simp, by simp, by simp; omega⟩
      · intro P l hb
        rw [a4]
        cases V with
        | nil => exact hb
        | cons x V =>
          rcases hbeh P l hb with ⟨b1, b2, b3⟩ | ⟨y, Q1, hQ⟩
          · exact ⟨e, x :: V, by rw [hes, b3, b1], .inl (by simp)⟩
          · exact ⟨y, Q1 ++ (c.leaf, e) :: x :: V, by rw [hes, hQ]; simp, .inl (by simp)⟩
      · rw [a4]
        cases V with
        | nil => exact ⟨[], e, [], rfl, ho, by simp⟩
        | cons x V => exact ⟨[(c.leaf, e)], x.2, V, rfl, by simp, by simp [a2]⟩
    · obtain ⟨ca, cb⟩ := L.split e c.offset a b he a1 a2 a3
      have oka : A.okE a := g1.okE _ _ (mem_entries_elm (show (c.leaf, a) ∈ entries s1 by rw [a6]; simp)).2
      have okb : A.okE b := g1.okE _ _ (mem_entries_elm (show (s.lf.items.length, b) ∈ entries s1 by rw [a6]; simp)).2
      have hle := L.len e he
      have hla := L.len a oka
      have hlb := L.len b okb
      rw [ca, List.length_take] at hla
      rw [cb, List.length_drop] at hlb
      have a6' : (abs s1).es = U ++ (c.leaf, a) :: (s.lf.items.length, b) :: V := a6
      rw [a4]
      refine ⟨a, _, a6, ?_, ⟨U ++ [(c.leaf, a)], b, V, by rw [a6']; simp, by simp, by simp; omega⟩, ?_, ?_, ?_, ⟨[(c.leaf, a)], b, V, rfl, by simp, by simp; omega⟩⟩
      · rw [a6, hes']
        simp [ca, cb]
        rw [← List.append_assoc, List.take_append_drop]
      · intro P l hb
        rcases hbeh P l hb with ⟨b1, b2, b3⟩ | ⟨y, Q1, hQ⟩
        · exact ⟨a, (s.lf.items.length, b) :: V, by rw [a6', b3, b1], .inl (by simp)⟩
        · exact ⟨y, Q1 ++ (c.leaf, a) :: (s.lf.items.length, b) :: V, by rw [a6', hQ]; simp, .inl (by simp)⟩
      · intro i hi
        rw [hes] at hi; rw [a6']
        simp only [List.map_append, List.map_cons, List.mem_append, List.mem_cons] at hi ⊢
        rcases hi with hi | hi | hi
        · exact .inl hi
        · exact .inr (.inl hi)
        · exact .inr (.inr (.inr hi))
      · intro hne x hx
        rw [a6'] at hx
        rcases List.mem_append.mp hx with hx | hx
        · exact hne x (by rw [hes]; simp [hx])
        · rcases List.mem_cons.mp hx with rfl | hx
          · simp only; omega
          · rcases List.mem_cons.mp hx with rfl | hx
            · simp only; omega
            · exact hne x (by rw [hes]; simp [hx])
  obtain ⟨e1, V1, k1, k2, k3, k4, k5, k6, k7⟩ := key
  have k2' : content cont (abs s1).es = content cont (abs s).es := k2
  unfold manyTail
  simp only [hsp, bind_ok]
  cases hnb : info.leftNeighbour with
  | none =>
    obtain ⟨s', j1, j2, j3, j4, j5, j6⟩ := insertAll_spec L hm data.reverse (fun d hd => hok d (by simpa using hd)) hi1 k3
    rw [List.reverse_reverse] at j3
    refine ⟨s', [], data, by simpa only [pure_ok, bind_ok] using j1, j2, rfl, .inl rfl, ?_, fun _ P l hb => j4 P l (k4 P l hb), fun i hi => j5 i (k5 i hi),
      fun hne hp => j6 (k6 hne) (fun d hd => hp d (by simpa using hd))⟩
    rw [j3, k2']
    simp [splice_nil]
  | some k =>
    obtain ⟨U', x, hU'⟩ := leftNb_entries g1.wf hI hnb k1
    have hmem : (k, x) ∈ entries s1 := by rw [k1, hU']; simp
    have hxk := (mem_entries_elm hmem).2
    obtain ⟨⟨y, q⟩, hL, rfl⟩ : ∃ L, s1.lf.get k = some L ∧ L.elem = x := by
      unfold elm at hxk
      cases hL : s1.lf.get k with
      | none => rw [hL] at hxk; cases hxk
      | some L => rw [hL] at hxk; exact ⟨L, rfl, by simpa using hxk⟩
    obtain ⟨y', rest, took, m1, m2, m3, m4, m5⟩ := mergeIntoLeft_spec L data y (g1.okE _ _ hxk) hok
    obtain ⟨s2, n1, g2, sh, n4, n5⟩ := g1.upd hL m2 none (by intro d _ h; cases h)
    have hi2 : Inv A m s2 := ⟨h1, ⟨lvl1, g2⟩, SzX.congr sh sz1⟩
    have hent2 : entries s2 = U' ++ (k, y') :: (c.leaf, e1) :: V1 :=
      entries_upd (e := y) g1.wf sh.order n4 (by rw [k1, hU', List.append_assoc]; rfl)
    simp only [getLf_ok hL, bind_ok, m1, n1, pure_ok]
    have oky' := L.len y' m2
    have oky := L.len y (g1.okE _ _ hxk)
    have hyl : B.rleLen y' = B.rleLen y + (took.flatMap cont).length := by
      rw [← oky', m4, List.length_append, oky]
    have hUx : unitLen B U = unitLen B U' + B.rleLen y := by rw [hU']; simp
    have hent2' : (abs s2).es = (U' ++ [(k, y')]) ++ (c.leaf, e1) :: V1 := by
      show entries s2 = _
      rw [hent2]; simp
    have hat2 : At B (abs s2) (info.newPos.getD c) (unitLen B U + (took.flatMap cont).length + c.offset) := by
      obtain ⟨P, z, Q, q1, q2, q3⟩ := k7
      refine ⟨U' ++ [(k, y')] ++ P, z, Q, by rw [hent2', q1]; simp, q2, ?_⟩
      simp only [unitLen_append, unitLen_cons, unitLen_nil]
      omega
    have hlU : (content cont U).length = unitLen B U :=
      content_length L (fun z hz => hi1.okE z (by rw [k1]; simp [hz]))
    have hcon2 : content cont (abs s2).es = splice (content cont (abs s).es) (unitLen B U) (took.flatMap cont) := by
      rw [← k2', hent2', show (abs s1).es = _ from k1, content_append, content_append U, ← hlU, splice_mid]
      simp [hU', m4]
    have hokr : ∀ d ∈ rest, A.okE d := fun d hd => hok d (by rw [m3]; simp [hd])
    obtain ⟨s', j1, j2, j3, j4, j5, j6⟩ := insertAll_spec L hm rest.reverse (fun d hd => hokr d (by simpa using hd)) hi2 hat2
    rw [List.reverse_reverse] at j3
    refine ⟨s', took, rest, j1, j2, m3, .inr ⟨U', k, y, y', hU', m1⟩, ?_, ?_, ?_, ?_⟩
    · rw [j3, hcon2]
    · intro hz P l hb
      apply j4
      have hk4 := k4 P l hb
      rcases hz with hz | hz
      · have hy := m5 hz
        subst hy
        have habs : abs s2 = abs s1 := by
          have : entries s2 = entries s1 := by rw [hent2, k1, hU']; simp
          simp only [abs, this, n5]
        rw [habs]
        exact hk4
      · obtain ⟨P', z, Q', q1, q2, q3⟩ := k7
        have hnp : (info.newPos.getD c).leaf ∈ ((c.leaf, e1) :: V1).map Prod.fst := by rw [q1]; simp
        rcases hbeh P l hb with ⟨b1, b2, b3⟩ | ⟨w, Q1, hQ⟩
        · exact absurd hz b2
        · rw [hU'] at hQ
          rcases List.eq_nil_or_concat Q1 with rfl | ⟨Q2, v, rfl⟩
          · obtain ⟨rfl, h2⟩ := List.append_inj' hQ rfl
            cases h2
            exact ⟨y', (c.leaf, e1) :: V1, by rw [hent2']; simp, .inl hnp⟩
          · have : U' ++ [(k, y)] = (P ++ (l, w) :: Q2) ++ [v] := by rw [hQ]; simp
            obtain ⟨rfl, h2⟩ := List.append_inj' this rfl
            refine ⟨w, Q2 ++ (k, y') :: (c.leaf, e1) :: V1, by rw [hent2']; simp, .inl ?_⟩
            rw [List.map_append, List.map_cons, List.mem_append, List.mem_cons]
            exact .inr (.inr hnp)
    · intro i hi
      apply j5
      have hi := k5 i hi
      rw [show (abs s1).es = _ from k1, hU'] at hi
      rw [hent2']
      simpa using hi
    · intro hne hp
      refine j6 ?_ (fun d hd => hp d (by rw [m3]; simp only [List.mem_reverse] at hd; simp [hd]))
      intro z hz
      have hne1 := k6 hne
      rw [hent2'] at hz
      have k1' : (abs s1).es = U ++ (c.leaf, e1) :: V1 := k1
      rcases List.mem_append.mp hz with hz | hz
      · rcases List.mem_append.mp hz with hz | hz
        · exact hne1 z (by rw [k1', hU']; simp [hz])
        · simp only [List.mem_singleton] at hz
          subst hz
          have := hne1 (k, y) (by rw [k1', hU']; simp)
          simp only at this ⊢
          omega
      · exact hne1 z (by rw [k1']; simp only [List.mem_append]; exact .inr hz)

theorem manyTail_spec {B : Trait E C D} {A : Law B} {cont : E → List X} (L : ContentLaw B A.okE cont) {m : Fill} (hm : 1 ≤ m.lo ∧ m.lo + m.d ≤ 5)
    {s : Tree E C} {c : Cursor} {U V : List (Nat × E)} {e : E} {data : List E} (hok : ∀ d ∈ data, A.okE d) (hi : Inv A m s)
    (hes : (abs s).es = U ++ (c.leaf, e) :: V) (ho : c.offset ≤ B.rleLen e)
    (hleft : c.offset = 0 ∨ ∀ U' l x d ds, U = U' ++ [(l, x)] → data = d :: ds → B.canMerge x d = false) :
    ∃ s', manyTail B s c data = .ok s' ∧ Inv A m s' ∧
      content cont (abs s').es = splice (content cont (abs s).es) (unitLen B U + c.offset) (data.flatMap cont) ∧
      (∀ P l, Behind (abs s) P l c → ∃ e Q, (abs s').es = P ++ (l, e) :: Q) ∧
      (∀ i, i ∈ (abs s).es.map Prod.fst → i ∈ (abs s').es.map Prod.fst) ∧
      (NonEmp B (abs s) → (∀ d ∈ data, 0 < B.rleLen d) → NonEmp B (abs s')) := by
  obtain ⟨s', took, rest, h1, h2, h3, h4, h5, h6, h7, h8⟩ := manyTail_all L hm hok hi hes ho
  have hz : took = [] ∨ c.offset = 0 := by
    rcases h4 with h4 | ⟨U', k, y, y', hU, hmm⟩
    · exact .inl h4
    · rcases hleft with h0 | h'
      · exact .inr h0
      · refine .inl ?_
        cases hdt : data with
        | nil => rw [hdt] at h3; exact (List.append_eq_nil_iff.mp h3.symm).1
        | cons d ds =>
          have hcm := h' U' k y d ds hU hdt
          rw [hdt] at hmm
          simp only [mergeIntoLeft, hcm] at hmm
          cases hmm
          have hl := congrArg List.length h3
          rw [hdt] at hl
          simp only [List.length_append] at hl
          exact List.length_eq_zero_iff.mp (by omega)
  refine ⟨s', h1, h2, ?_, h6 hz, h7, h8⟩
  rw [h5, h3]
  rcases hz with hz | hz
  · subst hz
    simp [splice_nil]
  · have hle : unitLen B U ≤ (content cont (abs s).es).length := by
      have := At.le L hi.okE ⟨U, e, V, hes, ho, rfl⟩
      exact Nat.le_trans (Nat.le_add_right _ _) this
    rw [hz, Nat.add_zero, splice_after _ hle]
    simp

/-- `insert_many_by_cursor` at a cursor, when the pre-merge keeps the order of the data -/
theorem insertMany_spec {B : Trait E C D} {A : Law B} {cont : E → List X} (L : ContentLaw B A.okE cont) {m : Fill} (hm : 1 ≤ m.lo ∧ m.lo + m.d ≤ 5)
    {s : Tree E C} {c : Cursor} {U V : List (Nat × E)} {e : E} {data data' : List E} (hne : data ≠ []) (hok : ∀ d ∈ data, A.okE d)
    (hadj : mergeAdj B data = .ok data') (hok' : ∀ d ∈ data', A.okE d) (hcont : data'.flatMap cont = data.flatMap cont) (hi : Inv A m s)
    (hes : (abs s).es = U ++ (c.leaf, e) :: V) (ho : c.offset ≤ B.rleLen e)
    (hleft : data'.length ≤ 1 ∨ c.offset = 0 ∨ ∀ U' l x d ds, U = U' ++ [(l, x)] → data' = d :: ds → B.canMerge x d = false) :
    ∃ s', insertMany B s (some c) data = .ok s' ∧ Inv A m s' ∧
      content cont (abs s').es = splice (content cont (abs s).es) (unitLen B U + c.offset) (data.flatMap cont) ∧
      (∀ P l, Behind (abs s) P l c → ∃ e Q, (abs s').es = P ++ (l, e) :: Q) ∧
      (∀ i, i ∈ (abs s).es.map Prod.fst → i ∈ (abs s').es.map Prod.fst) ∧
      (NonEmp B (abs s) → (∀ d ∈ data', 0 < B.rleLen d) → NonEmp B (abs s')) := by
  -- a single element
  have single : ∀ d, A.okE d → ∃ r s', insertByPath B s c d = .ok (r, s') ∧ Inv A m s' ∧
      content cont (abs s').es = splice (content cont (abs s).es) (unitLen B U + c.offset) (cont d) ∧
      (∀ P l, Behind (abs s) P l c → ∃ e Q, (abs s').es = P ++ (l, e) :: Q) ∧
      (∀ i, i ∈ (abs s).es.map Prod.fst → i ∈ (abs s').es.map Prod.fst) ∧
      (NonEmp B (abs s) → 0 < B.rleLen d → NonEmp B (abs s')) := by
    intro d hd
    obtain ⟨c', sp, s', h1, h2, h3⟩ := C03_insert_by_path (B := B) ⟨hm.1, by omega⟩ hi (by rw [hes]; simp) ho (.inl hm.2) hd
    obtain ⟨k1, k2, k3, k4, k5⟩ := inserted_step L hi.nodup hi.okE h2.okE hd ⟨U, e, V, hes, ho, rfl⟩ h3
    refine ⟨_, s', h1, h2, k2, ?_, k4, k5⟩
    intro P l hb
    obtain ⟨x, Q, hx, -⟩ := k3 P l hb
    exact ⟨x, Q, hx⟩
  match data, hne with
  | [d], _ =>
    obtain ⟨r, s', h1, h2, h3, h4, h5, h6⟩ := single d (hok d (by simp))
    have : data' = [d] := by cases hadj; rfl
    subst this
    refine ⟨s', ?_, h2, by simpa using h3, h4, h5, fun hn hp => h6 hn (hp d (by simp))⟩
    simp only [insertMany, h1, bind_ok]
    rfl
  | d1 :: d2 :: ds, _ =>
    by_cases hl1 : ∃ d, data' = [d]
    · obtain ⟨d, rfl⟩ := hl1
      obtain ⟨r, s', h1, h2, h3, h4, h5, h6⟩ := single d (hok' d (by simp))
      refine ⟨s', ?_, h2, by rw [← hcont]; simpa using h3, h4, h5, fun hn hp => h6 hn (hp d (by simp))⟩
      simp only [insertMany, hadj, bind_ok, h1]
      rfl
    · have heq : insertMany B s (some c) (d1 :: d2 :: ds) = manyTail B s c data' := by
        obtain ⟨h, ⟨lvl, g⟩, sz⟩ := id hi
        have hemp : ∃ b, isEmpty s = .ok b := by
          unfold isEmpty
          obtain ⟨N, hN, -⟩ := g.wf.root
          rw [getIn_ok hN]
          exact ⟨_, rfl⟩
        obtain ⟨b, hb⟩ := hemp
        simp only [insertMany, hadj, bind_ok]
        match data', hl1 with
        | [], _ => simp only [hb, bind_ok]; rfl
        | [d], h => exact absurd ⟨d, rfl⟩ h
        | _ :: _ :: _, _ => simp only [hb, bind_ok]; rfl
      have hleft' : c.offset = 0 ∨ ∀ U' l x d ds, U = U' ++ [(l, x)] → data' = d :: ds → B.canMerge x d = false := by
        rcases hleft with h | h
        · refine .inr ?_
          intro _ _ _ d ds _ h'
          exfalso
          rw [h'] at h
          have : ds = [] := by simpa using h
          exact hl1 ⟨d, by rw [h', this]⟩
        · exact h
      obtain ⟨s', h1, h2, h3, h4, h5, h6⟩ := manyTail_spec L hm hok' hi hes ho hleft'
      exact ⟨s', by rw [heq]; exact h1, h2, by rw [h3, hcont], h4, h5, h6⟩

/-- `insert_many_by_cursor` at a cursor, in all cases: after the pre-merge, some prefix of the data may go to the end of the leaf before the
cursor's leaf; the rest goes to the cursor -/
theorem insertMany_all {B : Trait E C D} {A : Law B} {cont : E → List X} (L : ContentLaw B A.okE cont) {m : Fill} (hm : 1 ≤ m.lo ∧ m.lo + m.d ≤ 5)
    {s : Tree E C} {c : Cursor} {U V : List (Nat × E)} {e : E} {data data' : List E} (hne : data ≠ [])
    (hadj : mergeAdj B data = .ok data') (hok' : ∀ d ∈ data', A.okE d) (hi : Inv A m s)
    (hes : (abs s).es = U ++ (c.leaf, e) :: V) (ho : c.offset ≤ B.rleLen e) :
    ∃ s' took rest, insertMany B s (some c) data = .ok s' ∧ Inv A m s' ∧ data' = took ++ rest ∧
      (took = [] ∨ 2 ≤ data'.length ∧ ∃ U' k y y', U = U' ++ [(k, y)] ∧ mergeIntoLeft B y data' = .ok (y', rest)) ∧
      content cont (abs s').es = splice (splice (content cont (abs s).es) (unitLen B U) (took.flatMap cont))
        (unitLen B U + (took.flatMap cont).length + c.offset) (rest.flatMap cont) ∧
      (∀ i, i ∈ (abs s).es.map Prod.fst → i ∈ (abs s').es.map Prod.fst) := by
  have single : ∀ d, A.okE d → ∃ r s', insertByPath B s c d = .ok (r, s') ∧ Inv A m s' ∧
      content cont (abs s').es = splice (content cont (abs s).es) (unitLen B U + c.offset) (cont d) ∧
      (∀ i, i ∈ (abs s).es.map Prod.fst → i ∈ (abs s').es.map Prod.fst) := by
    intro d hd
    obtain ⟨c', sp, s', h1, h2, h3⟩ := C03_insert_by_path (B := B) ⟨hm.1, by omega⟩ hi (by rw [hes]; simp) ho (.inl hm.2) hd
    obtain ⟨-, k2, -, k4, -⟩ := inserted_step L hi.nodup hi.okE h2.okE hd ⟨U, e, V, hes, ho, rfl⟩ h3
    exact ⟨_, s', h1, h2, k2, k4⟩
  match data, hne with
  | [d], _ =>
    have : data' = [d] := by cases hadj; rfl
    subst this
    obtain ⟨r, s', h1, h2, h3, h5⟩ := single d (hok' d (by simp))
    refine ⟨s', [], [d], ?_, h2, rfl, .inl rfl, by simpa using h3, h5⟩
    simp only [insertMany, h1, bind_ok]
    rfl
  | d1 :: d2 :: ds, _ =>
    by_cases hl1 : ∃ d, data' = [d]
    · obtain ⟨d, rfl⟩ := hl1
      obtain ⟨r, s', h1, h2, h3, h5⟩ := single d (hok' d (by simp))
      refine ⟨s', [], [d], ?_, h2, rfl, .inl rfl, by simpa using h3, h5⟩
      simp only [insertMany, hadj, bind_ok, h1]
      rfl
    · have heq : insertMany B s (some c) (d1 :: d2 :: ds) = manyTail B s c data' := by
        obtain ⟨h, ⟨lvl, g⟩, sz⟩ := id hi
        have hemp : ∃ b, isEmpty s = .ok b := by
          unfold isEmpty
          obtain ⟨N, hN, -⟩ := g.wf.root
          rw [getIn_ok hN]
          exact ⟨_, rfl⟩
        obtain ⟨b, hb⟩ := hemp
        simp only [insertMany, hadj, bind_ok]
        match data', hl1 with
        | [], _ => simp only [hb, bind_ok]; rfl
        | [d], h => exact absurd ⟨d, rfl⟩ h
        | _ :: _ :: _, _ => simp only [hb, bind_ok]; rfl
      obtain ⟨s', took, rest, h1, h2, h3, h4, h5, -, h7, -⟩ := manyTail_all L hm hok' hi hes ho
      refine ⟨s', took, rest, by rw [heq]; exact h1, h2, h3, ?_, h5, h7⟩
      rcases h4 with h4 | h4
      · exact .inl h4
      · by_cases ht : took = []
        · exact .inl ht
        · refine .inr ⟨?_, h4⟩
          match data', hl1 with
          | [], _ => exact absurd (List.append_eq_nil_iff.mp h3.symm).1 ht
          | [d], h => exact absurd ⟨d, rfl⟩ h
          | _ :: _ :: _, _ => simp

end GB
