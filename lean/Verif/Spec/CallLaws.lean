import Verif.Props.C16
import Verif.Props.C69
import Verif.Proof.EditStep
import Verif.Proof.FilterSpec
import Verif.Spec.Calls
import Verif.Spec.Finder

/-!
# What programs may rely on

Preconditions and postconditions of the calls, on the sequence only: nothing below mentions nodes, levels or stored caches.  `Prog.wp` is the condition on the
sequence under which a program runs through and ends with `Q`; it follows the program with these pre- and postconditions alone.
-/

namespace GB
variable {E C D X α R : Type} {B : Trait E C D}

/-- cursor `c` is in the sequence, at most at the end of its element -/
def Here (B : Trait E C D) (t : Seq E) (c : Cursor) : Prop := ∃ e, (c.leaf, e) ∈ t.es ∧ c.offset ≤ B.rleLen e

/-- few enough elements for all paths to have their at most 10 entries, also after two splits -/
def Small (t : Seq E) : Prop := t.es.length < 390626

/-- the range `a..b` is in the sequence -/
def IsRange (B : Trait E C D) (t : Seq E) (a b : Cursor) (hyp : List (Nat × E) → E → Prop) : Prop :=
  ∃ Ua ea Va Ub eb Vb, t.es = Ua ++ (a.leaf, ea) :: Va ∧ a.offset ≤ B.rleLen ea ∧ t.es = Ub ++ (b.leaf, eb) :: Vb ∧ b.offset ≤ B.rleLen eb ∧
    CursorLe B Ua a ea Ub b eb Vb ∧ hyp Va ea

/-- position `i` is at cursor `c`, in the element `e` between the entries `U` and `V`; a position behind the end is in the last element -/
structure FoundAt (B : Trait E C D) (t : Seq E) (i : Nat) (U : List (Nat × E)) (c : Cursor) (e : E) (V : List (Nat × E)) : Prop where
  es : t.es = U ++ (c.leaf, e) :: V
  pos : unitLen B U + c.offset = i
  inside : i < unitLen B t.es → c.offset < B.rleLen e
  behind : unitLen B t.es ≤ i → V = []
  last : i = unitLen B t.es → c.offset = B.rleLen e

/-- `d` levels hold `n` elements: a node has at most 11 children, and below the root at least 5, except for the nodes at one end of each level -/
def Levels (d n : Nat) : Prop := 1 ≤ d ∧ n ≤ 11 ^ d ∧ (2 ≤ d → 5 ^ (d - 1) < n)

/-- the finder follows a predicate and `confirm_elem` does not panic where the predicate becomes true -/
def Follows {Q F : Type} (A : Law B) (q : Query E C Q F) (arg : Q) (es : List E) : Prop :=
  ∃ hit Rep exact, FinderLaw A q arg es hit Rep exact ∧ ∀ U e W fd, es = U ++ e :: W → HitsAt hit U [e] W → Rep U fd → ∃ r, q.confirm fd arg e = .ok r

/-- precondition of a call.  `dr`: the program may use `drain`. -/
def Call.pre (A : Law B) (Rd : C → D → C → Prop) (dr : Prop) (t : Seq E) : Call E C D α → Prop
  | .push e => A.okE e
  | .prepend e => A.okE e ∧ t.es ≠ []
  | .insertAt c e => A.okE e ∧ Here B t c
  | .insertMany c data => (∀ d ∈ data, A.okE d) ∧ Here B t c
  | .remove _ => True
  | .clear => True
  | .drain a b _ => dr ∧ Small t ∧ IsRange B t a b (fun V e => a.offset = 0 ∨ a.offset < B.rleLen e ∨ V ≠ []) ∧ CutPos B t b
  | .update f _ a b => Small t ∧ IsRange B t a b (fun _ _ => True) ∧ ClosureOK A Rd f
  | .updateLeaf l f => ∃ e e1 need n1 n2, (l, e) ∈ t.es ∧ f e = .ok (e1, need, n1, n2) ∧ A.okE e1 ∧ (∀ b, n1 = some b → A.okE b) ∧
      (∀ b, n2 = some b → A.okE b) ∧ (need = true ∨ B.elemCache ((survivors B e1 n1 n2).headD e1) = B.elemCache e) ∧
      (survivors B e1 n1 n2 = [] → LawE A ∧ Neutral A e1)
  | .ranges f _ args => SubLaw A Rd ∧ ArgOK A f ∧ ∀ a ∈ args, ∃ e, (a.1, e) ∈ t.es ∧ Fits a.2.1 a.2.2.1 (B.rleLen e)
  | .bySearch getLen i f => LenLaw A getLen ∧ Small t ∧ t.es ≠ [] ∧ ∀ U c e V found, FoundAt B t i U c e V → (i < unitLen B t.es → found = true) →
      SearchOK A e (f e ⟨c, found⟩)
  | .write l f => ∀ e, (l, e) ∈ t.es → A.okE (f e) ∧ B.elemCache (f e) = B.elemCache e
  | .get _ => True
  | .find getLen _ => LenLaw A getLen
  | .iter => Small t
  | .iterRange a b _ => Small t ∧ ∃ U M e V, t.es = U ++ M ++ (b.leaf, e) :: V ∧ (M ++ [(b.leaf, e)]).head?.map Prod.fst = some a.leaf
  | .filter _ add f => FilterLaw A add f
  | .rootCache => t.es ≠ []
  | .isEmpty => True
  | .firstLeaf => True
  | .lastLeaf => True
  | .startCursor => True
  | .endCursor => True
  | .next c => ∃ e, (c.leaf, e) ∈ t.es
  | .prev c => ∃ e, (c.leaf, e) ∈ t.es
  | .preferLeft c => ∃ e, (c.leaf, e) ∈ t.es
  | .preferRight c => Here B t c
  | .compare a b => (∃ e, (a.leaf, e) ∈ t.es) ∧ ∃ e, (b.leaf, e) ∈ t.es
  | .visit c => Small t ∧ ∃ e, (c.leaf, e) ∈ t.es
  | .search q arg => t.es ≠ [] → Follows A q arg (t.es.map Prod.snd)
  | .shift c => ∃ e, (c.leaf, e) ∈ t.es ∧ c.offset < B.rleLen e
  | .check _ => Small t ∧ t.es ≠ []
  | .depth => t.es ≠ []
  | .nodeLen => True
  | .filterSt .. => True

/-- postcondition of a call: what it returns (`x`) and the sequence it leaves (`t'`) -/
def Call.post (A : Law B) (cont : E → List X) (t : Seq E) : Call E C D α → α → Seq E → Prop
  | .push e, x, t' => specPush B t e = .ok (x, t')
  | .prepend e, x, t' => specPrepend B t e = .ok (x, t')
  | .insertAt c e, x, t' => specInsert B t c e = .ok (x, t')
  | .insertMany c data, _, t' => ∃ i took rest, posOf B t ⟨c.leaf, 0⟩ = some i ∧ (took ++ rest).Perm (data.flatMap cont) ∧
      content cont t'.es = splice (splice (content cont t.es) i took) (i + took.length + c.offset) rest ∧
      ∀ l, l ∈ t.es.map Prod.fst → l ∈ t'.es.map Prod.fst
  | .remove c, x, t' => specRemove t c.leaf = (x, t')
  | .clear, _, t' => t' = ⟨0, []⟩
  | .drain a b k, x, t' => ∃ Y, specDrain B t a b = .ok (Y, t') ∧ x = ((Y.take k).map Prod.snd, (Y.drop k).map Prod.snd)
  | .update f st a b, x, t' => specUpdate B f st t a b = .ok (x.1, t') ∧ t.next ≤ t'.next ∧ x.2 = List.range' t.next (t'.next - t.next)
  | .updateLeaf l f, x, t' => ∃ U e V e1 need n1 n2, t.es = U ++ (l, e) :: V ∧ f e = .ok (e1, need, n1, n2) ∧
      UpdRel B t.next l U V (survivors B e1 n1 n2) x.1 x.2 t'.next t'.es
  | .ranges f st args, x, t' => ∃ grp : List Nat, ∃ out, ∃ blk : Nat → List (Nat × E), grp.Perm (args.map fun a => a.1).eraseDups ∧
      specRanges B f args t.es grp st = .ok (x.1, out) ∧ t'.es = t.es.flatMap (fun y => blk y.1) ∧
      (∀ y ∈ t.es, y.1 ∉ args.map (fun a => a.1) → blk y.1 = [y]) ∧
      (∀ y ∈ out, glueAll B y.2 = .ok ((blk y.1).map Prod.snd) ∧ y.1 ∈ (blk y.1).map Prod.fst ∧ ∀ k ∈ (blk y.1).map Prod.fst, k = y.1 ∨ t.next ≤ k) ∧
      (∀ k ∈ x.2, k ∈ t'.es.map Prod.fst) ∧ x.2.length = (out.map fun y => y.2.length - 1).sum
  | .bySearch _ i f, x, t' => ∃ U c e V found, FoundAt B t i U c e V ∧ (i < unitLen B t.es → found = true) ∧
      ((∃ e1 d n1, f e ⟨c, found⟩ = .ok (e1, some (d, n1, none)) ∧ SearchRel t.next c U V (searchResults B e1 n1) x.1 x.2 t'.next t'.es) ∨
        ∃ e1, f e ⟨c, found⟩ = .ok (e1, none) ∧ x = (some c, []) ∧ t' = ⟨t.next, U ++ (c.leaf, e1) :: V⟩)
  | .write l f, x, t' => x = (locate l t.es).map (fun y => y.2.1) ∧
      t' = ⟨t.next, t.es.map fun y => if y.1 = l then (l, f y.2) else y⟩
  | .get l, x, t' => x = (locate l t.es).map (fun y => y.2.1) ∧ t' = t
  | .find _ i, x, t' => t' = t ∧ (t.es = [] → x = none) ∧
      (t.es ≠ [] → ∃ U c e V, FoundAt B t i U c e V ∧ x = some ⟨c, decide (i < unitLen B t.es)⟩)
  | .iter, x, t' => x = t.es.map Prod.snd ∧ t' = t
  | .iterRange a b incl, x, t' => t' = t ∧ ∀ U M e V, t.es = U ++ M ++ (b.leaf, e) :: V → (M ++ [(b.leaf, e)]).head?.map Prod.fst = some a.leaf →
      x = (M ++ if b.offset = 0 ∧ incl = false then [] else [(b.leaf, e)]).map (C16_slice a b)
  | .filter zero add f, x, t' => x = filtSpec B add f zero (t.es.map Prod.snd) ∧ t' = t
  | .rootCache, x, t' => x = A.total (t.es.map fun y => B.elemCache y.2) ∧ t' = t
  | .isEmpty, x, t' => x = t.es.isEmpty ∧ t' = t
  | .firstLeaf, x, t' => x = t.es.head?.map Prod.fst ∧ t' = t
  | .lastLeaf, x, t' => x = t.es.getLast?.map Prod.fst ∧ t' = t
  | .startCursor, x, t' => x = t.es.head?.map (fun y => ⟨y.1, 0⟩) ∧ t' = t
  | .endCursor, x, t' => x = t.es.getLast?.map (fun y => ⟨y.1, B.rleLen y.2⟩) ∧ t' = t
  | .next c, x, t' => t' = t ∧ x = (locate c.leaf t.es).bind fun y => y.2.2.head?.map fun z => ⟨z.1, 0⟩
  | .prev c, x, t' => t' = t ∧ x = (locate c.leaf t.es).bind fun y => y.1.getLast?.map fun z => ⟨z.1, 0⟩
  | .preferLeft c, x, t' => t' = t ∧ (x = none ↔ c.offset = 0 ∧ ∃ e V, t.es = (c.leaf, e) :: V) ∧
      ∀ c', x = some c' → posOf B t c' = posOf B t c ∧ ∃ e', (c'.leaf, e') ∈ t.es ∧ (c'.offset ≠ 0 ∨ c'.offset = B.rleLen e')
  | .preferRight c, x, t' => t' = t ∧ (x = none ↔ c.offset ≠ 0 ∧ ∃ U e, t.es = U ++ [(c.leaf, e)] ∧ c.offset = B.rleLen e) ∧
      ∀ c', x = some c' → posOf B t c' = posOf B t c ∧ ∃ e', (c'.leaf, e') ∈ t.es ∧ (c'.offset = 0 ∨ c'.offset < B.rleLen e')
  | .compare a b, x, t' => t' = t ∧ ∀ U ea V U' eb V', t.es = U ++ (a.leaf, ea) :: V → t.es = U' ++ (b.leaf, eb) :: V' →
      x = (Ord.compare U.length U'.length).then (Ord.compare a.offset b.offset)
  | .visit c, x, t' => t' = t ∧ ∃ U e V, t.es = U ++ (c.leaf, e) :: V ∧ x.2 = (e, c.offset) ∧
      ∀ r, A.total (x.1 ++ r) = A.total (U.map (fun y => B.elemCache y.2) ++ r)
  | .search q arg, x, t' => t' = t ∧ (t.es = [] → x = (none, q.init arg)) ∧
      ∀ hit Rep exact, t.es ≠ [] → FinderLaw A q arg (t.es.map Prod.snd) hit Rep exact →
        ∃ U l e W fd found r, t.es = U ++ (l, e) :: W ∧ HitsAt hit (U.map Prod.snd) [e] (W.map Prod.snd) ∧ Rep (U.map Prod.snd) fd ∧
          (exact → found = hit (t.es.map Prod.snd)) ∧ q.confirm fd arg e = .ok r ∧ x = (some ⟨⟨l, r.1.1⟩, found && r.1.2⟩, r.2)
  | .shift c, x, t' => t' = t ∧ ∃ i, posOf B t c = some i ∧ (x = none ↔ i + 1 = unitLen B t.es) ∧
      ∀ c', x = some c' → posOf B t c' = some (i + 1) ∧ ∃ e', (c'.leaf, e') ∈ t.es ∧ c'.offset < B.rleLen e'
  | .check _, _, t' => t' = t
  | .depth, d, t' => t' = t ∧ Levels d t.es.length
  | .nodeLen, x, t' => t' = t ∧ t.es.length < x ∧ ∃ d, Levels d t.es.length ∧ 4 * x ≤ 5 * t.es.length + 4 * d
  | .filterSt _ _ _ _ k, x, t' => t' = t ∧ x.1.length = k ∧ ∃ items : List (_ × E), (items.map Prod.snd).Sublist (t.es.map Prod.snd) ∧
      x.1 = (List.range k).map fun i => items[i]?

/-- what holds of every sequence a program meets: leaves have different numbers, all smaller than the next one, and well-formed elements -/
structure SeqFine (A : Law B) (t : Seq E) : Prop where
  nodup : (t.es.map Prod.fst).Nodup
  lt : ∀ x ∈ t.es, x.1 < t.next
  ok : ∀ x ∈ t.es, A.okE x.2

/-- started on the sequence `t`, the program meets the preconditions of all its calls and ends with a result and a sequence in `Q`, whatever the calls return
within their postconditions -/
def Prog.wp (A : Law B) (Rd : C → D → C → Prop) (cont : E → List X) (dr : Prop) (Q : R → Seq E → Prop) : Seq E → Prog E C D R → Prop
  | t, .ret r => Q r t
  | t, .call c k => c.pre A Rd dr t ∧ ∀ x t', c.post A cont t x t' → SeqFine A t' → (k x).wp A Rd cont dr Q t'

end GB
