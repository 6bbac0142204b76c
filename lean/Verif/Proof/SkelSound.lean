import Verif.Proof.SkelInv
import Verif.Proof.SkelUpd
import Verif.Proof.UpdateRange
import Verif.Spec.Update
import Verif.Spec.Range

/-!
# Trees that are valid apart from their caches
-/

namespace GB
open Tree
variable {E C C' D D' σ : Type} {B : Trait E C D} {B' : Trait E C' D'}

/-- the tree is valid, with `h` levels and minimum occupancy `m`, apart from its caches, which may hold anything -/
structure SoundH (okE : E → Prop) (m : Fill) (h : Nat) (s : Tree E C) : Prop where
  ex : ∃ lvl, WF s lvl h
  sz : Sz m s h
  okE : ∀ l e, elm s l = some e → okE e

theorem InvH.sound {A : Law B} {m : Fill} {h : Nat} {s : Tree E C} (hi : InvH A m h s) : SoundH A.okE m h s := by
  obtain ⟨⟨lvl, g⟩, sz⟩ := hi
  exact ⟨⟨lvl, g.wf⟩, sz, g.okE⟩

/-- the node without its caches -/
def stripNode (n : Node C) : Node Unit := ⟨n.parent, n.slot, n.children.map fun c => ⟨c.arena, ()⟩⟩

/-- the tree without its caches -/
def strip (s : Tree E C) : Tree E Unit := ⟨⟨s.inn.items.map (Option.map stripNode)⟩, s.lf, s.root, ()⟩

theorem strip_same (s : Tree E C) : TreeSame s (strip s) where
  len := by simp [strip]
  inn := by
    intro x
    simp only [strip, Arena.get, List.getElem?_map]
    cases s.inn.items[x]? with
    | none => exact .none
    | some o =>
      cases o with
      | none => exact .none
      | some n => exact .some ⟨rfl, rfl, by simp only [stripNode, List.map_map]; rfl⟩
  lf := rfl
  root := rfl

theorem TreeSame.symm {s : Tree E C} {t : Tree E C'} (h : TreeSame s t) : TreeSame t s where
  len := h.len.symm
  inn := by
    intro x
    have := h.inn x
    generalize s.inn.get x = a at this
    generalize t.inn.get x = b at this
    cases this with
    | none => exact .none
    | some hn => exact .some ⟨hn.parent.symm, hn.slot.symm, hn.kids.symm⟩
  lf := h.lf.symm
  root := h.root.symm

theorem TreeSame.lsp {s : Tree E C} {t : Tree E C'} (h : TreeSame s t) {y : Nat} (hy : LSp t y) : LSp s y := by
  induction hy with
  | root => rw [← h.root]; exact .root
  | step _ hq ih => exact .step ih (by rw [h.kids]; exact hq)

theorem TreeSame.chsLen {s : Tree E C} {t : Tree E C'} (h : TreeSame s t) (y : Nat) : (chs s y).length = (chs t y).length := by
  have := congrArg List.length (h.kids y)
  simpa [kids_chs] using this

theorem TreeSame.sound {s : Tree E C} {t : Tree E C'} (h : TreeSame s t) {okE : E → Prop} {m : Fill} {k : Nat} (hs : SoundH okE m k t) : SoundH okE m k s := by
  obtain ⟨⟨lvl, w⟩, sz, ok⟩ := hs
  refine ⟨⟨lvl, h.wf w⟩, ?_, ?_⟩
  · intro y hy hp
    rw [h.lnk] at hy
    obtain ⟨h1, h2, h3⟩ := sz y hy hp
    rw [h.chsLen, h.root]
    exact ⟨h1, fun hr => ⟨(h2 hr).1, fun hl => (h2 hr).2 fun hl' => hl (h.lsp hl')⟩, h3⟩
  · intro l e he
    rw [elm, h.lf] at he
    exact ok l e he

theorem SoundH.bare {okE : E → Prop} (L : ElemLaw B okE) {m : Fill} {k : Nat} {t : Tree E Unit} (hs : SoundH okE m k t) : InvH (bareLaw L) m k t := by
  obtain ⟨⟨lvl, w⟩, sz, ok⟩ := hs
  refine ⟨⟨lvl, w, ?_, fun _ _ _ => trivial, ⟨fun _ => rfl, fun _ => trivial⟩, ok⟩, sz⟩
  intro p c _ _
  rw [EntryOK]
  split
  · intro _ _; rfl
  · rfl

theorem SoundH.strip {okE : E → Prop} (L : ElemLaw B okE) {m : Fill} {k : Nat} {s : Tree E C'} (hs : SoundH okE m k s) : InvH (bareLaw L) m k (strip s) :=
  ((strip_same s).symm.sound hs).bare L

theorem MRel.of_ok {α β : Type} {R : α → β → Prop} {x : M α} {b : β} (h : MRel R x (.ok b)) : ∃ a, x = .ok a ∧ R a b := by
  cases h with
  | ok h => exact ⟨_, rfl, h⟩

theorem MRel.of_panic {α β : Type} {R : α → β → Prop} {x : M α} {y : M β} (h : MRel R x y) : x = .error .panic ↔ y = .error .panic := by
  cases h with
  | ok _ => constructor <;> intro h <;> cases h
  | err _ => constructor <;> intro h <;> cases h <;> rfl

theorem UpdRel.bare {next l next' : Nat} {U V es' : List (Nat × E)} {b : Bool} {ids : List Nat} {surv : List E}
    (h : UpdRel (bare B) next l U V surv b ids next' es') : UpdRel B next l U V surv b ids next' es' := by
  cases h with
  | gone => exact .gone
  | one => exact .one _
  | two => exact .two _ _
  | three => exact .three _ _ _
  | merged x a k z z' V' h1 h2 h3 => exact .merged x a k z z' V' h1 h2 h3

/-- the closure without the differences it reports -/
def bareFn (f : σ → E → M (σ × E × Option D)) (st : σ) (e : E) : M (σ × E × Option Unit) := do
  let (st, e, d) ← f st e
  pure (st, e, d.map fun _ => ())

theorem bareFn_same (f : σ → E → M (σ × E × Option D)) : UpdFnSame f (bareFn f) := by
  intro st e
  simp only [bareFn]
  cases f st e with
  | error e => exact MRel.err e
  | ok r =>
    obtain ⟨st', e', d⟩ := r
    refine MRel.ok ⟨rfl, rfl, ?_⟩
    cases d with
    | none => exact .none
    | some d => exact .some trivial

theorem runOn_bare (f : σ → E → M (σ × E × Option D)) : ∀ (es : List (Nat × E)) (st : σ), runOn (bareFn f) st es = runOn f st es := by
  intro es
  induction es with
  | nil => intro st; rfl
  | cons x es ih =>
    intro st
    obtain ⟨l, e⟩ := x
    simp only [runOn, bareFn]
    cases f st e with
    | error e => rfl
    | ok r =>
      obtain ⟨st', e', d⟩ := r
      simp only [bind_ok, pure_ok, ih]

theorem specCut_bare (t : Seq E) (c : Cursor) : specCut (bare B) t c = specCut B t c := rfl

theorem specDrain_bare (t : Seq E) (a b : Cursor) : specDrain (bare B) t a b = specDrain B t a b := rfl

theorem specUpdate_bare (f : σ → E → M (σ × E × Option D)) (st : σ) (t : Seq E) (a b : Cursor) :
    specUpdate (bare B) (bareFn f) st t a b = specUpdate B f st t a b := by
  simp only [specUpdate, runOn_bare, specCut_bare]
  rfl

end GB
