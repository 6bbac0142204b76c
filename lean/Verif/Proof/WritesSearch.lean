import Verif.Proof.WritesInsert
import Verif.Proof.WritesRemove

/-!
# The nodes written by `update_leaf_by_search`
-/

namespace GB
variable {E C D Q F : Type}
open Tree

section
variable {s s' s1 : Tree E C} {lvl : Nat → Nat} {h : Nat} {B : Trait E C D}

/-! ## The root stays where it is -/

theorem setSlots_root : ∀ (cs : List (Child C)) (s s' : Tree E C) (i : Nat), setSlots s cs i = .ok s' → s'.root = s.root := by
  intro cs
  induction cs with
  | nil => intro s s' i e; cases e; rfl
  | cons c cs ih =>
    intro s s' i e
    obtain ⟨y, -, e⟩ := bind_inv e
    obtain ⟨node, -, e⟩ := bind_inv e
    have := ih _ _ _ e
    exact this

theorem updSlotsFrom_root {p i : Nat} (e : updSlotsFrom s p i = .ok s') : s'.root = s.root := by
  obtain ⟨par, -, e⟩ := bind_inv e
  split at e
  · cases e; rfl
  · exact setSlots_root _ _ _ _ e

theorem setSlots_items : ∀ (cs : List (Child C)) (s s' : Tree E C) (i : Nat), setSlots s cs i = .ok s' → s'.inn.items.length = s.inn.items.length := by
  intro cs
  induction cs with
  | nil => intro s s' i e; cases e; rfl
  | cons c cs ih =>
    intro s s' i e
    obtain ⟨y, -, e⟩ := bind_inv e
    obtain ⟨node, -, e⟩ := bind_inv e
    have := ih _ _ _ e
    rw [this, setIn_inn, Arena.items_set]

theorem updSlotsFrom_items {p i : Nat} (e : updSlotsFrom s p i = .ok s') : s'.inn.items.length = s.inn.items.length := by
  obtain ⟨par, -, e⟩ := bind_inv e
  split at e
  · cases e; rfl
  · exact setSlots_items _ _ _ _ e

theorem applyReparent_root : ∀ (rp : List (Idx × Nat × Nat)) (s s' : Tree E C), applyReparent s rp = .ok s' → s'.root = s.root := by
  intro rp
  induction rp with
  | nil => intro s s' e; cases e; rfl
  | cons a rp ih =>
    intro s s' e
    obtain ⟨a, p, i⟩ := a
    cases a with
    | leaf l =>
      obtain ⟨leaf, -, e⟩ := bind_inv e
      have := ih _ _ e
      exact this
    | internal y =>
      obtain ⟨node, -, e⟩ := bind_inv e
      have := ih _ _ e
      exact this

theorem purgeF_root : ∀ (n : Nat) (s s' : Tree E C) (st : List Idx), purgeF n s st = .ok s' → s'.root = s.root := by
  intro n
  induction n with
  | zero => intro s s' st e; cases e
  | succ n ih =>
    intro s s' st e
    match st, e with
    | [], e => cases e; rfl
    | .leaf l :: st, e => rw [purgeF] at e; exact ih { s with lf := s.lf.remove l } _ _ e
    | .internal x :: st, e =>
      rw [purgeF] at e
      split at e
      · exact ih _ _ _ e
      · exact ih { s with inn := s.inn.remove x } _ _ e

theorem handleLackSingle_root {x : Nat} {o : Option Nat} (hx : s.root ≠ x) (e : handleLackSingle B s x = .ok (o, s')) : s'.root = s.root := by
  unfold handleLackSingle at e
  rw [if_neg hx] at e
  obtain ⟨node, -, e⟩ := bind_inv e
  obtain ⟨p, -, e⟩ := bind_inv e
  obtain ⟨par, -, e⟩ := bind_inv e
  obtain ⟨here, -, e⟩ := bind_inv e
  obtain ⟨_, -, e⟩ := bind_inv e
  split at e
  · obtain ⟨⟨c, cs⟩, -, e⟩ := bind_inv e
    obtain ⟨s2, e2, e⟩ := bind_inv e
    cases e
    have := updSlotsFrom_root e2
    exact this
  · obtain ⟨on, -, e⟩ := bind_inv e
    split at e
    · cases e; rfl
    · obtain ⟨chA, -, e⟩ := bind_inv e
      obtain ⟨chB, -, e⟩ := bind_inv e
      obtain ⟨ai, -, e⟩ := bind_inv e
      obtain ⟨bi, -, e⟩ := bind_inv e
      obtain ⟨_, -, e⟩ := bind_inv e
      obtain ⟨a, -, e⟩ := bind_inv e
      obtain ⟨b, -, e⟩ := bind_inv e
      split at e
      · simp only at e
        obtain ⟨_, -, e⟩ := bind_inv e
        obtain ⟨ac, -, e⟩ := bind_inv e
        obtain ⟨bc, -, e⟩ := bind_inv e
        obtain ⟨par, -, e⟩ := bind_inv e
        obtain ⟨s2, e2, e⟩ := bind_inv e
        cases e
        have := applyReparent_root _ _ _ e2
        exact this
      · split at e
        all_goals
          obtain ⟨ac, -, e⟩ := bind_inv e
          obtain ⟨par, -, e⟩ := bind_inv e
          obtain ⟨⟨c, cs⟩, -, e⟩ := bind_inv e
          obtain ⟨s2, e2, e⟩ := bind_inv e
          obtain ⟨s3, e3, e⟩ := bind_inv e
          obtain ⟨s4, e4, e⟩ := bind_inv e
          cases e
          have := ((applyReparent_root _ _ _ e4).trans (updSlotsFrom_root e3)).trans (purgeF_root _ _ _ _ e2)
          exact this

/-! ## The path of the search -/

/-- a path upwards, one level at a time -/
def Rungs (lvl : Nat → Nat) (k : Nat) : List PIdx → Prop
  | [] => True
  | a :: rest => (∃ x, a.arena = .internal x ∧ x < k ∧ ∀ b, rest.head? = some b → ∀ y, b.arena = .internal y → lvl y = lvl x + 1) ∧ Rungs lvl k rest

theorem Rungs.grow {lvl' : Nat → Nat} {k k' : Nat} (hk : k ≤ k') (he : ∀ x, x < k → lvl' x = lvl x) : ∀ {path : List PIdx}, Rungs lvl k path → Rungs lvl' k' path := by
  intro path
  induction path with
  | nil => intro _; trivial
  | cons a rest ih =>
    rintro ⟨⟨x, h1, h2, h3⟩, h4⟩
    refine ⟨⟨x, h1, by omega, ?_⟩, ih h4⟩
    intro b hb y hy
    cases rest with
    | nil => cases hb
    | cons b' rest =>
      cases hb
      obtain ⟨⟨z, g1, g2, -⟩, -⟩ := h4
      rw [g1] at hy
      cases hy
      rw [he _ g2, he _ h2]
      exact h3 _ rfl _ g1

theorem searchPathF_rungs {q : Query E C Q F} {arg : Q} {A : Law B} (g : Good A s lvl h) (r : Ranked lvl h s) :
    ∀ (n : Nat) (idx : Idx) (arr : Nat) (path : List PIdx) (fd : F) {l arr' : Nat} {path' : List PIdx} {fd' : F},
    Rungs lvl s.inn.items.length path → (∀ x, idx = .internal x → path.length + lvl x ≤ h ∧
      ∀ b, path.head? = some b → ∀ y, b.arena = .internal y → lvl y = lvl x + 1) → path.length ≤ h →
    searchPathF q arg n s idx arr path fd = .ok (l, arr', path', fd') → Rungs lvl s.inn.items.length path' ∧ path'.length ≤ h := by
  intro n
  induction n with
  | zero => intro idx arr path fd l arr' path' fd' _ _ _ e; cases e
  | succ n ih =>
    intro idx arr path fd l arr' path' fd' hr hi hl e
    cases idx with
    | leaf l => cases e; exact ⟨hr, hl⟩
    | internal x =>
      rw [searchPathF] at e
      obtain ⟨p2, e1, e⟩ := bind_inv e
      obtain ⟨node, e2, e⟩ := bind_inv e
      obtain ⟨⟨fr, fd2⟩, -, e⟩ := bind_inv e
      obtain ⟨c, e3, e⟩ := bind_inv e
      have e2 := getIn_inv e2
      obtain ⟨h1, h2⟩ := hi x rfl
      have hpos := (g.wf.lvl_pos x node e2).1
      have hp : p2 = ⟨.internal x, arr⟩ :: path := by
        unfold pathPush at e1
        split at e1
        · cases e1; rfl
        · cases e1
      subst hp
      refine ih _ _ (⟨.internal x, arr⟩ :: path) _ ⟨⟨x, rfl, Arena.get_lt e2, h2⟩, hr⟩ ?_ (by simp only [List.length_cons]; omega) e
      intro y hy
      have := ((r x node e2).kid c (List.mem_of_getElem? (vget_inv e3)) y hy).1
      refine ⟨by simp only [List.length_cons]; omega, ?_⟩
      intro b hb z hz
      cases hb
      cases hz
      exact this

/-! ## The two loops -/

theorem searchDelF_writes {diff : D} : ∀ (path : List PIdx) (s : Tree E C) (first lack : Bool) (child : Idx) (arr : Nat) {k : Nat} {b : Bool} {s' : Tree E C},
    Ranked lvl h s → lvl s.root = h → Rungs lvl k path →
    (lack = true → ∀ c, child = .internal c → ∀ b, path.head? = some b → ∀ y, b.arena = .internal y → lvl y = lvl c + 1) →
    searchDelF B diff s path first lack child arr = .ok (b, s') → Writes s s' (28 * path.length) ∧ Ranked lvl h s' := by
  intro path
  induction path with
  | nil => intro s first lack child arr k b s' r _ _ _ e; cases e; exact ⟨Writes.refl s, r⟩
  | cons a rest ih =>
    intro s first lack child arr k b s' r hroot hr hc e
    obtain ⟨⟨x, h1, h2, h3⟩, h4⟩ := hr
    rw [searchDelF] at e
    obtain ⟨p, ep, e⟩ := bind_inv e
    have ep := unwrapInternal_inv ep
    rw [h1] at ep
    cases ep
    obtain ⟨par, e1, e⟩ := bind_inv e
    obtain ⟨cs, e2, e⟩ := bind_inv e
    obtain ⟨s1, e3, e⟩ := bind_inv e
    have f := r x par (getIn_inv e1)
    have f' : Ranks s.inn.items.length lvl h x { par with children := cs } := by
      split at e2
      · obtain ⟨⟨c, ds⟩, e4, e2⟩ := bind_inv e2
        cases e2
        exact f.erase (N := par) e4
      · obtain ⟨ch, e4, e2⟩ := bind_inv e2
        obtain ⟨c', -, e2⟩ := bind_inv e2
        cases e2
        exact f.set (vget_inv e4) c'
    have r1 := r.setIn f'
    have step : Writes s s1 28 ∧ Ranked lvl h s1 ∧ s1.root = s.root := by
      split at e3
      · rename_i hlack
        obtain ⟨c, e4, e3⟩ := bind_inv e3
        obtain ⟨⟨o, s2⟩, e5, e3⟩ := bind_inv e3
        cases e3
        have hcl := hc hlack c (unwrapInternal_inv e4) a rfl x h1
        have hne : (s.setIn x { par with children := cs }).root ≠ c := by
          intro hcr
          have := f.top
          rw [setIn_root] at hcr
          rw [← hcr] at hcl
          omega
        rcases handleLackSingle_writes r1 e5 with ⟨h5, -⟩ | ⟨w, r2, -⟩
        · exact absurd h5.symm hne
        · have := handleLackSingle_root hne e5
          exact ⟨(Writes.setIn _ _ _).seq w (by omega), r2, this⟩
      · cases e3
        exact ⟨(Writes.setIn _ _ _).mono (by omega), r1, rfl⟩
    obtain ⟨w1, r2, hroot1⟩ := step
    obtain ⟨w2, r3⟩ := ih s1 _ _ _ _ r2 (by rw [hroot1]; exact hroot) h4 (fun _ c hc b hb y hy => by
      rw [h1] at hc
      cases hc
      exact h3 b hb y hy) e
    exact ⟨w1.seq w2 (by rw [List.length_cons]; omega), r3⟩

theorem searchInsF_writes {diff : D} : ∀ (path : List PIdx) (s : Tree E C) (lvl : Nat → Nat) (nc : Option (C × Child C)) (arr : Nat)
    {nc' : Option (C × Child C)} {s' : Tree E C}, Ranked lvl h s → Rungs lvl s.inn.items.length path →
    (∀ c d, nc = some (c, d) → ∀ y, d.arena = .internal y → y < s.inn.items.length ∧ ∀ b, path.head? = some b → ∀ x, b.arena = .internal x → lvl x = lvl y + 1) →
    searchInsF B diff s path nc arr = .ok (nc', s') → Writes s s' (22 * path.length) ∧ ∃ lvl', Ranked lvl' h s' := by
  intro path
  induction path with
  | nil => intro s lvl nc arr nc' s' r _ _ e; cases e; exact ⟨Writes.refl s, lvl, r⟩
  | cons a rest ih =>
    intro s lvl nc arr nc' s' r hr hc e
    obtain ⟨⟨x, h1, h2, h3⟩, h4⟩ := hr
    rw [searchInsF] at e
    obtain ⟨p, ep, e⟩ := bind_inv e
    have ep := unwrapInternal_inv ep
    rw [h1] at ep
    cases ep
    obtain ⟨par, e1, e⟩ := bind_inv e
    have f := r x par (getIn_inv e1)
    cases nc with
    | none =>
      obtain ⟨ch, e2, e⟩ := bind_inv e
      obtain ⟨c', -, e⟩ := bind_inv e
      obtain ⟨w, r'⟩ := ih _ _ _ _ (r.setIn (f.set (vget_inv e2) c')) (by rw [setIn_inn, Arena.items_set]; exact h4) (by intro _ _ hn; cases hn) e
      exact ⟨(Writes.setIn _ _ _).seq w (by rw [List.length_cons]; omega), r'⟩
    | some nc =>
      obtain ⟨cache, child⟩ := nc
      obtain ⟨ch, e2, e⟩ := bind_inv e
      obtain ⟨cs, e3, e⟩ := bind_inv e
      obtain ⟨s1, e4, e⟩ := bind_inv e
      have hcs : cs.length ≤ 12 ∧ ∀ c ∈ cs, c = child ∨ ∃ d ∈ par.children, c.arena = d.arena := by
        unfold vinsert at e3
        split at e3
        · rename_i hb
          cases e3
          simp only [MAXC, List.length_set] at hb
          refine ⟨by simp only [List.length_append, List.length_take, List.length_cons, List.length_drop, List.length_set]; omega, ?_⟩
          intro c hc
          simp only [List.mem_append, List.mem_cons] at hc
          rcases hc with hc | rfl | hc
          · exact .inr (mem_set_arena (vget_inv e2) c (List.mem_of_mem_take hc))
          · exact .inl rfl
          · exact .inr (mem_set_arena (vget_inv e2) c (List.mem_of_mem_drop hc))
        · cases e3
      have f' : Ranks s.inn.items.length lvl h x { par with children := cs } := by
        refine ⟨f.par, ?_, f.top, hcs.1⟩
        intro c hc' y hy
        rcases hcs.2 c hc' with rfl | ⟨d, d1, d2⟩
        · obtain ⟨k1, k2⟩ := hc cache c rfl y hy
          exact ⟨k2 a rfl x h1, k1⟩
        · exact f.kid d d1 y (d2 ▸ hy)
      have r1 := r.setIn f'
      have step : Writes s s1 13 ∧ Ranked lvl h s1 ∧ s1.inn.items.length = s.inn.items.length := by
        split at e4
        · cases e4
          exact ⟨(Writes.setIn _ _ _).mono (by omega), r1, by rw [setIn_inn, Arena.items_set]⟩
        · obtain ⟨w, r2⟩ := updSlotsFrom_writes r1 e4
          refine ⟨(Writes.setIn _ _ _).seq w (by omega), r2, ?_⟩
          rw [updSlotsFrom_items e4, setIn_inn, Arena.items_set]
      obtain ⟨w1, r2, hk⟩ := step
      split at e
      · obtain ⟨⟨⟨par', slot, tc, right⟩, s2⟩, e5, e⟩ := bind_inv e
        obtain ⟨node, -, -, -, hrc, hlt, w2, r3⟩ := splitNode_writes r2 e5
        rw [hk] at hrc hlt r3
        obtain ⟨w3, r'⟩ := ih s2 _ _ _ r3 (h4.grow (by omega) (fun z hz => if_neg (by omega))) (by
          intro c d hn y hy
          cases hn
          rw [hrc] at hy
          cases hy
          refine ⟨hlt, ?_⟩
          intro b hb z hz
          have hzl : z < s.inn.items.length := by
            cases rest with
            | nil => cases hb
            | cons b' rest =>
              cases hb
              obtain ⟨⟨z', g1, g2, -⟩, -⟩ := h4
              rw [g1] at hz
              cases hz
              exact g2
          simp only [if_true, if_neg (show ¬ z = s.inn.items.length by omega)]
          exact h3 b hb z hz) e
        exact ⟨(w1.trans w2).seq w3 (by rw [List.length_cons]; omega), r'⟩
      · obtain ⟨w3, r'⟩ := ih s1 _ _ _ r2 (by rw [hk]; exact h4) (by intro _ _ hn; cases hn) e
        exact ⟨w1.seq w3 (by rw [List.length_cons]; omega), r'⟩

theorem updateLeafBySearch_writes {A : Law B} {q : Query E C Q F} (g : Good A s lvl h) (r : Ranked lvl h s) {arg : Q}
    {f : E → QueryResult → M (E × Option (D × Option E × Option E))} {c : Option Cursor} {ids : List Nat}
    (e : updateLeafBySearch B q s arg f = .ok (c, ids, s')) : Writes s s' (30 * h + 16) := by
  have hp := g.wf.h_pos
  have hroot : lvl s.root = h := g.wf.root_lvl
  unfold updateLeafBySearch at e
  obtain ⟨em, -, e⟩ := bind_inv e
  split at e
  · cases e
  · obtain ⟨⟨l, arr, path, fd⟩, e1, e⟩ := bind_inv e
    obtain ⟨hr, hl⟩ := searchPathF_rungs g r _ _ _ [] _ trivial (fun x hx => by cases hx; exact ⟨by simp only [List.length_nil]; omega, fun b hb => by cases hb⟩)
      (by simp) e1
    obtain ⟨leaf, -, e⟩ := bind_inv e
    obtain ⟨⟨⟨off, found⟩, fd2⟩, -, e⟩ := bind_inv e
    obtain ⟨⟨el, res⟩, -, e⟩ := bind_inv e
    simp only at e
    have w1 := Writes.setLf s l { leaf with elem := el }
    have r1 := r.setLf l { leaf with elem := el }
    split at e
    · cases e
      exact w1.mono (by omega)
    · cases e
    · rename_i diff n1
      split at e
      · obtain ⟨_, -, e⟩ := bind_inv e
        obtain ⟨⟨lack, s2⟩, e2, e⟩ := bind_inv e
        obtain ⟨w2, r2⟩ := searchDelF_writes (k := s.inn.items.length) path
          { s.setLf l { leaf with elem := el } with lf := (s.setLf l { leaf with elem := el }).lf.remove l } true false (.leaf l) arr (r1.inn rfl) hroot hr
          (by intro hc; cases hc) e2
        obtain ⟨rc, -, e⟩ := bind_inv e
        obtain ⟨root, -, e⟩ := bind_inv e
        obtain ⟨s3, e3, e⟩ := bind_inv e
        cases e
        have w3 := ((w1.trans (Writes.removeLf _ l)).trans w2).trans (Writes.rootCache s2 rc)
        split at e3
        · exact w3.seq (tryReduceLevels_writes (r2.inn rfl) e3) (by omega)
        · cases e3
          exact w3.mono (by omega)
      · obtain ⟨⟨nc, spl, s2⟩, e2, e⟩ := bind_inv e
        have step : Writes s s2 2 ∧ s2.inn = s.inn ∧ ∀ c d, nc = some (c, d) → ∀ y, d.arena ≠ .internal y := by
          cases n1 with
          | some a =>
            obtain ⟨top, -, e2⟩ := bind_inv e2
            cases e2
            exact ⟨w1.trans (Writes.insertLf _ _), rfl, fun c d hn y hy => by cases hn; cases hy⟩
          | none => cases e2; exact ⟨w1.mono (by omega), rfl, fun c d hn => by cases hn⟩
        obtain ⟨w2, i2, hnc⟩ := step
        obtain ⟨⟨nc', s3⟩, e3, e⟩ := bind_inv e
        obtain ⟨w3, lvl', r3⟩ := searchInsF_writes path s2 lvl nc arr (r.inn i2) (by rw [i2]; exact hr) (fun c d hn y hy => absurd hy (hnc c d hn y)) e3
        cases nc' with
        | some nc' =>
          obtain ⟨s4, e4, e⟩ := bind_inv e
          cases e
          exact (w2.trans w3).seq (splitRoot_writes r3 e4) (by omega)
        | none =>
          obtain ⟨rc, -, e⟩ := bind_inv e
          cases e
          exact (w2.trans w3).seq (Writes.rootCache _ _) (by omega)

end
end GB
