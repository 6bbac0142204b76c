import Verif.Proof.FilterIter

/-!
# What a level-by-level traversal visits
-/

namespace GB
variable {E C D R σ : Type}
open Tree

theorem flatMap_sublist {α β : Type} (f : α → List β) {l m : List α} (h : l.Sublist m) : (l.flatMap f).Sublist (m.flatMap f) := by
  induction h with
  | slnil => exact List.Sublist.refl _
  | cons a _ ih => rw [List.flatMap_cons]; exact ih.trans (List.sublist_append_right _ _)
  | cons_cons a _ ih => rw [List.flatMap_cons, List.flatMap_cons]; exact (List.Sublist.refl _).append ih

theorem askNode_sublist {X : Type} (add : R → R → R) (f : σ → C → σ × Bool × R) : ∀ (cs : List (C × X)) (st : σ) (r : R),
    ((askNode add f st cs r).2.map Prod.fst).Sublist (cs.map Prod.snd) := by
  intro cs
  induction cs with
  | nil => intro st r; exact List.Sublist.refl _
  | cons c cs ih =>
    intro st r
    obtain ⟨c, x⟩ := c
    simp only [askNode]
    split
    · exact (ih _ _).cons_cons _
    · exact (ih _ _).cons _

theorem askRow_sublist {X : Type} (add : R → R → R) (f : σ → C → σ × Bool × R) : ∀ (row : List (List (C × X) × R)) (st : σ),
    ((askRow add f st row).2.map Prod.fst).Sublist ((row.map Prod.fst).flatMap fun t => t.map Prod.snd) := by
  intro row
  induction row with
  | nil => intro st; exact List.Sublist.refl _
  | cons x row ih =>
    intro st
    obtain ⟨cs, r⟩ := x
    simp only [askRow, List.map_append, List.map_cons, List.flatMap_cons]
    exact (askNode_sublist add f cs st r).append (ih _)

/-- the elements are a subsequence -/
theorem levels_sublist (add : R → R → R) (f : σ → C → σ × Bool × R) : ∀ (n : Nat) (st : σ) (row : List (Shape C E n × R)),
    ((Shape.levels add f n st row).2.map Prod.snd).Sublist ((row.map Prod.fst).flatMap (Shape.elems n)) := by
  intro n
  induction n with
  | zero =>
    intro st row
    have : (Shape.levels add f 0 st row).2.map Prod.snd = (row.map Prod.fst).flatMap (Shape.elems (C := C) 0) := by
      simp only [Shape.levels, List.map_map]
      induction row with
      | nil => rfl
      | cons x row ih => exact congrArg (x.1 :: ·) ih
    rw [this]
    exact List.Sublist.refl _
  | succ n ih =>
    intro st row
    refine (ih (askRow add f st row).1 (askRow add f st row).2).trans ?_
    have := flatMap_sublist (Shape.elems (C := C) (E := E) n) (askRow_sublist add f row st)
    rw [List.flatMap_assoc] at this
    refine this.trans ?_
    have e : (row.map Prod.fst).flatMap (Shape.elems (C := C) (E := E) (n + 1)) =
        (row.map Prod.fst).flatMap fun x => (x.map Prod.snd).flatMap (Shape.elems n) := by
      congr 1
      funext (x : List (C × Shape C E n))
      exact (List.flatMap_map ..).symm
    rw [e]
    exact List.Sublist.refl _

theorem askNode_log {X : Type} (add : R → R → R) (ans : List C → C → Bool × R) : ∀ (cs : List (C × X)) (log : List C) (r : R),
    (askNode add (noting ans) log cs r).1 = log ++ cs.map Prod.fst := by
  intro cs
  induction cs with
  | nil => intro log r; simp [askNode]
  | cons c cs ih =>
    intro log r
    obtain ⟨c, x⟩ := c
    simp only [askNode, ih]
    simp [noting]

theorem askRow_log {X : Type} (add : R → R → R) (ans : List C → C → Bool × R) : ∀ (row : List (List (C × X) × R)) (log : List C),
    (askRow add (noting ans) log row).1 = log ++ (row.map Prod.fst).flatMap fun t => t.map Prod.fst := by
  intro row
  induction row with
  | nil => intro log; simp [askRow]
  | cons x row ih =>
    intro log
    obtain ⟨cs, r⟩ := x
    simp only [askRow, ih, askNode_log]
    simp

theorem rows_sublist : ∀ (n : Nat) {row row' : List (Shape C E n)}, row.Sublist row' → (Shape.rows n row).Sublist (Shape.rows n row') := by
  intro n
  induction n with
  | zero => intro row row' _; exact List.Sublist.refl _
  | succ n ih =>
    intro row row' h
    exact (flatMap_sublist _ h).append (ih (flatMap_sublist _ h))

/-- the questions are a subsequence of the caches in level order -/
theorem levels_log (add : R → R → R) (ans : List C → C → Bool × R) : ∀ (n : Nat) (log : List C) (row : List (Shape C E n × R)),
    ∃ q, (Shape.levels add (noting ans) n log row).1 = log ++ q ∧ q.Sublist (Shape.rows n (row.map Prod.fst)) := by
  intro n
  induction n with
  | zero => intro log row; exact ⟨[], by simp [Shape.levels], List.Sublist.refl _⟩
  | succ n ih =>
    intro log row
    obtain ⟨q, h1, h2⟩ := ih (askRow add (noting ans) log row).1 (askRow add (noting ans) log row).2
    refine ⟨((row.map Prod.fst).flatMap fun t => t.map Prod.fst) ++ q, ?_, ?_⟩
    · rw [Shape.levels, h1]
      exact (congrArg (· ++ q) (askRow_log (X := Shape C E n) add ans row log)).trans (List.append_assoc ..)
    · exact (List.Sublist.refl _).append (h2.trans (rows_sublist n (askRow_sublist add _ row log)))

/-! ## Closures whose answers do not depend on the state -/

theorem askNode_picked {X : Type} (add : R → R → R) (f : σ → C → σ × Bool × R) {p : C → Bool} (hp : ∀ st c, (f st c).2.1 = p c) :
    ∀ (cs : List (C × X)) (st : σ) (r : R), (askNode add f st cs r).2.map Prod.fst = (cs.filter fun x => p x.1).map Prod.snd := by
  intro cs
  induction cs with
  | nil => intro st r; rfl
  | cons c cs ih =>
    intro st r
    obtain ⟨c, x⟩ := c
    simp only [askNode, hp, List.filter_cons]
    split
    · exact congrArg (x :: ·) (ih _ _)
    · exact ih _ _

theorem askRow_picked {X : Type} (add : R → R → R) (f : σ → C → σ × Bool × R) {p : C → Bool} (hp : ∀ st c, (f st c).2.1 = p c) :
    ∀ (row : List (List (C × X) × R)) (st : σ),
    (askRow add f st row).2.map Prod.fst = (row.map Prod.fst).flatMap fun t => (t.filter fun x => p x.1).map Prod.snd := by
  intro row
  induction row with
  | nil => intro st; rfl
  | cons x row ih =>
    intro st
    obtain ⟨cs, r⟩ := x
    simp only [askRow, List.map_append, ih, askNode_picked add f hp]
    simp

theorem levels_picked (add : R → R → R) (f : σ → C → σ × Bool × R) {p : C → Bool} (hp : ∀ st c, (f st c).2.1 = p c) :
    ∀ (n : Nat) (st : σ) (row : List (Shape C E n × R)),
    (Shape.levels add f n st row).2.map Prod.snd = (row.map Prod.fst).flatMap (Shape.picked p n) := by
  intro n
  induction n with
  | zero =>
    intro st row
    simp only [Shape.levels, List.map_map]
    induction row with
    | nil => rfl
    | cons x row ih => exact congrArg (x.1 :: ·) ih
  | succ n ih =>
    intro st row
    rw [Shape.levels, ih]
    refine (congrArg (List.flatMap (Shape.picked p n)) (askRow_picked (X := Shape C E n) add f hp row st)).trans ?_
    rw [List.flatMap_assoc]
    congr 1
    funext (x : List (C × Shape C E n))
    change _ = List.flatMap (fun x => if p x.1 then Shape.picked p n x.2 else []) x
    induction x with
    | nil => rfl
    | cons y x ihx =>
      simp only [List.filter_cons, List.flatMap_cons, ← ihx]
      split
      · simp
      · simp

theorem levels_asked (add : R → R → R) (p : C → Bool) (v : C → R) : ∀ (n : Nat) (log : List C) (row : List (Shape C E n × R)),
    (Shape.levels add (noting fun _ c => (p c, v c)) n log row).1 = log ++ Shape.askedRows p n (row.map Prod.fst) := by
  intro n
  induction n with
  | zero => intro log row; simp [Shape.levels, Shape.askedRows]
  | succ n ih =>
    intro log row
    rw [Shape.levels, ih]
    refine (congr (congrArg _ (askRow_log (X := Shape C E n) add _ row log))
      (congrArg (Shape.askedRows p n) (askRow_picked (X := Shape C E n) add _ (p := p) (fun _ _ => rfl) row log))).trans ?_
    exact List.append_assoc ..

theorem askedRows_perm (p : C → Bool) : ∀ (n : Nat) (row : List (Shape C E n)),
    (Shape.askedRows p n row).Perm (row.flatMap (Shape.asked p n)) := by
  intro n
  induction n with
  | zero =>
    intro row
    induction row with
    | nil => exact .refl _
    | cons x row ih => exact ih
  | succ n ih =>
    intro (row : List (List (C × Shape C E n)))
    refine ((List.Perm.refl _).append (ih _)).trans ?_
    change (List.flatMap (fun t => t.map Prod.fst) row ++
      (List.flatMap (fun t => (t.filter fun x => p x.1).map Prod.snd) row).flatMap (Shape.asked p n)).Perm (row.flatMap (Shape.asked (E := E) p (n + 1)))
    rw [List.flatMap_assoc]
    induction row with
    | nil => exact .refl _
    | cons t row ihr =>
      simp only [List.flatMap_cons]
      have hn : (t.map Prod.fst ++ ((t.filter fun x => p x.1).map Prod.snd).flatMap (Shape.asked p n)).Perm (Shape.asked (E := E) p (n + 1) t) := by
        simp only [Shape.asked]
        clear ihr
        induction t with
        | nil => exact .refl _
        | cons y t iht =>
          simp only [List.map_cons, List.flatMap_cons, List.filter_cons, List.cons_append]
          refine List.Perm.cons _ ?_
          split
          · simp only [List.map_cons, List.flatMap_cons]
            refine List.Perm.trans ?_ ((List.Perm.refl _).append iht)
            rw [← List.append_assoc, ← List.append_assoc]
            exact List.perm_append_comm.append (List.Perm.refl _)
          · exact iht
      refine List.Perm.trans ?_ (hn.append ihr)
      simp only [List.append_assoc]
      refine (List.Perm.refl _).append ?_
      rw [← List.append_assoc, ← List.append_assoc]
      exact List.perm_append_comm.append (List.Perm.refl _)

theorem askNode_pure {X : Type} (add : R → R → R) (f : C → Bool × R) (g : σ → C → σ × Bool × R) (hg : ∀ st c, (g st c).2 = f c) :
    ∀ (cs : List (C × X)) (st : σ) (r : R), (askNode add g st cs r).2 = (askNode add (fun _ c => ((), f c)) () cs r).2 := by
  intro cs
  induction cs with
  | nil => intro st r; rfl
  | cons c cs ih =>
    intro st r
    obtain ⟨c, x⟩ := c
    simp only [askNode, hg, ih]

/-- without state, level by level is depth first -/
theorem levels_dfs (add : R → R → R) (f : C → Bool × R) (g : σ → C → σ × Bool × R) (hg : ∀ st c, (g st c).2 = f c) :
    ∀ (n : Nat) (st : σ) (row : List (Shape C E n × R)), (Shape.levels add g n st row).2 = row.flatMap (Shape.dfs add f n) := by
  intro n
  induction n with
  | zero =>
    intro st row
    simp only [Shape.levels]
    induction row with
    | nil => rfl
    | cons x row ih => exact congrArg ((x.2, x.1) :: ·) ih
  | succ n ih =>
    intro st row
    rw [Shape.levels, ih]
    induction row generalizing st with
    | nil => rfl
    | cons x row ihr =>
      simp only [askRow, List.flatMap_append, List.flatMap_cons]
      rw [ihr]
      exact congrArg (· ++ _) (congrArg (List.flatMap (Shape.dfs add f n)) (askNode_pure (X := Shape C E n) add f g hg x.1 st x.2))

section
variable {s : Tree E C}

theorem filt_dfs (add : R → R → R) (f : C → Bool × R) : ∀ (n : Nat) (a : Idx) (t : Shape C E n) (r : R), shapeOf s n a = some t →
    filt s add f n (a, r) = Shape.dfs add f n (t, r) := by
  intro n
  induction n with
  | zero =>
    intro a t r h
    cases a with
    | internal x => simp [shapeOf] at h
    | leaf l =>
      have h : (elm s l : Option E) = some t := h
      simp only [filt, h]
      rfl
  | succ n ih =>
    intro a t r h
    cases a with
    | leaf l => simp [shapeOf] at h
    | internal x =>
      simp only [shapeOf] at h
      simp only [filt, Shape.dfs]
      generalize chs s x = cs at h
      induction cs generalizing t r with
      | nil =>
        have h : (some [] : Option (List (C × Shape C E n))) = some t := h
        cases h
        rfl
      | cons c cs ihc =>
        rw [List.mapM_cons] at h
        cases h1 : shapeOf s n c.arena with
        | none => rw [h1] at h; simp at h
        | some u =>
          cases h2 : (cs.mapM fun c => (shapeOf s n c.arena).map fun t => (c.cache, t)) with
          | none => rw [h1, h2] at h; simp at h
          | some ts =>
            rw [h1, h2] at h
            have h : (some ((c.cache, u) :: ts) : Option (List (C × Shape C E n))) = some t := h
            cases h
            have := ihc ts (add r (f c.cache).2) h2
            simp only [filterChildren, askNode]
            split
            · rw [List.flatMap_cons, List.flatMap_cons, this, ih _ _ _ h1]
            · exact this

end
end GB
