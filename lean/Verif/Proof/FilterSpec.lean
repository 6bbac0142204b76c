import Verif.Proof.Query

/-!
# `iter_with_filter` with a sound filter and an additive measure
-/

namespace GB
variable {E C D R : Type}
open Tree

/-- what a filtered iteration should yield: the elements that pass, each with the accumulated measure of all
elements before it (passing or not) -/
def filtSpec (B : Trait E C D) (add : R → R → R) (f : C → Bool × R) : R → List E → List (R × E)
  | _, [] => []
  | r, e :: es =>
    if (f (B.elemCache e)).1 then (r, e) :: filtSpec B add f (add r (f (B.elemCache e)).2) es
    else filtSpec B add f (add r (f (B.elemCache e)).2) es

section
variable {s : Tree E C} {lvl : Nat → Nat} {h : Nat} {B : Trait E C D} {A : Law B} {add : R → R → R} {f : C → Bool × R}

theorem filtSpec_append (r : R) : ∀ (u v : List E), filtSpec B add f r (u ++ v) =
    filtSpec B add f r u ++ filtSpec B add f (u.foldl (fun r e => add r (f (B.elemCache e)).2) r) v := by
  intro u
  induction u generalizing r with
  | nil => intro v; rfl
  | cons e u ih =>
    intro v
    simp only [List.cons_append, filtSpec, List.foldl_cons, ih]
    split <;> simp

theorem filtSpec_none : ∀ (r : R) (u : List E), (∀ e ∈ u, (f (B.elemCache e)).1 = false) → filtSpec B add f r u = [] := by
  intro r u
  induction u generalizing r with
  | nil => intro _; rfl
  | cons e u ih =>
    intro hu
    simp only [filtSpec, hu e (by simp)]
    exact ih _ (fun e he => hu e (by simp [he]))

/-- the filter never rejects a combination of caches one of which passes, and the measure is additive -/
structure FilterLaw (A : Law B) (add : R → R → R) (f : C → Bool × R) : Prop where
  sound : ∀ cs c, (∀ c ∈ cs, A.okC c) → c ∈ cs → (f c).1 = true → (f (A.total cs)).1 = true
  measure : ∀ cs r, cs ≠ [] → (∀ c ∈ cs, A.okC c) → add r (f (A.total cs)).2 = cs.foldl (fun r c => add r (f c).2) r

theorem filt_spec (g : Good A s lvl h) (ne : NE s) (L : FilterLaw A add f) : ∀ (n x : Nat) (r : R), lvl x = n + 1 →
    filt s add f (n + 1) (.internal x, r) = filtSpec B add f r ((entriesOf s (leavesAt s (n + 1) x)).map Prod.snd) := by
  intro n
  induction n with
  | zero =>
    intro x r hx
    simp only [filt, leavesAt_succ, kids_chs]
    have : ∀ (cs : List (Child C)) (r : R), (∀ c ∈ cs, c ∈ chs s x) →
        (filterChildren add f cs r).flatMap (filt s add f 0) =
        filtSpec B add f r ((entriesOf s ((cs.map Child.arena).flatMap (sub s 0))).map Prod.snd) := by
      intro cs
      induction cs with
      | nil => intro r _; rfl
      | cons c cs ih =>
        intro r hc
        have hm : c.arena ∈ kids s x := by rw [kids_chs]; exact List.mem_map.mpr ⟨c, hc c (by simp), rfl⟩
        obtain ⟨i, hi⟩ := mem_kids.mp hm
        obtain ⟨l, hl⟩ := (g.wf.kid_leaf_iff hi).mp hx
        rw [hl] at hi
        obtain ⟨e, he⟩ := elm_some (show lpar s l ≠ none by rw [(g.wf.klf hi).2]; simp)
        have hce := g.cinv x c (hc c (by simp)) (fun h => h)
        simp only [EntryOK, hl] at hce
        simp only [filterChildren, List.map_cons, List.flatMap_cons, hl, sub, List.cons_append, List.nil_append, entriesOf_cons he, filtSpec, ← hce e he]
        split
        · simp [filt, he, ih _ (fun c h => hc c (by simp [h]))]
        · exact ih _ (fun c h => hc c (by simp [h]))
    exact this _ r (fun _ h => h)
  | succ n ihn =>
    intro x r hx
    have : ∀ (cs : List (Child C)) (r : R), (∀ c ∈ cs, c ∈ chs s x) →
        (filterChildren add f cs r).flatMap (filt s add f (n + 1)) =
        filtSpec B add f r ((entriesOf s ((cs.map Child.arena).flatMap (sub s (n + 1)))).map Prod.snd) := by
      intro cs
      induction cs with
      | nil => intro r _; rfl
      | cons c cs ih =>
        intro r hc
        have hcm := hc c (by simp)
        have hm : c.arena ∈ kids s x := by rw [kids_chs]; exact List.mem_map.mpr ⟨c, hcm, rfl⟩
        obtain ⟨i, hi⟩ := mem_kids.mp hm
        have hblk := cache_block g ne (n := n + 1) hx hcm
        have hbne := sub_ne g.wf ne (n + 1) x i c.arena hx hi
        cases ha : c.arena with
        | leaf l => rw [ha] at hi; have := (g.wf.klf hi).1; omega
        | internal y =>
          rw [ha] at hi hblk hbne
          have hy := ihn y r (by have := (g.wf.kin hi).1; omega)
          simp only [sub] at hblk hbne
          have hok : ∀ z ∈ (entriesOf s (leavesAt s (n + 1) y)).map fun x => B.elemCache x.2, A.okC z := by
            intro z hz
            obtain ⟨e, he, rfl⟩ := List.mem_map.mp hz
            exact A.elem_ok _ (g.okE e.1 e.2 (mem_entries_elm he).2)
          simp only [filterChildren, List.map_cons, List.flatMap_cons, ha, sub, entriesOf_append, List.map_append, filtSpec_append]
          have hms := L.measure _ r (by simpa using hbne) hok
          rw [List.foldl_map] at hms
          rw [List.foldl_map, ← hms]
          change _ = _ ++ filtSpec B add f (add r (f (blockCache A _)).2) _
          rw [← hblk, ← hy, ← ih _ (fun c h => hc c (by simp [h]))]
          by_cases hf : (f c.cache).1 = true
          · rw [if_pos hf]; rfl
          · rw [if_neg hf, hy, filtSpec_none, List.nil_append]
            intro e he
            obtain ⟨z, hz, rfl⟩ := List.mem_map.mp he
            rw [Bool.eq_false_iff]
            intro ht
            apply hf
            rw [hblk]
            exact L.sound _ _ hok (List.mem_map.mpr ⟨z, hz, rfl⟩) ht
    have hx' := this (chs s x) r (fun _ h => h)
    rw [leavesAt_succ, kids_chs, ← hx']
    rfl

/-- `iter_with_filter` with a sound filter and additive measure. -/
theorem iterWithFilter_spec (g : Good A s lvl h) (ne : NE s) (L : FilterLaw A add f) (zero : R) :
    iterWithFilter zero add f s = .ok (filtSpec B add f zero (toList s)) := by
  rw [iterWithFilter_filt g.wf]
  obtain ⟨k, hk⟩ : ∃ k, h = k + 1 := ⟨h - 1, by have := g.wf.h_pos; omega⟩
  have := filt_spec g ne L k s.root zero (by rw [g.wf.root_lvl, hk])
  rw [← hk, ← order_eq g.wf] at this
  rw [this]
  rfl

end
end GB
