import Verif.Proof.RangesTree

/-!
# `update_leaves_with_arg_in_ranges`: units
-/

namespace GB
variable {E C D σ X Arg : Type} {B : Trait E C D} {A : Law B}
open Tree

/-- the closure acts unit by unit -/
def Unitwise (A : Law B) (cont : E → List X) (f : σ → E → Arg → M (σ × E)) (φ : Arg → X → X) : Prop :=
  ∀ st e a st' e', A.okE e → f st e a = .ok (st', e') → cont e' = (cont e).map (φ a)

theorem glue_content {cont : E → List X} (K : ContentLaw B A.okE cont) : ∀ (ps : List E) (e : E) (r : List E), A.okE e → (∀ p ∈ ps, A.okE p) →
    glue B e ps = .ok r → r.flatMap cont = cont e ++ ps.flatMap cont := by
  intro ps
  induction ps with
  | nil => intro e r _ _ h; cases h; simp
  | cons p ps ih =>
    intro e r he hp h
    have hp0 := hp p (by simp)
    have hps : ∀ p ∈ ps, A.okE p := fun x hx => hp x (by simp [hx])
    rw [List.flatMap_cons]
    simp only [glue] at h
    rcases A.tryInsert e (B.rleLen e) p he hp0 (Nat.le_refl _) with ⟨e', ht, hok', -⟩ | ht
    · rw [ht] at h
      have h : glue B e' ps = .ok r := h
      rw [ih e' r hok' hps h, K.tryInsert e _ p e' he hp0 (Nat.le_refl _) ht, ← K.len e he]
      simp
    · rw [ht, bind_ok] at h
      simp only at h
      by_cases c1 : B.rleLen e = 0 ∧ B.canMerge p e = true
      · rw [if_pos c1] at h
        obtain ⟨e', hml, hok', -⟩ := A.merge_left p e hp0 he c1.2
        rw [hml, bind_ok] at h
        have h0 : cont e = [] := by rw [← List.length_eq_zero_iff, K.len e he]; exact c1.1
        rw [ih e' r hok' hps h, K.merge_left p e e' hp0 he c1.2 hml, h0]
        simp
      · rw [if_neg c1] at h
        by_cases c2 : B.canMerge e p = true
        · rw [if_pos c2] at h
          obtain ⟨e', hml, hok', -⟩ := A.merge_right e p he hp0 c2
          rw [hml, bind_ok] at h
          rw [ih e' r hok' hps h, K.merge_right e p e' he hp0 c2 hml]
          simp
        · rw [if_neg c2] at h
          by_cases c3 : B.rleLen e = 0
          · rw [if_pos c3] at h
            obtain ⟨r', h1, h2⟩ := bind_inv h
            cases h2
            have h0 : cont e = [] := by rw [← List.length_eq_zero_iff, K.len e he]; exact c3
            rw [List.flatMap_append, ih p r' hp0 hps h1, h0]
            simp [h0]
          · rw [if_neg c3] at h
            obtain ⟨r', h1, h2⟩ := bind_inv h
            cases h2
            rw [List.flatMap_cons, ih p r' hp0 hps h1]

theorem onPiece_units {cont : E → List X} {f : σ → E → Arg → M (σ × E)} {φ : Arg → X → X} (hf : ArgOK A f) (hu : Unitwise A cont f φ) {lo hi : Nat} :
    ∀ (group : List (Nat × Nat × Arg)) (st : σ) (e : E) (st' : σ) (e' : E), A.okE e → onPiece f lo hi group st e = .ok (st', e') →
    cont e' = (cont e).map (fun u => group.foldl (fun u g => if g.1 ≤ lo ∧ hi ≤ g.2.1 then φ g.2.2 u else u) u) := by
  intro group
  induction group with
  | nil => intro st e st' e' _ h; cases h; simp
  | cons g gs ih =>
    intro st e st' e' he h
    obtain ⟨a, b, arg⟩ := g
    simp only [onPiece] at h
    by_cases hc : a ≤ lo ∧ hi ≤ b
    · rw [if_pos hc] at h
      obtain ⟨⟨st1, e1⟩, h1, h2⟩ := bind_inv h
      obtain ⟨st1', e1', h1', hok⟩ := hf st e arg he
      rw [h1] at h1'
      cases h1'
      rw [ih st1 e1 st' e' hok h2, hu st e arg st1 e1 he h1, List.map_map]
      congr
      funext u
      simp only [Function.comp, List.foldl_cons, if_pos hc]
    · rw [if_neg hc] at h
      rw [ih st e st' e' he h]
      congr
      funext u
      simp only [List.foldl_cons, if_neg hc]

theorem foldl_congr' {α β : Type} {l : List α} {f g : β → α → β} (h : ∀ b, ∀ a ∈ l, f b a = g b a) : ∀ b, l.foldl f b = l.foldl g b := by
  induction l with
  | nil => intro b; rfl
  | cons a l ih =>
    intro b
    rw [List.foldl_cons, List.foldl_cons, h b a (by simp)]
    exact ih (fun b x hx => h b x (by simp [hx])) _

/-- on a piece without boundaries inside, containing the piece and containing the position are the same -/
theorem piece_unit {φ : Arg → X → X} {group : List (Nat × Nat × Arg)} {len lo hi i : Nat} (hg : GroupOK len group) (h1 : lo ≤ i) (h2 : i < hi)
    (hlo : ∀ g ∈ group, g.1 ≤ lo ∨ hi ≤ g.1) (hhi : ∀ g ∈ group, g.2.1 ≤ lo ∨ hi ≤ g.2.1) (u : X) :
    group.foldl (fun u g => if g.1 ≤ lo ∧ hi ≤ g.2.1 then φ g.2.2 u else u) u = specUnit φ group i u := by
  refine foldl_congr' (fun b g hg => ?_) u
  have := hlo g hg
  have := hhi g hg
  by_cases hc : g.1 ≤ lo ∧ hi ≤ g.2.1
  · rw [if_pos hc, if_pos (by omega)]
  · rw [if_neg hc, if_neg (by omega)]

theorem specPieces_units {cont : E → List X} (K : ContentLaw B A.okE cont) {f : σ → E → Arg → M (σ × E)} {φ : Arg → X → X} (hf : ArgOK A f) (hu : Unitwise A cont f φ)
    {group : List (Nat × Nat × Arg)} {len : Nat} (hg : GroupOK len group) :
    ∀ (xs : List Nat) (st : σ) (lo : Nat) (e : E) (st' : σ) (P : List E), A.okE e → lo + B.rleLen e = len → (lo :: xs).Pairwise (· < ·) → (∀ x ∈ xs, x < len) →
    (∀ g ∈ group, ∀ y, y = g.1 ∨ y = g.2.1 → y ≤ lo ∨ y ∈ xs ∨ len ≤ y) → specPieces B f group len xs st lo e = .ok (st', P) →
    P.flatMap cont = (cont e).mapIdx (fun i u => specUnit φ group (lo + i) u) := by
  intro xs
  induction xs with
  | nil =>
    intro st lo e st' P he hlen _ _ hb h
    simp only [specPieces] at h
    obtain ⟨⟨st1, e1⟩, h1, h2⟩ := bind_inv h
    cases h2
    have := onPiece_units hf hu group st e st1 e1 he h1
    rw [List.flatMap_cons, List.flatMap_nil, List.append_nil, this]
    apply List.ext_getElem (by simp)
    intro i hi1 hi2
    have hi : i < (cont e).length := by simpa using hi2
    rw [K.len e he] at hi
    rw [List.getElem_map, List.getElem_mapIdx]
    refine piece_unit hg (by omega) (by omega) (fun g hgm => ?_) (fun g hgm => ?_) _
    · rcases hb g hgm g.1 (.inl rfl) with h | h | h
      · exact .inl h
      · simp at h
      · exact .inr h
    · rcases hb g hgm g.2.1 (.inr rfl) with h | h | h
      · exact .inl h
      · simp at h
      · exact .inr h
  | cons x xs ih =>
    intro st lo e st' P he hlen hs hx hb h
    rw [List.pairwise_cons] at hs
    have hlo := hs.1 x (by simp)
    have hxl := hx x (by simp)
    obtain ⟨a, b, q1, q2, q3, -⟩ := A.split e (x - lo) he (by omega) (by omega)
    obtain ⟨l1, l2⟩ := K.splitLen e (x - lo) a b he (by omega) (by omega) q1
    obtain ⟨c1, c2⟩ := K.split e (x - lo) a b he (by omega) (by omega) q1
    simp only [specPieces, q1, bind_ok] at h
    obtain ⟨⟨st1, e1⟩, h1, h2⟩ := bind_inv h
    obtain ⟨⟨st2, P2⟩, h3, h4⟩ := bind_inv h2
    cases h4
    have hs2 := hs.2
    rw [List.pairwise_cons] at hs2
    have key : ∀ g ∈ group, ∀ y, y = g.1 ∨ y = g.2.1 → y ≤ lo ∨ x ≤ y := by
      intro g hgm y hy
      rcases hb g hgm y hy with h | h | h
      · exact .inl h
      · rcases List.mem_cons.mp h with h | h
        · right; omega
        · have := hs2.1 y h
          right; omega
      · right; omega
    have h5 := ih st1 x b st2 P2 q3 (by omega) hs.2 (fun y hy => hx y (by simp [hy])) (by
      intro g hgm y hy
      rcases hb g hgm y hy with h | h | h
      · left; omega
      · rcases List.mem_cons.mp h with h | h
        · left; omega
        · exact .inr (.inl h)
      · exact .inr (.inr h)) h3
    have h6 := onPiece_units hf hu group st a st1 e1 q2 h1
    rw [List.flatMap_cons, h5, h6]
    have hsplit : cont e = cont a ++ cont b := by rw [c1, c2, List.take_append_drop]
    have hla : (cont a).length = x - lo := by rw [K.len a q2, l1]
    rw [hsplit, List.mapIdx_append]
    congr 1
    · apply List.ext_getElem (by simp)
      intro i hi1 hi2
      have hi : i < (cont a).length := by simpa using hi2
      rw [List.getElem_map, List.getElem_mapIdx]
      exact piece_unit hg (by omega) (by omega) (fun g hgm => key g hgm g.1 (.inl rfl)) (fun g hgm => key g hgm g.2.1 (.inr rfl)) _
    · rw [hla]
      apply List.ext_getElem (by simp)
      intro i hi1 hi2
      rw [List.getElem_mapIdx, List.getElem_mapIdx, show lo + (i + (x - lo)) = x + i by omega]

theorem specRanges_mem {f : σ → E → Arg → M (σ × E)} {args : List (Nat × Nat × Nat × Arg)} {es : List (Nat × E)} : ∀ (ls : List Nat) (st st' : σ) (out : List (Nat × List E)),
    specRanges B f args es ls st = .ok (st', out) → ∀ x ∈ out, ∃ st1 st2 U e V, locate x.1 es = some (U, e, V) ∧
      specPieces B f ((args.filter fun a => a.1 = x.1).map Prod.snd) (B.rleLen e) (cutPoints (B.rleLen e) ((args.filter fun a => a.1 = x.1).map Prod.snd)) st1 0 e =
        .ok (st2, x.2) := by
  intro ls
  induction ls with
  | nil => intro st st' out h; cases h; simp
  | cons l ls ih =>
    intro st st' out h x hx
    simp only [specRanges] at h
    cases hl : locate l es with
    | none => rw [hl] at h; cases h
    | some t =>
      obtain ⟨U, e, V⟩ := t
      rw [hl] at h
      simp only at h
      obtain ⟨⟨st1, ps⟩, h1, h2⟩ := bind_inv h
      obtain ⟨⟨st2, out2⟩, h3, h4⟩ := bind_inv h2
      cases h4
      rcases List.mem_cons.mp hx with rfl | hx
      · exact ⟨st, st1, U, e, V, hl, h1⟩
      · exact ih st1 _ out2 h3 x hx

end GB
