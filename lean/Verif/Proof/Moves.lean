import Verif.Proof.Content
import Verif.Spec.Moves
import Verif.Spec.Range

/-!
# Positions of cursors after an edit
-/

namespace GB
variable {E C D X σ : Type} {B : Trait E C D}
open Tree

theorem locate_front : ∀ {U W : List (Nat × E)} {l : Nat}, l ∈ U.map Prod.fst → ∃ u e v, locate l U = some (u, e, v) ∧ locate l (U ++ W) = some (u, e, v ++ W) := by
  intro U
  induction U with
  | nil => intro W l h; simp at h
  | cons x U ih =>
    intro W l h
    by_cases hx : x.1 = l
    · exact ⟨[], x.2, U, by simp [locate, hx], by simp [locate, hx]⟩
    · have : l ∈ U.map Prod.fst := by
        rcases List.mem_map.mp h with ⟨y, hy, rfl⟩
        rcases List.mem_cons.mp hy with rfl | hy
        · exact absurd rfl hx
        · exact List.mem_map.mpr ⟨y, hy, rfl⟩
      obtain ⟨u, e, v, h1, h2⟩ := ih (W := W) this
      exact ⟨x :: u, e, v, by simp [locate, hx, h1], by simp [locate, hx, h2]⟩

theorem locate_back : ∀ {U W : List (Nat × E)} {l : Nat}, l ∉ U.map Prod.fst → locate l (U ++ W) = (locate l W).map fun x => (U ++ x.1, x.2.1, x.2.2) := by
  intro U
  induction U with
  | nil => intro W l _; simp
  | cons x U ih =>
    intro W l h
    simp only [List.map_cons, List.mem_cons, not_or] at h
    rw [List.cons_append, show locate l (x :: (U ++ W)) = (locate l (U ++ W)).map fun (u, y, v) => (x :: u, y, v) by
      simp [locate, Ne.symm h.1], ih h.2, Option.map_map]
    rfl

theorem moves_of {U M M' V : List (Nat × E)} {n n' old new : Nat} (nd : ((U ++ M ++ V).map Prod.fst).Nodup) (nd' : ((U ++ M' ++ V).map Prod.fst).Nodup)
    (hlen : unitLen B M + new = unitLen B M' + old) : Moves B U V old new ⟨n, U ++ M ++ V⟩ ⟨n', U ++ M' ++ V⟩ := by
  constructor
  · intro c hc
    obtain ⟨u, e, v, -, h2⟩ := locate_front (W := M ++ V) hc
    obtain ⟨u', e', v', h3, h4⟩ := locate_front (W := M' ++ V) hc
    obtain ⟨u1, e1, v1, h5, h6⟩ := locate_front (W := M ++ V) hc
    rw [h3] at h5
    cases h5
    exact ⟨unitLen B u' + c.offset, by simp only [posOf, List.append_assoc, h6, Option.map_some],
      by simp only [posOf, List.append_assoc, h4, Option.map_some]⟩
  · intro c hc
    have hn : ∀ {M : List (Nat × E)}, ((U ++ M ++ V).map Prod.fst).Nodup → c.leaf ∉ (U ++ M).map Prod.fst := by
      intro M nd h
      rw [List.map_append] at nd
      exact (List.nodup_append.mp nd).2.2 _ h _ hc rfl
    obtain ⟨u, e, v, h1, -⟩ := locate_front (W := []) hc
    refine ⟨unitLen B (U ++ M ++ u) + c.offset, unitLen B (U ++ M' ++ u) + c.offset,
      by simp only [posOf, locate_back (hn nd), h1, Option.map_some], by simp only [posOf, locate_back (hn nd'), h1, Option.map_some], ?_⟩
    simp only [unitLen_append]
    omega

/-- a cut in the middle -/
theorem cut_middle {U M V : List (Nat × E)} {c : Cursor} {n n' : Nat} {L R : List (Nat × E)} (hU : c.leaf ∉ U.map Prod.fst) (hM : c.leaf ∈ M.map Prod.fst)
    (h : specCut B ⟨n, U ++ M ++ V⟩ c = .ok (L, R, n')) :
    ∃ L' R', L = U ++ L' ∧ R = R' ++ V ∧ ∀ l ∈ M.map Prod.fst, l ∈ (L' ++ R').map Prod.fst := by
  obtain ⟨u, e, v, h1, h2⟩ := locate_front (W := V) hM
  have hes := locate_some h1
  have hmem : ∀ l ∈ M.map Prod.fst, l ∈ u.map Prod.fst ∨ l = c.leaf ∨ l ∈ v.map Prod.fst := by
    intro l hl
    rw [hes] at hl
    simpa using hl
  unfold specCut at h
  rw [List.append_assoc, locate_back hU, h2] at h
  simp only [Option.map_some] at h
  split at h
  · cases h
  split at h
  · cases h
    refine ⟨u, (c.leaf, e) :: v, rfl, rfl, fun l hl => ?_⟩
    simpa using hmem l hl
  split at h
  · cases h
    refine ⟨u ++ [(c.leaf, e)], v, by rw [List.append_assoc], rfl, fun l hl => ?_⟩
    simpa using hmem l hl
  · obtain ⟨⟨a, b⟩, h3, h4⟩ := bind_inv h
    cases h4
    refine ⟨u ++ [(c.leaf, a)], (n, b) :: v, by rw [List.append_assoc], rfl, fun l hl => ?_⟩
    have := hmem l hl
    simp only [List.map_append, List.map_cons, List.map_nil, List.mem_append, List.mem_cons, List.not_mem_nil, or_false]
    rcases this with h | h | h
    · exact .inl (.inl h)
    · exact .inl (.inr h)
    · exact .inr (.inr h)

/-- what `drain` and `update` leave alone -/
theorem cuts_middle {U M V : List (Nat × E)} {a b : Cursor} {n n1 n2 : Nat} {L R X S : List (Nat × E)}
    (hUa : a.leaf ∉ U.map Prod.fst) (hUb : b.leaf ∉ U.map Prod.fst) (hMa : a.leaf ∈ M.map Prod.fst) (hMb : b.leaf ∈ M.map Prod.fst)
    (hb : specCut B ⟨n, U ++ M ++ V⟩ b = .ok (L, R, n1)) (ha : specCut B ⟨n1, L ++ R⟩ a = .ok (X, S, n2)) :
    ∃ X' R', X = U ++ X' ∧ R = R' ++ V := by
  obtain ⟨L', R', rfl, rfl, h1⟩ := cut_middle hUb hMb hb
  rw [show U ++ L' ++ (R' ++ V) = U ++ (L' ++ R') ++ V by simp only [List.append_assoc]] at ha
  obtain ⟨X', S', rfl, -, -⟩ := cut_middle hUa (h1 _ hMa) ha
  exact ⟨X', R', rfl, rfl⟩

theorem specInsert_within {okE : E → Prop} {cont : E → List X} (L : ContentLaw B okE cont) {t t' : Seq E} {cur c : Cursor} {data : E} {sp : List Nat}
    {U V : List (Nat × E)} {e : E} (hl : locate cur.leaf t.es = some (U, e, V)) (he : okE e) (hd : okE data)
    (hfr : cur.leaf < t.next) (h : specInsert B t cur data = .ok ((c, sp), t'))
    (htry : ∀ d', B.tryInsert e cur.offset data = .ok (.inr d') → d' = data)
    (hok' : ∀ x ∈ t'.es, okE x.2) :
    Within B cur (B.rleLen e) (B.rleLen data) (unitLen B U + cur.offset) c sp t t' := by
  have hes := locate_some hl
  have len : ∀ {a}, okE a → (cont a).length = B.rleLen a := fun h => L.len _ h
  have hle : cur.offset ≤ B.rleLen e := by
    unfold specInsert at h
    rw [hl] at h
    simp only at h
    split at h
    · cases h
    · omega
  have hold : ∀ k, k ≤ B.rleLen e → CursorAt B t ⟨cur.leaf, k⟩ (unitLen B U + cur.offset - cur.offset + k) :=
    fun k hk => ⟨U, e, V, hes, hk, by simp⟩
  have key : CursorAt B t' c (unitLen B U + cur.offset) ∧
      (∀ k, k < cur.offset → CursorAt B t' ⟨cur.leaf, k⟩ (unitLen B U + k)) ∧
      ∀ k, cur.offset ≤ k → k ≤ B.rleLen e → CursorAt B t' (carried cur (B.rleLen data) c sp k) (unitLen B U + k + B.rleLen data) := by
    have same : ∀ {e'}, okE e' → B.rleLen e' = B.rleLen e + B.rleLen data → ∀ {n},
        t' = ⟨n, U ++ (cur.leaf, e') :: V⟩ → ∀ {o}, c = ⟨cur.leaf, o⟩ → o = cur.offset → sp = [] →
        CursorAt B t' c (unitLen B U + cur.offset) ∧
        (∀ k, k < cur.offset → CursorAt B t' ⟨cur.leaf, k⟩ (unitLen B U + k)) ∧
        ∀ k, cur.offset ≤ k → k ≤ B.rleLen e → CursorAt B t' (carried cur (B.rleLen data) c sp k) (unitLen B U + k + B.rleLen data) := by
      intro e' he' hlen n ht' o hc ho hsp
      subst ht' hc hsp ho
      refine ⟨⟨U, e', V, rfl, by simp only; omega, rfl⟩, fun k hk => ⟨U, e', V, rfl, by simp only; omega, rfl⟩, fun k _ hk => ?_⟩
      simp only [carried, if_pos]
      exact ⟨U, e', V, rfl, by simp only; omega, by simp only; omega⟩
    unfold specInsert at h
    rw [hl] at h
    simp only at h
    rw [if_neg (by omega)] at h
    cases ht : B.tryInsert e cur.offset data with
    | error x => rw [ht] at h; cases h
    | ok y =>
      rw [ht, bind_ok] at h
      cases y with
      | inl e' =>
        simp only [pure_ok, Except.ok.injEq, Prod.mk.injEq] at h
        obtain ⟨⟨rfl, rfl⟩, rfl⟩ := h
        have he' : okE e' := hok' (cur.leaf, e') (by simp)
        have := congrArg List.length (L.tryInsert e cur.offset data e' he hd hle ht)
        simp only [List.length_append, List.length_take, List.length_drop, len he', len he, len hd] at this
        exact same he' (by omega) rfl (o := cur.offset) rfl rfl rfl
      | inr d' =>
        obtain rfl := htry _ ht
        simp only at h
        split at h
        · next hc =>
          cases hm : B.mergeLeft e d' with
          | error x => rw [hm] at h; cases h
          | ok e' =>
            rw [hm, bind_ok] at h
            simp only [pure_ok, Except.ok.injEq, Prod.mk.injEq] at h
            obtain ⟨⟨rfl, rfl⟩, rfl⟩ := h
            have he' : okE e' := hok' (cur.leaf, e') (by simp)
            have := congrArg List.length (L.merge_left d' e e' hd he hc.2 hm)
            simp only [List.length_append, len he', len he, len hd] at this
            exact same he' (by omega) rfl rfl hc.1.symm rfl
        · split at h
          · next hc =>
            cases hm : B.mergeRight e d' with
            | error x => rw [hm] at h; cases h
            | ok e' =>
              rw [hm, bind_ok] at h
              simp only [pure_ok, Except.ok.injEq, Prod.mk.injEq] at h
              obtain ⟨⟨rfl, rfl⟩, rfl⟩ := h
              have he' : okE e' := hok' (cur.leaf, e') (by simp)
              have := congrArg List.length (L.merge_right e d' e' he hd hc.2 hm)
              simp only [List.length_append, len he', len he, len hd] at this
              exact same he' (by omega) rfl rfl hc.1.symm rfl
          · have hne : t.next ≠ cur.leaf := by omega
            split at h
            · next h0 =>
              simp only [pure_ok, Except.ok.injEq, Prod.mk.injEq] at h
              obtain ⟨⟨rfl, rfl⟩, rfl⟩ := h
              refine ⟨⟨U, d', (cur.leaf, e) :: V, rfl, Nat.zero_le _, by simp only; omega⟩, fun k hk => by omega, fun k _ hk => ?_⟩
              simp only [carried, if_neg hne, if_pos h0]
              exact ⟨U ++ [(t.next, d')], e, V, by simp, hk, by simp only [unitLen_append, unitLen_cons, unitLen_nil]; omega⟩
            · next h0 =>
              split at h
              · next h1 =>
                simp only [pure_ok, Except.ok.injEq, Prod.mk.injEq] at h
                obtain ⟨⟨rfl, rfl⟩, rfl⟩ := h
                refine ⟨⟨U ++ [(cur.leaf, e)], d', V, by simp, Nat.zero_le _, by simp only [unitLen_append, unitLen_cons, unitLen_nil]; omega⟩,
                  fun k hk => ⟨U, e, (t.next, d') :: V, rfl, by simp only; omega, rfl⟩, fun k hk1 hk => ?_⟩
                simp only [carried, if_neg hne, if_neg h0]
                exact ⟨U ++ [(cur.leaf, e)], d', V, by simp, Nat.le_refl _, by simp only [unitLen_append, unitLen_cons, unitLen_nil]; omega⟩
              · next h1 =>
                cases hm : B.split e cur.offset with
                | error x => rw [hm] at h; cases h
                | ok y =>
                  obtain ⟨a, b⟩ := y
                  rw [hm, bind_ok] at h
                  simp only [pure_ok, Except.ok.injEq, Prod.mk.injEq] at h
                  obtain ⟨⟨rfl, rfl⟩, rfl⟩ := h
                  have ha : okE a := hok' (cur.leaf, a) (by simp)
                  have hb : okE b := hok' (t.next, b) (by simp)
                  obtain ⟨c1, c2⟩ := L.split e cur.offset a b he (by omega) (by omega) hm
                  have l1 := congrArg List.length c1
                  have l2 := congrArg List.length c2
                  rw [List.length_take, len ha, len he] at l1
                  rw [List.length_drop, len hb, len he] at l2
                  refine ⟨⟨U ++ [(cur.leaf, a)], d', (t.next, b) :: V, by simp, Nat.zero_le _, by simp only [unitLen_append, unitLen_cons, unitLen_nil]; omega⟩,
                    fun k hk => ⟨U, a, (t.next + 1, d') :: (t.next, b) :: V, rfl, by simp only; omega, rfl⟩, fun k hk1 hk => ?_⟩
                  simp only [carried]
                  exact ⟨U ++ [(cur.leaf, a), (t.next + 1, d')], b, V, by simp, by simp only; omega,
                    by simp only [unitLen_append, unitLen_cons, unitLen_nil]; omega⟩
  obtain ⟨k1, k2, k3⟩ := key
  refine ⟨⟨U, e, V, hes, hle, rfl⟩, k1, fun k hk => ⟨hold k (by omega), ?_⟩, fun k hk hk' => ⟨hold k hk', ?_⟩⟩
  · rw [Nat.add_sub_cancel]; exact k2 k hk
  · rw [Nat.add_sub_cancel]; exact k3 k hk hk'

/-- at most one leaf is split off -/
theorem specInsert_splits {t t' : Seq E} {cur c : Cursor} {data : E} {sp : List Nat} (h : specInsert B t cur data = .ok ((c, sp), t')) : sp.length ≤ 1 := by
  unfold specInsert at h
  cases hl : locate cur.leaf t.es with
  | none => rw [hl] at h; cases h
  | some x =>
    obtain ⟨U, e, V⟩ := x
    rw [hl] at h
    simp only at h
    split at h
    · cases h
    · obtain ⟨y, -, h⟩ := bind_inv h
      cases y with
      | inl e' =>
        cases h
        simp
      | inr d' =>
        simp only at h
        split at h
        · obtain ⟨_, -, h⟩ := bind_inv h
          cases h
          simp
        · split at h
          · obtain ⟨_, -, h⟩ := bind_inv h
            cases h
            simp
          · split at h
            · cases h
              simp
            · split at h
              · cases h
                simp
              · obtain ⟨_, -, h⟩ := bind_inv h
                cases h
                simp

end GB
