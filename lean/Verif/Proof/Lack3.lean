import Verif.Proof.Lack2

/-!
# `handle_lack_single_layer`: merging and the whole step
-/

namespace GB
variable {E C D : Type}
open Tree

section
variable {B : Trait E C D} {A : Law B} {s : Tree E C} {lvl : Nat → Nat} {h p : Nat}

/-- The merging branches of `handle_lack_single_layer` (src/lib.rs:2074-2134): `d` is deleted. -/
def lackMerge (B : Trait E C D) (s : Tree E C) (p kArr d dArr : Nat) (chK : Child C) (K : Node C)
    (rp : List (Idx × Nat × Nat)) : M (Option Nat × Tree E C) := do
  let (kc, _) ← calcCache B K chK.cache none
  let par ← s.getIn p
  let (_, cs) ← vremove (par.children.set kArr { chK with cache := kc }) dArr
  let par := { par with children := cs }
  let s := s.setIn p par
  let s ← purge s (.internal d)
  let s ← updSlotsFrom s p dArr
  let s ← applyReparent s rp
  pure (if par.isLack then some p else none, s)

theorem lackMerge_spec {X : Idx → Prop} {Q : Prop} (g : GoodX A s lvl h X Q) (hX : ∀ a ∈ kids s p, ¬ X a) 
    (hl : 2 ≤ lvl p) {a b i : Nat} {ca cb : Child C} {Na Nb : Node C}
    {L R : List (Child C)} (hk : chs s p = L ++ [ca, cb] ++ R) (hi : L.length = i)
    (hca : ca.arena = .internal a) (hcb : cb.arena = .internal b)
    (ha : s.inn.get a = some Na) (hb : s.inn.get b = some Nb)
    (hne : ∀ x, .internal x ∈ kids s p → chs s x ≠ [] ∨ LawE A)
    (hcc : Na.children ++ Nb.children ≠ []) (hlen : (Na.children ++ Nb.children).length ≤ 11)
    {k d kArr dArr : Nat} {chK : Child C} {K : Node C} {al bl : List (Child C)}
    (hkd : (k = a ∧ d = b ∧ kArr = i ∧ dArr = i + 1 ∧ chK = ca ∧ al = Na.children ++ Nb.children ∧ bl = []) ∨
      (k = b ∧ d = a ∧ kArr = i + 1 ∧ dArr = i ∧ chK = cb ∧ bl = Na.children ++ Nb.children ∧ al = []))
    (hK : K.children = Na.children ++ Nb.children)
    {rp : List (Idx × Nat × Nat)}
    (Rk : ∀ (j : Nat) (c : Child C), (Na.children ++ Nb.children)[j]? = some c →
      look rp c.arena = some (k, j) ∨ (look rp c.arena = none ∧ (chs s k)[j]? = some c))
    (R2 : ∀ e ∈ rp, e.1 ∈ Na.children.map Child.arena ∨ e.1 ∈ Nb.children.map Child.arena) :
    ∃ s', lackMerge B ((s.setIn a { Na with children := al }).setIn b { Nb with children := bl }) p kArr d dArr chK K rp =
        .ok (if (chs s' p).length < 6 then some p else none, s') ∧ PairPost A s s' lvl h p a b X Q := by
  have hea : Edge s p i (.internal a) := by
    rw [edge_chs]; exact ⟨ca, by rw [hk, ← hi]; simp, hca⟩
  have heb : Edge s p (i + 1) (.internal b) := by
    rw [edge_chs]; exact ⟨cb, by rw [hk, ← hi]; simp, hcb⟩
  have hap : a ≠ p := kid_ne_self g.wf hea
  have hbp : b ≠ p := kid_ne_self g.wf heb
  have hab : a ≠ b := by rintro rfl; have := (g.wf.kid_inj hea heb).2; omega
  obtain ⟨Np, hNp⟩ := lnk_isSome.mp (edge_live hea)
  have hpc : Np.children = L ++ [ca, cb] ++ R := by rw [← chs_of hNp, hk]
  have hkk : kids s p = L.map Child.arena ++ [.internal a, .internal b] ++ R.map Child.arena := by
    rw [kids_chs, hk]; simp [hca, hcb]
  have cokN : ∀ c ∈ Na.children ++ Nb.children, A.okC c.cache := by
    intro c hc
    rw [List.mem_append] at hc
    rcases hc with h | h
    · exact g.cok a c (by rw [chs_of ha]; exact h)
    · exact g.cok b c (by rw [chs_of hb]; exact h)
  obtain ⟨da, hcK, -⟩ := calcCache_ok (A := A) (N := K) (by rw [hK]; exact Or.inl hcc)
    (by rw [hK]; exact cokN) chK.cache
  rw [hK] at hcK
  let ck : Child C := { chK with cache := A.total ((Na.children ++ Nb.children).map Child.cache) }
  have hckA : ck.arena = .internal k := by
    rcases hkd with ⟨rfl, -, -, -, rfl, -⟩ | ⟨rfl, -, -, -, rfl, -⟩
    · exact hca
    · exact hcb
  have hvr : ∃ x, vremove (Np.children.set kArr ck) dArr = .ok (x, L ++ [ck] ++ R) := by
    rw [hpc]
    rcases hkd with ⟨-, -, rfl, rfl, -⟩ | ⟨-, -, rfl, rfl, -⟩
    · refine ⟨cb, ?_⟩
      unfold vremove
      rw [← hi, List.append_assoc, List.set_append]
      simp only [Nat.lt_irrefl, if_false, Nat.sub_self]
      rw [List.getElem?_append_right (by omega), List.eraseIdx_append, if_neg (by omega)]
      simp
    · refine ⟨ca, ?_⟩
      unfold vremove
      rw [← hi, List.append_assoc, List.set_append]
      simp only [show ¬ (L.length + 1 < L.length) by omega, if_false]
      rw [List.getElem?_append_right (by omega), List.eraseIdx_append]
      simp
  obtain ⟨x0, hvr⟩ := hvr
  have hkab : k = a ∨ k = b := by rcases hkd with h | h <;> first | exact Or.inl h.1 | exact Or.inr h.1
  have hdab : d = a ∨ d = b := by rcases hkd with h | h <;> first | exact Or.inr h.2.1 | exact Or.inl h.2.1
  have hkd' : k ≠ d := by
    rcases hkd with ⟨rfl, rfl, -⟩ | ⟨rfl, rfl, -⟩
    · exact hab
    · exact Ne.symm hab
  have habkd : ∀ y, (y = a ∨ y = b) → y = k ∨ y = d := by
    intro y hy
    rcases hkd with ⟨rfl, rfl, -⟩ | ⟨rfl, rfl, -⟩
    · exact hy
    · exact hy.symm
  have hdp : d ≠ p := by rcases hdab with rfl | rfl <;> first | exact hap | exact hbp
  have hkp : k ≠ p := by rcases hkab with rfl | rfl <;> first | exact hap | exact hbp
  obtain ⟨v1, v2, v3⟩ := views3 ha hb hNp hab hap hbp al bl (L ++ [ck] ++ R)
  generalize ht : ((s.setIn a { Na with children := al }).setIn b { Nb with children := bl }).setIn p
    { Np with children := L ++ [ck] ++ R } = t at v1 v2
  have troot : t.root = s.root := by rw [← ht]; rfl
  have titems : t.inn.items.length = s.inn.items.length := by rw [← ht]; simp
  have tlf : t.lf = s.lf := by rw [← ht]; rfl
  have trc : t.rootCache = s.rootCache := by rw [← ht]; rfl
  have tp : chs t p = L ++ [ck] ++ R := by rw [v2, if_pos rfl]
  have tk : chs t k = Na.children ++ Nb.children := by
    rw [v2, if_neg hkp]
    rcases hkd with ⟨rfl, -, -, -, -, h1, h2⟩ | ⟨rfl, -, -, -, -, h1, h2⟩
    · rw [if_neg hab, if_pos rfl, h1]
    · rw [if_pos rfl, h1]
  have td : chs t d = [] := by
    rw [v2, if_neg hdp]
    rcases hkd with ⟨-, rfl, -, -, -, h1, h2⟩ | ⟨-, rfl, -, -, -, h1, h2⟩
    · rw [if_pos rfl, h2]
    · rw [if_neg hab, if_pos rfl, h2]
  have hed : Edge s p dArr (.internal d) := by
    rcases hkd with ⟨-, rfl, -, rfl, -⟩ | ⟨-, rfl, -, rfl, -⟩
    · exact heb
    · exact hea
  have kt : kids t p = (kids s p).eraseIdx dArr := by
    rw [kids_chs, tp, hkk]
    rcases hkd with ⟨h1, -, -, rfl, -⟩ | ⟨h1, -, -, rfl, -⟩
    · rw [List.append_assoc (List.map Child.arena L), List.eraseIdx_append, if_neg (by simp; omega)]
      simp [hi, hckA, h1]
    · rw [List.append_assoc (List.map Child.arena L), List.eraseIdx_append, if_neg (by simp; omega)]
      simp [hi, hckA, h1]
  obtain ⟨t', u1, u2, u3, u4, u5, u6, u7⟩ := del_slot g.wf hed v1 kt
  have c' : ∀ y, chs t' y = if y = d then [] else chs t y := by
    intro y; rw [u2.chs, chs_free]
  have t'p : chs t' p = L ++ [ck] ++ R := by rw [c', if_neg (Ne.symm hdp), tp]
  have t'k : chs t' k = Na.children ++ Nb.children := by rw [c', if_neg hkd', tk]
  have fr : ∀ y, y ≠ p → y ≠ a → y ≠ b → chs t' y = chs s y := by
    intro y h1 h2 h3
    rw [c', if_neg (by rcases hdab with rfl | rfl <;> first | exact h2 | exact h3), v2, if_neg h1, if_neg h3, if_neg h2]
  obtain ⟨s6, e1, e2, e3, e4, e5, e6, e7⟩ := pair_finish (s5 := t') g.wf hl hca hcb hk t'p
    (by
      intro x hx
      simp only [List.map_cons, List.map_nil, List.mem_cons, List.not_mem_nil, or_false, hckA] at hx
      subst hx
      rcases hkab with rfl | rfl
      · exact Or.inl rfl
      · exact Or.inr rfl)
    (by rw [u2.root]; exact troot) (by rw [u2.items]; simpa using titems) (by rw [u3, tlf])
    (u5 p (by intro hm; obtain ⟨j, hj⟩ := mem_kids.mp hm; exact kid_ne_self g.wf hj rfl))
    u4
    (by
      intro x hx hn
      rcases habkd x hx with rfl | rfl
      · exfalso; apply hn; simp [hckA]
      · exact u6)
    fr
    (by
      simp only [List.flatMap_cons, List.flatMap_nil, List.append_nil, hckA, chsI, t'k]
      rw [chs_of ha, chs_of hb])
    u5
    (rp := rp)
    (by
      intro x hx j c hc
      simp only [List.map_cons, List.map_nil, List.mem_cons, List.not_mem_nil, or_false, hckA, Idx.internal.injEq] at hx
      subst hx
      rw [t'k] at hc
      exact Rk j c hc)
    (by
      intro e he
      rw [kids_of ha, kids_of hb]
      exact R2 e he)
  have s6k : chs s6 k = Na.children ++ Nb.children := by rw [e3, t'k]
  have s6d : chs s6 d = [] := by rw [e3, c', if_pos rfl]
  have live : ∀ y, lnk s6 y ≠ none → lnk s y ≠ none := by
    intro y hy
    have : lnk t' y ≠ none := fun hn => hy ((e4 y).mpr hn)
    exact (u7 y (by rintro rfl; exact this u6)).mp this
  have g6 := pair_good (s6 := s6) g hX hl hca hcb hk (by rw [e3, t'p]) (by simp)
    (by
      intro c hc
      simp only [List.mem_cons, List.not_mem_nil, or_false] at hc
      subst hc
      exact ⟨k, hckA, hkab, by rw [s6k]; exact hcc, by simp only [ck, cch, s6k]⟩)
    e2 (by rw [e5, u2.rootCache]; exact trc) hne
    (by intro y h1 h2 h3; rw [e3, fr y h1 h2 h3])
    (by
      intro x hx c hc
      rcases habkd x hx with rfl | rfl
      · rw [s6k, List.mem_append, ← chs_of ha, ← chs_of hb] at hc
        exact hc
      · rw [s6d] at hc; simp at hc)
    live
  refine ⟨s6, ?_, ?_⟩
  · have htd : lnk t d ≠ none := by rw [v1]; exact kids_live_in g.wf (mem_kids.mpr ⟨_, hed⟩)
    unfold lackMerge
    simp only [hcK, bind_ok, getIn_ok v3]
    have hvr' := hvr
    simp only [ck] at hvr'
    simp only [hvr', bind_ok]
    simp only [ck] at ht
    rw [ht, purge_empty htd td]
    simp only [bind_ok, u1, e1]
    simp only [Node.isLack, pure_ok]
    rw [e3, t'p]
    simp [MAXC]
  · refine ⟨g6.1, g6.2.1, g6.2.2, ⟨e2.order g.wf (edge_live hea) hl ?_, e2.elm, by rw [e2.root], e6⟩, live, ?_, ?_, ?_, ?_, e7, Or.inr ?_, e2,
      ⟨L.map Child.arena, R.map Child.arena, [.internal k], ?_, ?_, ?_, ?_⟩⟩
    · rw [e7]; exact g.wf.h_le
    · intro y hy h1 h2
      rw [Ne, e4 y]
      exact (u7 y (by rcases hdab with rfl | rfl <;> first | exact h1 | exact h2)).mpr hy
    · intro y h1 h2 h3; rw [e3, fr y h1 h2 h3]
    · intro y hy hyab
      rcases habkd y hyab with rfl | rfl
      · rw [s6k, chs_of ha, chs_of hb, List.length_append] at *
        exact ⟨hlen, Or.inr rfl⟩
      · exfalso; exact hy ((e4 _).mpr u6)
    · rw [e3, t'p, hk]; simp; omega
    · rcases hdab with rfl | rfl
      · exact Or.inl ((e4 _).mpr u6)
      · exact Or.inr ((e4 _).mpr u6)
    · rw [kids_chs, hk]; simp [hca, hcb]
    · rw [kids_chs, e3, t'p]; simp [hckA]
    · rcases hkd with ⟨rfl, rfl, -⟩ | ⟨rfl, rfl, -⟩
      · exact Or.inr (Or.inl ⟨rfl, (e4 _).mpr u6⟩)
      · exact Or.inr (Or.inr ⟨rfl, (e4 _).mpr u6⟩)
    · intro x hx
      simp only [List.mem_cons, List.not_mem_nil, or_false, Idx.internal.injEq] at hx
      subst hx
      rw [s6k]; exact hcc

end
end GB
