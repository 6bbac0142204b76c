import Verif.Proof.FromIterLoop

/-!
# `from_iter`: all levels and the final tree
-/

namespace GB
variable {E C D : Type}
open Tree

section
variable {B : Trait E C D} {A : Law B} {ls : List Nat}

theorem fromIterLevels_spec (N : Nat) : ∀ (n j : Nat) (s : Tree E C) (G : Nat → List (Child C)) (lvl : Nat → Nat) (done : List (TempNode C)) (last : TempNode C),
    LS A (j + 1) j s G lvl done last [] ls → (done ≠ [] → last.children ≠ []) → done.length + 1 ≤ n → j + 2 ≤ s.inn.items.length →
    (1 ≤ j → done = [] → 2 ≤ last.children.length) → (done ≠ [] → MAXCS ^ (j + 1) * done.length < N) → (1 ≤ j → MAXCS ^ j < N) →
    ∃ s' G' lvl' t j', fromIterLevels B n s (done ++ [last]) = .ok (s', t) ∧ LS A (j' + 1) j' s' G' lvl' [] t [] ls ∧ j' + 2 ≤ s'.inn.items.length ∧
      (1 ≤ j' → 2 ≤ t.children.length) ∧ s'.lf = s.lf ∧ s'.root = s.root ∧ s'.rootCache = s.rootCache ∧ (1 ≤ j' → MAXCS ^ j' < N) := by
  intro n
  induction n with
  | zero => intro j s G lvl done last _ _ h; omega
  | succ n ih =>
    intro j s G lvl done last L hne hn hin h2 hb hjN
    by_cases hd : done = []
    · subst hd
      exact ⟨s, G, lvl, last, j, rfl, L, hin, fun h => h2 h rfl, rfl, rfl, rfl, hjN⟩
    · have hmatch : fromIterLevels B (n + 1) s (done ++ [last]) = (do
          let (s, nodes') ← fromIterLevel B (newTemp B s).2 [] (newTemp B s).1 0 (done ++ [last])
          assertM (decide (((done ++ [last]).length + MAXCS - 1) / MAXCS = nodes'.length))
          fromIterLevels B n s nodes') := by
        cases done with
        | nil => exact absurd rfl hd
        | cons a ds =>
          cases ds with
          | nil => rfl
          | cons b ds => rfl
      obtain ⟨fr1, fr2, fr3, fr4⟩ := L.fi.fresh (Nat.le_refl _)
      have L' : LS A (j + 2) (j + 1) (newTemp B s).2 G (updAt lvl s.inn.items.length (j + 2)) [] (newTemp B s).1 (done ++ [last]) ls := by
        rw [newTemp_eq]
        have hlv : ∀ t ∈ done ++ [last], updAt lvl s.inn.items.length (j + 2) t.arena = lvl t.arena := by
          intro t ht
          apply updAt_ne
          intro e
          exact fr3 (e ▸ List.mem_map.mpr ⟨t, ht, rfl⟩)
        refine { fi := ?_, nd := ?_, ch := ?_, lv := ?_, lt := ?_, full := by simp, ord := ?_ }
        · refine (L.fi.newTemp (j := j + 2) (K' := j + 2) (by omega) (by omega) (by omega)).tops ?_
          intro x
          simp
        · show (s.inn.items.length :: (done ++ [last]).map TempNode.arena).Nodup
          rw [List.nodup_cons]
          exact ⟨fr3, L.nd⟩
        · intro t ht
          simp only [List.nil_append] at ht
          rcases List.mem_cons.mp ht with rfl | ht
          · exact fr2.symm
          · exact L.ch t ht
        · intro t ht
          simp only [List.nil_append, List.mem_singleton] at ht
          subst ht
          exact updAt_self _ _ _
        · intro t ht
          refine ⟨by rw [hlv t ht]; exact L.lv t ht, ?_⟩
          rw [← L.ch t ht]
          rcases List.mem_append.mp ht with h | h
          · intro e
            have := L.full t h
            rw [e] at this
            cases this
          · rw [List.mem_singleton] at h
            subst h
            exact hne hd
        · rw [← L.ord]
          simp only [List.nil_append, List.flatMap_cons, List.flatMap_nil, List.append_nil]
          rw [leavesG_nil fr2]
          rfl
      obtain ⟨s1, G1, lvl1, done1, last1, k1, L1, k3, k4, k4b, k5, k6, k7, k8⟩ := fromIterLevel_spec (Nat.le_refl _) _ _ _ _ _ _ 0 L' rfl (.inl (by simp))
        (by rw [newTemp_eq]; exact Nat.zero_le _)
      have hlen : 0 < done.length := List.length_pos_iff.mpr hd
      have hcnt : MAXCS * done1.length + last1.children.length = done.length + 1 := by
        rw [k4, newTemp_eq]; simp
      have hl1 : 0 < last1.children.length := List.length_pos_iff.mpr k3
      have hitems : (newTemp B s).2.inn.items.length = s.inn.items.length + 1 := by rw [newTemp_eq]; simp
      obtain ⟨s', G', lvl', t, j', q1, q2, q3, q4, q5, q6, q7, q8⟩ := ih (j + 1) s1 G1 lvl1 done1 last1 L1 (fun _ => k3)
        (by unfold MAXCS MAXC at hcnt; omega) (by omega) (by
          intro _ h
          rw [h] at hcnt
          simp at hcnt
          omega) (by
          intro _
          refine Nat.lt_of_le_of_lt ?_ (hb hd)
          rw [Nat.pow_succ MAXCS (j + 1), Nat.mul_assoc]
          exact Nat.mul_le_mul_left _ (by omega)) (by
          intro _
          refine Nat.lt_of_le_of_lt ?_ (hb hd)
          exact Nat.le_mul_of_pos_right _ hlen)
      refine ⟨s', G', lvl', t, j', ?_, q2, q3, q4, by rw [q5, k5]; rfl, by rw [q6, k6]; rfl, by rw [q7, k7]; rfl, q8⟩
      have hnum : ((done ++ [last]).length + MAXCS - 1) / MAXCS = (done1 ++ [last1]).length := by
        simp only [List.length_append, List.length_singleton]
        unfold MAXCS MAXC at *
        omega
      rw [hmatch, k1, bind_ok]
      simp only [assertM_true (decide_eq_true hnum), bind_ok]
      exact q1

/-- the final tree -/
theorem fromIter_finish {s : Tree E C} {G : Nat → List (Child C)} {lvl : Nat → Nat} {t : TempNode C} {j : Nat} (L : LS A (j + 1) j s G lvl [] t [] ls)
    (hin : j + 2 ≤ s.inn.items.length) (h2 : 1 ≤ j → 2 ≤ t.children.length) {rc : C} (hrc : t.children ≠ [] → rc = A.total (t.children.map Child.cache))
    (hre : t.children = [] → A.emptyOk rc) :
    let s1 : Tree E C := { s with rootCache := rc, inn := s.inn.remove s.root, root := t.arena }
    ∃ node s', s1.getIn t.arena = .ok node ∧ s' = s1.setIn t.arena { node with children := t.children } ∧
      InvH A 1 (j + 1) s' ∧ order s' = ls ∧ (∀ l, elm s' l = elm s l) ∧ s'.lf = s.lf := by
  intro s1
  have f := L.fi
  simp only [List.nil_append, List.map_cons, List.map_nil] at f
  obtain ⟨hl, hr⟩ := f.top t.arena (by simp)
  have hg1 : s1.inn.get t.arena = some ⟨none, SLOT_MAX, chs s t.arena⟩ := by
    show (s.inn.remove s.root).get t.arena = _
    rw [Arena.get_remove, if_neg (by simp [hr])]
    exact get_of_lnk hl
  refine ⟨_, _, getIn_ok hg1, rfl, ?_⟩
  simp only
  generalize hs' : s1.setIn t.arena ⟨none, SLOT_MAX, t.children⟩ = s'
  have hl1 : lnk s1 t.arena ≠ none := by rw [lnk_of hg1]; simp
  have hGt : t.children = G t.arena := L.ch t (by simp)
  have hlnk : ∀ y, lnk s' y = if y = s.root then none else lnk s y := by
    intro y
    rw [← hs', lnk_setIn _ hl1]
    by_cases hy : y = t.arena
    · subst hy
      rw [if_pos rfl, if_neg hr, hl]
    · rw [if_neg hy]
      simp only [lnk]
      show ((s.inn.remove s.root).get y).map _ = _
      rw [Arena.get_remove]
      by_cases hy2 : y = s.root
      · simp [hy2]
      · rw [if_neg (by simp [hy2]), if_neg hy2]
  have hroot : s'.root = t.arena := by rw [← hs']; rfl
  have hrootG : G s.root = [] := by
    rw [f.low s.root (by simp; exact fun h => hr h.symm)]
    exact chs_of f.rt
  have hchs : chs s' = G := by
    funext y
    rw [← hs', chs_setIn _ hl1]
    by_cases hy : y = t.arena
    · subst hy; rw [if_pos rfl, hGt]
    · rw [if_neg hy]
      by_cases hy2 : y = s.root
      · subst hy2
        rw [hrootG]
        simp only [chs]
        show (match (s.inn.remove s.root).get s.root with | some N => N.children | none => []) = []
        rw [Arena.get_remove, if_pos rfl]
      · rw [f.low y (by simp [hy])]
        simp only [chs]
        show (match (s.inn.remove s.root).get y with | some N => N.children | none => []) = _
        rw [Arena.get_remove, if_neg (by simp [hy2])]
        rfl
  have hlf : s'.lf = s.lf := by rw [← hs']; rfl
  have hit : s'.inn.items.length = s.inn.items.length := by rw [← hs']; simp [s1]
  have hrcc : s'.rootCache = rc := by rw [← hs']; rfl
  have helm : ∀ l, elm s' l = elm s l := fun l => by simp only [elm, hlf]
  have hlpar : ∀ l, lpar s' l = lpar s l := fun l => by simp only [lpar, hlf]
  have hnr : ∀ y, lnk s' y ≠ none → y ≠ s.root ∧ lnk s y ≠ none := by
    intro y hy
    rw [hlnk] at hy
    split at hy
    · exact absurd rfl hy
    · next h => exact ⟨h, hy⟩
  have hkid : ∀ p i c y, (G p)[i]? = some c → c.arena = .internal y → lnk s' y = some (some p, i) := by
    intro p i c y h1 h2
    obtain ⟨-, k2, -⟩ := f.kin p i c y h1 h2
    rw [hlnk, if_neg, k2]
    rintro rfl
    rw [lnk_of f.rt] at k2
    cases k2
  have w : WF s' lvl (j + 1) := by
    refine WF.of_views ?_ ?_ (by omega) (by omega) ?_ ?_ ?_ ?_ ?_ ?_
    · exact ⟨SLOT_MAX, by rw [hroot, hlnk, if_neg hr, hl]⟩
    · rw [hroot]; exact L.lv t (by simp)
    · intro p i y he
      obtain ⟨c, h1, h2⟩ := edge_chs.mp he
      rw [hchs] at h1
      exact ⟨(f.kin p i c y h1 h2).1, hkid p i c y h1 h2⟩
    · intro p i l he
      obtain ⟨c, h1, h2⟩ := edge_chs.mp he
      rw [hchs] at h1
      obtain ⟨k1, e, k2, -⟩ := f.klf p i c l h1 h2
      exact ⟨k1, by rw [hlpar, lpar_of k2]⟩
    · intro p i i' l he he'
      obtain ⟨c, h1, h2⟩ := edge_chs.mp he
      obtain ⟨c', h1', h2'⟩ := edge_chs.mp he'
      rw [hchs] at h1 h1'
      exact f.uniq p i i' c c' l h1 h1' h2 h2'
    · intro p hp
      obtain ⟨k1, k2⟩ := hnr p hp
      exact f.pos p k2 k1
    · intro y hy hyr
      obtain ⟨k1, k2⟩ := hnr y hy
      rw [hroot] at hyr
      obtain ⟨p, i, c, q1, q2⟩ := f.pin y k2 k1 (by simp [hyr])
      exact ⟨p, i, edge_chs.mpr ⟨c, by rw [hchs]; exact q1, q2⟩⟩
    · intro l hl
      rw [hlpar] at hl
      obtain ⟨p, i, c, q1, q2⟩ := f.plf l hl
      exact ⟨p, i, edge_chs.mpr ⟨c, by rw [hchs]; exact q1, q2⟩⟩
  have gd : Good A s' lvl (j + 1) := by
    refine ⟨w, ?_, ?_, ?_, ?_⟩
    · intro p c hc _
      rw [hchs] at hc
      obtain ⟨i, hi⟩ := List.mem_iff_getElem?.mp hc
      unfold EntryOK
      cases ha : c.arena with
      | leaf l =>
        intro e he
        obtain ⟨-, e', k2, k3⟩ := f.klf p i c l hi ha
        rw [helm, elm_of k2] at he
        cases he
        exact k3
      | internal y =>
        obtain ⟨-, -, k3, -⟩ := f.kin p i c y hi ha
        show c.cache = A.total ((chs s' y).map Child.cache)
        rw [hchs]; exact k3
    · intro p c hc
      rw [hchs] at hc
      exact f.okc p c hc
    · refine ⟨?_, ?_⟩
      · intro h
        rw [hroot, hchs, ← hGt] at h
        show s'.rootCache = A.total ((chs s' s'.root).map Child.cache)
        rw [hrcc, hroot, hchs, ← hGt]
        exact hrc h
      · intro h
        rw [hroot, hchs, ← hGt] at h
        rw [hrcc]
        exact hre h
    · intro l e he
      rw [helm] at he
      exact f.okE l e he
  refine ⟨⟨⟨lvl, gd⟩, ?_⟩, ?_, helm, hlf⟩
  · intro y hy _
    rw [hchs]
    have hlen := f.len y
    obtain ⟨k1, k2⟩ := hnr y hy
    refine ⟨by unfold MAXCS MAXC at hlen; omega, ?_, ?_⟩
    · intro hyr
      rw [hroot] at hyr
      obtain ⟨p, i, c, q1, q2⟩ := f.pin y k2 k1 (by simp [hyr])
      obtain ⟨-, -, -, k4⟩ := f.kin p i c y q1 q2
      exact .of (List.length_pos_iff.mpr k4)
    · intro hyr h2j
      rw [hyr, hroot, ← hGt]
      exact h2 (by omega)
  · rw [order, hroot]
    obtain ⟨N, hN⟩ := lnk_isSome.mp (show lnk s' t.arena ≠ none by rw [hlnk, if_neg hr, hl]; simp)
    have hlt := L.lv t (by simp)
    have := leavesAt_stable w s'.inn.items.length t.arena ⟨N, hN⟩ (by omega)
    rw [this, hlt, ← leavesG_chs, hchs]
    have := L.ord
    simpa using this

theorem new_LS (A : Law B) : LS A 1 0 (newTemp B (newTree B)).2 (fun _ => []) (fun _ => 1) [] (newTemp B (newTree B)).1 [] [] := by
  have hget : ∀ y, (newTemp B (newTree B)).2.inn.get y = if y = 1 then some ⟨none, SLOT_MAX, []⟩ else if y = 0 then some ⟨none, SLOT_MAX, []⟩ else none := by
    intro y
    show ((Arena.new (V := Node C)).insert ⟨none, SLOT_MAX, []⟩).2.insert ⟨none, SLOT_MAX, []⟩ |>.2.get y = _
    rw [Arena.get_insert, Arena.get_insert, Arena.get_new]
    rfl
  have hlk : ∀ y, lnk (newTemp B (newTree B)).2 y = if y = 1 then some (none, SLOT_MAX) else if y = 0 then some (none, SLOT_MAX) else none := by
    intro y
    rw [lnk, hget]
    split
    · rfl
    · split <;> rfl
  have hch : ∀ y, chs (newTemp B (newTree B)).2 y = [] := by
    intro y
    rw [chs, hget]
    by_cases h1 : y = 1
    · rw [if_pos h1]
    · rw [if_neg h1]
      by_cases h0 : y = 0
      · rw [if_pos h0]
      · rw [if_neg h0]
  have hroot : (newTemp B (newTree B)).2.root = 0 := rfl
  have harena : (newTemp B (newTree B)).1.arena = 1 := rfl
  have hlf : ∀ l, (newTemp B (newTree B)).2.lf.get l = none := fun l => Arena.get_new l
  refine { fi := ?_, nd := by simp, ch := ?_, lv := by simp, lt := by simp, full := by simp, ord := by simp [leavesG] }
  · refine { top := ?_, low := ?_, rt := ?_, kin := ?_, klf := ?_, uniq := ?_, pin := ?_, plf := ?_, pos := ?_, len := by simp, okc := by simp, okE := ?_ }
    · intro t ht
      simp only [List.nil_append, List.map_cons, List.map_nil, List.mem_singleton] at ht
      rw [ht, harena, hlk, hroot]
      exact ⟨if_pos rfl, by decide⟩
    · intro x _; exact (hch x).symm
    · rw [hroot, hget]; rfl
    · intro p i c y h; simp at h
    · intro p i c l h; simp at h
    · intro p i j c d l h; simp at h
    · intro y h1 h2 h3
      rw [hroot] at h2
      simp only [List.nil_append, List.map_cons, List.map_nil, List.mem_singleton, harena] at h3
      rw [hlk, if_neg h3, if_neg h2] at h1
      exact absurd rfl h1
    · intro l h
      rw [lpar, hlf] at h
      exact absurd rfl h
    · intro y _ _; exact ⟨Nat.le_refl _, Nat.le_refl _⟩
    · intro l e h
      rw [elm, hlf] at h
      cases h
  · intro t ht
    simp only [List.nil_append, List.mem_singleton] at ht
    subst ht
    rfl

theorem fromIter_spec (A : Law B) (data : List E) (hok : ∀ e ∈ data, A.okE e) :
    ∃ s h, fromIter B data = .ok s ∧ InvH A 1 h s ∧ s.lf.items.length = data.length ∧ entries s = (List.range data.length).zip data ∧
      (2 ≤ h → MAXCS ^ (h - 1) < data.length) := by
  obtain ⟨s1, G1, lvl1, done1, last1, k1, L1, k3, k4, k5, k6, k7, k8, k9⟩ := fromIterLeaves_spec data _ _ _ _ _ [] (new_LS A) hok rfl (fun i => by
    rw [elm, show (newTemp B (newTree B)).2.lf.get i = none from Arena.get_new i]; rfl) (by simp)
  have hin : 2 ≤ s1.inn.items.length := k8
  obtain ⟨s2, G2, lvl2, t, j, q1, L2, q3, q4, q5, q6, q7, q8⟩ := fromIterLevels_spec data.length ((done1 ++ [last1]).length + 1) 0 s1 G1 lvl1 done1 last1 L1 k5 (by simp) hin (by omega) (by
    intro hd
    have h1 := List.length_pos_iff.mpr (k5 hd)
    have : MAXCS * done1.length + last1.children.length = data.length := by rw [k9]; simp [newTemp_eq]
    rw [Nat.pow_one]
    omega) (by omega)
  have hGt : t.children = G2 t.arena := L2.ch t (by simp)
  obtain ⟨rc, d, r1, r2, r3⟩ : ∃ rc d, B.calcC s2.rootCache (t.children.map Child.cache) = .ok (rc, d) ∧ (t.children ≠ [] → rc = A.total (t.children.map Child.cache)) ∧
      (t.children = [] → A.emptyOk rc) := by
    by_cases h : t.children = []
    · obtain ⟨c, d, h1, h2⟩ := A.calc_empty s2.rootCache
      exact ⟨c, d, by rw [h]; exact h1, fun h' => absurd h h', fun _ => h2⟩
    · obtain ⟨d, h1, -⟩ := A.calc_ok s2.rootCache (t.children.map Child.cache) (by simpa using h) (by
        intro c hc
        obtain ⟨x, hx, rfl⟩ := List.mem_map.mp hc
        rw [hGt] at hx
        exact L2.fi.okc _ _ hx)
      exact ⟨_, d, h1, fun _ => rfl, fun h' => absurd h' h⟩
  obtain ⟨node, s', u1, u2, u3, u4, u5, u6⟩ := fromIter_finish L2 q3 q4 r2 r3
  have hlen : s'.lf.items.length = data.length := by rw [u6, q5, k3]; rfl
  refine ⟨s', j + 1, ?_, u3, hlen, ?_, fun h => q8 (by omega)⟩
  · rw [fromIter]
    simp only []
    rw [k1, bind_ok]
    simp only []
    rw [q1, bind_ok]
    simp only []
    rw [r1, bind_ok]
    simp only []
    rw [u1, bind_ok, u2]
    rfl
  · rw [entries, u4, entriesOf, k3]
    have hel : ∀ l, elm s' l = data[l]? := by
      intro l
      rw [u5, show elm s2 l = elm s1 l from by simp only [elm, q5], k4]; rfl
    simp only [hel, List.nil_append]
    have key : ∀ (data pre : List E), (List.range' pre.length data.length).filterMap (fun l => ((pre ++ data)[l]?).map fun e => (l, e)) =
        (List.range' pre.length data.length).zip data := by
      intro data
      induction data with
      | nil => intro pre; rfl
      | cons a as ih =>
        intro pre
        have := ih (pre ++ [a])
        simp only [List.length_append, List.length_cons, List.length_nil, List.append_assoc, List.cons_append, List.nil_append] at this
        rw [List.length_cons, List.range'_succ, List.filterMap_cons, List.zip_cons_cons, this]
        simp
    have := key data []
    simpa [List.range_eq_range'] using this

end
end GB
