import Verif.Proof.Content
import Verif.Spec.Many

/-!
# `merge_adj`
-/

namespace GB
variable {E C D X : Type}

/-- greedy merging of adjacent pairs from the left: what `merge_adj` is meant to compute (an element that has just
been merged is not compared with its right neighbour) -/
def greedy (B : Trait E C D) : List E → M (List E)
  | [] => .ok []
  | [a] => .ok [a]
  | a :: b :: l =>
    if B.canMerge a b then do
      let c ← B.mergeRight a b
      let r ← greedy B l
      pure (c :: r)
    else do
      let r ← greedy B (b :: l)
      pure (a :: r)

/-- move the head of a list to its end -/
def rot {α : Type} : List α → List α
  | [] => []
  | x :: l => l ++ [x]

theorem rot_perm {α : Type} (l : List α) : (rot l).Perm l := by
  cases l with
  | nil => exact .nil
  | cons x l => exact List.perm_append_comm (l₁ := l) (l₂ := [x])

/-- what the loop of `merge_adj` computes: from the second merge on, the elements behind the first merge are rotated -/
def adjSpec (B : Trait E C D) : Bool → List E → List E → List E → M (List E)
  | _, P, R, [] => .ok (P ++ R)
  | _, P, R, [a] => .ok (P ++ R ++ [a])
  | first, P, R, a :: b :: T =>
    if B.canMerge a b then do
      let c ← B.mergeRight a b
      if first then adjSpec B false (P ++ [c]) [] T
      else adjSpec B false P (rot (R ++ [c])) T
    else if first then adjSpec B true (P ++ [a]) R (b :: T)
    else adjSpec B false P (R ++ [a]) (b :: T)

theorem vget_mid {α : Type} {X Y : List α} {a : α} {i : Nat} (hi : i = X.length) : vget (X ++ a :: Y) i = .ok a := by
  subst hi
  simp [vget, unwrap]

/-- the part of `merge_adj` behind the loop -/
def adjFinish (r : List E × Nat × Nat) : M (List E) :=
  if 0 < r.2.2 then delRange r.1 r.2.1 (r.2.1 + r.2.2) else pure r.1

theorem set_mid {α : Type} {X Y : List α} {a b : α} {i : Nat} (hi : i = X.length) : (X ++ a :: Y).set i b = X ++ b :: Y := by
  subst hi
  simp

theorem vswap_mid {α : Type} {X Y T : List α} {x b : α} {i j : Nat} (hi : i = X.length + 1 + Y.length) (hj : j = X.length) :
    vswap (X ++ x :: Y ++ b :: T) i j = .ok (X ++ b :: Y ++ x :: T) := by
  have e1 : vget (X ++ x :: Y ++ b :: T) i = .ok b := vget_mid (by simp; omega)
  have e2 : vget (X ++ x :: Y ++ b :: T) j = .ok x := by
    rw [List.append_assoc, List.cons_append]
    exact vget_mid hj
  simp only [vswap, e1, e2, bind_ok, pure_ok, Except.ok.injEq]
  rw [set_mid (by simp; omega), List.append_assoc, List.cons_append, set_mid hj]
  simp

theorem vswap_self {α : Type} {X T : List α} {b : α} {i j : Nat} (hi : i = X.length) (hj : j = X.length) :
    vswap (X ++ b :: T) i j = .ok (X ++ b :: T) := by
  simp only [vswap, vget_mid hi, vget_mid hj, bind_ok, pure_ok, Except.ok.injEq]
  rw [set_mid hi, set_mid hj]

theorem adjFinish_spec {P G R : List E} {start : Nat} (h3 : G ≠ [] → start = P.length) :
    adjFinish (P ++ G ++ R, start, G.length) = .ok (P ++ R) := by
  simp only [adjFinish]
  split
  · next h =>
    have hG : G ≠ [] := by intro e; rw [e] at h; simp at h
    rw [delRange, if_neg (by omega), if_pos ⟨by omega, by rw [h3 hG]; simp⟩, h3 hG]
    have e1 : (P ++ G ++ R).take P.length = P := by rw [List.append_assoc]; simp
    have e2 : (P ++ G ++ R).drop (P.length + G.length) = R := by
      rw [← List.length_append]; simp
    rw [e1, e2]
  · next h =>
    have : G = [] := List.length_eq_zero_iff.mp (by omega)
    subst this
    simp [pure_ok]

theorem mergeAdjF_spec (B : Trait E C D) (last : Nat) : ∀ (n : Nat) (P G R T : List E) (start : Nat),
    T.length < n → last + 1 = P.length + G.length + R.length + T.length → (G ≠ [] → start = P.length) → (G = [] → R = []) →
    (do let r ← mergeAdjF B last n (P ++ G ++ R ++ T) (P.length + G.length + R.length) start G.length; adjFinish r : M _) =
      adjSpec B (decide (G = [])) P R T := by
  intro n
  induction n with
  | zero => intro P G R T start h1; omega
  | succ n ih =>
    intro P G R T start h1 h2 h3 h4
    match T, h1, h2 with
    | [], h1, h2 =>
      simp only [List.length_nil] at h2
      rw [mergeAdjF, if_neg (by omega)]
      simp only [bind_ok, adjSpec, List.append_nil]
      exact adjFinish_spec h3
    | [a], h1, h2 =>
      simp only [List.length_singleton] at h2
      rw [mergeAdjF, if_neg (by omega)]
      simp only [bind_ok, adjSpec]
      rw [List.append_assoc (P ++ G), adjFinish_spec h3]
      simp
    | a :: b :: T, h1, h2 =>
      simp only [List.length_cons] at h1 h2
      have g1 : vget (P ++ G ++ R ++ a :: b :: T) (P.length + G.length + R.length) = .ok a := vget_mid (by simp; omega)
      have g2 : vget (P ++ G ++ R ++ a :: b :: T) (P.length + G.length + R.length + 1) = .ok b := by
        rw [show P ++ G ++ R ++ a :: b :: T = (P ++ G ++ R ++ [a]) ++ b :: T by simp]
        exact vget_mid (by simp; omega)
      rw [mergeAdjF, if_pos (by omega)]
      simp only [g1, g2, bind_ok, adjSpec]
      by_cases hc : B.canMerge a b = true
      · simp only [hc, if_true]
        cases hmr : B.mergeRight a b with
        | error e => rfl
        | ok c =>
          simp only [bind_ok]
          rw [set_mid (by simp; omega)]
          by_cases hG : G = []
          · subst hG
            have := h4 rfl
            subst this
            simp only [List.append_nil, List.length_nil, Nat.add_zero, if_true, decide_true]
            rw [show P ++ c :: b :: T = (P ++ [c]) ++ b :: T by simp, vswap_self (by simp) (by simp)]
            simp only [bind_ok]
            have := ih (P ++ [c]) [b] [] T (P.length + 1) (by omega) (by simp only [List.length_append, List.length_singleton, List.length_nil] at h2 ⊢; omega) (by simp) (by simp)
            simp only [List.append_nil, List.length_append, List.length_singleton, List.length_nil, Nat.add_zero] at this
            rw [show (P ++ [c]) ++ b :: T = P ++ [c] ++ [b] ++ T by simp]
            rw [show P.length + 2 = P.length + 1 + 1 by omega]
            rw [this]
            rfl
          · have hpos : 0 < G.length := List.length_pos_iff.mpr hG
            rw [if_neg (by omega)]
            obtain ⟨x, R1, hx⟩ : ∃ x R1, R ++ [c] = x :: R1 := by
              cases R with
              | nil => exact ⟨c, [], rfl⟩
              | cons y R => exact ⟨y, R ++ [c], rfl⟩
            have hl : R.length + 1 = R1.length + 1 := by
              have := congrArg List.length hx
              simpa using this
            rw [show P ++ G ++ R ++ c :: b :: T = (P ++ G) ++ x :: R1 ++ b :: T by
              rw [← hx]; simp]
            rw [vswap_mid (by simp; omega) (by rw [h3 hG]; simp)]
            simp only [bind_ok]
            have := ih P (G ++ [b]) (R1 ++ [x]) T start (by omega) (by simp; omega) (fun _ => h3 hG) (by simp)
            rw [show P ++ G ++ b :: R1 ++ x :: T = P ++ (G ++ [b]) ++ (R1 ++ [x]) ++ T by simp]
            simp only [List.length_append, List.length_singleton] at this
            rw [show P.length + G.length + R.length + 2 = P.length + (G.length + 1) + (R1.length + 1) by omega]
            rw [this, hx]
            simp [rot, hG]
      · simp only [hc]
        rw [if_neg (by decide), if_neg (by decide)]
        by_cases hG : G = []
        · subst hG
          have := h4 rfl
          subst this
          have := ih (P ++ [a]) [] [] (b :: T) start (by simp; omega) (by simp only [List.length_append, List.length_singleton, List.length_nil, List.length_cons] at h2 ⊢; omega) (by simp) (by simp)
          simp only [List.append_nil, List.length_append, List.length_singleton, List.length_nil, Nat.add_zero] at this ⊢
          rw [show P ++ a :: b :: T = P ++ [a] ++ b :: T by simp, this]
          rfl
        · have := ih P G (R ++ [a]) (b :: T) start (by simp; omega) (by simp; omega) h3 (fun h => absurd h hG)
          simp only [List.length_append, List.length_singleton] at this
          rw [show P ++ G ++ R ++ a :: b :: T = P ++ G ++ (R ++ [a]) ++ b :: T by simp,
            show P.length + G.length + R.length + 1 = P.length + G.length + (R.length + 1) by omega, this]
          simp [hG]

/-- `merge_adj` in closed form -/
theorem mergeAdj_eq (B : Trait E C D) {data : List E} (h : data ≠ []) : mergeAdj B data = adjSpec B true [] [] data := by
  have hp := List.length_pos_iff.mpr h
  have := mergeAdjF_spec B (data.length - 1) (data.length + 1) [] [] [] data 0 (by omega) (by simp; omega) (by simp) (by simp)
  simp only [List.nil_append, List.length_nil, Nat.add_zero, decide_true] at this
  rw [← this]
  simp only [mergeAdj, hp, assertM_triv, bind_ok]
  rfl

/-- Compared with greedy merging the result is only permuted. -/
theorem adjSpec_perm (B : Trait E C D) : ∀ (n : Nat) (first : Bool) (P R T : List E), T.length ≤ n → (first = true → R = []) →
    (∀ r, adjSpec B first P R T = .ok r → ∃ t, greedy B T = .ok t ∧ r.Perm (P ++ R ++ t)) ∧
    (∀ t, greedy B T = .ok t → ∃ r, adjSpec B first P R T = .ok r ∧ r.Perm (P ++ R ++ t)) := by
  intro n
  induction n with
  | zero =>
    intro first P R T h hf
    have : T = [] := List.length_eq_zero_iff.mp (by omega)
    subst this
    simp only [adjSpec, greedy, Except.ok.injEq]
    constructor <;> rintro r rfl <;> exact ⟨_, rfl, by simp⟩
  | succ n ih =>
    intro first P R T h hf
    match T, h with
    | [], _ =>
      simp only [adjSpec, greedy, Except.ok.injEq]
      constructor <;> rintro r rfl <;> exact ⟨_, rfl, by simp⟩
    | [a], _ =>
      simp only [adjSpec, greedy, Except.ok.injEq]
      constructor <;> rintro r rfl <;> exact ⟨_, rfl, by simp⟩
    | a :: b :: T, h =>
      simp only [List.length_cons] at h
      simp only [adjSpec, greedy]
      by_cases hc : B.canMerge a b = true
      · simp only [hc, if_true]
        cases hmr : B.mergeRight a b with
        | error e => constructor <;> intro r hr <;> cases hr
        | ok c =>
          simp only [bind_ok]
          have key : ∀ (P' R' : List E), (P' ++ R').Perm (P ++ R ++ [c]) →
              (∀ r, adjSpec B false P' R' T = .ok r → ∃ t, (do let r ← greedy B T; pure (c :: r) : M _) = .ok t ∧ r.Perm (P ++ R ++ t)) ∧
              (∀ t, (do let r ← greedy B T; pure (c :: r) : M _) = .ok t → ∃ r, adjSpec B false P' R' T = .ok r ∧ r.Perm (P ++ R ++ t)) := by
            intro P' R' hp
            obtain ⟨i1, i2⟩ := ih false P' R' T (by omega) (by simp)
            constructor
            · intro r hr
              obtain ⟨t, h1, h2⟩ := i1 r hr
              refine ⟨c :: t, by simp only [h1, bind_ok, pure_ok], h2.trans ?_⟩
              have := hp.append_right t
              simpa using this
            · intro t ht
              obtain ⟨t', h1, h2⟩ := bind_inv ht
              cases h2
              obtain ⟨r, h3, h4⟩ := i2 t' h1
              refine ⟨r, h3, h4.trans ?_⟩
              have := hp.append_right t'
              simpa using this
          cases first with
          | true =>
            simp only [if_true]
            apply key
            rw [hf rfl, List.append_nil, List.append_nil]
          | false =>
            simp only [Bool.false_eq_true, if_false]
            apply key
            rw [List.append_assoc]
            exact (rot_perm _).append_left P
      · simp only [hc, Bool.false_eq_true, if_false]
        have key : ∀ (first' : Bool) (P' R' : List E), P' ++ R' = P ++ R ++ [a] → (first' = true → R' = []) →
            (∀ r, adjSpec B first' P' R' (b :: T) = .ok r → ∃ t, (do let r ← greedy B (b :: T); pure (a :: r) : M _) = .ok t ∧ r.Perm (P ++ R ++ t)) ∧
            (∀ t, (do let r ← greedy B (b :: T); pure (a :: r) : M _) = .ok t → ∃ r, adjSpec B first' P' R' (b :: T) = .ok r ∧ r.Perm (P ++ R ++ t)) := by
          intro first' P' R' hp hf'
          obtain ⟨i1, i2⟩ := ih first' P' R' (b :: T) (by simp only [List.length_cons]; omega) hf'
          rw [hp] at i1 i2
          constructor
          · intro r hr
            obtain ⟨t, h1, h2⟩ := i1 r hr
            exact ⟨a :: t, by simp only [h1, bind_ok, pure_ok], by simpa using h2⟩
          · intro t ht
            obtain ⟨t', h1, h2⟩ := bind_inv ht
            cases h2
            obtain ⟨r, h3, h4⟩ := i2 t' h1
            exact ⟨r, h3, by simpa using h4⟩
        cases first with
        | true =>
          simp only [if_true]
          exact key true _ _ (by rw [hf rfl]; simp) (fun _ => hf rfl)
        | false =>
          exact key false _ _ (by simp) (by simp)

/-- without mergeable neighbours nothing happens -/
theorem adjSpec_id (B : Trait E C D) : ∀ (T : List E) (first : Bool) (P R : List E), (first = true → R = []) →
    (∀ U a b V, T = U ++ a :: b :: V → B.canMerge a b = false) → adjSpec B first P R T = .ok (P ++ R ++ T) := by
  intro T
  induction T with
  | nil => intro first P R hf h; simp [adjSpec]
  | cons a T ih =>
    intro first P R hf h
    cases T with
    | nil => simp [adjSpec]
    | cons b T =>
      have hab := h [] a b T rfl
      have h' : ∀ U x y V, b :: T = U ++ x :: y :: V → B.canMerge x y = false :=
        fun U x y V e => h (a :: U) x y V (by rw [e]; rfl)
      simp only [adjSpec, hab, Bool.false_eq_true, if_false]
      cases first with
      | true =>
        simp only [if_true]
        rw [ih true _ _ hf h', hf rfl]
        simp
      | false =>
        rw [if_neg (by simp), ih false _ _ (by simp) h']
        simp

/-- a single mergeable pair (further pairs next to the merged element are not looked at) -/
theorem adjSpec_one (B : Trait E C D) {a b c : E} {V : List E} (hc : B.canMerge a b = true) (hm : B.mergeRight a b = .ok c)
    (hV : ∀ U x y W, V = U ++ x :: y :: W → B.canMerge x y = false) : ∀ (U P : List E),
    (∀ X x y Y, U ++ [a] = X ++ x :: y :: Y → B.canMerge x y = false) → adjSpec B true P [] (U ++ a :: b :: V) = .ok (P ++ U ++ c :: V) := by
  intro U
  induction U with
  | nil =>
    intro P _
    simp only [List.nil_append, adjSpec, hc, if_true, hm, bind_ok]
    rw [adjSpec_id B V false _ _ (by simp) hV]
    simp
  | cons u U ih =>
    intro P h
    have h' : ∀ X x y Y, U ++ [a] = X ++ x :: y :: Y → B.canMerge x y = false :=
      fun X x y Y e => h (u :: X) x y Y (by rw [List.cons_append, e]; rfl)
    have := ih (P ++ [u]) h'
    cases U with
    | nil =>
      have hu := h [] u a [] rfl
      simp only [List.cons_append, List.nil_append, adjSpec, hu, Bool.false_eq_true, if_false, if_true]
      simpa [adjSpec] using this
    | cons w U =>
      have hu := h [] u w (U ++ [a]) rfl
      simp only [List.cons_append, adjSpec, hu, Bool.false_eq_true, if_false, if_true]
      simpa using this

/-- the pre-merge always succeeds and yields well-formed elements -/
theorem greedy_ok {B : Trait E C D} (A : Law B) : ∀ (n : Nat) (data : List E), data.length ≤ n → (∀ d ∈ data, A.okE d) → ∃ t, greedy B data = .ok t ∧ ∀ d ∈ t, A.okE d := by
  intro n
  induction n with
  | zero =>
    intro data hl _
    cases data with
    | nil => exact ⟨[], by simp [greedy], by simp⟩
    | cons => simp at hl
  | succ n ih =>
    intro data hl hok
    match data, hl, hok with
    | [], _, _ => exact ⟨[], by simp [greedy], by simp⟩
    | [a], _, hok => exact ⟨[a], by simp [greedy], hok⟩
    | a :: b :: l, hl, hok =>
      simp only [List.length_cons] at hl
      by_cases hc : B.canMerge a b = true
      · obtain ⟨c, h1, h2, -⟩ := A.merge_right a b (hok a (by simp)) (hok b (by simp)) hc
        obtain ⟨t, h3, h4⟩ := ih l (by omega) (fun d hd => hok d (by simp [hd]))
        refine ⟨c :: t, by simp only [greedy, hc, if_true, h1, bind_ok, h3, pure_ok], ?_⟩
        intro d hd
        rcases List.mem_cons.mp hd with rfl | hd
        · exact h2
        · exact h4 d hd
      · obtain ⟨t, h3, h4⟩ := ih (b :: l) (by simp only [List.length_cons]; omega) (fun d hd => hok d (by simp only [List.mem_cons] at hd ⊢; exact .inr hd))
        refine ⟨a :: t, by simp only [greedy, hc, h3, bind_ok, pure_ok]; rfl, ?_⟩
        intro d hd
        rcases List.mem_cons.mp hd with rfl | hd
        · exact hok d (by simp)
        · exact h4 d hd

theorem mergeAdj_ok {B : Trait E C D} (A : Law B) {data : List E} (hne : data ≠ []) (hok : ∀ d ∈ data, A.okE d) : ∃ data', mergeAdj B data = .ok data' ∧ ∀ d ∈ data', A.okE d := by
  obtain ⟨t, h1, h2⟩ := greedy_ok A data.length data (Nat.le_refl _) hok
  obtain ⟨r, h3, h4⟩ := (adjSpec_perm B data.length true [] [] data (Nat.le_refl _) (fun _ => rfl)).2 t h1
  refine ⟨r, by rw [mergeAdj_eq B hne, h3], fun d hd => h2 d ?_⟩
  have := h4.mem_iff.mp hd
  simpa using this

/-- greedy merging keeps the content -/
theorem greedy_content {B : Trait E C D} {okE : E → Prop} {cont : E → List X} (L : ContentLaw B okE cont) :
    ∀ (n : Nat) (data t : List E), data.length ≤ n → (∀ d ∈ data, okE d) → greedy B data = .ok t → t.flatMap cont = data.flatMap cont := by
  intro n
  induction n with
  | zero =>
    intro data t hl _ h
    cases data with
    | nil => simp [greedy] at h; subst h; rfl
    | cons => simp at hl
  | succ n ih =>
    intro data t hl hok h
    match data, hl, hok with
    | [], _, _ => simp [greedy] at h; subst h; rfl
    | [a], _, _ => simp [greedy] at h; subst h; rfl
    | a :: b :: l, hl, hok =>
      simp only [List.length_cons] at hl
      simp only [greedy] at h
      split at h
      · next hc =>
        obtain ⟨c, h1, h⟩ := bind_inv h
        obtain ⟨r, h2, h⟩ := bind_inv h
        cases h
        have h3 := ih l r (by omega) (fun d hd => hok d (by simp [hd])) h2
        have h4 := L.merge_right a b c (hok a (by simp)) (hok b (by simp)) hc h1
        simp [h3, h4]
      · obtain ⟨r, h2, h⟩ := bind_inv h
        cases h
        have h3 := ih (b :: l) r (by simp only [List.length_cons]; omega) (fun d hd => hok d (by simp only [List.mem_cons] at hd ⊢; exact .inr hd)) h2
        simp [h3]

/-- the order in which the elements are left, exactly -/
theorem adjSpec_scramble (B : Trait E C D) : ∀ (n : Nat) (T : List E) (t : List (Bool × E)), T.length ≤ n → pairs B T = .ok t →
    (∀ P, adjSpec B true P [] T = .ok (P ++ scramble t)) ∧ ∀ P R, adjSpec B false P R T = .ok (P ++ t.foldl scrambleStep R) := by
  intro n
  induction n with
  | zero =>
    intro T t hl h
    cases T with
    | nil => simp [pairs] at h; subst h; simp [adjSpec, scramble]
    | cons => simp at hl
  | succ n ih =>
    intro T t hl h
    match T, hl with
    | [], _ => simp [pairs] at h; subst h; simp [adjSpec, scramble]
    | [a], _ => simp [pairs] at h; subst h; simp [adjSpec, scramble, scrambleStep]
    | a :: b :: l, hl =>
      simp only [List.length_cons] at hl
      simp only [pairs] at h
      split at h
      · next hc =>
        obtain ⟨c, h1, h⟩ := bind_inv h
        obtain ⟨r, h2, h⟩ := bind_inv h
        cases h
        obtain ⟨-, i2⟩ := ih l r (by omega) h2
        refine ⟨fun P => ?_, fun P R => ?_⟩
        · simp only [adjSpec, hc, if_true, h1, bind_ok, i2, scramble]
          simp
        · simp only [adjSpec, hc, if_true, h1, bind_ok, Bool.false_eq_true, if_false, i2, List.foldl_cons]
          congr 3
          cases R <;> rfl
      · next hc =>
        obtain ⟨r, h2, h⟩ := bind_inv h
        cases h
        obtain ⟨i1, i2⟩ := ih (b :: l) r (by simp only [List.length_cons]; omega) h2
        refine ⟨fun P => ?_, fun P R => ?_⟩
        · simp only [adjSpec, hc, Bool.false_eq_true, if_false, if_true, i1, scramble]
          simp
        · simp only [adjSpec, hc, Bool.false_eq_true, if_false, i2, List.foldl_cons]
          rfl

theorem mergeIntoLeft_absorbs {B : Trait E C D} : ∀ {data rest : List E} {y y' : E}, mergeIntoLeft B y data = .ok (y', rest) →
    ∃ took, data = took ++ rest ∧ Absorbs B y took rest := by
  intro data
  induction data with
  | nil =>
    intro rest y y' h
    cases h
    exact ⟨[], rfl, .stop (by intro d ds h; cases h)⟩
  | cons d data ih =>
    intro rest y y' h
    simp only [mergeIntoLeft] at h
    split at h
    · next hc =>
      obtain ⟨z, h1, h⟩ := bind_inv h
      obtain ⟨took, h2, h3⟩ := ih h
      exact ⟨d :: took, by rw [h2]; rfl, .step hc h1 h3⟩
    · next hc =>
      cases h
      exact ⟨[], rfl, .stop (by intro x xs hx; cases hx; simpa using hc)⟩

end GB
