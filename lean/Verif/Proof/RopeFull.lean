import Verif.Proof.RopeHist
import Verif.Proof.PathCap
import Verif.Proof.SpinePush

/-!
# A rope filled with so much text that paths overflow
-/

namespace GB
open Tree

theorem pushAll_eq : ∀ (gs : List GapBuf) (s : Tree GapBuf Int), Rope.pushAll s gs = pushList ropeTrait s gs := by
  intro gs
  induction gs with
  | nil => intro s; rfl
  | cons g gs ih =>
    intro s
    simp only [Rope.pushAll, pushList, ih]

/-- chunks are at most `cap` bytes long -/
theorem unitLen_le {cap : Nat} : ∀ es : List (Nat × GapBuf), (∀ x ∈ es, x.2.WF ∧ x.2.capacity = cap) →
    unitLen ropeTrait es ≤ cap * es.length := by
  intro es
  induction es with
  | nil => intro _; simp
  | cons x es ih =>
    intro hes
    have h1 := ih (fun y hy => hes y (by simp [hy]))
    have h2 := hes x (by simp)
    have h3 : x.2.len ≤ cap := by
      rw [← h2.2]
      simp only [GapBuf.len, GapBuf.capacity]
      omega
    have h4 : unitLen ropeTrait (x :: es) = x.2.len + unitLen ropeTrait es := rfl
    rw [h4, List.length_cons, Nat.mul_succ]
    omega

/-- a new rope after inserting that much text has ten levels -/
theorem ropeFill {cap : Nat} (hcap : 0 < cap) (bytes : List UInt8) (hlen : cap * 20155392 ≤ bytes.length) :
    ∃ t h, Rope.insert cap Rope.new 0 bytes = .ok ⟨t, none⟩ ∧ RopeInv cap 5 ⟨t, none⟩ ∧ (⟨t, none⟩ : Rope).text = bytes ∧
      InvH (ropeLaw cap) 6 h t ∧ 10 ≤ h ∧ 20155392 ≤ (abs t).es.length := by
  have ri0 := ropeNew_inv (cap := cap) (m := 5) (by decide)
  have h0 : Rope.new.text = [] := (ropeNew_inv (cap := cap) (m := 1) (by decide)).nil.mpr (by
    rw [show Rope.new.tree = newTree ropeTrait from rfl, new_entries])
  obtain ⟨r', e1, ri, ht⟩ := ropeInsert_spec hcap (m := 5) (by decide) ri0 (index := 0) (by omega) bytes
  rw [h0] at ht
  have ht : r'.text = bytes := by rw [ht]; simp [splice]
  have e2 := e1
  unfold Rope.insert at e2
  rw [if_neg (by omega)] at e2
  rw [ri0.isEmpty (by decide), h0] at e2
  simp only [decide_true, if_true] at e2
  obtain ⟨gs, k3, k4, k5, -⟩ := GapBuf.fromStrF_spec cap hcap _ bytes (Nat.lt_succ_self _)
  simp only [show GapBuf.fromStr cap bytes = _ from k3, bind_ok] at e2
  obtain ⟨t, e3, e4⟩ := bind_inv e2
  cases e4
  rw [pushAll_eq] at e3
  obtain ⟨s, q1, ⟨h, hi⟩, pk⟩ := pushList_packed (A := ropeLaw cap) (m := 6) (by decide) (by decide) gs (newTree ropeTrait)
    ⟨1, new_inv _ 6⟩ (new_packed _) (fun e he => ⟨(k5 e he).1, (k5 e he).2.1⟩)
  rw [show Rope.new.tree = newTree ropeTrait from rfl, q1] at e3
  have hst : s = t := Except.ok.inj e3
  clear e3
  subst hst
  have hcount : 20155392 ≤ (abs s).es.length := by
    have h1 := ri.text_length
    rw [ht] at h1
    have h2 := unitLen_le _ ri.okE
    have h3 : cap * 20155392 ≤ cap * (abs s).es.length := by
      have : unitLen ropeTrait (abs s).es ≤ cap * (abs s).es.length := h2
      have : bytes.length = unitLen ropeTrait (abs s).es := h1
      omega
    exact Nat.le_of_mul_le_mul_left h3 hcap
  refine ⟨s, h, e1, ri, ht, hi, ?_, hcount⟩
  obtain ⟨lvl, g⟩ := hi.ex
  apply Nat.le_of_not_lt
  intro h9
  have hb := packed_length (m := 6) (by decide) g.wf hi.sz pk
  have hpow : 6 ^ h ≤ 6 ^ 9 := Nat.pow_le_pow_right (by omega) (by omega)
  have : 20155392 ≤ (entries s).length := hcount
  omega

/-- reading a rope of ten levels -/
theorem ropeBytes_full {cap h : Nat} {m : Fill} {t : Tree GapBuf Int} {c : Option RopeCursor} (hm : 1 ≤ m.lo) (hi : InvH (ropeLaw cap) m h t) (hh : 10 ≤ h)
    (hne : (abs t).es ≠ []) : (⟨t, c⟩ : Rope).toBytes = .error .panic := by
  have hn : order t ≠ [] := fun h => hne ((abs_nil hi).mpr h)
  have ne := hi.ne hm
  obtain ⟨lvl, g⟩ := hi.ex
  rw [Rope.toBytes, Rope.iter, firstPath_full g.wf ne hh hn]
  rfl

/-- deleting all of the text of a rope of ten levels -/
theorem ropeDelete_full {cap h : Nat} {t : Tree GapBuf Int} (ri : RopeInv cap 5 ⟨t, none⟩) (hi : InvH (ropeLaw cap) 6 h t)
    (hh : 10 ≤ h) (hne : 2 ≤ (abs t).es.length) {n : Nat} (hn : n = (⟨t, none⟩ : Rope).text.length) :
    (⟨t, none⟩ : Rope).deleteRange 0 n = .error .panic := by
  subst hn
  have hlen := ri.text_length
  have hes0 : (abs t).es ≠ [] := by intro h; rw [h] at hne; simp at hne
  have hpos2 : 2 ≤ unitLen ropeTrait (abs t).es := by
    have hpos := ri.pos
    revert hpos hne
    show 2 ≤ (abs t).es.length → (∀ x ∈ (abs t).es, 0 < x.2.len) → _
    match (abs t).es with
    | [] => intro h; simp at h
    | [_] => intro h; simp at h
    | x :: y :: es =>
      intro _ hp
      have h1 := hp x (by simp)
      have h2 := hp y (by simp)
      have : unitLen ropeTrait (x :: y :: es) = x.2.len + (y.2.len + unitLen ropeTrait es) := rfl
      omega
  have hlen : (⟨t, none⟩ : Rope).text.length = unitLen ropeTrait (abs t).es := hlen
  have hte : (⟨t, none⟩ : Rope).text ≠ [] := by intro h; rw [h] at hlen; simp at hlen; omega
  unfold Rope.deleteRange
  rw [ri.isEmpty (by decide)]
  simp only [hte, decide_false, Bool.false_eq_true, if_false, ri.len (by decide), Nat.min_self, Nat.zero_min]
  rw [if_neg (by omega)]
  simp only [Rope.deleteFast, bind_ok, Nat.sub_zero]
  rw [if_neg (by omega)]
  obtain ⟨Ua, la, ea, Va, oa, a1, a2, a3, a4, a5, a6⟩ := C09_query_len (ropeLenLaw cap) (by decide) ri.inv hes0 0
  obtain ⟨Ub, lb, eb, Vb, ob, b1, b2, b3, b4, b5, b6⟩ := C09_query_len (ropeLenLaw cap) (by decide) ri.inv hes0 (⟨t, none⟩ : Rope).text.length
  rw [show query ropeQuery (⟨t, none⟩ : Rope).tree 0 = _ from a2,
    show query ropeQuery (⟨t, none⟩ : Rope).tree (⟨t, none⟩ : Rope).text.length = _ from b2]
  simp only [bind_ok]
  have hoa : oa = 0 := by omega
  have hUa : Ua = [] := by
    cases Ua with
    | nil => rfl
    | cons x Ua =>
      exfalso
      have h1 := ri.pos x (by rw [show (abs (⟨t, none⟩ : Rope).tree).es = _ from a1]; simp)
      have : unitLen ropeTrait (x :: Ua) = x.2.len + unitLen ropeTrait Ua := rfl
      omega
  subst hUa
  have hVb : Vb = [] := b5 (by omega)
  subst hVb
  have hob : ob = eb.len := b6 (by omega)
  have hab : la ≠ lb := by
    intro e
    subst e
    have q1 := locate_split ri.inv.nodup a1
    have q2 := locate_split ri.inv.nodup b1
    rw [q1] at q2
    cases q2
    rw [show (abs t).es = _ from a1] at hne
    simp at hne
  rw [if_neg hab]
  obtain ⟨lvl, g⟩ := hi.ex
  have hela : elm t la = some ea := (entries_mem g.wf).mp (show (la, ea) ∈ entries t by rw [show entries t = _ from a1]; simp)
  have helb : elm t lb = some eb := (entries_mem g.wf).mp (show (lb, eb) ∈ entries t by rw [show entries t = _ from b1]; simp)
  obtain ⟨ib, s1, lvl1, h1, e1, g1, sz1, -, -, r1⟩ := splitLeafIfNeeded_spec (m := 6) (by decide) (by decide) g hi.sz
    (pos := ⟨lb, ob⟩) helb (Nat.le_of_eq hob) (Or.inr (Or.inr hob))
  have hs1 : s1 = t := by
    cases r1 with
    | start _ _ h => exact h
    | stop _ _ _ _ _ _ _ h => exact h
    | cut _ e' _ _ _ _ _ hel hlt =>
      have hel : elm t lb = some e' := hel
      rw [helb] at hel
      cases hel
      have : ob < eb.len := hlt
      omega
  subst hs1
  obtain ⟨ia, s2, lvl2, h2, e2, g2, sz2, -, -, r2⟩ := splitLeafIfNeeded_spec (m := 6) (by decide) (by decide) g hi.sz
    (pos := ⟨la, oa⟩) hela (by show oa ≤ _; omega) (Or.inr (Or.inl hoa))
  have hs2 : s2 = s1 ∧ ia.newPos = some ⟨la, oa⟩ := by
    cases r2 with
    | start _ _ h _ _ _ h6 => exact ⟨h, h6⟩
    | stop _ _ _ _ h => exact absurd hoa h
    | cut _ _ _ _ _ _ h => have : 0 < oa := h; omega
  obtain ⟨rfl, hnp⟩ := hs2
  have hp := getPath_full g.wf hh (l := la) (by intro e; rw [elm_none.mpr e] at hela; cases hela)
  simp only [drainNew, e1, e2, bind_ok, hnp, hp]
  rfl

end GB
