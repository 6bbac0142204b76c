import Verif.Proof.OrdMap
import Verif.Spec.OrdHistory

/-!
# Histories of an ordered map
-/

namespace GB
variable {K V : Type} [Ord K] [Std.TransOrd K]
open Tree

/-! ## Lookups in association lists -/

theorem eq_trans' {a b c : K} (h1 : compare a c = .eq) (h2 : compare b c = .eq) : compare a b = .eq :=
  Std.TransCmp.eq_trans h1 (Std.OrientedCmp.eq_symm h2)

theorem asFind_insert (k : K) (v : V) (l : List (K × V)) : (asFind k (asInsert k v l)).map Prod.snd = some v := by
  induction l with
  | nil => simp [asInsert, asFind, Std.ReflCmp.compare_self]
  | cons x l ih =>
    simp only [asInsert]
    split
    · simp [asFind, Std.ReflCmp.compare_self]
    · next h => simp [asFind, h]
    · next h => simp only [asFind, h]; exact ih

theorem asFind_insert_other (k : K) (v : V) {k' : K} (hk : compare k' k ≠ .eq) (l : List (K × V)) :
    asFind k' (asInsert k v l) = asFind k' l := by
  induction l with
  | nil => simp only [asInsert, asFind, if_neg hk]
  | cons x l ih =>
    simp only [asInsert]
    split
    · simp only [asFind, if_neg hk]
    · next h =>
      have : compare k' x.1 ≠ .eq := fun h' => hk (eq_trans' h' h)
      simp only [asFind, if_neg this]
    · simp only [asFind, ih]

theorem asFind_delete {k : K} {l : List (K × V)} (hs : KeySorted l) : asFind k (asDelete k l) = none := by
  induction l with
  | nil => rfl
  | cons x l ih =>
    obtain ⟨h1, h2⟩ := List.pairwise_cons.mp hs
    simp only [asDelete]
    split
    · next h =>
      apply asFind_none
      intro y hy hc
      have := eq_trans' (Std.OrientedCmp.eq_symm h) (Std.OrientedCmp.eq_symm hc)
      rw [h1 y hy] at this
      cases this
    · next h => simp only [asFind, if_neg h]; exact ih h2

theorem asFind_delete_other {k k' : K} (hk : compare k' k ≠ .eq) (l : List (K × V)) : asFind k' (asDelete k l) = asFind k' l := by
  induction l with
  | nil => rfl
  | cons x l ih =>
    simp only [asDelete]
    split
    · next h =>
      have : compare k' x.1 ≠ .eq := fun h' => hk (eq_trans' h' h)
      simp only [asFind, if_neg this]
    · simp only [asFind, ih]

/-! ## The map -/

omit [Std.TransOrd K] in
theorem OrdMap.new_ok : (OrdMap.new : OrdMap K V).Ok := by
  have h := new_entries (ordTrait K V)
  have ha : (OrdMap.new : OrdMap K V).assoc = [] := by
    simp only [OrdMap.assoc, OrdMap.new, h, List.map_nil]
  exact ⟨⟨1, new_inv _ 6⟩, by rw [ha]; exact List.Pairwise.nil, by rw [ha]; rfl⟩

omit [Std.TransOrd K] in
theorem OrdMap.new_assoc : (OrdMap.new : OrdMap K V).assoc = [] := by
  simp only [OrdMap.assoc, OrdMap.new, new_entries, List.map_nil]

/-- deleting a present key -/
theorem OrdMap.delete_present {m : OrdMap K V} (hm : m.Ok) {k : K} (hk : asFind k m.assoc ≠ none) :
    ∃ m', m.delete k = .ok (asFind k m.assoc, m') ∧ m'.Ok ∧ m'.assoc = asDelete k m.assoc := by
  rcases OrdMap.delete_spec hm k with ⟨h1, -⟩ | ⟨a, e, b, m', h1, h2, h3, h4, h5, h6, -⟩
  · rw [h1] at hk; exact absurd rfl hk
  · have na : ∀ x ∈ a, compare k x.1 ≠ .eq := fun x hx => by rw [h2 x hx]; decide
    have nb : ∀ x ∈ b, compare k x.1 ≠ .eq := fun x hx => by rw [h3 x hx]; decide
    have he : compare k e.1 = .eq := by
      by_cases hc : compare k e.1 = .eq
      · exact hc
      · exact absurd (by rw [h1, asFind_skip na, asFind, if_neg hc, asFind_none nb]) hk
    refine ⟨m', ?_, h5, ?_⟩
    · rw [h4, h1, asFind_skip na, asFind, if_pos he]
    · rw [h6, h1, asDelete_skip na, asDelete, if_pos he]

/-- every operation runs without panic and keeps the invariant, whether its key is present or not -/
theorem OrdOp.run_ok {m : OrdMap K V} (hm : m.Ok) (o : OrdOp K V) : ∃ r m', o.run m = .ok (r, m') ∧ m'.Ok := by
  cases o with
  | insert k v =>
    obtain ⟨m', h1, h2, -⟩ := OrdMap.insert_spec hm k v
    exact ⟨none, m', by simp only [OrdOp.run, h1, bind_ok, pure_ok], h2⟩
  | delete k =>
    rcases OrdMap.delete_spec hm k with ⟨-, h⟩ | ⟨-, e, -, m', -, -, -, h4, h5, -⟩
    · exact ⟨none, m, h, hm⟩
    · exact ⟨some e, m', h4, h5⟩

theorem ordRun_ok {m : OrdMap K V} (hm : m.Ok) (os : List (OrdOp K V)) : ∃ rs m', ordRun m os = .ok (rs, m') ∧ m'.Ok := by
  induction os generalizing m with
  | nil => exact ⟨[], m, rfl, hm⟩
  | cons o os ih =>
    obtain ⟨r, m1, h1, h2⟩ := o.run_ok hm
    obtain ⟨rs, m2, h3, h4⟩ := ih h2
    exact ⟨r :: rs, m2, by simp only [ordRun, h1, h3, bind_ok, pure_ok], h4⟩

theorem OrdOp.run_spec {m : OrdMap K V} (hm : m.Ok) {o : OrdOp K V} (hv : o.valid m.assoc) :
    ∃ m', o.run m = .ok ((o.spec m.assoc).1, m') ∧ m'.Ok ∧ m'.assoc = (o.spec m.assoc).2 := by
  cases o with
  | insert k v =>
    obtain ⟨m', h1, h2, h3⟩ := OrdMap.insert_spec hm k v
    exact ⟨m', by simp only [OrdOp.run, h1, bind_ok, pure_ok, OrdOp.spec], h2, h3⟩
  | delete k =>
    rcases hv with hv | hv
    · rcases OrdMap.delete_spec hm k with ⟨-, h⟩ | ⟨a, e, b, m', h1, -⟩
      · refine ⟨m, ?_, hm, ?_⟩
        · simp only [OrdOp.run, OrdOp.spec, h, hv, asFind]
        · simp only [OrdOp.spec, hv, asDelete]
      · rw [hv] at h1; simp at h1
    · exact OrdMap.delete_present hm hv

theorem ordRun_spec {m : OrdMap K V} (hm : m.Ok) {os : List (OrdOp K V)} (hv : ordValid m.assoc os) :
    ∃ m', ordRun m os = .ok ((ordSpec m.assoc os).1, m') ∧ m'.Ok ∧ m'.assoc = (ordSpec m.assoc os).2 := by
  induction os generalizing m with
  | nil => exact ⟨m, rfl, hm, rfl⟩
  | cons o os ih =>
    obtain ⟨v1, v2⟩ := hv
    obtain ⟨m1, h1, h2, h3⟩ := OrdOp.run_spec hm v1
    rw [← h3] at v2
    obtain ⟨m2, h4, h5, h6⟩ := ih h2 v2
    rw [h3] at h4 h6
    exact ⟨m2, by simp only [ordRun, ordSpec, h1, h4, bind_ok, pure_ok], h5, by simpa only [ordSpec] using h6⟩

/-- with at least six children per node ten levels need 20 155 392 bindings -/
theorem OrdMap.Ok.low {m : OrdMap K V} (hm : m.Ok) (hn : m.len < 20155392) : ∃ h, h ≤ 9 ∧ InvH (ordLaw K V) 6 h m.tree := by
  obtain ⟨h, hi⟩ := hm.tree
  refine ⟨h, ?_, hi⟩
  apply Classical.byContradiction
  intro hh
  obtain ⟨lvl, g⟩ := hi.ex
  have h1 : 2 * 6 ^ (h - 1) ≤ _ := height_bound g.wf hi.sz (by omega)
  have h2 : m.len = (entries m.tree).length := by rw [hm.len, OrdMap.assoc, List.length_map]; rfl
  have h3 : 6 ^ 9 ≤ 6 ^ (h - 1) := Nat.pow_le_pow_right (by decide) (by omega)
  have h4 : 6 ^ 9 = 10077696 := by decide
  omega

theorem OrdMap.iter_spec {m : OrdMap K V} (hm : m.Ok) (hn : m.len < 20155392) : m.iter = .ok m.assoc := by
  obtain ⟨h, hh, hi⟩ := hm.low hn
  obtain ⟨lvl, g⟩ := hi.ex
  exact GB.iter_spec g.wf (hi.ne (by decide)) hh

/-- a map of 30 bindings -/
def ordMapSample : OrdMap Nat Nat := ⟨ordSample, 30⟩

theorem ordMapSample_ok : ordMapSample.Ok ∧ ordMapSample.assoc = (List.range 30).map fun i => (2 * i, i) := by
  have ha : ordMapSample.assoc = (List.range 30).map fun i => (2 * i, i) := by
    simp only [OrdMap.assoc, ordMapSample, ordSample_spec.2, List.map_map]
    rfl
  refine ⟨⟨ordSample_spec.1, ?_, ?_⟩, ha⟩
  · rw [ha, KeySorted, List.pairwise_map]
    exact List.Pairwise.imp (fun h => Nat.compare_eq_lt.mpr (by omega)) List.pairwise_lt_range
  · rw [ha, List.length_map, List.length_range]; rfl

end GB
