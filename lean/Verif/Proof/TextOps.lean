import Verif.Props.C01
import Verif.Props.C02
import Verif.Props.C10
import Verif.Props.C18
import Verif.Props.C21
import Verif.Proof.SpineHeight
import Verif.Spec.TextOps

/-!
# Editing by position: the steps
-/

namespace GB
variable {E C D X : Type} {B : Trait E C D} {A : Law B} {cont : E → List X}
open Tree

theorem specPush_pos (K : ContentLaw B A.okE cont) {t t' : Seq E} {c : Cursor} {data : E} (hok : ∀ x ∈ t.es, A.okE x.2) (hpos : ∀ x ∈ t.es, 0 < B.rleLen x.2)
    (hd : A.okE data) (hd0 : 0 < B.rleLen data) (h : specPush B t data = .ok (c, t')) : ∀ x ∈ t'.es, 0 < B.rleLen x.2 := by
  unfold specPush at h
  split at h
  · next l x hl =>
    have hx := List.mem_of_getLast? hl
    split at h
    · next hm =>
      obtain ⟨x', hr, h⟩ := bind_inv h
      cases h
      obtain ⟨e, h1, h2, -⟩ := A.merge_right x data (hok _ hx) hd hm
      rw [hr] at h1
      cases h1
      have hc := congrArg List.length (K.merge_right x data x' (hok _ hx) hd hm hr)
      rw [K.len _ h2, List.length_append, K.len _ (hok _ hx), K.len _ hd] at hc
      intro y hy
      rcases List.mem_append.mp hy with hy | hy
      · exact hpos y (List.dropLast_subset _ hy)
      · cases List.mem_singleton.mp hy
        show 0 < B.rleLen x'
        omega
    · cases h
      intro y hy
      rcases List.mem_append.mp hy with hy | hy
      · exact hpos y hy
      · cases List.mem_singleton.mp hy
        exact hd0
  · cases h
    intro y hy
    cases List.mem_singleton.mp hy
    exact hd0

theorem specPrepend_pos (K : ContentLaw B A.okE cont) {t t' : Seq E} {c : Cursor} {data : E} (hok : ∀ x ∈ t.es, A.okE x.2) (hpos : ∀ x ∈ t.es, 0 < B.rleLen x.2)
    (hd : A.okE data) (hd0 : 0 < B.rleLen data) (h : specPrepend B t data = .ok (c, t')) : ∀ x ∈ t'.es, 0 < B.rleLen x.2 := by
  unfold specPrepend at h
  split at h
  · next l x es hl =>
    have hx : (l, x) ∈ t.es := by rw [hl]; simp
    split at h
    · next hm =>
      obtain ⟨x', hr, h⟩ := bind_inv h
      cases h
      obtain ⟨e, h1, h2, -⟩ := A.merge_left data x hd (hok _ hx) hm
      rw [hr] at h1
      cases h1
      have hc := congrArg List.length (K.merge_left data x x' hd (hok _ hx) hm hr)
      rw [K.len _ h2, List.length_append, K.len _ (hok _ hx), K.len _ hd] at hc
      intro y hy
      rcases List.mem_cons.mp hy with rfl | hy
      · show 0 < B.rleLen x'
        omega
      · exact hpos y (by rw [hl]; exact List.mem_cons_of_mem _ hy)
    · cases h
      intro y hy
      rcases List.mem_cons.mp hy with rfl | hy
      · exact hd0
      · exact hpos y hy
  · cases h
    intro y hy
    cases List.mem_singleton.mp hy
    exact hd0

theorem specInsert_pos (K : ContentLaw B A.okE cont) {t t' : Seq E} {c : Cursor} {data : E} {r : Cursor × List Nat} (hok : ∀ x ∈ t.es, A.okE x.2)
    (hpos : ∀ x ∈ t.es, 0 < B.rleLen x.2) (hd : A.okE data) (hd0 : 0 < B.rleLen data) (h : specInsert B t c data = .ok (r, t')) :
    ∀ x ∈ t'.es, 0 < B.rleLen x.2 := by
  unfold specInsert at h
  split at h
  · cases h
  next U e V hl =>
  have hes := locate_some hl
  have hU : ∀ x ∈ U, 0 < B.rleLen x.2 := fun x hx => hpos x (by rw [hes]; simp [hx])
  have hV : ∀ x ∈ V, 0 < B.rleLen x.2 := fun x hx => hpos x (by rw [hes]; simp [hx])
  have he : A.okE e := hok (c.leaf, e) (by rw [hes]; simp)
  have he0 : 0 < B.rleLen e := hpos (c.leaf, e) (by rw [hes]; simp)
  have key : ∀ M : List (Nat × E), (∀ x ∈ M, 0 < B.rleLen x.2) → ∀ x ∈ U ++ (M ++ V), 0 < B.rleLen x.2 := by
    intro M hM x hx
    rcases List.mem_append.mp hx with hx | hx
    · exact hU x hx
    rcases List.mem_append.mp hx with hx | hx
    · exact hM x hx
    · exact hV x hx
  split at h
  · cases h
  next ho =>
  have ho : c.offset ≤ B.rleLen e := Nat.le_of_not_lt ho
  obtain ⟨y, ht, h⟩ := bind_inv h
  rcases A.tryInsert e c.offset data he hd ho with ⟨e', t1, t2, -⟩ | t1
  · rw [ht] at t1
    cases t1
    cases h
    have hc := congrArg List.length (K.tryInsert e _ data e' he hd ho ht)
    rw [K.len _ t2, List.length_append, List.length_append, K.len _ hd] at hc
    exact key [(c.leaf, e')] (by intro x hx; cases List.mem_singleton.mp hx; show 0 < B.rleLen e'; omega)
  rw [ht] at t1
  cases t1
  simp only at h
  split at h
  · next hm =>
    obtain ⟨e', hr, h⟩ := bind_inv h
    cases h
    obtain ⟨e1, h1, h2, -⟩ := A.merge_left data e hd he hm.2
    rw [hr] at h1
    cases h1
    have hc := congrArg List.length (K.merge_left data e e' hd he hm.2 hr)
    rw [K.len _ h2, List.length_append, K.len _ he, K.len _ hd] at hc
    exact key [(c.leaf, e')] (by intro x hx; cases List.mem_singleton.mp hx; show 0 < B.rleLen e'; omega)
  split at h
  · next hm =>
    obtain ⟨e', hr, h⟩ := bind_inv h
    cases h
    obtain ⟨e1, h1, h2, -⟩ := A.merge_right e data he hd hm.2
    rw [hr] at h1
    cases h1
    have hc := congrArg List.length (K.merge_right e data e' he hd hm.2 hr)
    rw [K.len _ h2, List.length_append, K.len _ he, K.len _ hd] at hc
    exact key [(c.leaf, e')] (by intro x hx; cases List.mem_singleton.mp hx; show 0 < B.rleLen e'; omega)
  split at h
  · cases h
    exact key [(t.next, data), (c.leaf, e)] (by intro x hx; simp at hx; rcases hx with rfl | rfl <;> assumption)
  split at h
  · cases h
    exact key [(c.leaf, e), (t.next, data)] (by intro x hx; simp at hx; rcases hx with rfl | rfl <;> assumption)
  · obtain ⟨⟨a, b⟩, hs, h⟩ := bind_inv h
    cases h
    obtain ⟨l1, l2⟩ := K.splitLen e c.offset a b he (by omega) (by omega) hs
    exact key [(c.leaf, a), (t.next + 1, data), (t.next, b)] (by
      intro x hx
      simp at hx
      rcases hx with rfl | rfl | rfl
      · show 0 < B.rleLen a
        omega
      · exact hd0
      · show 0 < B.rleLen b
        omega)

theorem length_le_units : ∀ {es : List (Nat × E)}, (∀ x ∈ es, 0 < B.rleLen x.2) → es.length ≤ unitLen B es := by
  intro es
  induction es with
  | nil => intro _; exact Nat.zero_le _
  | cons x es ih =>
    intro h
    have := ih (fun y hy => h y (List.mem_cons_of_mem _ hy))
    have := h x List.mem_cons_self
    rw [List.length_cons, unitLen_cons]
    omega

/-- a closure that acts on units, over a list -/
theorem runOn_units {okE : E → Prop} {f : E → E} {d : E → Option D} {g : X → X} (hf : ∀ e, okE e → cont (f e) = (cont e).map g) :
    ∀ {Y : List (Nat × E)}, (∀ x ∈ Y, okE x.2) → ∃ Y', runOn (fun (_ : Unit) e => .ok ((), f e, d e)) () Y = .ok ((), Y') ∧
      content cont Y' = (content cont Y).map g ∧ ∀ x ∈ Y', ∃ e, okE e ∧ (∃ y ∈ Y, y.2 = e) ∧ x.2 = f e := by
  intro Y
  induction Y with
  | nil => intro _; exact ⟨[], rfl, rfl, fun x hx => nomatch hx⟩
  | cons y Y ih =>
    intro h
    obtain ⟨Y', h1, h2, h3⟩ := ih (fun x hx => h x (List.mem_cons_of_mem _ hx))
    have hy := h y List.mem_cons_self
    refine ⟨(y.1, f y.2) :: Y', ?_, ?_, ?_⟩
    · rw [show y :: Y = (y.1, y.2) :: Y from rfl, runOn, bind_ok]
      simp only [h1]
      rfl
    · rw [content_cons, content_cons, List.map_append, h2, hf _ hy]
    · intro x hx
      rcases List.mem_cons.mp hx with rfl | hx
      · exact ⟨y.2, hy, ⟨y, List.mem_cons_self, rfl⟩, rfl⟩
      · obtain ⟨e, e1, ⟨z, z1, z2⟩, e3⟩ := h3 x hx
        exact ⟨e, e1, ⟨z, List.mem_cons_of_mem _ z1, z2⟩, e3⟩

end GB
