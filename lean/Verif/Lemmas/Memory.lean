import Verif.Spec.Memory
import Mathlib.Tactic.Common
import Mathlib.Data.Finset.Insert
import Mathlib.Data.Finset.Card
import Mathlib.Order.Interval.Finset.Nat

/-!
# Lemmas for C82: ownership of blocks
-/

namespace Nikfemm
open Spec

theorem Heap.free_ok {h : Heap} {p : Nat} (hp : p ∈ h.live) : h.free p = .ok ⟨h.live.erase p, h.next⟩ :=
  if_pos hp

theorem Heap.free_ub {h : Heap} {p : Nat} (hp : p ∉ h.live) : h.free p = .error .ub := if_neg hp

/-- Every pointer the destructor looks at is null or owns a block of its own. -/
structure Good (h : Heap) (P : Ptrs) : Prop where
  live : ∀ f ∈ freedFields, ∀ q, P f = some q → q ∈ h.live
  inj : ∀ f ∈ freedFields, ∀ g ∈ freedFields, ∀ q, P f = some q → P g = some q → f = g

/-- The block belongs to the mesh. -/
def Has (P : Ptrs) (q : Nat) : Prop := ∃ f ∈ freedFields, P f = some q

theorem freeFold (P : Ptrs) (fs : List Field) : ∀ (h : Heap), fs.Nodup →
    (∀ f ∈ fs, ∀ q, P f = some q → q ∈ h.live) →
    (∀ f ∈ fs, ∀ g ∈ fs, ∀ q, P f = some q → P g = some q → f = g) →
    ∃ h', fs.foldlM (fun h f => match P f with
      | none => (.ok h : Res Heap)
      | some q => h.free q) h = .ok h' ∧ h'.next = h.next ∧
      ∀ q, q ∈ h'.live ↔ q ∈ h.live ∧ ¬ ∃ f ∈ fs, P f = some q := by
  induction fs with
  | nil => intro h _ _ _; exact ⟨h, rfl, rfl, by simp⟩
  | cons f fs ih =>
    intro h hn hl hi
    obtain ⟨hf, hn⟩ := List.nodup_cons.mp hn
    rw [List.foldlM_cons]
    cases e : P f with
    | none =>
      obtain ⟨h', e1, e2, e3⟩ := ih h hn (fun g hg => hl g (List.mem_cons_of_mem _ hg))
        (fun g hg g' hg' => hi g (List.mem_cons_of_mem _ hg) g' (List.mem_cons_of_mem _ hg'))
      refine ⟨h', e1, e2, fun q => ?_⟩
      rw [e3]
      simp [e]
    | some q0 =>
      simp only
      rw [Heap.free_ok (hl f (by simp) q0 e), ok_bind]
      obtain ⟨h', e1, e2, e3⟩ := ih ⟨h.live.erase q0, h.next⟩ hn
        (fun g hg q hq => Finset.mem_erase.mpr ⟨by
          rintro rfl
          have := hi f (by simp) g (List.mem_cons_of_mem _ hg) q e hq
          exact hf (this ▸ hg), hl g (List.mem_cons_of_mem _ hg) q hq⟩)
        (fun g hg g' hg' => hi g (List.mem_cons_of_mem _ hg) g' (List.mem_cons_of_mem _ hg'))
      refine ⟨h', e1, e2, fun q => ?_⟩
      rw [e3]
      simp only [Finset.mem_erase, List.mem_cons, exists_eq_or_imp, e, Option.some.injEq]
      constructor
      · rintro ⟨⟨a, b⟩, c⟩
        exact ⟨b, fun hc => hc.elim (fun hc => a hc.symm) c⟩
      · rintro ⟨a, b⟩
        exact ⟨⟨fun hc => b (Or.inl hc.symm), a⟩, fun hc => b (Or.inr hc)⟩

theorem destroy_ok {h : Heap} {P : Ptrs} (hg : Good h P) : ∃ h', destroyMesh h P = .ok h' ∧
    h'.next = h.next ∧ ∀ q, q ∈ h'.live ↔ q ∈ h.live ∧ ¬ Has P q :=
  freeFold P freedFields h (by decide) hg.live hg.inj

/-- Some pointer is dangling: the destructor is undefined. -/
theorem freeFold_ub (P : Ptrs) (fs : List Field) : ∀ (h : Heap),
    (∃ f ∈ fs, ∃ q, P f = some q ∧ q ∉ h.live) →
    fs.foldlM (fun h f => match P f with
      | none => (.ok h : Res Heap)
      | some q => h.free q) h = .error .ub := by
  induction fs with
  | nil => rintro h ⟨f, hf, -⟩; cases hf
  | cons f fs ih =>
    rintro h ⟨g, hg, q, hq, hn⟩
    rw [List.foldlM_cons]
    cases e : P f with
    | none =>
      refine ih h ⟨g, ?_, q, hq, hn⟩
      rcases List.mem_cons.mp hg with rfl | hg
      · rw [e] at hq; cases hq
      · exact hg
    | some q0 =>
      simp only
      by_cases h0 : q0 ∈ h.live
      · rw [Heap.free_ok h0, ok_bind]
        refine ih _ ⟨g, ?_, q, hq, fun hc => hn (Finset.mem_of_mem_erase hc)⟩
        rcases List.mem_cons.mp hg with rfl | hg
        · rw [e] at hq
          obtain rfl : q0 = q := by simpa using hq
          exact absurd h0 hn
        · exact hg
      · rw [Heap.free_ub h0]; rfl

theorem destroy_ub {h : Heap} {P : Ptrs} {f : Field} (hf : f ∈ freedFields) {q : Nat} (e : P f = some q)
    (hn : q ∉ h.live) : destroyMesh h P = .error .ub :=
  freeFold_ub P freedFields h ⟨f, hf, q, e, hn⟩

/-- The pointers after meshing, when the next free number is `n`. -/
def meshedPtrs (n : Nat) : Bool → Ptrs
  | true, .pointlist => some (n + 3)
  | true, .pointmarkerlist => some (n + 4)
  | true, .trianglelist => some (n + 5)
  | true, .triangleattributelist => some (n + 6)
  | true, .segmentlist => some (n + 7)
  | true, .segmentmarkerlist => some (n + 8)
  | false, .pointlist => some (n + 3)
  | false, .pointmarkerlist => some (n + 4)
  | false, .trianglelist => some (n + 5)
  | false, .segmentlist => some (n + 6)
  | false, .segmentmarkerlist => some (n + 7)
  | _, .regionlist => some (n + 2)
  | _, _ => none

theorem written_eq (L : Finset Nat) (n : Nat) (P : Ptrs) (l : Bool) :
    ∃ Q, (writtenFields l).foldl allocField (⟨L, n + 3⟩, resetMesh P) =
      (⟨L ∪ Finset.Ico (n + 3) (n + 3 + (if l then 6 else 5)), n + 3 + (if l then 6 else 5)⟩, Q) ∧
      Function.update (Function.update Q .holelist none) .regionlist (some (n + 2)) = meshedPtrs n l := by
  cases l
  · refine ⟨((writtenFields false).foldl allocField (⟨L, n + 3⟩, resetMesh P)).2, ?_, ?_⟩
    · have : ((writtenFields false).foldl allocField (⟨L, n + 3⟩, resetMesh P)).1 =
          ⟨insert (n + 7) (insert (n + 6) (insert (n + 5) (insert (n + 4) (insert (n + 3) L)))), n + 8⟩ := rfl
      refine Prod.ext ?_ rfl
      rw [this]
      simp only [Bool.false_eq_true, if_false, Heap.mk.injEq, and_true]
      ext q
      simp only [Finset.mem_insert, Finset.mem_union, Finset.mem_Ico]
      by_cases hq : q ∈ L
      · simp [hq]
      · simp only [hq, or_false, false_or]; omega
    · funext f; cases f <;> rfl
  · refine ⟨((writtenFields true).foldl allocField (⟨L, n + 3⟩, resetMesh P)).2, ?_, ?_⟩
    · have : ((writtenFields true).foldl allocField (⟨L, n + 3⟩, resetMesh P)).1 =
          ⟨insert (n + 8) (insert (n + 7) (insert (n + 6) (insert (n + 5) (insert (n + 4)
            (insert (n + 3) L))))), n + 9⟩ := rfl
      refine Prod.ext ?_ rfl
      rw [this]
      simp only [if_true, Heap.mk.injEq, and_true]
      ext q
      simp only [Finset.mem_insert, Finset.mem_union, Finset.mem_Ico]
      by_cases hq : q ∈ L
      · simp [hq]
      · simp only [hq, or_false, false_or]; omega
    · funext f; cases f <;> rfl

theorem meshMesh_eq (h : Heap) (P : Ptrs) (l : Bool) (hb : ∀ q ∈ h.live, q < h.next) :
    ∃ h', meshMesh h P l = .ok (h', meshedPtrs h.next l) ∧
      h'.next = h.next + 3 + (if l then 6 else 5) ∧
      ∀ q, q ∈ h'.live ↔ q ∈ h.live ∨ (h.next + 3 ≤ q ∧ q < h'.next) := by
  obtain ⟨L, n⟩ := h
  simp only at hb
  obtain ⟨Q, e1, e2⟩ := written_eq (insert (n + 2) (insert (n + 1) (insert n L))) n P l
  generalize hc : (if l then 6 else 5) = c at e1
  have hn : n ∉ L := fun hc => lt_irrefl _ (hb n hc)
  have hn1 : n + 1 ∉ L := fun hc => absurd (hb _ hc) (by omega)
  have hn2 : n + 2 ∉ L := fun hc => absurd (hb _ hc) (by omega)
  unfold meshMesh
  simp only [Heap.alloc]
  rw [e1]
  simp only [e2]
  rw [Heap.free_ok (by simp), ok_bind, Heap.free_ok (by simp), ok_bind,
    Heap.free_ok (by simp; omega), ok_bind]
  refine ⟨_, rfl, by simp, ?_⟩
  intro q
  simp only [Finset.mem_erase, Finset.mem_union, Finset.mem_insert, Finset.mem_Ico]
  by_cases hq : q ∈ L
  · have := hb q hq
    simp only [hq, or_true, true_or, and_true]
    constructor
    · intro _; trivial
    · intro _; omega
  · simp only [hq, or_false, false_or]; omega

/-- A mesh that has been meshed: the arrays are there. -/
structure Full (P : Ptrs) (l : Bool) : Prop where
  points : ∃ q, P .pointlist = some q
  markers : ∃ q, P .pointmarkerlist = some q
  triangles : ∃ q, P .trianglelist = some q
  segments : ∃ q, P .segmentlist = some q
  segmentMarkers : ∃ q, P .segmentmarkerlist = some q
  attr : l = true → ∃ q, P .triangleattributelist = some q

theorem meshed_has (n : Nat) (l : Bool) (q : Nat) :
    Has (meshedPtrs n l) q ↔ n + 3 ≤ q ∧ q < n + 3 + (if l then 6 else 5) := by
  unfold Has freedFields
  cases l <;> simp [meshedPtrs] <;> omega

theorem meshed_inj (n : Nat) (l : Bool) (f : Field) (hf : f ∈ freedFields) (g : Field)
    (hg : g ∈ freedFields) (q : Nat) (e : meshedPtrs n l f = some q) (e' : meshedPtrs n l g = some q) :
    f = g := by
  cases l <;> cases f <;> simp [meshedPtrs] at e <;> subst e <;> cases g <;> simp [meshedPtrs] at e' <;>
    first | rfl | (exfalso; omega) | (revert hf; decide)

theorem meshMesh_ok (h : Heap) (P : Ptrs) (l : Bool) (hb : ∀ q ∈ h.live, q < h.next) :
    ∃ h' P', meshMesh h P l = .ok (h', P') ∧ h.next ≤ h'.next ∧ (∀ q ∈ h'.live, q < h'.next) ∧
      (∀ q, Has P' q → h.next ≤ q) ∧ Good h' P' ∧ (∀ q, q ∈ h'.live ↔ q ∈ h.live ∨ Has P' q) ∧
      Full P' l := by
  obtain ⟨h', e, hn, hl⟩ := meshMesh_eq h P l hb
  have hh : ∀ q, q ∈ h'.live ↔ q ∈ h.live ∨ Has (meshedPtrs h.next l) q := by
    intro q; rw [hl, meshed_has, hn]
  refine ⟨h', _, e, by omega, ?_, ?_, ⟨?_, meshed_inj h.next l⟩, hh, ?_⟩
  · intro q hq
    rcases (hl q).mp hq with hq | hq
    · have := hb q hq; omega
    · exact hq.2
  · intro q hq
    have := ((meshed_has ..).mp hq).1
    omega
  · intro f hf q hq
    exact (hh q).mpr (Or.inr ⟨f, hf, hq⟩)
  · cases l
    · exact ⟨⟨_, rfl⟩, ⟨_, rfl⟩, ⟨_, rfl⟩, ⟨_, rfl⟩, ⟨_, rfl⟩, fun hc => by cases hc⟩
    · exact ⟨⟨_, rfl⟩, ⟨_, rfl⟩, ⟨_, rfl⟩, ⟨_, rfl⟩, ⟨_, rfl⟩, fun _ => ⟨_, rfl⟩⟩

/-- A mesh may exchange its blocks for new ones; all other blocks stay. -/
structure Grow (h : Heap) (P : Ptrs) (h' : Heap) (P' : Ptrs) : Prop where
  next : h.next ≤ h'.next
  bound : ∀ q ∈ h'.live, q < h'.next
  good : Good h' P'
  new : ∀ q, Has P' q → Has P q ∨ h.next ≤ q
  keep : ∀ q ∈ h.live, ¬ Has P q → q ∈ h'.live ∧ ¬ Has P' q
  all : ∀ q ∈ h'.live, (q ∈ h.live ∧ ¬ Has P q) ∨ Has P' q

theorem Grow.trans {h h' h'' : Heap} {P P' P'' : Ptrs} (a : Grow h P h' P') (b : Grow h' P' h'' P'') :
    Grow h P h'' P'' where
  next := a.next.trans b.next
  bound := b.bound
  good := b.good
  new := by
    intro q hq
    rcases b.new q hq with hq | hq
    · exact a.new q hq
    · exact Or.inr (a.next.trans hq)
  keep := by
    intro q hq hn
    obtain ⟨h1, h2⟩ := a.keep q hq hn
    exact b.keep q h1 h2
  all := by
    intro q hq
    rcases b.all q hq with ⟨h1, h2⟩ | h1
    · exact Or.inl ((a.all q h1).resolve_right h2)
    · exact Or.inr h1

theorem readField_ok {h : Heap} {P : Ptrs} {f : Field} (hg : Good h P) (hf : f ∈ freedFields)
    (e : ∃ q, P f = some q) : readField h P f = .ok () := by
  obtain ⟨q, e⟩ := e
  unfold readField
  rw [e]
  exact if_pos (hg.live f hf q e)

theorem Heap.alloc_mem (h : Heap) (q : Nat) : q ∈ h.alloc.2.live ↔ q = h.next ∨ q ∈ h.live := by
  simp [Heap.alloc]

theorem reallocField_ok {h : Heap} {P : Ptrs} {f : Field} (hb : ∀ q ∈ h.live, q < h.next) (hg : Good h P)
    (hf : f ∈ freedFields) : ∃ h', reallocField h P f = .ok (h', Function.update P f (some h.next)) ∧
      Grow h P h' (Function.update P f (some h.next)) := by
  have hhas : ∀ q, Has (Function.update P f (some h.next)) q ↔
      q = h.next ∨ ∃ g ∈ freedFields, g ≠ f ∧ P g = some q := by
    intro q
    constructor
    · rintro ⟨g, hg', e⟩
      by_cases hgf : g = f
      · subst hgf
        rw [Function.update_self] at e
        exact Or.inl (by simpa using e.symm)
      · rw [Function.update_of_ne hgf] at e
        exact Or.inr ⟨g, hg', hgf, e⟩
    · rintro (rfl | ⟨g, hg', hgf, e⟩)
      · exact ⟨f, hf, by rw [Function.update_self]⟩
      · exact ⟨g, hg', by rw [Function.update_of_ne hgf]; exact e⟩
  have hPn : ∀ q, Has P q → q ≠ h.next := by
    rintro q ⟨g, hg', e⟩ rfl
    exact lt_irrefl _ (hb _ (hg.live g hg' _ e))
  have hinj : ∀ g ∈ freedFields, ∀ g' ∈ freedFields, ∀ q, Function.update P f (some h.next) g = some q →
      Function.update P f (some h.next) g' = some q → g = g' := by
    intro g hgm g' hgm' q e e'
    by_cases h1 : g = f
    · by_cases h2 : g' = f
      · rw [h1, h2]
      · subst h1
        rw [Function.update_self] at e
        rw [Function.update_of_ne h2] at e'
        exact absurd (by simpa using e.symm) (hPn q ⟨g', hgm', e'⟩)
    · rw [Function.update_of_ne h1] at e
      by_cases h2 : g' = f
      · subst h2
        rw [Function.update_self] at e'
        exact absurd (by simpa using e'.symm) (hPn q ⟨g, hgm, e⟩)
      · rw [Function.update_of_ne h2] at e'
        exact hg.inj g hgm g' hgm' q e e'
  have mk : ∀ h', h'.next = h.next + 1 →
      (∀ q, q ∈ h'.live ↔ q = h.next ∨ (q ∈ h.live ∧ P f ≠ some q)) →
      Grow h P h' (Function.update P f (some h.next)) := by
    intro h' hn hl
    refine ⟨by omega, ?_, ⟨?_, hinj⟩, ?_, ?_, ?_⟩
    · intro q hq
      rcases (hl q).mp hq with rfl | ⟨hq, -⟩
      · omega
      · have := hb q hq; omega
    · intro g hgm q e
      rcases (hhas q).mp ⟨g, hgm, e⟩ with hq | ⟨g', hgm', hne, e'⟩
      · exact (hl q).mpr (Or.inl hq)
      · exact (hl q).mpr (Or.inr ⟨hg.live g' hgm' q e', fun hc => hne (hg.inj g' hgm' f hf q e' hc)⟩)
    · intro q hq
      rcases (hhas q).mp hq with rfl | ⟨g', hgm', -, e'⟩
      · exact Or.inr le_rfl
      · exact Or.inl ⟨g', hgm', e'⟩
    · intro q hq hnq
      refine ⟨(hl q).mpr (Or.inr ⟨hq, fun hc => hnq ⟨f, hf, hc⟩⟩), fun hc => ?_⟩
      rcases (hhas q).mp hc with rfl | ⟨g', hgm', -, e'⟩
      · exact lt_irrefl _ (hb _ hq)
      · exact hnq ⟨g', hgm', e'⟩
    · intro q hq
      rcases (hl q).mp hq with hq | ⟨hq, hne⟩
      · exact Or.inr ((hhas q).mpr (Or.inl hq))
      · by_cases hPq : Has P q
        · obtain ⟨g, hgm, e⟩ := hPq
          exact Or.inr ((hhas q).mpr (Or.inr ⟨g, hgm, fun hc => hne (hc ▸ e), e⟩))
        · exact Or.inl ⟨hq, hPq⟩
  unfold reallocField Heap.realloc
  cases e : P f with
  | none =>
    simp only [ok_bind]
    refine ⟨h.alloc.2, rfl, mk _ rfl ?_⟩
    intro q; rw [h.alloc_mem]; simp [e]
  | some q0 =>
    simp only
    rw [Heap.free_ok (hg.live f hf q0 e)]
    simp only [ok_bind]
    refine ⟨_, rfl, mk _ rfl ?_⟩
    intro q
    rw [Heap.alloc_mem, e]
    simp only [Finset.mem_erase, ne_eq, Option.some.injEq]
    constructor
    · rintro (rfl | ⟨a, b⟩)
      · exact Or.inl rfl
      · exact Or.inr ⟨b, fun hc => a hc.symm⟩
    · rintro (rfl | ⟨a, b⟩)
      · exact Or.inl rfl
      · exact Or.inr ⟨fun hc => b hc.symm, a⟩

theorem Full.update {P : Ptrs} {l : Bool} (h : Full P l) (f : Field) (q : Nat) :
    Full (Function.update P f (some q)) l := by
  have key : ∀ g, (∃ q', P g = some q') → ∃ q', Function.update P f (some q) g = some q' := by
    rintro g ⟨q', e⟩
    by_cases hg : g = f
    · subst hg; exact ⟨q, by rw [Function.update_self]⟩
    · exact ⟨q', by rw [Function.update_of_ne hg]; exact e⟩
  exact ⟨key _ h.points, key _ h.markers, key _ h.triangles, key _ h.segments, key _ h.segmentMarkers,
    fun hl => key _ (h.attr hl)⟩

theorem mesh_grow {h : Heap} {P : Ptrs} (l : Bool) (hb : ∀ q ∈ h.live, q < h.next) :
    ∃ h' P', meshMesh h P l = .ok (h', P') ∧ Full P' l ∧ Good h' P' ∧ h.next ≤ h'.next ∧
      (∀ q ∈ h'.live, q < h'.next) ∧ (∀ q, Has P' q → h.next ≤ q) ∧
      (∀ q, q ∈ h'.live ↔ q ∈ h.live ∨ Has P' q) := by
  obtain ⟨h', P', e, h1, h2, h3, h4, h5, h6⟩ := meshMesh_ok h P l hb
  exact ⟨h', P', e, h6, h4, h1, h2, h3, h5⟩

theorem kelvin_ok {h : Heap} {P : Ptrs} {l : Bool} (hb : ∀ q ∈ h.live, q < h.next) (hg : Good h P)
    (hf : Full P l) : ∃ h' P', kelvinMesh h P = .ok (h', P') ∧ Full P' l ∧ Grow h P h' P' := by
  obtain ⟨h1, Q, e, hQf, hQg, hn1, hb1, hQnew, hQlive⟩ := mesh_grow (P := Ptrs.null) true hb
  have hPold : ∀ q, Has P q → q < h.next := fun q ⟨g, hgm, e⟩ => hb q (hg.live g hgm q e)
  have hg1 : Good h1 P := ⟨fun f hf q e => (hQlive q).mpr (Or.inl (hg.live f hf q e)), hg.inj⟩
  obtain ⟨h2, e2, g2⟩ := reallocField_ok (f := .pointlist) hb1 hg1 (by decide)
  obtain ⟨h3, e3, g3⟩ := reallocField_ok (f := .trianglelist) g2.bound g2.good (by decide)
  obtain ⟨h4, e4, g4⟩ := reallocField_ok (f := .triangleattributelist) g3.bound g3.good (by decide)
  have g14 := (g2.trans g3).trans g4
  have hf4 := ((hf.update .pointlist h1.next).update .trianglelist h2.next).update
    .triangleattributelist h3.next
  generalize Function.update (Function.update (Function.update P .pointlist (some h1.next)) .trianglelist
    (some h2.next)) .triangleattributelist (some h3.next) = P4 at *
  have hQP : ∀ q, Has Q q → ¬ Has P q := fun q hq hc =>
    absurd (hPold q hc) (not_lt.mpr (hQnew q hq))
  have hQ4 : Good h4 Q := ⟨fun f hf q e =>
    (g14.keep q (hQg.live f hf q e) (hQP q ⟨f, hf, e⟩)).1, hQg.inj⟩
  obtain ⟨h5, e5, hn5, hl5⟩ := destroy_ok hQ4
  refine ⟨h5, P4, ?_, hf4, ?_⟩
  · unfold kelvinMesh
    rw [e]
    simp only [ok_bind]
    rw [readField_ok hQg (by decide) hQf.markers, ok_bind, readField_ok hQg (by decide) hQf.points, ok_bind,
      readField_ok hg1 (by decide) hf.markers, ok_bind, readField_ok hg1 (by decide) hf.points, ok_bind, e2]
    simp only [ok_bind]
    rw [e3]
    simp only [ok_bind]
    rw [e4]
    simp only [ok_bind]
    rw [readField_ok hQ4 (by decide) hQf.triangles, ok_bind, e5]
    rfl
  · refine ⟨by rw [hn5]; exact hn1.trans g14.next, ?_, ⟨?_, g14.good.inj⟩, ?_, ?_, ?_⟩
    · intro q hq
      rw [hn5]
      exact g14.bound q ((hl5 q).mp hq).1
    · intro f hf q e
      refine (hl5 q).mpr ⟨g14.good.live f hf q e, fun hQq => ?_⟩
      obtain ⟨f', hf', e'⟩ := hQq
      exact (g14.keep q (hQg.live f' hf' q e') (hQP q ⟨f', hf', e'⟩)).2 ⟨f, hf, e⟩
    · intro q hq
      exact (g14.new q hq).imp id (fun hc => hn1.trans hc)
    · intro q hq hnq
      obtain ⟨a, b⟩ := g14.keep q ((hQlive q).mpr (Or.inl hq)) hnq
      exact ⟨(hl5 q).mpr ⟨a, fun hc => absurd (hb q hq) (not_lt.mpr (hQnew q hc))⟩, b⟩
    · intro q hq
      obtain ⟨hq4, hnQ⟩ := (hl5 q).mp hq
      rcases g14.all q hq4 with ⟨a, b⟩ | a
      · exact Or.inl ⟨((hQlive q).mp a).resolve_right hnQ, b⟩
      · exact Or.inr a

/-! ## Programs -/

/-- Every living object owns its blocks alone. -/
structure Inv (s : MeshState) (f : Nat → Status) : Prop where
  bound : ∀ q ∈ s.heap.live, q < s.heap.next
  absent : ∀ x, f x = .absent ↔ s.obj x = none
  fresh : ∀ x, f x = .fresh → s.obj x = some Ptrs.null
  full : ∀ x l, f x = .meshed l → ∃ P, s.obj x = some P ∧ Full P l
  good : ∀ x P, s.obj x = some P → Good s.heap P
  one : ∀ x y q, Owns s x q → Owns s y q → x = y

/-- What a command preserves. -/
structure Step (s s' : MeshState) : Prop where
  leak : ∀ q ∈ s.heap.live, (∀ x, ¬ Owns s x q) → q ∈ s'.heap.live ∧ ∀ x, ¬ Owns s' x q

/-- Every block has an owner. -/
def AllOwned (s : MeshState) : Prop := ∀ q ∈ s.heap.live, ∃ x, Owns s x q

theorem owns_update {h : Heap} {obj : Nat → Option Ptrs} {x : Nat} {v : Option Ptrs} {y q : Nat} :
    Owns ⟨h, Function.update obj x v⟩ y q ↔
      (y = x ∧ ∃ P, v = some P ∧ Has P q) ∨ (y ≠ x ∧ ∃ P, obj y = some P ∧ Has P q) := by
  unfold Owns Has
  by_cases hy : y = x
  · subst hy; simp
  · simp [hy]

theorem null_has (q : Nat) : ¬ Has Ptrs.null q := by
  rintro ⟨f, -, e⟩; cases e

theorem good_null (h : Heap) : Good h Ptrs.null :=
  ⟨fun _ _ _ e => by simp [Ptrs.null] at e, fun _ _ _ _ _ e => by simp [Ptrs.null] at e⟩

/-- Replacing the pointers of one object and its blocks. -/
theorem inv_update {s : MeshState} {f : Nat → Status} (hi : Inv s f) {x : Nat} {h' : Heap} {P' : Ptrs}
    {st : Status} (hb : ∀ q ∈ h'.live, q < h'.next) (hg : Good h' P')
    (hkeep : ∀ q ∈ s.heap.live, ¬ Owns s x q → q ∈ h'.live ∧ ¬ Has P' q)
    (hnew : ∀ q, Has P' q → Owns s x q ∨ s.heap.next ≤ q)
    (ha : st ≠ .absent) (hf : st = .fresh → P' = Ptrs.null) (hm : ∀ l, st = .meshed l → Full P' l) :
    Inv ⟨h', Function.update s.obj x (some P')⟩ (Function.update f x st) ∧
      Step s ⟨h', Function.update s.obj x (some P')⟩ := by
  have other : ∀ y P q, y ≠ x → s.obj y = some P → Has P q → q ∈ s.heap.live ∧ ¬ Owns s x q := by
    intro y P q hy e hq
    refine ⟨?_, fun hc => hy (hi.one y x q ⟨P, e, hq⟩ hc)⟩
    obtain ⟨g, hgm, e'⟩ := hq
    exact (hi.good y P e).live g hgm q e'
  refine ⟨⟨hb, ?_, ?_, ?_, ?_, ?_⟩, ⟨?_⟩⟩
  · intro y
    by_cases hy : y = x
    · subst hy; simp [ha]
    · simp only [Function.update_of_ne hy]; exact hi.absent y
  · intro y
    by_cases hy : y = x
    · subst hy
      simp only [Function.update_self]
      intro e; rw [hf e]
    · simp only [Function.update_of_ne hy]; exact hi.fresh y
  · intro y l
    by_cases hy : y = x
    · subst hy
      simp only [Function.update_self]
      intro e; exact ⟨P', rfl, hm l e⟩
    · simp only [Function.update_of_ne hy]; exact hi.full y l
  · intro y P e
    by_cases hy : y = x
    · subst hy
      simp only [Function.update_self, Option.some.injEq] at e
      exact e ▸ hg
    · simp only [Function.update_of_ne hy] at e
      refine ⟨fun g hgm q e' => ?_, (hi.good y P e).inj⟩
      obtain ⟨a, b⟩ := other y P q hy e ⟨g, hgm, e'⟩
      exact (hkeep q a b).1
  · intro y z q h1 h2
    rcases owns_update.mp h1 with ⟨rfl, P, eP, hP⟩ | ⟨hy, P, eP, hP⟩ <;>
      rcases owns_update.mp h2 with ⟨rfl, R, eR, hR⟩ | ⟨hz, R, eR, hR⟩
    · rfl
    · obtain rfl : P' = P := by simpa using eP
      obtain ⟨a, b⟩ := other z R q hz eR hR
      exact absurd hP (hkeep q a b).2
    · obtain rfl : P' = R := by simpa using eR
      obtain ⟨a, b⟩ := other y P q hy eP hP
      exact absurd hR (hkeep q a b).2
    · exact hi.one y z q ⟨P, eP, hP⟩ ⟨R, eR, hR⟩
  · intro q hq hn
    refine ⟨(hkeep q hq (hn x)).1, fun y hy => ?_⟩
    rcases owns_update.mp hy with ⟨rfl, P, eP, hP⟩ | ⟨hy, P, eP, hP⟩
    · obtain rfl : P' = P := by simpa using eP
      exact (hkeep q hq (hn y)).2 hP
    · exact hn y ⟨P, eP, hP⟩

/-- ... and if the object's old blocks are gone, everything keeps an owner. -/
theorem owned_update {s : MeshState} (ho : AllOwned s) {x : Nat} {h' : Heap} {P' : Ptrs}
    (hall : ∀ q ∈ h'.live, (q ∈ s.heap.live ∧ ¬ Owns s x q) ∨ Has P' q) :
    AllOwned ⟨h', Function.update s.obj x (some P')⟩ := by
  intro q hq
  rcases hall q hq with ⟨a, b⟩ | a
  · obtain ⟨y, P, e, hP⟩ := ho q a
    exact ⟨y, owns_update.mpr (Or.inr ⟨fun hc => b (hc ▸ ⟨P, e, hP⟩), P, e, hP⟩)⟩
  · exact ⟨x, owns_update.mpr (Or.inl ⟨rfl, P', rfl, a⟩)⟩

theorem inv_live {s : MeshState} {f : Nat → Status} (hi : Inv s f) {x q : Nat} (h : Owns s x q) :
    q ∈ s.heap.live := by
  obtain ⟨P, e, g, hgm, e'⟩ := h
  exact (hi.good x P e).live g hgm q e'

theorem step_ok {s : MeshState} {f : Nat → Status} (hi : Inv s f) (c : MeshCmd) (hc : Careful f c) :
    ∃ s', meshStep s c = .ok s' ∧ Inv s' (track f c) ∧ Step s s' ∧
      (Thrifty f c → AllOwned s → AllOwned s') := by
  have idUpd : ∀ {x : Nat} {v : Status}, f x = v → Function.update f x v = f := by
    intro x v e
    rw [← e, Function.update_eq_self]
  cases c with
  | make x =>
    have hx : s.obj x = none := (hi.absent x).mp hc
    have hno : ∀ q, ¬ Owns s x q := by rintro q ⟨P, e, -⟩; rw [hx] at e; cases e
    obtain ⟨a, b⟩ := inv_update hi (x := x) (h' := s.heap) (P' := Ptrs.null) (st := .fresh) hi.bound
      (good_null _) (fun q hq _ => ⟨hq, null_has q⟩)
      (fun q hq => absurd hq (null_has q)) (by simp) (fun _ => rfl) (fun _ e => by cases e)
    refine ⟨_, by simp only [meshStep, hx], a, b, fun _ ho => owned_update ho ?_⟩
    exact fun q hq => Or.inl ⟨hq, hno q⟩
  | mesh x l =>
    have hx : s.obj x ≠ none := fun e => hc ((hi.absent x).mpr e)
    obtain ⟨P, e⟩ := Option.ne_none_iff_exists'.mp hx
    obtain ⟨h', P', e', hfull, hgood, hn, hb, hnew, hlive⟩ := mesh_grow (P := P) l hi.bound
    obtain ⟨a, b⟩ := inv_update hi (x := x) (h' := h') (P' := P') (st := .meshed l) hb hgood
      (fun q hq _ => ⟨(hlive q).mpr (Or.inl hq), fun hc => absurd (hi.bound q hq) (not_lt.mpr (hnew q hc))⟩)
      (fun q hq => Or.inr (hnew q hq)) (by simp) (fun e => by cases e)
      (fun l' e => by obtain rfl : l = l' := by simpa using e
                      exact hfull)
    refine ⟨_, by simp only [meshStep, e, e', ok_bind], a, b, fun ht ho => owned_update ho ?_⟩
    intro q hq
    rcases (hlive q).mp hq with hq | hq
    · refine Or.inl ⟨hq, ?_⟩
      rintro ⟨R, eR, hR⟩
      rw [hi.fresh x ht] at eR
      obtain rfl : Ptrs.null = R := by simpa using eR
      exact null_has q hR
    · exact Or.inr hq
  | kelvin x =>
    obtain ⟨l, hl⟩ := hc
    obtain ⟨P, e, hfull⟩ := hi.full x l hl
    obtain ⟨h', P', e', hfull', hgrow⟩ := kelvin_ok hi.bound (hi.good x P e) hfull
    have hown : ∀ q, Owns s x q ↔ Has P q := by
      intro q
      constructor
      · rintro ⟨R, eR, hR⟩
        rw [e] at eR
        obtain rfl : P = R := by simpa using eR
        exact hR
      · exact fun h => ⟨P, e, h⟩
    obtain ⟨a, b⟩ := inv_update hi (x := x) (h' := h') (P' := P') (st := .meshed l) hgrow.bound hgrow.good
      (fun q hq hn => hgrow.keep q hq (fun hc => hn ((hown q).mpr hc)))
      (fun q hq => (hgrow.new q hq).imp (hown q).mpr id) (by simp) (fun e => by cases e)
      (fun l' e => by obtain rfl : l = l' := by simpa using e
                      exact hfull')
    rw [idUpd hl] at a
    refine ⟨_, by simp only [meshStep, e, e', ok_bind], a, b, fun _ ho => owned_update ho ?_⟩
    intro q hq
    exact (hgrow.all q hq).imp (fun h => ⟨h.1, fun hc => h.2 ((hown q).mp hc)⟩) id
  | use x =>
    obtain ⟨P, e, hfull⟩ := hi.full x true hc
    have hg := hi.good x P e
    refine ⟨s, ?_, hi, ⟨fun q hq hn => ⟨hq, hn⟩⟩, fun _ ho => ho⟩
    simp only [meshStep, e]
    rw [readField_ok hg (by decide) hfull.points, ok_bind, readField_ok hg (by decide) hfull.triangles,
      ok_bind, readField_ok hg (by decide) (hfull.attr rfl), ok_bind]
  | copy y x =>
    obtain ⟨h1, h2⟩ := hc
    have hy : s.obj y = none := (hi.absent y).mp h1
    have hno : ∀ q, ¬ Owns s y q := by rintro q ⟨P, e, -⟩; rw [hy] at e; cases e
    obtain ⟨a, b⟩ := inv_update hi (x := y) (h' := s.heap) (P' := Ptrs.null) (st := .fresh) hi.bound
      (good_null _) (fun q hq _ => ⟨hq, null_has q⟩)
      (fun q hq => absurd hq (null_has q)) (by simp) (fun _ => rfl) (fun _ e => by cases e)
    refine ⟨_, by simp only [meshStep, hy, hi.fresh x h2], ?_, b, fun _ ho => owned_update ho ?_⟩
    · simpa only [track, h2] using a
    · exact fun q hq => Or.inl ⟨hq, hno q⟩
  | assign y x =>
    obtain ⟨h1, h2⟩ := hc
    have hy : s.obj y ≠ none := fun e => h1 ((hi.absent y).mpr e)
    obtain ⟨R, eR⟩ := Option.ne_none_iff_exists'.mp hy
    obtain ⟨a, b⟩ := inv_update hi (x := y) (h' := s.heap) (P' := Ptrs.null) (st := .fresh) hi.bound
      (good_null _) (fun q hq _ => ⟨hq, null_has q⟩)
      (fun q hq => absurd hq (null_has q)) (by simp) (fun _ => rfl) (fun _ e => by cases e)
    refine ⟨_, by simp only [meshStep, eR, hi.fresh x h2], ?_, b, fun ht ho => owned_update ho ?_⟩
    · simpa only [track, h2] using a
    · intro q hq
      refine Or.inl ⟨hq, ?_⟩
      rintro ⟨R', eR', hR⟩
      rw [hi.fresh y ht] at eR'
      obtain rfl : Ptrs.null = R' := by simpa using eR'
      exact null_has q hR
  | destroy x =>
    have hx : s.obj x ≠ none := fun e => hc ((hi.absent x).mpr e)
    obtain ⟨P, e⟩ := Option.ne_none_iff_exists'.mp hx
    obtain ⟨h', e', hn, hlive⟩ := destroy_ok (hi.good x P e)
    have hown : ∀ y q, Owns ⟨h', Function.update s.obj x none⟩ y q ↔ y ≠ x ∧ Owns s y q := by
      intro y q
      rw [owns_update]
      constructor
      · rintro (⟨-, R, eR, -⟩ | ⟨hy, R, eR, hR⟩)
        · cases eR
        · exact ⟨hy, R, eR, hR⟩
      · rintro ⟨hy, R, eR, hR⟩
        exact Or.inr ⟨hy, R, eR, hR⟩
    refine ⟨⟨h', Function.update s.obj x none⟩, by simp only [meshStep, e, e', ok_bind],
      ⟨?_, ?_, ?_, ?_, ?_, ?_⟩, ⟨?_⟩, ?_⟩
    · intro q hq
      have := hi.bound q ((hlive q).mp hq).1
      simp only [hn]; exact this
    · intro y
      simp only [track]
      by_cases hy : y = x
      · subst hy; simp
      · simp only [Function.update_of_ne hy]; exact hi.absent y
    · intro y
      simp only [track]
      by_cases hy : y = x
      · subst hy; simp
      · simp only [Function.update_of_ne hy]; exact hi.fresh y
    · intro y l
      simp only [track]
      by_cases hy : y = x
      · subst hy; simp
      · simp only [Function.update_of_ne hy]; exact hi.full y l
    · intro y R eR
      by_cases hy : y = x
      · subst hy; simp at eR
      · simp only [Function.update_of_ne hy] at eR
        refine ⟨fun g hgm q e2 => ?_, (hi.good y R eR).inj⟩
        refine (hlive q).mpr ⟨(hi.good y R eR).live g hgm q e2, fun hc => ?_⟩
        exact hy (hi.one y x q ⟨R, eR, g, hgm, e2⟩ ⟨P, e, hc⟩)
    · intro y z q h1 h2
      exact hi.one y z q ((hown y q).mp h1).2 ((hown z q).mp h2).2
    · intro q hq hno
      refine ⟨(hlive q).mpr ⟨hq, fun hc => hno x ⟨P, e, hc⟩⟩, fun y hy => hno y ((hown y q).mp hy).2⟩
    · intro _ ho q hq
      obtain ⟨a, b⟩ := (hlive q).mp hq
      obtain ⟨y, hy⟩ := ho q a
      refine ⟨y, (hown y q).mpr ⟨?_, hy⟩⟩
      rintro rfl
      obtain ⟨R, eR, hR⟩ := hy
      rw [e] at eR
      obtain rfl : P = R := by simpa using eR
      exact b hR

theorem run_ok (cs : List MeshCmd) : ∀ (s : MeshState) (f : Nat → Status), Inv s f →
    AllCmds Careful cs f → ∃ s', meshRun cs s = .ok s' ∧ Inv s' (trackAll cs f) ∧ Step s s' ∧
      (AllCmds Thrifty cs f → AllOwned s → AllOwned s') := by
  induction cs with
  | nil => intro s f hi _; exact ⟨s, rfl, hi, ⟨fun q hq hn => ⟨hq, hn⟩⟩, fun _ ho => ho⟩
  | cons c cs ih =>
    intro s f hi hc
    obtain ⟨s1, e1, i1, st1, o1⟩ := step_ok hi c hc.1
    obtain ⟨s2, e2, i2, st2, o2⟩ := ih s1 _ i1 hc.2
    refine ⟨s2, ?_, i2, ⟨fun q hq hn => ?_⟩, fun ht ho => o2 ht.2 (o1 ht.1 ho)⟩
    · unfold meshRun
      rw [List.foldlM_cons, e1]
      exact e2
    · obtain ⟨a, b⟩ := st1.leak q hq hn
      exact st2.leak q a b

theorem inv_start : Inv MeshState.start (fun _ => .absent) where
  bound := by simp [MeshState.start]
  absent := by simp [MeshState.start]
  fresh := by simp
  full := by simp
  good := by simp [MeshState.start]
  one := by rintro x y q ⟨P, e, -⟩; cases e

theorem meshRun_append (a b : List MeshCmd) (s : MeshState) :
    meshRun (a ++ b) s = (meshRun a s >>= meshRun b) := by
  unfold meshRun
  exact List.foldlM_append

end Nikfemm
