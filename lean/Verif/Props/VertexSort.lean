import Verif.Lemmas.VertexSort
import Mathlib.Data.Rat.Defs
import Mathlib.Algebra.Order.Ring.Rat

/-!
# Properties of the order in which the mesher takes the vertices

* **C94** `vertexsort` sorts, and of every place exactly one vertex is kept.
* **C95** `vertexmedian`, `alternateaxes`: cuts along alternating axes; the random pivots do not matter.
-/

set_option linter.unusedSectionVars false

namespace Nikfemm
namespace VSort

open Spec

variable {K : Type} [LinearOrder K]

/-- **C94** `vertexsort` of a nonempty array of vertices, with whatever random numbers, ends without
leaving the array, and permutes the array into lexicographic order. -/
theorem vertexsort_sorts (seed : ℕ) {a : List (MVertex K)} (h : a ≠ []) :
    ∃ s b, vertexsort a.length seed a = .ok (s, b) ∧ b.Perm a ∧ b.Pairwise (lexLe false) :=
  vertexsort_ok _ seed a h le_rfl

/-- Sorting five vertices, two of them at the same place. -/
example : (vertexsort 5 1 ([⟨0, 3, 1⟩, ⟨1, 0, 2⟩, ⟨2, 3, 0⟩, ⟨3, 0, 2⟩, ⟨4, 1, 1⟩] : List (MVertex ℚ))).toOption.map
    (fun r => r.2.map (fun v => (v.x, v.y))) = some [(0, 2), (0, 2), (1, 1), (3, 0), (3, 1)] := by
  decide +kernel

/-- **C94** The preparation of the triangulation keeps exactly one vertex of every place where there is
one, and discards the others. -/
theorem one_vertex_per_place (dwyer : Bool) (seed : ℕ) {verts : List (MVertex K)} (h : verts ≠ []) :
    ∃ kept dead, arrange dwyer seed verts = .ok (kept, dead) ∧ (kept ++ dead).Perm verts ∧
      kept.Nodup ∧ ∀ v ∈ verts, ∃! k, k ∈ kept ∧ samePlace k v := by
  obtain ⟨kept, dead, h1, h2, h3, h4, -⟩ := arrange_ok dwyer seed h
  have hA : Apart kept := h3
  refine ⟨kept, dead, h1, h2, hA.nodup, ?_⟩
  intro v hv
  obtain ⟨k, hk, hkv⟩ : ∃ k ∈ kept, samePlace k v := by
    rcases List.mem_append.mp (h2.symm.subset hv) with hv | hv
    · exact ⟨v, hv, rfl, rfl⟩
    · exact h4 v hv
  refine ⟨k, ⟨hk, hkv⟩, ?_⟩
  rintro k' ⟨hk', hkv'⟩
  exact hA.eq hk' hk ⟨hkv'.1.trans hkv.1.symm, hkv'.2.trans hkv.2.symm⟩

/-- Two of five vertices are discarded. -/
example : (arrange true 1 ([⟨0, 3, 1⟩, ⟨1, 0, 2⟩, ⟨2, 0, 2⟩, ⟨3, 0, 2⟩, ⟨4, 1, 1⟩] : List (MVertex ℚ))).toOption.map
    (fun r => (r.1.map (fun v => (v.x, v.y)), r.2.map (fun v => (v.x, v.y)))) =
      some ([(0, 2), (1, 1), (3, 1)], [(0, 2), (0, 2)]) := by
  decide +kernel

/-- **C94** Without the alternating cuts the vertices are taken in lexicographic order. -/
theorem plain_order (seed : ℕ) {verts kept dead : List (MVertex K)}
    (h : arrange false seed verts = .ok (kept, dead)) (hv : verts ≠ []) : kept.Pairwise (lexLe false) := by
  obtain ⟨k, d, h1, -, -, -, h5, -⟩ := arrange_ok false seed hv
  rw [h] at h1
  obtain ⟨rfl, rfl⟩ := Prod.mk.inj (Except.ok.inj h1)
  exact h5 rfl

/-- **C95** `vertexmedian` puts the `median` first vertices along the axis in front of the others, for
every position inside the array. -/
theorem vertexmedian_splits (axis : Bool) (seed : ℕ) {median : ℕ} {a : List (MVertex K)} (h1 : 1 ≤ median)
    (h2 : median < a.length) :
    ∃ s l r, vertexmedian axis a.length median seed a = .ok (s, l ++ r) ∧ (l ++ r).Perm a ∧
      l.length = median ∧ ∀ u ∈ l, ∀ v ∈ r, lexLe axis u v := by
  obtain ⟨s, b, q1, q2, l, r, rfl, q3, q4⟩ := vertexmedian_ok axis a.length median seed a h1 h2 le_rfl
  exact ⟨s, l, r, q1, q2, q3, fun u hu v hv => lexLe_iff.mpr (q4 u hu v hv)⟩

/-- The two lowest of five vertices come first. -/
example : (vertexmedian true 5 2 1 ([⟨0, 3, 1⟩, ⟨1, 0, 2⟩, ⟨2, 3, 0⟩, ⟨3, 0, 5⟩, ⟨4, 1, 1⟩] :
    List (MVertex ℚ))).toOption.map (fun r => (r.2.take 2).map (fun v => v.y)) = some [0, 1] := by
  decide +kernel

/-- **C95** With the alternating cuts (the default) the vertices are in the order which the divide and
conquer algorithm needs: halves apart along x, their halves apart along y, and so on, down to sorted
groups of two or three. -/
theorem alternating_cuts (seed : ℕ) {verts kept dead : List (MVertex K)}
    (h : arrange true seed verts = .ok (kept, dead)) (hv : verts ≠ []) : Cut false kept := by
  obtain ⟨k, d, h1, -, -, -, -, h6⟩ := arrange_ok true seed hv
  rw [h] at h1
  obtain ⟨rfl, rfl⟩ := Prod.mk.inj (Except.ok.inj h1)
  exact h6 rfl

/-- **C95** The order of the places depends neither on the random numbers, nor on the order of the
vertices in the input, nor on duplicates. -/
theorem order_determined (dwyer : Bool) (seed seed' : ℕ) {verts verts' kept kept' dead dead' : List (MVertex K)}
    (h : arrange dwyer seed verts = .ok (kept, dead)) (h' : arrange dwyer seed' verts' = .ok (kept', dead'))
    (hv : verts ≠ []) (hs : ∀ x y : K, (∃ v ∈ verts, v.x = x ∧ v.y = y) ↔ ∃ v ∈ verts', v.x = x ∧ v.y = y) :
    kept.map (fun v => (v.x, v.y)) = kept'.map (fun v => (v.x, v.y)) := by
  have hv' : verts' ≠ [] := by
    obtain ⟨v, hv⟩ := List.exists_mem_of_ne_nil _ hv
    obtain ⟨w, hw, -⟩ := (hs v.x v.y).mp ⟨v, hv, rfl, rfl⟩
    exact List.ne_nil_of_mem hw
  obtain ⟨k, d, h1, h2, h3, h4, h5, h6⟩ := arrange_ok dwyer seed hv
  obtain ⟨k', d', h1', h2', h3', h4', h5', h6'⟩ := arrange_ok dwyer seed' hv'
  rw [h] at h1
  rw [h'] at h1'
  obtain ⟨rfl, rfl⟩ := Prod.mk.inj (Except.ok.inj h1)
  obtain ⟨rfl, rfl⟩ := Prod.mk.inj (Except.ok.inj h1')
  have mem : ∀ {verts kept dead : List (MVertex K)}, (kept ++ dead).Perm verts →
      (∀ d ∈ dead, ∃ k ∈ kept, samePlace k d) → ∀ w, w ∈ kept.map strip ↔
        w.id = 0 ∧ ∃ v ∈ verts, v.x = w.x ∧ v.y = w.y := by
    intro verts kept dead hp hd w
    constructor
    · intro hw
      obtain ⟨v, hv, rfl⟩ := List.mem_map.mp hw
      exact ⟨rfl, v, hp.subset (List.mem_append_left _ hv), rfl, rfl⟩
    · rintro ⟨h0, v, hv, e1, e2⟩
      obtain ⟨k, hk, hkv⟩ : ∃ k ∈ kept, samePlace k v := by
        rcases List.mem_append.mp (hp.symm.subset hv) with hv | hv
        · exact ⟨v, hv, rfl, rfl⟩
        · exact hd v hv
      refine List.mem_map.mpr ⟨k, hk, ?_⟩
      obtain ⟨i, x, y⟩ := w
      simp only at h0 e1 e2
      unfold strip
      rw [hkv.1, hkv.2, e1, e2, h0]
  have hp : (kept.map strip).Perm (kept'.map strip) := by
    refine (List.perm_ext_iff_of_nodup (apart_strip h3).nodup (apart_strip h3').nodup).mpr ?_
    intro w
    rw [mem h2 h4, mem h2' h4', hs]
  have heq : kept.map strip = kept'.map strip := by
    cases dwyer with
    | true => exact cut_unique (cut_strip (h6 rfl)) (cut_strip (h6' rfl)) hp (apart_strip h3)
    | false =>
      exact sorted_unique hp (apart_strip h3) (List.pairwise_map.mpr (h5 rfl)) (List.pairwise_map.mpr (h5' rfl))
  have := congrArg (List.map (fun v : MVertex K => (v.x, v.y))) heq
  rw [List.map_map, List.map_map] at this
  exact this

/-- Eight vertices: the left half before the right one, the lower quarter of each before the upper one. -/
example : (arrange true 7 ([⟨0, 0, 5⟩, ⟨1, 1, 0⟩, ⟨2, 2, 7⟩, ⟨3, 3, 1⟩, ⟨4, 4, 8⟩, ⟨5, 5, 2⟩, ⟨6, 6, 6⟩, ⟨7, 7, 3⟩] :
    List (MVertex ℚ))).toOption.map (fun r => r.1.map (fun v => v.id)) = some [1, 3, 0, 2, 5, 7, 4, 6] := by
  decide +kernel

end VSort
end Nikfemm
