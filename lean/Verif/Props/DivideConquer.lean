import Verif.Lemmas.DivideConquer
import Verif.Spec.Segments
import Mathlib.Data.Finset.Insert
import Mathlib.Algebra.Order.Ring.Rat

/-!
# Properties C139 to C142: the first triangulation, and its ghost triangles
-/

set_option linter.unusedSectionVars false

namespace Nikfemm
open Ghosts

variable {K : Type}

/-! ## C139: two and three vertices -/

section
variable [Zero K]

/-- C139: from two vertices `divconqrecurse` makes two ghost triangles with the edge between the vertices.  They are
each other's neighbours at all edges.  The handles are as `mergehulls` needs them, and no other triangle is touched. -/
theorem two_vertices (m : TMesh K) {v0 v1 t1 t2 : Nat} (h12 : t1 ≠ t2) (ht1 : t1 ≠ 0) (ht2 : t2 ≠ 0)
    (hv0 : v0 ≠ 0) (hv1 : v1 ≠ 0) (hv : v0 ≠ v1) :
    let h := m.twoVertices v0 v1 t1 t2
    h.Ok {t1, t2} v0 v1 ∧ (∀ t ∈ ({t1, t2} : Finset Nat), h.m.Ghost t) ∧
    (∀ a b, a ≠ 0 → b ≠ 0 →
      ((∃ e : TEdge, e.1 ∈ ({t1, t2} : Finset Nat) ∧ h.m.org e = a ∧ h.m.dest e = b) ↔
        (a = v0 ∧ b = v1) ∨ (a = v1 ∧ b = v0))) ∧
    ∀ e : TEdge, e.1 ≠ t1 → e.1 ≠ t2 → h.m.nb e = m.nb e ∧ h.m.apex e = m.apex e ∧ h.m.sg e = m.sg e := by
  intro h
  obtain ⟨fl, fr, a0, a1, a2, b0, b1, b2, p0, p1, p2, q0, q1, q2, rest, bare⟩ := two_table m v0 v1 t1 t2 h12
  change h.farleft = _ at fl
  have tri : ∀ e : TEdge, e.1 ∈ ({t1, t2} : Finset Nat) →
      e = (t1, 0) ∨ e = (t1, 1) ∨ e = (t1, 2) ∨ e = (t2, 0) ∨ e = (t2, 1) ∨ e = (t2, 2) := by
    rintro ⟨t, i⟩ ht
    simp only [Finset.mem_insert, Finset.mem_singleton] at ht
    have hi : i = 0 ∨ i = 1 ∨ i = 2 := by omega
    rcases ht with rfl | rfl <;> rcases hi with rfl | rfl | rfl <;> simp
  have hv' := hv.symm
  have hv0' := hv0.symm
  have hv1' := hv1.symm
  change h.farright = _ at fr
  change h.m.nb _ = _ at a0 a1 a2 b0 b1 b2
  change h.m.apex _ = _ at p0 p1 p2 q0 q1 q2
  have C : h.m.Closed {t1, t2} := by
    refine ⟨by simp [ht1.symm, ht2.symm], ?_, ?_, ?_⟩
    · intro e he
      rcases tri e he with rfl | rfl | rfl | rfl | rfl | rfl <;>
        simp [TMesh.org, TMesh.dest, lnext, lprev, a0, a1, a2, b0, b1, b2, p0, p1, p2, q0, q1, q2]
    · intro e he
      rcases tri e he with rfl | rfl | rfl | rfl | rfl | rfl <;>
        simp [TMesh.org, TMesh.dest, lnext, lprev, p0, p1, p2, q0, q1, q2, hv0, hv1, hv, hv', hv0', hv1']
    · rintro ⟨t, i⟩ he
      simp only [Finset.mem_insert, Finset.mem_singleton] at he
      rcases he with rfl | rfl
      · exact (bare i).1
      · exact (bare i).2
  refine ⟨⟨C, ?_, ?_, ?_⟩, ?_, ?_, rest⟩
  · refine fence_of (t2, 1) 2 ?_ ?_
    · simp [around, lnext, a0, a1, a2, b0, b1, b2]
    · intro d hd h0
      rcases tri d hd with rfl | rfl | rfl | rfl | rfl | rfl <;>
        simp [TMesh.dest, lprev, p0, p1, p2, q0, q1, q2, hv0, hv1] at h0
      · exact ⟨1, by omega, by simp [around, lnext, b2]⟩
      · exact ⟨0, by omega, rfl⟩
  · simp [fl, TMesh.org, TMesh.dest, lnext, lprev, q0, q2]
  · simp [fr, TMesh.org, TMesh.dest, lnext, lprev, q0, q1]
  · intro t ht
    simp only [Finset.mem_insert, Finset.mem_singleton] at ht
    rcases ht with rfl | rfl
    · exact ⟨0, p0⟩
    · exact ⟨0, q0⟩
  · intro a b ha hb
    constructor
    · rintro ⟨e, he, rfl, rfl⟩
      rcases tri e he with rfl | rfl | rfl | rfl | rfl | rfl <;>
        simp [TMesh.org, TMesh.dest, lnext, lprev, p0, p1, p2, q0, q1, q2] at ha hb ⊢
    · rintro (⟨rfl, rfl⟩ | ⟨rfl, rfl⟩)
      · exact ⟨(t1, 0), by simp, by simp [TMesh.org, lnext, p1], by simp [TMesh.dest, lprev, p2]⟩
      · exact ⟨(t2, 0), by simp, by simp [TMesh.org, lnext, q1], by simp [TMesh.dest, lprev, q2]⟩

end

section
variable [Field K] [LinearOrder K] [IsStrictOrderedRing K]

theorem orient_pos_iff (a b c : Vec K) : 0 < orient a b c ↔ CcwPts a b c := by
  unfold orient CcwPts
  rw [show (a.x - c.x) * (b.y - c.y) - (a.y - c.y) * (b.x - c.x) =
    a.x * b.y - a.y * b.x + (b.x * c.y - b.y * c.x) + (c.x * a.y - c.y * a.x) by ring]

theorem orient_neg_iff (a b c : Vec K) : orient a b c < 0 ↔ CcwPts a c b := by
  unfold orient CcwPts
  constructor <;> intro h <;> linarith

/-- C139: three vertices on a line give two edges, each with two ghost triangles. -/
theorem three_in_line (pos : Nat → Vec K) (m : TMesh K) {v0 v1 v2 n0 n1 n2 n3 : Nat}
    (F : Fresh v0 v1 v2 n0 n1 n2 n3) (hl : ¬ CcwPts (pos v0) (pos v1) (pos v2))
    (hr : ¬ CcwPts (pos v0) (pos v2) (pos v1)) :
    let h := m.threeVertices pos v0 v1 v2 n0 n1 n2 n3
    h.Ok {n0, n1, n2, n3} v0 v2 ∧
    (∀ t ∈ ({n0, n1, n2, n3} : Finset Nat), h.m.Ghost t) ∧
    (∀ a b, a ≠ 0 → b ≠ 0 →
      ((∃ e : TEdge, e.1 ∈ ({n0, n1, n2, n3} : Finset Nat) ∧ h.m.org e = a ∧ h.m.dest e = b) ↔
        (a = v0 ∧ b = v1) ∨ (a = v1 ∧ b = v0) ∨ (a = v1 ∧ b = v2) ∨ (a = v2 ∧ b = v1))) ∧
    (∀ e : TEdge, e.1 ≠ n0 → e.1 ≠ n1 → e.1 ≠ n2 → e.1 ≠ n3 →
      h.m.nb e = m.nb e ∧ h.m.apex e = m.apex e ∧ h.m.sg e = m.sg e) := by
  obtain ⟨ft, fv⟩ := F
  simp only [List.nodup_cons, List.mem_cons, List.not_mem_nil, or_false, not_or] at ft fv
  have z : orient (pos v0) (pos v1) (pos v2) = 0 := by
    rw [← orient_pos_iff] at hl; rw [← orient_neg_iff] at hr
    exact le_antisymm (not_lt.1 hl) (not_lt.1 hr)
  have := line_ok m (v0 := v0) (v1 := v1) (v2 := v2) (n0 := n0) (n1 := n1) (n2 := n2) (n3 := n3) ft.2.1.1 ft.2.1.2.1
    ft.2.1.2.2 ft.2.2.1.1 ft.2.2.1.2 ft.2.2.2.1 (Ne.symm ft.1.1) (Ne.symm ft.1.2.1) (Ne.symm ft.1.2.2.1) (Ne.symm ft.1.2.2.2)
    (Ne.symm fv.1.1) (Ne.symm fv.1.2.1) (Ne.symm fv.1.2.2) fv.2.1.1 fv.2.1.2 fv.2.2.1
  simp only [TMesh.threeVertices, z, if_true]
  exact ⟨this.1, this.2.2.1, this.2.2.2, this.2.1⟩

/-- C139: three vertices that are not on a line give one counterclockwise triangle with these corners, and a ghost
triangle at each of its edges. -/
theorem three_corners (pos : Nat → Vec K) (m : TMesh K) {v0 v1 v2 n0 n1 n2 n3 : Nat}
    (F : Fresh v0 v1 v2 n0 n1 n2 n3)
    (hc : CcwPts (pos v0) (pos v1) (pos v2) ∨ CcwPts (pos v0) (pos v2) (pos v1)) :
    let h := m.threeVertices pos v0 v1 v2 n0 n1 n2 n3
    h.Ok {n0, n1, n2, n3} v0 v2 ∧ h.m.Solid {n0, n1, n2, n3} ∧
    (∀ t ∈ ({n0, n1, n2, n3} : Finset Nat), h.m.Ghost t ↔ t ≠ n0) ∧
    h.m.Ccw (· = n0) pos ∧ (∀ v, h.m.HasCorner (· = n0) v ↔ v = v0 ∨ v = v1 ∨ v = v2) ∧
    (∀ e : TEdge, e.1 ≠ n0 → e.1 ≠ n1 → e.1 ≠ n2 → e.1 ≠ n3 →
      h.m.nb e = m.nb e ∧ h.m.apex e = m.apex e ∧ h.m.sg e = m.sg e) := by
  obtain ⟨ft, fv⟩ := F
  simp only [List.nodup_cons, List.mem_cons, List.not_mem_nil, or_false, not_or] at ft fv
  have turn : ∀ {h : TMesh K} {a b c : Nat}, h.corners (n0, 0) = (a, b, c) →
      CcwPts (pos a) (pos b) (pos c) →
      h.Ccw (· = n0) pos ∧ (∀ v, h.HasCorner (· = n0) v ↔ v = a ∨ v = b ∨ v = c) := by
    intro h a b c hcor hccw
    simp only [TMesh.corners, TMesh.org, TMesh.dest, lnext, lprev, Prod.mk.injEq] at hcor
    obtain ⟨e1, e2, e0⟩ := hcor
    simp only [zero_add] at e1 e2
    unfold CcwPts at hccw
    constructor
    · rintro ⟨t, i⟩ rfl
      have hi : i = 0 ∨ i = 1 ∨ i = 2 := by omega
      rcases hi with rfl | rfl | rfl <;>
        simp [TMesh.org, TMesh.dest, lnext, lprev, e0, e1, e2, CcwPts] <;> linarith
    · intro v
      constructor
      · rintro ⟨⟨t, i⟩, rfl, rfl⟩
        have hi : i = 0 ∨ i = 1 ∨ i = 2 := by omega
        rcases hi with rfl | rfl | rfl <;> simp [e0, e1, e2]
      · rintro (rfl | rfl | rfl)
        · exact ⟨(n0, 1), rfl, e1⟩
        · exact ⟨(n0, 2), rfl, e2⟩
        · exact ⟨(n0, 0), rfl, e0⟩
  rcases hc with hc | hc
  · have z := (orient_pos_iff _ _ _).2 hc
    have := ccw_ok m (v0 := v0) (v1 := v1) (v2 := v2) (n0 := n0) (n1 := n1) (n2 := n2) (n3 := n3) ft.2.1.1 ft.2.1.2.1
      ft.2.1.2.2 ft.2.2.1.1 ft.2.2.1.2 ft.2.2.2.1 (Ne.symm ft.1.1) (Ne.symm ft.1.2.1) (Ne.symm ft.1.2.2.1) (Ne.symm ft.1.2.2.2)
      (Ne.symm fv.1.1) (Ne.symm fv.1.2.1) (Ne.symm fv.1.2.2) fv.2.1.1 fv.2.1.2 fv.2.2.1
    simp only [TMesh.threeVertices, z.ne', if_false, z, decide_true]
    obtain ⟨t1, t2⟩ := turn this.2.2.2.2 hc
    exact ⟨this.1, this.2.2.1, this.2.2.2.1, t1, t2, this.2.1⟩
  · have z := (orient_neg_iff _ _ _).2 hc
    have := cw_ok m (v0 := v0) (v1 := v1) (v2 := v2) (n0 := n0) (n1 := n1) (n2 := n2) (n3 := n3) ft.2.1.1 ft.2.1.2.1
      ft.2.1.2.2 ft.2.2.1.1 ft.2.2.1.2 ft.2.2.2.1 (Ne.symm ft.1.1) (Ne.symm ft.1.2.1) (Ne.symm ft.1.2.2.1) (Ne.symm ft.1.2.2.2)
      (Ne.symm fv.1.1) (Ne.symm fv.1.2.1) (Ne.symm fv.1.2.2) fv.2.1.1 fv.2.1.2 fv.2.2.1
    simp only [TMesh.threeVertices, z.ne, if_false, not_lt.2 z.le, decide_false]
    obtain ⟨t1, t2⟩ := turn this.2.2.2.2 hc
    refine ⟨this.1, this.2.2.1, this.2.2.2.1, t1, ?_, this.2.1⟩
    intro v
    rw [t2 v]
    constructor <;> rintro (h | h | h) <;> simp [h]

end

/-! ## C140: `removeghosts` -/

/-- C140: `removeghosts` ends after at most as many rounds as there are triangles, without touching a triangle that it
has given back; it gives back the ghost triangles, each once, and counts them. -/
theorem removeghosts_ends {m : TMesh K} {all : Finset Nat} (C : m.Closed all) (F : m.OneFence all) {start : TEdge}
    (hs : start.1 ∈ all) (h0 : m.dest start = 0) :
    ∃ s, (∀ n, all.card ≤ n → m.removeghosts start n = some s) ∧
      s.freed.Nodup ∧ (∀ t, t ∈ s.freed ↔ t ∈ all ∧ m.Ghost t) ∧ s.hullsize = s.freed.length := by
  obtain ⟨n, s, hn, hc, hr, hmin, run, I⟩ := removeghosts_run C hs h0
  refine ⟨s, fun f hf => run f (by omega), ?_, freed_iff C F hs h0 hn hr I, ?_⟩
  · rw [I.freed, List.nodup_reverse]
    refine List.Nodup.map_on ?_ List.nodup_range
    intro i hi j hj he
    rw [List.mem_range] at hi hj
    exact trip_inj C hs h0 hmin hi hj he
  · rw [I.freed, I.size]; simp

/-- C140: what is left is a consistent triangulation.  The triangles keep their corners and their attributes; an edge
is an outer edge if a ghost triangle was there, otherwise it keeps its neighbour. -/
theorem removeghosts_correct {m : TMesh K} {all : Finset Nat} (C : m.Closed all) (F : m.OneFence all)
    (S : m.Solid all) {start : TEdge} (hs : start.1 ∈ all) (h0 : m.dest start = 0) {n : Nat} {s : Removal K}
    (hn : all.card ≤ n) (hrun : m.removeghosts start n = some s) :
    s.m.Sound (fun t => t ∈ all ∧ ¬ m.Ghost t) ∧ s.m.apex = m.apex ∧ s.m.attr = m.attr ∧
    (∀ e : TEdge, e.1 ∈ all → ¬ m.Ghost e.1 →
      (m.Ghost (m.nb e).1 → s.m.nb e = space) ∧ (¬ m.Ghost (m.nb e).1 → s.m.nb e = m.nb e)) := by
  obtain ⟨k, s', hk, hc, hr, hmin, run, I⟩ := removeghosts_run C hs h0
  rw [run n (by omega)] at hrun
  obtain rfl : s' = s := by simpa using hrun
  have NB : ∀ e : TEdge, e.1 ∈ all → ¬ m.Ghost e.1 → _ := fun e he hg => nb_end C F hs h0 hk hr I he hg
  have org : ∀ x, s'.m.org x = m.org x := fun x => by simp [TMesh.org, I.apex]
  have dest : ∀ x, s'.m.dest x = m.dest x := fun x => by simp [TMesh.dest, I.apex]
  refine ⟨⟨fun h => C.out h.1, ?_, ?_, ?_, ?_, ?_⟩, I.apex, I.attr, NB⟩
  · rintro e ⟨he, hg⟩
    have hm := C.mate e he
    by_cases hG : m.Ghost (m.nb e).1
    · exact Or.inl ((NB e he hg).1 hG)
    · right
      rw [(NB e he hg).2 hG]
      refine ⟨⟨hm.1, hG⟩, ?_, by rw [org, dest, hm.2.2.1], by rw [org, dest, hm.2.2.2]⟩
      rw [(NB _ hm.1 hG).2 (by rw [hm.2.1]; exact hg), hm.2.1]
  · rintro e ⟨he, _⟩; rw [org, dest]; exact C.corners e he
  · rintro -
    have h1 := I.hull (fun i _ => S _ (iter_mem C hs h0 i).1 (iter_mem C hs h0 i).2)
    rw [h1]
    have hm := C.mate (lprev start) hs
    refine ⟨⟨hm.1, S start hs h0⟩, ?_⟩
    apply (NB _ hm.1 (S start hs h0)).1
    rw [hm.2.1]
    exact handle_ghost (d := start) h0
  · rintro e ⟨he, _⟩; left; rw [I.sg]; exact C.bare e he
  · rintro _ e ⟨he, _⟩; rw [I.sg]; exact C.bare e he

/-- C141: if there are only ghost triangles (all vertices on a line), no triangle is left, and outer space is its own
neighbour: no search can start at a triangle that was given back. -/
theorem removeghosts_flat {m : TMesh K} {all : Finset Nat} (C : m.Closed all) (F : m.OneFence all)
    (G : ∀ t ∈ all, m.Ghost t) {start : TEdge} (hs : start.1 ∈ all) (h0 : m.dest start = 0) {n : Nat}
    {s : Removal K} (hn : all.card ≤ n) (hrun : m.removeghosts start n = some s) :
    (∀ t, t ∈ s.freed ↔ t ∈ all) ∧ s.m.nb space = space := by
  obtain ⟨k, s', hk, hc, hr, hmin, run, I⟩ := removeghosts_run C hs h0
  rw [run n (by omega)] at hrun
  obtain rfl : s' = s := by simpa using hrun
  have hf := freed_iff C F hs h0 hk hr I
  refine ⟨fun t => by rw [hf]; exact ⟨fun h => h.1, fun h => ⟨h, G t h⟩⟩, ?_⟩
  have D := iter_mem C hs h0 (k - 1)
  have hb := base_ends C D.1 D.2
  have hm := C.mate (lprev ((around m)^[k - 1] start)) D.1
  obtain ⟨i, hi, hie⟩ := (mem_freed I _).1 ((hf _).2 ⟨hm.1, G _ hm.1⟩)
  have Di := iter_mem C hs h0 i
  have e := base_unique Di.2 (by rw [hm.2.2.1]; exact hb.2) (by rw [hm.2.2.2]; exact hb.1) hie.symm
  refine I.flat i (k - 1) ?_ (by omega) e
  rcases Nat.lt_or_ge i (k - 1) with h | h
  · exact h
  · exfalso
    obtain rfl : i = k - 1 := by omega
    have h2 := hm.2.2.1
    rw [e] at h2
    exact C.corners (lprev ((around m)^[k - 1] start)) D.1 h2

/-! ## C142: three points -/

/-- C142: for three vertices that are not on a line, divide and conquer leaves one triangle with these corners,
counterclockwise, at whose edges outer space is; the hull has three edges. -/
theorem three_points [Field K] [LinearOrder K] [IsStrictOrderedRing K] (pos : Nat → Vec K) (m : TMesh K)
    {v0 v1 v2 n0 n1 n2 n3 : Nat} (F : Fresh v0 v1 v2 n0 n1 n2 n3)
    (hc : CcwPts (pos v0) (pos v1) (pos v2) ∨ CcwPts (pos v0) (pos v2) (pos v1)) :
    ∃ s, (m.threeVertices pos v0 v1 v2 n0 n1 n2 n3).m.removeghosts
        (m.threeVertices pos v0 v1 v2 n0 n1 n2 n3).farleft 4 = some s ∧
      s.hullsize = 3 ∧ (∀ t, t ∈ s.freed ↔ t = n1 ∨ t = n2 ∨ t = n3) ∧ s.m.Sound (· = n0) ∧
      s.m.Ccw (· = n0) pos ∧ (∀ v, s.m.HasCorner (· = n0) v ↔ v = v0 ∨ v = v1 ∨ v = v2) ∧
      (∀ i, s.m.nb (n0, i) = space) ∧ s.m.FullyDelaunay (· = n0) pos ∧
      (∀ w, s.m.HasCorner (· = n0) w → ¬ s.m.Beyond (· = n0) pos (pos w)) := by
  obtain ⟨O, S, G, ccw, cor, -⟩ := three_corners pos m F hc
  generalize m.threeVertices pos v0 v1 v2 n0 n1 n2 n3 = h at *
  obtain ⟨ft, -⟩ := F
  simp only [List.nodup_cons, List.mem_cons, List.not_mem_nil, or_false, not_or] at ft
  have card : ({n0, n1, n2, n3} : Finset Nat).card ≤ 4 := Finset.card_le_four
  obtain ⟨s, run, nd, fr, hz⟩ := removeghosts_ends O.closed O.fence O.left.1 O.left.2.2
  obtain ⟨so, ap, at', nb⟩ := removeghosts_correct O.closed O.fence S O.left.1 O.left.2.2 card (run 4 card)
  have live : (fun t => t ∈ ({n0, n1, n2, n3} : Finset Nat) ∧ ¬ h.m.Ghost t) = (· = n0) := by
    funext t; apply propext
    constructor
    · rintro ⟨h1, h2⟩
      by_contra h3
      exact h2 ((G t h1).2 h3)
    · rintro rfl
      exact ⟨by simp, fun h2 => (G t (by simp)).1 h2 rfl⟩
  have n0g : ¬ h.m.Ghost n0 := fun h2 => (G n0 (by simp)).1 h2 rfl
  have fr' : ∀ t, t ∈ s.freed ↔ t = n1 ∨ t = n2 ∨ t = n3 := by
    intro t; rw [fr]
    constructor
    · rintro ⟨h1, h2⟩
      have h3 := (G t h1).1 h2
      simp only [Finset.mem_insert, Finset.mem_singleton] at h1
      rcases h1 with h1 | h1
      · exact absurd h1 h3
      · exact h1
    · intro h1
      have h2 : t ∈ ({n0, n1, n2, n3} : Finset Nat) := by
        simp only [Finset.mem_insert, Finset.mem_singleton]; exact Or.inr h1
      refine ⟨h2, (G t h2).2 ?_⟩
      rcases h1 with rfl | rfl | rfl
      · exact Ne.symm ft.2.1.1
      · exact Ne.symm ft.2.1.2.1
      · exact Ne.symm ft.2.1.2.2
  have out : ∀ i, s.m.nb (n0, i) = space := by
    intro i
    refine (nb (n0, i) (by simp) n0g).1 ?_
    have hm := O.closed.mate (n0, i) (by simp)
    rw [G _ hm.1]
    -- a triangle is not its own neighbour: there would be too few corners
    intro he
    have cn := O.closed.corners
    rcases same_tri (x := h.m.nb (n0, i)) (y := (n0, i)) he with h1 | h1 | h1
    · have h2 := hm.2.2.1
      rw [h1] at h2
      exact cn _ (by simp) h2
    · have h2 := hm.2.2.2
      rw [h1, dest_lnext] at h2
      have h3 := cn (lprev (n0, i)) (by simp [lprev])
      rw [org_lprev, dest_lprev] at h3
      exact h3 h2
    · have h2 := hm.2.2.1
      rw [h1, org_lprev] at h2
      have h3 := cn (lnext (n0, i)) (by simp [lnext])
      rw [org_lnext, dest_lnext] at h3
      exact h3 h2.symm
  have org : ∀ x, s.m.org x = h.m.org x := fun x => by simp [TMesh.org, ap]
  have dest : ∀ x, s.m.dest x = h.m.dest x := fun x => by simp [TMesh.dest, ap]
  have ccw' : s.m.Ccw (· = n0) pos := by
    intro e he
    rw [org, dest, ap]; exact ccw e he
  refine ⟨s, run 4 card, ?_, fr', live ▸ so, ccw', ?_, out, ?_, ?_⟩
  · rw [hz]
    have : s.freed.Perm [n1, n2, n3] := by
      refine (List.perm_ext_iff_of_nodup nd ?_).2 ?_
      · simp only [List.nodup_cons, List.mem_cons, List.not_mem_nil, or_false, not_or]
        exact ⟨ft.2.2.1, ft.2.2.2.1, by simp⟩
      · intro t; rw [fr']; simp
    simpa using this.length_eq
  · intro v; rw [← cor v]; simp [TMesh.HasCorner, ap]
  · rintro ⟨t, i⟩ rfl; exact Or.inl (out i)
  · rintro w ⟨x, hx, rfl⟩ ⟨e, he, -, hb⟩
    have hw : x = e ∨ x = lnext e ∨ x = lprev e := same_tri (hx.trans he.symm)
    have hccw := ccw' e he
    unfold CcwPts at hb hccw
    rcases hw with rfl | rfl | rfl
    · linarith
    · change 0 < _ + (_ * (pos (s.m.org e)).y - _ * (pos (s.m.org e)).x) + _ at hb
      have : s.m.apex (lnext e) = s.m.org e := rfl
      rw [this] at hb; linarith
    · have : s.m.apex (lprev e) = s.m.dest e := rfl
      rw [this] at hb; linarith

/-! ## Examples -/

/-- An empty mesh. -/
def noMesh : TMesh ℚ where
  nb := fun _ => space
  apex := fun _ => 0
  sg := fun _ => noSub
  st := fun _ => space
  sorg := fun _ => 0
  attr := fun _ => 0
  checksegments := false

/-- The vertices 1 to 4; 1, 2 and 4 are on a line. -/
def fourPlaces (v : Nat) : Vec ℚ :=
  if v = 1 then ⟨0, 0⟩ else if v = 2 then ⟨1, 1⟩ else if v = 3 then ⟨2, 0⟩ else ⟨3, 3⟩

/-- the hypotheses of `two_vertices` -/
example : (noMesh.twoVertices 1 2 1 2).Ok {1, 2} 1 2 :=
  (two_vertices noMesh (by decide) (by decide) (by decide) (by decide) (by decide) (by decide)).1

/-- the hypotheses of `three_in_line` -/
example : (noMesh.threeVertices fourPlaces 1 2 4 1 2 3 4).Ok {1, 2, 3, 4} 1 4 :=
  (three_in_line fourPlaces noMesh ⟨by decide, by decide⟩ (by norm_num [CcwPts, fourPlaces])
    (by norm_num [CcwPts, fourPlaces])).1

/-- the hypotheses of `three_corners` and `three_points`, vertices in clockwise order -/
example : Fresh 1 2 3 1 2 3 4 ∧ CcwPts (fourPlaces 1) (fourPlaces 3) (fourPlaces 2) :=
  ⟨⟨by decide, by decide⟩, by norm_num [CcwPts, fourPlaces]⟩

/-- the hypotheses of `removeghosts_correct`: a triangle with its ghost triangles -/
example : ∃ (m : TMesh ℚ) (all : Finset Nat) (start : TEdge), m.Closed all ∧ m.OneFence all ∧ m.Solid all ∧
    start.1 ∈ all ∧ m.dest start = 0 ∧ ∃ t ∈ all, ¬ m.Ghost t := by
  obtain ⟨O, S, G, -⟩ := three_corners fourPlaces noMesh (v0 := 1) (v1 := 2) (v2 := 3) (n0 := 1) (n1 := 2) (n2 := 3)
    (n3 := 4) ⟨by decide, by decide⟩ (Or.inr (by norm_num [CcwPts, fourPlaces]))
  exact ⟨_, _, _, O.closed, O.fence, S, O.left.1, O.left.2.2, 1, by simp, fun h => (G 1 (by simp)).1 h rfl⟩

/-- the hypotheses of `removeghosts_flat`: three vertices on a line -/
example : ∃ (m : TMesh ℚ) (all : Finset Nat) (start : TEdge), m.Closed all ∧ m.OneFence all ∧
    (∀ t ∈ all, m.Ghost t) ∧ start.1 ∈ all ∧ m.dest start = 0 := by
  obtain ⟨O, G, -⟩ := three_in_line fourPlaces noMesh (v0 := 1) (v1 := 2) (v2 := 4) (n0 := 1) (n1 := 2) (n2 := 3)
    (n3 := 4) ⟨by decide, by decide⟩ (by norm_num [CcwPts, fourPlaces]) (by norm_num [CcwPts, fourPlaces])
  exact ⟨_, _, _, O.closed, O.fence, G, O.left.1, O.left.2.2⟩

/-- a run: the ghost triangles 4, 3 and 2 are given back, and the triangle 1 is left -/
example : ((noMesh.threeVertices fourPlaces 1 2 3 1 2 3 4).m.removeghosts
    (noMesh.threeVertices fourPlaces 1 2 3 1 2 3 4).farleft 4).map
      (fun s => (s.hullsize, s.m.nb (1, 0), s.m.corners (1, 0))) = some (3, space, (1, 3, 2)) := by
  decide +kernel

end Nikfemm
