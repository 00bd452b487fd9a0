import Verif.Props.RefinementMaterials
import Verif.Lemmas.Direction

/-!
# Vertices and edges do not lie in the way of others
-/

set_option linter.unusedSectionVars false

namespace Nikfemm
variable {K : Type} [Field K] [LinearOrder K] [IsStrictOrderedRing K] {m : TMesh K} {live : Nat → Prop}
  {pos : Nat → Vec K} {p : Vec K}

theorem inside_at (x : TEdge) : m.Inside pos x.1 p ↔ 0 < ccw (pos (m.org x)) (pos (m.dest x)) p ∧
    0 < ccw (pos (m.dest x)) (pos (m.apex x)) p ∧ 0 < ccw (pos (m.apex x)) (pos (m.org x)) p := by
  have key : m.Inside pos x.1 p ↔ 0 < ccw (pos (m.org (x.1, 0))) (pos (m.dest (x.1, 0))) p ∧
    0 < ccw (pos (m.dest (x.1, 0))) (pos (m.apex (x.1, 0))) p ∧
    0 < ccw (pos (m.apex (x.1, 0))) (pos (m.org (x.1, 0))) p := Iff.rfl
  rw [key]
  rcases edge_cases 0 (x := x) (t := x.1) rfl with h | h | h
  · rw [← h]
  · have e : x = lnext (x.1, 0) := h
    rw [e, org_lnext, dest_lnext, apex_lnext]
    show _ ∧ _ ∧ _ ↔ _
    exact ⟨fun ⟨a, b, c⟩ => ⟨b, c, a⟩, fun ⟨a, b, c⟩ => ⟨c, a, b⟩⟩
  · have e : x = lprev (x.1, 0) := h
    rw [e, org_lprev, dest_lprev, apex_lprev]
    exact ⟨fun ⟨a, b, c⟩ => ⟨c, a, b⟩, fun ⟨a, b, c⟩ => ⟨b, c, a⟩⟩

theorem within_at (x : TEdge) : m.Within pos x.1 p ↔ 0 ≤ ccw (pos (m.org x)) (pos (m.dest x)) p ∧
    0 ≤ ccw (pos (m.dest x)) (pos (m.apex x)) p ∧ 0 ≤ ccw (pos (m.apex x)) (pos (m.org x)) p := by
  have sw : ∀ a b : Vec K, ¬ CcwPts b a p ↔ 0 ≤ ccw a b p := by
    intro a b
    show ¬ 0 < ccw b a p ↔ _
    rw [ccw_swap, not_lt]
    constructor <;> intro h <;> linarith
  have key : m.Within pos x.1 p ↔ 0 ≤ ccw (pos (m.org (x.1, 0))) (pos (m.dest (x.1, 0))) p ∧
    0 ≤ ccw (pos (m.dest (x.1, 0))) (pos (m.apex (x.1, 0))) p ∧
    0 ≤ ccw (pos (m.apex (x.1, 0))) (pos (m.org (x.1, 0))) p := by
    unfold TMesh.Within
    rw [sw, sw, sw]
  rw [key]
  rcases edge_cases 0 (x := x) (t := x.1) rfl with h | h | h
  · rw [← h]
  · have e : x = lnext (x.1, 0) := h
    rw [e, org_lnext, dest_lnext, apex_lnext]
    exact ⟨fun ⟨a, b, c⟩ => ⟨b, c, a⟩, fun ⟨a, b, c⟩ => ⟨c, a, b⟩⟩
  · have e : x = lprev (x.1, 0) := h
    rw [e, org_lprev, dest_lprev, apex_lprev]
    exact ⟨fun ⟨a, b, c⟩ => ⟨c, a, b⟩, fun ⟨a, b, c⟩ => ⟨b, c, a⟩⟩

theorem ccw_toward (a b c d : Vec K) (r : K) : ccw a b (c.toward d r) = (1 - r) * ccw a b c + r * ccw a b d := by
  unfold ccw Vec.toward; ring

theorem ccw_aab (a b : Vec K) : ccw a a b = 0 := by unfold ccw; ring
theorem ccw_aba (a b : Vec K) : ccw a b a = 0 := by unfold ccw; ring
theorem ccw_abb (a b : Vec K) : ccw a b b = 0 := by unfold ccw; ring

section
variable (S : m.Sound live) (C : m.Ccw live pos) (A : m.Apart live pos)
include S C A

/-- No vertex is strictly inside of a triangle. -/
theorem vertex_inside {w : Nat} (hw : m.HasCorner live w) {t : Nat} (ht : live t) : ¬ m.Inside pos t (pos w) := by
  obtain ⟨x, hx, rfl⟩ := hw
  intro hi
  have hc : 0 < ccw (pos (m.org x)) (pos (m.dest x)) (pos (m.apex x)) := C x hx
  have hW : m.Within pos x.1 (pos (m.apex x)) := by
    rw [within_at]
    exact ⟨hc.le, (ccw_abb _ _).ge, (ccw_aba _ _).ge⟩
  have : t = x.1 := A.alone C ht hx hi hW
  subst this
  rw [inside_at x, ccw_abb] at hi
  exact lt_irrefl _ hi.2.1

/-- In a triangle corners have different places. -/
theorem place_inj {x y : TEdge} (hx : live x.1) (h : y.1 = x.1) (hp : pos (m.apex y) = pos (m.apex x)) : y = x := by
  have hc : 0 < ccw (pos (m.org x)) (pos (m.dest x)) (pos (m.apex x)) := C x hx
  rcases edge_cases x.2 (x := y) h with h | h | h
  · exact h
  · exfalso
    have e : y = lnext x := h
    rw [e] at hp
    have hp : pos (m.org x) = pos (m.apex x) := hp
    rw [hp, ccw_aba] at hc
    exact lt_irrefl _ hc
  · exfalso
    have e : y = lprev x := h
    rw [e] at hp
    have hp : pos (m.dest x) = pos (m.apex x) := hp
    rw [hp, ccw_abb] at hc
    exact lt_irrefl _ hc

/-- No vertex is on an edge, apart from its ends. -/
theorem vertex_edge (V : ∀ w, m.HasCorner live w → ¬ m.Beyond live pos (pos w)) {w : Nat} (hw : m.HasCorner live w)
    {x : TEdge} (hx : live x.1) {r : K} (h0 : 0 < r) (h1 : r < 1) :
    (pos (m.org x)).toward (pos (m.dest x)) r ≠ pos w := by
  obtain ⟨z, hz, rfl⟩ := hw
  intro hP
  have cx : 0 < ccw (pos (m.org x)) (pos (m.dest x)) (pos (m.apex x)) := C x hx
  have cz : 0 < ccw (pos (m.org z)) (pos (m.dest z)) (pos (m.apex z)) := C z hz
  -- points near the vertex in its triangle
  have near : ∀ L : List (K × K × K), (∀ l ∈ L, 0 < lineAt l (pos (m.apex z))) → ∃ τ : K, 0 < τ ∧ τ < 1 ∧
      ∀ l ∈ L, 0 < lineAt l ((pos (m.apex z)).toward ((pos (m.org z)).toward (pos (m.dest z)) (1 / 2)) τ) := by
    intro L hL
    obtain ⟨s, hs, h⟩ := nudge L hL (((pos (m.org z)).toward (pos (m.dest z)) (1 / 2)).x - (pos (m.apex z)).x)
      (((pos (m.org z)).toward (pos (m.dest z)) (1 / 2)).y - (pos (m.apex z)).y)
    exact ⟨min s (1 / 2), lt_min hs (by norm_num), lt_of_le_of_lt (min_le_right _ _) (by norm_num),
      h _ (lt_min hs (by norm_num)) (min_le_left _ _)⟩
  have inz : ∀ τ : K, 0 < τ → τ < 1 →
      m.Inside pos z.1 ((pos (m.apex z)).toward ((pos (m.org z)).toward (pos (m.dest z)) (1 / 2)) τ) := by
    intro τ t0 t1
    rw [inside_at]
    simp only [ccw_toward, ccw_aba, ccw_abb, mul_zero, add_zero, zero_add]
    have e1 : ccw (pos (m.dest z)) (pos (m.apex z)) (pos (m.org z)) = ccw (pos (m.org z)) (pos (m.dest z)) (pos (m.apex z)) := by
      unfold ccw; ring
    have e2 : ccw (pos (m.apex z)) (pos (m.org z)) (pos (m.dest z)) = ccw (pos (m.org z)) (pos (m.dest z)) (pos (m.apex z)) := by
      unfold ccw; ring
    rw [e1, e2]
    refine ⟨mul_pos (by linarith) cz, mul_pos t0 (mul_pos (by norm_num) cz), mul_pos t0 (mul_pos (by norm_num) cz)⟩
  have own : ∀ y : TEdge, live y.1 → z.1 = y.1 → ∀ q : K, 0 < q → q < 1 →
      (pos (m.org y)).toward (pos (m.dest y)) q ≠ pos (m.apex z) := by
    intro y hy ht q q0 q1 hq
    have cy : 0 < ccw (pos (m.org y)) (pos (m.dest y)) (pos (m.apex y)) := C y hy
    rcases edge_cases y.2 (x := z) ht with h | h | h
    · have e : z = y := h
      rw [e] at hq
      rw [← hq, ccw_toward, ccw_aba, ccw_abb] at cy
      linarith
    · have e : z = lnext y := h
      rw [e] at hq
      have hq : (pos (m.org y)).toward (pos (m.dest y)) q = pos (m.org y) := hq
      have := ccw_toward (pos (m.dest y)) (pos (m.apex y)) (pos (m.org y)) (pos (m.dest y)) q
      rw [hq, ccw_aba, ← ccw_rot] at this
      have : q * ccw (pos (m.org y)) (pos (m.dest y)) (pos (m.apex y)) = 0 := by linarith
      exact (mul_pos q0 cy).ne' this
    · have e : z = lprev y := h
      rw [e] at hq
      have hq : (pos (m.org y)).toward (pos (m.dest y)) q = pos (m.dest y) := hq
      have := ccw_toward (pos (m.apex y)) (pos (m.org y)) (pos (m.org y)) (pos (m.dest y)) q
      rw [hq, ccw_abb, ccw_rot (pos (m.apex y))] at this
      have : (1 - q) * ccw (pos (m.org y)) (pos (m.dest y)) (pos (m.apex y)) = 0 := by linarith
      exact (mul_pos (sub_pos.2 q1) cy).ne' this
  have p1 : 0 < ccw (pos (m.dest x)) (pos (m.apex x)) (pos (m.apex z)) := by
    rw [← hP, ccw_toward, ccw_aba, ← ccw_rot]
    have := mul_pos (sub_pos.2 h1) cx
    linarith
  have p2 : 0 < ccw (pos (m.apex x)) (pos (m.org x)) (pos (m.apex z)) := by
    rw [← hP, ccw_toward, ccw_abb, ccw_rot (pos (m.apex x))]
    have := mul_pos h0 cx
    linarith
  by_cases hs : m.nb x = space
  · obtain ⟨τ, t0, t1, hL⟩ := near [lineOf (pos (m.dest x)) (pos (m.apex x)), lineOf (pos (m.apex x)) (pos (m.org x))] (by
      intro l hl
      simp only [List.mem_cons, List.not_mem_nil, or_false] at hl
      rcases hl with rfl | rfl <;> rw [lineOf_at]
      · exact p1
      · exact p2)
    have k1 := hL (lineOf (pos (m.dest x)) (pos (m.apex x))) (by simp)
    have k2 := hL (lineOf (pos (m.apex x)) (pos (m.org x))) (by simp)
    rw [lineOf_at] at k1 k2
    have side : ∀ y : TEdge, live y.1 → 0 ≤ ccw (pos (m.org x)) (pos (m.dest x)) (pos (m.apex y)) := by
      intro y hy
      by_contra hn
      refine V (m.apex y) ⟨y, hy, rfl⟩ ⟨x, hx, hs, ?_⟩
      show 0 < ccw (pos (m.dest x)) (pos (m.org x)) (pos (m.apex y))
      rw [ccw_swap]; linarith
    have : z.1 = x.1 := by
      refine A.alone C hz hx (inz τ t0 t1) ?_
      rw [within_at]
      refine ⟨?_, k1.le, k2.le⟩
      rw [ccw_toward, ccw_toward]
      have s1 := side z hz
      have s2 : 0 ≤ ccw (pos (m.org x)) (pos (m.dest x)) (pos (m.org z)) := side (lnext z) hz
      have s3 : 0 ≤ ccw (pos (m.org x)) (pos (m.dest x)) (pos (m.dest z)) := side (lprev z) hz
      have := mul_nonneg (sub_pos.2 t1).le s1
      have := mul_nonneg t0.le (add_nonneg (mul_nonneg (by norm_num : (0 : K) ≤ 1 - 1 / 2) s2)
        (mul_nonneg (by norm_num : (0 : K) ≤ 1 / 2) s3))
      linarith
    exact own x hx this r h0 h1 hP
  · have hn := S.nb_live hx hs
    obtain ⟨n1, n2⟩ := S.nb_ends hx hs
    have cn : 0 < ccw (pos (m.dest x)) (pos (m.org x)) (pos (m.apex (m.nb x))) := by
      have := C (m.nb x) hn
      rw [n1, n2] at this
      exact this
    have hP' : (pos (m.org (m.nb x))).toward (pos (m.dest (m.nb x))) (1 - r) = pos (m.apex z) := by
      rw [n1, n2, ← hP]
      unfold Vec.toward
      refine Vec.ext ?_ ?_ <;> simp only <;> ring
    have p3 : 0 < ccw (pos (m.org x)) (pos (m.apex (m.nb x))) (pos (m.apex z)) := by
      rw [← hP, ccw_toward, ccw_aba, ← ccw_rot]
      have := mul_pos h0 cn
      linarith
    have p4 : 0 < ccw (pos (m.apex (m.nb x))) (pos (m.dest x)) (pos (m.apex z)) := by
      rw [← hP, ccw_toward, ccw_abb, ccw_rot (pos (m.apex (m.nb x)))]
      have := mul_pos (sub_pos.2 h1) cn
      linarith
    obtain ⟨τ, t0, t1, hL⟩ := near [lineOf (pos (m.dest x)) (pos (m.apex x)), lineOf (pos (m.apex x)) (pos (m.org x)),
      lineOf (pos (m.org x)) (pos (m.apex (m.nb x))), lineOf (pos (m.apex (m.nb x))) (pos (m.dest x))] (by
      intro l hl
      simp only [List.mem_cons, List.not_mem_nil, or_false] at hl
      rcases hl with rfl | rfl | rfl | rfl <;> rw [lineOf_at]
      exacts [p1, p2, p3, p4])
    have k1 := hL (lineOf (pos (m.dest x)) (pos (m.apex x))) (by simp)
    have k2 := hL (lineOf (pos (m.apex x)) (pos (m.org x))) (by simp)
    have k3 := hL (lineOf (pos (m.org x)) (pos (m.apex (m.nb x)))) (by simp)
    have k4 := hL (lineOf (pos (m.apex (m.nb x))) (pos (m.dest x))) (by simp)
    rw [lineOf_at] at k1 k2 k3 k4
    set q := (pos (m.apex z)).toward ((pos (m.org z)).toward (pos (m.dest z)) (1 / 2)) τ with hq
    rcases le_or_gt 0 (ccw (pos (m.org x)) (pos (m.dest x)) q) with h | h
    · have : z.1 = x.1 := A.alone C hz hx (inz τ t0 t1) ((within_at x).2 ⟨h, k1.le, k2.le⟩)
      exact own x hx this r h0 h1 hP
    · have : z.1 = (m.nb x).1 := by
        refine A.alone C hz hn (inz τ t0 t1) ((within_at (m.nb x)).2 ?_)
        rw [n1, n2]
        refine ⟨?_, k3.le, k4.le⟩
        rw [ccw_swap]; linarith
      exact own (m.nb x) hn this (1 - r) (by linarith) (by linarith) hP'

/-- An edge from the corner of a triangle does not lead into the triangle. -/
theorem edge_outside {e y : TEdge} (he : live e.1) (hy : live y.1) (hd : pos (m.dest y) = pos (m.org e))
    (h1 : 0 < ccw (pos (m.org e)) (pos (m.dest e)) (pos (m.org y)))
    (h2 : 0 < ccw (pos (m.org e)) (pos (m.org y)) (pos (m.apex e))) : False := by
  have ce : 0 < ccw (pos (m.org e)) (pos (m.dest e)) (pos (m.apex e)) := C e he
  have cy : 0 < ccw (pos (m.org y)) (pos (m.dest y)) (pos (m.apex y)) := C y hy
  obtain ⟨s, hs, hL⟩ := nudge [lineOf (pos (m.dest e)) (pos (m.apex e))] (p := pos (m.org e)) (by
    intro l hl
    simp only [List.mem_cons, List.not_mem_nil, or_false] at hl
    subst hl
    rw [lineOf_at, ← ccw_rot]; exact ce) ((pos (m.org y)).x - (pos (m.org e)).x) ((pos (m.org y)).y - (pos (m.org e)).y)
  set τ := min s (1 / 2) with hτ
  have τ0 : 0 < τ := lt_min hs (by norm_num)
  have τ1 : τ < 1 := lt_of_le_of_lt (min_le_right _ _) (by norm_num)
  have k := hL τ τ0 (min_le_left _ _) _ (List.mem_singleton.2 rfl)
  rw [lineOf_at] at k
  have hq : m.Inside pos e.1 ((pos (m.org e)).toward (pos (m.org y)) τ) := by
    rw [inside_at]
    refine ⟨?_, k, ?_⟩
    · rw [ccw_toward, ccw_aba]
      have := mul_pos τ0 h1
      linarith
    · rw [ccw_toward, ccw_abb, ccw_rot]
      have := mul_pos τ0 h2
      linarith
  have hw : m.Within pos y.1 ((pos (m.org e)).toward (pos (m.org y)) τ) := by
    rw [within_at, ← hd]
    refine ⟨?_, ?_, ?_⟩
    · rw [ccw_toward, ccw_abb, ccw_aba]; linarith
    · rw [ccw_toward, ccw_aba, ← ccw_rot]
      have := mul_pos τ0 cy
      linarith
    · rw [ccw_toward, ccw_abb, ccw_rot]
      have := mul_pos (sub_pos.2 τ1) cy
      linarith
  have ht : e.1 = y.1 := A.alone C he hy hq hw
  have : lprev y = lnext e := place_inj S C A (x := lnext e) he ht.symm hd
  have : y = lprev e := by
    have := congrArg lnext this
    rwa [lnext_lprev, lnext_lnext] at this
  rw [this, org_lprev, ccw_abb] at h2
  exact lt_irrefl _ h2

end

end Nikfemm
