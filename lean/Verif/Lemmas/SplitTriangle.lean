import Verif.Lemmas.Fence
import Verif.Lemmas.Locate
import Verif.Props.Quality
import Verif.Spec.Refine
import Verif.Props.Undo
import Verif.Props.Locate

/-!
# The new vertex of a bad triangle
-/

set_option linter.unusedSectionVars false

namespace Nikfemm
variable {K : Type} [Field K] [LinearOrder K] [IsStrictOrderedRing K]

section
open Quality Spec

/-- A point between the middle of the shortest edge and the circumcentre is closer to the circumcentre than the
corners are. -/
theorem placed_between {off : K} {e1 e2 r circ c : Point K} (hA : 0 < area2 e1 e2 r)
    (h1 : sqDist circ e1 = sqDist circ e2) (h2 : sqDist circ e1 = sqDist circ r)
    (hs1 : sqDist e1 e2 ≤ sqDist e2 r) (hs2 : sqDist e1 e2 ≤ sqDist r e1) (hp : Placed off e1 e2 circ c) :
    ∃ k k' : K, 0 < k ∧ k ≤ k' ∧ c = above k e1 e2 ∧ circ = above k' e1 e2 ∧ sqDist circ c < sqDist circ e1 := by
  obtain ⟨p1, -, -⟩ := sqDist_pos hA.ne'
  have a1 := eq_above hp.bisector p1
  have a2 := eq_above h1 p1
  have hk : 0 < area2 e1 e2 c / sqDist e1 e2 := div_pos hp.inside p1
  have hk' : 0 < area2 e1 e2 circ / sqDist e1 e2 := div_pos (circumcentre_above hA h1 h2 hs1 hs2) p1
  generalize area2 e1 e2 c / sqDist e1 e2 = k at a1 hk
  generalize area2 e1 e2 circ / sqDist e1 e2 = k' at a2 hk'
  have hn := hp.near
  rw [a1, a2, above_sq1, above_sq1] at hn
  have hle : k ^ 2 ≤ k' ^ 2 := by
    have := le_of_mul_le_mul_right hn p1
    linarith
  have hkk : k ≤ k' := by nlinarith
  refine ⟨k, k', hk, hkk, a1, a2, ?_⟩
  have e1' : sqDist circ c = (k' - k) ^ 2 * sqDist e1 e2 := by
    rw [a1, a2]; unfold above sqDist; ring
  rw [e1', a2, above_sq1]
  exact mul_lt_mul_of_pos_right (by nlinarith) p1

/-- The circumcentre is not behind a corner. -/
theorem centre_front {o d a c : Point K} (hA : 0 < area2 o d a) (h1 : sqDist c o = sqDist c d)
    (h2 : sqDist c o = sqDist c a) : ¬ (area2 o d c ≤ 0 ∧ area2 a o c ≤ 0) := by
  rintro ⟨g1, g2⟩
  obtain ⟨ox, oy⟩ := o
  obtain ⟨dx, dy⟩ := d
  obtain ⟨ax, ay⟩ := a
  obtain ⟨cx, cy⟩ := c
  unfold area2 at hA g1 g2
  unfold sqDist at h1 h2
  simp only at hA g1 g2 h1 h2
  obtain ⟨ux, hux⟩ : ∃ t, t = dx - ox := ⟨_, rfl⟩
  obtain ⟨uy, huy⟩ : ∃ t, t = dy - oy := ⟨_, rfl⟩
  obtain ⟨wx, hwx⟩ : ∃ t, t = ax - ox := ⟨_, rfl⟩
  obtain ⟨wy, hwy⟩ : ∃ t, t = ay - oy := ⟨_, rfl⟩
  obtain ⟨x, hx⟩ : ∃ t, t = cx - ox := ⟨_, rfl⟩
  obtain ⟨y, hy⟩ : ∃ t, t = cy - oy := ⟨_, rfl⟩
  have hA' : 0 < ux * wy - uy * wx := by subst hux huy hwx hwy; linarith
  have s1 : ux * y - uy * x ≤ 0 := by subst hux huy hx hy; linarith
  have s2 : x * wy - y * wx ≤ 0 := by subst hwx hwy hx hy; linarith
  have q1 : 2 * (ux * x + uy * y) = ux ^ 2 + uy ^ 2 := by subst hux huy hx hy; linarith
  have q2 : 2 * (wx * x + wy * y) = wx ^ 2 + wy ^ 2 := by subst hwx hwy hx hy; linarith
  clear h1 h2 g1 g2 hA hux huy hwx hwy hx hy
  set A := ux * wy - uy * wx with hAd
  set t := - (ux * y - uy * x) with ht
  set s := - (x * wy - y * wx) with hs
  have ht0 : 0 ≤ t := by linarith
  have hs0 : 0 ≤ s := by linarith
  set U := ux ^ 2 + uy ^ 2
  set W := wx ^ 2 + wy ^ 2
  set D := ux * wx + uy * wy
  have e1 : U * (A + 2 * s) = -2 * t * D := by
    have : A * (2 * (ux * x + uy * y)) = -2 * s * U - 2 * t * D := by simp only [hAd, ht, hs, U, D]; ring
    rw [q1] at this; linarith
  have e2 : W * (A + 2 * t) = -2 * s * D := by
    have : A * (2 * (wx * x + wy * y)) = -2 * t * W - 2 * s * D := by simp only [hAd, ht, hs, W, D]; ring
    rw [q2] at this; linarith
  have cs : D ^ 2 = U * W - A ^ 2 := by simp only [hAd, U, W, D]; ring
  have U0 : 0 ≤ U := by positivity
  have W0 : 0 ≤ W := by positivity
  have hUW : 0 < U * W := by nlinarith [sq_nonneg D, mul_pos hA' hA']
  have m1 : U * W * ((A + 2 * s) * (A + 2 * t)) = 4 * (s * t) * D ^ 2 := by
    have : U * (A + 2 * s) * (W * (A + 2 * t)) = -2 * t * D * (-2 * s * D) := by rw [e1, e2]
    linarith
  rw [cs] at m1
  have st : 0 ≤ s * t := mul_nonneg hs0 ht0
  have m2 : U * W * (A ^ 2 + 2 * A * (s + t)) = - (4 * (s * t) * A ^ 2) := by linarith
  have m3 : 0 < U * W * (A ^ 2 + 2 * A * (s + t)) := mul_pos hUW (by positivity)
  have m4 : 0 ≤ 4 * (s * t) * A ^ 2 := by positivity
  linarith

/-- The new vertex of a triangle: it is inside of the circumcircle, and to the left of the edge from which
`splittriangle` starts the search. -/
theorem newvertex_left (b : Behavior K) {o d a : Vtx K} (h : 0 < area2 o.pt d.pt a.pt) :
    ∃ c xi eta circ, findcircumcenter b true o d a = .ok (c, xi, eta) ∧
      (sqDist circ o.pt = sqDist circ d.pt ∧ sqDist circ o.pt = sqDist circ a.pt) ∧
      sqDist circ c.pt < sqDist circ o.pt ∧
      (if eta < xi then 0 < area2 a.pt o.pt c.pt else 0 < area2 o.pt d.pt c.pt) := by
  have fin : ∀ (c : Vtx K) (xi eta : K), c.x = o.x + xi * (d.x - o.x) + eta * (a.x - o.x) →
      c.y = o.y + xi * (d.y - o.y) + eta * (a.y - o.y) → ¬ (area2 o.pt d.pt c.pt ≤ 0 ∧ area2 a.pt o.pt c.pt ≤ 0) →
      (if eta < xi then 0 < area2 a.pt o.pt c.pt else 0 < area2 o.pt d.pt c.pt) := by
    intro c xi eta hx hy hn
    have a1 : area2 o.pt d.pt c.pt = eta * area2 o.pt d.pt a.pt := by
      unfold area2 Vtx.pt; simp only; rw [hx, hy]; ring
    have a2 : area2 a.pt o.pt c.pt = xi * area2 o.pt d.pt a.pt := by
      unfold area2 Vtx.pt; simp only; rw [hx, hy]; ring
    have hm : 0 < xi ∨ 0 < eta := by
      by_contra hc
      rw [not_or, not_lt, not_lt] at hc
      exact hn ⟨by rw [a1]; exact mul_nonpos_of_nonpos_of_nonneg hc.2 h.le,
        by rw [a2]; exact mul_nonpos_of_nonpos_of_nonneg hc.1 h.le⟩
    split
    · next hlt => rw [a2]; exact mul_pos (hm.elim id fun h' => h'.trans hlt) h
    · next hle => rw [a1]; exact mul_pos (hm.elim (fun h' => lt_of_lt_of_le h' (not_lt.1 hle)) id) h
  have r1 : area2 d.pt a.pt o.pt = area2 o.pt d.pt a.pt := by unfold area2; ring
  have r2 : area2 a.pt o.pt d.pt = area2 o.pt d.pt a.pt := by unfold area2; ring
  by_cases hoff : 0 < b.offconstant
  · obtain ⟨c, xi, eta, circ, i, q1, q2, q3, q4, ⟨q5, q6⟩, q7⟩ := offcentre_placed b hoff h
    have hfront := centre_front h q5 q6
    refine ⟨c, xi, eta, circ, q1, ⟨q5, q6⟩, ?_⟩
    have g0 : sqDist _ _ ≤ sqDist o.pt d.pt := q4 0
    have g1 : sqDist _ _ ≤ sqDist d.pt a.pt := q4 1
    have g2 : sqDist _ _ ≤ sqDist a.pt o.pt := q4 2
    fin_cases i
    · obtain ⟨k, k', hk, hkk, b1, b2, b3⟩ := placed_between (r := a.pt) h q5 q6 g1 g2 q7
      exact ⟨b3, fin c xi eta q2 q3 fun hc => absurd q7.inside (not_lt.2 hc.1)⟩
    · obtain ⟨k, k', hk, hkk, b1, b2, b3⟩ := placed_between (r := o.pt) (e1 := d.pt) (e2 := a.pt) (by rw [r1]; exact h)
        (q5.symm.trans q6) q5.symm g2 g0 q7
      refine ⟨by rw [q5]; exact b3, fin c xi eta q2 q3 fun hc => hfront ?_⟩
      have l1 : ∀ k, area2 o.pt d.pt (above k d.pt a.pt) = area2 o.pt d.pt a.pt / 2 +
          k * ((d.pt.x - o.pt.x) * (a.pt.x - d.pt.x) + (d.pt.y - o.pt.y) * (a.pt.y - d.pt.y)) := by
        intro k; unfold area2 above; ring
      have l2 : ∀ k, area2 a.pt o.pt (above k d.pt a.pt) = area2 o.pt d.pt a.pt / 2 +
          k * ((o.pt.x - a.pt.x) * (a.pt.x - d.pt.x) + (o.pt.y - a.pt.y) * (a.pt.y - d.pt.y)) := by
        intro k; unfold area2 above; ring
      have mono : ∀ A s : K, 0 < A → A / 2 + k * s ≤ 0 → A / 2 + k' * s ≤ 0 := by
        intro A s hA hs
        have : s < 0 := by
          by_contra hc
          have := mul_nonneg hk.le (not_lt.1 hc)
          linarith
        have := mul_le_mul_of_nonpos_right hkk this.le
        linarith
      rw [b1, l1, l2] at hc
      rw [b2, l1, l2]
      exact ⟨mono _ _ h hc.1, mono _ _ h hc.2⟩
    · obtain ⟨k, k', hk, hkk, b1, b2, b3⟩ := placed_between (r := d.pt) (e1 := a.pt) (e2 := o.pt) (by rw [r2]; exact h)
        q6.symm (q6.symm.trans q5) g0 g1 q7
      exact ⟨by rw [q6]; exact b3, fin c xi eta q2 q3 fun hc => absurd q7.inside (not_lt.2 hc.2)⟩
  · obtain ⟨c, xi, eta, q1, q2, q3, q4, q5⟩ := circumcentre b (offcenter := true) (.inr (not_lt.1 hoff)) h.ne'
    refine ⟨c, xi, eta, c.pt, q1, ⟨q2, q3⟩, ?_, fin c xi eta q4 q5 (centre_front h q2 q3)⟩
    have z : sqDist c.pt c.pt = 0 := by unfold sqDist; ring
    rw [z]
    by_contra hc
    have z1 : sqDist c.pt o.pt = 0 := le_antisymm (not_lt.1 hc) (by unfold sqDist; positivity)
    have z2 : sqDist c.pt d.pt = 0 := q2 ▸ z1
    obtain ⟨p1, -, -⟩ := sqDist_pos h.ne'
    have zz : ∀ p : Point K, sqDist c.pt p = 0 → c.pt.x = p.x ∧ c.pt.y = p.y := by
      intro p hp
      unfold sqDist at hp
      have h1 : (c.pt.x - p.x) ^ 2 = 0 := le_antisymm (by nlinarith [sq_nonneg (c.pt.y - p.y)]) (sq_nonneg _)
      have h2 : (c.pt.y - p.y) ^ 2 = 0 := by rw [h1, zero_add] at hp; exact hp
      exact ⟨sub_eq_zero.1 (pow_eq_zero_iff (two_ne_zero) |>.1 h1), sub_eq_zero.1 (pow_eq_zero_iff (two_ne_zero) |>.1 h2)⟩
    obtain ⟨x1, y1⟩ := zz _ z1
    obtain ⟨x2, y2⟩ := zz _ z2
    unfold sqDist at p1
    rw [← x1, ← x2, ← y1, ← y2] at p1
    simp at p1

end

theorem inside_pow {o a b c d : Vec K} (h : CcwPts a b c) (h1 : circlePow o a b = 0) (h2 : circlePow o a c = 0) :
    InsideCircle a b c d ↔ circlePow o a d < 0 := by
  have h' : 0 < ccw a b c := h
  rw [← (incircle_sign h d).1, incircle_pow h1 h2, Left.neg_pos_iff]
  exact ⟨fun h0 => (neg_iff_neg_of_mul_pos (a := - ccw a b c) (b := circlePow o a d) (by linarith)).1 (by linarith),
    fun h0 => mul_neg_of_pos_of_neg h' h0⟩

variable {m : TMesh K} {live : Nat → Prop} {pos : Nat → Vec K} {p : Vec K}

section
variable (S : m.Sound live) (C : m.Ccw live pos) (D : m.Delaunay live pos)
include S C D

/-- A search that starts in a triangle in whose circle the point is does so in every further triangle: it meets
no vertex, and the property `P` of the last triangle carries over to the first if it carries over from each triangle
to the one before. -/
theorem walk_inside {P : Nat → Prop} {c : Nat → Vec K}
    (hc : ∀ x y : TEdge, live x.1 → y.1 = x.1 → circlePow (c x.1) (pos (m.apex x)) (pos (m.apex y)) = 0)
    (hP : ∀ b : TEdge, live b.1 → m.nb b ≠ space → m.sg b = noSub → circlePow (c b.1) (pos (m.apex b)) p < 0 →
      P (m.nb b).1 → P b.1) :
    ∀ (n : Nat) (e : TEdge) (loc : Located) (e' : TEdge), live e.1 → circlePow (c e.1) (pos (m.apex e)) p < 0 →
      m.preciselocate pos p true n e = some (loc, e') → loc ≠ .onVertex ∧
      circlePow (c e'.1) (pos (m.apex e')) p < 0 ∧ (P e'.1 → P e.1) := by
  intro n
  induction n with
  | zero => intro e loc e' _ _ h; exact absurd h (by simp [TMesh.preciselocate])
  | succ n ih =>
    intro e loc e' he hin h
    have same : ∀ e' : TEdge, e'.1 = e.1 → circlePow (c e'.1) (pos (m.apex e')) p < 0 := by
      intro e' heq
      rw [heq, circlePow_base (hc e e' he heq)]
      exact hin
    unfold TMesh.preciselocate at h
    rcases walkStep_cases (m := m) (pos := pos) (p := p) (stop := true) e with
      ⟨hw, hx, hy⟩ | ⟨hne, ⟨d1, d2, ⟨hw, h0⟩ | ⟨hw, h0⟩ | ⟨hw, h1, h2⟩⟩ | ⟨b, hb, ⟨hw, ho⟩ | ⟨hw, h0, hst⟩⟩⟩
    · exfalso
      have : pos (m.apex e) = p := Vec.ext hx hy
      rw [← this, circlePow_self] at hin
      exact lt_irrefl _ hin
    · rw [hw] at h
      obtain ⟨rfl, rfl⟩ : loc = .onEdge ∧ e' = lprev e := by cases h; exact ⟨rfl, rfl⟩
      exact ⟨by decide, same _ rfl, id⟩
    · rw [hw] at h
      obtain ⟨rfl, rfl⟩ : loc = .onEdge ∧ e' = lnext e := by cases h; exact ⟨rfl, rfl⟩
      exact ⟨by decide, same _ rfl, id⟩
    · rw [hw] at h
      obtain ⟨rfl, rfl⟩ : loc = .inTriangle ∧ e' = e := by cases h; exact ⟨rfl, rfl⟩
      exact ⟨by decide, same _ rfl, id⟩
    · rw [hw] at h
      obtain ⟨rfl, rfl⟩ : loc = .outside ∧ e' = b := by cases h; exact ⟨rfl, rfl⟩
      have heb : e'.1 = e.1 := by rcases hb with ⟨rfl, -⟩ | ⟨rfl, -⟩ <;> rfl
      exact ⟨by decide, same _ heb, fun h => heb ▸ h⟩
    · rw [hw] at h
      obtain ⟨hl, hpb, hnx⟩ := walk_left S he hb
      have hs : m.nb b ≠ space := fun h' => h0 (by rw [h']; rfl)
      have heb : b.1 = e.1 := by rcases hb with ⟨rfl, -⟩ | ⟨rfl, -⟩ <;> rfl
      have be : ∀ w, circlePow (c b.1) (pos (m.apex b)) w = circlePow (c e.1) (pos (m.apex e)) w := by
        intro w
        rw [heb]
        exact circlePow_base (hc e b he heb) w
      have hg : m.sg b = noSub := by
        by_contra hg
        apply hst
        refine ⟨?_, rfl, ?_⟩
        · by_contra hk
          exact hg (S.chk (by simpa using hk) b hl)
        · rcases S.seg b hl with h' | h'
          · exact absurd h' hg
          · exact h'.1
      have hp' : ccw (pos (m.org b)) (pos (m.dest b)) p < 0 := by rw [ccw_swap]; linarith
      have hin' : circlePow (c (m.nb b).1) (pos (m.apex (m.nb b))) p < 0 := by
        rcases circles_cross S C hc hl hs hg (D b hl) hp' with h' | h'
        · rw [be] at h'; exact h'.trans hin
        · rw [h', be]; exact hin
      obtain ⟨i1, i2, i3⟩ := ih (m.nb b) loc e' (hnx hs).1 hin' h
      refine ⟨i1, i2, fun hP' => ?_⟩
      rw [← heb]
      exact hP b hl hs hg (by rw [be]; exact hin) (i3 hP')

end

section
variable {v n1 n2 : Nat} {T : Finset Nat} {b : Quality.Behavior K} {place : Located × TEdge}
variable (hT : ∀ t, live t ↔ t ∈ T) (S : m.Sound live) (C : m.Ccw live pos) (D : m.Delaunay live pos)
  (hv : ¬ m.HasCorner live v) (hn1 : ¬ live n1) (hn2 : ¬ live n2) (h10 : n1 ≠ 0) (h20 : n2 ≠ 0) (h12 : n1 ≠ n2)
  (hp : m.Place live pos v none place)
include S C hv hn1 hn2 h10 h20 h12 hp

/-- The triangle where the vertex is inserted has the vertex after the split. -/
theorem splitAt_at : ¬ (m.splitAt v n1 n2 none place).Off v place.2.1 := by
  obtain ⟨loc, h⟩ := place
  cases loc with
  | onVertex => exact hp.elim
  | outside => exact hp.elim
  | inTriangle =>
    have hh : live h.1 := hp.1
    obtain ⟨c1, -⟩ := splitThree_triangles (v := v) S hh hn1 hn2 h10 h20 h12
    unfold TMesh.corners at c1
    simp only [Prod.mk.injEq] at c1
    exact fun ho => ho h.2 c1.2.2
  | onEdge =>
    obtain ⟨hh, hss, -⟩ := hp
    have hf := C.apex_ne S hh
    obtain ⟨c1, -⟩ := splitEdge_triangles (v := v) (ss := none) S hh hf hn1 hn2 h10 h20 h12
    unfold TMesh.corners at c1
    simp only [Prod.mk.injEq] at c1
    exact fun ho => ho (lnext h).2 c1.1

include hT D in
/-- All triangles that the search for the vertex met have the vertex afterwards. -/
theorem walk_cleared {k n : Nat} {m' : TMesh K} {e' : TEdge} {entry : Entry} {l : Notes}
    (h : m.insertNoting b pos v n1 n2 none k place = some ((m', e'), entry, l)) {c : Nat → Vec K}
    (hc : ∀ x y : TEdge, live x.1 → y.1 = x.1 → circlePow (c x.1) (pos (m.apex x)) (pos (m.apex y)) = 0)
    {e : TEdge} (he : live e.1) (hin : circlePow (c e.1) (pos (m.apex e)) (pos v) < 0)
    (hs : m.preciselocate pos (pos v) true n e = some place) : ∃ o, m'.apex (e.1, o) = v := by
  obtain ⟨T', hT'⟩ := grown_finset (m := m) (n1 := n1) (n2 := n2) (place := place) hT
  obtain ⟨rfl, S', L, -, -, -, -, -, W⟩ := insertNoting_result hT S C D hv hn1 hn2 h10 h20 h12 hp hT' h
  obtain ⟨_, _, ⟨⟩, -, -, D', -, -⟩ := insertAt_delaunay hT S C D hv hn1 hn2 h10 h20 h12 hp (insertNoting_insertAt h)
  suffices hP : ¬ m'.Off v e.1 by
    unfold TMesh.Off at hP
    push Not at hP
    exact hP
  refine (walk_inside S C D (P := fun t => ¬ m'.Off v t) hc ?_ n e place.1 place.2 he hin hs).2.2 ?_
  · intro x hx hxs hxg hxin hno ho
    have hx' : m.Grown live n1 n2 place x.1 := .inl hx
    have off : ∀ y : TEdge, y.1 = x.1 → m'.apex y ≠ v ∧ m'.apex y = m.apex y := by
      intro y hy
      refine ⟨?_, (W.off y (by rw [hy]; exact hx') (by rw [hy]; exact ho)).2.1⟩
      have := ho y.2
      rwa [← hy] at this
    have key : m'.nb x ≠ space ∧ m'.apex (m'.nb x) = v := by
      rcases (W.side x hx' ho).2 with h' | h'
      · have hs' : m'.nb x ≠ space := by rw [h']; exact hxs
        refine ⟨hs', ?_⟩
        obtain ⟨e1, e2⟩ := S'.nb_ends hx' hs'
        by_contra hav
        apply hno
        rw [← h']
        intro o
        rcases edge_cases (m'.nb x).2 (x := ((m'.nb x).1, o)) rfl with hq | hq | hq
        · rw [hq]; exact hav
        · rw [hq]
          exact fun hc => (off (lprev x) rfl).1 (e1.symm.trans hc)
        · rw [hq]
          exact fun hc => (off (lnext x) rfl).1 (e2.symm.trans hc)
      · exact h'
    rcases D' x hx' with hd | hd | hd
    · exact hd (((W.off x hx' ho).2.2).trans hxg)
    · exact key.1 hd
    · apply hd
      rw [key.2]
      have a1 : m'.org x = m.org x := (off (lnext x) rfl).2
      have a2 : m'.dest x = m.dest x := (off (lprev x) rfl).2
      rw [a1, a2, (off x rfl).2]
      have z1 := hc x (lnext x) hx rfl
      have z2 := hc x (lprev x) hx rfl
      unfold circlePow at z1 z2 hxin
      have z1 : (c x.1).distSq (pos (m.org x)) - (c x.1).distSq (pos (m.apex x)) = 0 := z1
      have z2 : (c x.1).distSq (pos (m.dest x)) - (c x.1).distSq (pos (m.apex x)) = 0 := z2
      exact ⟨c x.1, by linarith, by linarith, by linarith⟩
  · intro ho
    obtain ⟨hl, -⟩ : live place.2.1 ∧ True := ⟨by
      obtain ⟨loc, h'⟩ := place
      cases loc with
      | inTriangle => exact hp.1
      | onEdge => exact hp.1
      | onVertex => exact hp.elim
      | outside => exact hp.elim, trivial⟩
    exact splitAt_at S C hv hn1 hn2 h10 h20 h12 hp (W.side place.2 (.inl hl) ho).1

end

section
variable {pos' : Nat → Vec K} (h : ∀ x : TEdge, live x.1 → pos' (m.apex x) = pos (m.apex x))
include h

theorem TMesh.Ccw.congr (C : m.Ccw live pos) : m.Ccw live pos' := by
  intro x hx
  have h1 : pos' (m.org x) = pos (m.org x) := h (lnext x) hx
  have h2 : pos' (m.dest x) = pos (m.dest x) := h (lprev x) hx
  rw [h1, h2, h x hx]
  exact C x hx

theorem TMesh.Delaunay.congr (S : m.Sound live) (D : m.Delaunay live pos) : m.Delaunay live pos' := by
  intro x hx
  by_cases hs : m.nb x = space
  · exact .inr (.inl hs)
  have h1 : pos' (m.org x) = pos (m.org x) := h (lnext x) hx
  have h2 : pos' (m.dest x) = pos (m.dest x) := h (lprev x) hx
  unfold TMesh.LocallyDelaunay
  rw [h1, h2, h x hx, h _ (S.nb_live hx hs)]
  exact D x hx

theorem TMesh.Good.congr (G : m.Good live pos) : m.Good live pos' :=
  ⟨G.sound, G.ccw.congr h, G.delaunay.congr h G.sound, G.fenced⟩

theorem TMesh.Unencroached.congr {b : Quality.Behavior K} (U : m.Unencroached b pos live) :
    m.Unencroached b pos' live := by
  intro x hx hc
  have h1 : pos' (m.org x) = pos (m.org x) := h (lnext x) hx
  have h2 : pos' (m.dest x) = pos (m.dest x) := h (lprev x) hx
  unfold TMesh.Encroached vtxAt at hc
  rw [h1, h2, h x hx] at hc
  exact U x hx hc

end

end Nikfemm
