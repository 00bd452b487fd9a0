import Verif.Lemmas.CircleDraw

/-!
# Convex chains are never rejected
-/

namespace Nikfemm
open Spec

namespace Drawing
section
variable {K P : Type} [Field K] [LinearOrder K] [IsStrictOrderedRing K]

/-- The points turn left everywhere, by more than the tolerance of the intersection test. -/
def LeftTurns (l : List (Vec K)) : Prop :=
  ∀ (i j k : Nat) (a b c : Vec K), i < j → j < k → l[i]? = some a → l[j]? = some b →
    l[k]? = some c → 1 / 10 ^ 100 < (b.sub a).cross (c.sub a)

theorem not_intersect_of_left {p q a b : Vec K} (ha : 1 / 10 ^ 100 < segArea p q a)
    (hb : 1 / 10 ^ 100 < segArea p q b) : segmentsIntersect p q a b = false := by
  have e0 : (0 : K) < 1 / 10 ^ 100 := by positivity
  have hc : |segArea p q a| = segArea p q a := abs_of_pos (e0.trans ha)
  have hd : |segArea p q b| = segArea p q b := abs_of_pos (e0.trans hb)
  unfold segmentsIntersect
  dsimp only
  rw [hc, hd]
  have h1 : ¬ segArea p q a < segEps := not_lt.mpr ha.le
  have h2 : ¬ segArea p q b < segEps := not_lt.mpr hb.le
  rw [if_neg (fun h => h1 h.1), if_neg (fun h => h1 h.1), if_neg h2]
  simp [e0.trans ha, e0.trans hb]

theorem drawSegment_ok {D : Drawing K P} (hD : WellFormed D) (p q : Vec K)
    (r : Nat × Nat × List (Vec K)) (hr : place D.points p q = r)
    (h : ∀ s ∈ D.segments, ¬ ShareEnd s (r.1, r.2.1) → ∀ a b, D.points[s.1]? = some a →
      D.points[s.2]? = some b → segmentsIntersect p q a b = false) :
    (D.drawSegment p q).2 = none := by
  have hp := place_spec D.points p q
  rw [drawSegment_eq]
  rw [hr] at hp ⊢
  have hrefs : ∀ s ∈ D.segments, s.1 < r.2.2.length ∧ s.2 < r.2.2.length := by
    intro s hs
    have := hD.refs s hs
    have hl := hp.pre.length_le
    omega
  have hspec := checkSegments_spec r.2.2 p q r.1 r.2.1 D.segments hrefs
  dsimp only
  cases hc : checkSegments r.2.2 p q r.1 r.2.1 D.segments with
  | ok b => cases b <;> rfl
  | error e =>
    rw [hc] at hspec
    obtain ⟨-, s, hs, hsh, a, b, ha, hb, -, hi⟩ := hspec
    obtain ⟨t, ht⟩ := hp.pre
    rw [← ht, List.getElem?_append_left (hD.refs s hs).1] at ha
    rw [← ht, List.getElem?_append_left (hD.refs s hs).2] at hb
    rw [h s hs hsh a b ha hb] at hi
    cases hi

theorem segArea_rotate (p q a : Vec K) : segArea p q a = (p.sub a).cross (q.sub a) := by
  unfold segArea Vec.cross Vec.sub; ring

theorem drawChain_none : ∀ (l : List (Vec K)) (pre : List (Vec K)) (a : Vec K) (D : Drawing K P),
    WellFormed D → D.points = pre ++ [a] → D.segments = openChain pre.length →
    Separated (pre ++ a :: l) → LeftTurns (pre ++ a :: l) → (drawChain D a l).2 = none
  | [], _, _, _, _, _, _, _, _ => rfl
  | b :: l, pre, a, D, hD, hp, hs, hsep, hl => by
    have hsep' : Separated (pre ++ [a] ++ [b]) := by
      rw [separated_iff] at hsep ⊢
      refine hsep.sublist ?_
      rw [List.append_assoc]
      exact List.Sublist.append_left (by simp) _
    obtain ⟨hs1, hs2⟩ := (separated_append _ _).mp hsep'
    have hpl : place D.points a b = (pre.length, pre.length + 1, pre ++ [a] ++ [b]) := by
      unfold place
      have h1 : lastIndex a (pre ++ [a]) 0 none = some pre.length :=
        lastIndex_mem hs1 (q := a) (by simp) (eqv_refl a) fun j r hr he =>
          separated_unique hs1 hr (by simp) he
      have h2 : lastIndex b (pre ++ [a]) 0 none = none := lastIndex_new hs2
      rw [hp, h1, h2]
      simp
    have h1 : (D.drawSegment a b).2 = none := by
      refine drawSegment_ok hD a b _ hpl ?_
      intro s hss hsh c d hc hd
      rw [hs, mem_openChain] at hss
      have hlt : s.2 < pre.length := by
        by_contra hge
        apply hsh
        right; right; left
        dsimp only; omega
      have get : ∀ {j : Nat} {v : Vec K}, j < pre.length → D.points[j]? = some v →
          (pre ++ a :: b :: l)[j]? = some v := by
        intro j v hj hv
        rw [hp, List.getElem?_append_left hj] at hv
        rw [List.getElem?_append_left hj]; exact hv
      have ga : (pre ++ a :: b :: l)[pre.length]? = some a := by simp
      have gb : (pre ++ a :: b :: l)[pre.length + 1]? = some b := by
        rw [List.getElem?_append_right (by omega)]; simp
      apply not_intersect_of_left
      · rw [segArea_rotate]
        exact hl s.1 pre.length (pre.length + 1) c a b (by omega) (by omega)
          (get (by omega) hc) ga gb
      · rw [segArea_rotate]
        exact hl s.2 pre.length (pre.length + 1) d a b (by omega) (by omega)
          (get (by omega) hd) ga gb
    have hr := drawSegment_new hD hp hsep' h1
    have hD' := (drawSegment_step hD a b).inv
    unfold drawChain
    rcases hx : D.drawSegment a b with ⟨d, o⟩
    rw [hx] at h1 hr hD'
    dsimp only at h1 hr hD'
    subst h1 hr
    exact drawChain_none l (pre ++ [a]) b _ hD' rfl
      (by rw [hs, List.length_append, List.length_singleton, openChain_succ])
      (by simpa using hsep) (by simpa using hl)

/-- A convex chain of at least two points drawn into the empty drawing. -/
theorem drawChain_empty_none (a b : Vec K) (l : List (Vec K)) (hsep : Separated (a :: b :: l))
    (hl : LeftTurns (a :: b :: l)) :
    (drawChain (Drawing.empty : Drawing K P) a (b :: l)).2 = none := by
  have hwf : WellFormed (Drawing.empty : Drawing K P) :=
    ⟨by simp [Drawing.empty], by simp [Drawing.empty], by simp [Drawing.empty]⟩
  have h1 : ((Drawing.empty : Drawing K P).drawSegment a b).2 = none := rfl
  have hr : ((Drawing.empty : Drawing K P).drawSegment a b).1 =
      { (Drawing.empty : Drawing K P) with points := [a, b], segments := [(0, 1)] } :=
    drawSegment_result hwf h1 (0, 1, [a, b]) rfl (by simp [Drawing.empty])
  have hD' := (drawSegment_step hwf a b).inv
  unfold drawChain
  rcases hx : (Drawing.empty : Drawing K P).drawSegment a b with ⟨d, o⟩
  rw [hx] at h1 hr hD'
  dsimp only at h1 hr hD'
  subst h1 hr
  exact drawChain_none l [a] b _ hD' rfl rfl (by simpa using hsep) (by simpa using hl)

/-- Closing a convex chain. -/
theorem drawSegment_close_none {D : Drawing K P} (hD : WellFormed D) {k : Nat}
    {pts : List (Vec K)} {a a' b : Vec K} (hpts : D.points = pts) (hsep : Separated pts)
    (hb : pts[k]? = some b) (ha : pts[0]? = some a)
    (haa : a.eqv a' = true) (hu : ∀ j r, pts[j]? = some r → r.eqv a' = true → j = 0)
    (hs : D.segments = openChain k)
    (hl : ∀ j c, 0 < j → j < k → pts[j]? = some c → 1 / 10 ^ 100 < segArea b a' c) :
    (D.drawSegment b a').2 = none := by
  have hpl : place D.points b a' = (k, 0, pts) := by
    unfold place
    have h1 : lastIndex b pts 0 none = some k :=
      lastIndex_mem hsep hb (eqv_refl b) fun j r hr he => separated_unique hsep hr hb he
    have h2 : lastIndex a' pts 0 none = some 0 := lastIndex_mem hsep ha haa hu
    rw [hpts, h1, h2]
  refine drawSegment_ok hD b a' _ hpl ?_
  intro s hss hsh c d hc hd
  rw [hs, mem_openChain] at hss
  rw [hpts] at hc hd
  have h1 : 0 < s.1 := by
    by_contra h0
    exact hsh (Or.inr (Or.inl (by dsimp only; omega)))
  have h2 : s.2 < k := by
    by_contra h0
    exact hsh (Or.inr (Or.inr (Or.inl (by dsimp only; omega))))
  exact not_intersect_of_left (hl s.1 c h1 hss.1 hc) (hl s.2 d (by omega) h2 hd)

/-- A convex polygon drawn into the empty drawing is never rejected. -/
theorem drawPolygon_none (Q : Polygon K) (h3 : 3 ≤ Q.length) (hsep : Separated Q) (hl : LeftTurns Q) :
    ((Drawing.empty : Drawing K P).drawPolygon Q).2 = none := by
  match Q, h3, hsep, hl with
  | a :: b :: c :: l, _, hsep, hl =>
    have hwf : WellFormed (Drawing.empty : Drawing K P) :=
      ⟨by simp [Drawing.empty], by simp [Drawing.empty], by simp [Drawing.empty]⟩
    change (seq _ _).2 = none
    have h1 := drawChain_empty_none (P := P) a b (c :: l) hsep hl
    have hr := drawChain_empty a b (c :: l) hsep h1
    have hD := (drawChain_step (b :: c :: l) a hwf).inv
    rcases hx : drawChain (Drawing.empty : Drawing K P) a (b :: c :: l) with ⟨d, o⟩
    rw [hx] at h1 hr hD
    dsimp only at h1 hr hD
    subst h1 hr
    have hg : (a :: b :: c :: l)[l.length + 2]? = some ((a :: b :: c :: l).getLast (by simp)) := by
      rw [List.getLast_eq_getElem, List.getElem?_eq_getElem (by simp)]
      simp
    have h2 := drawSegment_close_none (k := l.length + 2) (a' := a) hD rfl hsep hg rfl (eqv_refl a)
      (fun j r hr he => separated_unique hsep hr rfl he) (by simp) (by
        intro j v hj0 hjk hv
        have := hl 0 j (l.length + 2) a v _ hj0 hjk rfl hv hg
        rw [show segArea ((a :: b :: c :: l).getLast (by simp)) a v =
          (v.sub a).cross (((a :: b :: c :: l).getLast (by simp)).sub a) by
            simp only [segArea, Vec.cross, Vec.sub]; ring]
        exact this)
    simp only [seq]
    rcases hy : (Drawing.drawSegment _ ((a :: b :: c :: l).getLast (by simp)) a) with ⟨d', o'⟩
    rw [hy] at h2
    dsimp only at h2
    subst h2
    rfl

end
end Drawing

/-- Twice the area of the triangle through three points of a circle. -/
theorem circle_area (c : Vec ℝ) (r α β γ : ℝ) :
    ((⟨c.x + r * Real.cos β, c.y + r * Real.sin β⟩ : Vec ℝ).sub
        ⟨c.x + r * Real.cos α, c.y + r * Real.sin α⟩).cross
      ((⟨c.x + r * Real.cos γ, c.y + r * Real.sin γ⟩ : Vec ℝ).sub
        ⟨c.x + r * Real.cos α, c.y + r * Real.sin α⟩) =
    4 * r ^ 2 * (Real.sin ((β - α) / 2) * Real.sin ((γ - β) / 2) * Real.sin ((γ - α) / 2)) := by
  have h1 : ∀ x y : ℝ, Real.sin (2 * x) + Real.sin (2 * y) - Real.sin (2 * x + 2 * y) =
      4 * (Real.sin x * Real.sin y * Real.sin (x + y)) := by
    intro x y
    rw [Real.sin_add (2 * x), Real.sin_two_mul, Real.sin_two_mul, Real.cos_two_mul, Real.cos_two_mul,
      Real.sin_add, Real.cos_sq', Real.cos_sq']
    ring
  have h2 := h1 ((β - α) / 2) ((γ - β) / 2)
  rw [show 2 * ((β - α) / 2) = β - α by ring, show 2 * ((γ - β) / 2) = γ - β by ring,
    show β - α + (γ - β) = γ - α by ring, show (β - α) / 2 + (γ - β) / 2 = (γ - α) / 2 by ring] at h2
  have h3 : 4 * r ^ 2 * (Real.sin ((β - α) / 2) * Real.sin ((γ - β) / 2) * Real.sin ((γ - α) / 2)) =
      r ^ 2 * (Real.sin (β - α) + Real.sin (γ - β) - Real.sin (γ - α)) := by rw [h2]; ring
  rw [h3, Real.sin_sub, Real.sin_sub, Real.sin_sub]
  simp only [Vec.sub, Vec.cross]
  ring

/-- The angle between vertices of a circle is not small. -/
theorem sin_vertices {pi r : ℝ} {n m : ℕ} (hr : 0 < r)
    (hpi : r * |pi - Real.pi| < 5 / 10 ^ 10) (hn : 1 / 10 ^ 9 ≤ r * Real.sin (Real.pi / n))
    (h1 : 1 ≤ m) (h2 : m < n) : 5 / 10 ^ 10 ≤ r * Real.sin (m * (pi / n)) := by
  have hn0 : (0 : ℝ) < n := by exact_mod_cast (by omega : 0 < n)
  have h1 := sin_mult_ge h1 h2
  have h2 : |Real.sin (m * (pi / n)) - Real.sin (m * (Real.pi / n))| ≤ |pi - Real.pi| := by
    refine (Real.abs_sin_sub_sin_le _ _).trans ?_
    rw [← mul_sub, ← sub_div, abs_mul, abs_div, abs_of_pos hn0, Nat.abs_cast]
    have h3 : (m : ℝ) ≤ n := by exact_mod_cast h2.le
    rw [mul_div_assoc', div_le_iff₀ hn0, mul_comm]
    exact mul_le_mul_of_nonneg_left h3 (abs_nonneg _)
  have h3 := (abs_le.mp h2).1
  have : r * (Real.sin (Real.pi / n) - |pi - Real.pi|) ≤ r * Real.sin (m * (pi / n)) :=
    mul_le_mul_of_nonneg_left (by linarith) hr.le
  rw [mul_sub] at this
  have e : (1 : ℝ) / 10 ^ 9 - 5 / 10 ^ 10 = 5 / 10 ^ 10 := by norm_num
  linarith

/-- Vertices of a circle turn left. -/
theorem vertices_left {pi r : ℝ} {n : ℕ} (c : Vec ℝ) (hr : 0 < r) (hr' : r ≤ 10 ^ 9)
    (hpi : r * |pi - Real.pi| < 5 / 10 ^ 10) (hn : 1 / 10 ^ 9 ≤ r * Real.sin (Real.pi / n))
    {i j k : ℕ} (hij : i < j) (hjk : j < k) (hki : k < i + n) :
    1 / 10 ^ 100 <
    ((⟨c.x + r * Real.cos (j * (2 * pi / n)), c.y + r * Real.sin (j * (2 * pi / n))⟩ : Vec ℝ).sub
        ⟨c.x + r * Real.cos (i * (2 * pi / n)), c.y + r * Real.sin (i * (2 * pi / n))⟩).cross
      ((⟨c.x + r * Real.cos (k * (2 * pi / n)), c.y + r * Real.sin (k * (2 * pi / n))⟩ : Vec ℝ).sub
        ⟨c.x + r * Real.cos (i * (2 * pi / n)), c.y + r * Real.sin (i * (2 * pi / n))⟩) := by
  rw [circle_area]
  obtain ⟨u, rfl⟩ := Nat.exists_eq_add_of_lt hij
  obtain ⟨v, rfl⟩ := Nat.exists_eq_add_of_lt hjk
  have e1 : (((i + u + 1 : ℕ) : ℝ) * (2 * pi / n) - (i : ℝ) * (2 * pi / n)) / 2 =
      ((u + 1 : ℕ) : ℝ) * (pi / n) := by push_cast; ring
  have e2 : (((i + u + 1 + v + 1 : ℕ) : ℝ) * (2 * pi / n) - ((i + u + 1 : ℕ) : ℝ) * (2 * pi / n)) / 2 =
      ((v + 1 : ℕ) : ℝ) * (pi / n) := by push_cast; ring
  have e3 : (((i + u + 1 + v + 1 : ℕ) : ℝ) * (2 * pi / n) - (i : ℝ) * (2 * pi / n)) / 2 =
      ((u + v + 2 : ℕ) : ℝ) * (pi / n) := by push_cast; ring
  rw [e1, e2, e3]
  have s1 := sin_vertices (m := u + 1) hr hpi hn (by omega) (by omega)
  have s2 := sin_vertices (m := v + 1) hr hpi hn (by omega) (by omega)
  have s3 := sin_vertices (m := u + v + 2) hr hpi hn (by omega) (by omega)
  set x := Real.sin (((u + 1 : ℕ) : ℝ) * (pi / n))
  set y := Real.sin (((v + 1 : ℕ) : ℝ) * (pi / n))
  set z := Real.sin (((u + v + 2 : ℕ) : ℝ) * (pi / n))
  have p1 : (5 / 10 ^ 10 : ℝ) * (5 / 10 ^ 10) * (5 / 10 ^ 10) ≤ (r * x) * (r * y) * (r * z) :=
    mul_le_mul (mul_le_mul s1 s2 (by norm_num) (le_trans (by norm_num) s1)) s3 (by norm_num)
      (mul_nonneg (le_trans (by norm_num) s1) (le_trans (by norm_num) s2))
  have p2 : (r * x) * (r * y) * (r * z) = r * (r ^ 2 * (x * y * z)) := by ring
  rw [p2] at p1
  have p3 : 0 < r ^ 2 * (x * y * z) := by
    by_contra hneg
    have := mul_nonpos_of_nonneg_of_nonpos hr.le (not_lt.mp hneg)
    norm_num at p1
    linarith
  have p4 : r * (r ^ 2 * (x * y * z)) ≤ 10 ^ 9 * (r ^ 2 * (x * y * z)) :=
    mul_le_mul_of_nonneg_right hr' p3.le
  have p5 : (5 / 10 ^ 10 : ℝ) * (5 / 10 ^ 10) * (5 / 10 ^ 10) ≤ 10 ^ 9 * (r ^ 2 * (x * y * z)) :=
    p1.trans p4
  have p6 : (10 : ℝ) ^ 9 * (1 / 10 ^ 100) < (5 / 10 ^ 10 : ℝ) * (5 / 10 ^ 10) * (5 / 10 ^ 10) := by
    norm_num
  have p7 : (1 : ℝ) / 10 ^ 100 < r ^ 2 * (x * y * z) := by
    have := p6.trans_le p5
    exact lt_of_mul_lt_mul_left this (by norm_num)
  calc (1 : ℝ) / 10 ^ 100 < r ^ 2 * (x * y * z) := p7
    _ ≤ 4 * r ^ 2 * (x * y * z) := by linarith

end Nikfemm
