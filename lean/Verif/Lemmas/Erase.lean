import Verif.Lemmas.Hub
import Verif.Lemmas.Splice

/-!
# The whole of `deletevertex`
-/

set_option linter.unusedSectionVars false

namespace Nikfemm
variable {K : Type} [Field K] [LinearOrder K] [IsStrictOrderedRing K]

/-- The angle over a chord is larger inside of the circle. -/
theorem lens_inscribed {b : Quality.Behavior K} {a c q v : Vec K} (h1 : 0 < ccw a c q) (h2 : 0 < ccw a c v)
    (h : 0 ≤ incircle a c q v)
    (hq : Quality.inLens b { x := a.x, y := a.y } { x := c.x, y := c.y } { x := q.x, y := q.y } = true) :
    Quality.inLens b { x := a.x, y := a.y } { x := c.x, y := c.y } { x := v.x, y := v.y } = true := by
  unfold Quality.inLens at hq ⊢
  simp only [Bool.and_eq_true, Bool.or_eq_true, decide_eq_true_eq] at hq ⊢
  obtain ⟨hq1, hq2⟩ := hq
  generalize hw : (2 * b.goodangle - 1) * (2 * b.goodangle - 1) = w at hq2 ⊢
  have hw0 : 0 ≤ w := by rw [← hw]; exact mul_self_nonneg _
  obtain ⟨A, hA⟩ : ∃ A, A = ccw a c q := ⟨_, rfl⟩
  obtain ⟨B, hB⟩ : ∃ B, B = ccw a c v := ⟨_, rfl⟩
  obtain ⟨x, hx⟩ : ∃ x, x = (a.x - q.x) * (c.x - q.x) + (a.y - q.y) * (c.y - q.y) := ⟨_, rfl⟩
  obtain ⟨y, hy⟩ : ∃ y, y = (a.x - v.x) * (c.x - v.x) + (a.y - v.y) * (c.y - v.y) := ⟨_, rfl⟩
  have e1 : incircle a c q v = x * B - y * A := by
    rw [hA, hB, hx, hy]; unfold incircle ccw; ring
  have e2 : ((a.x - q.x) * (a.x - q.x) + (a.y - q.y) * (a.y - q.y)) *
      ((c.x - q.x) * (c.x - q.x) + (c.y - q.y) * (c.y - q.y)) = x * x + A * A := by
    rw [hA, hx]; unfold ccw; ring
  have e3 : ((a.x - v.x) * (a.x - v.x) + (a.y - v.y) * (a.y - v.y)) *
      ((c.x - v.x) * (c.x - v.x) + (c.y - v.y) * (c.y - v.y)) = y * y + B * B := by
    rw [hB, hy]; unfold ccw; ring
  rw [← hA] at h1
  rw [← hB] at h2
  rw [e1] at h
  rw [← hx] at hq1 hq2
  rw [← hy]
  rw [mul_assoc, e2] at hq2
  rw [mul_assoc, e3]
  clear e1 e2 e3 hA hB hx hy hw
  have hy0 : y * A < 0 := by nlinarith
  have hy1 : y < 0 := by
    by_contra hc
    exact absurd hy0 (not_lt.2 (mul_nonneg (not_lt.1 hc) h1.le))
  refine ⟨hy1, hq2.imp id fun hq2 => ?_⟩
  have hsq : (x * B) * (x * B) ≤ (y * A) * (y * A) := by
    have hxB : x * B < 0 := mul_neg_of_neg_of_pos hq1 h2
    have := mul_self_le_mul_self (show 0 ≤ -(x * B) by linarith) (show -(x * B) ≤ -(y * A) by linarith)
    rwa [neg_mul_neg, neg_mul_neg] at this
  have w1 : w ≤ 1 := by
    by_contra hc
    have : x * x < w * (x * x) := by nlinarith [mul_pos_of_neg_of_neg hq1 hq1]
    nlinarith [mul_nonneg hw0 (mul_self_nonneg A)]
  have s1 : w * (A * A) * (B * B) ≤ (1 - w) * (x * x) * (B * B) :=
    mul_le_mul_of_nonneg_right (by linarith) (mul_self_nonneg B)
  have s2 : (1 - w) * (x * x) * (B * B) ≤ (1 - w) * (y * y) * (A * A) := by
    have := mul_le_mul_of_nonneg_left hsq (by linarith : 0 ≤ 1 - w)
    nlinarith
  have s3 : w * (B * B) * (A * A) ≤ (1 - w) * (y * y) * (A * A) := by linarith
  have s4 := le_of_mul_le_mul_right s3 (mul_pos h1 h1)
  linarith

section
variable {m : TMesh K} {live : Nat → Prop} {T : Finset Nat} {pos : Nat → Vec K} {v : Nat} {d : TEdge}

/-- Counting the triangles around the vertex. -/
theorem degree_run {k : Nat} (hk : m.spin d k = d) (hinj : ∀ s t, s < k → t < k → m.spin d s = m.spin d t → s = t) :
    ∀ n c, 1 ≤ c → c ≤ k → k - c < n → m.degree d n (m.spin d c) c = some k := by
  intro n
  induction n with
  | zero => intro c _ _ h; omega
  | succ n ih =>
    intro c h1 h2 h3
    unfold TMesh.degree
    by_cases e : c = k
    · rw [if_pos (by rw [e, hk]), e]
    · rw [if_neg, ← spin_succ]
      · exact ih (c + 1) (by omega) (by omega) (by omega)
      · intro h
        have := hinj 0 c (by omega) (by omega) h
        omega

variable (hT : ∀ t, live t ↔ t ∈ T) (S : m.Sound live) (C : m.Ccw live pos) (D : m.Delaunay live pos) (A : m.Apart live pos)
  (F : m.Free live v) (hd : live d.1) (ho : m.org d = v)
include hT S C D A F hd ho

theorem deletevertex_run {n : Nat} (hn : T.card ≤ n) :
    ∃ r : Deleted K, m.deletevertex pos n d = some r ∧ r.dead.1 ≠ r.dead.2 ∧
      (live r.dead.1 ∧ ¬ m.Off v r.dead.1) ∧ (live r.dead.2 ∧ ¬ m.Off v r.dead.2) ∧
      Healed m live T pos v (fun s => m.dest (m.spin d s)) r.m (Shrunk live r.dead) r.tested := by
  obtain ⟨k, k0, hk, hinj⟩ := spin_period hT S F hd ho
  have L := hub_link S C D A F hd ho k0 hk hinj
  have R := hub_rim hT S C D A F hd ho k0 hk hinj
  have hL := L.three
  have hkn : k ≤ T.card := by
    have : ((Finset.range k).image fun s => (m.spin d s).1) ⊆ T := by
      intro t ht
      obtain ⟨s, -, rfl⟩ := Finset.mem_image.1 ht
      exact (hT _).1 (spin_hub S F hd ho s).1
    have h := Finset.card_le_card this
    rwa [Finset.card_image_of_injOn, Finset.card_range] at h
    intro s hs t ht e
    rw [Finset.coe_range, Set.mem_Iio] at hs ht
    refine hinj s t hs ht ?_
    obtain ⟨x1, x2⟩ := spin_hub S F hd ho t
    exact org_inj S x1 e ((spin_hub S F hd ho s).2.trans x2.symm)
  have hdeg : m.degree d n (m.onext d) 1 = some k := degree_run hk hinj n 1 le_rfl (by omega) (by omega)
  have hop : m.oprev d = m.spin d (k - 1) := by
    obtain ⟨x1, x2⟩ := spin_hub S F hd ho (k - 1)
    have := (onext_hub S F x1 x2).2.2.2
    rw [← spin_succ, show k - 1 + 1 = k by omega, hk] at this
    unfold TMesh.oprev
    rw [this, lnext_lprev]
  have hY : (fun s => m.dest (m.spin d s)) k = (fun s => m.dest (m.spin d s)) 0 := by
    show m.dest (m.spin d k) = m.dest d
    rw [hk]
  have rem : ∀ (m' : TMesh K) (l : Tested) (b : Nat) (g1 g2 : TEdge),
      Rim m live T pos v (fun s => m.dest (m.spin d s)) k d m' [(0, d), (1, g1), (b, g2)] l →
      0 < ccw (pos (m.dest (m.spin d 1))) (pos (m.dest (m.spin d b))) (pos (m.dest (m.spin d k))) →
      ((m'.dnext d).1 ≠ (m'.oprev (lprev d)).1 ∧ (live (m'.dnext d).1 ∧ ¬ m.Off v (m'.dnext d).1) ∧
      (live (m'.oprev (lprev d)).1 ∧ ¬ m.Off v (m'.oprev (lprev d)).1)) ∧
      Healed m live T pos v (fun s => m.dest (m.spin d s)) (m'.spliceOut d)
        (Shrunk live ((m'.dnext d).1, (m'.oprev (lprev d)).1))
        ((d, (m'.spliceOut d).org d, (m'.spliceOut d).dest d, (m'.spliceOut d).apex d) :: l) := by
    intro m' l b g1 g2 R' hc
    obtain ⟨e1, e2, Fl⟩ := R'.splice hT hY hc
    rw [e1, e2]
    refine ⟨?_, Fl⟩
    obtain ⟨l1, o1, -⟩ := R'.each (1, g1) (by simp)
    obtain ⟨l2, o2, -⟩ := R'.each (b, g2) (by simp)
    have nd := R'.nodup
    simp only [List.map_cons, List.map_nil, List.nodup_cons, List.mem_cons, List.not_mem_nil, or_false, not_or] at nd
    have old : ∀ x : TEdge, live x.1 → m'.org x = v → ¬ m.Off v x.1 := by
      intro x hx ox h
      have := (R'.fixed (lnext x) hx h).1
      exact h (lnext x).2 (this.symm.trans ox)
    exact ⟨fun e => nd.2.1 e.symm, ⟨l2, old g2 l2 o2⟩, l1, old g1 l1 o1⟩
  unfold TMesh.deletevertex
  rw [hdeg, Option.bind_some]
  by_cases h3 : 3 < k
  · rw [if_pos h3, hop]
    have R' : Rim m live T pos v (fun s => m.dest (m.spin d s)) k d m ([(0, d)] ++ (seg (m.spin d) 1 k ++ [])) [] := by
      rw [List.append_nil, List.singleton_append]
      rw [seg_cons _ (by omega : 0 < k)] at R
      exact R
    obtain ⟨⟨m', l', b, g1, g2, e, h1, h2, -, hc, Rm⟩, -⟩ := polygon_run hT L n 1 k le_rfl (by omega) le_rfl (by omega)
      (.inl (by omega)) m [(0, d)] [] [] (by simp) R' ⟨d, rfl⟩
    have e' : m.triangulatepolygon pos n (m.onext d) (m.spin d (k - 1)) k false [] = some (m', l') := by
      rw [← e, show k - 1 + 1 = k by omega]; rfl
    rw [e', Option.map_some]
    obtain ⟨⟨q1, q2, q3⟩, q4⟩ := rem m' l' b g1 g2 Rm hc
    exact ⟨_, rfl, q1, q2, q3, q4⟩
  · have e3 : k = 3 := by omega
    subst e3
    rw [if_neg h3, Option.map_some]
    have R' : Rim m live T pos v (fun s => m.dest (m.spin d s)) 3 d m [(0, d), (1, m.spin d 1), (2, m.spin d 2)] [] := R
    have t0 := L.turn 0
    have t1 := L.turn 1
    have t2 := L.turn 2
    have hc : 0 < ccw (pos (m.dest (m.spin d 1))) (pos (m.dest (m.spin d 2))) (pos (m.dest (m.spin d 3))) := by
      rw [hk] at t2 ⊢
      have t0' : 0 < ccw (pos v) (pos (m.dest d)) (pos (m.dest (m.spin d 1))) := t0
      have e : ccw (pos (m.dest (m.spin d 1))) (pos (m.dest (m.spin d 2))) (pos (m.dest d)) =
          ccw (pos v) (pos (m.dest d)) (pos (m.dest (m.spin d 1))) +
          ccw (pos v) (pos (m.dest (m.spin d 1))) (pos (m.dest (m.spin d 2))) +
          ccw (pos v) (pos (m.dest (m.spin d 2))) (pos (m.dest d)) := by
        unfold ccw; ring
      rw [e]
      exact add_pos (add_pos t0' t1) t2
    obtain ⟨⟨q1, q2, q3⟩, q4⟩ := rem m [] 2 _ _ R' hc
    exact ⟨_, rfl, q1, q2, q3, q4⟩

/-- A vertex of the polygon that is to the left of a rim edge does not see it under a larger angle than `v`. -/
theorem rim_weak {x : TEdge} (hx : live x.1) (ha : m.apex x = v) {s : Nat}
    (hc : 0 < ccw (pos (m.org x)) (pos (m.dest x)) (pos (m.dest (m.spin d s)))) :
    0 ≤ incircle (pos (m.org x)) (pos (m.dest x)) (pos (m.dest (m.spin d s))) (pos v) := by
  obtain ⟨k, k0, hk, hinj⟩ := spin_period hT S F hd ho
  obtain ⟨i, -, hi⟩ := (hub_star S C D A F hd ho k0 hk hinj (x := lprev x) hx).1 (by rw [org_lprev, ha])
  have e1 : m.dest (m.spin d i) = m.org x := by rw [hi, dest_lprev]
  have e2 : m.dest (m.spin d (i + 1)) = m.dest x := by rw [← spin_apex S F hd ho, hi, apex_lprev]
  have := hub_weak S C D A F hd ho k0 hk hinj i s
  rw [e1, e2] at this
  exact this hc

end

end Nikfemm
