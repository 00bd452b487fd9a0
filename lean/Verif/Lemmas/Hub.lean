import Verif.Lemmas.Fan
import Verif.Spec.Delete

/-!
# The triangles around a vertex that is going to be deleted
-/

set_option linter.unusedSectionVars false

namespace Nikfemm
variable {K : Type} [Field K] [LinearOrder K] [IsStrictOrderedRing K]

theorem inside_of {m : TMesh K} {pos : Nat → Vec K} (x : TEdge) {p : Vec K}
    (h1 : 0 < ccw (pos (m.org x)) (pos (m.dest x)) p) (h2 : 0 < ccw (pos (m.dest x)) (pos (m.apex x)) p)
    (h3 : 0 < ccw (pos (m.apex x)) (pos (m.org x)) p) : m.Inside pos x.1 p := by
  unfold TMesh.Inside
  rcases edge_cases x.2 (x := ((x.1, 0) : TEdge)) rfl with h | h | h
  · rw [show ((x.1, 0) : TEdge) = x from h]; exact ⟨h1, h2, h3⟩
  · rw [show ((x.1, 0) : TEdge) = lnext x from h, org_lnext, dest_lnext, apex_lnext]; exact ⟨h2, h3, h1⟩
  · rw [show ((x.1, 0) : TEdge) = lprev x from h, org_lprev, dest_lprev, apex_lprev]; exact ⟨h3, h1, h2⟩

/-- Near `v` a direction strictly between two sides is inside of the triangle. -/
theorem near_corner {v a b p : Vec K} (h1 : 0 < ccw v a p) (h2 : 0 < ccw v p b) (h3 : 0 < ccw v a b) :
    ∃ s : K, 0 < s ∧ ∀ t, 0 < t → t ≤ s → ∀ q : Vec K, q = ⟨v.x + t * (p.x - v.x), v.y + t * (p.y - v.y)⟩ →
      0 < ccw v a q ∧ 0 < ccw a b q ∧ 0 < ccw b v q := by
  obtain ⟨s, hs, h⟩ := while_pos (p := ccw v a b) (q := ccw a b p - ccw v a b) (.inl h3)
  refine ⟨s, hs, fun t t0 ts q hq => ?_⟩
  have e1 : ccw v a q = t * ccw v a p := by rw [hq]; unfold ccw; ring
  have e2 : ccw b v q = t * ccw v p b := by rw [hq]; unfold ccw; ring
  have e3 : ccw a b q = ccw v a b + t * (ccw a b p - ccw v a b) := by rw [hq]; unfold ccw; ring
  rw [e1, e2, e3]
  exact ⟨mul_pos t0 h1, h t t0 ts, mul_pos t0 h2⟩

/-- If the beginning of one angle is in another one then they have a direction in common. -/
theorem common_direction {v c c' a a' : Vec K} (tc : 0 < ccw v c c') (ta : 0 < ccw v a a') (h1 : 0 ≤ ccw v c a)
    (h2 : 0 < ccw v a c') : ∃ p, 0 < ccw v c p ∧ 0 < ccw v p c' ∧ 0 < ccw v a p ∧ 0 < ccw v p a' := by
  have id : ccw v c c' * ccw v a a' = ccw v c a * ccw v c' a' + ccw v c a' * ccw v a c' := by unfold ccw; ring
  obtain ⟨e1, e1p, f1⟩ := while_pos (p := ccw v c a) (q := ccw v c a') (by
    rcases h1.lt_or_eq with h | h
    · exact .inl h
    · refine .inr ⟨h.symm, ?_⟩
      rw [← h, zero_mul, zero_add] at id
      exact pos_of_mul_pos_left (by rw [← id]; exact mul_pos tc ta) h2.le)
  obtain ⟨e2, e2p, f2⟩ := while_pos (p := ccw v a c') (q := ccw v a' c') (.inl h2)
  set t := min e1 e2 with ht
  have tp : 0 < t := lt_min e1p e2p
  refine ⟨⟨a.x + t * (a'.x - v.x), a.y + t * (a'.y - v.y)⟩, ?_, ?_, ?_, ?_⟩
  · have : ccw v c ⟨a.x + t * (a'.x - v.x), a.y + t * (a'.y - v.y)⟩ = ccw v c a + t * ccw v c a' := by unfold ccw; ring
    rw [this]; exact f1 t tp (min_le_left _ _)
  · have : ccw v ⟨a.x + t * (a'.x - v.x), a.y + t * (a'.y - v.y)⟩ c' = ccw v a c' + t * ccw v a' c' := by unfold ccw; ring
    rw [this]; exact f2 t tp (min_le_right _ _)
  · have : ccw v a ⟨a.x + t * (a'.x - v.x), a.y + t * (a'.y - v.y)⟩ = t * ccw v a a' := by unfold ccw; ring
    rw [this]; exact mul_pos tp ta
  · have : ccw v ⟨a.x + t * (a'.x - v.x), a.y + t * (a'.y - v.y)⟩ a' = ccw v a a' := by unfold ccw; ring
    rw [this]; exact ta

/-- Every direction is in the angle between two successive neighbours. -/
theorem Umbrella.around {v : Vec K} {y : Nat → Vec K} {k : Nat} (L : Umbrella v y k) {p p' : Vec K} (hp : 0 < ccw v p p') :
    ∃ i, 0 ≤ ccw v (y i) p ∧ 0 < ccw v p (y (i + 1)) := by
  by_contra hc
  push Not at hc
  -- if one is not negative then all are not
  have step : ∀ i, 0 ≤ ccw v (y i) p → 0 ≤ ccw v (y (i + 1)) p := by
    intro i hi
    have := hc i hi
    rw [ccw_anti] at this
    linarith
  have step' : ∀ i n, 0 ≤ ccw v (y i) p → 0 ≤ ccw v (y (i + n)) p := by
    intro i n hi
    induction n with
    | zero => exact hi
    | succ n ih => exact step _ ih
  have hk := L.three
  obtain ⟨s, w1, w2, w3, h1, h2, h3, h4, hx, hy⟩ := L.hull
  have sum : w1 * ccw v (y 0) p + w2 * ccw v (y s) p + w3 * ccw v (y (s + 1)) p = 0 := by
    unfold ccw
    linear_combination (p.y - v.y) * hx - (p.x - v.x) * hy
  by_cases all : ∃ i, 0 ≤ ccw v (y i) p
  · obtain ⟨i, hi⟩ := all
    have allpos : ∀ j, 0 ≤ ccw v (y j) p := by
      intro j
      have h := step' i (j + i * (k - 1)) hi
      have e : y (i + (j + i * (k - 1))) = y j := by
        rw [← L.mod, show i + (j + i * (k - 1)) = j + i * k by
          obtain ⟨k', rfl⟩ : ∃ k', k = k' + 1 := ⟨k - 1, by omega⟩
          simp only [Nat.add_sub_cancel]; ring, Nat.add_mul_mod_self_right, L.mod]
      rwa [e] at h
    have a0 := mul_nonneg h1 (allpos 0)
    have a1 := mul_nonneg h2 (allpos s)
    have a2 := mul_nonneg h3 (allpos (s + 1))
    have z0 : w1 * ccw v (y 0) p = 0 := by linarith
    have z1 : w2 * ccw v (y s) p = 0 := by linarith
    have z2 : w3 * ccw v (y (s + 1)) p = 0 := by linarith
    -- one of the neighbours has the direction of `p` or the opposite one
    have ex : ∃ j, ccw v (y (j + 1)) p = 0 := by
      have per : y k = y 0 := by have := L.period 0; rwa [Nat.zero_add] at this
      have per' : y (s + k) = y s := L.period s
      rcases eq_or_ne w1 0 with q1 | q1
      · rcases eq_or_ne w2 0 with q2 | q2
        · have q3 : w3 ≠ 0 := by intro q3; rw [q1, q2, q3] at h4; norm_num at h4
          exact ⟨s, (mul_eq_zero.1 z2).resolve_left q3⟩
        · exact ⟨s + k - 1, by rw [show s + k - 1 + 1 = s + k by omega, per']; exact (mul_eq_zero.1 z1).resolve_left q2⟩
      · exact ⟨k - 1, by rw [show k - 1 + 1 = k by omega, per]; exact (mul_eq_zero.1 z0).resolve_left q1⟩
    obtain ⟨j, hj⟩ := ex
    have t1 := L.turn j
    have t2 := L.turn (j + 1)
    have b1 := allpos j
    have b2 := allpos (j + 1 + 1)
    -- `p` as a combination
    have i1 : ccw v (y j) p * ccw v (y (j + 1)) (y (j + 1 + 1)) =
        ccw v (y j) (y (j + 1)) * ccw v p (y (j + 1 + 1)) + ccw v (y j) (y (j + 1 + 1)) * ccw v (y (j + 1)) p := by
      unfold ccw; ring
    rw [hj, mul_zero, add_zero, ccw_anti v p] at i1
    have c1 : 0 ≤ ccw v (y j) p * ccw v (y (j + 1)) (y (j + 1 + 1)) := mul_nonneg b1 t2.le
    have c2 : 0 ≤ ccw v (y j) (y (j + 1)) * ccw v (y (j + 1 + 1)) p := mul_nonneg t1.le b2
    have c3 : ccw v (y j) p * ccw v (y (j + 1)) (y (j + 1 + 1)) = 0 := by linarith
    have c4 : ccw v (y j) p = 0 := (mul_eq_zero.1 c3).resolve_right t2.ne'
    have i2 : ccw v (y j) (y (j + 1)) * ccw v p p' = ccw v (y j) p * ccw v (y (j + 1)) p' - ccw v (y j) p' * ccw v (y (j + 1)) p := by
      unfold ccw; ring
    rw [hj, c4, zero_mul, mul_zero, sub_zero] at i2
    exact absurd i2 (mul_pos t1 hp).ne'
  · push Not at all
    have a0 := mul_nonpos_of_nonneg_of_nonpos h1 (all 0).le
    have a1 := mul_nonpos_of_nonneg_of_nonpos h2 (all s).le
    have a2 := mul_nonpos_of_nonneg_of_nonpos h3 (all (s + 1)).le
    have z0 : w1 * ccw v (y 0) p = 0 := by linarith
    have z1 : w2 * ccw v (y s) p = 0 := by linarith
    have z2 : w3 * ccw v (y (s + 1)) p = 0 := by linarith
    have q1 := (mul_eq_zero.1 z0).resolve_right (all 0).ne
    have q2 := (mul_eq_zero.1 z1).resolve_right (all s).ne
    have q3 := (mul_eq_zero.1 z2).resolve_right (all (s + 1)).ne
    rw [q1, q2, q3] at h4
    norm_num at h4

/-- The triangles around the origin of `d`, counterclockwise. -/
def TMesh.spin (m : TMesh K) (d : TEdge) (s : Nat) : TEdge := m.onext^[s] d

theorem spin_succ (m : TMesh K) (d : TEdge) (s : Nat) : m.spin d (s + 1) = m.onext (m.spin d s) :=
  Function.iterate_succ_apply' ..

section
variable {m : TMesh K} {live : Nat → Prop} {T : Finset Nat} {pos : Nat → Vec K} {v : Nat} {d : TEdge}
  (hT : ∀ t, live t ↔ t ∈ T) (S : m.Sound live) (C : m.Ccw live pos) (D : m.Delaunay live pos) (A : m.Apart live pos)
  (F : m.Free live v) (hd : live d.1) (ho : m.org d = v)

include S F in
theorem onext_hub {x : TEdge} (hx : live x.1) (ox : m.org x = v) :
    live (m.onext x).1 ∧ m.org (m.onext x) = v ∧ m.dest (m.onext x) = m.apex x ∧ m.nb (m.onext x) = lprev x := by
  have hl : live (lprev x).1 := hx
  have hs : m.nb (lprev x) ≠ space := (F (lprev x) hx (.inr (by rw [dest_lprev]; exact ox))).1
  obtain ⟨n1, n2⟩ := S.nb_ends hl hs
  refine ⟨S.nb_live hl hs, ?_, ?_, S.nb_nb hl hs⟩
  · unfold TMesh.onext; rw [n1, dest_lprev, ox]
  · unfold TMesh.onext; rw [n2, org_lprev]

include S F hd ho in
theorem spin_hub (s : Nat) : live (m.spin d s).1 ∧ m.org (m.spin d s) = v := by
  induction s with
  | zero => exact ⟨hd, ho⟩
  | succ s ih =>
    rw [spin_succ]
    obtain ⟨h1, h2, -⟩ := onext_hub S F ih.1 ih.2
    exact ⟨h1, h2⟩

include S F hd ho in
theorem spin_apex (s : Nat) : m.apex (m.spin d s) = m.dest (m.spin d (s + 1)) := by
  obtain ⟨h1, h2⟩ := spin_hub S F hd ho s
  rw [spin_succ]
  exact (onext_hub S F h1 h2).2.2.1.symm

include S F hd ho in
theorem spin_inj {s t : Nat} (h : m.spin d (s + 1) = m.spin d (t + 1)) : m.spin d s = m.spin d t := by
  obtain ⟨h1, h2⟩ := spin_hub S F hd ho s
  obtain ⟨h3, h4⟩ := spin_hub S F hd ho t
  rw [spin_succ, spin_succ] at h
  have e1 := (onext_hub S F h1 h2).2.2.2
  have e2 := (onext_hub S F h3 h4).2.2.2
  rw [h, e2] at e1
  rw [← lnext_lprev (m.spin d s), ← e1, lnext_lprev]

include S in
theorem org_inj {x y : TEdge} (hx : live x.1) (hxy : y.1 = x.1) (h : m.org y = m.org x) : y = x := by
  have := apex_inj S (x := lnext x) (y := lnext y) hx hxy h
  rw [← lprev_lnext y, this, lprev_lnext]

include hT S F hd ho in
/-- The triangles come round. -/
theorem spin_period : ∃ k, 0 < k ∧ m.spin d k = d ∧ ∀ s t, s < k → t < k → m.spin d s = m.spin d t → s = t := by
  classical
  have back : ∀ n s, m.spin d (s + n) = m.spin d n → m.spin d s = d := by
    intro n
    induction n with
    | zero => intro s h; exact h
    | succ n ih => intro s h; exact ih s (spin_inj S F hd ho h)
  have ex : ∃ k, 0 < k ∧ m.spin d k = d := by
    let B : Finset TEdge := T ×ˢ Finset.univ
    have hB : ∀ s, m.spin d s ∈ B := fun s =>
      Finset.mem_product.2 ⟨(hT _).1 (spin_hub S F hd ho s).1, Finset.mem_univ _⟩
    obtain ⟨a, -, b, -, hab, heq⟩ := Finset.exists_ne_map_eq_of_card_lt_of_maps_to (s := Finset.range (B.card + 1)) (t := B)
      (f := m.spin d) (by simp) (fun s _ => hB s)
    rcases lt_or_gt_of_ne hab with h | h
    · exact ⟨b - a, by omega, back a (b - a) (by rw [Nat.sub_add_cancel h.le]; exact heq.symm)⟩
    · exact ⟨a - b, by omega, back b (a - b) (by rw [Nat.sub_add_cancel h.le]; exact heq)⟩
  obtain ⟨h1, h2⟩ := Nat.find_spec ex
  refine ⟨Nat.find ex, h1, h2, ?_⟩
  have key : ∀ s t, s < t → t < Nat.find ex → m.spin d s ≠ m.spin d t := by
    intro s t hst ht h
    exact Nat.find_min ex (m := t - s) (by omega)
      ⟨by omega, back s (t - s) (by rw [Nat.sub_add_cancel hst.le]; exact h.symm)⟩
  intro s t hs ht h
  rcases lt_trichotomy s t with h' | h' | h'
  · exact absurd h (key s t h' ht)
  · exact h'
  · exact absurd h.symm (key t s h' hs)

include S C A in
/-- Two triangles at `v` with a common direction are the same. -/
theorem hub_once {x y : TEdge} (hx : live x.1) (ox : m.org x = v) (hy : live y.1) (oy : m.org y = v) {p : Vec K}
    (h1 : 0 < ccw (pos v) (pos (m.dest x)) p) (h2 : 0 < ccw (pos v) p (pos (m.apex x)))
    (h3 : 0 < ccw (pos v) (pos (m.dest y)) p) (h4 : 0 < ccw (pos v) p (pos (m.apex y))) : x = y := by
  have cx : 0 < ccw (pos v) (pos (m.dest x)) (pos (m.apex x)) := by rw [← ox]; exact C x hx
  have cy : 0 < ccw (pos v) (pos (m.dest y)) (pos (m.apex y)) := by rw [← oy]; exact C y hy
  obtain ⟨s1, p1, q1⟩ := near_corner h1 h2 cx
  obtain ⟨s2, p2, q2⟩ := near_corner h3 h4 cy
  by_contra hne
  have ht : x.1 ≠ y.1 := fun h => hne (org_inj S hy h (ox.trans oy.symm))
  have m0 := lt_min p1 p2
  obtain ⟨a1, a2, a3⟩ := q1 (min s1 s2) m0 (min_le_left _ _) _ rfl
  obtain ⟨b1, b2, b3⟩ := q2 (min s1 s2) m0 (min_le_right _ _) _ rfl
  exact A x.1 y.1 hx hy ht _ ⟨inside_of x (by rw [ox]; exact a1) a2 (by rw [ox]; exact a3),
    inside_of y (by rw [oy]; exact b1) b2 (by rw [oy]; exact b3)⟩

variable {k : Nat} (k0 : 0 < k) (hk : m.spin d k = d) (hinj : ∀ s t, s < k → t < k → m.spin d s = m.spin d t → s = t)

include hk in
theorem spin_add (s : Nat) : m.spin d (s + k) = m.spin d s := by
  unfold TMesh.spin at *
  rw [Function.iterate_add_apply, hk]

include hk in
theorem spin_mod (s : Nat) : m.spin d (s % k) = m.spin d s := by
  have : ∀ n s, m.spin d (s + n * k) = m.spin d s := by
    intro n
    induction n with
    | zero => intro s; simp
    | succ n ih => intro s; rw [show s + (n + 1) * k = (s + n * k) + k by ring, spin_add hk, ih]
  have h := this (s / k) (s % k)
  rw [← h, Nat.mod_add_div' s k]

include S C D A F hd ho k0 hk hinj in
theorem hub_link : Umbrella (pos v) (fun s => pos (m.dest (m.spin d s))) k := by
  have turn : ∀ i, 0 < ccw (pos v) (pos (m.dest (m.spin d i))) (pos (m.dest (m.spin d (i + 1)))) := by
    intro i
    obtain ⟨h1, h2⟩ := spin_hub S F hd ho i
    have := C _ h1
    rw [h2, spin_apex S F hd ho] at this
    exact this
  refine ⟨?_, ?_, turn, ?_, ?_⟩
  · by_contra h
    have : k = 1 ∨ k = 2 := by omega
    rcases this with rfl | rfl
    · have h1 := turn 0
      rw [hk] at h1
      have z : ccw (pos v) (pos (m.dest d)) (pos (m.dest d)) = 0 := by unfold ccw; ring
      have h1 : 0 < ccw (pos v) (pos (m.dest d)) (pos (m.dest d)) := h1
      rw [z] at h1
      exact lt_irrefl _ h1
    · have h1 := turn 0
      have h2 := turn 1
      rw [hk] at h2
      have h1 : 0 < ccw (pos v) (pos (m.dest d)) (pos (m.dest (m.spin d 1))) := h1
      rw [ccw_anti] at h1
      linarith
  · intro i
    simp only [spin_add hk]
  · intro i j p h1 h2 h3 h4
    obtain ⟨x1, x2⟩ := spin_hub S F hd ho i
    obtain ⟨y1, y2⟩ := spin_hub S F hd ho j
    have h2 : 0 < ccw (pos v) p (pos (m.dest (m.spin d (i + 1)))) := h2
    have h4 : 0 < ccw (pos v) p (pos (m.dest (m.spin d (j + 1)))) := h4
    rw [← spin_apex S F hd ho] at h2 h4
    have := hub_once S C A x1 x2 y1 y2 h1 h2 h3 h4
    refine hinj _ _ (Nat.mod_lt _ k0) (Nat.mod_lt _ k0) ?_
    rw [spin_mod hk, spin_mod hk, this]
  · intro i
    obtain ⟨x1, x2⟩ := spin_hub S F hd ho i
    obtain ⟨y1, y2⟩ := spin_hub S F hd ho (i + 1)
    obtain ⟨f1, f2⟩ := F _ y1 (.inl y2)
    have hld := (ld_iff C y1).1 (D _ y1) f2 f1
    have hnb : m.nb (m.spin d (i + 1)) = lprev (m.spin d i) := by
      rw [spin_succ]; exact (onext_hub S F x1 x2).2.2.2
    rw [hnb, apex_lprev, y2, spin_apex S F hd ho] at hld
    have e : incircle (pos (m.dest (m.spin d i))) (pos (m.dest (m.spin d (i + 1)))) (pos (m.dest (m.spin d (i + 2)))) (pos v) =
        - incircle (pos v) (pos (m.dest (m.spin d (i + 1)))) (pos (m.dest (m.spin d (i + 1 + 1)))) (pos (m.dest (m.spin d i))) := by
      unfold incircle; ring
    show 0 ≤ incircle (pos (m.dest (m.spin d i))) (pos (m.dest (m.spin d (i + 1)))) (pos (m.dest (m.spin d (i + 2)))) (pos v)
    rw [e]
    linarith

include S C D A F hd ho k0 hk hinj in
/-- All triangles at `v` come round. -/
theorem hub_star {x : TEdge} (hx : live x.1) : m.org x = v ↔ ∃ s, s < k ∧ m.spin d s = x := by
  constructor
  · intro ox
    have L := hub_link S C D A F hd ho k0 hk hinj
    have cx : 0 < ccw (pos v) (pos (m.dest x)) (pos (m.apex x)) := by rw [← ox]; exact C x hx
    obtain ⟨i, h1, h2⟩ := L.around cx
    obtain ⟨p, p1, p2, p3, p4⟩ := common_direction (L.turn i) cx h1 h2
    obtain ⟨y1, y2⟩ := spin_hub S F hd ho i
    have p2 : 0 < ccw (pos v) p (pos (m.dest (m.spin d (i + 1)))) := p2
    rw [← spin_apex S F hd ho] at p2
    refine ⟨i % k, Nat.mod_lt _ k0, ?_⟩
    rw [spin_mod hk]
    exact hub_once S C A y1 y2 hx ox p1 p2 p3 p4
  · rintro ⟨s, -, rfl⟩
    exact (spin_hub S F hd ho s).2

include S C D A F hd ho k0 hk hinj in
/-- `v` is not outside of the circle through two successive neighbours and another one on their left. -/
theorem hub_weak (s q : Nat)
    (hq : 0 < ccw (pos (m.dest (m.spin d s))) (pos (m.dest (m.spin d (s + 1)))) (pos (m.dest (m.spin d q)))) :
    0 ≤ incircle (pos (m.dest (m.spin d s))) (pos (m.dest (m.spin d (s + 1)))) (pos (m.dest (m.spin d q))) (pos v) := by
  have L := hub_link S C D A F hd ho k0 hk hinj
  have hL := L.three
  -- a number after `s`
  obtain ⟨q', h1, h2, h3⟩ : ∃ q', s ≤ q' ∧ q' < s + k ∧ m.spin d q' = m.spin d q := by
    have hm := Nat.mod_lt (q + (s * (k - 1))) k0
    refine ⟨s + (q + s * (k - 1)) % k, by omega, by omega, ?_⟩
    rw [← spin_mod hk, ← spin_mod hk q, Nat.add_mod_mod, show s + (q + s * (k - 1)) = q + s * k by
      obtain ⟨k', rfl⟩ : ∃ k', k = k' + 1 := ⟨k - 1, by omega⟩
      simp only [Nat.add_sub_cancel]; ring, Nat.add_mul_mod_self_right]
  rw [← h3] at hq ⊢
  have n1 : q' ≠ s := by
    rintro rfl
    have z : ∀ a b : Vec K, ccw a b a = 0 := by intro a b; unfold ccw; ring
    rw [z] at hq; exact lt_irrefl _ hq
  have n2 : q' ≠ s + 1 := by
    rintro rfl
    have z : ∀ a b : Vec K, ccw a b b = 0 := by intro a b; unfold ccw; ring
    rw [z] at hq; exact lt_irrefl _ hq
  exact L.weak (a := s) (b := s + 1) (c := q') (by omega) (by omega) h2

include hT S C D A F hd ho k0 hk hinj in
/-- The state before the first flip. -/
theorem hub_rim : Rim m live T pos v (fun s => m.dest (m.spin d s)) k d m (seg (m.spin d) 0 k) [] := by
  have L := hub_link S C D A F hd ho k0 hk hinj
  have far : ∀ s, m.nb (lnext (m.spin d s)) = space ∨ m.Off v (m.nb (lnext (m.spin d s))).1 := by
    intro s
    obtain ⟨x1, x2⟩ := spin_hub S F hd ho s
    rw [or_iff_not_imp_left]
    intro hs
    have hl : live (lnext (m.spin d s)).1 := x1
    obtain ⟨n1, n2⟩ := S.nb_ends hl hs
    rw [dest_lnext] at n1
    rw [org_lnext] at n2
    obtain ⟨a1, a2, a3⟩ := S.apex_ne _ x1
    rw [x2] at a1 a3
    refine (off_iff _).2 ⟨by rw [n1]; exact a3, by rw [n2]; exact a1.symm, ?_⟩
    intro h
    have c1 := C.area (S.nb_live hl hs)
    rw [n1, n2, h] at c1
    have c2 := C.area x1
    rw [x2] at c2
    rw [ccw_rot, ccw_rot, ccw_anti] at c1
    linarith
  have wk := hub_weak S C D A F hd ho k0 hk hinj
  have next : ∀ s, RimNext pos (fun s => m.dest (m.spin d s)) m (s, m.spin d s) (s + 1, m.spin d (s + 1)) := by
    intro s
    obtain ⟨x1, x2⟩ := spin_hub S F hd ho s
    refine ⟨spin_apex S F hd ho s, (spin_succ m d s).symm, ?_⟩
    unfold Guard
    by_cases h1 : m.sg (lnext (m.spin d s)) = noSub
    · by_cases h2 : m.nb (lnext (m.spin d s)) = space
      · exact .inr (.inl h2)
      · refine .inr (.inr fun q hq => ?_)
        have hl : live (lnext (m.spin d s)).1 := x1
        have hld := (ld_iff C hl).1 (D _ hl) h1 h2
        obtain ⟨n1, n2⟩ := S.nb_ends hl h2
        have cn := C.area (S.nb_live hl h2)
        rw [n1, n2, dest_lnext, org_lnext, spin_apex S F hd ho] at cn
        rw [org_lnext, dest_lnext, apex_lnext, x2, spin_apex S F hd ho] at hld
        refine beyond_edge (v := pos v) (L.turn s) cn hq ?_ (wk s q hq)
        have e : ∀ a b c w : Vec K, incircle c a b w = incircle a b c w := by intro a b c w; unfold incircle; ring
        rw [e]
        exact hld
    · exact .inl h1
  refine ⟨S, Keeps.refl m, rfl, ?_, ?_, ?_, ?_, ?_, ?_, ?_, ?_, ?_, ?_, ?_, ?_⟩
  · intro x hx
    rw [hub_star S C D A F hd ho k0 hk hinj hx, List.mem_map]
    constructor
    · rintro ⟨s, h1, rfl⟩
      exact ⟨(s, m.spin d s), mem_seg.2 ⟨s, Nat.zero_le _, h1, rfl⟩, rfl⟩
    · rintro ⟨p, hp, rfl⟩
      obtain ⟨s, -, h1, rfl⟩ := mem_seg.1 hp
      exact ⟨s, h1, rfl⟩
  · intro p hp
    obtain ⟨s, -, h1, rfl⟩ := mem_seg.1 hp
    obtain ⟨x1, x2⟩ := spin_hub S F hd ho s
    exact ⟨x1, x2, rfl, (F _ x1 (.inl x2)).2⟩
  · rw [seg_cons _ k0]; rfl
  · have : seg (m.spin d) 0 k ++ [(k, d)] = seg (m.spin d) 0 (k + 1) := by
      rw [seg_append (m.spin d) (Nat.zero_le k) (Nat.le_succ k), seg_one, hk]
    rw [this]
    exact seg_chain fun s _ _ => next s
  · unfold seg
    rw [List.map_map]
    refine List.Nodup.map_on ?_ (List.nodup_range' ..)
    intro s hs t ht h
    simp only [List.mem_range'_1] at hs ht
    obtain ⟨x1, x2⟩ := spin_hub S F hd ho s
    obtain ⟨y1, y2⟩ := spin_hub S F hd ho t
    exact hinj s t (by omega) (by omega) (org_inj S y1 h (x2.trans y2.symm))
  · intro p hp
    obtain ⟨s, -, h1, rfl⟩ := mem_seg.1 hp
    exact far s
  · intro x hx _
    exact C x hx
  · intro x hx _ h2 _ h3
    exact (ld_iff C hx).1 (D _ hx) h3 h2
  · exact fun x _ _ => ⟨rfl, rfl⟩
  · exact fun x _ h1 h2 => absurd h1 h2
  · exact fun t _ h1 h2 => absurd h1 h2
  · simp

end

end Nikfemm
