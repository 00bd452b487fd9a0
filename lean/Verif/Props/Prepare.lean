import Verif.Model.Prepare
import Verif.Props.Polygon
import Verif.Props.Rings
import Verif.Props.Region
import Verif.Props.Circle
import Verif.Lemmas.Magnetostatic
import Mathlib.Algebra.Order.Floor.Ring
import Mathlib.Algebra.Order.Archimedean.Real.Basic

set_option linter.unusedSectionVars false

/-!
# Preparing a magnetostatic drawing: boundary points (C74), refinement around magnets (C75)
-/

namespace Nikfemm
open Spec Drawing

variable {P : Type}

namespace Spec

/-- Some segment of the drawing joins points exactly at `p` and `q`. -/
def HasSide {K : Type} (D : Drawing K P) (p q : Vec K) : Prop :=
  ∃ s ∈ D.segments, (D.points[s.1]? = some p ∧ D.points[s.2]? = some q) ∨
    (D.points[s.1]? = some q ∧ D.points[s.2]? = some p)

/-- Every corner of a polygon of the drawing is one of its points. -/
def CornersDrawn {K : Type} (D : Drawing K P) : Prop := ∀ R ∈ D.polygons, ∀ q ∈ R, q ∈ D.points

/-- Same drawing with more points. -/
def MorePoints {K : Type} (D D' : Drawing K P) : Prop :=
  ∃ new, D' = { D with points := D.points ++ new }

/-- The rectangle with the corners `a` and `b`, in the order in which it is drawn. -/
def rectangle (a b : Vec ℝ) : Polygon ℝ := [a, ⟨b.x, a.y⟩, b, ⟨a.x, b.y⟩]

end Spec

/-! ## Side distances and the current epsilon -/

theorem more_refl {K : Type} (D : Drawing K P) : MorePoints D D := ⟨[], by simp⟩

theorem more_trans {K : Type} {A B C : Drawing K P} (h : MorePoints A B) (h' : MorePoints B C) :
    MorePoints A C := by
  obtain ⟨l, rfl⟩ := h
  obtain ⟨m, rfl⟩ := h'
  exact ⟨l ++ m, by simp⟩

theorem more_wf {K : Type} {D D' : Drawing K P} (h : MorePoints D D') (hD : WellFormed D) :
    WellFormed D' := by
  obtain ⟨l, rfl⟩ := h; exact wf_appendPoints hD l

theorem more_get {K : Type} {D D' : Drawing K P} (h : MorePoints D D') {i : Nat} {p : Vec K}
    (hp : D.points[i]? = some p) : D'.points[i]? = some p := by
  obtain ⟨l, rfl⟩ := h
  rw [List.getElem?_append_left (getElem?_lt hp)]; exact hp

theorem more_side {K : Type} {D D' : Drawing K P} (h : MorePoints D D') {p q : Vec K}
    (hs : HasSide D p q) : HasSide D' p q := by
  obtain ⟨s, hs, h1⟩ := hs
  refine ⟨s, ?_, h1.imp (fun h1 => ⟨more_get h h1.1, more_get h h1.2⟩)
    (fun h1 => ⟨more_get h h1.1, more_get h h1.2⟩)⟩
  obtain ⟨l, rfl⟩ := h; exact hs

theorem more_corners {K : Type} {D D' : Drawing K P} (h : MorePoints D D') (hc : CornersDrawn D) :
    CornersDrawn D' := by
  obtain ⟨l, rfl⟩ := h
  exact fun R hR q hq => List.mem_append_left _ (hc R hR q hq)

theorem psd_nonneg {p a b : Vec ℝ} {d : ℝ} (h : pointSegmentDistance Real.sqrt p a b = .ok d) :
    0 ≤ d := by
  by_cases hab : a = b
  · subst hab; rw [point_segment_distance_degenerate] at h; cases h
  · obtain ⟨d', h', -, q, -, hd⟩ := point_segment_distance_correct p a b hab
    rw [h] at h'; cases h'
    rw [hd]; exact Real.sqrt_nonneg _

theorem onSegment_swap {a b p : Vec ℝ} (h : OnSegment a b p) : OnSegment b a p := by
  obtain ⟨t, h0, h1, hx, hy⟩ := h
  exact ⟨1 - t, by linarith, by linarith, by rw [hx]; ring, by rw [hy]; ring⟩

/-- The current epsilon exists, is not negative, and bounds the distance from any point to any
side it is not an end of. -/
theorem epsilon_bounds {D : Drawing ℝ P} (hD : WellFormed D) :
    ∃ e, D.getCurrentEpsilon Real.sqrt = .ok e ∧ 0 ≤ e ∧
      ∀ i q, D.points[i]? = some q → ∀ s ∈ D.segments, s.1 ≠ i → s.2 ≠ i → ∀ a b,
        D.points[s.1]? = some a → D.points[s.2]? = some b → a ≠ b → ∀ r, OnSegment a b r →
          e ≤ euclid q r := by
  obtain ⟨e, he, h1, h2, h3⟩ := getCurrentEpsilon_spec Real.sqrt hD
  refine ⟨e, he, ?_, ?_⟩
  · rcases h3 with h3 | ⟨i, s, hs, -, -, p, a, b, -, ha, hb, hd⟩
    · rw [h3]; norm_num
    · exact psd_nonneg hd
  · intro i q hq s hs n1 n2 a b ha hb hab r hr
    obtain ⟨d, hd, hl, -⟩ := point_segment_distance_correct q a b hab
    exact (h2 i s d hs ⟨n1, n2, q, a, b, hq, ha, hb, hd⟩).trans (hl r hr)

/-- With a point appended near a side, epsilon is at most its distance to the side. -/
theorem epsilon_after {D : Drawing ℝ P} (hD : WellFormed D) {new : List (Vec ℝ)} {q p1 p2 r : Vec ℝ}
    (hq : q ∈ new) (hs : HasSide D p1 p2) (hne : p1 ≠ p2) (hr : OnSegment p1 p2 r) :
    ∃ e, ({ D with points := D.points ++ new } : Drawing ℝ P).getCurrentEpsilon Real.sqrt = .ok e ∧
      0 ≤ e ∧ e ≤ euclid q r := by
  have hw := wf_appendPoints hD new
  obtain ⟨e, he, h0, hb⟩ := epsilon_bounds hw
  refine ⟨e, he, h0, ?_⟩
  obtain ⟨k, hk⟩ := List.mem_iff_getElem?.mp hq
  obtain ⟨s, hsm, h⟩ := hs
  have hk' : (D.points ++ new)[D.points.length + k]? = some q := by
    rw [List.getElem?_append_right (by omega)]; simpa using hk
  have hrf := hD.refs s hsm
  have up : ∀ {i : Nat} {x : Vec ℝ}, D.points[i]? = some x → (D.points ++ new)[i]? = some x :=
    fun hx => by rw [List.getElem?_append_left (getElem?_lt hx)]; exact hx
  rcases h with ⟨ha, hb'⟩ | ⟨ha, hb'⟩
  · exact hb _ q hk' s hsm (by omega) (by omega) p1 p2 (up ha) (up hb') hne r hr
  · exact hb _ q hk' s hsm (by omega) (by omega) p2 p1 (up ha) (up hb') hne.symm r
      (onSegment_swap hr)

/-! ## One side -/

/-- The offset of the candidates. -/
noncomputable def offsetOf (p1 p2 : Vec ℝ) (e : ℝ) : Vec ℝ :=
  (((p2.sub p1).normal.normalize Real.sqrt).smul (e / 10)).smul (11 / 10)

theorem euclid_offset {p1 p2 : Vec ℝ} (hne : p1 ≠ p2) {e : ℝ} (he : 0 ≤ e) (c : Vec ℝ) :
    euclid (c.add (offsetOf p1 p2 e)) c = 11 / 100 * e ∧
    euclid (c.sub (offsetOf p1 p2 e)) c = 11 / 100 * e := by
  set x := p2.x - p1.x
  set y := p2.y - p1.y
  have hpos : 0 < (-y) * (-y) + x * x := by
    rcases eq_or_ne x 0 with hx | hx
    · have hy : y ≠ 0 := by
        intro hy
        apply hne
        ext
        · simp only [x] at hx; linarith
        · simp only [y] at hy; linarith
      have := mul_self_pos.mpr hy
      nlinarith [mul_self_nonneg x]
    · have := mul_self_pos.mpr hx
      nlinarith [mul_self_nonneg y]
  have hs := Real.sqrt_pos.mpr hpos
  have hsq := Real.mul_self_sqrt hpos.le
  set L := Real.sqrt ((-y) * (-y) + x * x) with hL
  have ho : offsetOf p1 p2 e = ⟨-y / L * (e / 10) * (11 / 10), x / L * (e / 10) * (11 / 10)⟩ := by
    unfold offsetOf Vec.normalize Vec.normal Vec.norm Vec.sub Vec.smul
    simp only
    rw [if_neg hs.ne']
  have key : (-y / L * (e / 10) * (11 / 10)) ^ 2 + (x / L * (e / 10) * (11 / 10)) ^ 2 =
      (11 / 100 * e) ^ 2 := by
    have : ((-y) ^ 2 + x ^ 2) / L ^ 2 = 1 := by
      rw [div_eq_one_iff_eq (by positivity)]; nlinarith
    calc _ = ((-y) ^ 2 + x ^ 2) / L ^ 2 * (11 / 100 * e) ^ 2 := by field_simp; ring
      _ = _ := by rw [this, one_mul]
  have hn : 0 ≤ 11 / 100 * e := by positivity
  rw [ho]
  unfold euclid
  simp only [Vec.add, Vec.sub]
  constructor
  · rw [show (c.x + -y / L * (e / 10) * (11 / 10) - c.x) ^ 2 +
      (c.y + x / L * (e / 10) * (11 / 10) - c.y) ^ 2 = (11 / 100 * e) ^ 2 by rw [← key]; ring,
      Real.sqrt_sq hn]
  · rw [show (c.x - -y / L * (e / 10) * (11 / 10) - c.x) ^ 2 +
      (c.y - x / L * (e / 10) * (11 / 10) - c.y) ^ 2 = (11 / 100 * e) ^ 2 by rw [← key]; ring,
      Real.sqrt_sq hn]

/-- What one pair of candidates does. -/
theorem candidates_spec (Q : Polygon ℝ) (p1 p2 : Vec ℝ) (e : ℝ) (n j : Nat) (D : Drawing ℝ P) :
    ∃ new, magnetCandidates Real.sqrt Q p1 p2 e n j D = { D with points := D.points ++ new } ∧
      (∀ q ∈ new, q = (Vec.lerp p1 p2 ((j : ℝ) / n)).add (offsetOf p1 p2 e) ∨
        q = (Vec.lerp p1 p2 ((j : ℝ) / n)).sub (offsetOf p1 p2 e)) ∧
      (∀ c, c = (Vec.lerp p1 p2 ((j : ℝ) / n)).add (offsetOf p1 p2 e) ∨
          c = (Vec.lerp p1 p2 ((j : ℝ) / n)).sub (offsetOf p1 p2 e) →
        (Q.contains c && awayFromAll Real.sqrt D (e / 10) c) = true → c ∈ new) := by
  unfold magnetCandidates
  rw [show (((p2.sub p1).normal.normalize Real.sqrt).smul (e / 10)).smul (11 / 10) =
    offsetOf p1 p2 e from rfl]
  simp only
  generalize (Vec.lerp p1 p2 ((j : ℝ) / n)).add (offsetOf p1 p2 e) = c
  generalize (Vec.lerp p1 p2 ((j : ℝ) / n)).sub (offsetOf p1 p2 e) = c'
  by_cases h0 : (Q.contains c && awayFromAll Real.sqrt D (e / 10) c) = true <;>
  by_cases h1 : (Q.contains c' && awayFromAll Real.sqrt D (e / 10) c') = true
  · refine ⟨[c, c'], by rw [if_pos h0, if_pos h1]; simp [drawPoint], by simp, ?_⟩
    rintro d (rfl | rfl) - <;> simp
  · refine ⟨[c], by rw [if_pos h0, if_neg h1]; simp [drawPoint], by simp, ?_⟩
    rintro d (rfl | rfl) hd
    · simp
    · exact absurd hd h1
  · refine ⟨[c'], by rw [if_neg h0, if_pos h1]; simp [drawPoint], by simp, ?_⟩
    rintro d (rfl | rfl) hd
    · exact absurd hd h0
    · simp
  · refine ⟨[], by rw [if_neg h0, if_neg h1]; simp, by simp, ?_⟩
    rintro d (rfl | rfl) hd
    · exact absurd hd h0
    · exact absurd hd h1

/-- One side: an undefined conversion, or points appended, each beside the side. -/
theorem refineSide_spec {Q : Polygon ℝ} {i : Nat} (hi : i < Q.length) {D : Drawing ℝ P}
    (hD : WellFormed D) :
    ∃ p1 p2 e, Q[i]? = some p1 ∧ Q[(i + 1) % Q.length]? = some p2 ∧
      D.getCurrentEpsilon Real.sqrt = .ok e ∧ 0 ≤ e ∧
      ((toU32 (fdiv (p1.dist Real.sqrt p2) (e / 10)) = .error .ub ∧
          refineSide Real.sqrt Q i D = .error .ub) ∨
       ∃ n new, toU32 (fdiv (p1.dist Real.sqrt p2) (e / 10)) = .ok n ∧
        refineSide Real.sqrt Q i D = .ok { D with points := D.points ++ new } ∧
        (∀ q ∈ new, ∃ j : Nat, j < n ∧
          (q = (Vec.lerp p1 p2 ((j : ℝ) / n)).add (offsetOf p1 p2 e) ∨
           q = (Vec.lerp p1 p2 ((j : ℝ) / n)).sub (offsetOf p1 p2 e))) ∧
        (0 < n → ∀ c, c = p1.add (offsetOf p1 p2 e) ∨ c = p1.sub (offsetOf p1 p2 e) →
          (Q.contains c && awayFromAll Real.sqrt D (e / 10) c) = true → c ∈ new)) := by
  have hj : (i + 1) % Q.length < Q.length := Nat.mod_lt _ (by omega)
  obtain ⟨e, he, h0, -⟩ := epsilon_bounds hD
  refine ⟨Q[i], Q[(i + 1) % Q.length], e, List.getElem?_eq_getElem hi, List.getElem?_eq_getElem hj,
    he, h0, ?_⟩
  have hstart : refineSide Real.sqrt Q i D = (toU32 (fdiv (Q[i].dist Real.sqrt
      Q[(i + 1) % Q.length]) (e / 10))).bind (fun n => forUp 0 n (fun j D =>
        .ok (magnetCandidates Real.sqrt Q Q[i] Q[(i + 1) % Q.length] e n j D)) D) := by
    unfold refineSide
    rw [rd_ok hi, ok_bind, rd_ok hj, ok_bind, he, ok_bind]
    rfl
  rw [hstart]
  set p1 := Q[i]
  set p2 := Q[(i + 1) % Q.length]
  cases hn : toU32 (fdiv (p1.dist Real.sqrt p2) (e / 10)) with
  | error f =>
    left
    have : f = .ub := by
      unfold toU32 at hn
      split at hn
      · split_ifs at hn; cases hn; rfl
      · cases hn; rfl
    subst this
    exact ⟨rfl, rfl⟩
  | ok n =>
    right
    have hl0 : Vec.lerp p1 p2 (((0 : ℕ) : ℝ) / n) = p1 := by
      unfold Vec.lerp; simp
    obtain ⟨D', hD', new, rfl, hall, hfirst⟩ := forUp_inv (σ := Drawing ℝ P)
      (fun j D' => ∃ new, D' = { D with points := D.points ++ new } ∧
        (∀ q ∈ new, ∃ k : Nat, k < j ∧
          (q = (Vec.lerp p1 p2 ((k : ℝ) / n)).add (offsetOf p1 p2 e) ∨
           q = (Vec.lerp p1 p2 ((k : ℝ) / n)).sub (offsetOf p1 p2 e))) ∧
        (0 < j → ∀ c, c = p1.add (offsetOf p1 p2 e) ∨ c = p1.sub (offsetOf p1 p2 e) →
          (Q.contains c && awayFromAll Real.sqrt D (e / 10) c) = true → c ∈ new) ∧
        (j = 0 → new = []))
      (Nat.zero_le n) (s := D)
      (body := fun j D => .ok (magnetCandidates Real.sqrt Q p1 p2 e n j D))
      ⟨[], by simp, by simp, by simp, by simp⟩ (by
        rintro j s - hjn ⟨new, rfl, hall, hfirst, hzero⟩
        obtain ⟨more, hm, hmem, hin⟩ := candidates_spec Q p1 p2 e n j
          ({ D with points := D.points ++ new } : Drawing ℝ P)
        refine ⟨_, rfl, new ++ more, by rw [hm]; simp, ?_, ?_, by omega⟩
        · intro q hq
          rcases List.mem_append.mp hq with hq | hq
          · obtain ⟨k, hk, h⟩ := hall q hq
            exact ⟨k, by omega, h⟩
          · exact ⟨j, by omega, hmem q hq⟩
        · intro _ c hcc hok
          rcases Nat.eq_zero_or_pos j with rfl | hj
          · have hnil := hzero rfl
            subst hnil
            rw [hl0] at hin
            refine List.mem_append_right _ (hin c hcc ?_)
            simpa using hok
          · exact List.mem_append_left _ (hfirst hj c hcc hok))
    exact ⟨n, new, rfl, hD', hall, hfirst.1⟩

/-- C75: refining along a side that is drawn shrinks the drawing's epsilon to at most 11 % of what
it was, as soon as one point is added; the next side is divided accordingly finer. -/
theorem refined_side_shrinks (Q : Polygon ℝ) (i : Nat) (p1 p2 : Vec ℝ) (hp1 : Q[i]? = some p1)
    (hp2 : Q[(i + 1) % Q.length]? = some p2) (hne : p1 ≠ p2) (D D' : Drawing ℝ P)
    (hD : WellFormed D) (hs : HasSide D p1 p2) (h : refineSide Real.sqrt Q i D = .ok D')
    (hadd : D'.points ≠ D.points) :
    ∃ e e', D.getCurrentEpsilon Real.sqrt = .ok e ∧ D'.getCurrentEpsilon Real.sqrt = .ok e' ∧
      0 ≤ e' ∧ e' ≤ 11 / 100 * e := by
  obtain ⟨q1, q2, e, h1, h2, he, h0, ⟨-, hub⟩ | ⟨n, new, -, hok, hall, -⟩⟩ :=
    refineSide_spec (getElem?_lt hp1) hD (Q := Q)
  · rw [h] at hub; cases hub
  · rw [hp1] at h1; rw [hp2] at h2; cases h1; cases h2
    rw [h] at hok; cases hok
    obtain ⟨q, hq⟩ : ∃ q, q ∈ new := by
      rcases new with _ | ⟨q, l⟩
      · simp at hadd
      · exact ⟨q, by simp⟩
    obtain ⟨j, hj, hc⟩ := hall q hq
    have hn : (0 : ℝ) < n := by exact_mod_cast (by omega : 0 < n)
    have hon : OnSegment p1 p2 (Vec.lerp p1 p2 ((j : ℝ) / n)) := by
      refine ⟨(j : ℝ) / n, by positivity, ?_, ?_, ?_⟩
      · rw [div_le_one hn]; exact_mod_cast hj.le
      · unfold Vec.lerp; ring
      · unfold Vec.lerp; ring
    obtain ⟨e', he', h0', hle⟩ := epsilon_after hD hq hs hne hon
    refine ⟨e, e', he, he', h0', hle.trans (le_of_eq ?_)⟩
    obtain ⟨a1, a2⟩ := euclid_offset hne h0 (Vec.lerp p1 p2 ((j : ℝ) / n))
    rcases hc with rfl | rfl
    · exact a1
    · exact a2

/-- A side of a square with one more corner. -/
def exSide : Drawing ℝ P :=
  { points := [⟨0, 0⟩, ⟨1, 0⟩, ⟨0, 1⟩], segments := [(0, 1)], polygons := [], regions := [],
    regionMap := [] }

theorem exSide_wf : WellFormed (exSide : Drawing ℝ P) :=
  ⟨by simp [exSide], by simp [exSide], by simp [exSide]⟩

theorem exSide_epsilon : (exSide : Drawing ℝ P).getCurrentEpsilon Real.sqrt = .ok 1 := by
  obtain ⟨e, he, -, h2, h3⟩ := getCurrentEpsilon_spec Real.sqrt (exSide_wf (P := P))
  have hne : (⟨0, 0⟩ : Vec ℝ) ≠ ⟨1, 0⟩ := by
    intro h; have := congrArg Vec.x h; norm_num at this
  obtain ⟨d, hd, hl, q, hq, hdq⟩ := point_segment_distance_correct (⟨0, 1⟩ : Vec ℝ) ⟨0, 0⟩ ⟨1, 0⟩ hne
  have hd1 : d = 1 := by
    apply le_antisymm
    · refine (hl ⟨0, 0⟩ ⟨0, by norm_num⟩).trans (le_of_eq ?_)
      unfold euclid; norm_num
    · obtain ⟨t, -, -, -, hy⟩ := hq
      rw [hdq]
      unfold euclid
      rw [Real.one_le_sqrt, hy]
      nlinarith [sq_nonneg ((0 : ℝ) - q.x)]
  subst hd1
  have hle := h2 2 (0, 1) 1 (by simp [exSide]) ⟨by decide, by decide, _, _, _, rfl, rfl, rfl, hd⟩
  rcases h3 with h3 | ⟨i, s, hs, n1, n2, p, a, b, hp, ha, hb, hd'⟩
  · exfalso
    have h1 : (1 : ℝ) < (2 - 1 / 2 ^ 52) * 2 ^ 1023 := by
      have := pow_le_pow_right₀ (show (1 : ℝ) ≤ 2 by norm_num) (show 1 ≤ 1023 by norm_num)
      have h52 : (1 : ℝ) ≤ 2 - 1 / 2 ^ 52 := by norm_num
      have h2p : (2 : ℝ) ≤ 2 ^ 1023 := by rwa [pow_one] at this
      calc (1 : ℝ) < 1 * 2 := by norm_num
        _ ≤ (2 - 1 / 2 ^ 52) * 2 ^ 1023 :=
          mul_le_mul h52 h2p (by norm_num) (zero_le_one.trans h52)
    rw [h3] at hle
    exact absurd hle (not_le.mpr h1)
  · have hs' : s = (0, 1) := by simpa [exSide] using hs
    subst hs'
    have hi : i < 3 := by simpa [exSide] using getElem?_lt hp
    have hi2 : i = 2 := by simp only at n1 n2; omega
    subst hi2
    cases hp; cases ha; cases hb
    rw [hd] at hd'; cases hd'
    exact he

/-- The hypotheses of `refined_side_shrinks` hold for the first side of the unit square. -/
example : ∃ D' : Drawing ℝ P, ∃ e', refineSide Real.sqrt (rectangle ⟨0, 0⟩ ⟨1, 1⟩) 0 exSide = .ok D' ∧
    D'.getCurrentEpsilon Real.sqrt = .ok e' ∧ e' ≤ 11 / 100 := by
  obtain ⟨p1, p2, e, h1, h2, he, -, h⟩ := refineSide_spec (Q := rectangle ⟨0, 0⟩ ⟨1, 1⟩) (i := 0)
    (by simp [rectangle]) (exSide_wf (P := P))
  rw [exSide_epsilon] at he; cases he
  have e1 : p1 = ⟨0, 0⟩ := by simpa [rectangle] using h1.symm
  have e2 : p2 = ⟨1, 0⟩ := by simpa [rectangle] using h2.symm
  subst e1 e2
  have hdist : (⟨0, 0⟩ : Vec ℝ).dist Real.sqrt ⟨1, 0⟩ = 1 := by unfold Vec.dist; norm_num
  have hn : toU32 (fdiv ((⟨0, 0⟩ : Vec ℝ).dist Real.sqrt ⟨1, 0⟩) (1 / 10)) = .ok 10 := by
    rw [hdist, fdiv_ok (by norm_num)]
    unfold toU32
    simp only
    rw [if_pos (by norm_num), show (1 : ℝ) / (1 / 10) = ((10 : ℤ) : ℝ) by norm_num, Int.floor_intCast]
    rfl
  rw [hn] at h
  rcases h with ⟨h, -⟩ | ⟨n, new, hn', hok, -, hfirst⟩
  · cases h
  cases hn'
  have hmem := hfirst (by norm_num) ⟨0, 11 / 100⟩ (Or.inl (by
    unfold offsetOf Vec.normalize Vec.normal Vec.norm Vec.sub Vec.smul Vec.add
    norm_num)) (by
    rw [Bool.and_eq_true]
    refine ⟨(rectangle_contains _ _ _).mpr (by norm_num), ?_⟩
    have a1 : ¬ Real.sqrt (((0 : ℝ) - 0) ^ 2 + (11 / 100 - 0) ^ 2) < 1 / 10 := by
      rw [Real.sqrt_lt' (by norm_num)]; norm_num
    have a2 : ¬ Real.sqrt (((0 : ℝ) - 1) ^ 2 + (11 / 100 - 0) ^ 2) < 1 / 10 := by
      rw [Real.sqrt_lt' (by norm_num)]; norm_num
    have a3 : ¬ Real.sqrt (((0 : ℝ) - 0) ^ 2 + (11 / 100 - 1) ^ 2) < 1 / 10 := by
      rw [Real.sqrt_lt' (by norm_num)]; norm_num
    unfold awayFromAll exSide
    simp only [List.all_nil, List.all_cons, Vec.dist, Bool.and_eq_true, Bool.not_eq_true']
    exact ⟨trivial, decide_eq_false_iff_not.mpr a1, decide_eq_false_iff_not.mpr a2,
      decide_eq_false_iff_not.mpr a3, trivial⟩)
  obtain ⟨e0, e', he0, he', -, hle⟩ := refined_side_shrinks (rectangle ⟨0, 0⟩ ⟨1, 1⟩) 0 ⟨0, 0⟩ ⟨1, 0⟩
    rfl rfl (by intro h; have := congrArg Vec.x h; norm_num at this) exSide _ exSide_wf
    ⟨(0, 1), by simp [exSide], Or.inl ⟨rfl, rfl⟩⟩ hok (by
      intro h
      simp only at h
      rw [List.append_right_eq_self] at h
      rw [h] at hmem; cases hmem)
  rw [exSide_epsilon] at he0; cases he0
  exact ⟨_, e', hok, he', by linarith⟩

/-! ## Rectangular magnets -/

theorem toU32_zero {x : ℝ} : toU32 (fdiv x (0 / 10)) = .error .ub := by
  rw [zero_div, fdiv_zero]; rfl

/-- Refining a drawn rectangle is undefined. -/
theorem refineMagnet_rectangle {a b : Vec ℝ} (hx : a.x ≠ b.x) (hy : a.y ≠ b.y) {D : Drawing ℝ P}
    (hD : WellFormed D) (hc : CornersDrawn D) (hbot : HasSide D a ⟨b.x, a.y⟩)
    (hleft : HasSide D ⟨a.x, b.y⟩ a) :
    refineMagnet Real.sqrt (rectangle a b) D = .error .ub := by
  set Q := rectangle a b with hQ
  have hlen : Q.length = 4 := rfl
  have hrun : refineMagnet Real.sqrt Q D = (refineSide Real.sqrt Q 0 D).bind (fun D =>
      (refineSide Real.sqrt Q 1 D).bind (fun D => forUp 2 4 (refineSide Real.sqrt Q) D)) := by
    unfold refineMagnet
    rw [hlen]
    simp only [forUp, loopN]
    cases refineSide Real.sqrt Q 0 D with
    | error f => rfl
    | ok D1 =>
      show _ = Except.bind (refineSide Real.sqrt Q 1 D1) _
      simp only
      cases refineSide Real.sqrt Q 1 D1 <;> rfl
  rw [hrun]
  obtain ⟨p1, p2, e, h1, h2, he, h0, ⟨-, hub⟩ | ⟨n, new, hn, hok, -, hfirst⟩⟩ :=
    refineSide_spec (show 0 < Q.length by omega) hD
  · rw [hub]; rfl
  have e1 : p1 = a := by simpa [hQ, rectangle] using h1.symm
  have e2 : p2 = ⟨b.x, a.y⟩ := by simpa [hQ, rectangle] using h2.symm
  subst e1
  have hneb : p1 ≠ p2 := by
    rw [e2]; intro h; exact hx (by simpa using congrArg Vec.x h)
  have hnel : (⟨p1.x, b.y⟩ : Vec ℝ) ≠ p1 := by
    intro h; exact hy (congrArg Vec.y h).symm
  rcases h0.eq_or_lt with h0 | hpos
  · rw [← h0, toU32_zero] at hn; cases hn
  -- epsilon is at most the width and the height
  obtain ⟨e', he', -, hbound⟩ := epsilon_bounds hD
  rw [he] at he'; cases he'
  obtain ⟨sl, hsl, hl⟩ := hleft
  obtain ⟨sb, hsb, hb⟩ := hbot
  -- normal form of the two sides: index of the far end and the ends as points
  have hleftB : ∀ (i : Nat) q, D.points[i]? = some q → q ≠ p1 → q ≠ ⟨p1.x, b.y⟩ → ∀ r,
      OnSegment ⟨p1.x, b.y⟩ p1 r → e ≤ euclid q r := by
    intro i q hq n1 n2 r hr
    rcases hl with ⟨g1, g2⟩ | ⟨g1, g2⟩
    · refine hbound i q hq sl hsl ?_ ?_ _ _ g1 g2 hnel r hr
      · rintro rfl; rw [hq] at g1; exact n2 (Option.some.inj g1)
      · rintro rfl; rw [hq] at g2; exact n1 (Option.some.inj g2)
    · refine hbound i q hq sl hsl ?_ ?_ _ _ g1 g2 hnel.symm r (onSegment_swap hr)
      · rintro rfl; rw [hq] at g1; exact n1 (Option.some.inj g1)
      · rintro rfl; rw [hq] at g2; exact n2 (Option.some.inj g2)
  have hbotB : ∀ (i : Nat) q, D.points[i]? = some q → q ≠ p1 → q ≠ ⟨b.x, p1.y⟩ → ∀ r,
      OnSegment p1 ⟨b.x, p1.y⟩ r → e ≤ euclid q r := by
    rw [e2] at hneb
    intro i q hq n1 n2 r hr
    rcases hb with ⟨g1, g2⟩ | ⟨g1, g2⟩
    · refine hbound i q hq sb hsb ?_ ?_ _ _ g1 g2 hneb r hr
      · rintro rfl; rw [hq] at g1; exact n1 (Option.some.inj g1)
      · rintro rfl; rw [hq] at g2; exact n2 (Option.some.inj g2)
    · refine hbound i q hq sb hsb ?_ ?_ _ _ g1 g2 hneb.symm r (onSegment_swap hr)
      · rintro rfl; rw [hq] at g1; exact n2 (Option.some.inj g1)
      · rintro rfl; rw [hq] at g2; exact n1 (Option.some.inj g2)
  obtain ⟨t, ht, hty⟩ : ∃ t : ℝ, (t = 1 ∨ t = -1) ∧ 0 < t * (b.y - p1.y) := by
    rcases lt_or_gt_of_ne hy with h | h
    · exact ⟨1, Or.inl rfl, by linarith⟩
    · exact ⟨-1, Or.inr rfl, by linarith⟩
  obtain ⟨u, hu, hux⟩ : ∃ u : ℝ, (u = 1 ∨ u = -1) ∧ 0 < u * (b.x - p1.x) := by
    rcases lt_or_gt_of_ne hx with h | h
    · exact ⟨1, Or.inl rfl, by linarith⟩
    · exact ⟨-1, Or.inr rfl, by linarith⟩
  have ht2 : t ^ 2 = 1 := by rcases ht with rfl | rfl <;> norm_num
  have hu2 : u ^ 2 = 1 := by rcases hu with rfl | rfl <;> norm_num
  have hh : e ≤ t * (b.y - p1.y) := by
    obtain ⟨i, hi⟩ : ∃ i : Nat, D.points[i]? = some (⟨p1.x, b.y⟩ : Vec ℝ) := by
      rcases hl with ⟨g, -⟩ | ⟨-, g⟩ <;> exact ⟨_, g⟩
    have := hbotB i _ hi hnel
      (by intro h; exact hx (by simpa using congrArg Vec.x h)) p1 ⟨0, by norm_num⟩
    refine this.trans (le_of_eq ?_)
    unfold euclid
    rw [show ((p1.x - p1.x) ^ 2 + (b.y - p1.y) ^ 2 : ℝ) = (t * (b.y - p1.y)) ^ 2 by
      rw [mul_pow, ht2]; ring, Real.sqrt_sq hty.le]
  have hw : e ≤ u * (b.x - p1.x) := by
    obtain ⟨i, hi⟩ : ∃ i : Nat, D.points[i]? = some (⟨b.x, p1.y⟩ : Vec ℝ) := by
      rcases hb with ⟨-, g⟩ | ⟨g, -⟩ <;> exact ⟨_, g⟩
    have := hleftB i _ hi (e2 ▸ hneb.symm) (by intro h; exact hx (congrArg Vec.x h).symm)
      p1 ⟨1, by norm_num⟩
    refine this.trans (le_of_eq ?_)
    unfold euclid
    rw [show ((b.x - p1.x) ^ 2 + (p1.y - p1.y) ^ 2 : ℝ) = (u * (b.x - p1.x)) ^ 2 by
      rw [mul_pow, hu2]; ring, Real.sqrt_sq hux.le]
  -- one of the first candidates is on the left side
  have hoff : offsetOf p1 p2 e = ⟨0, u * (11 / 100 * e)⟩ := by
    rw [e2]
    unfold offsetOf Vec.normalize Vec.normal Vec.norm Vec.sub Vec.smul
    have hsq : Real.sqrt (-(p1.y - p1.y) * -(p1.y - p1.y) + (b.x - p1.x) * (b.x - p1.x)) =
        u * (b.x - p1.x) := by
      rw [show (-(p1.y - p1.y) * -(p1.y - p1.y) + (b.x - p1.x) * (b.x - p1.x) : ℝ) =
        (u * (b.x - p1.x)) ^ 2 by rw [mul_pow, hu2]; ring, Real.sqrt_sq hux.le]
    have hdiv : (b.x - p1.x) / (u * (b.x - p1.x)) = u := by
      rw [div_eq_iff hux.ne']
      linear_combination (-(b.x - p1.x)) * hu2
    simp only [hsq, if_neg hux.ne', hdiv]
    ext
    · simp
    · simp only; ring
  set g : ℝ := 11 / 100 * e with hg
  have hgpos : 0 < g := by positivity
  have hcand : (⟨p1.x, p1.y + t * g⟩ : Vec ℝ) = p1.add (offsetOf p1 p2 e) ∨
      (⟨p1.x, p1.y + t * g⟩ : Vec ℝ) = p1.sub (offsetOf p1 p2 e) := by
    rw [hoff]
    rcases ht with rfl | rfl <;> rcases hu with rfl | rfl
    · left; simp [Vec.add]
    · right; simp [Vec.sub]
    · right; simp [Vec.sub]; ring
    · left; simp [Vec.add]
  have hon : OnSegment (⟨p1.x, b.y⟩ : Vec ℝ) p1 ⟨p1.x, p1.y + t * g⟩ := by
    refine ⟨1 - g / (t * (b.y - p1.y)), ?_, ?_, ?_, ?_⟩
    · rw [sub_nonneg, div_le_one hty]; linarith
    · have : 0 ≤ g / (t * (b.y - p1.y)) := by positivity
      linarith
    · simp
    · have hne : b.y - p1.y ≠ 0 := sub_ne_zero.mpr (Ne.symm hy)
      have : g / (t * (b.y - p1.y)) = t * g / (b.y - p1.y) := by
        rw [div_eq_div_iff hty.ne' hne]
        linear_combination (-(g * (b.y - p1.y))) * ht2
      simp only [this]
      field_simp
      ring
  have hdist : ∀ (i : Nat) q, D.points[i]? = some q →
      ¬ euclid ⟨p1.x, p1.y + t * g⟩ q < e / 10 := by
    intro i q hq
    rw [not_lt]
    by_cases hq1 : q = p1
    · subst hq1
      unfold euclid
      rw [show ((q.x - q.x) ^ 2 + (q.y + t * g - q.y) ^ 2 : ℝ) = g ^ 2 by
        linear_combination g ^ 2 * ht2, Real.sqrt_sq hgpos.le]
      linarith
    by_cases hq2 : q = ⟨p1.x, b.y⟩
    · subst hq2
      unfold euclid
      rw [show ((p1.x - p1.x) ^ 2 + (p1.y + t * g - b.y) ^ 2 : ℝ) =
        (t * (b.y - p1.y) - g) ^ 2 by
          linear_combination (g ^ 2 - (b.y - p1.y) ^ 2) * ht2, Real.sqrt_sq (by linarith)]
      linarith
    · have := hleftB i q hq hq1 hq2 _ hon
      have hsym : euclid q ⟨p1.x, p1.y + t * g⟩ = euclid ⟨p1.x, p1.y + t * g⟩ q := by
        unfold euclid; congr 1; ring
      rw [hsym] at this
      linarith
  have haccept : (Q.contains ⟨p1.x, p1.y + t * g⟩ &&
      awayFromAll Real.sqrt D (e / 10) ⟨p1.x, p1.y + t * g⟩) = true := by
    rw [Bool.and_eq_true]
    refine ⟨?_, ?_⟩
    · rw [hQ]
      refine (rectangle_contains p1 b _).mpr ⟨⟨min_le_left _ _, le_max_left _ _⟩, ?_, ?_⟩
      · rw [min_le_iff]
        rcases ht with rfl | rfl
        · left; simp only; linarith
        · right; simp only; linarith
      · rw [le_max_iff]
        rcases ht with rfl | rfl
        · right; simp only; linarith
        · left; simp only; linarith
    · unfold awayFromAll
      rw [Bool.and_eq_true]
      have hp : ∀ q ∈ D.points, (!decide ((⟨p1.x, p1.y + t * g⟩ : Vec ℝ).dist Real.sqrt q <
          e / 10)) = true := by
        intro q hq
        obtain ⟨i, hi⟩ := List.mem_iff_getElem?.mp hq
        have := hdist i q hi
        unfold euclid at this
        rw [Bool.not_eq_true', decide_eq_false_iff_not]
        exact this
      refine ⟨?_, List.all_eq_true.mpr hp⟩
      rw [List.all_eq_true]
      intro R hR
      rw [List.all_eq_true]
      exact fun q hq => hp q (hc R hR q hq)
  have hnpos : 0 < n := by
    have hd : p1.dist Real.sqrt p2 = u * (b.x - p1.x) := by
      rw [e2]
      unfold Vec.dist
      rw [show ((p1.x - b.x) ^ 2 + (p1.y - p1.y) ^ 2 : ℝ) = (u * (b.x - p1.x)) ^ 2 by
        rw [mul_pow, hu2]; ring, Real.sqrt_sq hux.le]
    rw [hd, fdiv_ok (by positivity : e / 10 ≠ 0)] at hn
    unfold toU32 at hn
    simp only at hn
    split_ifs at hn with hr
    cases hn
    have : (1 : ℝ) ≤ u * (b.x - p1.x) / (e / 10) := by
      rw [le_div_iff₀ (by positivity)]; linarith
    have h1 : (1 : ℤ) ≤ ⌊u * (b.x - p1.x) / (e / 10)⌋ := Int.le_floor.mpr (by exact_mod_cast this)
    omega
  have hmem := hfirst hnpos _ hcand haccept
  have hleft' : HasSide D ⟨p1.x, b.y⟩ p1 := ⟨sl, hsl, hl⟩
  obtain ⟨e'', he'', h0'', hle⟩ := epsilon_after hD hmem hleft' hnel hon
  have hz : e'' = 0 := by
    refine le_antisymm (hle.trans (le_of_eq ?_)) h0''
    unfold euclid; simp
  subst hz
  obtain ⟨q1, q2, e3, -, -, he3, -, ⟨-, hub⟩ | ⟨m, new', hm, -⟩⟩ :=
    refineSide_spec (show 1 < Q.length by omega) (wf_appendPoints hD new)
  · rw [hok]
    show (refineSide Real.sqrt Q 1 _).bind _ = _
    rw [hub]; rfl
  · rw [he''] at he3; cases he3
    rw [toU32_zero] at hm; cases hm

/-- A magnet is refined with points added, or the refinement is undefined. -/
theorem refineMagnet_outcome (Q : Polygon ℝ) {D : Drawing ℝ P} (hD : WellFormed D) :
    refineMagnet Real.sqrt Q D = .error .ub ∨
      ∃ D', refineMagnet Real.sqrt Q D = .ok D' ∧ MorePoints D D' := by
  unfold refineMagnet forUp
  have : ∀ (cnt lo : Nat) (D' : Drawing ℝ P), lo + cnt ≤ Q.length → MorePoints D D' →
      loopN (refineSide Real.sqrt Q) cnt lo D' = .error .ub ∨
        ∃ D'', loopN (refineSide Real.sqrt Q) cnt lo D' = .ok D'' ∧ MorePoints D D'' := by
    intro cnt
    induction cnt with
    | zero => intro lo D' _ h; exact Or.inr ⟨D', rfl, h⟩
    | succ cnt ih =>
      intro lo D' hlo h
      unfold loopN
      obtain ⟨p1, p2, e, -, -, -, -, ⟨-, hub⟩ | ⟨n, new, -, hok, -⟩⟩ :=
        refineSide_spec (show lo < Q.length by omega) (more_wf h hD)
      · left; rw [hub]
      · rw [hok]
        exact ih (lo + 1) _ (by omega) (more_trans h ⟨new, rfl⟩)
  exact this _ 0 D (by omega) (more_refl D)

/-! ## Which polygons are magnets -/

theorem mapPush_mem (id : Nat) (Q : Polygon ℝ) : ∀ tab : List (Nat × List (Polygon ℝ)),
    (∃ e ∈ mapPush id Q tab, Q ∈ e.2) ∧
    (∀ R, (∃ e ∈ tab, R ∈ e.2) → ∃ e ∈ mapPush id Q tab, R ∈ e.2) ∧
    ∀ e ∈ mapPush id Q tab, ∀ R ∈ e.2, R = Q ∨ ∃ e' ∈ tab, R ∈ e'.2 := by
  intro tab
  induction tab with
  | nil => simp [mapPush]
  | cons a l ih =>
    obtain ⟨k, m⟩ := a
    obtain ⟨⟨e1, h1, h1'⟩, h2, h3⟩ := ih
    unfold mapPush
    split_ifs with ha hb
    · refine ⟨⟨_, List.mem_cons_self, by simp⟩, ?_, ?_⟩
      · rintro R ⟨e, he, hR⟩; exact ⟨e, List.mem_cons_of_mem _ he, hR⟩
      · intro e he R hR
        rcases List.mem_cons.mp he with rfl | he
        · left; simpa using hR
        · exact Or.inr ⟨e, he, hR⟩
    · refine ⟨⟨_, List.mem_cons_self, by simp⟩, ?_, ?_⟩
      · rintro R ⟨e, he, hR⟩
        rcases List.mem_cons.mp he with rfl | he
        · exact ⟨_, List.mem_cons_self, List.mem_append_left _ hR⟩
        · exact ⟨e, List.mem_cons_of_mem _ he, hR⟩
      · intro e he R hR
        rcases List.mem_cons.mp he with rfl | he
        · rcases List.mem_append.mp hR with hR | hR
          · exact Or.inr ⟨_, List.mem_cons_self, hR⟩
          · left; simpa using hR
        · exact Or.inr ⟨e, List.mem_cons_of_mem _ he, hR⟩
    · refine ⟨⟨e1, List.mem_cons_of_mem _ h1, h1'⟩, ?_, ?_⟩
      · rintro R ⟨e, he, hR⟩
        rcases List.mem_cons.mp he with rfl | he
        · exact ⟨_, List.mem_cons_self, hR⟩
        · obtain ⟨e', he', hR'⟩ := h2 R ⟨e, he, hR⟩
          exact ⟨e', List.mem_cons_of_mem _ he', hR'⟩
      · intro e he R hR
        rcases List.mem_cons.mp he with rfl | he
        · exact Or.inr ⟨_, List.mem_cons_self, hR⟩
        · rcases h3 e he R hR with h | ⟨e', he', hR'⟩
          · exact Or.inl h
          · exact Or.inr ⟨e', List.mem_cons_of_mem _ he', hR'⟩

theorem pushAll_mem (id : Nat) (c : Vec ℝ) : ∀ (Qs : List (Polygon ℝ))
    (tab : List (Nat × List (Polygon ℝ))),
    (∀ Q ∈ Qs, Q.contains c = true → ∃ e ∈ Qs.foldl (fun tab Q =>
      if Q.contains c then mapPush id Q tab else tab) tab, Q ∈ e.2) ∧
    (∀ R, (∃ e ∈ tab, R ∈ e.2) → ∃ e ∈ Qs.foldl (fun tab Q =>
      if Q.contains c then mapPush id Q tab else tab) tab, R ∈ e.2) ∧
    ∀ e ∈ Qs.foldl (fun tab Q => if Q.contains c then mapPush id Q tab else tab) tab,
      ∀ R ∈ e.2, R ∈ Qs ∨ ∃ e' ∈ tab, R ∈ e'.2 := by
  intro Qs
  induction Qs with
  | nil => intro tab; exact ⟨by simp, fun R h => h, fun e he R hR => Or.inr ⟨e, he, hR⟩⟩
  | cons Q Qs ih =>
    intro tab
    rw [List.foldl_cons]
    obtain ⟨m1, m2, m3⟩ := mapPush_mem id Q tab
    obtain ⟨h1, h2, h3⟩ := ih (if Q.contains c then mapPush id Q tab else tab)
    refine ⟨?_, ?_, ?_⟩
    · intro R hR hc
      rcases List.mem_cons.mp hR with rfl | hR
      · refine h2 R ?_
        rw [if_pos hc]; exact m1
      · exact h1 R hR hc
    · intro R hR
      refine h2 R ?_
      split_ifs
      · exact m2 R hR
      · exact hR
    · intro e he R hR
      rcases h3 e he R hR with h | ⟨e', he', hR'⟩
      · exact Or.inl (List.mem_cons_of_mem _ h)
      · split_ifs at he' with hc
        · rcases m3 e' he' R hR' with rfl | h
          · exact Or.inl List.mem_cons_self
          · exact Or.inr h
        · exact Or.inr ⟨e', he', hR'⟩

/-- The table of magnets lists every polygon around a magnetised region, and only polygons of the
drawing. -/
theorem magnetTable_mem {D : Drawing ℝ (MagProp ℝ)} (hr : D.RegionsOK) :
    ∃ tab, magnetTable D = .ok tab ∧
      (∀ r ∈ D.regions, ∀ p, D.regionMap[r.2]? = some p → p.M.eqv ⟨0, 0⟩ = false →
        ∀ Q ∈ D.polygons, Q.contains r.1 = true → ∃ e ∈ tab, Q ∈ e.2) ∧
      ∀ e ∈ tab, ∀ R ∈ e.2, R ∈ D.polygons := by
  unfold magnetTable
  obtain ⟨tab, ht, h1, h2⟩ := forEach_inv
    (fun (pre : List (Vec ℝ × Nat)) (tab : List (Nat × List (Polygon ℝ))) =>
      (∀ r ∈ pre, ∀ p, D.regionMap[r.2]? = some p → p.M.eqv ⟨0, 0⟩ = false →
        ∀ Q ∈ D.polygons, Q.contains r.1 = true → ∃ e ∈ tab, Q ∈ e.2) ∧
      ∀ e ∈ tab, ∀ R ∈ e.2, R ∈ D.polygons)
    (body := fun (r : Vec ℝ × Nat) tab => do
      let p ← rd D.regionMap r.2
      if p.M.eqv ⟨0, 0⟩ then .ok tab
      else .ok (D.polygons.foldl (fun tab Q =>
        if Q.contains r.1 then mapPush r.2 Q tab else tab) tab))
    D.regions [] [] ⟨by simp, by simp⟩ (by
      intro pre r post tab hl _ hP
      have hrm : r ∈ D.regions := by
        rw [List.nil_append] at hl; rw [hl]; simp
      have hlt := hr r hrm
      rw [rd_ok hlt, ok_bind]
      obtain ⟨i1, i2⟩ := hP
      split_ifs with hz
      · refine ⟨_, rfl, ?_, i2⟩
        intro r' hr' p hp hM
        rcases List.mem_append.mp hr' with h | h
        · exact i1 r' h p hp hM
        · rw [List.mem_singleton] at h; subst h
          rw [List.getElem?_eq_getElem hlt] at hp; cases hp
          rw [hM] at hz; cases hz
      · obtain ⟨q1, q2, q3⟩ := pushAll_mem r.2 r.1 D.polygons tab
        refine ⟨_, rfl, ?_, ?_⟩
        · intro r' hr' p hp hM Q hQ hc
          rcases List.mem_append.mp hr' with h | h
          · exact q2 Q (i1 r' h p hp hM Q hQ hc)
          · rw [List.mem_singleton] at h; subst h
            exact q1 Q hQ hc
        · intro e he R hR
          rcases q3 e he R hR with h | ⟨e', he', hR'⟩
          · exact h
          · exact i2 e' he' R hR')
  exact ⟨tab, ht, h1, h2⟩

/-- A polygon of an entry that encloses no polygon of the drawing is a magnet. -/
theorem magnetPolygons_mem {l : List (Polygon ℝ)} {Q : Polygon ℝ} (hQ : Q ∈ l) (hne : Q ≠ [])
    (hin : ∀ R ∈ l, ¬ Q.Encloses R) : Q ∈ magnetPolygons l := by
  unfold magnetPolygons
  split
  · rw [List.mem_singleton] at hQ; subst hQ
    obtain ⟨a, m, rfl⟩ := List.exists_cons_of_ne_nil hne
    simp
  · refine List.mem_filter.mpr ⟨hQ, ?_⟩
    rw [Bool.not_eq_true', List.any_eq_false]
    exact fun R hR h => hin R hR ((encloses_iff Q R).mp h)

/-- C75: take a drawing in which a rectangle around the label of a magnet is drawn, and which
encloses no other polygon.  Refining around the magnets is then undefined behaviour: one of the
first two points beside the first side is put on the last side, so the drawing's epsilon becomes
zero and the length of the next side is divided by it and converted to an integer. -/
theorem rectangular_magnet_undefined (D : Drawing ℝ (MagProp ℝ)) (hD : WellFormed D)
    (hr : D.RegionsOK) (hc : CornersDrawn D) (a b : Vec ℝ) (hx : a.x ≠ b.x) (hy : a.y ≠ b.y)
    (hfirst : HasSide D a ⟨b.x, a.y⟩) (hlast : HasSide D ⟨a.x, b.y⟩ a)
    (hpoly : rectangle a b ∈ D.polygons) (hinner : ∀ R ∈ D.polygons, ¬ (rectangle a b).Encloses R)
    (r : Vec ℝ × Nat) (hreg : r ∈ D.regions) (p : MagProp ℝ) (hp : D.regionMap[r.2]? = some p)
    (hM : p.M.eqv ⟨0, 0⟩ = false) (hin : (rectangle a b).contains r.1 = true) :
    refineAroundMagnets Real.sqrt D = .error .ub := by
  obtain ⟨tab, htab, hall, hsub⟩ := magnetTable_mem hr
  obtain ⟨e, he, hQe⟩ := hall r hreg p hp hM _ hpoly hin
  unfold refineAroundMagnets
  rw [htab, ok_bind]
  have hmem : rectangle a b ∈ tab.flatMap (fun e => magnetPolygons e.2) :=
    List.mem_flatMap.mpr ⟨e, he, magnetPolygons_mem hQe (by simp [rectangle])
      (fun R hR => hinner R (hsub e he R hR))⟩
  have : ∀ (l : List (Polygon ℝ)) (D' : Drawing ℝ (MagProp ℝ)), rectangle a b ∈ l → MorePoints D D' →
      forEach (refineMagnet Real.sqrt) l D' = .error .ub := by
    intro l
    induction l with
    | nil => intro D' h; simp at h
    | cons Q l ih =>
      intro D' hin h
      unfold forEach
      by_cases hq : Q = rectangle a b
      · subst hq
        rw [refineMagnet_rectangle hx hy (more_wf h hD) (more_corners h hc) (more_side h hfirst)
          (more_side h hlast)]
      · have hin' : rectangle a b ∈ l := by
          rcases List.mem_cons.mp hin with h | h
          · exact absurd h.symm hq
          · exact h
        rcases refineMagnet_outcome Q (more_wf h hD) with hub | ⟨D'', hok, hm⟩
        · rw [hub]
        · rw [hok]; exact ih D'' hin' (more_trans h hm)
  exact this _ D hmem (more_refl D)

/-- C75: refining around magnets changes nothing but the list of points, to which it appends; its
only failure is the undefined conversion. -/
theorem magnet_refinement_appends (D : Drawing ℝ (MagProp ℝ)) (hD : WellFormed D)
    (hr : D.RegionsOK) :
    refineAroundMagnets Real.sqrt D = .error .ub ∨
      ∃ D', refineAroundMagnets Real.sqrt D = .ok D' ∧ MorePoints D D' := by
  obtain ⟨tab, htab, -⟩ := magnetTable_mem hr
  unfold refineAroundMagnets
  rw [htab, ok_bind]
  have : ∀ (l : List (Polygon ℝ)) (D' : Drawing ℝ (MagProp ℝ)), MorePoints D D' →
      forEach (refineMagnet Real.sqrt) l D' = .error .ub ∨
        ∃ D'', forEach (refineMagnet Real.sqrt) l D' = .ok D'' ∧ MorePoints D D'' := by
    intro l
    induction l with
    | nil => intro D' h; exact Or.inr ⟨D', rfl, h⟩
    | cons Q l ih =>
      intro D' h
      unfold forEach
      rcases refineMagnet_outcome Q (more_wf h hD) with hub | ⟨D'', hok, hm⟩
      · rw [hub]; exact Or.inl rfl
      · rw [hok]; exact ih D'' (more_trans h hm)
  exact this _ D (more_refl D)

/-- A square magnet. -/
noncomputable def exSquareMagnet : Drawing ℝ (MagProp ℝ) :=
  (((Drawing.empty : Drawing ℝ (MagProp ℝ)).drawRectangle ⟨0, 0⟩ ⟨1, 1⟩).1).drawRegion
    (fun _ _ => false) ⟨1 / 2, 1 / 2⟩ ⟨0, ⟨1, 0⟩, 1, []⟩

theorem exSquareMagnet_eq : exSquareMagnet =
    { points := [⟨0, 0⟩, ⟨1, 0⟩, ⟨1, 1⟩, ⟨0, 1⟩]
      segments := [(0, 1), (1, 2), (2, 3), (3, 0)]
      polygons := [[⟨0, 0⟩, ⟨1, 0⟩, ⟨1, 1⟩, ⟨0, 1⟩]]
      regions := [(⟨1 / 2, 1 / 2⟩, 0)]
      regionMap := [⟨0, ⟨1, 0⟩, 1, []⟩] } := by
  unfold exSquareMagnet
  rw [rectangle_closed_chain ⟨0, 0⟩ ⟨1, 1⟩ (by norm_num) (by norm_num)]
  rfl

/-- The hypotheses hold for a single square magnet, drawn with `drawRectangle`. -/
example : refineAroundMagnets Real.sqrt exSquareMagnet = .error .ub := by
  refine rectangular_magnet_undefined exSquareMagnet ?_ ?_ ?_ ⟨0, 0⟩ ⟨1, 1⟩ (by norm_num) (by norm_num)
    ?_ ?_ ?_ ?_ (⟨1 / 2, 1 / 2⟩, 0) ?_ ⟨0, ⟨1, 0⟩, 1, []⟩ ?_ ?_ ?_ <;> try rw [exSquareMagnet_eq]
  · exact ⟨by simp, by unfold SamePair; simp, by simp⟩
  · intro r hr; simp at hr; subst hr; simp
  · intro R hR q hq; simp at hR; subst hR; exact hq
  · exact ⟨(0, 1), by simp, Or.inl ⟨rfl, rfl⟩⟩
  · exact ⟨(3, 0), by simp, Or.inl ⟨rfl, rfl⟩⟩
  · simp [rectangle]
  · intro R hR hE
    simp at hR; subst hR
    have := hE.2
    rw [show rectangle ⟨0, 0⟩ ⟨1, 1⟩ = ([⟨0, 0⟩, ⟨1, 0⟩, ⟨1, 1⟩, ⟨0, 1⟩] : Polygon ℝ) from rfl,
      polygon_eqv_self] at this
    cases this
  · simp
  · rfl
  · unfold Vec.eqv vecEps; simp; norm_num
  · exact (rectangle_contains _ _ _).mpr (by norm_num)

/-! ## Boundary points -/

/-- C74: the number of boundary points is twice the circumference in units of the side of an
equilateral triangle of the largest allowed area, rounded down, as long as it fits in 32 bits. -/
theorem boundary_count (pi radius area : ℝ) (hpi : 0 ≤ pi) (hr : 0 ≤ radius) (ha : 0 < area) :
    boundaryCount (realLibm pi) radius area =
      if 4 * pi * radius / Real.sqrt (4 * area / Real.sqrt 3) < 2 ^ 32 then
        .ok ⌊4 * pi * radius / Real.sqrt (4 * area / Real.sqrt 3)⌋₊ else .error .ub := by
  have h3 : 0 < Real.sqrt 3 := Real.sqrt_pos.mpr (by norm_num)
  have hs : 0 < Real.sqrt (area * 4 / Real.sqrt 3) := Real.sqrt_pos.mpr (by positivity)
  unfold boundaryCount
  show toU32 (Except.bind (fdiv (area * 4) (Real.sqrt 3)) _) = _
  rw [fdiv_ok h3.ne']
  show toU32 (Except.bind (fdiv (2 * pi * radius) (Real.sqrt (area * 4 / Real.sqrt 3))) _) = _
  rw [fdiv_ok hs.ne']
  show toU32 (.ok (2 * pi * radius / Real.sqrt (area * 4 / Real.sqrt 3) * 2)) = _
  have e : 2 * pi * radius / Real.sqrt (area * 4 / Real.sqrt 3) * 2 =
      4 * pi * radius / Real.sqrt (4 * area / Real.sqrt 3) := by
    rw [mul_comm area 4]; ring
  rw [e]
  have hx : 0 ≤ 4 * pi * radius / Real.sqrt (4 * area / Real.sqrt 3) := by positivity
  unfold toU32
  simp only
  by_cases h : 4 * pi * radius / Real.sqrt (4 * area / Real.sqrt 3) < 2 ^ 32
  · rw [if_pos ⟨by linarith, h⟩, if_pos h, Int.floor_toNat]
  · rw [if_neg (fun h' => h h'.2), if_neg h]

/-- C74: with an area that is not positive the number of boundary points is undefined. -/
theorem boundary_count_undefined (pi radius area : ℝ) (ha : area ≤ 0) :
    boundaryCount (realLibm pi) radius area = .error .ub := by
  have h3 : 0 < Real.sqrt 3 := Real.sqrt_pos.mpr (by norm_num)
  unfold boundaryCount
  show toU32 (Except.bind (fdiv (area * 4) (Real.sqrt 3)) _) = _
  rw [fdiv_ok h3.ne']
  show toU32 (Except.bind (fdiv (2 * pi * radius) (Real.sqrt (area * 4 / Real.sqrt 3))) _) = _
  rw [Real.sqrt_eq_zero_of_nonpos (div_nonpos_of_nonpos_of_nonneg (by linarith) h3.le), fdiv_zero]
  rfl

/-- C74: there are fewer than three boundary points exactly when the radius is small compared to
the side of a triangle of the largest allowed area. -/
theorem boundary_too_coarse (pi radius area : ℝ) (hpi : 0 ≤ pi) (hr : 0 ≤ radius) (ha : 0 < area)
    (n : Nat) (h : boundaryCount (realLibm pi) radius area = .ok n) :
    n < 3 ↔ 4 * Real.sqrt 3 * (pi * radius) ^ 2 < 9 * area := by
  rw [boundary_count pi radius area hpi hr ha] at h
  split_ifs at h with hb
  cases h
  have h3 : 0 < Real.sqrt 3 := Real.sqrt_pos.mpr (by norm_num)
  have h33 := Real.mul_self_sqrt (show (0 : ℝ) ≤ 3 by norm_num)
  have hq : 0 < 4 * area / Real.sqrt 3 := by positivity
  have hs : 0 < Real.sqrt (4 * area / Real.sqrt 3) := Real.sqrt_pos.mpr hq
  rw [Nat.floor_lt (by positivity)]
  push_cast
  rw [div_lt_iff₀ hs, ← Real.sqrt_sq (show (0 : ℝ) ≤ 3 by norm_num), ← Real.sqrt_mul (by norm_num),
    Real.lt_sqrt (by positivity), Real.sqrt_sq (by norm_num), mul_div_assoc', lt_div_iff₀ h3]
  constructor <;> intro h <;> nlinarith

theorem circleLoop_segments (lm : Libm ℝ) (p : Vec ℝ) (radius step : ℝ) : ∀ (n : Nat) (angle : ℝ)
    (p1 : Vec ℝ) (acc : List (Vec ℝ)) (D : Drawing ℝ P),
    (circleLoop lm p radius step n angle p1 acc D).1.segments.length ≤ D.segments.length + n ∧
    D.regions = (circleLoop lm p radius step n angle p1 acc D).1.regions ∧
    D.regionMap = (circleLoop lm p radius step n angle p1 acc D).1.regionMap := by
  intro n
  induction n with
  | zero => intro angle p1 acc D; exact ⟨le_rfl, rfl, rfl⟩
  | succ n ih =>
    intro angle p1 acc D
    unfold circleLoop
    simp only
    set p2 : Vec ℝ := ⟨p.x + radius * lm.cos (angle + step), p.y + radius * lm.sin (angle + step)⟩
    have h1 : (D.drawSegment p1 p2).1.segments.length ≤ D.segments.length + 1 ∧
        D.regions = (D.drawSegment p1 p2).1.regions ∧
        D.regionMap = (D.drawSegment p1 p2).1.regionMap := by
      rw [drawSegment_eq]
      simp only [lift]
      split
      · split_ifs <;> simp
      · simp
    rcases hs : D.drawSegment p1 p2 with ⟨D1, f⟩
    rw [hs] at h1
    simp only at h1
    cases f with
    | some f => exact ⟨by simp only [seq]; omega, h1.2.1, h1.2.2⟩
    | none =>
      obtain ⟨i1, i2, i3⟩ := ih (angle + step) p2 (acc ++ [p2]) D1
      exact ⟨by simp only [seq]; omega, h1.2.1.trans i2, h1.2.2.trans i3⟩

/-- C74: preparing the boundary of a drawing that is not empty sets the centre to the mean of the
points and the radius to three halves of the largest distance of a point from the origin, and
draws at most as many segments as there are boundary points.  With no boundary point nothing is
drawn but an empty polygon and the label of the air region; the number of boundary points is
undefined when it does not fit. -/
theorem boundary_preparation (pi area : ℝ) (hpi : 0 ≤ pi) (ha : 0 < area)
    (eqP : MagProp ℝ → MagProp ℝ → Bool) (air : MagProp ℝ) (M : Mesh ℝ (MagProp ℝ))
    (hne : M.drawing.points ≠ []) :
    ∃ R, (∀ p ∈ M.drawing.points, 3 / 2 * euclid p ⟨0, 0⟩ ≤ R) ∧
      (∃ p ∈ M.drawing.points, R = 3 / 2 * euclid p ⟨0, 0⟩) ∧
      (2 ^ 32 ≤ 4 * pi * R / Real.sqrt (4 * area / Real.sqrt 3) →
        drawBoundary (realLibm pi) eqP air area M = .error .ub) ∧
      (4 * pi * R / Real.sqrt (4 * area / Real.sqrt 3) < 2 ^ 32 →
        ∃ M' f, drawBoundary (realLibm pi) eqP air area M =
            .ok (M', ⌊4 * pi * R / Real.sqrt (4 * area / Real.sqrt 3)⌋₊, f) ∧
          M'.center = mean M.drawing.points ∧ M'.radius = R ∧
          M'.drawing.segments.length ≤ M.drawing.segments.length +
            ⌊4 * pi * R / Real.sqrt (4 * area / Real.sqrt 3)⌋₊ ∧
          (f = none → ∃ id, M'.drawing.regions =
            (M.drawing.regions.map (fun r => (r.1.sub (mean M.drawing.points), r.2))) ++
              [(⟨R * (9 / 10), 0⟩, id)]) ∧
          (4 * pi * R / Real.sqrt (4 * area / Real.sqrt 3) < 1 →
            f = none ∧ M'.drawing.segments = M.drawing.segments ∧
            M'.drawing.points = M.drawing.points.map (fun p => p.sub (mean M.drawing.points)))) := by
  obtain ⟨c, hc, hcen, hmax, ⟨p, hp, hpr⟩, -⟩ := enclosing_circle_spec M.drawing.points hne
  have hR0 : 0 ≤ c.radius * (3 / 2) := by
    rw [hpr]; have := Real.sqrt_nonneg ((p.x - (⟨0, 0⟩ : Vec ℝ).x) ^ 2 + (p.y - (⟨0, 0⟩ : Vec ℝ).y) ^ 2)
    unfold euclid; linarith
  have hsub : ∀ v : Vec ℝ, v.add ⟨-c.center.x, -c.center.y⟩ = v.sub (mean M.drawing.points) := by
    intro v; rw [← hcen]; unfold Vec.add Vec.sub; simp [sub_eq_add_neg]
  refine ⟨c.radius * (3 / 2), fun q hq => by have := hmax q hq; linarith,
    ⟨p, hp, by rw [hpr]; ring⟩, ?_, ?_⟩
  · intro hbig
    unfold drawBoundary
    rw [show (realLibm pi).sqrt = Real.sqrt from rfl, hc, ok_bind]
    simp only
    rw [boundary_count pi _ area hpi hR0 ha, if_neg (not_lt.mpr hbig)]
    rfl
  · intro hlt
    set n := ⌊4 * pi * (c.radius * (3 / 2)) / Real.sqrt (4 * area / Real.sqrt 3)⌋₊ with hn
    let N : Drawing ℝ (MagProp ℝ) → Mesh ℝ (MagProp ℝ) := fun D =>
      { M with center := c.center, radius := c.radius * (3 / 2), drawing := D }
    have hrun : drawBoundary (realLibm pi) eqP air area M =
        (match (M.drawing.translate ⟨-c.center.x, -c.center.y⟩).drawCircle (realLibm pi) ⟨0, 0⟩
            (c.radius * (3 / 2)) n with
        | (D, some f) => .ok (N D, n, some f)
        | (D, none) => .ok (N (D.drawRegion eqP ⟨c.radius * (3 / 2) * (9 / 10), 0⟩ air), n, none)) := by
      unfold drawBoundary
      rw [show (realLibm pi).sqrt = Real.sqrt from rfl, hc, ok_bind]
      simp only
      rw [boundary_count pi _ area hpi hR0 ha, if_pos hlt, ← hn, ok_bind]
      rcases (M.drawing.translate ⟨-c.center.x, -c.center.y⟩).drawCircle (realLibm pi) ⟨0, 0⟩
            (c.radius * (3 / 2)) n with ⟨D, _ | f⟩ <;> rfl
    obtain ⟨l1, l2, -⟩ := circleLoop_segments (realLibm pi) ⟨0, 0⟩ (c.radius * (3 / 2))
      (2 * (realLibm pi).pi / n) n 0 ⟨0 + c.radius * (3 / 2), 0⟩ []
      (M.drawing.translate ⟨-c.center.x, -c.center.y⟩)
    have hcirc : (M.drawing.translate ⟨-c.center.x, -c.center.y⟩).drawCircle (realLibm pi) ⟨0, 0⟩
        (c.radius * (3 / 2)) n = circleLoop (realLibm pi) ⟨0, 0⟩ (c.radius * (3 / 2))
      (2 * (realLibm pi).pi / n) n 0 ⟨0 + c.radius * (3 / 2), 0⟩ []
      (M.drawing.translate ⟨-c.center.x, -c.center.y⟩) := rfl
    rw [← hcirc] at l1 l2
    have htr : (M.drawing.translate ⟨-c.center.x, -c.center.y⟩).regions =
        M.drawing.regions.map (fun r => (r.1.sub (mean M.drawing.points), r.2)) := by
      unfold translate; simp only [hsub]
    have hzero : 4 * pi * (c.radius * (3 / 2)) / Real.sqrt (4 * area / Real.sqrt 3) < 1 →
        (M.drawing.translate ⟨-c.center.x, -c.center.y⟩).drawCircle (realLibm pi) ⟨0, 0⟩
        (c.radius * (3 / 2)) n =
          (M.drawing.translate ⟨-c.center.x, -c.center.y⟩).addPolygon [] := by
      intro h
      have : n = 0 := by rw [hn]; exact Nat.floor_eq_zero.mpr h
      rw [this]; rfl
    rw [hrun]
    rcases hd : (M.drawing.translate ⟨-c.center.x, -c.center.y⟩).drawCircle (realLibm pi) ⟨0, 0⟩
        (c.radius * (3 / 2)) n with ⟨D, _ | f⟩
    · rw [hd] at l1 l2 hzero
      simp only at l1 l2
      have hreg : ∀ q v, (D.drawRegion eqP q v).segments = D.segments ∧
          (D.drawRegion eqP q v).points = D.points ∧
          ∃ id, (D.drawRegion eqP q v).regions = D.regions ++ [(q, id)] := by
        intro q v
        unfold drawRegion getRegionId
        cases findProp eqP v D.regionMap 0 <;> exact ⟨rfl, rfl, _, rfl⟩
      obtain ⟨g1, g2, id, g3⟩ := hreg ⟨c.radius * (3 / 2) * (9 / 10), 0⟩ air
      refine ⟨_, _, rfl, hcen, rfl, ?_, ?_, ?_⟩
      · show (D.drawRegion eqP _ air).segments.length ≤ _
        rw [g1]; exact l1
      · intro _; exact ⟨id, g3.trans (by rw [← l2, htr])⟩
      · intro h
        have := hzero h
        unfold addPolygon at this
        cases this
        refine ⟨rfl, g1, g2.trans ?_⟩
        unfold translate
        simp only [hsub]
    · rw [hd] at l1 hzero
      refine ⟨_, _, rfl, hcen, rfl, l1, by simp, ?_⟩
      intro h
      have := hzero h
      unfold addPolygon at this
      cases this

/-- With the default largest area of 1 and `pi` at most 22/7, any drawing within a fifth of the
origin gets fewer than three boundary points. -/
theorem small_drawings_unbounded (pi radius : ℝ) (hpi : 0 ≤ pi) (hpi' : pi ≤ 22 / 7)
    (hr : 0 ≤ radius) (hr' : radius ≤ 1 / 5) :
    ∃ n, boundaryCount (realLibm pi) (radius * (3 / 2)) 1 = .ok n ∧ n < 3 := by
  have h3 : 0 < Real.sqrt 3 := Real.sqrt_pos.mpr (by norm_num)
  have h3' : Real.sqrt 3 ≤ 2 := by
    rw [Real.sqrt_le_left (by norm_num)]; norm_num
  have hpr : pi * (radius * (3 / 2)) ≤ 22 / 7 * (3 / 10) := by
    apply mul_le_mul hpi' (by linarith) (by linarith) (by norm_num)
  have hpr0 : 0 ≤ pi * (radius * (3 / 2)) := by positivity
  have hs : 1 ≤ Real.sqrt (4 * 1 / Real.sqrt 3) := by
    rw [Real.one_le_sqrt, le_div_iff₀ h3]; linarith
  have hlt : 4 * pi * (radius * (3 / 2)) / Real.sqrt (4 * 1 / Real.sqrt 3) < 2 ^ 32 := by
    rw [div_lt_iff₀ (by linarith)]
    have : (4 : ℝ) < 2 ^ 32 := by norm_num
    nlinarith
  have hc := boundary_count pi (radius * (3 / 2)) 1 hpi (by positivity) one_pos
  rw [if_pos hlt] at hc
  refine ⟨_, hc, (boundary_too_coarse pi _ 1 hpi (by positivity) one_pos _ hc).mpr ?_⟩
  have : (pi * (radius * (3 / 2))) ^ 2 ≤ (22 / 7 * (3 / 10)) ^ 2 := pow_le_pow_left₀ hpr0 hpr 2
  nlinarith

example : ∃ n, boundaryCount (realLibm 3.141592653589793) (1 / 10 * (3 / 2)) 1 = .ok n ∧ n < 3 :=
  small_drawings_unbounded _ _ (by norm_num) (by norm_num) (by norm_num) (by norm_num)

/-- The hypothesis of `boundary_preparation` holds for the square magnet. -/
example (M : Mesh ℝ (MagProp ℝ)) (h : M.drawing = exSquareMagnet) : M.drawing.points ≠ [] := by
  rw [h, exSquareMagnet_eq]; simp

end Nikfemm
