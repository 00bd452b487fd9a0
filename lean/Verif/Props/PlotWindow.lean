import Verif.Model.PlotWindow
import Verif.Props.Display
import Verif.Props.Kernels

/-! # C91: the window of a drawing and the picture of a matrix -/

set_option linter.unusedSectionVars false

namespace Nikfemm
open Spec

namespace PlotWindow

section
variable {K P : Type} [Field K] [LinearOrder K] [IsStrictOrderedRing K]

theorem tiny_pos : (0 : K) < tinyStart := by unfold tinyStart; positivity

/-- What the loop over the points computes, on one axis. -/
structure Extent (lo hi : K) (l : List K) : Prop where
  le : ∀ x ∈ l, lo ≤ x ∧ x ≤ hi
  loHuge : lo ≤ hugeStart
  hiTiny : tinyStart ≤ hi
  loMem : lo = hugeStart ∨ lo ∈ l
  hiMem : hi = tinyStart ∨ hi ∈ l

theorem extent_nil : Extent (hugeStart : K) tinyStart [] :=
  ⟨by simp, le_rfl, le_rfl, Or.inl rfl, Or.inl rfl⟩

theorem extent_step {lo hi : K} {l : List K} (h : Extent lo hi l) (x : K) :
    Extent (if x < lo then x else lo) (if hi < x then x else hi) (l ++ [x]) := by
  refine ⟨?_, ?_, ?_, ?_, ?_⟩
  · intro y hy
    rcases List.mem_append.mp hy with hy | hy
    · obtain ⟨h1, h2⟩ := h.le y hy
      constructor
      · split_ifs with hc
        · exact hc.le.trans h1
        · exact h1
      · split_ifs with hc
        · exact h2.trans hc.le
        · exact h2
    · obtain rfl := List.mem_singleton.mp hy
      constructor
      · split_ifs with hc
        · exact le_rfl
        · exact not_lt.mp hc
      · split_ifs with hc
        · exact le_rfl
        · exact not_lt.mp hc
  · split_ifs with hc
    · exact hc.le.trans h.loHuge
    · exact h.loHuge
  · split_ifs with hc
    · exact h.hiTiny.trans hc.le
    · exact h.hiTiny
  · split_ifs
    · simp
    · exact h.loMem.imp id (List.mem_append_left _)
  · split_ifs
    · simp
    · exact h.hiMem.imp id (List.mem_append_left _)

theorem box_extent (D : Drawing K P) :
    Extent D.box.minX D.box.maxX (D.points.map Vec.x) ∧
      Extent D.box.minY D.box.maxY (D.points.map Vec.y) := by
  have gen : ∀ (l pre : List (Vec K)) (b : Box K), Extent b.minX b.maxX (pre.map Vec.x) →
      Extent b.minY b.maxY (pre.map Vec.y) →
      Extent (l.foldl boxStep b).minX (l.foldl boxStep b).maxX ((pre ++ l).map Vec.x) ∧
        Extent (l.foldl boxStep b).minY (l.foldl boxStep b).maxY ((pre ++ l).map Vec.y) := by
    intro l
    induction l with
    | nil => intro pre b h1 h2; simpa using ⟨h1, h2⟩
    | cons p l ih =>
      intro pre b h1 h2
      rw [List.foldl_cons, List.append_cons]
      refine ih _ _ ?_ ?_
      · simpa [boxStep] using extent_step h1 p.x
      · simpa [boxStep] using extent_step h2 p.y
  exact gen D.points [] _ extent_nil extent_nil

/-- One axis: the scaled interval has half the given share of the window on each side of its
middle. -/
theorem axis {lo hi ext s size x : K} (hs : s * ext = 9 / 10 * size) (hs0 : 0 ≤ s)
    (hd : hi - lo ≤ ext) (h1 : lo ≤ x) (h2 : x ≤ hi) :
    size / 20 ≤ s * x + (1 / 2 * size - 1 / 2 * (hi + lo) * s) ∧
      s * x + (1 / 2 * size - 1 / 2 * (hi + lo) * s) ≤ 19 / 20 * size := by
  have e1 : s * (hi - lo) ≤ 9 / 10 * size := hs ▸ mul_le_mul_of_nonneg_left hd hs0
  have e2 : 0 ≤ s * (x - lo) := mul_nonneg hs0 (by linarith)
  have e3 : 0 ≤ s * (hi - x) := mul_nonneg hs0 (by linarith)
  constructor <;> nlinarith

theorem extent_of {lo hi a b : K} {l : List K} (h : Extent lo hi l) (ha : a ∈ l) (hb : b ∈ l)
    (hamin : ∀ x ∈ l, a ≤ x) (hbmax : ∀ x ∈ l, x ≤ b) (hbig : a ≤ hugeStart) :
    lo = a ∧ (hi = b ↔ tinyStart ≤ b) ∧ b ≤ hi := by
  have h1 : lo = a := by
    refine le_antisymm (h.le a ha).1 ?_
    rcases h.loMem with e | e
    · rw [e]; exact hbig
    · exact hamin _ e
  refine ⟨h1, ⟨fun e => e ▸ h.hiTiny, fun ht => ?_⟩, (h.le b hb).2⟩
  refine le_antisymm ?_ (h.le b hb).2
  rcases h.hiMem with e | e
  · rw [e]; exact ht
  · exact hbmax _ e

theorem view_eq (D : Drawing K P) (w h : K) : ∃ ext : K,
    D.box.maxX - D.box.minX ≤ ext ∧ D.box.maxY - D.box.minY ≤ ext ∧
    (ext = D.box.maxX - D.box.minX ∨ ext = D.box.maxY - D.box.minY) ∧
    (ext = 0 → D.view w h = .error .nonfinite) ∧
    (ext ≠ 0 → ∃ xs ys, xs * ext = 9 / 10 * w ∧ ys * ext = 9 / 10 * h ∧
      D.view w h = .ok ⟨xs, ys, 1 / 2 * w - 1 / 2 * (D.box.maxX + D.box.minX) * xs,
        1 / 2 * h - 1 / 2 * (D.box.maxY + D.box.minY) * ys⟩) := by
  refine ⟨if D.box.maxX - D.box.minX < D.box.maxY - D.box.minY then D.box.maxY - D.box.minY
    else D.box.maxX - D.box.minX, ?_, ?_, ?_, ?_, ?_⟩
  · split_ifs with hc
    · exact hc.le
    · exact le_rfl
  · split_ifs with hc
    · exact le_rfl
    · exact not_lt.mp hc
  · split_ifs
    · exact Or.inr rfl
    · exact Or.inl rfl
  · intro h0
    unfold Drawing.view
    simp only
    rw [h0, fdiv_zero, error_bind]
  · intro h0
    refine ⟨_, _, div_mul_cancel₀ _ h0, div_mul_cancel₀ _ h0, ?_⟩
    unfold Drawing.view
    simp only
    rw [fdiv_ok h0, ok_bind, fdiv_ok h0, ok_bind]

/-- C91: a drawing with at least one point is placed in the window with a margin of a twentieth on
each side, unless all its points coincide in one with both coordinates at least the smallest
positive normal number: then the scale is not finite. -/
theorem drawing_in_window (D : Drawing K P) {w h : K} (hw : 0 < w) (hh : 0 < h)
    (hne : D.points ≠ []) (hbig : ∀ p ∈ D.points, p.x ≤ hugeStart ∧ p.y ≤ hugeStart) :
    ((∃ q : Vec K, 1 / 2 ^ 1022 ≤ q.x ∧ 1 / 2 ^ 1022 ≤ q.y ∧ ∀ p ∈ D.points, p = q) →
      D.view w h = .error .nonfinite) ∧
    ((¬ ∃ q : Vec K, 1 / 2 ^ 1022 ≤ q.x ∧ 1 / 2 ^ 1022 ≤ q.y ∧ ∀ p ∈ D.points, p = q) →
      ∃ v, D.view w h = .ok v ∧ 0 < v.xScale ∧ v.xScale * h = v.yScale * w ∧
        (∀ p ∈ D.points, w / 20 ≤ (v.place p).x ∧ (v.place p).x ≤ 19 / 20 * w ∧
          h / 20 ≤ (v.place p).y ∧ (v.place p).y ≤ 19 / 20 * h)) := by
  obtain ⟨bx, «by»⟩ := box_extent D
  obtain ⟨ext, e1, e2, e3, e4, e5⟩ := view_eq D w h
  obtain ⟨p0, hp0⟩ := List.exists_mem_of_ne_nil _ hne
  have hx : ∀ p ∈ D.points, D.box.minX ≤ p.x ∧ p.x ≤ D.box.maxX :=
    fun p hp => bx.le _ (List.mem_map_of_mem hp)
  have hy : ∀ p ∈ D.points, D.box.minY ≤ p.y ∧ p.y ≤ D.box.maxY :=
    fun p hp => by.le _ (List.mem_map_of_mem hp)
  constructor
  · rintro ⟨q, q1, q2, hq⟩
    obtain rfl := hq p0 hp0
    refine e4 ?_
    have xs := extent_of bx (List.mem_map_of_mem hp0) (List.mem_map_of_mem hp0)
      (fun x hx => by obtain ⟨r, hr, rfl⟩ := List.mem_map.mp hx; rw [hq r hr])
      (fun x hx => by obtain ⟨r, hr, rfl⟩ := List.mem_map.mp hx; rw [hq r hr]) (hbig p0 hp0).1
    have ys := extent_of «by» (List.mem_map_of_mem hp0) (List.mem_map_of_mem hp0)
      (fun x hx => by obtain ⟨r, hr, rfl⟩ := List.mem_map.mp hx; rw [hq r hr])
      (fun x hx => by obtain ⟨r, hr, rfl⟩ := List.mem_map.mp hx; rw [hq r hr]) (hbig p0 hp0).2
    have x2 := xs.2.1.mpr q1
    have y2 := ys.2.1.mpr q2
    rcases e3 with e3 | e3
    · rw [e3, xs.1, x2, sub_self]
    · rw [e3, ys.1, y2, sub_self]
  · intro hnd
    have hpos : 0 ≤ ext := by
      have := hx p0 hp0
      linarith [this.1, this.2]
    have h0 : ext ≠ 0 := by
      intro h0
      refine hnd ⟨⟨D.box.maxX, D.box.maxY⟩, bx.hiTiny, by.hiTiny, fun p hp => ?_⟩
      have a := hx p hp
      have b := hy p hp
      have : p.x = D.box.maxX := by linarith [a.1, a.2]
      have : p.y = D.box.maxY := by linarith [b.1, b.2]
      cases p; simp_all
    have hp : 0 < ext := lt_of_le_of_ne hpos (Ne.symm h0)
    obtain ⟨xs, ys, hxs, hys, e⟩ := e5 h0
    have hxs0 : 0 < xs := by
      by_contra hc
      have := mul_nonpos_of_nonpos_of_nonneg (not_lt.mp hc) hpos
      linarith
    have hys0 : 0 < ys := by
      by_contra hc
      have := mul_nonpos_of_nonpos_of_nonneg (not_lt.mp hc) hpos
      linarith
    refine ⟨_, e, hxs0, ?_, ?_⟩
    · apply mul_right_cancel₀ h0
      show xs * h * ext = ys * w * ext
      calc xs * h * ext = xs * ext * h := by ring
        _ = 9 / 10 * h * w := by rw [hxs]; ring
        _ = ys * w * ext := by rw [← hys]; ring
    · intro p hp
      obtain ⟨a1, a2⟩ := axis hxs hxs0.le e1 (hx p hp).1 (hx p hp).2
      obtain ⟨b1, b2⟩ := axis hys hys0.le e2 (hy p hp).1 (hy p hp).2
      exact ⟨a1, a2, b1, b2⟩

/-- C91: the drawing is centred horizontally exactly if its rightmost point has an `x` of at least
the smallest positive normal number, likewise vertically; if both hold, the longer side takes
exactly nine tenths of the window. -/
theorem drawing_centred (D : Drawing K P) {w h : K} (hw : 0 < w) (hh : 0 < h) {v : View K}
    (hv : D.view w h = .ok v) {l r b t : Vec K}
    (hl : l ∈ D.points) (hr : r ∈ D.points) (hb : b ∈ D.points) (ht : t ∈ D.points)
    (hext : ∀ p ∈ D.points, l.x ≤ p.x ∧ p.x ≤ r.x ∧ b.y ≤ p.y ∧ p.y ≤ t.y)
    (hbig : l.x ≤ hugeStart ∧ b.y ≤ hugeStart) :
    (((v.place l).x + (v.place r).x) / 2 = w / 2 ↔ 1 / 2 ^ 1022 ≤ r.x) ∧
    (((v.place b).y + (v.place t).y) / 2 = h / 2 ↔ 1 / 2 ^ 1022 ≤ t.y) ∧
    (1 / 2 ^ 1022 ≤ r.x → 1 / 2 ^ 1022 ≤ t.y →
      (t.y - b.y ≤ r.x - l.x → (v.place r).x - (v.place l).x = 9 / 10 * w) ∧
      (r.x - l.x ≤ t.y - b.y → (v.place t).y - (v.place b).y = 9 / 10 * h)) := by
  obtain ⟨bx, «by»⟩ := box_extent D
  obtain ⟨ext, e1, e2, e3, e4, e5⟩ := view_eq D w h
  obtain ⟨x1, x2, -⟩ := extent_of bx (List.mem_map_of_mem hl) (List.mem_map_of_mem hr)
    (fun x hx => by obtain ⟨p, hp, rfl⟩ := List.mem_map.mp hx; exact (hext p hp).1)
    (fun x hx => by obtain ⟨p, hp, rfl⟩ := List.mem_map.mp hx; exact (hext p hp).2.1) hbig.1
  obtain ⟨y1, y2, -⟩ := extent_of «by» (List.mem_map_of_mem hb) (List.mem_map_of_mem ht)
    (fun x hx => by obtain ⟨p, hp, rfl⟩ := List.mem_map.mp hx; exact (hext p hp).2.2.1)
    (fun x hx => by obtain ⟨p, hp, rfl⟩ := List.mem_map.mp hx; exact (hext p hp).2.2.2) hbig.2
  have h0 : ext ≠ 0 := by
    intro h0
    rw [e4 h0] at hv
    cases hv
  obtain ⟨xs, ys, hxs, hys, e⟩ := e5 h0
  rw [e] at hv
  cases hv
  have hxs0 : xs ≠ 0 := by
    rintro rfl
    rw [zero_mul] at hxs
    linarith
  have hys0 : ys ≠ 0 := by
    rintro rfl
    rw [zero_mul] at hys
    linarith
  have mid : ∀ s size lo hi r : K, s ≠ 0 → ((s * lo + (1 / 2 * size - 1 / 2 * (hi + lo) * s) +
      (s * r + (1 / 2 * size - 1 / 2 * (hi + lo) * s))) / 2 = size / 2 ↔ hi = r) := by
    intro s size lo hi r hs
    constructor
    · intro hc
      have : s * (hi - r) = 0 := by linear_combination (-2) * hc
      rcases mul_eq_zero.mp this with hz | hz
      · exact absurd hz hs
      · exact sub_eq_zero.mp hz
    · rintro rfl
      ring
  refine ⟨?_, ?_, ?_⟩
  · rw [x1]
    exact (mid xs w l.x _ _ hxs0).trans x2
  · rw [y1]
    exact (mid ys h b.y _ _ hys0).trans y2
  · intro h1 h2
    have x3 := x2.mpr h1
    have y3 := y2.mpr h2
    rw [x1, x3] at e1 e3
    rw [y1, y3] at e2 e3
    constructor
    · intro hle
      have : ext = r.x - l.x := by
        rcases e3 with e3 | e3
        · exact e3
        · linarith
      show xs * r.x + _ - (xs * l.x + _) = _
      rw [← hxs, this]
      ring
    · intro hle
      have : ext = t.y - b.y := by
        rcases e3 with e3 | e3
        · linarith
        · exact e3
      show ys * t.y + _ - (ys * b.y + _) = _
      rw [← hys, this]
      ring

/-- The unit square moved to the left. -/
def farLeft : Drawing K P :=
  { (Drawing.empty : Drawing K P) with points := [⟨-1000, 0⟩, ⟨-999, 0⟩, ⟨-999, 1⟩, ⟨-1000, 1⟩] }

/-- C91: a drawing that lies to the left of the origin is shrunk to the left side of the window: a
unit square a thousand units from the origin takes less than a thousandth of the width. -/
theorem negative_drawing_shrunk {w h : K} (hw : 0 < w) :
    ∃ v, (farLeft : Drawing K P).view w h = .ok v ∧
      ∀ p ∈ (farLeft : Drawing K P).points, (v.place p).x ≤ w / 20 + w / 1000 := by
  obtain ⟨bx, -⟩ := box_extent (farLeft : Drawing K P)
  obtain ⟨-, «by»⟩ := box_extent (farLeft : Drawing K P)
  obtain ⟨ext, e1, -, e3, -, e5⟩ := view_eq (farLeft : Drawing K P) w h
  have htiny := tiny_pos (K := K)
  have hhuge : (0 : K) ≤ hugeStart := by
    unfold hugeStart
    have : (1 : K) / 2 ^ 52 ≤ 2 := by
      rw [div_le_iff₀ (by positivity)]
      have : (1 : K) ≤ 2 ^ 52 := one_le_pow₀ (by norm_num)
      linarith
    exact mul_nonneg (by linarith) (by positivity)
  have hmin : (farLeft : Drawing K P).box.minX = -1000 := by
    refine (extent_of bx (a := -1000) (b := -999) (by simp [farLeft]) (by simp [farLeft]) ?_ ?_
      (by linarith)).1
    · intro x hx; simp [farLeft] at hx; rcases hx with rfl | rfl | rfl <;> norm_num
    · intro x hx; simp [farLeft] at hx; rcases hx with rfl | rfl | rfl <;> norm_num
  have hmax : (farLeft : Drawing K P).box.maxX = tinyStart := by
    rcases bx.hiMem with hc | hc
    · exact hc
    · have := bx.hiTiny
      simp [farLeft] at hc
      rcases hc with hc | hc | hc <;> simp only [farLeft, hc] at this <;> linarith
  rw [hmin, hmax] at e1 e5
  have hpos : 0 < ext := by linarith
  obtain ⟨xs, ys, hxs, -, e⟩ := e5 hpos.ne'
  have hxs0 : 0 < xs := by
    by_contra hc
    have := mul_nonpos_of_nonpos_of_nonneg (not_lt.mp hc) hpos.le
    linarith
  have hlow : tinyStart ≤ (1 : K) := by
    unfold tinyStart
    rw [div_le_iff₀ (by positivity), one_mul]
    exact one_le_pow₀ (by norm_num)
  have hY : (farLeft : Drawing K P).box.maxY - (farLeft : Drawing K P).box.minY ≤ 1 := by
    have h1 : (farLeft : Drawing K P).box.maxY ≤ 1 := by
      rcases by.hiMem with hc | hc
      · rw [hc]; exact hlow
      · simp [farLeft] at hc
        rcases hc with hc | hc <;> simp only [farLeft, hc] <;> norm_num
    have h2 : 0 ≤ (farLeft : Drawing K P).box.minY := by
      rcases by.loMem with hc | hc
      · rw [hc]; exact hhuge
      · simp [farLeft] at hc
        rcases hc with hc | hc <;> simp only [farLeft, hc] <;> norm_num
    linarith
  have hext : ext = tinyStart + 1000 := by
    rcases e3 with e3 | e3
    · rw [e3, hmin, hmax]; ring
    · linarith
  rw [hext] at hxs
  have hx : xs ≤ w / 1000 := by nlinarith
  refine ⟨_, e, fun p hp => ?_⟩
  have hpx : p.x ≤ -999 := by
    simp [farLeft] at hp
    rcases hp with rfl | rfl | rfl | rfl <;> norm_num
  show xs * p.x + (1 / 2 * w - 1 / 2 * (tinyStart + -1000) * xs) ≤ _
  have := mul_le_mul_of_nonneg_left hpx hxs0.le
  nlinarith

/-! ## The picture of a matrix -/

theorem range_loop (l : List K) {n : Nat} (hn : l.length = n) {s : K × K} {pre : List K}
    (h : Extent s.1 s.2 pre) : ∃ r, forUp 0 n (fun i r => do
      let v ← rd l i
      .ok (rangeStep r v)) s = .ok r ∧ Extent r.1 r.2 (pre ++ l) := by
  obtain ⟨r, e, hr⟩ := forUp_inv (body := fun i r => do
      let v ← rd l i
      .ok (rangeStep r v)) (fun i (r : K × K) => Extent r.1 r.2 (pre ++ l.take i)) (Nat.zero_le n)
    (s := s) (by simpa using h) (by
      intro i r _ hi hr
      have hl : i < l.length := by omega
      refine ⟨rangeStep r l[i], by rw [rd_ok hl, ok_bind], ?_⟩
      have : pre ++ l.take (i + 1) = pre ++ l.take i ++ [l[i]] := by
        rw [List.take_succ_eq_append_getElem hl, List.append_assoc]
      rw [this]
      exact extent_step hr _)
  refine ⟨r, e, ?_⟩
  rwa [← hn, List.take_length] at hr

/-- The stored numbers of a matrix. -/
def stored (A : Csr K) : List K := A.val ++ A.diag

theorem range_extent {A : Csr K} (hA : CsrWF A) : ∃ r, A.range = .ok r ∧
    Extent r.1 r.2 (stored A) := by
  obtain ⟨r1, e1, h1⟩ := range_loop A.val hA.val_length (s := (hugeStart, tinyStart)) extent_nil
  obtain ⟨r2, e2, h2⟩ := range_loop A.diag hA.diag_length h1
  refine ⟨r2, ?_, by simpa [stored] using h2⟩
  unfold Csr.range
  rw [e1, ok_bind, e2]

/-- The cells of an `m` by `m` picture, row by row. -/
def cells (m : Nat) : List (Nat × Nat) :=
  (List.range m).flatMap fun i => (List.range m).map fun j => (i, j)

/-- C91: if not all stored numbers are the same number of at least the smallest positive normal
one, then exactly the nonzero entries of the matrix are painted, row by row, each in the colour of
its value on the scale from the smallest stored number to the largest one, or to the smallest
positive normal number if that is larger. -/
theorem matrix_picture {A : Csr K} (hA : CsrWF A) {M : Nat → Nat → K} (hM : Represents A M)
    (hm : 0 < A.m) (hbig : ∀ x ∈ stored A, x ≤ hugeStart)
    (hnd : ¬ ∃ c, 1 / 2 ^ 1022 ≤ c ∧ ∀ x ∈ stored A, x = c) :
    ∃ lo hi px, lo ∈ stored A ∧ (hi = 1 / 2 ^ 1022 ∨ hi ∈ stored A) ∧ 1 / 2 ^ 1022 ≤ hi ∧ lo < hi ∧
      (∀ x ∈ stored A, lo ≤ x ∧ x ≤ hi) ∧ A.plot = .ok px ∧
      px.map Prod.fst = (cells A.m).filter (fun e => decide (M e.1 e.2 ≠ 0)) ∧
      ∀ e c, (e, c) ∈ px → val2jet (M e.1 e.2) lo hi = .ok c := by
  obtain ⟨⟨lo, hi⟩, e, h⟩ := range_extent hA
  have hne : ∃ x, x ∈ stored A := by
    have : 0 < A.diag.length := by rw [hA.diag_length]; exact hm
    exact ⟨A.diag[0], List.mem_append_right _ (List.getElem_mem this)⟩
  obtain ⟨x0, hx0⟩ := hne
  have hlo : lo ∈ stored A := by
    rcases h.loMem with hc | hc
    · have h1 := (h.le x0 hx0).1
      have h2 := hbig x0 hx0
      simp only at hc h1
      have : lo = x0 := le_antisymm h1 (hc ▸ h2)
      rw [this]; exact hx0
    · exact hc
  have hlt : lo < hi := by
    refine lt_of_le_of_ne (h.le lo hlo).2 fun hc => hnd ⟨hi, h.hiTiny, fun x hx => ?_⟩
    have := h.le x hx
    simp only at this
    exact le_antisymm this.2 (hc ▸ this.1)
  have inner : ∀ i, i < A.m → ∀ px, ∃ px', forUp 0 A.m (fun j px => do
      let v ← A.get i j
      if v ≠ 0 then do
        let c ← val2jet v lo hi
        .ok (px ++ [((i, j), c)])
      else .ok px) px = .ok px' ∧ ∃ new, px' = px ++ new ∧
        new.map Prod.fst = ((List.range A.m).map fun j => (i, j)).filter
          (fun e => decide (M e.1 e.2 ≠ 0)) ∧
        ∀ e c, (e, c) ∈ new → val2jet (M e.1 e.2) lo hi = .ok c := by
    intro i hi' px
    obtain ⟨px', e', new, h1, h2, h3⟩ := forUp_inv (body := fun j px => do
      let v ← A.get i j
      if v ≠ 0 then do
        let c ← val2jet v lo hi
        .ok (px ++ [((i, j), c)])
      else .ok px) (fun n px' => ∃ new, px' = px ++ new ∧
        new.map Prod.fst = ((List.range n).map fun j => (i, j)).filter
          (fun e => decide (M e.1 e.2 ≠ 0)) ∧
        ∀ e c, (e, c) ∈ new → val2jet (M e.1 e.2) lo hi = .ok c) (Nat.zero_le A.m) (s := px)
      ⟨[], by simp, by simp, by simp⟩ (by
        rintro j s _ hj ⟨new, rfl, h2, h3⟩
        rw [hM i j hi' hj, ok_bind]
        by_cases hz : M i j ≠ 0
        · obtain ⟨c, ec, -⟩ := val2jet_jet hlt (M i j)
          rw [if_pos hz, ec, ok_bind]
          refine ⟨_, rfl, new ++ [((i, j), c)], by simp, ?_, ?_⟩
          · rw [List.map_append, h2, List.range_succ, List.map_append, List.filter_append]
            simp [hz]
          · intro e c' he
            rcases List.mem_append.mp he with he | he
            · exact h3 e c' he
            · simp only [List.mem_singleton, Prod.mk.injEq] at he
              obtain ⟨rfl, rfl⟩ := he
              exact ec
        · rw [if_neg hz]
          refine ⟨_, rfl, new, rfl, ?_, h3⟩
          rw [h2, List.range_succ, List.map_append, List.filter_append]
          simp only [List.map_cons, List.map_nil]
          simp [not_not.mp hz])
    exact ⟨px', e', new, h1, h2, h3⟩
  obtain ⟨px, ep, h1, h2⟩ := forUp_inv (body := fun i px => forUp 0 A.m (fun j px => do
      let v ← A.get i j
      if v ≠ 0 then do
        let c ← val2jet v lo hi
        .ok (px ++ [((i, j), c)])
      else .ok px) px) (fun n (px : List ((Nat × Nat) × Bgr K)) =>
        px.map Prod.fst = ((List.range n).flatMap fun i => (List.range A.m).map fun j => (i, j)).filter
          (fun e => decide (M e.1 e.2 ≠ 0)) ∧
        ∀ e c, (e, c) ∈ px → val2jet (M e.1 e.2) lo hi = .ok c) (Nat.zero_le A.m) (s := [])
      ⟨by simp, by simp⟩ (by
        rintro i s _ hi' ⟨h2, h3⟩
        obtain ⟨px', e', new, rfl, n2, n3⟩ := inner i hi' s
        refine ⟨_, e', ?_, ?_⟩
        · rw [List.map_append, h2, n2, List.range_succ, List.flatMap_append, List.filter_append]
          simp
        · intro e c he
          rcases List.mem_append.mp he with he | he
          · exact h3 e c he
          · exact n3 e c he)
  refine ⟨lo, hi, px, hlo, h.hiMem, h.hiTiny, hlt, h.le, ?_, h1, h2⟩
  unfold Csr.plot
  rw [e, ok_bind]
  exact ep

/-- C91: if all stored numbers are the same number of at least the smallest positive normal one,
the colours are not finite. -/
theorem constant_matrix_no_picture {A : Csr K} (hA : CsrWF A) {M : Nat → Nat → K}
    (hM : Represents A M) (hm : 0 < A.m) {c : K} (hc : 1 / 2 ^ 1022 ≤ c) (hcb : c ≤ hugeStart)
    (hall : ∀ x ∈ stored A, x = c) : A.plot = .error .nonfinite := by
  obtain ⟨⟨lo, hi⟩, e, h⟩ := range_extent hA
  have hc0 : 0 < c := lt_of_lt_of_le tiny_pos hc
  have hd : 0 < A.diag.length := by rw [hA.diag_length]; exact hm
  have hmem : c ∈ stored A := by
    have : A.diag[0] ∈ stored A := List.mem_append_right _ (List.getElem_mem hd)
    rwa [hall _ this] at this
  obtain ⟨x1, x2, -⟩ := extent_of h hmem hmem (fun x hx => (hall x hx).ge)
    (fun x hx => (hall x hx).le) hcb
  have x3 := x2.mpr hc
  simp only at x1 x3
  rw [x1, x3] at e
  have h00 : M 0 0 ≠ 0 := by
    have h1 := hM 0 0 hm hm
    unfold Csr.get at h1
    rw [if_pos rfl, rd_ok hd] at h1
    have : A.diag[0] = M 0 0 := Except.ok.inj h1
    rw [← this, hall _ (List.mem_append_right _ (List.getElem_mem hd))]
    exact hc0.ne'
  unfold Csr.plot
  rw [e, ok_bind]
  simp only
  obtain ⟨m, hm'⟩ : ∃ m, A.m = m + 1 := ⟨A.m - 1, by omega⟩
  have hget := hM 0 0 hm hm
  have first : ∀ px : List ((Nat × Nat) × Bgr K), forUp 0 A.m (fun j px => do
      let v ← A.get 0 j
      if v ≠ 0 then do
        let c ← val2jet v c c
        .ok (px ++ [((0, j), c)])
      else .ok px) px = .error .nonfinite := by
    intro px
    unfold forUp
    rw [hm', show m + 1 - 0 = m + 1 from rfl]
    unfold loopN
    rw [hget, ok_bind, if_pos h00, val2jet_constant, error_bind]
  unfold forUp at first ⊢
  rw [hm', show m + 1 - 0 = m + 1 from rfl] at first ⊢
  unfold loopN
  rw [first]

/-! ## Examples -/

/-- A triangle on both sides of the origin meets the hypotheses. -/
example : let D : Drawing ℚ Nat :=
      { (Drawing.empty : Drawing ℚ Nat) with points := [⟨-1, 0⟩, ⟨3, 0⟩, ⟨1, 2⟩] }
    D.points ≠ [] ∧ (∀ p ∈ D.points, p.x ≤ hugeStart ∧ p.y ≤ hugeStart) ∧
    D.view 1000 500 = .ok ⟨225, 225 / 2, 275, 275 / 2⟩ := by
  decide +kernel

/-- A matrix with different entries meets the hypotheses of `matrix_picture`. -/
example : CsrWF exCsr ∧ 0 < exCsr.m ∧ (∀ x ∈ stored exCsr, x ≤ hugeStart) ∧
    (¬ ∃ c, 1 / 2 ^ 1022 ≤ c ∧ ∀ x ∈ stored exCsr, x = c) ∧
    (exCsr.plot.toOption.map fun px => px.map Prod.fst) =
      some [(0, 0), (0, 1), (0, 2), (1, 0), (1, 1), (2, 0), (2, 2)] := by
  refine ⟨exCsr_wf, by decide, by decide +kernel, ?_, by decide +kernel⟩
  rintro ⟨c, -, h⟩
  have h1 := h 4 (by decide)
  have h2 := h 5 (by decide)
  rw [← h1] at h2
  norm_num at h2

/-- The one by one matrix `[5]` has no picture. -/
example : (⟨[0, 0], [], [], [5], 0, 1⟩ : Csr ℚ).plot = .error .nonfinite := by decide +kernel

end

end PlotWindow

end Nikfemm
