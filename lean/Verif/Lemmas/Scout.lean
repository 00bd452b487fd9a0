import Verif.Lemmas.Skeleton
import Verif.Lemmas.RefinementSplit

/-!
# Following a segment through the triangulation
-/

set_option linter.unusedSectionVars false

namespace Nikfemm
variable {K : Type} [Field K] [LinearOrder K] [IsStrictOrderedRing K] {s : Skeleton K} {p : Vec K}

/-! ## Points on the way -/

theorem toward_symm (a b : Vec K) (r : K) : a.toward b r = b.toward a (1 - r) := by
  unfold Vec.toward; refine Vec.ext ?_ ?_ <;> simp only <;> ring

theorem toward_one (a b : Vec K) : a.toward b 1 = b := by
  unfold Vec.toward; refine Vec.ext ?_ ?_ <;> simp only <;> ring

theorem toward_zero (a b : Vec K) : a.toward b 0 = a := by
  unfold Vec.toward; refine Vec.ext ?_ ?_ <;> simp only <;> ring

theorem toward_inv {a b c : Vec K} {r : K} (hr : r ≠ 0) (h : a.toward b r = c) : a.toward c r⁻¹ = b := by
  subst h
  unfold Vec.toward
  refine Vec.ext ?_ ?_ <;> simp only <;> field_simp <;> ring

theorem toward_toward (a b : Vec K) (r t : K) : (a.toward b r).toward b t = a.toward b (r + t * (1 - r)) := by
  unfold Vec.toward; refine Vec.ext ?_ ?_ <;> simp only <;> ring

theorem toward_between {a b : Vec K} {r : K} (h0 : 0 ≤ r) (h1 : r ≤ 1) : Vec.Between a b (a.toward b r) :=
  ⟨r, h0, h1, rfl, rfl⟩

theorem between_iff {a b p : Vec K} : Vec.Between a b p ↔ ∃ r, 0 ≤ r ∧ r ≤ 1 ∧ a.toward b r = p := by
  constructor
  · rintro ⟨r, h0, h1, hx, hy⟩
    exact ⟨r, h0, h1, Vec.ext hx.symm hy.symm⟩
  · rintro ⟨r, h0, h1, rfl⟩
    exact toward_between h0 h1

/-- Two adjoining parts of a segment. -/
theorem between_join {a b q : Vec K} {r : K} (h0 : 0 < r) (h1 : r < 1) :
    Vec.Between a b q ↔ Vec.Between a (a.toward b r) q ∨ Vec.Between (a.toward b r) b q := by
  constructor
  · exact between_cut h0 h1 rfl rfl
  · have hb : Vec.Between a b (a.toward b r) := toward_between h0.le h1.le
    rintro (h | h)
    · exact between_part hb h
    · exact between_symm (between_part (between_symm hb) (between_symm h))

/-! ## A subsegment is put in -/

section
variable (O : s.Ok) {e : TEdge} (he : e.1 ∈ s.tris) {k : Nat} (hk : k ≠ 0)
  (hu : ∀ x : TEdge, x.1 ∈ s.tris → (s.m.sg x).1 ≠ k)
include O he

theorem Skeleton.insertsubseg_org (x : TEdge) : (s.insertsubseg e k).m.org x = s.m.org x ∧
    (s.insertsubseg e k).m.dest x = s.m.dest x ∧ (s.insertsubseg e k).m.apex x = s.m.apex x := by
  obtain ⟨-, h, -⟩ := insertsubseg_same (k := k) O.sound he
  refine ⟨?_, ?_, congrFun h x⟩
  · exact congrFun h (lnext x)
  · exact congrFun h (lprev x)

include hk hu

theorem Skeleton.Ok.insertsubseg : (s.insertsubseg e k).Ok := by
  obtain ⟨n1, n2, n3⟩ := insertsubseg_same (k := k) O.sound he
  have hs := fun (x : TEdge) (hx : x.1 ∈ s.tris) => insertsubseg_sub O.sound he hk hu hx
  have org : ∀ x, (s.insertsubseg e k).m.org x = s.m.org x := fun x => (s.insertsubseg_org O he x).1
  have dest : ∀ x, (s.insertsubseg e k).m.dest x = s.m.dest x := fun x => (s.insertsubseg_org O he x).2.1
  have apex : ∀ x, (s.insertsubseg e k).m.apex x = s.m.apex x := fun x => (s.insertsubseg_org O he x).2.2
  refine ⟨insertsubseg_sound O.sound he hk hu O.chk, n3.trans O.chk, ?_, ?_, ?_, ?_⟩
  · intro x hx
    rw [org, dest, apex]
    exact O.ccw x hx
  · intro x hx
    have hd := O.delaunay x hx
    unfold TMesh.LocallyDelaunay at hd ⊢
    rw [org, dest, apex, apex]
    have e1 : (s.insertsubseg e k).m.nb = s.m.nb := n1
    rw [e1]
    rcases hd with hd | hd
    · exact .inl ((hs x hx).2 (.inl hd))
    · exact .inr hd
  · intro t t' ht ht' hne q
    have ins : ∀ t, (s.insertsubseg e k).m.Inside s.pos t q ↔ s.m.Inside s.pos t q := by
      intro t
      unfold TMesh.Inside
      rw [org, dest, apex]
    have := O.apart t t' ht ht' hne q
    show ¬ ((s.insertsubseg e k).m.Inside s.pos t q ∧ (s.insertsubseg e k).m.Inside s.pos t' q)
    rw [ins, ins]; exact this
  · rintro w ⟨x, hx, hw⟩ ⟨y, hy, y1, y2⟩
    rw [apex] at hw
    rw [org, dest] at y2
    have e1 : (s.insertsubseg e k).m.nb = s.m.nb := n1
    rw [e1] at y1
    exact O.convex w ⟨x, hx, hw⟩ ⟨y, hy, y1, y2⟩

theorem Skeleton.insertsubseg_after : s.After (s.insertsubseg e k) := by
  have org : ∀ x, (s.insertsubseg e k).m.org x = s.m.org x := fun x => (s.insertsubseg_org O he x).1
  have dest : ∀ x, (s.insertsubseg e k).m.dest x = s.m.dest x := fun x => (s.insertsubseg_org O he x).2.1
  have apex : ∀ x, (s.insertsubseg e k).m.apex x = s.m.apex x := fun x => (s.insertsubseg_org O he x).2.2
  refine ⟨fun w ⟨x, hx, hw⟩ => ⟨⟨x, hx, (apex x).trans hw⟩, rfl⟩, fun q => ?_⟩
  unfold TMesh.winding
  refine Finset.sum_congr rfl fun t _ => ?_
  rw [org, dest, apex]
  rfl

theorem Skeleton.insertsubseg_onSub (q : Vec K) : (s.insertsubseg e k).OnSub q ↔
    s.OnSub q ∨ Vec.Between (s.pos (s.m.org e)) (s.pos (s.m.dest e)) q := by
  have hs := fun (x : TEdge) (hx : x.1 ∈ s.tris) => insertsubseg_sub O.sound he hk hu hx
  have org : ∀ x, (s.insertsubseg e k).m.org x = s.m.org x := fun x => (s.insertsubseg_org O he x).1
  have dest : ∀ x, (s.insertsubseg e k).m.dest x = s.m.dest x := fun x => (s.insertsubseg_org O he x).2.1
  constructor
  · rintro ⟨x, hx, h0, hq⟩
    rw [org, dest] at hq
    rcases (hs x hx).1 h0 with h' | rfl | rfl
    · exact .inl ⟨x, hx, h', hq⟩
    · exact .inr hq
    · have hs : s.m.nb e ≠ space := fun hc => by
        have hx : (s.m.nb e).1 ∈ s.tris := hx
        rw [hc] at hx; exact O.sound.out hx
      obtain ⟨n1, n2⟩ := O.sound.nb_ends he hs
      rw [n1, n2] at hq
      exact .inr (between_symm hq)
  · rintro (⟨x, hx, h0, hq⟩ | hq)
    · exact ⟨x, hx, (hs x hx).2 (.inl h0), by rw [org, dest]; exact hq⟩
    · exact ⟨e, he, (hs e he).2 (.inr (.inl rfl)), by rw [org, dest]; exact hq⟩

end

/-! ## How far a triangle leads -/

section
variable (O : s.Ok) {e : TEdge} (he : e.1 ∈ s.tris) {w : Nat} (hw : s.m.HasCorner (· ∈ s.tris) w)
include O he hw

theorem lead_left_short {r : K} (hr : 0 < r)
    (h : (s.pos (s.m.org e)).toward (s.pos w) r = s.pos (s.m.apex e)) : r ≤ 1 := by
  by_contra hn
  have hn : 1 < r := not_le.1 hn
  have h1 := toward_inv hr.ne' h
  rw [toward_symm] at h1
  have hi : r⁻¹ < 1 := inv_lt_one_of_one_lt₀ hn
  have hi0 : 0 < r⁻¹ := inv_pos.2 hr
  have := vertex_edge O.sound O.ccw O.apart O.convex hw (x := lprev e) he (r := 1 - r⁻¹) (by linarith) (by linarith)
  rw [org_lprev, dest_lprev] at this
  exact this h1

theorem lead_right_short {r : K} (hr : 0 < r)
    (h : (s.pos (s.m.org e)).toward (s.pos w) r = s.pos (s.m.dest e)) : r ≤ 1 := by
  by_contra hn
  have hn : 1 < r := not_le.1 hn
  have h1 := toward_inv hr.ne' h
  have hi : r⁻¹ < 1 := inv_lt_one_of_one_lt₀ hn
  have hi0 : 0 < r⁻¹ := inv_pos.2 hr
  exact vertex_edge O.sound O.ccw O.apart O.convex hw he hi0 hi h1

theorem lead_within_short {r t : K} (hr : 0 < r) (t0 : 0 < t) (t1 : t < 1)
    (h : (s.pos (s.m.org e)).toward (s.pos w) r = (s.pos (s.m.dest e)).toward (s.pos (s.m.apex e)) t) : r < 1 := by
  have hc : 0 < ccw (s.pos (s.m.org e)) (s.pos (s.m.dest e)) (s.pos (s.m.apex e)) := O.ccw e he
  by_contra hn
  have hn : 1 ≤ r := not_lt.1 hn
  rcases hn.eq_or_lt with hn | hn
  · rw [← hn, toward_one] at h
    have := vertex_edge O.sound O.ccw O.apart O.convex hw (x := lnext e) he (r := t) t0 t1
    rw [org_lnext, dest_lnext] at this
    exact this h.symm
  have h1 := toward_inv hr.ne' h
  have hi : r⁻¹ < 1 := inv_lt_one_of_one_lt₀ hn
  have hi0 : 0 < r⁻¹ := inv_pos.2 hr
  refine vertex_inside O.sound O.ccw O.apart hw he ((inside_at e).2 ?_)
  rw [← h1]
  simp only [ccw_toward, ccw_aba, ccw_abb, mul_zero, add_zero, zero_add]
  rw [← ccw_rot (s.pos (s.m.org e)), ccw_rot (s.pos (s.m.apex e))]
  exact ⟨mul_pos hi0 (mul_pos t0 hc), mul_pos (by linarith) hc, mul_pos hi0 (mul_pos (by linarith) hc)⟩

end

/-- A directed edge belongs to one triangle only. -/
theorem edge_unique (O : s.Ok) {x y : TEdge} (hx : x.1 ∈ s.tris) (hy : y.1 ∈ s.tris) (ho : s.m.org x = s.m.org y)
    (hd : s.m.dest x = s.m.dest y) : x = y := by
  have cx : 0 < ccw (s.pos (s.m.org x)) (s.pos (s.m.dest x)) (s.pos (s.m.apex x)) := O.ccw x hx
  have cy : 0 < ccw (s.pos (s.m.org y)) (s.pos (s.m.dest y)) (s.pos (s.m.apex y)) := O.ccw y hy
  have key : x.1 = y.1 := by
    obtain ⟨σ, hσ, hL⟩ := nudge [lineOf (s.pos (s.m.dest y)) (s.pos (s.m.apex y)), lineOf (s.pos (s.m.apex y)) (s.pos (s.m.org y))]
      (p := (s.pos (s.m.org y)).toward (s.pos (s.m.dest y)) (1 / 2)) (by
        intro l hl
        simp only [List.mem_cons, List.not_mem_nil, or_false] at hl
        rcases hl with rfl | rfl <;> rw [lineOf_at]
        · rw [ccw_toward, ccw_aba, ← ccw_rot]
          have := mul_pos (by norm_num : (0 : K) < 1 - 1 / 2) cy
          linarith
        · rw [ccw_toward, ccw_abb, ccw_rot]
          have := mul_pos (by norm_num : (0 : K) < 1 / 2) cy
          linarith)
      ((s.pos (s.m.apex x)).x - ((s.pos (s.m.org y)).toward (s.pos (s.m.dest y)) (1 / 2)).x)
      ((s.pos (s.m.apex x)).y - ((s.pos (s.m.org y)).toward (s.pos (s.m.dest y)) (1 / 2)).y)
    set τ := min σ (1 / 2) with hτ
    have τ0 : 0 < τ := lt_min hσ (by norm_num)
    have τ1 : τ < 1 := lt_of_le_of_lt (min_le_right _ _) (by norm_num)
    have k1 := hL τ τ0 (min_le_left _ _) (lineOf (s.pos (s.m.dest y)) (s.pos (s.m.apex y))) (by simp)
    have k2 := hL τ τ0 (min_le_left _ _) (lineOf (s.pos (s.m.apex y)) (s.pos (s.m.org y))) (by simp)
    rw [lineOf_at] at k1 k2
    refine O.apart.alone O.ccw hx hy
      (p := ((s.pos (s.m.org y)).toward (s.pos (s.m.dest y)) (1 / 2)).toward (s.pos (s.m.apex x)) τ)
      ((inside_at x).2 ?_) ((within_at y).2 ⟨?_, k1.le, k2.le⟩)
    · rw [← ho, ← hd]
      simp only [ccw_toward, ccw_aba, ccw_abb, mul_zero, add_zero, zero_add]
      rw [← ccw_rot (s.pos (s.m.org x)), ccw_rot (s.pos (s.m.apex x))]
      exact ⟨mul_pos τ0 cx, mul_pos (by linarith) (mul_pos (by norm_num) cx),
        mul_pos (by linarith) (mul_pos (by norm_num) cx)⟩
    · rw [ho, hd] at cx
      simp only [ccw_toward, ccw_aba, ccw_abb, mul_zero, add_zero, zero_add]
      exact (mul_pos τ0 cx).le
  exact one_origin O.sound hx key ho

/-! ## A subsegment is split -/

theorem unused_corner {c : Spare} (hU : s.Unused c) : ¬ s.m.HasCorner (· ∈ s.tris) c.v := by
  rintro ⟨e, he, h⟩
  exact (hU.1 e.1 he e.2).1 h

theorem unused_pos {c : Spare} (hU : s.Unused c) (p : Vec K) (x : TEdge) (hx : x.1 ∈ s.tris) :
    Function.update s.pos c.v p (s.m.apex x) = s.pos (s.m.apex x) :=
  Function.update_of_ne (hU.1 x.1 hx x.2).1 _ _

theorem ccw_congr {m : TMesh K} {live : Nat → Prop} {pos pos' : Nat → Vec K}
    (h : ∀ x : TEdge, live x.1 → pos' (m.apex x) = pos (m.apex x)) (C : m.Ccw live pos) : m.Ccw live pos' := by
  intro x hx
  have h1 : pos' (m.org x) = pos (m.org x) := h (lnext x) hx
  have h2 : pos' (m.dest x) = pos (m.dest x) := h (lprev x) hx
  rw [h1, h2, h x hx]
  exact C x hx

theorem delaunay_congr {m : TMesh K} {live : Nat → Prop} {pos pos' : Nat → Vec K} (S : m.Sound live)
    (h : ∀ x : TEdge, live x.1 → pos' (m.apex x) = pos (m.apex x)) (D : m.Delaunay live pos) : m.Delaunay live pos' := by
  intro x hx
  have h1 : pos' (m.org x) = pos (m.org x) := h (lnext x) hx
  have h2 : pos' (m.dest x) = pos (m.dest x) := h (lprev x) hx
  rcases D x hx with hd | hd | hd
  · exact .inl hd
  · exact .inr (.inl hd)
  by_cases hs : m.nb x = space
  · exact .inr (.inl hs)
  · refine .inr (.inr ?_)
    rw [h1, h2, h x hx, h _ (S.nb_live hx hs)]
    exact hd

section
variable {c : Spare} (O : s.Ok) (hU : s.Unused c) {h : TEdge} (hh : h.1 ∈ s.tris) (h0 : s.m.sg h ≠ noSub)
  {r : K} (r0 : 0 < r) (r1 : r < 1) (hp : (s.pos (s.m.org h)).toward (s.pos (s.m.dest h)) r = p)
  {n : Nat} {m' : TMesh K} {e' : TEdge}

/-- The triangles after a subsegment was split. -/
def Skeleton.grown (s : Skeleton K) (c : Spare) (h : TEdge) : Finset Nat :=
  if (s.m.nb h).1 = 0 then insert c.n1 s.tris else insert c.n1 (insert c.n2 s.tris)

include O hh in
theorem grown_iff (t : Nat) : s.m.Grown (· ∈ s.tris) c.n1 c.n2 (.onEdge, h) t ↔ t ∈ s.grown c h := by
  unfold TMesh.Grown Skeleton.grown
  by_cases hs : s.m.nb h = space
  · rw [if_pos ((nb_zero_iff O.sound hh).2 hs)]
    simp [hs]; tauto
  · rw [if_neg (fun hc => hs ((nb_zero_iff O.sound hh).1 hc))]
    simp [hs]; tauto

include hU hh h0 r0 r1 hp in
theorem cut_place : s.m.Place (· ∈ s.tris) (Function.update s.pos c.v p) c.v (some c.ss) (.onEdge, h) := by
  have ho : Function.update s.pos c.v p (s.m.org h) = s.pos (s.m.org h) := unused_pos hU p (lnext h) hh
  have hd : Function.update s.pos c.v p (s.m.dest h) = s.pos (s.m.dest h) := unused_pos hU p (lprev h) hh
  refine ⟨hh, ⟨h0, hU.2.2.2.2.2.2.1, fun x hx => (hU.1 x.1 hx x.2).2.1⟩, r, r0, r1, ?_, ?_⟩
  · rw [ho, hd, Function.update_self, ← hp]; rfl
  · rw [ho, hd, Function.update_self, ← hp]; rfl

include O hU hh h0 r0 r1 hp in
theorem cut_ends : ∃ m' e', s.m.insertAt (Function.update s.pos c.v p) c.v c.n1 c.n2 (some c.ss) (2 * s.tris.card + 1)
    (.onEdge, h) = some (.inserted m' e') :=
  insertAt_ends (fun _ => Iff.rfl) O.sound (ccw_congr (unused_pos hU p) O.ccw)
    (delaunay_congr O.sound (unused_pos hU p) O.delaunay) (unused_corner hU)
    hU.2.1 hU.2.2.1 hU.2.2.2.1 hU.2.2.2.2.1 hU.2.2.2.2.2.1 (cut_place hU hh h0 r0 r1 hp) le_rfl

variable (hI : s.m.insertAt (Function.update s.pos c.v p) c.v c.n1 c.n2 (some c.ss) n (.onEdge, h) =
    some (.inserted m' e'))
include O hU hh h0 r0 r1 hp hI

theorem cut_edges :
    (∀ x : TEdge, x.1 ∈ s.tris → x ≠ h → x ≠ s.m.nb h → s.m.sg x ≠ noSub ∨ s.m.nb x = space →
      m'.HasEdge (· ∈ s.grown c h) (s.m.org x) (s.m.dest x) (s.m.sg x) (decide (s.m.nb x = space))) ∧
    (m'.HasEdge (· ∈ s.grown c h) c.v (s.m.dest h) (s.m.sg h) (decide (s.m.nb h = space)) ∧
      m'.HasEdge (· ∈ s.grown c h) (s.m.org h) c.v (c.ss, 0) (decide (s.m.nb h = space))) ∧
    ∀ a b s' o, s' ≠ noSub ∨ o = true → m'.HasEdge (· ∈ s.grown c h) a b s' o →
      (a ≠ c.v ∧ b ≠ c.v ∧ s.m.HasEdge (· ∈ s.tris) a b s' o) ∨ (a = c.v ∧ (b = s.m.org h ∨ b = s.m.dest h)) ∨
        (b = c.v ∧ (a = s.m.org h ∨ a = s.m.dest h)) := by
  have e : s.m.Grown (· ∈ s.tris) c.n1 c.n2 (.onEdge, h) = (· ∈ s.grown c h) :=
    funext fun t => propext (grown_iff O hh t)
  have := insertAt_edge_edges (fun _ => Iff.rfl) O.sound (ccw_congr (unused_pos hU p) O.ccw)
    (delaunay_congr O.sound (unused_pos hU p) O.delaunay) (unused_corner hU)
    hU.2.1 hU.2.2.1 hU.2.2.2.1 hU.2.2.2.2.1 hU.2.2.2.2.2.1 (cut_place hU hh h0 r0 r1 hp) hI
  rw [e] at this
  exact ⟨this.1, this.2.1 (.inl h0), this.2.2⟩

theorem cut_corners (w : Nat) : m'.HasCorner (· ∈ s.grown c h) w ↔ w = c.v ∨ s.m.HasCorner (· ∈ s.tris) w := by
  have e : s.m.Grown (· ∈ s.tris) c.n1 c.n2 (.onEdge, h) = (· ∈ s.grown c h) :=
    funext fun t => propext (grown_iff O hh t)
  have := (insertAt_corners (fun _ => Iff.rfl) O.sound (ccw_congr (unused_pos hU p) O.ccw)
    (delaunay_congr O.sound (unused_pos hU p) O.delaunay) (unused_corner hU)
    hU.2.1 hU.2.2.1 hU.2.2.2.1 hU.2.2.2.2.1 hU.2.2.2.2.2.1 (cut_place hU hh h0 r0 r1 hp) (grown_iff O hh) hI).1 w
  rw [e] at this
  exact this

theorem cut_handle : e'.1 ∈ s.grown c h ∧ m'.org e' = c.v := by
  have e : s.m.Grown (· ∈ s.tris) c.n1 c.n2 (.onEdge, h) = (· ∈ s.grown c h) :=
    funext fun t => propext (grown_iff O hh t)
  obtain ⟨_, _, ⟨⟩, -, -, -, d4, d5⟩ := insertAt_delaunay (fun _ => Iff.rfl) O.sound (ccw_congr (unused_pos hU p) O.ccw)
    (delaunay_congr O.sound (unused_pos hU p) O.delaunay) (unused_corner hU)
    hU.2.1 hU.2.2.1 hU.2.2.2.1 hU.2.2.2.2.1 hU.2.2.2.2.2.1 (cut_place hU hh h0 r0 r1 hp) hI
  rw [e] at d4
  exact ⟨d4, d5⟩

theorem cut_spoke : ∃ x : TEdge, x.1 ∈ s.grown c h ∧ m'.org x = s.m.apex h ∧ m'.dest x = c.v := by
  have e : s.m.Grown (· ∈ s.tris) c.n1 c.n2 (.onEdge, h) = (· ∈ s.grown c h) :=
    funext fun t => propext (grown_iff O hh t)
  have := insertAt_spoke (fun _ => Iff.rfl) O.sound (ccw_congr (unused_pos hU p) O.ccw)
    (delaunay_congr O.sound (unused_pos hU p) O.delaunay) (unused_corner hU)
    hU.2.1 hU.2.2.1 hU.2.2.2.1 hU.2.2.2.2.1 hU.2.2.2.2.2.1 (cut_place hU hh h0 r0 r1 hp) hI
  rw [e] at this
  exact this

theorem cut_outer {x : TEdge} (hx : x.1 ∈ s.grown c h) (hs : m'.nb x = space) :
    (∃ y : TEdge, y.1 ∈ s.tris ∧ s.m.nb y = space ∧ s.m.org y = m'.org x ∧ s.m.dest y = m'.dest x) ∨
    (s.m.nb h = space ∧ (m'.org x = c.v ∧ m'.dest x = s.m.dest h ∨ m'.org x = s.m.org h ∧ m'.dest x = c.v)) := by
  have e : s.m.Grown (· ∈ s.tris) c.n1 c.n2 (.onEdge, h) = (· ∈ s.grown c h) :=
    funext fun t => propext (grown_iff O hh t)
  have := insertAt_outer (fun _ => Iff.rfl) O.sound (ccw_congr (unused_pos hU p) O.ccw)
    (delaunay_congr O.sound (unused_pos hU p) O.delaunay) (unused_corner hU)
    hU.2.1 hU.2.2.1 hU.2.2.2.1 hU.2.2.2.2.1 hU.2.2.2.2.2.1 (cut_place hU hh h0 r0 r1 hp) hI (x := x)
    ((grown_iff O hh _).2 hx) hs
  exact this

theorem cut_ok : (Skeleton.mk m' (Function.update s.pos c.v p) (s.grown c h)).Ok := by
  have e : s.m.Grown (· ∈ s.tris) c.n1 c.n2 (.onEdge, h) = (· ∈ s.grown c h) :=
    funext fun t => propext (grown_iff O hh t)
  have C := ccw_congr (unused_pos hU p) O.ccw
  have D := delaunay_congr O.sound (unused_pos hU p) O.delaunay
  have P := cut_place hU hh h0 r0 r1 hp
  obtain ⟨_, _, ⟨⟩, d1, d2, d3, -⟩ := insertAt_delaunay (fun _ => Iff.rfl) O.sound C D (unused_corner hU)
    hU.2.1 hU.2.2.1 hU.2.2.2.1 hU.2.2.2.2.1 hU.2.2.2.2.2.1 P hI
  have A := insertAt_apart (fun _ => Iff.rfl) O.sound C D (unused_corner hU)
    hU.2.1 hU.2.2.1 hU.2.2.2.1 hU.2.2.2.2.1 hU.2.2.2.2.2.1 P (apart_congr (unused_pos hU p) O.apart) hI
  rw [e] at d1 d2 d3 A
  obtain ⟨-, ⟨-, y2, hy2, -, -, y23, -⟩, -⟩ := cut_edges O hU hh h0 r0 r1 hp hI
  refine ⟨d1, ?_, d2, d3, A, ?_⟩
  · by_contra hc
    have hc : m'.checksegments = false := by
      show m'.checksegments = false
      simpa using hc
    have := d1.chk hc y2 hy2
    rw [y23] at this
    exact hU.2.2.2.2.2.2.1 (congrArg Prod.fst this :)
  · intro w hw hB
    have hw := (cut_corners O hU hh h0 r0 r1 hp hI w).1 hw
    obtain ⟨x, hx, xs, xB⟩ := hB
    have xB : 0 < ccw (Function.update s.pos c.v p (m'.dest x)) (Function.update s.pos c.v p (m'.org x))
      (Function.update s.pos c.v p w) := xB
    have po : ∀ y : TEdge, y.1 ∈ s.tris → Function.update s.pos c.v p (s.m.org y) = s.pos (s.m.org y) :=
      fun y hy => unused_pos hU p (lnext y) hy
    have pd : ∀ y : TEdge, y.1 ∈ s.tris → Function.update s.pos c.v p (s.m.dest y) = s.pos (s.m.dest y) :=
      fun y hy => unused_pos hU p (lprev y) hy
    have old : ∀ w, s.m.HasCorner (· ∈ s.tris) w → Function.update s.pos c.v p w = s.pos w :=
      fun w ⟨y, hy, h⟩ => h ▸ unused_pos hU p y hy
    have inner : ∀ y : TEdge, y.1 ∈ s.tris → s.m.nb y = space → ∀ w, w = c.v ∨ s.m.HasCorner (· ∈ s.tris) w →
        ccw (s.pos (s.m.dest y)) (s.pos (s.m.org y)) (Function.update s.pos c.v p w) ≤ 0 := by
      intro y hy ys w hw
      have base : ∀ w, s.m.HasCorner (· ∈ s.tris) w → ccw (s.pos (s.m.dest y)) (s.pos (s.m.org y)) (s.pos w) ≤ 0 :=
        fun w hw => not_lt.1 fun hc => O.convex w hw ⟨y, hy, ys, hc⟩
      rcases hw with rfl | hw
      · rw [Function.update_self, ← hp, ccw_toward]
        have b1 := base (s.m.org h) ⟨lnext h, hh, rfl⟩
        have b2 := base (s.m.dest h) ⟨lprev h, hh, rfl⟩
        have := mul_nonpos_of_nonneg_of_nonpos (sub_pos.2 r1).le b1
        have := mul_nonpos_of_nonneg_of_nonpos r0.le b2
        linarith
      · rw [old w hw]; exact base w hw
    rcases cut_outer O hU hh h0 r0 r1 hp hI hx xs with ⟨y, hy, y1, y2, y3⟩ | ⟨hs, hd | hd⟩
    · rw [← y2, ← y3, po y hy, pd y hy] at xB
      exact not_lt.2 (inner y hy y1 w hw) xB
    · rw [hd.1, hd.2, Function.update_self, pd h hh, ← hp] at xB
      have := inner h hh hs w hw
      have e1 : ccw (s.pos (s.m.dest h)) ((s.pos (s.m.org h)).toward (s.pos (s.m.dest h)) r)
          (Function.update s.pos c.v ((s.pos (s.m.org h)).toward (s.pos (s.m.dest h)) r) w) = (1 - r) * ccw (s.pos (s.m.dest h)) (s.pos (s.m.org h))
          (Function.update s.pos c.v ((s.pos (s.m.org h)).toward (s.pos (s.m.dest h)) r) w) := by unfold ccw Vec.toward; ring
      rw [e1] at xB
      rw [← hp] at this
      exact not_lt.2 (mul_nonpos_of_nonneg_of_nonpos (sub_pos.2 r1).le this) xB
    · rw [hd.1, hd.2, Function.update_self, po h hh, ← hp] at xB
      have := inner h hh hs w hw
      have e1 : ccw ((s.pos (s.m.org h)).toward (s.pos (s.m.dest h)) r) (s.pos (s.m.org h))
          (Function.update s.pos c.v ((s.pos (s.m.org h)).toward (s.pos (s.m.dest h)) r) w) = r * ccw (s.pos (s.m.dest h)) (s.pos (s.m.org h))
          (Function.update s.pos c.v ((s.pos (s.m.org h)).toward (s.pos (s.m.dest h)) r) w) := by unfold ccw Vec.toward; ring
      rw [e1] at xB
      rw [← hp] at this
      exact not_lt.2 (mul_nonpos_of_nonneg_of_nonpos r0.le this) xB

theorem cut_after : s.After (Skeleton.mk m' (Function.update s.pos c.v p) (s.grown c h)) := by
  have C := ccw_congr (unused_pos hU p) O.ccw
  have D := delaunay_congr O.sound (unused_pos hU p) O.delaunay
  have P := cut_place hU hh h0 r0 r1 hp
  refine ⟨fun w hw => ⟨(cut_corners O hU hh h0 r0 r1 hp hI w).2 (.inr hw), ?_⟩, fun q => ?_⟩
  · exact Function.update_of_ne (fun hc => unused_corner hU (by rw [← hc]; exact hw)) _ _
  · show m'.winding (s.grown c h) (Function.update s.pos c.v p) q = _
    rw [insertAt_winding (fun _ => Iff.rfl) O.sound C D (unused_corner hU)
      hU.2.1 hU.2.2.1 hU.2.2.2.1 hU.2.2.2.2.1 hU.2.2.2.2.2.1 P (grown_iff O hh) hI]
    exact winding_congr (unused_pos hU p) q

/-- The subsegments cover the same points. -/
theorem cut_onSub (q : Vec K) : (Skeleton.mk m' (Function.update s.pos c.v p) (s.grown c h)).OnSub q ↔ s.OnSub q := by
  obtain ⟨g1, ⟨⟨y1, hy1, a1, a2, a3, -⟩, y2, hy2, b1, b2, b3, -⟩, g4⟩ := cut_edges O hU hh h0 r0 r1 hp hI
  have S := O.sound
  have po : ∀ y : TEdge, y.1 ∈ s.tris → Function.update s.pos c.v p (s.m.org y) = s.pos (s.m.org y) :=
    fun y hy => unused_pos hU p (lnext y) hy
  have pd : ∀ y : TEdge, y.1 ∈ s.tris → Function.update s.pos c.v p (s.m.dest y) = s.pos (s.m.dest y) :=
    fun y hy => unused_pos hU p (lprev y) hy
  have hv : Function.update s.pos c.v p c.v = p := Function.update_self _ _ _
  have hss : (c.ss, (0 : Fin 2)) ≠ noSub := fun hc => hU.2.2.2.2.2.2.1 (congrArg Prod.fst hc :)
  have bet : Vec.Between (s.pos (s.m.org h)) (s.pos (s.m.dest h)) p := by rw [← hp]; exact toward_between r0.le r1.le
  constructor
  · rintro ⟨x, hx, x0, hq⟩
    simp only at hx x0 hq
    rcases g4 (m'.org x) (m'.dest x) (m'.sg x) (decide (m'.nb x = space)) (.inl x0)
      ⟨x, hx, rfl, rfl, rfl, by simp⟩ with ⟨-, -, y, hy, k1, k2, k3, -⟩ | ⟨k1, k2⟩ | ⟨k1, k2⟩
    · refine ⟨y, hy, by rw [k3]; exact x0, ?_⟩
      rw [← k1, ← k2, po y hy, pd y hy] at hq
      exact hq
    · rw [k1, hv] at hq
      rcases k2 with k2 | k2
      · rw [k2, po h hh] at hq
        exact ⟨h, hh, h0, between_part bet (between_symm hq)⟩
      · rw [k2, pd h hh] at hq
        exact ⟨h, hh, h0, between_symm (between_part (between_symm bet) (between_symm hq))⟩
    · rw [k1, hv] at hq
      rcases k2 with k2 | k2
      · rw [k2, po h hh] at hq
        exact ⟨h, hh, h0, between_part bet hq⟩
      · rw [k2, pd h hh] at hq
        exact ⟨h, hh, h0, between_symm (between_part (between_symm bet) hq)⟩
  · have cut : Vec.Between (s.pos (s.m.org h)) (s.pos (s.m.dest h)) q →
        (Skeleton.mk m' (Function.update s.pos c.v p) (s.grown c h)).OnSub q := by
      intro hq
      rcases (between_join r0 r1).1 hq with hq | hq
      · refine ⟨y2, hy2, by rw [b3]; exact hss, ?_⟩
        simp only
        rw [b1, b2, hv, po h hh, ← hp]
        exact hq
      · refine ⟨y1, hy1, by rw [a3]; exact h0, ?_⟩
        simp only
        rw [a1, a2, hv, pd h hh, ← hp]
        exact hq
    rintro ⟨x, hx, x0, hq⟩
    by_cases e1 : x = h
    · subst e1
      exact cut hq
    · by_cases e2 : x = s.m.nb h
      · subst e2
        have hs : s.m.nb h ≠ space := fun hc => S.out (by rw [hc] at hx; exact hx)
        obtain ⟨-, -, k3, k4⟩ := (S.mate h hh).resolve_left hs
        rw [k3, k4] at hq
        exact cut (between_symm hq)
      · obtain ⟨y, hy, k1, k2, k3, -⟩ := g1 x hx e1 e2 (.inl x0)
        refine ⟨y, hy, by rw [k3]; exact x0, ?_⟩
        simp only
        rw [k1, k2, po x hx, pd x hx]
        exact hq

/-- The number for another subsegment is still unused. -/
theorem cut_unused {x : TEdge} (hx : x.1 ∈ s.grown c h) : (m'.sg x).1 ≠ c.sub := by
  have O' := cut_ok O hU hh h0 r0 r1 hp hI
  obtain ⟨-, ⟨⟨y1, hy1, a1, a2, a3, -⟩, y2, hy2, b1, b2, b3, -⟩, g4⟩ := cut_edges O hU hh h0 r0 r1 hp hI
  have hvc := unused_corner hU
  have hod := O.sound.corners h hh
  have hu : (s.m.sg h).1 ≠ c.sub := (hU.1 h.1 hh h.2).2.2
  by_cases x0 : m'.sg x = noSub
  · rw [x0]; exact fun hc => hU.2.2.2.2.2.2.2.1 hc.symm
  rcases g4 (m'.org x) (m'.dest x) (m'.sg x) (decide (m'.nb x = space)) (.inl x0)
      ⟨x, hx, rfl, rfl, rfl, by simp⟩ with ⟨-, -, y, hy, k1, k2, k3, -⟩ | ⟨k1, k2⟩ | ⟨k1, k2⟩
  · rw [← k3]; exact (hU.1 y.1 hy y.2).2.2
  · rcases k2 with k2 | k2
    · -- from the new vertex to the origin: the other side of the second part
      by_cases hs : m'.nb x = space
      · exfalso
        rcases cut_outer O hU hh h0 r0 r1 hp hI hx hs with ⟨y, hy, -, y2, -⟩ | ⟨-, hd | hd⟩
        · exact hvc ⟨lnext y, hy, y2.trans k1⟩
        · exact hod (k2.symm.trans hd.2)
        · exact hvc ⟨lnext h, hh, hd.1.symm.trans k1⟩
      · have hl := O'.sound.nb_live hx hs
        obtain ⟨n1, n2⟩ := O'.sound.nb_ends hx hs
        have n1 : m'.org (m'.nb x) = m'.dest x := n1
        have n2 : m'.dest (m'.nb x) = m'.org x := n2
        have : m'.nb x = y2 := edge_unique O' hl hy2 (by show m'.org (m'.nb x) = m'.org y2; rw [n1, k2, b1])
          (by show m'.dest (m'.nb x) = m'.dest y2; rw [n2, k1, b2])
        have hsg := ((O'.sound.seg x hx).resolve_left x0).2.2.2.2.1 hs
        have hsg : m'.sg (m'.nb x) = ssym (m'.sg x) := hsg
        rw [this, b3] at hsg
        have := congrArg Prod.fst hsg
        have : c.ss = (m'.sg x).1 := this
        rw [← this]; exact hU.2.2.2.2.2.2.2.2
    · have : x = y1 := edge_unique O' hx hy1 (by show m'.org x = m'.org y1; rw [k1, a1])
          (by show m'.dest x = m'.dest y1; rw [k2, a2])
      rw [this, a3]; exact hu
  · rcases k2 with k2 | k2
    · have : x = y2 := edge_unique O' hx hy2 (by show m'.org x = m'.org y2; rw [k2, b1])
          (by show m'.dest x = m'.dest y2; rw [k1, b2])
      rw [this, b3]; exact hU.2.2.2.2.2.2.2.2
    · by_cases hs : m'.nb x = space
      · exfalso
        rcases cut_outer O hU hh h0 r0 r1 hp hI hx hs with ⟨y, hy, -, -, y3⟩ | ⟨-, hd | hd⟩
        · exact hvc ⟨lprev y, hy, y3.trans k1⟩
        · exact hvc ⟨lprev h, hh, hd.2.symm.trans k1⟩
        · exact hod (hd.1.symm.trans k2)
      · have hl := O'.sound.nb_live hx hs
        obtain ⟨n1, n2⟩ := O'.sound.nb_ends hx hs
        have n1 : m'.org (m'.nb x) = m'.dest x := n1
        have n2 : m'.dest (m'.nb x) = m'.org x := n2
        have : m'.nb x = y1 := edge_unique O' hl hy1 (by show m'.org (m'.nb x) = m'.org y1; rw [n1, k1, a1])
          (by show m'.dest (m'.nb x) = m'.dest y1; rw [n2, k2, a2])
        have hsg := ((O'.sound.seg x hx).resolve_left x0).2.2.2.2.1 hs
        have hsg : m'.sg (m'.nb x) = ssym (m'.sg x) := hsg
        rw [this, a3] at hsg
        have := congrArg Prod.fst hsg
        have : (s.m.sg h).1 = (m'.sg x).1 := this
        rw [← this]; exact hu

end

end Nikfemm
