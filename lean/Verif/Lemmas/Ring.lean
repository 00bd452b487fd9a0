import Verif.Props.DelaunayFlip
import Mathlib.Data.List.Chain

/-!
# The triangles around a new vertex
-/

set_option linter.unusedSectionVars false

namespace Nikfemm
variable {K : Type} [Field K] [LinearOrder K] [IsStrictOrderedRing K]

/-- The triangle `t` does not have the corner `v`. -/
def TMesh.Off (m : TMesh K) (v t : Nat) : Prop := ∀ o : Fin 3, m.apex (t, o) ≠ v

/-- Seen from `p`, the point `s` lies in the angle from `a` to `b`. -/
def InCone (p a b s : Vec K) : Prop := 0 ≤ ccw p a s ∧ 0 < ccw p s b

/-- No point is seen from `v` both beyond `x` and beyond `y`. -/
def TMesh.Aside (m : TMesh K) (pos : Nat → Vec K) (v : Nat) (x y : TEdge) : Prop :=
  ∀ s, ¬ (InCone (pos v) (pos (m.org x)) (pos (m.dest x)) s ∧
    InCone (pos v) (pos (m.org y)) (pos (m.dest y)) s)

/-- `y` follows `x` counterclockwise around their common apex. -/
def TMesh.Follows (m : TMesh K) (x y : TEdge) : Prop :=
  m.nb (lnext x) ≠ space ∧ lnext (m.nb (lnext x)) = y

/-- The triangles at the vertex `v` and what is known about the edges opposite to `v`.  For each of them there
is a circle through its ends with `v` inside; the corner beyond the edge is not inside, nor are the corners of
the next triangles. -/
structure Ring (m : TMesh K) (live : Nat → Prop) (pos : Nat → Vec K) (v : Nat) (L : List TEdge)
    (o : TEdge → Vec K) : Prop where
  sound : m.Sound live
  ccw : m.Ccw live pos
  sub : ∀ x ∈ L, live x.1
  star : ∀ x : TEdge, live x.1 → (m.apex x = v ↔ x ∈ L)
  apart : L.Pairwise (m.Aside pos v)
  chain : L.IsChain m.Follows
  thru : ∀ x ∈ L, circlePow (o x) (pos (m.org x)) (pos (m.dest x)) = 0
  inside : ∀ x ∈ L, circlePow (o x) (pos (m.org x)) (pos v) < 0
  beyond : ∀ x ∈ L, m.nb x ≠ space → m.sg x = noSub →
    0 ≤ circlePow (o x) (pos (m.org x)) (pos (m.apex (m.nb x)))
  join : ∀ x ∈ L, m.nb (lnext x) ≠ space → m.sg (lnext x) = noSub →
    0 ≤ circlePow (o x) (pos (m.dest x)) (pos (m.apex (m.nb (lnext x)))) ∧
    0 ≤ circlePow (o (lnext (m.nb (lnext x)))) (pos (m.dest x)) (pos (m.org x))
  outer : ∀ x : TEdge, live x.1 → m.Off v x.1 → m.nb x ≠ space → m.Off v (m.nb x).1 →
    m.LocallyDelaunay pos x

theorem InCone.left {p a d b s : Vec K} (h1 : 0 < ccw p a d) (h2 : 0 < ccw p d b) (h3 : 0 < ccw p a b)
    (h : InCone p a d s) : InCone p a b s := by
  refine ⟨h.1, ?_⟩
  have id : ccw p a d * ccw p s b = ccw p a s * ccw p d b + ccw p a b * ccw p s d := by
    unfold ccw; ring
  have := mul_nonneg h.1 h2.le
  have := mul_pos h3 h.2
  exact pos_of_mul_pos_right (by rw [id]; linarith) h1.le

theorem InCone.right {p a d b s : Vec K} (h1 : 0 < ccw p a d) (h2 : 0 < ccw p d b) (h3 : 0 < ccw p a b)
    (h : InCone p d b s) : InCone p a b s := by
  refine ⟨?_, h.2⟩
  have id : ccw p d b * ccw p a s = ccw p a d * ccw p s b + ccw p a b * ccw p d s := by
    unfold ccw; ring
  have := mul_nonneg h3.le h.1
  have := mul_pos h1 h.2
  exact nonneg_of_mul_nonneg_right (by rw [id]; linarith) h2

theorem InCone.not_both {p a d b s : Vec K} (h1 : InCone p a d s) (h2 : InCone p d b s) : False := by
  have a1 := h1.2
  have a2 := h2.1
  rw [ccw_anti] at a2
  linarith

/-- In one triangle only one edge is opposite to `v`. -/
theorem apex_inj {m : TMesh K} {live : Nat → Prop} (S : m.Sound live) {x y : TEdge} (hx : live x.1)
    (hxy : y.1 = x.1) (h : m.apex y = m.apex x) : y = x := by
  obtain ⟨a1, a2, a3⟩ := S.apex_ne x hx
  rcases edge_cases x.2 hxy with h' | h' | h'
  · exact h'
  · rw [show y = lnext x from h', apex_lnext] at h
    exact absurd h.symm a3
  · rw [show y = lprev x from h', apex_lprev] at h
    exact absurd h a2

section
variable {m : TMesh K} {live : Nat → Prop} {pos : Nat → Vec K} {v : Nat} {L : List TEdge}
  {o : TEdge → Vec K} (R : Ring m live pos v L o)
include R

theorem Ring.apex {x : TEdge} (hx : x ∈ L) : m.apex x = v := (R.star x (R.sub x hx)).2 hx

theorem Ring.area {x : TEdge} (hx : x ∈ L) :
    0 < Nikfemm.ccw (pos (m.org x)) (pos (m.dest x)) (pos v) := by
  have := R.ccw.area (R.sub x hx)
  rwa [R.apex hx] at this

theorem Ring.only {x y : TEdge} (hx : x ∈ L) (hy : y ∈ L) (h : y.1 = x.1) : y = x :=
  apex_inj R.sound (R.sub x hx) h ((R.apex hy).trans (R.apex hx).symm)

theorem Ring.off {t : Nat} (ht : live t) (h : ∀ x ∈ L, x.1 ≠ t) : m.Off v t := by
  intro o ho
  exact h (t, o) ((R.star (t, o) ht).1 ho) rfl

theorem Ring.own_cone {x : TEdge} (hx : x ∈ L) :
    InCone (pos v) (pos (m.org x)) (pos (m.dest x)) (pos (m.org x)) := by
  constructor
  · unfold Nikfemm.ccw; apply le_of_eq; ring
  · rw [ccw_rot]; exact R.area hx

theorem Ring.nodup : L.Nodup := by
  refine R.apart.imp_of_mem ?_
  rintro x y hx - h rfl
  exact h _ ⟨R.own_cone hx, R.own_cone hx⟩

/-- The next triangle around `v`. -/
theorem Ring.next {x : TEdge} (hx : x ∈ L) (hs : m.nb (lnext x) ≠ space) :
    lnext (m.nb (lnext x)) ∈ L ∧ m.org (lnext (m.nb (lnext x))) = m.dest x ∧
    m.dest (lnext (m.nb (lnext x))) = m.apex (m.nb (lnext x)) := by
  have hl : live (lnext x).1 := R.sub x hx
  obtain ⟨e1, e2⟩ := R.sound.nb_ends hl hs
  refine ⟨(R.star (lnext (m.nb (lnext x))) (R.sound.nb_live hl hs)).1 ?_, ?_, dest_lnext _⟩
  · rw [apex_lnext, e1, dest_lnext]; exact R.apex hx
  · rw [org_lnext, e2, org_lnext]

/-- The previous triangle around `v`. -/
theorem Ring.prev {x : TEdge} (hx : x ∈ L) (hs : m.nb (lprev x) ≠ space) :
    lprev (m.nb (lprev x)) ∈ L ∧ m.nb (lnext (lprev (m.nb (lprev x)))) = lprev x := by
  have hl : live (lprev x).1 := R.sub x hx
  obtain ⟨e1, e2⟩ := R.sound.nb_ends hl hs
  refine ⟨(R.star (lprev (m.nb (lprev x))) (R.sound.nb_live hl hs)).1 ?_, ?_⟩
  · rw [apex_lprev, e2, org_lprev]; exact R.apex hx
  · rw [lnext_lprev, R.sound.nb_nb hl hs]

/-- If all edges opposite to `v` are locally Delaunay, all edges are. -/
theorem Ring.all (h : ∀ x ∈ L, m.LocallyDelaunay pos x) {x : TEdge} (hx : live x.1) :
    m.LocallyDelaunay pos x := by
  have prev : ∀ y ∈ L, m.LocallyDelaunay pos (lprev y) := by
    intro y hy
    have hl : live (lprev y).1 := R.sub y hy
    by_cases hs : m.nb (lprev y) = space
    · exact .inr (.inl hs)
    by_cases hsg : m.sg (lprev y) = noSub
    swap
    · exact .inl hsg
    obtain ⟨w1, w2⟩ := R.prev hy hs
    have hsn : m.sg (lnext (lprev (m.nb (lprev y)))) = noSub := by
      rw [lnext_lprev]; exact (R.sound.sg_nb hl hs).1 hsg
    have hns : m.nb (lnext (lprev (m.nb (lprev y)))) ≠ space := by
      rw [w2]; exact R.sound.ne_space hl
    obtain ⟨-, j⟩ := R.join _ w1 hns hsn
    obtain ⟨-, n2, -⟩ := R.next w1 hns
    rw [w2, lnext_lprev] at j n2
    have A := R.area hy
    obtain ⟨c, c1, c2⟩ := exists_pow (a := pos (m.org y)) (b := pos (m.dest y)) (c := pos v) A.ne'
    have B := R.area w1
    rw [← n2, ccw_rot] at B
    have key := star_edge A B (R.thru y hy) (R.inside y hy).le (by rw [n2]; exact j) c1 c2
    have hb : circlePow c (pos (m.org (lprev y))) (pos (m.dest (lprev y))) = 0 := by
      rw [org_lprev, dest_lprev, R.apex hy, circlePow_base c2, circlePow_self]
    have hc : circlePow c (pos (m.org (lprev y))) (pos (m.apex (lprev y))) = 0 := by
      rw [org_lprev, apex_lprev, R.apex hy, circlePow_base c2, c1]
    rw [ld_pow R.ccw hl hb hc]
    intro _ _
    rw [org_lprev, R.apex hy, circlePow_base c2]
    have : m.apex (m.nb (lprev y)) = m.org (lprev (m.nb (lprev y))) := (org_lprev _).symm
    rw [this]
    exact key
  have corner : ∀ z : TEdge, live z.1 → ¬ m.Off v z.1 → m.LocallyDelaunay pos z := by
    intro z hz ho
    unfold TMesh.Off at ho
    push Not at ho
    obtain ⟨q, hq⟩ := ho
    have hy : (z.1, q) ∈ L := (R.star (z.1, q) hz).1 hq
    rcases edge_cases q (x := z) rfl with h' | h' | h'
    · rw [h']; exact h _ hy
    · rw [show z = lnext (z.1, q) from h']
      by_cases hs : m.nb (lnext (z.1, q)) = space
      · exact .inr (.inl hs)
      have := prev _ (R.next hy hs).1
      rw [lprev_lnext] at this
      exact (ld_symm R.sound R.ccw (e := lnext (z.1, q)) hz hs).1 this
    · rw [show z = lprev (z.1, q) from h']; exact prev _ hy
  by_cases ho : m.Off v x.1
  · by_cases hs : m.nb x = space
    · exact .inr (.inl hs)
    by_cases ho' : m.Off v (m.nb x).1
    · exact R.outer x hx ho hs ho'
    · exact (ld_symm R.sound R.ccw hx hs).1 (corner _ (R.sound.nb_live hx hs) ho')
  · exact corner x hx ho

end

/-! ## A flip -/

section
variable {m : TMesh K} {live : Nat → Prop} {pos : Nat → Vec K} {v : Nat} {L : List TEdge}
  {o : TEdge → Vec K} {e : TEdge} (R : Ring m live pos v L o) (he : e ∈ L)
  (hd : ¬ m.LocallyDelaunay pos e)
include R he hd

/-- The triangle beyond the flipped edge does not have the corner `v`. -/
theorem Ring.top_off : m.Off v (m.nb e).1 := by
  have hl := R.sub e he
  obtain ⟨hs, -, hf, -⟩ := ld_convex R.sound R.ccw hl hd
  obtain ⟨e1, e2⟩ := R.sound.nb_ends hl hs
  obtain ⟨a1, a2, a3⟩ := R.sound.apex_ne e hl
  rw [R.apex he] at hf a2 a3
  intro q hq
  rcases edge_cases (m.nb e).2 (x := ((m.nb e).1, q)) rfl with h' | h' | h'
  · rw [h'] at hq; exact hf hq.symm
  · rw [show ((m.nb e).1, q) = lnext (m.nb e) from h'] at hq
    have : m.org (m.nb e) = v := hq
    exact a2 (e1.symm.trans this)
  · rw [show ((m.nb e).1, q) = lprev (m.nb e) from h'] at hq
    have : m.dest (m.nb e) = v := hq
    exact a3 (e2.symm.trans this).symm

theorem Ring.other {x : TEdge} (hx : x ∈ L) (hxe : x ≠ e) : x.1 ≠ e.1 ∧ x.1 ≠ (m.nb e).1 := by
  refine ⟨fun h => hxe (R.only he hx h), fun h => R.top_off he hd x.2 ?_⟩
  rw [← h]; exact R.apex hx

/-- The neighbours of the other edges opposite to `v` are not touched. -/
theorem Ring.other_nb {x : TEdge} (hx : x ∈ L) (hxe : x ≠ e) (hs : m.nb x ≠ space) :
    (m.nb x).1 ≠ e.1 ∧ (m.nb x).1 ≠ (m.nb e).1 := by
  have hl := R.sub x hx
  have hle := R.sub e he
  obtain ⟨hse, -, hf, -, h5, h6⟩ := ld_convex R.sound R.ccw hle hd
  obtain ⟨e1, e2⟩ := R.sound.nb_ends hl hs
  obtain ⟨t1, t2⟩ := R.sound.nb_ends hle hse
  obtain ⟨a1, a2, a3⟩ := R.sound.apex_ne x hl
  have A := R.area hx
  rw [R.apex hx] at a2 a3
  rw [R.apex he] at h5 h6
  constructor
  · intro h
    rcases edge_cases e.2 h with h' | h' | h'
    · have h' : m.nb x = e := h'
      have : m.nb e = x := by rw [← h', R.sound.nb_nb hl hs]
      exact (R.other he hd hx hxe).2 (by rw [this])
    · rw [show m.nb x = lnext e from h', dest_lnext, R.apex he] at e2
      exact a3 e2
    · rw [show m.nb x = lprev e from h', org_lprev, R.apex he] at e1
      exact a2 e1.symm
  · intro h
    rcases edge_cases (m.nb e).2 h with h' | h' | h'
    · exact hxe (R.sound.nb_inj hl hle h' hs)
    · rw [show m.nb x = lnext (m.nb e) from h'] at e1 e2
      rw [org_lnext, t2] at e1
      rw [dest_lnext] at e2
      rw [← e1, ← e2, ccw_swap, ccw_rot, ccw_rot] at A
      linarith
    · rw [show m.nb x = lprev (m.nb e) from h'] at e1 e2
      rw [org_lprev] at e1
      rw [dest_lprev, t1] at e2
      rw [← e1, ← e2, ccw_anti] at A
      linarith

/-- The neighbours across the other edges at `v`. -/
theorem Ring.other_next {x : TEdge} (hx : x ∈ L) (hs : m.nb (lnext x) ≠ space) :
    m.nb (lnext x) = lprev e ∨ ((m.nb (lnext x)).1 ≠ e.1 ∧ (m.nb (lnext x)).1 ≠ (m.nb e).1) := by
  obtain ⟨n1, -, -⟩ := R.next hx hs
  by_cases h : lnext (m.nb (lnext x)) = e
  · left
    rw [← h, lprev_lnext]
  · right
    exact R.other (x := lnext (m.nb (lnext x))) he hd n1 h

end

/-- What a flip leaves alone, and the two new edges opposite to `v`. -/
theorem flip_view {m : TMesh K} {live : Nat → Prop} {e : TEdge} (S : m.Sound live) (he : live e.1)
    (hs : m.nb e ≠ space) (hseg : m.sg e = noSub) (hf : m.apex e ≠ m.apex (m.nb e)) :
    (∀ x : TEdge, x.1 ≠ e.1 → x.1 ≠ (m.nb e).1 → (m.flip e).apex x = m.apex x ∧
      (m.flip e).org x = m.org x ∧ (m.flip e).dest x = m.dest x) ∧
    (∀ x : TEdge, live x.1 → x.1 ≠ e.1 → x.1 ≠ (m.nb e).1 → (m.flip e).sg x = m.sg x) ∧
    (∀ x : TEdge, live x.1 → x.1 ≠ e.1 → x.1 ≠ (m.nb e).1 → (m.nb x).1 ≠ e.1 → (m.nb x).1 ≠ (m.nb e).1 →
      (m.flip e).nb x = m.nb x) ∧
    ((m.flip e).org (lprev e) = m.org e ∧ (m.flip e).dest (lprev e) = m.apex (m.nb e) ∧
      (m.flip e).apex (lprev e) = m.apex e) ∧
    ((m.flip e).org (lnext (m.nb e)) = m.apex (m.nb e) ∧ (m.flip e).dest (lnext (m.nb e)) = m.dest e ∧
      (m.flip e).apex (lnext (m.nb e)) = m.apex e) := by
  obtain ⟨c1, c2, c3⟩ := flip_triangles S he hs
  obtain ⟨o1, -, -, -, -⟩ := flip_outside S he hs hseg hf
  unfold TMesh.corners at c1 c2 c3
  simp only [Prod.mk.injEq] at c1 c2 c3
  refine ⟨fun x h1 h2 => ⟨(c3 x h1 h2).2.2, (c3 x h1 h2).1, (c3 x h1 h2).2.1⟩,
    fun x hx h1 h2 => (o1 x hx h1 h2).1, fun x hx h1 h2 k1 k2 => (o1 x hx h1 h2).2.1 k1 k2,
    ⟨?_, ?_, ?_⟩, ⟨?_, ?_, ?_⟩⟩
  · rw [org_lprev]; exact c1.2.2
  · rw [dest_lprev]; exact c1.1
  · rw [apex_lprev]; exact c1.2.1
  · rw [org_lnext]; exact c2.2.1
  · rw [dest_lnext]; exact c2.2.2
  · rw [apex_lnext]; exact c2.1

/-- Flipping an edge opposite to `v` adds one triangle at `v`. -/
theorem Ring.flip {m : TMesh K} {live : Nat → Prop} {pos : Nat → Vec K} {v : Nat} {zs ys : List TEdge}
    {o : TEdge → Vec K} {e : TEdge} (R : Ring m live pos v (zs ++ e :: ys) o)
    (hd : ¬ m.LocallyDelaunay pos e) :
    ∃ o', Ring (m.flip e) live pos v (zs ++ lprev e :: lnext (m.nb e) :: ys) o' := by
  have heL : e ∈ zs ++ e :: ys := by simp
  have hl := R.sub e heL
  obtain ⟨hs, hseg, hf, hin, h5, h6⟩ := ld_convex R.sound R.ccw hl hd
  obtain ⟨S', C', -, -⟩ := delaunay_flip R.sound R.ccw hl hd
  obtain ⟨F1, F2, F3, ⟨A1, A2, A3⟩, B1, B2, B3⟩ := flip_view R.sound hl hs hseg hf
  obtain ⟨k1, k2, k3, k4⟩ := flip_casing R.sound hl hs hseg hf
  obtain ⟨o1, n1, n2, -, -⟩ := flip_outside R.sound hl hs hseg hf
  have hlt := R.sound.nb_live hl hs
  have hne := R.sound.nb_ne hl
  obtain ⟨t1, t2⟩ := R.sound.nb_ends hl hs
  have hap := R.apex heL
  rw [hap] at h5 h6 hin A3 B3
  have hnd := R.nodup
  rw [List.nodup_append] at hnd
  obtain ⟨-, hnd2, hnd3⟩ := hnd
  have eys : e ∉ ys := (List.nodup_cons.1 hnd2).1
  have ezs : e ∉ zs := fun h => hnd3 e h e (by simp) rfl
  have mem : ∀ x, x ∈ zs ++ e :: ys ↔ x = e ∨ (x ∈ zs ∨ x ∈ ys) := by
    intro x; simp only [List.mem_append, List.mem_cons]; tauto
  have oth : ∀ x, x ∈ zs ∨ x ∈ ys → x ∈ zs ++ e :: ys ∧ x ≠ e := by
    intro x hx
    refine ⟨(mem x).2 (.inr hx), ?_⟩
    rintro rfl
    rcases hx with h | h
    · exact ezs h
    · exact eys h
  have mem' : ∀ x, x ∈ zs ++ lprev e :: lnext (m.nb e) :: ys ↔
      x = lprev e ∨ x = lnext (m.nb e) ∨ (x ∈ zs ∨ x ∈ ys) := by
    intro x; simp only [List.mem_append, List.mem_cons]; tauto
  -- the other triangles at `v`
  have T : ∀ x, x ∈ zs ∨ x ∈ ys → x.1 ≠ e.1 ∧ x.1 ≠ (m.nb e).1 :=
    fun x hx => R.other heL hd (oth x hx).1 (oth x hx).2
  have neA : ∀ x, x ∈ zs ∨ x ∈ ys → x ≠ lprev e := fun x hx h => (T x hx).1 (by rw [h]; rfl)
  have neB : ∀ x, x ∈ zs ∨ x ∈ ys → x ≠ lnext (m.nb e) := fun x hx h => (T x hx).2 (by rw [h]; rfl)
  have AB : lprev e ≠ lnext (m.nb e) := ne_of_tri (x := lprev e) (y := lnext (m.nb e)) hne.symm
  -- areas
  have Ae := R.area heL
  have At := R.ccw.area hlt
  rw [t1, t2] at At
  have cone1 : 0 < Nikfemm.ccw (pos v) (pos (m.org e)) (pos (m.apex (m.nb e))) := h5
  have cone2 : 0 < Nikfemm.ccw (pos v) (pos (m.apex (m.nb e))) (pos (m.dest e)) := by
    rw [ccw_rot, ccw_rot]; exact h6
  have cone3 : 0 < Nikfemm.ccw (pos v) (pos (m.org e)) (pos (m.dest e)) := by
    rw [ccw_rot]; exact Ae
  -- the circle of the triangle beyond
  obtain ⟨c, c1, c2⟩ := exists_pow (a := pos (m.org e)) (b := pos (m.apex (m.nb e))) (c := pos (m.dest e))
    (by rw [← ccw_rot]; exact At.ne')
  have c3 : circlePow c (pos (m.org e)) (pos v) < 0 := by
    have i1 := incircle_pow c1 c2 (pos v)
    have i2 : incircle (pos (m.org e)) (pos (m.apex (m.nb e))) (pos (m.dest e)) (pos v) =
        incircle (pos (m.org e)) (pos (m.dest e)) (pos v) (pos (m.apex (m.nb e))) := by
      rw [incircle_turn]
    rw [i2] at i1
    have At' : 0 < Nikfemm.ccw (pos (m.org e)) (pos (m.apex (m.nb e))) (pos (m.dest e)) := by
      rw [← ccw_rot]; exact At
    by_contra hc
    push Not at hc
    have := mul_nonneg At'.le hc
    linarith
  let o' : TEdge → Vec K := fun x => if x = lprev e ∨ x = lnext (m.nb e) then c else o x
  have oA : o' (lprev e) = c := if_pos (.inl rfl)
  have oB : o' (lnext (m.nb e)) = c := if_pos (.inr rfl)
  have oX : ∀ x, x ∈ zs ∨ x ∈ ys → o' x = o x := fun x hx =>
    if_neg (by rintro (h | h); exacts [neA x hx h, neB x hx h])
  -- the edges beyond the new edges
  have topoff := R.top_off heL hd
  have beyondTop : ∀ y : TEdge, y = lnext (m.nb e) ∨ y = lprev (m.nb e) → m.nb y ≠ space →
      m.LocallyDelaunay pos y := by
    intro y hy hys
    have hyl : live y.1 := by rcases hy with rfl | rfl <;> exact hlt
    have hyo : m.Off v y.1 := by rcases hy with rfl | rfl <;> exact topoff
    refine R.outer y hyl hyo hys (R.off (R.sound.nb_live hyl hys) ?_)
    intro x hx hxt
    have hne2 : (m.nb y).1 ≠ e.1 := by
      rcases hy with rfl | rfl
      · exact (R.sound.casing hl hs hf (by simp)).1
      · exact (R.sound.casing hl hs hf (by simp)).1
    have hxe : x ≠ e := by rintro rfl; exact hne2 hxt.symm
    -- `x` would have `y` as neighbour
    obtain ⟨y1, y2⟩ := R.sound.nb_ends hyl hys
    have hxa := R.apex hx
    have hyx : x = m.nb y := by
      rcases edge_cases x.2 (x := m.nb y) hxt.symm with h' | h' | h'
      · exact h'.symm
      · exfalso
        have h' : m.nb y = lnext x := h'
        rw [h', dest_lnext, hxa] at y2
        exact hyo (lnext y).2 y2.symm
      · exfalso
        have h' : m.nb y = lprev x := h'
        rw [h', org_lprev, hxa] at y1
        exact hyo (lprev y).2 y1.symm
    have hxn : m.nb x = y := by rw [hyx, R.sound.nb_nb hyl hys]
    have hxs : m.nb x ≠ space := by rw [hxn]; exact R.sound.ne_space hyl
    have := (R.other_nb heL hd hx hxe hxs).2
    rw [hxn] at this
    rcases hy with rfl | rfl <;> exact this rfl
  refine ⟨o', ⟨S', C', ?_, ?_, ?_, ?_, ?_, ?_, ?_, ?_, ?_⟩⟩
  · -- sub
    intro x hx
    rcases (mem' x).1 hx with rfl | rfl | hx
    · exact hl
    · exact hlt
    · exact R.sub x (oth x hx).1
  · -- star
    intro x hx
    by_cases x1 : x.1 = e.1
    · constructor
      · intro h
        have := apex_inj S' (x := lprev e) hl x1 (h.trans A3.symm)
        exact (mem' x).2 (.inl this)
      · intro h
        rcases (mem' x).1 h with rfl | rfl | h
        · exact A3
        · exact B3
        · exact absurd x1 (T x h).1
    by_cases x2 : x.1 = (m.nb e).1
    · constructor
      · intro h
        have := apex_inj S' (x := lnext (m.nb e)) hlt x2 (h.trans B3.symm)
        exact (mem' x).2 (.inr (.inl this))
      · intro h
        rcases (mem' x).1 h with rfl | rfl | h
        · exact A3
        · exact B3
        · exact absurd x2 (T x h).2
    rw [(F1 x x1 x2).1, R.star x hx, mem, mem']
    constructor
    · rintro (rfl | h)
      · exact absurd rfl x1
      · exact .inr (.inr h)
    · rintro (rfl | rfl | h)
      · exact absurd rfl x1
      · exact absurd rfl x2
      · exact .inr h
  · -- apart
    have P := R.apart
    rw [List.pairwise_append, List.pairwise_cons] at P
    obtain ⟨p1, ⟨p2, p3⟩, p4⟩ := P
    have old : ∀ x y, x ∈ zs ∨ x ∈ ys → y ∈ zs ∨ y ∈ ys → m.Aside pos v x y →
        (m.flip e).Aside pos v x y := by
      intro x y hx hy h
      unfold TMesh.Aside at *
      rw [(F1 x (T x hx).1 (T x hx).2).2.1, (F1 x (T x hx).1 (T x hx).2).2.2,
        (F1 y (T y hy).1 (T y hy).2).2.1, (F1 y (T y hy).1 (T y hy).2).2.2]
      exact h
    have toA : ∀ x, x ∈ zs ∨ x ∈ ys → m.Aside pos v x e → (m.flip e).Aside pos v x (lprev e) := by
      intro x hx h s hc
      rw [(F1 x (T x hx).1 (T x hx).2).2.1, (F1 x (T x hx).1 (T x hx).2).2.2, A1, A2] at hc
      exact h s ⟨hc.1, hc.2.left cone1 cone2 cone3⟩
    have toB : ∀ x, x ∈ zs ∨ x ∈ ys → m.Aside pos v x e → (m.flip e).Aside pos v x (lnext (m.nb e)) := by
      intro x hx h s hc
      rw [(F1 x (T x hx).1 (T x hx).2).2.1, (F1 x (T x hx).1 (T x hx).2).2.2, B1, B2] at hc
      exact h s ⟨hc.1, hc.2.right cone1 cone2 cone3⟩
    have sw : ∀ (m : TMesh K) x y, m.Aside pos v x y → m.Aside pos v y x := by
      intro m x y h s hc; exact h s ⟨hc.2, hc.1⟩
    rw [List.pairwise_append, List.pairwise_cons, List.pairwise_cons]
    refine ⟨?_, ⟨?_, ?_, ?_⟩, ?_⟩
    · exact p1.imp_of_mem fun hx hy h => old _ _ (.inl hx) (.inl hy) h
    · intro y hy
      rcases List.mem_cons.1 hy with rfl | hy
      · intro s hc
        rw [A1, A2, B1, B2] at hc
        exact hc.1.not_both hc.2
      · exact sw _ _ _ (toA y (.inr hy) (sw _ _ _ (p2 y hy)))
    · intro y hy
      exact sw _ _ _ (toB y (.inr hy) (sw _ _ _ (p2 y hy)))
    · exact p3.imp_of_mem fun hx hy h => old _ _ (.inr hx) (.inr hy) h
    · intro x hx y hy
      have hxe := p4 x hx e (by simp)
      rcases List.mem_cons.1 hy with rfl | hy
      · exact toA x (.inl hx) hxe
      rcases List.mem_cons.1 hy with rfl | hy
      · exact toB x (.inl hx) hxe
      · exact old _ _ (.inl hx) (.inr hy) (p4 x hx y (List.mem_cons_of_mem _ hy))
  · -- chain
    have P := R.chain
    rw [List.isChain_append, List.isChain_cons] at P
    obtain ⟨p1, ⟨p2, p3⟩, p4⟩ := P
    have old : ∀ x y, x ∈ zs ∨ x ∈ ys → y ∈ zs ∨ y ∈ ys → m.Follows x y → (m.flip e).Follows x y := by
      intro x y hx hy h
      obtain ⟨w1, w2⟩ := T x hx
      obtain ⟨w3, w4⟩ := T y hy
      have hn : (m.nb (lnext x)).1 = y.1 := by rw [← h.2]; rfl
      have : (m.flip e).nb (lnext x) = m.nb (lnext x) :=
        F3 (lnext x) (R.sub x (oth x hx).1) w1 w2 (by rw [hn]; exact w3) (by rw [hn]; exact w4)
      unfold TMesh.Follows
      rw [this]
      exact h
    have toA : ∀ x, x ∈ zs ∨ x ∈ ys → m.Follows x e → (m.flip e).Follows x (lprev e) := by
      intro x hx h
      obtain ⟨w1, w2⟩ := T x hx
      have hn : m.nb (lnext x) = lprev e := by rw [← h.2, lprev_lnext]
      have := (o1 (lnext x) (R.sub x (oth x hx).1) w1 w2).2.2.2.1 hn
      unfold TMesh.Follows
      rw [this]
      exact ⟨R.sound.ne_space (x := lnext e) hl, lnext_lnext e⟩
    have fromB : ∀ y, m.Follows e y → (m.flip e).Follows (lnext (m.nb e)) y := by
      intro y h
      unfold TMesh.Follows
      rw [lnext_lnext, k1.nb]
      exact h
    rw [List.isChain_append, List.isChain_cons, List.isChain_cons]
    refine ⟨?_, ⟨?_, ?_, ?_⟩, ?_⟩
    · exact p1.imp_of_mem_imp fun x y hx hy h => old x y (.inl hx) (.inl hy) h
    · rintro y ⟨⟩
      unfold TMesh.Follows
      rw [lnext_lprev, n1]
      exact ⟨hs, rfl⟩
    · intro y hy
      exact fromB y (p2 y hy)
    · exact p3.imp_of_mem_imp fun x y hx hy h => old x y (.inr hx) (.inr hy) h
    · intro x hx
      rintro y ⟨⟩
      exact toA x (.inl (List.mem_of_getLast? hx)) (p4 x hx e rfl)
  · -- thru
    intro x hx
    rcases (mem' x).1 hx with rfl | rfl | hx
    · rw [oA, A1, A2]; exact c1
    · rw [oB, B1, B2, circlePow_base c1]; exact c2
    · rw [oX x hx, (F1 x (T x hx).1 (T x hx).2).2.1, (F1 x (T x hx).1 (T x hx).2).2.2]
      exact R.thru x (oth x hx).1
  · -- inside
    intro x hx
    rcases (mem' x).1 hx with rfl | rfl | hx
    · rw [oA, A1]; exact c3
    · rw [oB, B1, circlePow_base c1]; exact c3
    · rw [oX x hx, (F1 x (T x hx).1 (T x hx).2).2.1]
      exact R.inside x (oth x hx).1
  · -- beyond
    intro x hx hxs hxg
    rcases (mem' x).1 hx with rfl | rfl | hx
    · rw [k3.nb] at hxs ⊢
      rw [k3.sg] at hxg
      obtain ⟨w1, w2⟩ := R.sound.casing hl hs hf (x := lnext (m.nb e)) (by simp)
      rw [oA, A1, (F1 _ w1 w2).1]
      have := (ld_pow (o := c) R.ccw (e := lnext (m.nb e)) hlt
        (by rw [org_lnext, dest_lnext, t2]; exact c1) (by rw [org_lnext, apex_lnext, t2, t1]; exact c2)).1
        (beyondTop _ (.inl rfl) hxs) hxg hxs
      rwa [org_lnext, t2] at this
    · rw [k4.nb] at hxs ⊢
      rw [k4.sg] at hxg
      obtain ⟨w1, w2⟩ := R.sound.casing hl hs hf (x := lprev (m.nb e)) (by simp)
      rw [oB, B1, (F1 _ w1 w2).1]
      have := (ld_pow (o := c) R.ccw (e := lprev (m.nb e)) hlt
        (by rw [org_lprev, dest_lprev, t1, circlePow_base c1]; exact c2)
        (by rw [org_lprev, apex_lprev, t2, circlePow_base c1]; exact circlePow_self _ _)).1
        (beyondTop _ (.inr rfl) hxs) hxg hxs
      rwa [org_lprev] at this
    · obtain ⟨q1, q2⟩ := T x hx
      have hxl := R.sub x (oth x hx).1
      have hxn : m.nb x ≠ space := by
        intro h0
        apply hxs
        rw [F3 x hxl q1 q2, h0]
        · rw [h0]; intro hc; exact R.sound.out (by rw [show (0 : Nat) = e.1 from hc]; exact hl)
        · rw [h0]; intro hc; exact R.sound.out (by rw [show (0 : Nat) = (m.nb e).1 from hc]; exact hlt)
      obtain ⟨w1, w2⟩ := R.other_nb heL hd (oth x hx).1 (oth x hx).2 hxn
      rw [F3 x hxl q1 q2 w1 w2, oX x hx, (F1 x q1 q2).2.1, (F1 _ w1 w2).1]
      rw [F2 x hxl q1 q2] at hxg
      exact R.beyond x (oth x hx).1 hxn hxg
  · -- join
    intro x hx hxs hxg
    rcases (mem' x).1 hx with rfl | rfl | hx
    · rw [lnext_lprev, n1, oA, oB, A1, A2]
      have ha : (m.flip e).apex (m.nb e) = m.dest e := by
        have := B2; rwa [dest_lnext] at this
      rw [ha, circlePow_base c1, circlePow_base c1, circlePow_self, c2]
      exact ⟨le_refl _, le_refl _⟩
    · rw [lnext_lnext] at hxs hxg ⊢
      rw [k1.nb] at hxs ⊢
      rw [k1.sg] at hxg
      obtain ⟨y1, y2, y3⟩ := R.next heL hxs
      obtain ⟨j1, j2⟩ := R.join e heL hxs hxg
      have hye : lnext (m.nb (lnext e)) ≠ e := by
        intro h
        have := congrArg Prod.fst h
        exact R.sound.nb_ne (x := lnext e) hl this
      have hy : lnext (m.nb (lnext e)) ∈ zs ∨ lnext (m.nb (lnext e)) ∈ ys := by
        rcases (mem _).1 y1 with h | h
        · exact absurd h hye
        · exact h
      obtain ⟨q1, q2⟩ := T _ hy
      have ha : (m.flip e).apex (m.nb (lnext e)) = m.apex (m.nb (lnext e)) :=
        (F1 (m.nb (lnext e)) q1 q2).1
      rw [oB, oX _ hy, B1, B2, ha]
      have area := R.area y1
      rw [y2, y3] at area
      have th := R.thru _ y1
      rw [y2, y3] at th
      have ins := R.inside _ y1
      rw [y2] at ins
      have tl := R.thru e heL
      have key := star_flip' (ow := o (lnext (m.nb (lnext e)))) (oe := o e) (on := c) (p := pos (m.dest e))
        (r := pos (m.apex (m.nb (lnext e)))) (v := pos v) (q := pos (m.org e)) (d := pos (m.apex (m.nb e)))
        area (by rw [← ccw_rot]; exact Ae) At h6 th ins.le j2
        (by rw [circlePow_base tl]; exact circlePow_self _ _) j1
        (by rw [circlePow_base tl]; exact R.beyond e heL hs hseg)
        (by rw [circlePow_base c2]; exact circlePow_self _ _)
        (by rw [circlePow_base c2]; exact c1) (by rw [circlePow_base c2]; exact c3.le)
      exact key
    · obtain ⟨hxL, hxe⟩ := oth x hx
      obtain ⟨q1, q2⟩ := T x hx
      have hxl := R.sub x hxL
      have hsx : (m.flip e).sg (lnext x) = m.sg (lnext x) := F2 (lnext x) hxl q1 q2
      rw [hsx] at hxg
      have hxn : m.nb (lnext x) ≠ space := by
        intro h0
        apply hxs
        rw [F3 (lnext x) hxl q1 q2, h0]
        · rw [h0]; intro hc; exact R.sound.out (by rw [show (0 : Nat) = e.1 from hc]; exact hl)
        · rw [h0]; intro hc; exact R.sound.out (by rw [show (0 : Nat) = (m.nb e).1 from hc]; exact hlt)
      obtain ⟨j1, j2⟩ := R.join x hxL hxn hxg
      obtain ⟨y1, y2, y3⟩ := R.next hxL hxn
      rw [oX x hx, (F1 x q1 q2).2.1, (F1 x q1 q2).2.2]
      rcases R.other_next heL hd hxL hxn with hn | ⟨w1, w2⟩
      · have hn' : (m.flip e).nb (lnext x) = lnext e := (o1 (lnext x) hxl q1 q2).2.2.2.1 hn
        rw [hn', lnext_lnext, oA, apex_lnext]
        have hf' : (m.flip e).org e = m.apex (m.nb e) := by
          have := A2; rwa [dest_lprev] at this
        rw [hn, lnext_lprev] at j2 y2 y3
        rw [hn, apex_lprev] at j1
        rw [hf', ← y2]
        rw [← y2] at j1 j2
        have area := R.area hxL
        rw [← y2, ccw_rot] at area
        have th := R.thru x hxL
        rw [← y2] at th
        have ins := R.inside x hxL
        have key := star_flip (ow := o x) (oe := o e) (on := c) (p := pos (m.org e))
          (r := pos (m.org x)) (v := pos v) (q := pos (m.dest e)) (d := pos (m.apex (m.nb e)))
          area Ae (by rw [← ccw_rot]; exact At) (by rw [← ccw_rot]; exact h5)
          (by rw [circlePow_base th]; exact circlePow_self _ _)
          (by rw [circlePow_base th]; exact ins.le) j1 (R.thru e heL) j2 (R.beyond e heL hs hseg) c2 c1 c3.le
        exact ⟨key.2, key.1⟩
      · have hn' : (m.flip e).nb (lnext x) = m.nb (lnext x) := F3 (lnext x) hxl q1 q2 w1 w2
        have hye : lnext (m.nb (lnext x)) ≠ e := by
          rintro h
          exact w1 (by rw [← h]; rfl)
        have hy : lnext (m.nb (lnext x)) ∈ zs ∨ lnext (m.nb (lnext x)) ∈ ys := by
          rcases (mem _).1 y1 with h | h
          · exact absurd h hye
          · exact h
        rw [hn', oX _ hy, (F1 _ w1 w2).1]
        exact ⟨j1, j2⟩
  · -- outer
    intro x hx hxo hxs hxo'
    have away : ∀ t : Nat, (m.flip e).Off v t → t ≠ e.1 ∧ t ≠ (m.nb e).1 := by
      intro t ht
      constructor
      · rintro rfl; exact ht (lprev e).2 A3
      · rintro rfl; exact ht (lnext (m.nb e)).2 B3
    have back : ∀ t : Nat, (m.flip e).Off v t → m.Off v t := by
      intro t ht q
      rw [← (F1 (t, q) (away t ht).1 (away t ht).2).1]
      exact ht q
    obtain ⟨x1, x2⟩ := away _ hxo
    obtain ⟨-, g1, g2, g3, g4⟩ := (o1 x hx x1 x2).2
    have w : (m.nb x).1 ≠ e.1 ∧ (m.nb x).1 ≠ (m.nb e).1 := by
      obtain ⟨z1, z2⟩ := away _ hxo'
      constructor
      · intro h
        rcases edge_cases e.2 h with h' | h' | h'
        · have h' : m.nb x = e := h'
          have : m.nb e = x := by rw [← h', R.sound.nb_nb hx (h' ▸ R.sound.ne_space hl)]
          exact x2 (by rw [this])
        · rw [g1 h'] at z2; exact z2 rfl
        · rw [g2 h'] at z1; exact z1 rfl
      · intro h
        rcases edge_cases (m.nb e).2 h with h' | h' | h'
        · have h' : m.nb x = m.nb e := h'
          exact x1 (by rw [R.sound.nb_inj hx hl h' (h' ▸ hs)])
        · rw [g3 h'] at z1; exact z1 rfl
        · rw [g4 h'] at z2; exact z2 rfl
    have hn := F3 x hx x1 x2 w.1 w.2
    rw [hn] at hxs hxo'
    have := R.outer x hx (back _ hxo) hxs (back _ hxo')
    unfold TMesh.LocallyDelaunay at *
    rw [hn, F2 x hx x1 x2, (F1 x x1 x2).1, (F1 x x1 x2).2.1, (F1 x x1 x2).2.2, (F1 _ w.1 w.2).1]
    exact this

end Nikfemm
