import Verif.Model.Constrained
import Verif.Lemmas.Fixup
import Verif.Lemmas.ScoutStep
import Verif.Props.Winding

/-!
# Forcing a segment through one edge: lemmas
-/

set_option linter.unusedSectionVars false

namespace Nikfemm
variable {K : Type} [Field K] [LinearOrder K] [IsStrictOrderedRing K]

/-- Circles through `a` and `b`. -/
theorem incircle_pencil (a b c d o : Vec K) :
    incircle a b d o * ccw a b c = incircle a b c o * ccw a b d - incircle a b c d * ccw a b o := by
  unfold incircle ccw; ring

theorem incircle_beyond {a b c d o : Vec K} (hc : 0 < ccw a b c) (hd : 0 < ccw a b d) (ho : ccw a b o < 0)
    (h1 : incircle a b c d ≤ 0) (h2 : incircle a b c o ≤ 0) : incircle a b d o ≤ 0 := by
  have e := incircle_pencil a b c d o
  have q1 : incircle a b c o * ccw a b d ≤ 0 := mul_nonpos_of_nonpos_of_nonneg h2 hd.le
  have q2 : 0 ≤ incircle a b c d * ccw a b o := mul_nonneg_of_nonpos_of_nonpos h1 ho.le
  by_contra h
  push Not at h
  have := mul_pos h hc
  linarith

section
variable {m : TMesh K} {live : Nat → Prop} {pos : Nat → Vec K} {e : TEdge} (S : m.Sound live) (C : m.Ccw live pos)
  (D : m.Delaunay live pos) (he : live e.1) (hs : m.nb e ≠ space) (hseg : m.sg e = noSub)
  (h1 : 0 < ccw (pos (m.apex e)) (pos (m.org e)) (pos (m.apex (m.nb e))))
  (h2 : 0 < ccw (pos (m.dest e)) (pos (m.apex e)) (pos (m.apex (m.nb e))))
include S C D he hs hseg h1 h2

/-- If an edge of a Delaunay triangulation is flipped, the other edges stay locally Delaunay. -/
theorem flip_others {x : TEdge} (hx : live x.1) (x1 : x ≠ e) (x2 : x ≠ m.nb e) :
    (m.flip e).LocallyDelaunay pos x := by
  have hf := C.apex_ne S he hs
  have hl := S.nb_live he hs
  have S' := flip_sound S he hs hseg hf
  have C' := flip_ccw S C he hs h1 h2
  obtain ⟨F1, F2, F3, ⟨A1, A2, A3⟩, B1, B2, B3⟩ := flip_view S he hs hseg hf
  obtain ⟨E1, E2, E3, E4⟩ := flip_casing S he hs hseg hf
  obtain ⟨n1, n2⟩ := S.nb_ends he hs
  have cas : ∀ z y : TEdge, live z.1 → live y.1 → m.SameEdge (m.flip e) z y →
      (m.nb z).1 ≠ e.1 ∧ (m.nb z).1 ≠ (m.nb e).1 →
      0 < ccw (pos (m.org z)) (pos (m.dest z)) (pos ((m.flip e).apex y)) →
      incircle (pos (m.org z)) (pos (m.dest z)) (pos (m.apex z)) (pos ((m.flip e).apex y)) ≤ 0 →
      (m.flip e).LocallyDelaunay pos y := by
    intro z y hz hy E hn g1 g2
    rw [ld_iff C' hy, E.org, E.dest, E.nb, E.sg, (F1 _ hn.1 hn.2).1]
    intro k1 k2
    exact incircle_beyond (C.area hz) g1 (C.far S hz k2) g2 ((ld_iff C hz).1 (D z hz) k1 k2)
  have he0 := (ld_iff C he).1 (D e he) hseg hs
  have a1 : (m.flip e).apex (lnext e) = m.apex (m.nb e) := by
    have : lnext e = lprev (lprev e) := (lprev_lprev e).symm
    rw [this, apex_lprev]; exact A2
  have a4 : (m.flip e).apex (lprev (m.nb e)) = m.apex (m.nb e) := by
    rw [← lnext_lnext, apex_lnext]; exact B1
  have L1 : (m.flip e).LocallyDelaunay pos (lnext e) := by
    refine cas (lprev e) (lnext e) he he E2 (S.casing he hs hf (.inr (.inl rfl))) ?_ ?_
    · rw [a1, org_lprev, dest_lprev]; exact h1
    · rw [a1, org_lprev, dest_lprev, apex_lprev]
      refine le_of_eq_of_le ?_ he0
      unfold incircle; ring
  have L2 : (m.flip e).LocallyDelaunay pos (lprev e) := by
    refine cas (lnext (m.nb e)) (lprev e) hl he E3 (S.casing he hs hf (.inr (.inr (.inl rfl)))) ?_ ?_
    · rw [A3, org_lnext, dest_lnext, n2]
      refine lt_of_lt_of_eq h1 ?_
      unfold ccw; ring
    · rw [A3, org_lnext, dest_lnext, apex_lnext, n1, n2]
      refine le_of_eq_of_le ?_ he0
      unfold incircle; ring
  have L3 : (m.flip e).LocallyDelaunay pos (lnext (m.nb e)) := by
    refine cas (lprev (m.nb e)) (lnext (m.nb e)) hl hl E4 (S.casing he hs hf (.inr (.inr (.inr rfl)))) ?_ ?_
    · rw [B3, org_lprev, dest_lprev, n1]
      refine lt_of_lt_of_eq h2 ?_
      unfold ccw; ring
    · rw [B3, org_lprev, dest_lprev, apex_lprev, n1, n2]
      refine le_of_eq_of_le ?_ he0
      unfold incircle; ring
  have L4 : (m.flip e).LocallyDelaunay pos (lprev (m.nb e)) := by
    refine cas (lnext e) (lprev (m.nb e)) he hl E1 (S.casing he hs hf (.inl rfl)) ?_ ?_
    · rw [a4, org_lnext, dest_lnext]; exact h2
    · rw [a4, org_lnext, dest_lnext, apex_lnext]
      refine le_of_eq_of_le ?_ he0
      unfold incircle; ring
  have back : ∀ y z : TEdge, live y.1 → m.SameEdge (m.flip e) z y → live z.1 → m.nb x = z → m.nb x ≠ space →
      (m.flip e).LocallyDelaunay pos y → (m.flip e).LocallyDelaunay pos x := by
    intro y z hy E hz hq hns L
    have q : (m.flip e).nb y = x := by rw [E.nb, ← hq]; exact S.nb_nb hx hns
    have := (ld_symm S' C' hy (by rw [q]; exact S.ne_space hx)).2 L
    rwa [q] at this
  by_cases t1 : x.1 = e.1
  · rcases edge_cases e.2 t1 with h' | h' | h'
    · exact absurd h' x1
    · exact (show x = lnext e from h') ▸ L1
    · exact (show x = lprev e from h') ▸ L2
  by_cases t2 : x.1 = (m.nb e).1
  · rcases edge_cases (m.nb e).2 t2 with h' | h' | h'
    · exact absurd h' x2
    · exact (show x = lnext (m.nb e) from h') ▸ L3
    · exact (show x = lprev (m.nb e) from h') ▸ L4
  by_cases t3 : (m.nb x).1 = e.1
  · have hns : m.nb x ≠ space := fun hc => by rw [hc] at t3; exact S.out (show live (space).1 from t3 ▸ he)
    rcases edge_cases e.2 t3 with h' | h' | h'
    · have h' : m.nb x = e := h'
      have := S.nb_nb hx hns
      rw [h'] at this
      exact absurd (congrArg Prod.fst this).symm t2
    · exact back (lprev (m.nb e)) (lnext e) hl E1 he h' hns L4
    · exact back (lnext e) (lprev e) he E2 he h' hns L1
  by_cases t4 : (m.nb x).1 = (m.nb e).1
  · have hns : m.nb x ≠ space := fun hc => by rw [hc] at t4; exact S.out (show live (space).1 from t4 ▸ hl)
    rcases edge_cases (m.nb e).2 t4 with h' | h' | h'
    · have h' : m.nb x = m.nb e := h'
      exact absurd (S.nb_inj hx he h' hns) x1
    · exact back (lprev e) (lnext (m.nb e)) he E3 hl h' hns L2
    · exact back (lnext (m.nb e)) (lprev (m.nb e)) hl E4 hl h' hns L3
  rw [ld_iff C' hx, F3 x hx t1 t2 t3 t4, F2 x hx t1 t2, (F1 x t1 t2).1, (F1 x t1 t2).2.1, (F1 x t1 t2).2.2,
    (F1 _ t3 t4).1]
  exact (ld_iff C hx).1 (D x hx)

end

/-! ## A way across one edge -/

/-- The way from `o` to `p` crosses the edge from `d` to `a`; a point `f` of the line beyond the edge makes a convex
quadrilateral. -/
theorem cross_convex {o p d a f : Vec K} {r t : K} (r0 : 0 < r) (t0 : 0 < t) (t1 : t < 1)
    (hx : o.toward p r = d.toward a t) (hc : 0 < ccw d a o) (hf : 0 < ccw a d f) (hl : orient o p f = 0) :
    0 < ccw o d f ∧ 0 < ccw a o f := by
  simp only [Vec.toward, Vec.mk.injEq] at hx
  obtain ⟨x1, x2⟩ := hx
  have px : p.x = o.x + (d.x + t * (a.x - d.x) - o.x) / r := by field_simp; linarith
  have py : p.y = o.y + (d.y + t * (a.y - d.y) - o.y) / r := by field_simp; linarith
  have e1 : orient o p f * r = (d.x + t * (a.x - d.x) - o.x) * (f.y - o.y) - (d.y + t * (a.y - d.y) - o.y) * (f.x - o.x) := by
    unfold orient; rw [px, py]; field_simp; ring
  rw [hl, zero_mul] at e1
  -- `ccw o d f` and `ccw a o f` are in the proportion of `t` to `1 - t`, and their sum is positive
  have e2 : t * ccw a o f - (1 - t) * ccw o d f = 0 := by
    unfold ccw; linarith
  have e3 : ccw o d f + ccw a o f = ccw d a o + ccw a d f := by unfold ccw; ring
  have hsum : 0 < ccw o d f + ccw a o f := by rw [e3]; linarith
  have k1 : ccw o d f = t * (ccw o d f + ccw a o f) := by linear_combination -e2
  have k2 : ccw a o f = (1 - t) * (ccw o d f + ccw a o f) := by linear_combination e2
  exact ⟨by rw [k1]; exact mul_pos t0 hsum, by rw [k2]; exact mul_pos (by linarith) hsum⟩

/-- The end of a way that crosses an edge is beyond it. -/
theorem cross_beyond {o p d a : Vec K} {r t : K} (r0 : 0 < r) (r1 : r < 1)
    (hx : o.toward p r = d.toward a t) (hc : 0 < ccw d a o) : 0 < ccw a d p := by
  simp only [Vec.toward, Vec.mk.injEq] at hx
  obtain ⟨x1, x2⟩ := hx
  have px : p.x = o.x + (d.x + t * (a.x - d.x) - o.x) / r := by field_simp; linarith
  have py : p.y = o.y + (d.y + t * (a.y - d.y) - o.y) / r := by field_simp; linarith
  have : ccw a d p * r = (1 - r) * ccw d a o := by
    unfold ccw; rw [px, py]; field_simp; ring
  have : 0 < ccw a d p * r := by rw [this]; exact mul_pos (by linarith) hc
  exact pos_of_mul_pos_left this r0.le

section
variable {s : Skeleton K} {e : TEdge} (O : s.Ok) (he : e.1 ∈ s.tris) (hs : s.m.nb e ≠ space) (hseg : s.m.sg e = noSub)
  (h1 : 0 < ccw (s.pos (s.m.apex e)) (s.pos (s.m.org e)) (s.pos (s.m.apex (s.m.nb e))))
  (h2 : 0 < ccw (s.pos (s.m.dest e)) (s.pos (s.m.apex e)) (s.pos (s.m.apex (s.m.nb e)))) {k : Nat} (hk : k ≠ 0)
  (hu : ∀ x : TEdge, x.1 ∈ s.tris → ((s.m.flip e).sg x).1 ≠ k)
include O he hs hseg h1 h2 hk hu

/-- The flipped edge becomes a subsegment. -/
theorem flip_insertsubseg :
    let s' : Skeleton K := { s with m := (s.m.flip e).insertsubseg e k }
    s'.Ok ∧ s.After s' ∧ (∀ q, s'.OnSub q ↔ s.OnSub q ∨
      Vec.Between (s.pos (s.m.apex e)) (s.pos (s.m.apex (s.m.nb e))) q) := by
  have S := O.sound
  have C := O.ccw
  have hf := C.apex_ne S he hs
  have S1 := flip_sound S he hs hseg hf
  have C1 := flip_ccw S C he hs h1 h2
  have n1 : (s.m.flip e).nb e = s.m.nb e := (flip_outside S he hs hseg hf).2.1
  have D1 := fun (x : TEdge) (hx : x.1 ∈ s.tris) => flip_others S C O.delaunay he hs hseg h1 h2 (x := x) hx
  have K1 : Keeps (· ∈ s.tris) s.tris s.pos s.m (s.m.flip e) :=
    (Keeps.refl s.m).flip' (fun _ => Iff.rfl) S he hs hseg hf
  have ck : (s.m.flip e).checksegments = true := by
    have : (s.m.flip e).checksegments = s.m.checksegments := by
      obtain ⟨r1, r2, r3⟩ := rotate_rest s.m e (s.m.org e) (s.m.dest e) (s.m.apex e) (s.m.apex (s.m.nb e))
      exact r3
    rw [this]; exact O.chk
  obtain ⟨i1, i2, i3⟩ := insertsubseg_same (k := k) S1 he
  have hsb := fun (x : TEdge) (hx : x.1 ∈ s.tris) => insertsubseg_sub S1 he hk hu hx
  have org : ∀ x, ((s.m.flip e).insertsubseg e k).org x = (s.m.flip e).org x := fun x => congrFun i2 (lnext x)
  have dest : ∀ x, ((s.m.flip e).insertsubseg e k).dest x = (s.m.flip e).dest x := fun x => congrFun i2 (lprev x)
  have apex : ∀ x, ((s.m.flip e).insertsubseg e k).apex x = (s.m.flip e).apex x := fun x => congrFun i2 x
  have A1 := flip_apart (fun _ => Iff.rfl) S C he hs C1 O.apart
  have W1 := flip_winding (pos := s.pos) (T := s.tris) (fun _ => Iff.rfl) S he hs
  have wind : ∀ q, ((s.m.flip e).insertsubseg e k).winding s.tris s.pos q = s.m.winding s.tris s.pos q := by
    intro q
    rw [← W1]
    unfold TMesh.winding
    refine Finset.sum_congr rfl fun t _ => ?_
    rw [org, dest, apex]
  have corner : ∀ w, ((s.m.flip e).insertsubseg e k).HasCorner (· ∈ s.tris) w ↔ s.m.HasCorner (· ∈ s.tris) w := by
    intro w
    rw [← K1.corner]
    unfold TMesh.HasCorner
    simp only [apex]
  obtain ⟨c1, -, -⟩ := flip_triangles S he hs
  unfold TMesh.corners at c1
  simp only [Prod.mk.injEq] at c1
  refine ⟨⟨insertsubseg_sound S1 he hk hu ck, i3.trans ck, ?_, ?_, ?_, ?_⟩, ⟨fun w hw => ⟨(corner w).2 hw, rfl⟩, wind⟩, ?_⟩
  · intro x hx
    show CcwPts (s.pos _) (s.pos _) (s.pos _)
    rw [org, dest, apex]
    exact C1 x hx
  · intro x hx
    unfold TMesh.LocallyDelaunay
    dsimp only
    by_cases hq : x = e ∨ x = s.m.nb e
    · exact .inl ((hsb x hx).2 (.inr (by rw [n1]; exact hq)))
    · push Not at hq
      have hd := D1 x hx hq.1 hq.2
      unfold TMesh.LocallyDelaunay at hd
      rw [org, dest, apex, apex, i1]
      rcases hd with hd | hd
      · exact .inl ((hsb x hx).2 (.inl hd))
      · exact .inr hd
  · intro t t' ht ht' hne q
    have ins : ∀ t, ((s.m.flip e).insertsubseg e k).Inside s.pos t q ↔ (s.m.flip e).Inside s.pos t q := by
      intro t
      unfold TMesh.Inside
      rw [org, dest, apex]
    have := A1 t t' ht ht' hne q
    show ¬ (((s.m.flip e).insertsubseg e k).Inside s.pos t q ∧ ((s.m.flip e).insertsubseg e k).Inside s.pos t' q)
    rw [ins, ins]; exact this
  · rintro w hw ⟨y, hy, y1, y2⟩
    dsimp only at y1 y2 hy
    rw [org, dest] at y2
    rw [i1] at y1
    obtain ⟨z, hz, z1, z2, -, z3⟩ := (K1.edge ((s.m.flip e).org y) ((s.m.flip e).dest y) ((s.m.flip e).sg y) true (.inr rfl)).1
      ⟨y, hy, rfl, rfl, rfl, by simp [y1]⟩
    exact O.convex w ((corner w).1 hw) ⟨z, hz, z3.1 rfl, by rw [z1, z2]; exact y2⟩
  · intro q
    have key : (∃ x : TEdge, x.1 ∈ s.tris ∧ (s.m.flip e).sg x ≠ noSub ∧
        Vec.Between (s.pos ((s.m.flip e).org x)) (s.pos ((s.m.flip e).dest x)) q) ↔ s.OnSub q := by
      constructor
      · rintro ⟨x, hx, h0, hb⟩
        obtain ⟨z, hz, z1, z2, z3, -⟩ := (K1.edge _ _ _ (decide ((s.m.flip e).nb x = space)) (.inl h0)).1
          ⟨x, hx, rfl, rfl, rfl, by simp⟩
        exact ⟨z, hz, by rw [z3]; exact h0, by rw [z1, z2]; exact hb⟩
      · rintro ⟨x, hx, h0, hb⟩
        obtain ⟨z, hz, z1, z2, z3, -⟩ := (K1.edge _ _ _ (decide (s.m.nb x = space)) (.inl h0)).2
          ⟨x, hx, rfl, rfl, rfl, by simp⟩
        exact ⟨z, hz, by rw [z3]; exact h0, by rw [z1, z2]; exact hb⟩
    rw [← key]
    unfold Skeleton.OnSub
    dsimp only
    constructor
    · rintro ⟨x, hx, h0, hb⟩
      rw [org, dest] at hb
      rcases (hsb x hx).1 h0 with h' | rfl | rfl
      · exact .inl ⟨x, hx, h', hb⟩
      · rw [c1.1, c1.2.1] at hb
        exact .inr (between_symm hb)
      · rw [n1] at hb
        obtain ⟨q1, q2⟩ := S1.nb_ends he (by rw [n1]; exact hs)
        rw [n1] at q1 q2
        rw [q1, q2, c1.1, c1.2.1] at hb
        exact .inr hb
    · rintro (⟨x, hx, h0, hb⟩ | hb)
      · exact ⟨x, hx, (hsb x hx).2 (.inl h0), by rw [org, dest]; exact hb⟩
      · exact ⟨e, he, (hsb e he).2 (.inr (.inl rfl)), by rw [org, dest, c1.1, c1.2.1]; exact between_symm hb⟩

end

/-- A way across one edge: nothing else has to be flipped. -/
theorem dig_one {s : Skeleton K} {e : TEdge} (O : s.Ok) (he : e.1 ∈ s.tris) (hs : s.m.nb e ≠ space)
    (hseg : s.m.sg e = noSub)
    (h1 : 0 < ccw (s.pos (s.m.apex e)) (s.pos (s.m.org e)) (s.pos (s.m.apex (s.m.nb e))))
    (h2 : 0 < ccw (s.pos (s.m.dest e)) (s.pos (s.m.apex e)) (s.pos (s.m.apex (s.m.nb e))))
    (pick : Skeleton K → Spare) {o p : Vec K} (hl : orient o p (s.pos (s.m.apex (s.m.nb e))) = 0) (n : Nat) :
    Skeleton.dig pick o p (n + 2) { s with m := s.m.flip e } e =
      some (decide (s.pos (s.m.apex (s.m.nb e)) ≠ p), { s with m := s.m.flip e }, e) := by
  have S := O.sound
  have C := O.ccw
  have hf := C.apex_ne S he hs
  have S1 := flip_sound S he hs hseg hf
  have C1 := flip_ccw S C he hs h1 h2
  have n1 : (s.m.flip e).nb e = s.m.nb e := (flip_outside S he hs hseg hf).2.1
  have hlv : (s.m.nb e).1 ∈ s.tris := S.nb_live he hs
  obtain ⟨q0, q1, q2, q3, q4, q5, q6, q7, q8, q9⟩ := S.quad he hs
  have hne := S.nb_ne he
  have L1 := flip_others S C O.delaunay he hs hseg h1 h2 (x := lnext e) he
    (fun hc => by have := congrArg Prod.snd hc; unfold lnext at this; simp at this)
    (fun hc => hne (congrArg Prod.fst hc).symm)
  have L2 := flip_others S C O.delaunay he hs hseg h1 h2 (x := lprev (s.m.nb e)) hlv
    (fun hc => hne (show (lprev (s.m.nb e)).1 = e.1 from congrArg Prod.fst hc))
    (fun hc => by have := congrArg Prod.snd hc; unfold lprev at this; simp at this)
  obtain ⟨c1, -, -⟩ := flip_triangles S he hs
  unfold TMesh.corners at c1
  simp only [Prod.mk.injEq] at c1
  have f1 : (s.m.flip e).delaunayfixup s.pos false (n + 1) e = some (s.m.flip e, e) := by
    rcases fixup_ccw_cases (left := false) S1 C1 he with ⟨-, h⟩ | ⟨h, -⟩
    · exact h n
    · exact absurd L1 h
  have f2 : (s.m.flip e).delaunayfixup s.pos true (n + 1) (lnext (s.m.nb e)) = some (s.m.flip e, lnext (s.m.nb e)) := by
    rcases fixup_ccw_cases (left := true) (fix := lnext (s.m.nb e)) S1 C1 hlv with ⟨-, h⟩ | ⟨h, -⟩
    · exact h n
    · rw [lnext_lnext] at h; exact absurd L2 h
  unfold Skeleton.dig
  dsimp only
  rw [c1.1, hl, if_pos (.inr rfl), TMesh.oprev, n1, f1, Option.bind_some, f2]
  rfl

/-- Two parts of a way. -/
theorem between_steps {o p q : Vec K} {r ρ : K} (r0 : 0 < r) (r1 : r < 1) (ρ0 : 0 ≤ ρ) :
    (Vec.Between o (o.toward p r) q ∨ (0 < ρ ∧ Vec.Between (o.toward p r) (o.toward p (r + ρ * (1 - r))) q)) ↔
      Vec.Between o (o.toward p (r + ρ * (1 - r))) q := by
  have n0 : 0 < r + ρ * (1 - r) := by
    have := mul_nonneg ρ0 (sub_pos.2 r1).le; linarith
  have part : o.toward p r = o.toward (o.toward p (r + ρ * (1 - r))) (r / (r + ρ * (1 - r))) := by
    have : r / (r + ρ * (1 - r)) * (r + ρ * (1 - r)) = r := div_mul_cancel₀ _ n0.ne'
    unfold Vec.toward
    refine Vec.ext ?_ ?_ <;> simp only
    · linear_combination (-(p.x - o.x)) * this
    · linear_combination (-(p.y - o.y)) * this
  rcases ρ0.eq_or_lt with ρ0 | ρ0
  · rw [← ρ0]
    simp only [lt_irrefl, false_and, or_false, zero_mul, add_zero]
  · have hf0 : 0 < r / (r + ρ * (1 - r)) := div_pos r0 n0
    have hf1 : r / (r + ρ * (1 - r)) < 1 := by
      rw [div_lt_one n0]
      have := mul_pos ρ0 (sub_pos.2 r1); linarith
    have join := between_join (a := o) (q := q) (b := o.toward p (r + ρ * (1 - r))) hf0 hf1
    rw [← part] at join
    rw [and_iff_right ρ0]
    exact join.symm

/-- A point beyond an edge that is crossed on the way to it is farther than the crossing. -/
theorem cross_before {o p d a : Vec K} {ρ t β : K} (ρ0 : 0 < ρ) (hx : o.toward p ρ = d.toward a t)
    (c : 0 < ccw d a o) (cf : 0 < ccw a d (o.toward p β)) : ρ < β := by
  have e1 : ccw d a (o.toward p ρ) = 0 := by rw [hx]; unfold ccw Vec.toward; ring
  have e2 : ∀ τ, ccw d a (o.toward p τ) = (1 - τ) * ccw d a o + τ * ccw d a p := by
    intro τ; unfold ccw Vec.toward; ring
  have e3 : ccw a d (o.toward p β) = -ccw d a (o.toward p β) := by unfold ccw; ring
  rw [e2] at e1
  rw [e3, e2] at cf
  have h := mul_pos ρ0 cf
  have e4 : ρ * -((1 - β) * ccw d a o + β * ccw d a p) = (β - ρ) * ccw d a o := by linear_combination -β * e1
  rw [e4] at h
  exact sub_pos.1 ((pos_iff_pos_of_mul_pos h).2 c)

end Nikfemm
