import Verif.Lemmas.DivideConquer
import Verif.Model.MergeHulls
import Verif.Spec.MergeHulls
import Mathlib.Data.List.Nodup

/-!
# Lemmas about merging triangulations
-/

set_option linter.unusedSectionVars false
set_option linter.unusedSimpArgs false

namespace Nikfemm
variable {K : Type}

namespace Ghosts

/-- The ends of an edge. -/
def ends (M : TMesh K) (x : TEdge) : Nat × Nat := (M.org x, M.dest x)

/-- The edges of a list of bonds. -/
def flat (P : List (TEdge × TEdge)) : List TEdge := P.flatMap fun p => [p.1, p.2]

theorem mem_flat {P : List (TEdge × TEdge)} {x : TEdge} : x ∈ flat P ↔ touched P x := by
  unfold flat touched
  rw [List.mem_flatMap]
  simp

theorem apart_of_nodup {P : List (TEdge × TEdge)} (h : (flat P).Nodup) (h0 : ∀ x ∈ flat P, x ≠ space) : Apart P := by
  induction P with
  | nil => exact ⟨List.Pairwise.nil, by simp⟩
  | cons p P ih =>
    have e : flat (p :: P) = p.1 :: p.2 :: flat P := rfl
    rw [e] at h h0
    simp only [List.nodup_cons, List.mem_cons, not_or] at h
    have A := ih h.2.2 (fun x hx => h0 x (by simp [hx]))
    refine ⟨List.pairwise_cons.2 ⟨?_, A.pair⟩, ?_⟩
    · intro q hq
      have m1 : q.1 ∈ flat P := mem_flat.2 ⟨q, hq, .inl rfl⟩
      have m2 : q.2 ∈ flat P := mem_flat.2 ⟨q, hq, .inr rfl⟩
      refine ⟨?_, ?_, ?_, ?_⟩
      · rintro e'; exact h.1.2 (e' ▸ m1)
      · rintro e'; exact h.1.2 (e' ▸ m2)
      · rintro e'; exact h.2.1 (e' ▸ m1)
      · rintro e'; exact absurd (e' ▸ m2) h.2.1
    · intro q hq
      rcases List.mem_cons.1 hq with rfl | hq
      · exact ⟨h0 _ (by simp), h.1.1⟩
      · exact A.self q hq

theorem nodup_of_ends (M : TMesh K) {L : List TEdge} (h : (L.map (ends M)).Nodup) : L.Nodup := List.Nodup.of_map _ h

/-- The handle is reached from `s`. -/
def Reach (M : TMesh K) (s x : TEdge) : Prop := ∃ k, (around M)^[k] s = x

theorem Reach.refl (M : TMesh K) (s : TEdge) : Reach M s s := ⟨0, rfl⟩

theorem Reach.next {M : TMesh K} {s x : TEdge} (h : Reach M s x) : Reach M s (around M x) := by
  obtain ⟨k, rfl⟩ := h
  exact ⟨k + 1, Function.iterate_succ_apply' _ _ _⟩

theorem Reach.trans {M : TMesh K} {a b c : TEdge} (h : Reach M a b) (h' : Reach M b c) : Reach M a c := by
  obtain ⟨k, rfl⟩ := h
  obtain ⟨j, rfl⟩ := h'
  exact ⟨j + k, Function.iterate_add_apply _ _ _ _⟩

/-- If all ghost triangles are reached from one of them, they are one ring. -/
theorem fence_of_reach {M : TMesh K} {all : Finset Nat} (C : M.Closed all) {s : TEdge} (hs : s.1 ∈ all)
    (h0 : M.dest s = 0) (h : ∀ d : TEdge, d.1 ∈ all → M.dest d = 0 → Reach M s d) : M.OneFence all := by
  obtain ⟨n, hn, _, hr, _⟩ := round_trip C hs h0
  refine fence_of s n hr ?_
  intro d hd h1
  obtain ⟨k, rfl⟩ := h d hd h1
  refine ⟨k % n, Nat.mod_lt _ hn, ?_⟩
  have hp : Function.IsPeriodicPt (around M) n s := hr
  exact hp.iterate_mod_apply k

/-- Induction along the ring. -/
theorem fence_induct {M : TMesh K} {all : Finset Nat} (C : M.Closed all) (F : M.OneFence all) {s : TEdge}
    (hs : s.1 ∈ all) (h0 : M.dest s = 0) (P : TEdge → Prop) (hP : P s)
    (step : ∀ x : TEdge, x.1 ∈ all → M.dest x = 0 → P x → P (around M x)) :
    ∀ d : TEdge, d.1 ∈ all → M.dest d = 0 → P d := by
  intro d hd h1
  obtain ⟨k, rfl⟩ := F s d hs hd h0 h1
  change P ((around M)^[k] s)
  clear h1 hd
  induction k with
  | zero => exact hP
  | succ k ih =>
    rw [Function.iterate_succ_apply']
    have := iter_mem C hs h0 k
    exact step _ this.1 this.2 ih

/-- Other triangles than those of `all` are the same. -/
def Same (all : Finset Nat) (M M' : TMesh K) : Prop :=
  ∀ e : TEdge, e.1 ∉ all → M'.nb e = M.nb e ∧ M'.apex e = M.apex e ∧ M'.sg e = M.sg e

theorem Same.trans {all : Finset Nat} {M M' M'' : TMesh K} (h : Same all M M') (h' : Same all M' M'') :
    Same all M M'' := fun e he =>
  ⟨(h' e he).1.trans (h e he).1, (h' e he).2.1.trans (h e he).2.1, (h' e he).2.2.trans (h e he).2.2⟩

abbrev Vertex (M : TMesh K) (all : Finset Nat) (v : Nat) : Prop := M.Vertex all v

theorem ne_of_ends {M : TMesh K} {a b : TEdge} (h : ends M a ≠ ends M b) : a ≠ b := fun e => h (e ▸ rfl)

variable [Field K] [LinearOrder K]

/-! ### The triangle on top -/

section top
variable (s : Knit K) (t : Nat)

theorem top_apex {x : TEdge} (h : x.1 ≠ t) : (s.top t).apex x = s.m.apex x := by
  obtain ⟨a, i⟩ := x
  simp only at h
  simp [Knit.top, TMesh.bond, TMesh.setorg, TMesh.setdest, TMesh.maketriangle, lnext, lprev, Function.update_apply,
    Prod.ext_iff, h]

theorem top_apex0 : (s.top t).apex (t, 0) = 0 := by
  simp [Knit.top, TMesh.bond, TMesh.setorg, TMesh.setdest, TMesh.maketriangle, lnext, lprev, Function.update_apply,
    Prod.ext_iff]
theorem top_apex1 : (s.top t).apex (t, 1) = s.lowerleft := by
  simp [Knit.top, TMesh.bond, TMesh.setorg, TMesh.setdest, TMesh.maketriangle, lnext, lprev, Function.update_apply,
    Prod.ext_iff]
theorem top_apex2 : (s.top t).apex (t, 2) = s.lowerright := by
  simp [Knit.top, TMesh.bond, TMesh.setorg, TMesh.setdest, TMesh.maketriangle, lnext, lprev, Function.update_apply,
    Prod.ext_iff]

theorem top_org {x : TEdge} (h : x.1 ≠ t) : (s.top t).org x = s.m.org x := top_apex s t (x := lnext x) h
theorem top_dest {x : TEdge} (h : x.1 ≠ t) : (s.top t).dest x = s.m.dest x := top_apex s t (x := lprev x) h

theorem top_ends0 : ends (s.top t) (t, 0) = (s.lowerleft, s.lowerright) := by
  simp [ends, TMesh.org, TMesh.dest, lnext, lprev, top_apex1, top_apex2]
theorem top_ends1 : ends (s.top t) (t, 1) = (s.lowerright, 0) := by
  simp [ends, TMesh.org, TMesh.dest, lnext, lprev, top_apex0, top_apex2]
theorem top_ends2 : ends (s.top t) (t, 2) = (0, s.lowerleft) := by
  simp [ends, TMesh.org, TMesh.dest, lnext, lprev, top_apex0, top_apex1]

/-- The bonds before the ones of the top triangle. -/
def preNb (nb : TEdge → TEdge) (t : Nat) : TEdge → TEdge := fun e => if e.1 = t then space else nb e

theorem top_nb : (s.top t).nb = bonds (preNb s.m.nb t) [((t, 0), s.baseedge), ((t, 1), s.rightcand),
    ((t, 2), s.leftcand)] := by
  funext x; rfl

theorem preNb_update {nb : TEdge → TEdge} {a b : TEdge} (ha : a.1 ≠ t) :
    preNb (Function.update nb a b) t = Function.update (preNb nb t) a b := by
  funext x
  unfold preNb
  by_cases h : x = a
  · subst h; simp [ha]
  · simp [Function.update_of_ne h]

theorem preNb_bonds (P : List (TEdge × TEdge)) (h : ∀ x ∈ flat P, x.1 ≠ t) (nb : TEdge → TEdge) :
    preNb (bonds nb P) t = bonds (preNb nb t) P := by
  induction P generalizing nb with
  | nil => rfl
  | cons p P ih =>
    have e : flat (p :: P) = p.1 :: p.2 :: flat P := rfl
    rw [e] at h
    show preNb (bonds _ P) t = bonds _ P
    rw [ih (fun x hx => h x (by simp [hx])), preNb_update _ (h p.2 (by simp)), preNb_update _ (h p.1 (by simp))]

end top

/-- What holds during the walk up the gap: with the triangle on top there is no boundary, the ghost triangles are one
ring, and the other triangles are counterclockwise. -/
structure Knitting (pos : Nat → Vec K) (t : Nat) (all : Finset Nat) (V : Nat → Prop) (m0 : TMesh K) (s : Knit K) : Prop where
  closed : (s.top t).Closed all
  fence : (s.top t).OneFence all
  tmem : t ∈ all
  bmem : s.baseedge.1 ∈ all
  lmem : s.leftcand.1 ∈ all
  rmem : s.rightcand.1 ∈ all
  bne : s.baseedge.1 ≠ t
  lne : s.leftcand.1 ≠ t
  rne : s.rightcand.1 ≠ t
  ul : s.m.apex s.leftcand = s.upperleft
  ur : s.m.apex s.rightcand = s.upperright
  ccw : (s.top t).Ccw (fun x => x ∈ all ∧ ¬ (s.top t).Ghost x) pos
  vertex : ∀ v, Vertex (s.top t) all v ↔ V v
  other : Same all m0 (s.top t)

section facts
variable {pos : Nat → Vec K} {t : Nat} {all : Finset Nat} {V : Nat → Prop} {m0 : TMesh K} {s : Knit K}

theorem Knitting.nb0 (I : Knitting pos t all V m0 s) : (s.top t).nb (t, 0) = s.baseedge := by
  have h1 := I.bne; have h2 := I.rne; have h3 := I.lne
  rw [top_nb]
  simp [bonds, Function.update_apply, Prod.ext_iff, h2.symm, h3.symm, h1.symm]
theorem Knitting.nb1 (I : Knitting pos t all V m0 s) : (s.top t).nb (t, 1) = s.rightcand := by
  have h1 := I.bne; have h2 := I.rne; have h3 := I.lne
  rw [top_nb]
  simp [bonds, Function.update_apply, Prod.ext_iff, h2.symm, h3.symm, h1.symm]
theorem Knitting.nb2 (I : Knitting pos t all V m0 s) : (s.top t).nb (t, 2) = s.leftcand := by
  have h1 := I.bne; have h2 := I.rne; have h3 := I.lne
  rw [top_nb]
  simp [bonds, Function.update_apply, Prod.ext_iff, h2.symm, h3.symm, h1.symm]

theorem Knitting.nbB (I : Knitting pos t all V m0 s) : (s.top t).nb s.baseedge = (t, 0) := by
  rw [← I.nb0]; exact (I.closed.mate (t, 0) I.tmem).2.1
theorem Knitting.nbR (I : Knitting pos t all V m0 s) : (s.top t).nb s.rightcand = (t, 1) := by
  rw [← I.nb1]; exact (I.closed.mate (t, 1) I.tmem).2.1
theorem Knitting.nbL (I : Knitting pos t all V m0 s) : (s.top t).nb s.leftcand = (t, 2) := by
  rw [← I.nb2]; exact (I.closed.mate (t, 2) I.tmem).2.1

theorem mate_ends {M : TMesh K} (C : M.Closed all) {x : TEdge} (hx : x.1 ∈ all) {a b : Nat} (h : ends M x = (a, b)) :
    ends M (M.nb x) = (b, a) := by
  have := C.mate x hx
  simp only [ends, Prod.mk.injEq] at h ⊢
  exact ⟨this.2.2.1.trans h.2, this.2.2.2.trans h.1⟩

theorem ends_ne {M : TMesh K} (C : M.Closed all) {x : TEdge} (hx : x.1 ∈ all) {a b : Nat} (h : ends M x = (a, b)) :
    a ≠ b := by
  have := C.corners x hx
  simp only [ends, Prod.mk.injEq] at h
  rwa [h.1, h.2] at this

theorem Knitting.endsB (I : Knitting pos t all V m0 s) : ends (s.top t) s.baseedge = (s.lowerright, s.lowerleft) := by
  rw [← I.nb0]; exact mate_ends I.closed I.tmem (top_ends0 s t)
theorem Knitting.endsR (I : Knitting pos t all V m0 s) : ends (s.top t) s.rightcand = (0, s.lowerright) := by
  rw [← I.nb1]; exact mate_ends I.closed I.tmem (top_ends1 s t)
theorem Knitting.endsL (I : Knitting pos t all V m0 s) : ends (s.top t) s.leftcand = (s.lowerleft, 0) := by
  rw [← I.nb2]; exact mate_ends I.closed I.tmem (top_ends2 s t)

theorem ends_lnext (M : TMesh K) {x : TEdge} {a b : Nat} (h : ends M x = (a, b)) :
    ends M (lnext x) = (b, M.apex x) := by
  simp only [ends, Prod.mk.injEq] at h ⊢
  exact ⟨by rw [org_lnext, h.2], dest_lnext M x⟩
theorem ends_lprev (M : TMesh K) {x : TEdge} {a b : Nat} (h : ends M x = (a, b)) :
    ends M (lprev x) = (M.apex x, a) := by
  simp only [ends, Prod.mk.injEq] at h ⊢
  exact ⟨org_lprev M x, by rw [dest_lprev, h.1]⟩

theorem Knitting.apexL (I : Knitting pos t all V m0 s) : (s.top t).apex s.leftcand = s.upperleft := by
  rw [top_apex s t I.lne, I.ul]
theorem Knitting.apexR (I : Knitting pos t all V m0 s) : (s.top t).apex s.rightcand = s.upperright := by
  rw [top_apex s t I.rne, I.ur]

/-- The corners at the gap. -/
theorem Knitting.ne (I : Knitting pos t all V m0 s) : s.lowerleft ≠ s.lowerright ∧ s.lowerleft ≠ 0 ∧ s.lowerright ≠ 0 ∧
    s.upperleft ≠ 0 ∧ s.upperleft ≠ s.lowerleft ∧ s.upperright ≠ 0 ∧ s.upperright ≠ s.lowerright := by
  have hl := I.endsL
  have hr := I.endsR
  have h1 := ends_lnext _ hl
  have h2 := ends_lprev _ hl
  have h3 := ends_lnext _ hr
  have h4 := ends_lprev _ hr
  rw [I.apexL] at h1 h2
  rw [I.apexR] at h3 h4
  exact ⟨ends_ne I.closed I.tmem (top_ends0 s t), ends_ne I.closed I.lmem hl, (ends_ne I.closed I.rmem hr).symm,
    (ends_ne I.closed (x := lnext s.leftcand) I.lmem h1).symm, ends_ne I.closed (x := lprev s.leftcand) I.lmem h2,
    ends_ne I.closed (x := lprev s.rightcand) I.rmem h4, (ends_ne I.closed (x := lnext s.rightcand) I.rmem h3).symm⟩

theorem nb_old {x : TEdge} (ht : x.1 ≠ t) (hb : x ≠ s.baseedge)
    (hl : x ≠ s.leftcand) (hr : x ≠ s.rightcand) : (s.top t).nb x = s.m.nb x := by
  rw [top_nb, bonds_other]
  · simp [preNb, ht]
  · rw [← mem_flat]
    have h : ∀ i, x ≠ (t, i) := fun i e => ht (by rw [e])
    simp [flat, h, hb, hl, hr]

end facts

/-! ### Flipping an edge -/

theorem ccw_turn [IsStrictOrderedRing K] {a b c : Vec K} (h : CcwPts a b c) : CcwPts b c a := by
  unfold CcwPts at *; linarith

/-- Edges with other ends are in another triangle. -/
theorem tri_ne {M : TMesh K} {x y : TEdge} (h : ends M x ∉ [ends M y, ends M (lnext y), ends M (lprev y)]) :
    x.1 ≠ y.1 := by
  intro e
  apply h
  rcases same_tri e with rfl | rfl | rfl <;> simp

/-- `M'` is `M` with the edge `p` flipped.  `p` goes from `a` to `b`, with `c` on the left side and `d` on the right
one; the new edge is `p'` from `d` to `c`, with `a` on the left side. -/
structure Flipped (M M' : TMesh K) (p q p' q' : TEdge) (a b c d : Nat) : Prop where
  epq : ends M p = (a, b)
  ap : M.apex p = c
  aq : M.apex q = d
  pq : M.nb p = q
  cd : c ≠ d
  tri : (p'.1 = p.1 ∧ q'.1 = q.1) ∨ (p'.1 = q.1 ∧ q'.1 = p.1)
  ep' : ends M' p' = (d, c)
  eq' : ends M' q' = (c, d)
  ap' : M'.apex p' = a
  aq' : M'.apex q' = b
  npq : M'.nb p' = q' ∧ M'.nb q' = p'
  nA : M'.nb (lprev q') = M.nb (lnext p) ∧ M'.nb (M.nb (lnext p)) = lprev q'
  nB : M'.nb (lnext p') = M.nb (lprev p) ∧ M'.nb (M.nb (lprev p)) = lnext p'
  nC : M'.nb (lprev p') = M.nb (lnext q) ∧ M'.nb (M.nb (lnext q)) = lprev p'
  nD : M'.nb (lnext q') = M.nb (lprev q) ∧ M'.nb (M.nb (lprev q)) = lnext q'
  onb : ∀ x : TEdge, x.1 ≠ p.1 → x.1 ≠ q.1 → x ≠ M.nb (lnext p) → x ≠ M.nb (lprev p) → x ≠ M.nb (lnext q) →
    x ≠ M.nb (lprev q) → M'.nb x = M.nb x
  oap : ∀ x : TEdge, x.1 ≠ p.1 → x.1 ≠ q.1 → M'.apex x = M.apex x
  osg : ∀ x : TEdge, M'.sg x = M.sg x

section flipped
variable {M M' : TMesh K} {p q p' q' : TEdge} {a b c d : Nat} {all : Finset Nat}

theorem Flipped.oends (f : Flipped M M' p q p' q' a b c d) {x : TEdge} (h1 : x.1 ≠ p.1) (h2 : x.1 ≠ q.1) :
    ends M' x = ends M x := by
  unfold ends TMesh.org TMesh.dest
  rw [f.oap (lnext x) h1 h2, f.oap (lprev x) h1 h2]

/-- The edges at the two triangles. -/
structure Around (M : TMesh K) (all : Finset Nat) (p q : TEdge) (a b c d : Nat) : Prop where
  p0 : ends M p = (a, b)
  p1 : ends M (lnext p) = (b, c)
  p2 : ends M (lprev p) = (c, a)
  q0 : ends M q = (b, a)
  q1 : ends M (lnext q) = (a, d)
  q2 : ends M (lprev q) = (d, b)
  A : ends M (M.nb (lnext p)) = (c, b)
  B : ends M (M.nb (lprev p)) = (a, c)
  C : ends M (M.nb (lnext q)) = (d, a)
  D : ends M (M.nb (lprev q)) = (b, d)
  ab : a ≠ b
  ac : a ≠ c
  ad : a ≠ d
  bc : b ≠ c
  bd : b ≠ d
  pm : p.1 ∈ all
  qm : q.1 ∈ all
  Am : (M.nb (lnext p)).1 ∈ all
  Bm : (M.nb (lprev p)).1 ∈ all
  Cm : (M.nb (lnext q)).1 ∈ all
  Dm : (M.nb (lprev q)).1 ∈ all
  pq : p.1 ≠ q.1

theorem Flipped.around (f : Flipped M M' p q p' q' a b c d) (C : M.Closed all) (hp : p.1 ∈ all) :
    Around M all p q a b c d := by
  have p0 := f.epq
  have p1 := ends_lnext M p0
  have p2 := ends_lprev M p0
  rw [f.ap] at p1 p2
  have q0 := mate_ends C hp p0
  have qm := (C.mate p hp).1
  rw [f.pq] at q0 qm
  have q1 := ends_lnext M q0
  have q2 := ends_lprev M q0
  rw [f.aq] at q1 q2
  have ab := ends_ne C hp p0
  have bc := ends_ne C (x := lnext p) hp p1
  have ac := ends_ne C (x := lprev p) hp p2
  have ad := ends_ne C (x := lnext q) qm q1
  have bd := ends_ne C (x := lprev q) qm q2
  exact { p0 := p0, p1 := p1, p2 := p2, q0 := q0, q1 := q1, q2 := q2
          A := mate_ends C (x := lnext p) hp p1, B := mate_ends C (x := lprev p) hp p2
          C := mate_ends C (x := lnext q) qm q1, D := mate_ends C (x := lprev q) qm q2
          ab := ab, ac := ac.symm, ad := ad, bc := bc, bd := bd.symm, pm := hp, qm := qm
          Am := (C.mate (lnext p) hp).1, Bm := (C.mate (lprev p) hp).1
          Cm := (C.mate (lnext q) qm).1, Dm := (C.mate (lprev q) qm).1
          pq := tri_ne (M := M) (by rw [p0, q0, q1, q2]; simp [ab, bd.symm, ad]) }

/-- The edges outside are not in the two triangles. -/
theorem Around.out (r : Around M all p q a b c d) (cd : c ≠ d) {x : TEdge}
    (h : x = M.nb (lnext p) ∨ x = M.nb (lprev p) ∨ x = M.nb (lnext q) ∨ x = M.nb (lprev q)) :
    x.1 ≠ p.1 ∧ x.1 ≠ q.1 := by
  have := r.ab; have := r.ac; have := r.ad; have := r.bc; have := r.bd
  rcases h with rfl | rfl | rfl | rfl
  · exact ⟨tri_ne (M := M) (by rw [r.p0, r.p1, r.p2, r.A]; simp [*, Ne.symm, eq_comm]),
      tri_ne (M := M) (by rw [r.q0, r.q1, r.q2, r.A]; simp [*, Ne.symm, eq_comm])⟩
  · exact ⟨tri_ne (M := M) (by rw [r.p0, r.p1, r.p2, r.B]; simp [*, Ne.symm, eq_comm]),
      tri_ne (M := M) (by rw [r.q0, r.q1, r.q2, r.B]; simp [*, Ne.symm, eq_comm])⟩
  · exact ⟨tri_ne (M := M) (by rw [r.p0, r.p1, r.p2, r.C]; simp [*, Ne.symm, eq_comm]),
      tri_ne (M := M) (by rw [r.q0, r.q1, r.q2, r.C]; simp [*, Ne.symm, eq_comm])⟩
  · exact ⟨tri_ne (M := M) (by rw [r.p0, r.p1, r.p2, r.D]; simp [*, Ne.symm, eq_comm]),
      tri_ne (M := M) (by rw [r.q0, r.q1, r.q2, r.D]; simp [*, Ne.symm, eq_comm])⟩

/-- An edge after the flip. -/
theorem Flipped.cases (f : Flipped M M' p q p' q' a b c d) (x : TEdge) :
    (x = p' ∨ x = lnext p' ∨ x = lprev p' ∨ x = q' ∨ x = lnext q' ∨ x = lprev q') ∨ (x.1 ≠ p.1 ∧ x.1 ≠ q.1) := by
  by_cases h1 : x.1 = p.1
  · left
    rcases f.tri with ⟨t1, t2⟩ | ⟨t1, t2⟩
    · rcases same_tri (h1.trans t1.symm) with h | h | h <;> simp [h]
    · rcases same_tri (h1.trans t2.symm) with h | h | h <;> simp [h]
  · by_cases h2 : x.1 = q.1
    · left
      rcases f.tri with ⟨t1, t2⟩ | ⟨t1, t2⟩
      · rcases same_tri (h2.trans t2.symm) with h | h | h <;> simp [h]
      · rcases same_tri (h2.trans t1.symm) with h | h | h <;> simp [h]
    · exact .inr ⟨h1, h2⟩

theorem Flipped.closed (f : Flipped M M' p q p' q' a b c d) (C : M.Closed all) (hp : p.1 ∈ all) : M'.Closed all := by
  have r := f.around C hp
  have hp' : p'.1 ∈ all := by
    rcases f.tri with ⟨t1, t2⟩ | ⟨t1, t2⟩ <;> rw [t1]
    exacts [r.pm, r.qm]
  have hq' : q'.1 ∈ all := by
    rcases f.tri with ⟨t1, t2⟩ | ⟨t1, t2⟩ <;> rw [t2]
    exacts [r.qm, r.pm]
  have p1 := ends_lnext M' f.ep'
  have p2 := ends_lprev M' f.ep'
  have q1 := ends_lnext M' f.eq'
  have q2 := ends_lprev M' f.eq'
  rw [f.ap'] at p1 p2
  rw [f.aq'] at q1 q2
  have A' := (f.oends (r.out f.cd (.inl rfl)).1 (r.out f.cd (.inl rfl)).2).trans r.A
  have B' := (f.oends (r.out f.cd (.inr (.inl rfl))).1 (r.out f.cd (.inr (.inl rfl))).2).trans r.B
  have C' := (f.oends (r.out f.cd (.inr (.inr (.inl rfl)))).1 (r.out f.cd (.inr (.inr (.inl rfl)))).2).trans r.C
  have D' := (f.oends (r.out f.cd (.inr (.inr (.inr rfl)))).1 (r.out f.cd (.inr (.inr (.inr rfl)))).2).trans r.D
  have key : ∀ x y : TEdge, y.1 ∈ all → M'.nb x = y → M'.nb y = x → ∀ u v, ends M' x = (u, v) → ends M' y = (v, u) →
      (M'.nb x).1 ∈ all ∧ M'.nb (M'.nb x) = x ∧ M'.org (M'.nb x) = M'.dest x ∧ M'.dest (M'.nb x) = M'.org x := by
    intro x y hy h1 h2 u v e1 e2
    simp only [ends, Prod.mk.injEq] at e1 e2
    rw [h1]
    exact ⟨hy, h2, by rw [e2.1, e1.2], by rw [e2.2, e1.1]⟩
  refine ⟨C.out, ?_, ?_, fun x hx => (f.osg x).trans (C.bare x hx)⟩
  · intro x hx
    rcases f.cases x with h | h
    · rcases h with rfl | rfl | rfl | rfl | rfl | rfl
      · exact key _ _ hq' f.npq.1 f.npq.2 _ _ f.ep' f.eq'
      · exact key _ _ r.Bm f.nB.1 f.nB.2 _ _ p1 B'
      · exact key _ _ r.Cm f.nC.1 f.nC.2 _ _ p2 C'
      · exact key _ _ hp' f.npq.2 f.npq.1 _ _ f.eq' f.ep'
      · exact key _ _ r.Dm f.nD.1 f.nD.2 _ _ q1 D'
      · exact key _ _ r.Am f.nA.1 f.nA.2 _ _ q2 A'
    · by_cases hA : x = M.nb (lnext p)
      · subst hA; exact key _ (lprev q') hq' f.nA.2 f.nA.1 _ _ A' q2
      by_cases hB : x = M.nb (lprev p)
      · subst hB; exact key _ (lnext p') hp' f.nB.2 f.nB.1 _ _ B' p1
      by_cases hC : x = M.nb (lnext q)
      · subst hC; exact key _ (lprev p') hp' f.nC.2 f.nC.1 _ _ C' p2
      by_cases hD : x = M.nb (lprev q)
      · subst hD; exact key _ (lnext q') hq' f.nD.2 f.nD.1 _ _ D' q1
      have hm := C.mate x hx
      have n := f.onb x h.1 h.2 hA hB hC hD
      have back : ∀ y : TEdge, M.nb x = y → x = M.nb y := by rintro y rfl; exact hm.2.1.symm
      have nqp : M.nb q = p := by rw [← f.pq]; exact (C.mate p hp).2.1
      have g1 : (M.nb x).1 ≠ p.1 := by
        intro e
        rcases same_tri e with e | e | e
        · have := back _ e
          rw [f.pq] at this
          exact h.2 (by rw [this])
        · exact hA (back _ e)
        · exact hB (back _ e)
      have g2 : (M.nb x).1 ≠ q.1 := by
        intro e
        rcases same_tri e with e | e | e
        · have := back _ e
          rw [nqp] at this
          exact h.1 (by rw [this])
        · exact hC (back _ e)
        · exact hD (back _ e)
      have inj : ∀ y : TEdge, y.1 ∈ all → M.nb x ≠ M.nb y ∨ x = y := by
        intro y hy
        by_cases e : M.nb x = M.nb y
        · right; rw [← hm.2.1, e, (C.mate y hy).2.1]
        · exact .inl e
      have n' := f.onb (M.nb x) g1 g2
        ((inj (lnext p) r.pm).resolve_right fun e => h.1 (by rw [e]; rfl))
        ((inj (lprev p) r.pm).resolve_right fun e => h.1 (by rw [e]; rfl))
        ((inj (lnext q) r.qm).resolve_right fun e => h.2 (by rw [e]; rfl))
        ((inj (lprev q) r.qm).resolve_right fun e => h.2 (by rw [e]; rfl))
      have ex := f.oends h.1 h.2
      have ey := f.oends g1 g2
      simp only [ends, Prod.mk.injEq] at ex ey
      rw [n, n', ex.1, ex.2, ey.1, ey.2]
      exact hm
  · intro x hx
    have key2 : ∀ (y : TEdge) u v, ends M' y = (u, v) → u ≠ v → M'.org y ≠ M'.dest y := by
      intro y u v e huv
      simp only [ends, Prod.mk.injEq] at e
      rw [e.1, e.2]; exact huv
    rcases f.cases x with h | h
    · rcases h with rfl | rfl | rfl | rfl | rfl | rfl
      · exact key2 _ _ _ f.ep' f.cd.symm
      · exact key2 _ _ _ p1 r.ac.symm
      · exact key2 _ _ _ p2 r.ad
      · exact key2 _ _ _ f.eq' f.cd
      · exact key2 _ _ _ q1 r.bd.symm
      · exact key2 _ _ _ q2 r.bc
    · have ex := f.oends h.1 h.2
      exact key2 _ _ _ ex (C.corners x hx)

/-- The vertices stay. -/
theorem Flipped.vertex (f : Flipped M M' p q p' q' a b c d) (C : M.Closed all) (hp : p.1 ∈ all) (v : Nat) :
    Vertex M' all v ↔ Vertex M all v := by
  have r := f.around C hp
  have hp' : p'.1 ∈ all := by
    rcases f.tri with ⟨t1, t2⟩ | ⟨t1, t2⟩ <;> rw [t1]
    exacts [r.pm, r.qm]
  have hq' : q'.1 ∈ all := by
    rcases f.tri with ⟨t1, t2⟩ | ⟨t1, t2⟩ <;> rw [t2]
    exacts [r.qm, r.pm]
  have e' := f.ep'
  have e'' := f.eq'
  have p0 := r.p0
  have q0 := r.q0
  simp only [ends, Prod.mk.injEq] at e' e'' p0 q0
  constructor
  · rintro ⟨x, hx, rfl⟩
    rcases f.cases x with h | h
    · rcases h with rfl | rfl | rfl | rfl | rfl | rfl
      · exact ⟨lnext p, hp, p0.1.trans f.ap'.symm⟩
      · exact ⟨q, r.qm, f.aq.trans e'.1.symm⟩
      · exact ⟨p, hp, f.ap.trans e'.2.symm⟩
      · exact ⟨lprev p, hp, p0.2.trans f.aq'.symm⟩
      · exact ⟨p, hp, f.ap.trans e''.1.symm⟩
      · exact ⟨q, r.qm, f.aq.trans e''.2.symm⟩
    · exact ⟨x, hx, (f.oap x h.1 h.2).symm⟩
  · rintro ⟨x, hx, rfl⟩
    by_cases h1 : x.1 = p.1
    · rcases same_tri h1 with rfl | rfl | rfl
      · exact ⟨lprev p', hp', e'.2.trans f.ap.symm⟩
      · exact ⟨p', hp', f.ap'.trans p0.1.symm⟩
      · exact ⟨q', hq', f.aq'.trans p0.2.symm⟩
    · by_cases h2 : x.1 = q.1
      · rcases same_tri h2 with rfl | rfl | rfl
        · exact ⟨lnext p', hp', e'.1.trans f.aq.symm⟩
        · exact ⟨q', hq', f.aq'.trans q0.1.symm⟩
        · exact ⟨p', hp', f.ap'.trans q0.2.symm⟩
      · exact ⟨x, hx, f.oap x h1 h2⟩

theorem Flipped.same (f : Flipped M M' p q p' q' a b c d) (C : M.Closed all) (hp : p.1 ∈ all) : Same all M M' := by
  have r := f.around C hp
  intro e he
  have o : ∀ y : TEdge, y.1 ∈ all → e.1 ≠ y.1 := fun y hy h => he (h ▸ hy)
  have o' : ∀ y : TEdge, y.1 ∈ all → e ≠ y := fun y hy h => he (h ▸ hy)
  exact ⟨f.onb e (o p r.pm) (o q r.qm) (o' _ r.Am) (o' _ r.Bm) (o' _ r.Cm) (o' _ r.Dm),
    f.oap e (o p r.pm) (o q r.qm), f.osg e⟩

/-- The orientation stays, if the new triangles are counterclockwise. -/
theorem Flipped.ccw [IsStrictOrderedRing K] {pos : Nat → Vec K} (f : Flipped M M' p q p' q' a b c d)
    (h : M.Ccw (fun x => x ∈ all ∧ ¬ M.Ghost x) pos)
    (h1 : a ≠ 0 → c ≠ 0 → d ≠ 0 → CcwPts (pos d) (pos c) (pos a))
    (h2 : b ≠ 0 → c ≠ 0 → d ≠ 0 → CcwPts (pos c) (pos d) (pos b)) :
    M'.Ccw (fun x => x ∈ all ∧ ¬ M'.Ghost x) pos := by
  have e' := f.ep'
  have e'' := f.eq'
  simp only [ends, Prod.mk.injEq] at e' e''
  intro x hx
  rcases f.cases x with h' | h'
  · have P : x.1 = p'.1 → CcwPts (pos d) (pos c) (pos a) := by
      intro e
      have := not_ghost hx.2 e.symm
      rw [e'.1, e'.2, f.ap'] at this
      exact h1 this.2.2 this.2.1 this.1
    have Q : x.1 = q'.1 → CcwPts (pos c) (pos d) (pos b) := by
      intro e
      have := not_ghost hx.2 e.symm
      rw [e''.1, e''.2, f.aq'] at this
      exact h2 this.2.2 this.1 this.2.1
    rcases h' with rfl | rfl | rfl | rfl | rfl | rfl
    · rw [e'.1, e'.2, f.ap']; exact P rfl
    · rw [org_lnext, dest_lnext, e'.2, f.ap', show M'.apex (lnext p') = d from e'.1]; exact ccw_turn (P rfl)
    · rw [org_lprev, dest_lprev, e'.1, f.ap', show M'.apex (lprev p') = c from e'.2]
      exact ccw_turn (ccw_turn (P rfl))
    · rw [e''.1, e''.2, f.aq']; exact Q rfl
    · rw [org_lnext, dest_lnext, e''.2, f.aq', show M'.apex (lnext q') = c from e''.1]; exact ccw_turn (Q rfl)
    · rw [org_lprev, dest_lprev, e''.1, f.aq', show M'.apex (lprev q') = d from e''.2]
      exact ccw_turn (ccw_turn (Q rfl))
  · have ex := f.oends h'.1 h'.2
    simp only [ends, Prod.mk.injEq] at ex
    rw [ex.1, ex.2, f.oap x h'.1 h'.2]
    refine h x ⟨hx.1, ?_⟩
    rintro ⟨i, hi⟩
    exact hx.2 ⟨i, by rw [f.oap (x.1, i) h'.1 h'.2]; exact hi⟩

/-- The ghost triangles stay one ring, if one of them is left out. -/
theorem Flipped.fence_out (f : Flipped M M' p q p' q' a b c d) (C : M.Closed all) (F : M.OneFence all)
    (hp : p.1 ∈ all) (ha : a = 0) : M'.OneFence all := by
  have r := f.around C hp
  have C' := f.closed C hp
  have hp' : p'.1 ∈ all := by
    rcases f.tri with ⟨t1, t2⟩ | ⟨t1, t2⟩ <;> rw [t1]
    exacts [r.pm, r.qm]
  have p1 := ends_lnext M' f.ep'
  have p2 := ends_lprev M' f.ep'
  have q1 := ends_lnext M' f.eq'
  have q2 := ends_lprev M' f.eq'
  rw [f.ap'] at p1 p2
  rw [f.aq'] at q1 q2
  have np1 : M'.dest (lnext p') = 0 := by rw [← ha]; exact congrArg Prod.snd p1
  have b0 : b ≠ 0 := ha ▸ r.ab.symm
  have c0 : c ≠ 0 := ha ▸ r.ac.symm
  have d0 : d ≠ 0 := ha ▸ r.ad.symm
  have outC := r.out f.cd (.inr (.inr (.inl rfl)))
  have outB := r.out f.cd (.inr (.inl rfl))
  refine fence_of_reach C' (s := lnext p') hp' np1 ?_
  -- from one handle to the next one
  have main := fence_induct C F (s := q) r.qm (by rw [← ha]; exact congrArg Prod.snd r.q0)
    (fun x => (x.1 = p.1 ∨ x.1 = q.1) ∨ Reach M' (lnext p') x) (.inl (.inr rfl)) (by
      intro x hx h0 ih
      by_cases hxp : x.1 = p.1
      · left; right
        have : x = lprev p := by
          rcases same_tri hxp with rfl | rfl | rfl
          · exact absurd ((congrArg Prod.snd r.p0).symm.trans h0) b0
          · exact absurd ((congrArg Prod.snd r.p1).symm.trans h0) c0
          · rfl
        rw [this]
        show (M.nb (lnext (lprev p))).1 = q.1
        rw [lnext_lprev', f.pq]
      by_cases hxq : x.1 = q.1
      · right
        have : x = q := by
          rcases same_tri hxq with rfl | rfl | rfl
          · rfl
          · exact absurd ((congrArg Prod.snd r.q1).symm.trans h0) d0
          · exact absurd ((congrArg Prod.snd r.q2).symm.trans h0) b0
        rw [this]
        have := (Reach.refl M' (lnext p')).next
        rw [show Ghosts.around M' (lnext p') = M.nb (lnext q) from by
          rw [Ghosts.around, lnext_lnext', f.nC.1]] at this
        exact this
      have ih := ih.resolve_left (by tauto)
      have o0 : M.org (lnext x) = 0 := by rw [org_lnext]; exact h0
      by_cases hB : lnext x = M.nb (lprev p)
      · left; left
        show (M.nb (lnext x)).1 = p.1
        rw [hB, (C.mate (lprev p) hp).2.1]; rfl
      · right
        have := ih.next
        rw [show Ghosts.around M' x = Ghosts.around M x from ?_] at this
        · exact this
        · refine f.onb (lnext x) hxp hxq ?_ hB ?_ ?_
          · intro e; rw [e] at o0; exact c0 ((congrArg Prod.fst r.A).symm.trans o0)
          · intro e; rw [e] at o0; exact d0 ((congrArg Prod.fst r.C).symm.trans o0)
          · intro e; rw [e] at o0; exact b0 ((congrArg Prod.fst r.D).symm.trans o0))
  intro x hx h0
  rcases f.cases x with h | h
  · rcases h with rfl | rfl | rfl | rfl | rfl | rfl
    · exact absurd ((congrArg Prod.snd f.ep').symm.trans h0) c0
    · exact Reach.refl _ _
    · exact absurd ((congrArg Prod.snd p2).symm.trans h0) d0
    · exact absurd ((congrArg Prod.snd f.eq').symm.trans h0) d0
    · exact absurd ((congrArg Prod.snd q1).symm.trans h0) b0
    · exact absurd ((congrArg Prod.snd q2).symm.trans h0) c0
  · refine (main x hx ?_).resolve_left (by tauto)
    have := f.oends h.1 h.2
    rw [← h0]; exact (congrArg Prod.snd this).symm

/-- The ghost triangles stay one ring, if another one comes in. -/
theorem Flipped.fence_in (f : Flipped M M' p q p' q' a b c d) (C : M.Closed all) (F : M.OneFence all)
    (hp : p.1 ∈ all) (hc : c = 0) : M'.OneFence all := by
  have r := f.around C hp
  have C' := f.closed C hp
  have hq' : q'.1 ∈ all := by
    rcases f.tri with ⟨t1, t2⟩ | ⟨t1, t2⟩ <;> rw [t2]
    exacts [r.qm, r.pm]
  have p1 := ends_lnext M' f.ep'
  have p2 := ends_lprev M' f.ep'
  have q1 := ends_lnext M' f.eq'
  have q2 := ends_lprev M' f.eq'
  rw [f.ap'] at p1 p2
  rw [f.aq'] at q1 q2
  have nq2 : M'.dest (lprev q') = 0 := by rw [← hc]; exact congrArg Prod.snd q2
  have a0 : a ≠ 0 := hc ▸ r.ac
  have b0 : b ≠ 0 := hc ▸ r.bc
  have d0 : d ≠ 0 := hc ▸ f.cd.symm
  have st : Reach M' (lprev q') p' := by
    have := (Reach.refl M' (lprev q')).next
    rwa [show Ghosts.around M' (lprev q') = p' from by rw [Ghosts.around, lnext_lprev', f.npq.2]] at this
  refine fence_of_reach C' (s := lprev q') hq' nq2 ?_
  have main := fence_induct C F (s := lnext p) hp (by rw [← hc]; exact congrArg Prod.snd r.p1)
    (fun x => (x.1 = p.1 ∨ x.1 = q.1) ∨ Reach M' (lprev q') x) (.inl (.inl rfl)) (by
      intro x hx h0 ih
      by_cases hxp : x.1 = p.1
      · right
        have : x = lnext p := by
          rcases same_tri hxp with rfl | rfl | rfl
          · exact absurd ((congrArg Prod.snd r.p0).symm.trans h0) b0
          · rfl
          · exact absurd ((congrArg Prod.snd r.p2).symm.trans h0) a0
        rw [this]
        have := st.next
        rw [show Ghosts.around M' p' = M.nb (lprev p) from by rw [Ghosts.around, f.nB.1]] at this
        rw [Ghosts.around, lnext_lnext']
        exact this
      by_cases hxq : x.1 = q.1
      · exfalso
        rcases same_tri hxq with rfl | rfl | rfl
        · exact a0 ((congrArg Prod.snd r.q0).symm.trans h0)
        · exact d0 ((congrArg Prod.snd r.q1).symm.trans h0)
        · exact b0 ((congrArg Prod.snd r.q2).symm.trans h0)
      have ih := ih.resolve_left (by tauto)
      have o0 : M.org (lnext x) = 0 := by rw [org_lnext]; exact h0
      by_cases hA : lnext x = M.nb (lnext p)
      · left; left
        show (M.nb (lnext x)).1 = p.1
        rw [hA, (C.mate (lnext p) hp).2.1]; rfl
      · right
        have := ih.next
        rw [show Ghosts.around M' x = Ghosts.around M x from ?_] at this
        · exact this
        · refine f.onb (lnext x) hxp hxq hA ?_ ?_ ?_
          · intro e; rw [e] at o0; exact a0 ((congrArg Prod.fst r.B).symm.trans o0)
          · intro e; rw [e] at o0; exact d0 ((congrArg Prod.fst r.C).symm.trans o0)
          · intro e; rw [e] at o0; exact b0 ((congrArg Prod.fst r.D).symm.trans o0))
  intro x hx h0
  rcases f.cases x with h | h
  · rcases h with rfl | rfl | rfl | rfl | rfl | rfl
    · exact st
    · exact absurd ((congrArg Prod.snd p1).symm.trans h0) a0
    · exact absurd ((congrArg Prod.snd p2).symm.trans h0) d0
    · exact absurd ((congrArg Prod.snd f.eq').symm.trans h0) d0
    · exact absurd ((congrArg Prod.snd q1).symm.trans h0) b0
    · exact Reach.refl _ _
  · refine (main x hx ?_).resolve_left (by tauto)
    have := f.oends h.1 h.2
    rw [← h0]; exact (congrArg Prod.snd this).symm

end flipped

theorem lnext_ne (x : TEdge) : lnext x ≠ x := by
  obtain ⟨a, i⟩ := x
  simp [lnext]
theorem lprev_ne (x : TEdge) : lprev x ≠ x := by
  obtain ⟨a, i⟩ := x
  simp only [lprev, ne_eq, Prod.mk.injEq, true_and]; revert i; decide
theorem lnext_ne_lprev (x : TEdge) : lnext x ≠ lprev x := by
  obtain ⟨a, i⟩ := x
  simp only [lnext, lprev, ne_eq, Prod.mk.injEq, true_and]; revert i; decide

section steps
variable [IsStrictOrderedRing K]
variable {pos : Nat → Vec K} {t : Nat} {all : Finset Nat} {V : Nat → Prop} {m0 : TMesh K} {s : Knit K}

/-- What bonds say, if the edges are told apart by their ends. -/
theorem bonds_ends {M : TMesh K} (C : M.Closed all) (P : List (TEdge × TEdge)) (nb : TEdge → TEdge)
    (hm : ∀ x ∈ flat P, x.1 ∈ all) (hn : ((flat P).map (ends M)).Nodup) {a b : TEdge} (h : (a, b) ∈ P) :
    bonds nb P a = b ∧ bonds nb P b = a := by
  have A := apart_of_nodup (nodup_of_ends M hn) (by rintro x hx rfl; exact C.out (hm _ hx))
  have := bonds_mem A nb h
  refine ⟨this.1, this.2 ?_⟩
  rintro e
  simp only at e
  have := hm b (mem_flat.2 ⟨_, h, .inr rfl⟩)
  rw [e] at this
  exact C.out this

theorem addRight_nb (I : Knitting pos t all V m0 s) (hne : s.upperright ≠ s.lowerleft) :
    s.addRight.rightcand = (s.top t).nb (lprev s.rightcand) ∧
    (s.addRight.top t).nb = bonds (preNb s.m.nb t) [(s.baseedge, s.rightcand), ((t, 0), lprev s.rightcand),
      ((t, 1), (s.top t).nb (lprev s.rightcand)), ((t, 2), s.leftcand)] := by
  obtain ⟨n1, n2, n3, -, -, n6, n7⟩ := I.ne
  have eR2 := ends_lprev _ I.endsR
  rw [I.apexR] at eR2
  have d1 : lprev s.rightcand ≠ s.baseedge := ne_of_ends (M := s.top t) (by rw [eR2, I.endsB]; simp [n2.symm])
  have d2 : lprev s.rightcand ≠ s.leftcand := ne_of_ends (M := s.top t) (by rw [eR2, I.endsL]; simp [hne])
  have hX : s.addRight.rightcand = (s.top t).nb (lprev s.rightcand) := by
    rw [nb_old (by exact I.rne) d1 d2 (lprev_ne _)]
    simp [Knit.addRight, TMesh.bond, TMesh.setdest, Function.update_of_ne d1, Function.update_of_ne (lprev_ne _)]
  refine ⟨hX, ?_⟩
  rw [top_nb, hX]
  have : s.addRight.m.nb = bonds s.m.nb [(s.baseedge, s.rightcand)] := rfl
  rw [this, preNb_bonds]
  · rfl
  · simp only [flat, List.flatMap_cons, List.flatMap_nil, List.append_nil, List.mem_cons, List.not_mem_nil, or_false]
    rintro x (rfl | rfl)
    · exact I.bne
    · exact I.rne

theorem addRight_apex {x : TEdge} (hx : x.1 ≠ t) :
    (s.addRight.top t).apex x = if x = lnext s.rightcand then s.lowerleft else (s.top t).apex x := by
  rw [top_apex _ _ hx, top_apex _ _ hx]
  simp [Knit.addRight, TMesh.bond, TMesh.setdest, Function.update_apply, lprev_lprev']

theorem top_sg (s : Knit K) (t : Nat) (x : TEdge) : (s.top t).sg x = if x.1 = t then noSub else s.m.sg x := by
  rfl

theorem addRight_sg (x : TEdge) : (s.addRight.top t).sg x = (s.top t).sg x := by
  rw [top_sg, top_sg]; rfl

theorem Knitting.addRight_flip (I : Knitting pos t all V m0 s) (hne : s.upperright ≠ s.lowerleft) :
    Flipped (s.top t) (s.addRight.top t) s.rightcand (t, 1) (t, 0) (lprev s.rightcand)
      0 s.lowerright s.upperright s.lowerleft := by
  obtain ⟨n1, n2, n3, -, -, n6, n7⟩ := I.ne
  obtain ⟨hX', hnb⟩ := addRight_nb I hne
  have C := I.closed
  have eB := I.endsB
  have eL := I.endsL
  have eR := I.endsR
  have aR := I.apexR
  have e0 := top_ends0 s t
  have e1 := top_ends1 s t
  have e2 := top_ends2 s t
  have eR1 := ends_lnext _ eR
  have eR2 := ends_lprev _ eR
  rw [aR] at eR1 eR2
  have mX := C.mate (lprev s.rightcand) I.rmem
  have eX := mate_ends C (x := lprev s.rightcand) I.rmem eR2
  have mA := C.mate (lnext s.rightcand) I.rmem
  have eA := mate_ends C (x := lnext s.rightcand) I.rmem eR1
  have hmem : ∀ x ∈ flat [(s.baseedge, s.rightcand), ((t, 0), lprev s.rightcand),
      ((t, 1), (s.top t).nb (lprev s.rightcand)), ((t, 2), s.leftcand)], x.1 ∈ all := by
    simp only [flat, List.flatMap_cons, List.flatMap_nil, List.cons_append, List.nil_append, List.mem_cons,
      List.not_mem_nil, or_false]
    rintro x (rfl | rfl | rfl | rfl | rfl | rfl | rfl | rfl)
    exacts [I.bmem, I.rmem, I.tmem, I.rmem, I.tmem, mX.1, I.tmem, I.lmem]
  have nd : ((flat [(s.baseedge, s.rightcand), ((t, 0), lprev s.rightcand),
      ((t, 1), (s.top t).nb (lprev s.rightcand)), ((t, 2), s.leftcand)]).map (ends (s.top t))).Nodup := by
    simp only [flat, List.flatMap_cons, List.flatMap_nil, List.cons_append, List.nil_append, List.map_cons,
      List.map_nil, eB, eR, e0, eR2, e1, eX, e2, eL]
    simp [n1, n1.symm, n2, n2.symm, n3, n3.symm, n6, n6.symm, n7, n7.symm, hne, hne.symm]
  have bd := fun {a b} h => bonds_ends (a := a) (b := b) C _ (preNb s.m.nb t) hmem nd h
  rw [← hnb] at bd
  have keep : ∀ x : TEdge, x ∉ flat [(s.baseedge, s.rightcand), ((t, 0), lprev s.rightcand),
      ((t, 1), (s.top t).nb (lprev s.rightcand)), ((t, 2), s.leftcand)] → (s.addRight.top t).nb x = (s.top t).nb x := by
    intro x hx
    rw [hnb, bonds_other _ _ (by rw [← mem_flat]; exact hx), top_nb, bonds_other]
    rw [← mem_flat]
    simp only [flat, List.flatMap_cons, List.flatMap_nil, List.cons_append, List.nil_append, List.mem_cons,
      List.not_mem_nil, or_false, not_or] at hx ⊢
    tauto
  have keepE : ∀ x : TEdge, ends (s.top t) x ∉ (flat [(s.baseedge, s.rightcand), ((t, 0), lprev s.rightcand),
      ((t, 1), (s.top t).nb (lprev s.rightcand)), ((t, 2), s.leftcand)]).map (ends (s.top t)) →
      (s.addRight.top t).nb x = (s.top t).nb x :=
    fun x hx => keep x fun h => hx (List.mem_map_of_mem h)
  simp only [flat, List.flatMap_cons, List.flatMap_nil, List.cons_append, List.nil_append, List.map_cons,
    List.map_nil, eB, eR, e0, eR2, e1, eX, e2, eL] at keepE
  refine
    { epq := eR, ap := aR, aq := top_apex1 s t, pq := I.nbR, cd := hne, tri := .inr ⟨rfl, rfl⟩
      ep' := top_ends0 s.addRight t, eq' := ?_, ap' := top_apex0 _ t, aq' := ?_, npq := bd (by simp), nA := ?_,
      nB := bd (by simp [lnext]), nC := ?_, nD := ?_, onb := ?_, oap := ?_
      osg := addRight_sg }
  · unfold ends TMesh.org TMesh.dest
    rw [lnext_lprev', lprev_lprev', addRight_apex (by exact I.rne), addRight_apex (by exact I.rne), if_pos rfl,
      if_neg (lnext_ne _).symm, aR]
  · rw [addRight_apex (by exact I.rne), if_neg (lnext_ne_lprev _).symm]
    exact congrArg Prod.snd eR
  · rw [lprev_lprev', keepE _ (by rw [eR1]; simp [n1.symm, n3, n6, n7, n7.symm, hne]),
      keepE _ (by rw [eA]; simp [n1.symm, n3, n6, n7, n7.symm, hne])]
    exact ⟨rfl, mA.2.1⟩
  · rw [show lnext (t, 1) = (t, 2) from rfl, I.nb2]
    exact bd (by simp [lprev])
  · rw [show lprev (t, 1) = (t, 0) from rfl, I.nb0, lnext_lprev']
    have := bd (a := s.baseedge) (b := s.rightcand) (by simp)
    exact ⟨this.2, this.1⟩
  · intro x h1 h2 _ h4 h5 h6
    rw [show lnext (t, 1) = (t, 2) from rfl, I.nb2] at h5
    rw [show lprev (t, 1) = (t, 0) from rfl, I.nb0] at h6
    apply keep
    simp only [flat, List.flatMap_cons, List.flatMap_nil, List.cons_append, List.nil_append, List.mem_cons,
      List.not_mem_nil, or_false, not_or]
    refine ⟨h6, ?_, ?_, ?_, ?_, h4, ?_, h5⟩ <;> rintro rfl
    exacts [h1 rfl, h2 rfl, h1 rfl, h2 rfl, h2 rfl]
  · intro x h1 h2
    rw [addRight_apex (by exact h2), if_neg (by rintro rfl; exact h1 rfl)]

theorem Knitting.addRight (I : Knitting pos t all V m0 s)
    (hc : CcwPts (pos s.lowerleft) (pos s.lowerright) (pos s.upperright)) (hne : s.upperright ≠ s.lowerleft) :
    Knitting pos t all V m0 s.addRight := by
  have f := I.addRight_flip hne
  have r := f.around I.closed I.rmem
  have o := r.out f.cd (.inr (.inl rfl))
  obtain ⟨hX, -⟩ := addRight_nb I hne
  have hl : s.leftcand ≠ lnext s.rightcand := by
    have := ends_lnext _ I.endsR
    exact ne_of_ends (M := s.top t) (by rw [I.endsL, this, I.apexR]; simp [I.ne.1])
  exact
    { closed := f.closed I.closed I.rmem, fence := f.fence_out I.closed I.fence I.rmem rfl, tmem := I.tmem
      bmem := I.rmem, lmem := I.lmem, rmem := hX ▸ r.Bm, bne := I.rne, lne := I.lne
      rne := by rw [hX]; exact o.2
      ul := by
        have := addRight_apex (s := s) I.lne
        rw [if_neg hl, I.apexL, top_apex _ _ I.lne] at this
        exact this
      ur := rfl
      ccw := f.ccw I.ccw (fun h => absurd rfl h) (fun _ _ _ => ccw_turn (ccw_turn hc))
      vertex := fun v => (f.vertex I.closed I.rmem v).trans (I.vertex v)
      other := I.other.trans (f.same I.closed I.rmem) }

end steps

section steps
variable [IsStrictOrderedRing K]
variable {pos : Nat → Vec K} {t : Nat} {all : Finset Nat} {V : Nat → Prop} {m0 : TMesh K} {s : Knit K}

theorem addLeft_nb (I : Knitting pos t all V m0 s) (hne : s.upperleft ≠ s.lowerright) :
    s.addLeft.leftcand = (s.top t).nb (lnext s.leftcand) ∧
    (s.addLeft.top t).nb = bonds (preNb s.m.nb t) [(s.baseedge, s.leftcand), ((t, 0), lnext s.leftcand),
      ((t, 1), s.rightcand), ((t, 2), (s.top t).nb (lnext s.leftcand))] := by
  obtain ⟨n1, n2, n3, n4, n5, -, -⟩ := I.ne
  have eL1 := ends_lnext _ I.endsL
  rw [I.apexL] at eL1
  have d1 : lnext s.leftcand ≠ s.baseedge := ne_of_ends (M := s.top t) (by rw [eL1, I.endsB]; simp [n3.symm])
  have d2 : lnext s.leftcand ≠ s.rightcand := ne_of_ends (M := s.top t) (by rw [eL1, I.endsR]; simp [hne])
  have hX : s.addLeft.leftcand = (s.top t).nb (lnext s.leftcand) := by
    rw [nb_old (by exact I.lne) d1 (lnext_ne _) d2]
    simp [Knit.addLeft, TMesh.bond, TMesh.setorg, Function.update_of_ne d1, Function.update_of_ne (lnext_ne _)]
  refine ⟨hX, ?_⟩
  rw [top_nb, hX]
  have : s.addLeft.m.nb = bonds s.m.nb [(s.baseedge, s.leftcand)] := rfl
  rw [this, preNb_bonds]
  · rfl
  · simp only [flat, List.flatMap_cons, List.flatMap_nil, List.append_nil, List.mem_cons, List.not_mem_nil, or_false]
    rintro x (rfl | rfl)
    · exact I.bne
    · exact I.lne

theorem addLeft_apex {x : TEdge} (hx : x.1 ≠ t) :
    (s.addLeft.top t).apex x = if x = lprev s.leftcand then s.lowerright else (s.top t).apex x := by
  rw [top_apex _ _ hx, top_apex _ _ hx]
  simp [Knit.addLeft, TMesh.bond, TMesh.setorg, Function.update_apply, lnext_lnext']

theorem addLeft_sg (x : TEdge) : (s.addLeft.top t).sg x = (s.top t).sg x := by
  rw [top_sg, top_sg]; rfl

theorem Knitting.addLeft_flip (I : Knitting pos t all V m0 s) (hne : s.upperleft ≠ s.lowerright) :
    Flipped (s.top t) (s.addLeft.top t) (t, 2) s.leftcand (t, 0) (lnext s.leftcand)
      0 s.lowerleft s.lowerright s.upperleft := by
  obtain ⟨n1, n2, n3, n4, n5, -, -⟩ := I.ne
  obtain ⟨hX', hnb⟩ := addLeft_nb I hne
  have C := I.closed
  have eB := I.endsB
  have eL := I.endsL
  have eR := I.endsR
  have aL := I.apexL
  have e0 := top_ends0 s t
  have e1 := top_ends1 s t
  have e2 := top_ends2 s t
  have eL1 := ends_lnext _ eL
  have eL2 := ends_lprev _ eL
  rw [aL] at eL1 eL2
  have mX := C.mate (lnext s.leftcand) I.lmem
  have eX := mate_ends C (x := lnext s.leftcand) I.lmem eL1
  have mA := C.mate (lprev s.leftcand) I.lmem
  have eA := mate_ends C (x := lprev s.leftcand) I.lmem eL2
  have hmem : ∀ x ∈ flat [(s.baseedge, s.leftcand), ((t, 0), lnext s.leftcand),
      ((t, 1), s.rightcand), ((t, 2), (s.top t).nb (lnext s.leftcand))], x.1 ∈ all := by
    simp only [flat, List.flatMap_cons, List.flatMap_nil, List.cons_append, List.nil_append, List.mem_cons,
      List.not_mem_nil, or_false]
    rintro x (rfl | rfl | rfl | rfl | rfl | rfl | rfl | rfl)
    exacts [I.bmem, I.lmem, I.tmem, I.lmem, I.tmem, I.rmem, I.tmem, mX.1]
  have nd : ((flat [(s.baseedge, s.leftcand), ((t, 0), lnext s.leftcand),
      ((t, 1), s.rightcand), ((t, 2), (s.top t).nb (lnext s.leftcand))]).map (ends (s.top t))).Nodup := by
    simp only [flat, List.flatMap_cons, List.flatMap_nil, List.cons_append, List.nil_append, List.map_cons,
      List.map_nil, eB, eR, e0, eL1, e1, eX, e2, eL]
    simp [n1, n1.symm, n2, n2.symm, n3, n3.symm, n4, n4.symm, n5, n5.symm, hne, hne.symm]
  have bd := fun {a b} h => bonds_ends (a := a) (b := b) C _ (preNb s.m.nb t) hmem nd h
  rw [← hnb] at bd
  have keep : ∀ x : TEdge, x ∉ flat [(s.baseedge, s.leftcand), ((t, 0), lnext s.leftcand),
      ((t, 1), s.rightcand), ((t, 2), (s.top t).nb (lnext s.leftcand))] →
      (s.addLeft.top t).nb x = (s.top t).nb x := by
    intro x hx
    rw [hnb, bonds_other _ _ (by rw [← mem_flat]; exact hx), top_nb, bonds_other]
    rw [← mem_flat]
    simp only [flat, List.flatMap_cons, List.flatMap_nil, List.cons_append, List.nil_append, List.mem_cons,
      List.not_mem_nil, or_false, not_or] at hx ⊢
    tauto
  have keepE : ∀ x : TEdge, ends (s.top t) x ∉ (flat [(s.baseedge, s.leftcand), ((t, 0), lnext s.leftcand),
      ((t, 1), s.rightcand), ((t, 2), (s.top t).nb (lnext s.leftcand))]).map (ends (s.top t)) →
      (s.addLeft.top t).nb x = (s.top t).nb x :=
    fun x hx => keep x fun h => hx (List.mem_map_of_mem h)
  simp only [flat, List.flatMap_cons, List.flatMap_nil, List.cons_append, List.nil_append, List.map_cons,
    List.map_nil, eB, eR, e0, eL1, e1, eX, e2, eL] at keepE
  refine
    { epq := e2, ap := top_apex2 s t, aq := aL, pq := I.nb2, cd := hne.symm, tri := .inl ⟨rfl, rfl⟩
      ep' := top_ends0 s.addLeft t, eq' := ?_, ap' := top_apex0 _ t, aq' := ?_, npq := bd (by simp), nA := ?_,
      nB := ?_, nC := bd (by simp [lprev]), nD := ?_, onb := ?_, oap := ?_
      osg := addLeft_sg }
  · unfold ends TMesh.org TMesh.dest
    rw [lnext_lnext', lprev_lnext', addLeft_apex (by exact I.lne), addLeft_apex (by exact I.lne), if_pos rfl,
      if_neg (lprev_ne _).symm, aL]
  · rw [addLeft_apex (by exact I.lne), if_neg (lnext_ne_lprev _)]
    exact congrArg Prod.fst eL
  · rw [show lnext (t, 2) = (t, 0) from rfl, I.nb0, lprev_lnext']
    have := bd (a := s.baseedge) (b := s.leftcand) (by simp)
    exact ⟨this.2, this.1⟩
  · rw [show lprev (t, 2) = (t, 1) from rfl, I.nb1]
    exact bd (by simp [lnext])
  · rw [lnext_lnext', keepE _ (by rw [eL2]; simp [n1, n2, n4, n5, n5.symm, hne]),
      keepE _ (by rw [eA]; simp [n1, n2, n4, n5, n5.symm, hne])]
    exact ⟨rfl, mA.2.1⟩
  · intro x h1 h2 h3 h4 h5 _
    rw [show lnext (t, 2) = (t, 0) from rfl, I.nb0] at h3
    rw [show lprev (t, 2) = (t, 1) from rfl, I.nb1] at h4
    apply keep
    simp only [flat, List.flatMap_cons, List.flatMap_nil, List.cons_append, List.nil_append, List.mem_cons,
      List.not_mem_nil, or_false, not_or]
    refine ⟨h3, ?_, ?_, ?_, ?_, h4, ?_, h5⟩ <;> rintro rfl
    exacts [h2 rfl, h1 rfl, h2 rfl, h1 rfl, h1 rfl]
  · intro x h1 h2
    rw [addLeft_apex (by exact h1), if_neg (by rintro rfl; exact h2 rfl)]

theorem Knitting.addLeft (I : Knitting pos t all V m0 s)
    (hc : CcwPts (pos s.lowerleft) (pos s.lowerright) (pos s.upperleft)) (hne : s.upperleft ≠ s.lowerright) :
    Knitting pos t all V m0 s.addLeft := by
  have f := I.addLeft_flip hne
  have r := f.around I.closed I.tmem
  have o := r.out f.cd (.inr (.inr (.inl rfl)))
  obtain ⟨hX, -⟩ := addLeft_nb I hne
  have hl : s.rightcand ≠ lprev s.leftcand := by
    have := ends_lprev _ I.endsL
    exact ne_of_ends (M := s.top t) (by rw [I.endsR, this, I.apexL]; simp [I.ne.2.2.2.1.symm])
  exact
    { closed := f.closed I.closed I.tmem, fence := f.fence_out I.closed I.fence I.tmem rfl, tmem := I.tmem
      bmem := I.lmem, rmem := I.rmem, lmem := hX ▸ r.Cm, bne := I.lne, rne := I.rne
      lne := by rw [hX]; exact o.1
      ur := by
        have := addLeft_apex (s := s) I.rne
        rw [if_neg hl, I.apexR, top_apex _ _ I.rne] at this
        exact this
      ul := rfl
      ccw := f.ccw I.ccw (fun h => absurd rfl h) (fun _ _ _ => ccw_turn hc)
      vertex := fun v => (f.vertex I.closed I.tmem v).trans (I.vertex v)
      other := I.other.trans (f.same I.closed I.tmem) }

end steps

/-! ### Taking an edge away -/

section steps
variable [IsStrictOrderedRing K]
variable {pos : Nat → Vec K} {t : Nat} {all : Finset Nat} {V : Nat → Prop} {m0 : TMesh K} {s : Knit K}

theorem bond_nb (m : TMesh K) (a b : TEdge) : (m.bond a b).nb = bonds m.nb [(a, b)] := rfl
theorem setorg_nb (m : TMesh K) (a : TEdge) (v : Nat) : (m.setorg a v).nb = m.nb := rfl
theorem setdest_nb (m : TMesh K) (a : TEdge) (v : Nat) : (m.setdest a v).nb = m.nb := rfl
theorem setapex_nb (m : TMesh K) (a : TEdge) (v : Nat) : (m.setapex a v).nb = m.nb := rfl

/-- The edges at the triangle to be opened on the left side. -/
structure OpenL (M : TMesh K) (all : Finset Nat) (t : Nat) (s : Knit K) (ne : TEdge) (na : Nat) : Prop where
  a : M.apex ne = na
  m : ne.1 ∈ all
  e0 : ends M ne = (s.lowerleft, s.upperleft)
  e1 : ends M (lnext ne) = (s.upperleft, na)
  e2 : ends M (lprev ne) = (na, s.lowerleft)
  l1 : ends M (lnext s.leftcand) = (0, s.upperleft)
  l2 : ends M (lprev s.leftcand) = (s.upperleft, s.lowerleft)
  top : ends M (M.nb (lnext ne)) = (na, s.upperleft)
  side : ends M (M.nb (lprev ne)) = (s.lowerleft, na)
  outer : ends M (M.nb (lnext s.leftcand)) = (s.upperleft, 0)
  topm : (M.nb (lnext ne)).1 ∈ all
  sidem : (M.nb (lprev ne)).1 ∈ all
  outerm : (M.nb (lnext s.leftcand)).1 ∈ all
  ut : ne.1 ≠ t
  topt : (M.nb (lnext ne)).1 ≠ t
  sidet : (M.nb (lprev ne)).1 ≠ t
  outert : (M.nb (lnext s.leftcand)).1 ≠ t
  nl : na ≠ s.lowerleft
  nu : na ≠ s.upperleft

theorem Knitting.openL (I : Knitting pos t all V m0 s) {ne : TEdge} (hne : ne = (s.top t).nb (lprev s.leftcand))
    (h1 : s.upperleft ≠ s.lowerright) (h2 : s.m.apex ne ≠ 0) (h3 : s.m.apex ne ≠ s.lowerright) :
    OpenL (s.top t) all t s ne (s.m.apex ne) := by
  obtain ⟨n1, n2, n3, n4, n5, -, -⟩ := I.ne
  have C := I.closed
  have l1 := ends_lnext _ I.endsL
  have l2 := ends_lprev _ I.endsL
  rw [I.apexL] at l1 l2
  have m := (C.mate (lprev s.leftcand) I.lmem).1
  have e0 := mate_ends C (x := lprev s.leftcand) I.lmem l2
  rw [← hne] at m e0
  have t0 := top_ends0 s t
  have t1 := top_ends1 s t
  have t2 := top_ends2 s t
  have tt : ∀ x : TEdge, ends (s.top t) x ∉ [ends (s.top t) (t, 0), ends (s.top t) (t, 1), ends (s.top t) (t, 2)] →
      x.1 ≠ t := fun x h => tri_ne (M := s.top t) (y := (t, 0)) h
  rw [t0, t1, t2] at tt
  have ut := tt ne (by rw [e0]; simp [h1, n2, n4, n5])
  have a := top_apex s t ut
  have e1 := ends_lnext _ e0
  have e2 := ends_lprev _ e0
  rw [a] at e1 e2
  have nl := ends_ne C (x := lprev ne) m e2
  have nu := ends_ne C (x := lnext ne) m e1
  have top := mate_ends C (x := lnext ne) m e1
  have side := mate_ends C (x := lprev ne) m e2
  have outer := mate_ends C (x := lnext s.leftcand) I.lmem l1
  exact
    { a := a, m := m, e0 := e0, e1 := e1, e2 := e2, l1 := l1, l2 := l2, top := top, side := side, outer := outer
      topm := (C.mate (lnext ne) m).1, sidem := (C.mate (lprev ne) m).1
      outerm := (C.mate (lnext s.leftcand) I.lmem).1, ut := ut
      topt := tt _ (by rw [top]; simp [h2, h3, nl, n4])
      sidet := tt _ (by rw [side]; simp [h2, h3, n1, n2])
      outert := tt _ (by rw [outer]; simp [h1, n3.symm, n4])
      nl := nl, nu := nu.symm }

theorem openLeft_nb (I : Knitting pos t all V m0 s) {ne : TEdge} (O : OpenL (s.top t) all t s ne (s.m.apex ne))
    (h1 : s.upperleft ≠ s.lowerright) (h2 : s.m.apex ne ≠ 0) (h3 : s.m.apex ne ≠ s.lowerright) :
    (s.openLeft ne).2 = (s.top t).nb (lprev ne) ∧
    (s.openLeft ne).1.m.nb = bonds s.m.nb [(lprev ne, (s.top t).nb (lnext ne)),
      (s.leftcand, (s.top t).nb (lprev ne)), (lnext ne, (s.top t).nb (lnext s.leftcand))] ∧
    ((s.openLeft ne).1.top t).nb = bonds (preNb s.m.nb t) [(lprev ne, (s.top t).nb (lnext ne)),
      (s.leftcand, (s.top t).nb (lprev ne)), (lnext ne, (s.top t).nb (lnext s.leftcand)),
      ((t, 0), s.baseedge), ((t, 1), s.rightcand), ((t, 2), lnext s.leftcand)] := by
  obtain ⟨n1, n2, n3, n4, n5, -, -⟩ := I.ne
  have eB := I.endsB
  have eL := I.endsL
  have eR := I.endsR
  have nl := O.nl
  have nu := O.nu
  have u1 : (s.top t).nb (lnext ne) = s.m.nb (lnext ne) := nb_old (by exact O.ut)
    (ne_of_ends (M := s.top t) (by rw [O.e1, eB]; simp [nl]))
    (ne_of_ends (M := s.top t) (by rw [O.e1, eL]; simp [h2]))
    (ne_of_ends (M := s.top t) (by rw [O.e1, eR]; simp [h3]))
  have u2 : (s.top t).nb (lprev ne) = s.m.nb (lprev ne) := nb_old (by exact O.ut)
    (ne_of_ends (M := s.top t) (by rw [O.e2, eB]; simp [h3]))
    (ne_of_ends (M := s.top t) (by rw [O.e2, eL]; simp [nl]))
    (ne_of_ends (M := s.top t) (by rw [O.e2, eR]; simp [h2]))
  have u3 : (s.top t).nb (lnext s.leftcand) = s.m.nb (lnext s.leftcand) := nb_old (by exact I.lne)
    (ne_of_ends (M := s.top t) (by rw [O.l1, eB]; simp [n3.symm]))
    (lnext_ne _)
    (ne_of_ends (M := s.top t) (by rw [O.l1, eR]; simp [h1]))
  have m0 : (s.openLeft ne).1.m.nb = bonds s.m.nb [(lprev ne, (s.top t).nb (lnext ne)),
      (s.leftcand, (s.top t).nb (lprev ne)), (lnext ne, (s.top t).nb (lnext s.leftcand))] := by
    have w : bonds s.m.nb [(lprev ne, (s.top t).nb (lnext ne)), (s.leftcand, (s.top t).nb (lprev ne))]
        (lnext s.leftcand) = (s.top t).nb (lnext s.leftcand) := by
      rw [u3, bonds_other]
      rw [← mem_flat]
      simp only [flat, List.flatMap_cons, List.flatMap_nil, List.cons_append, List.nil_append, List.mem_cons,
        List.not_mem_nil, or_false, not_or]
      refine ⟨ne_of_ends (M := s.top t) ?_, ne_of_ends (M := s.top t) ?_, lnext_ne _, ne_of_ends (M := s.top t) ?_⟩
      · rw [O.l1, O.e2]; simp [h2.symm]
      · rw [O.l1, O.top]; simp [h2.symm]
      · rw [O.l1, O.side]; simp [n2.symm]
    rw [← w]
    simp only [Knit.openLeft, setapex_nb, setdest_nb, setorg_nb, bond_nb, lnext_lnext', lprev_lprev', u1, u2]
    rfl
  refine ⟨?_, m0, ?_⟩
  · simp only [Knit.openLeft, lnext_lnext', u2]
  · rw [top_nb, m0, preNb_bonds]
    · rfl
    · simp only [flat, List.flatMap_cons, List.flatMap_nil, List.cons_append, List.nil_append, List.mem_cons,
        List.not_mem_nil, or_false]
      rintro x (rfl | rfl | rfl | rfl | rfl | rfl)
      exacts [O.ut, O.topt, I.lne, O.sidet, O.ut, O.outert]

theorem openLeft_apex {ne x : TEdge} (hx : x.1 ≠ t) :
    ((s.openLeft ne).1.top t).apex x = if x = lnext ne then s.m.apex ne else if x = ne then s.upperleft else
      if x = lprev ne then 0 else if x = lnext s.leftcand then s.m.apex ne else if x = s.leftcand then 0 else
      if x = lprev s.leftcand then s.lowerleft else (s.top t).apex x := by
  rw [top_apex _ _ hx, top_apex _ _ hx]
  simp only [Knit.openLeft, TMesh.bond, TMesh.setdest, TMesh.setorg, TMesh.setapex, Function.update_apply,
    lprev_lprev', lnext_lnext', lprev_lnext']

theorem top_apex_t {s' : Knit K} (h1 : s'.lowerleft = s.lowerleft) (h2 : s'.lowerright = s.lowerright) (i : Fin 3) :
    (s'.top t).apex (t, i) = (s.top t).apex (t, i) := by
  match i with
  | 0 => rw [top_apex0, top_apex0]
  | 1 => rw [top_apex1, top_apex1, h1]
  | 2 => rw [top_apex2, top_apex2, h2]

theorem openLeft_sg (ne x : TEdge) : ((s.openLeft ne).1.top t).sg x = (s.top t).sg x := by
  rw [top_sg, top_sg]; rfl

/-- The bonds after an edge is taken away on the left side. -/
def bondsL (M : TMesh K) (t : Nat) (s : Knit K) (ne : TEdge) : List (TEdge × TEdge) :=
  [(lprev ne, M.nb (lnext ne)), (s.leftcand, M.nb (lprev ne)), (lnext ne, M.nb (lnext s.leftcand)),
    ((t, 0), s.baseedge), ((t, 1), s.rightcand), ((t, 2), lnext s.leftcand)]

theorem flat_bondsL (M : TMesh K) (t : Nat) (s : Knit K) (ne : TEdge) : flat (bondsL M t s ne) =
    [lprev ne, M.nb (lnext ne), s.leftcand, M.nb (lprev ne), lnext ne, M.nb (lnext s.leftcand), (t, 0), s.baseedge,
      (t, 1), s.rightcand, (t, 2), lnext s.leftcand] := rfl

theorem OpenL.bonds (I : Knitting pos t all V m0 s) {ne : TEdge} (O : OpenL (s.top t) all t s ne (s.m.apex ne))
    (h1 : s.upperleft ≠ s.lowerright) (h2 : s.m.apex ne ≠ 0) (h3 : s.m.apex ne ≠ s.lowerright) :
    (∀ a b, (a, b) ∈ bondsL (s.top t) t s ne →
      ((s.openLeft ne).1.top t).nb a = b ∧ ((s.openLeft ne).1.top t).nb b = a) ∧
    (∀ x, x ∉ flat (bondsL (s.top t) t s ne) → ((s.openLeft ne).1.top t).nb x = (s.top t).nb x) ∧
    ((s.openLeft ne).1.top t).nb ne = (s.top t).nb ne ∧
    ((s.openLeft ne).1.top t).nb (lprev s.leftcand) = (s.top t).nb (lprev s.leftcand) := by
  obtain ⟨-, -, hnb⟩ := openLeft_nb I O h1 h2 h3
  obtain ⟨n1, n2, n3, n4, n5, -, -⟩ := I.ne
  have eB := I.endsB
  have eL := I.endsL
  have eR := I.endsR
  have t0 := top_ends0 s t
  have t1 := top_ends1 s t
  have t2 := top_ends2 s t
  have nl := O.nl
  have nu := O.nu
  have hmem : ∀ x ∈ flat (bondsL (s.top t) t s ne), x.1 ∈ all := by
    simp only [flat_bondsL, List.mem_cons, List.not_mem_nil, or_false]
    rintro x (rfl | rfl | rfl | rfl | rfl | rfl | rfl | rfl | rfl | rfl | rfl | rfl)
    exacts [O.m, O.topm, I.lmem, O.sidem, O.m, O.outerm, I.tmem, I.bmem, I.tmem, I.rmem, I.tmem, I.lmem]
  have fl : (flat (bondsL (s.top t) t s ne)).map (ends (s.top t)) =
      [(s.m.apex ne, s.lowerleft), (s.m.apex ne, s.upperleft), (s.lowerleft, 0), (s.lowerleft, s.m.apex ne),
        (s.upperleft, s.m.apex ne), (s.upperleft, 0), (s.lowerleft, s.lowerright), (s.lowerright, s.lowerleft),
        (s.lowerright, 0), (0, s.lowerright), (0, s.lowerleft), (0, s.upperleft)] := by
    simp only [flat_bondsL, List.map_cons, List.map_nil, eB, eR, eL, t0, t1, t2, O.e1, O.e2, O.top, O.side, O.outer,
      O.l1]
  have nd : ((flat (bondsL (s.top t) t s ne)).map (ends (s.top t))).Nodup := by
    rw [fl]
    simp [n1, n1.symm, n2, n2.symm, n3, n3.symm, n4, n4.symm, n5, n5.symm, h1, h1.symm, h2, h2.symm, h3, h3.symm,
      nl, nl.symm, nu, nu.symm]
  have keep : ∀ x, x ∉ flat (bondsL (s.top t) t s ne) → ((s.openLeft ne).1.top t).nb x = (s.top t).nb x := by
    intro x hx
    rw [hnb, bonds_other _ _ (by rw [← mem_flat]; exact hx), top_nb, bonds_other]
    rw [← mem_flat]
    simp only [flat_bondsL, List.mem_cons, List.not_mem_nil, or_false, not_or] at hx
    obtain ⟨-, -, x3, -, -, -, x7, x8, x9, x10, x11, -⟩ := hx
    simp [flat, x3, x7, x8, x9, x10, x11]
  have keepE : ∀ x : TEdge, ends (s.top t) x ∉ (flat (bondsL (s.top t) t s ne)).map (ends (s.top t)) →
      ((s.openLeft ne).1.top t).nb x = (s.top t).nb x :=
    fun x hx => keep x fun h => hx (List.mem_map_of_mem h)
  rw [fl] at keepE
  refine ⟨fun a b h => ?_, keep, keepE _ ?_, keepE _ ?_⟩
  · have := bonds_ends I.closed _ (preNb s.m.nb t) hmem nd h
    rw [hnb]
    exact this
  · rw [O.e0]; simp [n1, n2, n4, n5, n5.symm, h1, h1.symm, h2, h3, nl, nl.symm, nu, nu.symm]
  · rw [O.l2]; simp [n1, n2, n4, n5, n5.symm, h1, h1.symm, h2, h3, nl, nl.symm, nu, nu.symm]

theorem Knitting.openLeft_flip (I : Knitting pos t all V m0 s) {ne : TEdge} (hne : ne = (s.top t).nb (lprev s.leftcand))
    (h1 : s.upperleft ≠ s.lowerright) (h2 : s.m.apex ne ≠ 0) (h3 : s.m.apex ne ≠ s.lowerright) :
    Flipped (s.top t) ((s.openLeft ne).1.top t) (lprev s.leftcand) ne ne (lprev s.leftcand)
      s.upperleft s.lowerleft 0 (s.m.apex ne) := by
  have O := I.openL hne h1 h2 h3
  obtain ⟨bd, keep, kn, kl⟩ := O.bonds I h1 h2 h3
  obtain ⟨n1, n2, n3, n4, n5, -, -⟩ := I.ne
  have C := I.closed
  have eB := I.endsB
  have eL := I.endsL
  have eR := I.endsR
  have aL := I.apexL
  have t0 := top_ends0 s t
  have t1 := top_ends1 s t
  have t2 := top_ends2 s t
  have nl := O.nl
  have nu := O.nu
  have lu : s.leftcand.1 ≠ ne.1 := tri_ne (M := s.top t) (by rw [eL, O.e0, O.e1, O.e2]; simp [h2.symm, n2.symm, n4.symm])
  have apN : ∀ x : TEdge, x.1 = ne.1 → ((s.openLeft ne).1.top t).apex x = if x = lnext ne then s.m.apex ne else
      if x = ne then s.upperleft else if x = lprev ne then 0 else (s.top t).apex x := by
    intro x hx
    rw [openLeft_apex (by rw [hx]; exact O.ut)]
    have q : ∀ y : TEdge, y.1 = s.leftcand.1 → x ≠ y := by rintro y hy rfl; exact lu (hy.symm.trans hx)
    simp only [if_neg (q (lnext s.leftcand) rfl), if_neg (q (s.leftcand) rfl), if_neg (q (lprev s.leftcand) rfl)]
  have apL : ∀ x : TEdge, x.1 = s.leftcand.1 → ((s.openLeft ne).1.top t).apex x =
      if x = lnext s.leftcand then s.m.apex ne else if x = s.leftcand then 0 else
      if x = lprev s.leftcand then s.lowerleft else (s.top t).apex x := by
    intro x hx
    rw [openLeft_apex (by rw [hx]; exact I.lne)]
    have q : ∀ y : TEdge, y.1 = ne.1 → x ≠ y := by rintro y hy rfl; exact lu (hx.symm.trans hy)
    simp only [if_neg (q (lnext ne) rfl), if_neg (q ne rfl), if_neg (q (lprev ne) rfl)]
  have mm := C.mate (lprev s.leftcand) I.lmem
  rw [← hne] at mm
  refine
    { epq := O.l2, ap := ?_, aq := O.a, pq := hne.symm, cd := h2.symm, tri := .inr ⟨rfl, rfl⟩
      ep' := ?_, eq' := ?_, ap' := ?_, aq' := ?_, npq := ?_, nA := ?_,
      nB := ?_, nC := ?_, nD := ?_, onb := ?_, oap := ?_
      osg := fun x => openLeft_sg _ x }
  · exact congrArg Prod.snd eL
  · unfold ends TMesh.org TMesh.dest
    rw [apN (lnext ne) rfl, apN (lprev ne) rfl, if_pos rfl, if_neg (lnext_ne_lprev _).symm, if_neg (lprev_ne _), if_pos rfl]
  · unfold ends TMesh.org TMesh.dest
    rw [lnext_lprev', lprev_lprev', apL s.leftcand rfl, apL (lnext s.leftcand) rfl, if_neg (lnext_ne _).symm, if_pos rfl, if_pos rfl]
  · rw [apN ne rfl, if_neg (lnext_ne _).symm, if_pos rfl]
  · rw [apL (lprev s.leftcand) rfl, if_neg (lnext_ne_lprev _).symm, if_neg (lprev_ne _), if_pos rfl]
  · rw [kn, kl]
    exact ⟨mm.2.1, hne.symm⟩
  · rw [lprev_lprev', lnext_lprev', I.nbL]
    have := bd (t, 2) (lnext s.leftcand) (by simp [bondsL])
    exact ⟨this.2, this.1⟩
  · rw [lprev_lprev']
    exact bd _ _ (by simp [bondsL])
  · exact bd _ _ (by simp [bondsL])
  · rw [lnext_lprev']
    exact bd _ _ (by simp [bondsL])
  · intro x x1 x2 x3 x4 x5 x6
    rw [lnext_lprev', I.nbL] at x3
    rw [lprev_lprev'] at x4
    by_cases k1 : x = (t, 0)
    · rw [k1, I.nb0]; exact (bd _ _ (by simp [bondsL])).1
    by_cases k2 : x = s.baseedge
    · rw [k2, I.nbB]; exact (bd _ _ (by simp [bondsL])).2
    by_cases k3 : x = (t, 1)
    · rw [k3, I.nb1]; exact (bd _ _ (by simp [bondsL])).1
    by_cases k4 : x = s.rightcand
    · rw [k4, I.nbR]; exact (bd _ _ (by simp [bondsL])).2
    apply keep
    simp only [flat_bondsL, List.mem_cons, List.not_mem_nil, or_false, not_or]
    have q1 : ∀ y : TEdge, y.1 = s.leftcand.1 → x ≠ y := by rintro y hy rfl; exact x1 hy
    have q2 : ∀ y : TEdge, y.1 = ne.1 → x ≠ y := by rintro y hy rfl; exact x2 hy
    exact ⟨q2 _ rfl, x5, q1 _ rfl, x6, q2 _ rfl, x4, k1, k2, k3, k4, x3, q1 _ rfl⟩
  · intro x x1 x2
    have q1 : ∀ y : TEdge, y.1 = s.leftcand.1 → x ≠ y := by rintro y hy rfl; exact x1 hy
    have q2 : ∀ y : TEdge, y.1 = ne.1 → x ≠ y := by rintro y hy rfl; exact x2 hy
    by_cases xt : x.1 = t
    · obtain ⟨x0, i⟩ := x
      simp only at xt
      subst xt
      exact top_apex_t (s := s) (s' := (s.openLeft ne).1) rfl rfl i
    · rw [openLeft_apex xt, if_neg (q2 (lnext ne) rfl), if_neg (q2 ne rfl), if_neg (q2 (lprev ne) rfl),
        if_neg (q1 (lnext s.leftcand) rfl), if_neg (q1 s.leftcand rfl), if_neg (q1 (lprev s.leftcand) rfl)]

theorem Knitting.openLeft (I : Knitting pos t all V m0 s) {ne : TEdge} (hne : ne = (s.top t).nb (lprev s.leftcand))
    (h1 : s.upperleft ≠ s.lowerright) (h2 : s.m.apex ne ≠ 0) (h3 : s.m.apex ne ≠ s.lowerright) :
    Knitting pos t all V m0 (s.openLeft ne).1 ∧
    (s.openLeft ne).2 = ((s.openLeft ne).1.top t).nb (lprev (s.openLeft ne).1.leftcand) := by
  have O := I.openL hne h1 h2 h3
  have f := I.openLeft_flip hne h1 h2 h3
  have r := f.around I.closed I.lmem
  obtain ⟨hs, -, -⟩ := openLeft_nb I O h1 h2 h3
  obtain ⟨n1, n2, n3, n4, n5, n6, n7⟩ := I.ne
  have rl : s.rightcand.1 ≠ s.leftcand.1 := tri_ne (M := s.top t) (by
    rw [I.endsR, I.endsL, O.l1, O.l2]; simp [n2.symm, n3, n4.symm, h1.symm])
  have ru : s.rightcand.1 ≠ ne.1 := tri_ne (M := s.top t) (by
    rw [I.endsR, O.e0, O.e1, O.e2]; simp [n2.symm, n4.symm, h2.symm])
  refine ⟨?_, ?_⟩
  · exact
    { closed := f.closed I.closed I.lmem, fence := f.fence_in I.closed I.fence I.lmem rfl, tmem := I.tmem
      bmem := I.bmem, lmem := I.lmem, rmem := I.rmem, bne := I.bne, lne := I.lne, rne := I.rne
      ul := by
        have := openLeft_apex (s := s) (ne := ne) (x := lnext s.leftcand) (t := t) I.lne
        rw [top_apex _ _ (by exact I.lne)] at this
        refine this.trans ?_
        have lu : s.leftcand.1 ≠ ne.1 := tri_ne (M := s.top t) (by
          rw [I.endsL, O.e0, O.e1, O.e2]; simp [h2.symm, n2.symm, n4.symm])
        have q : ∀ y : TEdge, y.1 = ne.1 → lnext s.leftcand ≠ y := fun y hy e =>
          lu ((congrArg Prod.fst e).trans hy)
        rw [if_neg (q (lnext ne) rfl), if_neg (q ne rfl), if_neg (q (lprev ne) rfl), if_pos rfl]
        rfl
      ur := by
        have := f.oap s.rightcand rl ru
        rw [top_apex _ _ I.rne, top_apex _ _ I.rne] at this
        exact this.trans I.ur
      ccw := f.ccw I.ccw (fun _ h => absurd rfl h) (fun _ h => absurd rfl h)
      vertex := fun v => (f.vertex I.closed I.lmem v).trans (I.vertex v)
      other := I.other.trans (f.same I.closed I.lmem) }
  · rw [hs, show (s.openLeft ne).1.leftcand = lnext s.leftcand from rfl, lprev_lnext']
    have := f.nD.1
    rw [lnext_lprev'] at this
    exact this.symm

end steps

section steps
variable [IsStrictOrderedRing K]
variable {pos : Nat → Vec K} {t : Nat} {all : Finset Nat} {V : Nat → Prop} {m0 : TMesh K} {s : Knit K}

/-- The edges at the triangle to be opened on the right side. -/
structure OpenR (M : TMesh K) (all : Finset Nat) (t : Nat) (s : Knit K) (ne : TEdge) (na : Nat) : Prop where
  a : M.apex ne = na
  m : ne.1 ∈ all
  e0 : ends M ne = (s.upperright, s.lowerright)
  e1 : ends M (lprev ne) = (na, s.upperright)
  e2 : ends M (lnext ne) = (s.lowerright, na)
  l1 : ends M (lprev s.rightcand) = (s.upperright, 0)
  l2 : ends M (lnext s.rightcand) = (s.lowerright, s.upperright)
  top : ends M (M.nb (lprev ne)) = (s.upperright, na)
  side : ends M (M.nb (lnext ne)) = (na, s.lowerright)
  outer : ends M (M.nb (lprev s.rightcand)) = (0, s.upperright)
  topm : (M.nb (lprev ne)).1 ∈ all
  sidem : (M.nb (lnext ne)).1 ∈ all
  outerm : (M.nb (lprev s.rightcand)).1 ∈ all
  ut : ne.1 ≠ t
  topt : (M.nb (lprev ne)).1 ≠ t
  sidet : (M.nb (lnext ne)).1 ≠ t
  outert : (M.nb (lprev s.rightcand)).1 ≠ t
  nl : na ≠ s.lowerright
  nu : na ≠ s.upperright

theorem Knitting.openR (I : Knitting pos t all V m0 s) {ne : TEdge} (hne : ne = (s.top t).nb (lnext s.rightcand))
    (h1 : s.upperright ≠ s.lowerleft) (h2 : s.m.apex ne ≠ 0) (h3 : s.m.apex ne ≠ s.lowerleft) :
    OpenR (s.top t) all t s ne (s.m.apex ne) := by
  obtain ⟨n1, n2, n3, -, -, n6, n7⟩ := I.ne
  have C := I.closed
  have l1 := ends_lprev _ I.endsR
  have l2 := ends_lnext _ I.endsR
  rw [I.apexR] at l1 l2
  have m := (C.mate (lnext s.rightcand) I.rmem).1
  have e0 := mate_ends C (x := lnext s.rightcand) I.rmem l2
  rw [← hne] at m e0
  have t0 := top_ends0 s t
  have t1 := top_ends1 s t
  have t2 := top_ends2 s t
  have tt : ∀ x : TEdge, ends (s.top t) x ∉ [ends (s.top t) (t, 0), ends (s.top t) (t, 1), ends (s.top t) (t, 2)] →
      x.1 ≠ t := fun x h => tri_ne (M := s.top t) (y := (t, 0)) h
  rw [t0, t1, t2] at tt
  have ut := tt ne (by rw [e0]; simp [h1, n3, n6, n7])
  have a := top_apex s t ut
  have e1 := ends_lprev _ e0
  have e2 := ends_lnext _ e0
  rw [a] at e1 e2
  have nl := ends_ne C (x := lnext ne) m e2
  have nu := ends_ne C (x := lprev ne) m e1
  have top := mate_ends C (x := lprev ne) m e1
  have side := mate_ends C (x := lnext ne) m e2
  have outer := mate_ends C (x := lprev s.rightcand) I.rmem l1
  exact
    { a := a, m := m, e0 := e0, e1 := e1, e2 := e2, l1 := l1, l2 := l2, top := top, side := side, outer := outer
      topm := (C.mate (lprev ne) m).1, sidem := (C.mate (lnext ne) m).1
      outerm := (C.mate (lprev s.rightcand) I.rmem).1, ut := ut
      topt := tt _ (by rw [top]; simp [h2, h3, nl.symm, n6, h1])
      sidet := tt _ (by rw [side]; simp [h2, h3, n1, n3])
      outert := tt _ (by rw [outer]; simp [h1, n3.symm, n2.symm, n6])
      nl := nl.symm, nu := nu }

theorem openRight_nb (I : Knitting pos t all V m0 s) {ne : TEdge} (O : OpenR (s.top t) all t s ne (s.m.apex ne))
    (h1 : s.upperright ≠ s.lowerleft) (h2 : s.m.apex ne ≠ 0) (h3 : s.m.apex ne ≠ s.lowerleft) :
    (s.openRight ne).2 = (s.top t).nb (lnext ne) ∧
    ((s.openRight ne).1.top t).nb = bonds (preNb s.m.nb t) [(lnext ne, (s.top t).nb (lprev ne)),
      (s.rightcand, (s.top t).nb (lnext ne)), (lprev ne, (s.top t).nb (lprev s.rightcand)),
      ((t, 0), s.baseedge), ((t, 1), lprev s.rightcand), ((t, 2), s.leftcand)] := by
  obtain ⟨n1, n2, n3, -, -, n6, n7⟩ := I.ne
  have eB := I.endsB
  have eL := I.endsL
  have eR := I.endsR
  have nl := O.nl
  have nu := O.nu
  have u1 : (s.top t).nb (lprev ne) = s.m.nb (lprev ne) := nb_old (by exact O.ut)
    (ne_of_ends (M := s.top t) (by rw [O.e1, eB]; simp [nl]))
    (ne_of_ends (M := s.top t) (by rw [O.e1, eL]; simp [h3]))
    (ne_of_ends (M := s.top t) (by rw [O.e1, eR]; simp [h2]))
  have u2 : (s.top t).nb (lnext ne) = s.m.nb (lnext ne) := nb_old (by exact O.ut)
    (ne_of_ends (M := s.top t) (by rw [O.e2, eB]; simp [h3]))
    (ne_of_ends (M := s.top t) (by rw [O.e2, eL]; simp [h2]))
    (ne_of_ends (M := s.top t) (by rw [O.e2, eR]; simp [n3]))
  have u3 : (s.top t).nb (lprev s.rightcand) = s.m.nb (lprev s.rightcand) := nb_old (by exact I.rne)
    (ne_of_ends (M := s.top t) (by rw [O.l1, eB]; simp [n2.symm]))
    (ne_of_ends (M := s.top t) (by rw [O.l1, eL]; simp [h1]))
    (lprev_ne _)
  have m0 : (s.openRight ne).1.m.nb = bonds s.m.nb [(lnext ne, (s.top t).nb (lprev ne)),
      (s.rightcand, (s.top t).nb (lnext ne)), (lprev ne, (s.top t).nb (lprev s.rightcand))] := by
    have w : bonds s.m.nb [(lnext ne, (s.top t).nb (lprev ne)), (s.rightcand, (s.top t).nb (lnext ne))]
        (lprev s.rightcand) = (s.top t).nb (lprev s.rightcand) := by
      rw [u3, bonds_other]
      rw [← mem_flat]
      simp only [flat, List.flatMap_cons, List.flatMap_nil, List.cons_append, List.nil_append, List.mem_cons,
        List.not_mem_nil, or_false, not_or]
      refine ⟨ne_of_ends (M := s.top t) ?_, ne_of_ends (M := s.top t) ?_, lprev_ne _, ne_of_ends (M := s.top t) ?_⟩
      · rw [O.l1, O.e2]; simp [h2.symm]
      · rw [O.l1, O.top]; simp [h2.symm]
      · rw [O.l1, O.side]; simp [n3.symm]
    rw [← w]
    simp only [Knit.openRight, setapex_nb, setdest_nb, setorg_nb, bond_nb, lnext_lnext', lprev_lprev', u1, u2]
    rfl
  refine ⟨?_, ?_⟩
  · simp only [Knit.openRight, lprev_lprev', u2]
  · rw [top_nb, m0, preNb_bonds]
    · rfl
    · simp only [flat, List.flatMap_cons, List.flatMap_nil, List.cons_append, List.nil_append, List.mem_cons,
        List.not_mem_nil, or_false]
      rintro x (rfl | rfl | rfl | rfl | rfl | rfl)
      exacts [O.ut, O.topt, I.rne, O.sidet, O.ut, O.outert]

theorem openRight_apex {ne x : TEdge} (hx : x.1 ≠ t) :
    ((s.openRight ne).1.top t).apex x = if x = lprev ne then s.m.apex ne else if x = lnext ne then 0 else
      if x = ne then s.upperright else if x = lprev s.rightcand then s.m.apex ne else
      if x = lnext s.rightcand then s.lowerright else if x = s.rightcand then 0 else (s.top t).apex x := by
  rw [top_apex _ _ hx, top_apex _ _ hx]
  simp only [Knit.openRight, TMesh.bond, TMesh.setdest, TMesh.setorg, TMesh.setapex, Function.update_apply,
    lprev_lprev', lnext_lnext', lnext_lprev']

theorem openRight_sg (ne x : TEdge) : ((s.openRight ne).1.top t).sg x = (s.top t).sg x := by
  rw [top_sg, top_sg]; rfl

/-- The bonds after an edge is taken away on the right side. -/
def bondsR (M : TMesh K) (t : Nat) (s : Knit K) (ne : TEdge) : List (TEdge × TEdge) :=
  [(lnext ne, M.nb (lprev ne)), (s.rightcand, M.nb (lnext ne)), (lprev ne, M.nb (lprev s.rightcand)),
    ((t, 0), s.baseedge), ((t, 1), lprev s.rightcand), ((t, 2), s.leftcand)]

theorem flat_bondsR (M : TMesh K) (t : Nat) (s : Knit K) (ne : TEdge) : flat (bondsR M t s ne) =
    [lnext ne, M.nb (lprev ne), s.rightcand, M.nb (lnext ne), lprev ne, M.nb (lprev s.rightcand), (t, 0), s.baseedge,
      (t, 1), lprev s.rightcand, (t, 2), s.leftcand] := rfl

theorem OpenR.bonds (I : Knitting pos t all V m0 s) {ne : TEdge} (O : OpenR (s.top t) all t s ne (s.m.apex ne))
    (h1 : s.upperright ≠ s.lowerleft) (h2 : s.m.apex ne ≠ 0) (h3 : s.m.apex ne ≠ s.lowerleft) :
    (∀ a b, (a, b) ∈ bondsR (s.top t) t s ne →
      ((s.openRight ne).1.top t).nb a = b ∧ ((s.openRight ne).1.top t).nb b = a) ∧
    (∀ x, x ∉ flat (bondsR (s.top t) t s ne) → ((s.openRight ne).1.top t).nb x = (s.top t).nb x) ∧
    ((s.openRight ne).1.top t).nb ne = (s.top t).nb ne ∧
    ((s.openRight ne).1.top t).nb (lnext s.rightcand) = (s.top t).nb (lnext s.rightcand) := by
  obtain ⟨-, hnb⟩ := openRight_nb I O h1 h2 h3
  obtain ⟨n1, n2, n3, -, -, n6, n7⟩ := I.ne
  have eB := I.endsB
  have eL := I.endsL
  have eR := I.endsR
  have t0 := top_ends0 s t
  have t1 := top_ends1 s t
  have t2 := top_ends2 s t
  have nl := O.nl
  have nu := O.nu
  have hmem : ∀ x ∈ flat (bondsR (s.top t) t s ne), x.1 ∈ all := by
    simp only [flat_bondsR, List.mem_cons, List.not_mem_nil, or_false]
    rintro x (rfl | rfl | rfl | rfl | rfl | rfl | rfl | rfl | rfl | rfl | rfl | rfl)
    exacts [O.m, O.topm, I.rmem, O.sidem, O.m, O.outerm, I.tmem, I.bmem, I.tmem, I.rmem, I.tmem, I.lmem]
  have fl : (flat (bondsR (s.top t) t s ne)).map (ends (s.top t)) =
      [(s.lowerright, s.m.apex ne), (s.upperright, s.m.apex ne), (0, s.lowerright), (s.m.apex ne, s.lowerright),
        (s.m.apex ne, s.upperright), (0, s.upperright), (s.lowerleft, s.lowerright), (s.lowerright, s.lowerleft),
        (s.lowerright, 0), (s.upperright, 0), (0, s.lowerleft), (s.lowerleft, 0)] := by
    simp only [flat_bondsR, List.map_cons, List.map_nil, eB, eR, eL, t0, t1, t2, O.e1, O.e2, O.top, O.side, O.outer,
      O.l1]
  have nd : ((flat (bondsR (s.top t) t s ne)).map (ends (s.top t))).Nodup := by
    rw [fl]
    simp [n1, n1.symm, n2, n2.symm, n3, n3.symm, n6, n6.symm, n7, n7.symm, h1, h1.symm, h2, h2.symm, h3, h3.symm,
      nl, nl.symm, nu, nu.symm]
  have keep : ∀ x, x ∉ flat (bondsR (s.top t) t s ne) → ((s.openRight ne).1.top t).nb x = (s.top t).nb x := by
    intro x hx
    rw [hnb, bonds_other _ _ (by rw [← mem_flat]; exact hx), top_nb, bonds_other]
    rw [← mem_flat]
    simp only [flat_bondsR, List.mem_cons, List.not_mem_nil, or_false, not_or] at hx
    obtain ⟨-, -, x3, -, -, -, x7, x8, x9, -, x11, x12⟩ := hx
    simp [flat, x3, x7, x8, x9, x12, x11]
  have keepE : ∀ x : TEdge, ends (s.top t) x ∉ (flat (bondsR (s.top t) t s ne)).map (ends (s.top t)) →
      ((s.openRight ne).1.top t).nb x = (s.top t).nb x :=
    fun x hx => keep x fun h => hx (List.mem_map_of_mem h)
  rw [fl] at keepE
  refine ⟨fun a b h => ?_, keep, keepE _ ?_, keepE _ ?_⟩
  · have := bonds_ends I.closed _ (preNb s.m.nb t) hmem nd h
    rw [hnb]
    exact this
  · rw [O.e0]; simp [n1, n3, n6, n7, n7.symm, h1, h1.symm, h2, h3, nl, nl.symm, nu, nu.symm]
  · rw [O.l2]; simp [n1, n3, n6, n7, n7.symm, h1, h1.symm, h2, h3, nl, nl.symm, nu, nu.symm]

theorem Knitting.openRight_flip (I : Knitting pos t all V m0 s) {ne : TEdge}
    (hne : ne = (s.top t).nb (lnext s.rightcand))
    (h1 : s.upperright ≠ s.lowerleft) (h2 : s.m.apex ne ≠ 0) (h3 : s.m.apex ne ≠ s.lowerleft) :
    Flipped (s.top t) ((s.openRight ne).1.top t) (lnext s.rightcand) ne (lnext s.rightcand) ne
      s.lowerright s.upperright 0 (s.m.apex ne) := by
  have O := I.openR hne h1 h2 h3
  obtain ⟨bd, keep, kn, kl⟩ := O.bonds I h1 h2 h3
  obtain ⟨n1, n2, n3, -, -, n6, n7⟩ := I.ne
  have C := I.closed
  have eR := I.endsR
  have lu : s.rightcand.1 ≠ ne.1 := tri_ne (M := s.top t) (by
    rw [eR, O.e0, O.e1, O.e2]; simp [h2.symm, n3.symm, n6.symm])
  have apN : ∀ x : TEdge, x.1 = ne.1 → ((s.openRight ne).1.top t).apex x = if x = lprev ne then s.m.apex ne else
      if x = lnext ne then 0 else if x = ne then s.upperright else (s.top t).apex x := by
    intro x hx
    rw [openRight_apex (by rw [hx]; exact O.ut)]
    have q : ∀ y : TEdge, y.1 = s.rightcand.1 → x ≠ y := by rintro y hy rfl; exact lu (hy.symm.trans hx)
    simp only [if_neg (q (lnext s.rightcand) rfl), if_neg (q (s.rightcand) rfl), if_neg (q (lprev s.rightcand) rfl)]
  have apR : ∀ x : TEdge, x.1 = s.rightcand.1 → ((s.openRight ne).1.top t).apex x =
      if x = lprev s.rightcand then s.m.apex ne else if x = lnext s.rightcand then s.lowerright else
      if x = s.rightcand then 0 else (s.top t).apex x := by
    intro x hx
    rw [openRight_apex (by rw [hx]; exact I.rne)]
    have q : ∀ y : TEdge, y.1 = ne.1 → x ≠ y := by rintro y hy rfl; exact lu (hx.symm.trans hy)
    simp only [if_neg (q (lnext ne) rfl), if_neg (q ne rfl), if_neg (q (lprev ne) rfl)]
  have mm := C.mate (lnext s.rightcand) I.rmem
  rw [← hne] at mm
  refine
    { epq := O.l2, ap := ?_, aq := O.a, pq := hne.symm, cd := h2.symm, tri := .inl ⟨rfl, rfl⟩
      ep' := ?_, eq' := ?_, ap' := ?_, aq' := ?_, npq := ?_, nA := ?_,
      nB := ?_, nC := ?_, nD := ?_, onb := ?_, oap := ?_
      osg := fun x => openRight_sg _ x }
  · exact congrArg Prod.fst eR
  · unfold ends TMesh.org TMesh.dest
    rw [lnext_lnext', lprev_lnext', apR (lprev s.rightcand) rfl, apR s.rightcand rfl, if_pos rfl,
      if_neg (lprev_ne _).symm, if_neg (lnext_ne _).symm, if_pos rfl]
  · unfold ends TMesh.org TMesh.dest
    rw [apN (lnext ne) rfl, apN (lprev ne) rfl, if_neg (lnext_ne_lprev _), if_pos rfl, if_pos rfl]
  · rw [apR (lnext s.rightcand) rfl, if_neg (lnext_ne_lprev _), if_pos rfl]
  · rw [apN ne rfl, if_neg (lprev_ne _).symm, if_neg (lnext_ne _).symm, if_pos rfl]
  · rw [kn, kl]
    exact ⟨hne.symm, mm.2.1⟩
  · rw [lnext_lnext']
    exact bd _ _ (by simp [bondsR])
  · rw [lprev_lnext', lnext_lnext', I.nbR]
    have := bd (t, 1) (lprev s.rightcand) (by simp [bondsR])
    exact ⟨this.2, this.1⟩
  · rw [lprev_lnext']
    exact bd _ _ (by simp [bondsR])
  · exact bd _ _ (by simp [bondsR])
  · intro x x1 x2 x3 x4 x5 x6
    rw [lprev_lnext', I.nbR] at x4
    rw [lnext_lnext'] at x3
    by_cases k1 : x = (t, 0)
    · rw [k1, I.nb0]; exact (bd _ _ (by simp [bondsR])).1
    by_cases k2 : x = s.baseedge
    · rw [k2, I.nbB]; exact (bd _ _ (by simp [bondsR])).2
    by_cases k3 : x = (t, 2)
    · rw [k3, I.nb2]; exact (bd _ _ (by simp [bondsR])).1
    by_cases k4 : x = s.leftcand
    · rw [k4, I.nbL]; exact (bd _ _ (by simp [bondsR])).2
    apply keep
    simp only [flat_bondsR, List.mem_cons, List.not_mem_nil, or_false, not_or]
    have q1 : ∀ y : TEdge, y.1 = s.rightcand.1 → x ≠ y := by rintro y hy rfl; exact x1 hy
    have q2 : ∀ y : TEdge, y.1 = ne.1 → x ≠ y := by rintro y hy rfl; exact x2 hy
    exact ⟨q2 _ rfl, x6, q1 _ rfl, x5, q2 _ rfl, x3, k1, k2, x4, q1 _ rfl, k3, k4⟩
  · intro x x1 x2
    have q1 : ∀ y : TEdge, y.1 = s.rightcand.1 → x ≠ y := by rintro y hy rfl; exact x1 hy
    have q2 : ∀ y : TEdge, y.1 = ne.1 → x ≠ y := by rintro y hy rfl; exact x2 hy
    by_cases xt : x.1 = t
    · obtain ⟨x0, i⟩ := x
      simp only at xt
      subst xt
      exact top_apex_t (s := s) (s' := (s.openRight ne).1) rfl rfl i
    · rw [openRight_apex xt, if_neg (q2 (lprev ne) rfl), if_neg (q2 (lnext ne) rfl), if_neg (q2 ne rfl),
        if_neg (q1 (lprev s.rightcand) rfl), if_neg (q1 (lnext s.rightcand) rfl), if_neg (q1 s.rightcand rfl)]

theorem Knitting.openRight (I : Knitting pos t all V m0 s) {ne : TEdge} (hne : ne = (s.top t).nb (lnext s.rightcand))
    (h1 : s.upperright ≠ s.lowerleft) (h2 : s.m.apex ne ≠ 0) (h3 : s.m.apex ne ≠ s.lowerleft) :
    Knitting pos t all V m0 (s.openRight ne).1 ∧
    (s.openRight ne).2 = ((s.openRight ne).1.top t).nb (lnext (s.openRight ne).1.rightcand) := by
  have O := I.openR hne h1 h2 h3
  have f := I.openRight_flip hne h1 h2 h3
  obtain ⟨hs, -⟩ := openRight_nb I O h1 h2 h3
  obtain ⟨n1, n2, n3, n4, n5, n6, n7⟩ := I.ne
  have rl : s.leftcand.1 ≠ s.rightcand.1 := tri_ne (M := s.top t) (by
    rw [I.endsR, I.endsL, O.l1, O.l2]; simp [n2, n3, n6.symm, h1.symm])
  have ru : s.leftcand.1 ≠ ne.1 := tri_ne (M := s.top t) (by
    rw [I.endsL, O.e0, O.e1, O.e2]; simp [n3.symm, n6.symm, h2.symm])
  refine ⟨?_, ?_⟩
  · exact
    { closed := f.closed I.closed I.rmem, fence := f.fence_in I.closed I.fence I.rmem rfl, tmem := I.tmem
      bmem := I.bmem, lmem := I.lmem, rmem := I.rmem, bne := I.bne, lne := I.lne, rne := I.rne
      ur := by
        have := openRight_apex (s := s) (ne := ne) (x := lprev s.rightcand) (t := t) I.rne
        rw [top_apex _ _ (by exact I.rne)] at this
        refine this.trans ?_
        have lu : s.rightcand.1 ≠ ne.1 := tri_ne (M := s.top t) (by
          rw [I.endsR, O.e0, O.e1, O.e2]; simp [h2.symm, n3.symm, n6.symm])
        have q : ∀ y : TEdge, y.1 = ne.1 → lprev s.rightcand ≠ y := fun y hy e =>
          lu ((congrArg Prod.fst e).trans hy)
        rw [if_neg (q (lprev ne) rfl), if_neg (q (lnext ne) rfl), if_neg (q ne rfl), if_pos rfl]
        rfl
      ul := by
        have := f.oap s.leftcand rl ru
        rw [top_apex _ _ I.lne, top_apex _ _ I.lne] at this
        exact this.trans I.ul
      ccw := f.ccw I.ccw (fun _ h => absurd rfl h) (fun _ h => absurd rfl h)
      vertex := fun v => (f.vertex I.closed I.rmem v).trans (I.vertex v)
      other := I.other.trans (f.same I.closed I.rmem) }
  · rw [hs, show (s.openRight ne).1.rightcand = lprev s.rightcand from rfl, lnext_lprev']
    have := f.nC.1
    rw [lprev_lnext'] at this
    exact this.symm

end steps

/-! ### The walk -/

section loops
variable [IsStrictOrderedRing K]
variable {pos : Nat → Vec K} {t : Nat} {all : Finset Nat} {V : Nat → Prop} {m0 : TMesh K} {s s' : Knit K}

theorem incircle_from_first (a b c d : Vec K) : incircle a b c d =
    ((c.x - a.x) ^ 2 + (c.y - a.y) ^ 2) * (a.x * b.y - a.y * b.x + (b.x * d.y - b.y * d.x) + (d.x * a.y - d.y * a.x)) -
    ((b.x - a.x) ^ 2 + (b.y - a.y) ^ 2) * (a.x * c.y - a.y * c.x + (c.x * d.y - c.y * d.x) + (d.x * a.y - d.y * a.x)) -
    ((d.x - a.x) ^ 2 + (d.y - a.y) ^ 2) * (a.x * b.y - a.y * b.x + (b.x * c.y - b.y * c.x) + (c.x * a.y - c.y * a.x))
    := by
  unfold incircle
  ring

theorem incircle_from_second (a b c d : Vec K) : incircle a b c d =
    ((c.x - b.x) ^ 2 + (c.y - b.y) ^ 2) * (a.x * b.y - a.y * b.x + (b.x * d.y - b.y * d.x) + (d.x * a.y - d.y * a.x)) -
    ((a.x - b.x) ^ 2 + (a.y - b.y) ^ 2) * (c.x * b.y - c.y * b.x + (b.x * d.y - b.y * d.x) + (d.x * c.y - d.y * c.x)) -
    ((d.x - b.x) ^ 2 + (d.y - b.y) ^ 2) * (a.x * b.y - a.y * b.x + (b.x * c.y - b.y * c.x) + (c.x * a.y - c.y * a.x))
    := by
  unfold incircle
  ring

/-- A corner that comes to light on the left side is above the base line. -/
theorem above_left {a b c d : Vec K} (h1 : CcwPts a b c) (h2 : CcwPts a c d) (h3 : incircle a b c d > 0) :
    CcwPts a b d := by
  unfold CcwPts at *
  rw [incircle_from_first] at h3
  by_contra h
  push Not at h
  have p1 := mul_nonneg (add_nonneg (sq_nonneg (b.x - a.x)) (sq_nonneg (b.y - a.y))) h2.le
  have p2 := mul_nonneg (add_nonneg (sq_nonneg (d.x - a.x)) (sq_nonneg (d.y - a.y))) h1.le
  have p3 := mul_nonpos_of_nonneg_of_nonpos (add_nonneg (sq_nonneg (c.x - a.x)) (sq_nonneg (c.y - a.y))) h
  linarith

theorem above_right {a b c d : Vec K} (h1 : CcwPts a b c) (h2 : CcwPts c b d) (h3 : incircle a b c d > 0) :
    CcwPts a b d := by
  unfold CcwPts at *
  rw [incircle_from_second] at h3
  by_contra h
  push Not at h
  have p1 := mul_nonneg (add_nonneg (sq_nonneg (a.x - b.x)) (sq_nonneg (a.y - b.y))) h2.le
  have p2 := mul_nonneg (add_nonneg (sq_nonneg (d.x - b.x)) (sq_nonneg (d.y - b.y))) h1.le
  have p3 := mul_nonpos_of_nonneg_of_nonpos (add_nonneg (sq_nonneg (c.x - b.x)) (sq_nonneg (c.y - b.y))) h
  linarith

theorem incircle_self (a b c : Vec K) : incircle a b c b = 0 ∧ incircle a b c a = 0 := by
  unfold incircle
  constructor <;> ring

theorem ne_of_ccw {a b c : Nat} (h : CcwPts (pos a) (pos b) (pos c)) : c ≠ b ∧ c ≠ a := by
  constructor <;> rintro rfl <;> unfold CcwPts at h <;> linarith

theorem Knitting.eatLeft {n : Nat} : ∀ {s s' : Knit K} {ne : TEdge}, Knitting pos t all V m0 s →
    CcwPts (pos s.lowerleft) (pos s.lowerright) (pos s.upperleft) → ne = (s.top t).nb (lprev s.leftcand) →
    s.eatLeft pos n ne = some s' →
    Knitting pos t all V m0 s' ∧ CcwPts (pos s'.lowerleft) (pos s'.lowerright) (pos s'.upperleft) ∧
    s'.lowerleft = s.lowerleft ∧ s'.lowerright = s.lowerright ∧ s'.upperright = s.upperright := by
  induction n with
  | zero => intro s s' ne _ _ _ h; simp [Knit.eatLeft] at h
  | succ n ih =>
    intro s s' ne I hc hne h
    rw [Knit.eatLeft] at h
    split at h
    · next hh =>
      obtain ⟨h2, hi⟩ := hh
      have h1 := (ne_of_ccw hc).1
      have h3 : s.m.apex ne ≠ s.lowerright := by
        intro e; rw [e, (incircle_self _ _ _).1] at hi; exact lt_irrefl _ hi
      have O := I.openL hne h1 h2 h3
      obtain ⟨I', hn'⟩ := I.openLeft hne h1 h2 h3
      have hr : CcwPts (pos s.lowerleft) (pos s.upperleft) (pos (s.m.apex ne)) := by
        have g : ¬ (s.top t).Ghost ne.1 := by
          rintro ⟨i, hi⟩
          rcases same_tri (x := (ne.1, i)) (y := ne) rfl with e | e | e <;> rw [e] at hi
          · exact h2 (O.a.symm.trans hi)
          · exact I.ne.2.1 ((congrArg Prod.fst O.e0).symm.trans hi)
          · exact I.ne.2.2.2.1 ((congrArg Prod.snd O.e0).symm.trans hi)
        have := I.ccw ne ⟨O.m, g⟩
        rwa [O.a, show (s.top t).org ne = s.lowerleft from congrArg Prod.fst O.e0,
          show (s.top t).dest ne = s.upperleft from congrArg Prod.snd O.e0] at this
      obtain ⟨J, c, e1, e2, e3⟩ := ih I' (above_left hc hr hi) hn' h
      exact ⟨J, c, e1, e2, e3⟩
    · simp only [Option.some.injEq] at h
      subst h
      exact ⟨I, hc, rfl, rfl, rfl⟩

theorem Knitting.eatRight {n : Nat} : ∀ {s s' : Knit K} {ne : TEdge}, Knitting pos t all V m0 s →
    CcwPts (pos s.lowerleft) (pos s.lowerright) (pos s.upperright) → ne = (s.top t).nb (lnext s.rightcand) →
    s.eatRight pos n ne = some s' →
    Knitting pos t all V m0 s' ∧ CcwPts (pos s'.lowerleft) (pos s'.lowerright) (pos s'.upperright) ∧
    s'.lowerleft = s.lowerleft ∧ s'.lowerright = s.lowerright ∧ s'.upperleft = s.upperleft := by
  induction n with
  | zero => intro s s' ne _ _ _ h; simp [Knit.eatRight] at h
  | succ n ih =>
    intro s s' ne I hc hne h
    rw [Knit.eatRight] at h
    split at h
    · next hh =>
      obtain ⟨h2, hi⟩ := hh
      have h1 := (ne_of_ccw hc).2
      have h3 : s.m.apex ne ≠ s.lowerleft := by
        intro e; rw [e, (incircle_self _ _ _).2] at hi; exact lt_irrefl _ hi
      have O := I.openR hne h1 h2 h3
      obtain ⟨I', hn'⟩ := I.openRight hne h1 h2 h3
      have hr : CcwPts (pos s.upperright) (pos s.lowerright) (pos (s.m.apex ne)) := by
        have g : ¬ (s.top t).Ghost ne.1 := by
          rintro ⟨i, hi⟩
          rcases same_tri (x := (ne.1, i)) (y := ne) rfl with e | e | e <;> rw [e] at hi
          · exact h2 (O.a.symm.trans hi)
          · exact I.ne.2.2.2.2.2.1 ((congrArg Prod.fst O.e0).symm.trans hi)
          · exact I.ne.2.2.1 ((congrArg Prod.snd O.e0).symm.trans hi)
        have := I.ccw ne ⟨O.m, g⟩
        rwa [O.a, show (s.top t).org ne = s.upperright from congrArg Prod.fst O.e0,
          show (s.top t).dest ne = s.lowerright from congrArg Prod.snd O.e0] at this
      obtain ⟨J, c, e1, e2, e3⟩ := ih I' (above_right hc hr hi) hn' h
      exact ⟨J, c, e1, e2, e3⟩
    · simp only [Option.some.injEq] at h
      subst h
      exact ⟨I, hc, rfl, rfl, rfl⟩

theorem ccw_of_finished {a b c : Vec K} (h : ¬ orient c a b ≤ 0) : CcwPts a b c := by
  unfold CcwPts; unfold orient at h; push Not at h; linarith

theorem Knitting.round {n : Nat} (I : Knitting pos t all V m0 s)
    (hf : ¬ (s.leftfinished pos && s.rightfinished pos) = true) (h : s.round pos n = some s') :
    Knitting pos t all V m0 s' := by
  obtain ⟨n1, n2, n3, n4, n5, n6, n7⟩ := I.ne
  have hl : s.leftfinished pos = false → CcwPts (pos s.lowerleft) (pos s.lowerright) (pos s.upperleft) := by
    intro h
    simp only [Knit.leftfinished, decide_eq_false_iff_not] at h
    exact ccw_of_finished h
  have hr : s.rightfinished pos = false → CcwPts (pos s.lowerleft) (pos s.lowerright) (pos s.upperright) := by
    intro h
    simp only [Knit.rightfinished, decide_eq_false_iff_not] at h
    exact ccw_of_finished h
  have stepL : ∀ s1, (if s.leftfinished pos then some s else s.eatLeft pos n (s.m.nb (lprev s.leftcand))) = some s1 →
      Knitting pos t all V m0 s1 ∧
      (s.leftfinished pos = false → CcwPts (pos s1.lowerleft) (pos s1.lowerright) (pos s1.upperleft)) ∧
      s1.lowerleft = s.lowerleft ∧ s1.lowerright = s.lowerright ∧ s1.upperright = s.upperright := by
    intro s1 h1
    cases hb : s.leftfinished pos with
    | true =>
      rw [hb] at h1
      simp only [if_true, Option.some.injEq] at h1
      subst h1
      exact ⟨I, by simp, rfl, rfl, rfl⟩
    | false =>
      rw [hb] at h1
      simp only [Bool.false_eq_true, if_false] at h1
      have l2 := ends_lprev _ I.endsL
      rw [I.apexL] at l2
      have := I.eatLeft (hl hb) (nb_old (t := t) (by exact I.lne)
        (ne_of_ends (M := s.top t) (by rw [l2, I.endsB]; simp [(ne_of_ccw (hl hb)).1]))
        (lprev_ne _) (ne_of_ends (M := s.top t) (by rw [l2, I.endsR]; simp [n4]))).symm h1
      exact ⟨this.1, fun _ => this.2.1, this.2.2⟩
  have stepR : ∀ s1 s2, Knitting pos t all V m0 s1 →
      s1.lowerleft = s.lowerleft ∧ s1.lowerright = s.lowerright ∧ s1.upperright = s.upperright →
      (if s.rightfinished pos then some s1 else s1.eatRight pos n (s1.m.nb (lnext s1.rightcand))) = some s2 →
      Knitting pos t all V m0 s2 ∧
      (s.rightfinished pos = false → CcwPts (pos s2.lowerleft) (pos s2.lowerright) (pos s2.upperright)) ∧
      s2.lowerleft = s1.lowerleft ∧ s2.lowerright = s1.lowerright ∧ s2.upperleft = s1.upperleft := by
    intro s1 s2 J e h1
    cases hb : s.rightfinished pos with
    | true =>
      rw [hb] at h1
      simp only [if_true, Option.some.injEq] at h1
      subst h1
      exact ⟨J, by simp, rfl, rfl, rfl⟩
    | false =>
      rw [hb] at h1
      simp only [Bool.false_eq_true, if_false] at h1
      have l2 := ends_lnext _ J.endsR
      rw [J.apexR] at l2
      have hr' := hr hb
      rw [← e.1, ← e.2.1, ← e.2.2] at hr'
      have := J.eatRight hr' (nb_old (t := t) (by exact J.rne)
        (ne_of_ends (M := s1.top t) (by rw [l2, J.endsB]; simp [(ne_of_ccw hr').2]))
        (ne_of_ends (M := s1.top t) (by rw [l2, J.endsL]; simp [J.ne.1.symm])) (lnext_ne _)).symm h1
      exact ⟨this.1, fun _ => this.2.1, this.2.2⟩
  simp only [Knit.round] at h
  split at h
  · cases h
  · next s1 e1 =>
    split at h
    · cases h
    · next s2 e2 =>
      obtain ⟨I1, c1, q1⟩ := stepL s1 e1
      obtain ⟨I2, c2, q2⟩ := stepR s1 s2 I1 q1 e2
      split at h
      · next hd =>
        simp only [Option.some.injEq] at h
        subst h
        have hb : s.rightfinished pos = false := by
          cases hb : s.rightfinished pos with
          | false => rfl
          | true => rw [hb] at hd hf; simp at hd hf; rw [hf] at hd; simp at hd
        exact I2.addRight (c2 hb) (ne_of_ccw (c2 hb)).2
      · next hd =>
        simp only [Option.some.injEq] at h
        subst h
        have hb : s.leftfinished pos = false := by
          simp only [Bool.or_eq_true, not_or, Bool.not_eq_true] at hd
          exact hd.1
        have c := c1 hb
        rw [← q2.1, ← q2.2.1, ← q2.2.2] at c
        exact I2.addLeft c (ne_of_ccw c).1

theorem Knitting.run {n : Nat} : ∀ {k : Nat} {s s' : Knit K}, Knitting pos t all V m0 s → s.run pos n k = some s' →
    Knitting pos t all V m0 s' ∧ s'.leftfinished pos = true ∧ s'.rightfinished pos = true := by
  intro k
  induction k with
  | zero => intro s s' _ h; simp [Knit.run] at h
  | succ k ih =>
    intro s s' I h
    rw [Knit.run] at h
    split at h
    · next hf =>
      simp only [Option.some.injEq] at h
      subst h
      exact ⟨I, by simpa using hf⟩
    · next hf =>
      split at h
      · cases h
      · next s1 e1 => exact ih (I.round hf e1) h

end loops

/-! ### The triangle at the bottom -/

section bottom
variable {m : TMesh K} {L R : Finset Nat} {il ir : TEdge} {b t : Nat}

/-- What the merge starts from. -/
structure Start (m : TMesh K) (L R : Finset Nat) (il ir : TEdge) (b t : Nat) : Prop where
  cl : m.Closed L
  cr : m.Closed R
  fl : m.OneFence L
  fr : m.OneFence R
  lr : Disjoint L R
  bL : b ∉ L
  bR : b ∉ R
  tL : t ∉ L
  tR : t ∉ R
  bt : b ≠ t
  b0 : b ≠ 0
  t0 : t ≠ 0
  common : ∀ v, Vertex m L v → Vertex m R v → v = 0
  ilm : il.1 ∈ L
  irm : ir.1 ∈ R
  il0 : m.org il = 0
  ir0 : m.dest ir = 0

theorem bottom_apex {x : TEdge} (hb : x.1 ≠ b) (ht : x.1 ≠ t) :
    ((m.bottom il ir b).top t).apex x = m.apex x := by
  rw [top_apex _ _ ht]
  obtain ⟨a, i⟩ := x
  simp only at hb
  simp [TMesh.bottom, TMesh.bond, TMesh.setorg, TMesh.setdest, TMesh.maketriangle, lnext, lprev, Function.update_apply,
    Prod.ext_iff, hb]

theorem bottom_apex_b (S : Start m L R il ir b t) : ((m.bottom il ir b).top t).apex (b, 0) = m.org ir ∧
    ((m.bottom il ir b).top t).apex (b, 1) = m.dest il ∧ ((m.bottom il ir b).top t).apex (b, 2) = 0 := by
  refine ⟨?_, ?_, ?_⟩ <;> rw [top_apex _ _ (by exact S.bt)] <;>
    simp [TMesh.bottom, TMesh.bond, TMesh.setorg, TMesh.setdest, TMesh.maketriangle, lnext, lprev,
      Function.update_apply, Prod.ext_iff]

theorem bottom_nb (S : Start m L R il ir b t) : ((m.bottom il ir b).top t).nb =
    bonds (preNb (preNb m.nb b) t) [((b, 0), il), ((b, 1), ir), ((t, 0), (b, 2)), ((t, 1), m.nb ir),
      ((t, 2), m.nb il)] := by
  rw [top_nb]
  have : (m.bottom il ir b).m.nb = bonds (preNb m.nb b) [((b, 0), il), ((b, 1), ir)] := rfl
  rw [this, preNb_bonds]
  · rfl
  · simp only [flat, List.flatMap_cons, List.flatMap_nil, List.cons_append, List.nil_append, List.mem_cons,
      List.not_mem_nil, or_false]
    rintro x (rfl | rfl | rfl | rfl)
    · exact S.bt
    · rintro rfl; exact S.tL S.ilm
    · exact S.bt
    · rintro rfl; exact S.tR S.irm

theorem bottom_sg (x : TEdge) : ((m.bottom il ir b).top t).sg x =
    if x.1 = t then noSub else if x.1 = b then noSub else m.sg x := rfl

theorem bottom_bonds (S : Start m L R il ir b t) :
    (∀ x y, (x, y) ∈ [((b, 0), il), ((b, 1), ir), ((t, 0), (b, 2)), ((t, 1), m.nb ir), ((t, 2), m.nb il)] →
      ((m.bottom il ir b).top t).nb x = y ∧ ((m.bottom il ir b).top t).nb y = x) ∧
    (∀ x : TEdge, x.1 ≠ b → x.1 ≠ t → x ≠ il → x ≠ ir → x ≠ m.nb ir → x ≠ m.nb il →
      ((m.bottom il ir b).top t).nb x = m.nb x) := by
  have hl := S.cl.mate il S.ilm
  have hr := S.cr.mate ir S.irm
  have dj := Finset.disjoint_left.1 S.lr
  have ne : ∀ {x y : TEdge}, x.1 ≠ y.1 → x ≠ y := fun h e => h (by rw [e])
  have q1 : il ≠ m.nb il := by
    intro e
    have := S.cl.corners il S.ilm
    rw [← hl.2.2.1, ← e] at this
    exact this rfl
  have q2 : ir ≠ m.nb ir := by
    intro e
    have := S.cr.corners ir S.irm
    rw [← hr.2.2.1, ← e] at this
    exact this rfl
  have lb : ∀ {x : TEdge}, x.1 ∈ L → x.1 ≠ b ∧ x.1 ≠ t := fun h =>
    ⟨fun e => S.bL (e ▸ h), fun e => S.tL (e ▸ h)⟩
  have rb : ∀ {x : TEdge}, x.1 ∈ R → x.1 ≠ b ∧ x.1 ≠ t := fun h =>
    ⟨fun e => S.bR (e ▸ h), fun e => S.tR (e ▸ h)⟩
  have lrn : ∀ {x y : TEdge}, x.1 ∈ L → y.1 ∈ R → x ≠ y := fun h h' e => dj h (e ▸ h')
  have bn : ∀ {x : TEdge} (i : Fin 3), x.1 ≠ b → (b, i) ≠ x := fun i h e => h (by rw [← e])
  have tn : ∀ {x : TEdge} (i : Fin 3), x.1 ≠ t → (t, i) ≠ x := fun i h e => h (by rw [← e])
  have nd : (flat [((b, 0), il), ((b, 1), ir), ((t, 0), (b, 2)), ((t, 1), m.nb ir), ((t, 2), m.nb il)]).Nodup := by
    simp only [flat, List.flatMap_cons, List.flatMap_nil, List.cons_append, List.nil_append, List.nodup_cons,
      List.mem_cons, List.not_mem_nil, or_false, not_or, not_false_eq_true, List.nodup_nil, and_true]
    have il' := lb S.ilm
    have ir' := rb S.irm
    have nl' := lb hl.1
    have nr' := rb hr.1
    have bt := S.bt
    refine ⟨⟨bn _ il'.1, by simp, bn _ ir'.1, by simp [bt], by simp, by simp [bt], bn _ nr'.1, by simp [bt], bn _ nl'.1⟩,
      ⟨(bn _ il'.1).symm, lrn S.ilm S.irm, (tn _ il'.2).symm, (bn _ il'.1).symm, (tn _ il'.2).symm,
        lrn S.ilm hr.1, (tn _ il'.2).symm, q1⟩,
      ⟨bn _ ir'.1, by simp [bt], by simp, by simp [bt], bn _ nr'.1, by simp [bt], bn _ nl'.1⟩,
      ⟨(tn _ ir'.2).symm, (bn _ ir'.1).symm, (tn _ ir'.2).symm, q2, (tn _ ir'.2).symm, (lrn hl.1 S.irm).symm⟩,
      ⟨by simp [bt.symm], by simp, tn _ nr'.2, by simp, tn _ nl'.2⟩,
      ⟨by simp [bt], bn _ nr'.1, by simp [bt], bn _ nl'.1⟩,
      ⟨tn _ nr'.2, by simp, tn _ nl'.2⟩,
      ⟨(tn _ nr'.2).symm, (lrn hl.1 hr.1).symm⟩, tn _ nl'.2⟩
  have sp : ∀ x ∈ flat [((b, 0), il), ((b, 1), ir), ((t, 0), (b, 2)), ((t, 1), m.nb ir), ((t, 2), m.nb il)],
      x ≠ space := by
    simp only [flat, List.flatMap_cons, List.flatMap_nil, List.cons_append, List.nil_append, List.mem_cons,
      List.not_mem_nil, or_false]
    have sp : ∀ x : TEdge, x.1 ≠ 0 → x ≠ space := by rintro x h rfl; exact h rfl
    rintro x (rfl | rfl | rfl | rfl | rfl | rfl | rfl | rfl | rfl | rfl) <;> apply sp
    · exact S.b0
    · exact fun e => S.cl.out (e ▸ S.ilm)
    · exact S.b0
    · exact fun e => S.cr.out (e ▸ S.irm)
    · exact S.t0
    · exact S.b0
    · exact S.t0
    · exact fun e => S.cr.out (e ▸ hr.1)
    · exact S.t0
    · exact fun e => S.cl.out (e ▸ hl.1)
  refine ⟨?_, ?_⟩
  · intro x y h
    have := bonds_mem (apart_of_nodup nd sp) (preNb (preNb m.nb b) t) h
    rw [bottom_nb S]
    exact ⟨this.1, this.2 (sp _ (mem_flat.2 ⟨_, h, .inr rfl⟩))⟩
  · intro x x1 x2 x3 x4 x5 x6
    rw [bottom_nb S, bonds_other]
    · simp [preNb, x1, x2]
    · rw [← mem_flat]
      simp only [flat, List.flatMap_cons, List.flatMap_nil, List.cons_append, List.nil_append, List.mem_cons,
        List.not_mem_nil, or_false, not_or]
      exact ⟨(bn _ x1).symm, x3, (bn _ x1).symm, x4, (tn _ x2).symm, (bn _ x1).symm, (tn _ x2).symm, x5,
        (tn _ x2).symm, x6⟩

end bottom

section start
variable [IsStrictOrderedRing K]
variable {m : TMesh K} {L R : Finset Nat} {il ir : TEdge} {b t : Nat} {pos : Nat → Vec K}

theorem Start.knitting (S : Start m L R il ir b t) (hl : m.Ccw (fun x => x ∈ L ∧ ¬ m.Ghost x) pos)
    (hr : m.Ccw (fun x => x ∈ R ∧ ¬ m.Ghost x) pos) :
    Knitting pos t (L ∪ R ∪ {b, t}) (fun v => Vertex m L v ∨ Vertex m R v) m
      (m.bottom il ir b) := by
  obtain ⟨bd, keep⟩ := bottom_bonds S
  obtain ⟨ab0, ab1, ab2⟩ := bottom_apex_b S
  have at0 := top_apex0 (m.bottom il ir b) t
  have at1 := top_apex1 (m.bottom il ir b) t
  have at2 := top_apex2 (m.bottom il ir b) t
  have et0 := top_ends0 (m.bottom il ir b) t
  have et1 := top_ends1 (m.bottom il ir b) t
  have et2 := top_ends2 (m.bottom il ir b) t
  have hll : (m.bottom il ir b).lowerleft = m.dest il := rfl
  have hlr : (m.bottom il ir b).lowerright = m.org ir := rfl
  rw [hll] at at1 et0 et2
  rw [hlr] at at2 et0 et1
  have ap := fun (x : TEdge) (h1 : x.1 ≠ b) (h2 : x.1 ≠ t) => bottom_apex (m := m) (il := il) (ir := ir) (x := x) h1 h2
  have sg := bottom_sg (m := m) (il := il) (ir := ir) (b := b) (t := t)
  have ul : (m.bottom il ir b).m.apex (m.bottom il ir b).leftcand = (m.bottom il ir b).upperleft := rfl
  have ur : (m.bottom il ir b).m.apex (m.bottom il ir b).rightcand = (m.bottom il ir b).upperright := rfl
  have ml := S.cl.mate il S.ilm
  have mr := S.cr.mate ir S.irm
  have lb : ∀ {x : Nat}, x ∈ L → x ≠ b ∧ x ≠ t := fun h => ⟨fun e => S.bL (e ▸ h), fun e => S.tL (e ▸ h)⟩
  have rb : ∀ {x : Nat}, x ∈ R → x ≠ b ∧ x ≠ t := fun h => ⟨fun e => S.bR (e ▸ h), fun e => S.tR (e ▸ h)⟩
  have dj := Finset.disjoint_left.1 S.lr
  have d0 : m.dest il ≠ 0 := by rw [← S.il0]; exact (S.cl.corners il S.ilm).symm
  have o0 : m.org ir ≠ 0 := by rw [← S.ir0]; exact S.cr.corners ir S.irm
  have do' : m.dest il ≠ m.org ir := by
    intro e
    exact d0 (S.common _ ⟨lprev il, S.ilm, rfl⟩ ⟨lnext ir, S.irm, e.symm⟩)
  generalize hM : (m.bottom il ir b).top t = M at *
  have eL : ∀ x : TEdge, x.1 ∈ L → ends M x = ends m x := by
    intro x hx
    unfold ends TMesh.org TMesh.dest
    rw [ap (lnext x) (lb hx).1 (lb hx).2, ap (lprev x) (lb hx).1 (lb hx).2]
  have eR : ∀ x : TEdge, x.1 ∈ R → ends M x = ends m x := by
    intro x hx
    unfold ends TMesh.org TMesh.dest
    rw [ap (lnext x) (rb hx).1 (rb hx).2, ap (lprev x) (rb hx).1 (rb hx).2]
  have eb0 : ends M (b, 0) = (m.dest il, 0) := by
    unfold ends TMesh.org TMesh.dest
    rw [show lnext (b, 0) = (b, 1) from rfl, show lprev (b, 0) = (b, 2) from rfl, ab1, ab2]; rfl
  have eb1 : ends M (b, 1) = (0, m.org ir) := by
    unfold ends TMesh.org TMesh.dest
    rw [show lnext (b, 1) = (b, 2) from rfl, show lprev (b, 1) = (b, 0) from rfl, ab0, ab2]; rfl
  have eb2 : ends M (b, 2) = (m.org ir, m.dest il) := by
    unfold ends
    rw [show M.org (b, 2) = M.apex (b, 0) from rfl, show M.dest (b, 2) = M.apex (b, 1) from rfl, ab0, ab1]
  have eil : ends M il = (0, m.dest il) := (eL il S.ilm).trans (by unfold ends; rw [S.il0])
  have eir : ends M ir = (m.org ir, 0) := (eR ir S.irm).trans (by unfold ends; rw [S.ir0])
  have elc : ends M (m.nb il) = (m.dest il, 0) := (eL _ ml.1).trans (by unfold ends; rw [ml.2.2.1, ml.2.2.2, S.il0])
  have erc : ends M (m.nb ir) = (0, m.org ir) := (eR _ mr.1).trans (by unfold ends; rw [mr.2.2.1, mr.2.2.2, S.ir0])
  have key : ∀ x y : TEdge, y.1 ∈ L ∪ R ∪ {b, t} → M.nb x = y ∧ M.nb y = x → ∀ u v, ends M x = (u, v) →
      ends M y = (v, u) → (M.nb x).1 ∈ L ∪ R ∪ {b, t} ∧ M.nb (M.nb x) = x ∧ M.org (M.nb x) = M.dest x ∧
      M.dest (M.nb x) = M.org x := by
    intro x y hy h u v e1 e2
    simp only [ends, Prod.mk.injEq] at e1 e2
    rw [h.1]
    exact ⟨hy, h.2, by rw [e2.1, e1.2], by rw [e2.2, e1.1]⟩
  have inL : ∀ {x : Nat}, x ∈ L → x ∈ L ∪ R ∪ {b, t} := fun h => by simp [h]
  have inR : ∀ {x : Nat}, x ∈ R → x ∈ L ∪ R ∪ {b, t} := fun h => by simp [h]
  have inb : b ∈ L ∪ R ∪ {b, t} := by simp
  have int : t ∈ L ∪ R ∪ {b, t} := by simp
  have B0 := bd (b, 0) il (by simp)
  have B1 := bd (b, 1) ir (by simp)
  have T0 := bd (t, 0) (b, 2) (by simp)
  have T1 := bd (t, 1) (m.nb ir) (by simp)
  have T2 := bd (t, 2) (m.nb il) (by simp)
  have keepL : ∀ x : TEdge, x.1 ∈ L → x ≠ il → x ≠ m.nb il → M.nb x = m.nb x := fun x hx h1 h2 =>
    keep x (lb hx).1 (lb hx).2 h1 (fun e => dj hx (e ▸ S.irm)) (fun e => dj hx (e ▸ mr.1)) h2
  have keepR : ∀ x : TEdge, x.1 ∈ R → x ≠ ir → x ≠ m.nb ir → M.nb x = m.nb x := fun x hx h1 h2 =>
    keep x (rb hx).1 (rb hx).2 (fun e => dj S.ilm (e ▸ hx)) h1 h2 (fun e => dj ml.1 (e ▸ hx))
  have split : ∀ x : TEdge, x.1 ∈ L ∪ R ∪ {b, t} → x.1 ∈ L ∨ x.1 ∈ R ∨ (x = (b, 0) ∨ x = (b, 1) ∨ x = (b, 2)) ∨
      (x = (t, 0) ∨ x = (t, 1) ∨ x = (t, 2)) := by
    intro x hx
    simp only [Finset.mem_union, Finset.mem_insert, Finset.mem_singleton] at hx
    rcases hx with (h | h) | (h | h)
    · exact .inl h
    · exact .inr (.inl h)
    · exact .inr (.inr (.inl (same_tri (y := (b, 0)) h)))
    · exact .inr (.inr (.inr (same_tri (y := (t, 0)) h)))
  have sw : ∀ {x y : TEdge}, M.nb x = y ∧ M.nb y = x → M.nb y = x ∧ M.nb x = y := fun h => ⟨h.2, h.1⟩
  have C : M.Closed (L ∪ R ∪ {b, t}) := by
    refine ⟨?_, ?_, ?_, ?_⟩
    · simp only [Finset.mem_union, Finset.mem_insert, Finset.mem_singleton, not_or]
      exact ⟨⟨S.cl.out, S.cr.out⟩, S.b0.symm, S.t0.symm⟩
    · intro x hx
      rcases split x hx with h | h | (rfl | rfl | rfl) | (rfl | rfl | rfl)
      · by_cases h1 : x = il
        · subst h1; exact key _ (b, 0) inb (sw B0) _ _ eil eb0
        by_cases h2 : x = m.nb il
        · subst h2; exact key _ (t, 2) int (sw T2) _ _ elc et2
        have hm := S.cl.mate x h
        have k1 : m.nb x ≠ il := by intro e; rw [← hm.2.1, e] at h2; exact h2 rfl
        have k2 : m.nb x ≠ m.nb il := by intro e; rw [← hm.2.1, e, ml.2.1] at h1; exact h1 rfl
        have e1 := eL x h
        have e2 := eL _ hm.1
        simp only [ends, Prod.mk.injEq] at e1 e2
        rw [keepL x h h1 h2, keepL _ hm.1 k1 k2, e1.1, e1.2, e2.1, e2.2]
        exact ⟨inL hm.1, hm.2⟩
      · by_cases h1 : x = ir
        · subst h1; exact key _ (b, 1) inb (sw B1) _ _ eir eb1
        by_cases h2 : x = m.nb ir
        · subst h2; exact key _ (t, 1) int (sw T1) _ _ erc et1
        have hm := S.cr.mate x h
        have k1 : m.nb x ≠ ir := by intro e; rw [← hm.2.1, e] at h2; exact h2 rfl
        have k2 : m.nb x ≠ m.nb ir := by intro e; rw [← hm.2.1, e, mr.2.1] at h1; exact h1 rfl
        have e1 := eR x h
        have e2 := eR _ hm.1
        simp only [ends, Prod.mk.injEq] at e1 e2
        rw [keepR x h h1 h2, keepR _ hm.1 k1 k2, e1.1, e1.2, e2.1, e2.2]
        exact ⟨inR hm.1, hm.2⟩
      · exact key _ il (inL S.ilm) B0 _ _ eb0 eil
      · exact key _ ir (inR S.irm) B1 _ _ eb1 eir
      · exact key _ (t, 0) int (sw T0) _ _ eb2 et0
      · exact key _ (b, 2) inb T0 _ _ et0 eb2
      · exact key _ (m.nb ir) (inR mr.1) T1 _ _ et1 erc
      · exact key _ (m.nb il) (inL ml.1) T2 _ _ et2 elc
    · intro x hx
      have key2 : ∀ (y : TEdge) u v, ends M y = (u, v) → u ≠ v → M.org y ≠ M.dest y := by
        intro y u v e huv
        simp only [ends, Prod.mk.injEq] at e
        rw [e.1, e.2]; exact huv
      rcases split x hx with h | h | (rfl | rfl | rfl) | (rfl | rfl | rfl)
      · exact key2 _ _ _ (eL x h) (S.cl.corners x h)
      · exact key2 _ _ _ (eR x h) (S.cr.corners x h)
      · exact key2 _ _ _ eb0 d0
      · exact key2 _ _ _ eb1 o0.symm
      · exact key2 _ _ _ eb2 do'.symm
      · exact key2 _ _ _ et0 do'
      · exact key2 _ _ _ et1 o0
      · exact key2 _ _ _ et2 d0.symm
    · intro x hx
      rw [sg]
      split_ifs with h1 h2
      · rfl
      · rfl
      · simp only [Finset.mem_union, Finset.mem_insert, Finset.mem_singleton, h1, h2, or_false] at hx
        rcases hx with h | h
        · exact S.cl.bare x h
        · exact S.cr.bare x h
  refine
    { closed := hM ▸ C, fence := ?_, tmem := int, bmem := inb, lmem := inL ml.1, rmem := inR mr.1, bne := S.bt
      lne := (lb ml.1).2, rne := (rb mr.1).2, ul := ul, ur := ur, ccw := ?_, vertex := ?_, other := ?_ }
  · rw [hM]
    have t1 : M.dest (t, 1) = 0 := congrArg Prod.snd et1
    have st : Reach M (t, 1) (m.nb il) := by
      have := (Reach.refl M (t, 1)).next
      rwa [around, show lnext (t, 1) = (t, 2) from rfl, T2.1] at this
    have RL : ∀ x : TEdge, x.1 ∈ L → m.dest x = 0 → Reach M (t, 1) x := by
      refine fence_induct S.cl S.fl (s := m.nb il) ml.1 (ml.2.2.2.trans S.il0) _ st ?_
      intro x hx h0 ih
      by_cases h1 : lnext x = il
      · rw [around, h1]; exact st
      · have := ih.next
        rwa [around, keepL (lnext x) hx h1] at this
        intro e
        have o : m.org (lnext x) = 0 := by rw [org_lnext]; exact h0
        rw [e, ml.2.2.1] at o
        exact d0 o
    have sb : Reach M (t, 1) (b, 0) := by
      have := (RL (lprev il) S.ilm (by rw [dest_lprev]; exact S.il0)).next
      rwa [around, lnext_lprev', B0.2] at this
    have sr : Reach M (t, 1) ir := by
      have := sb.next
      rwa [around, show lnext (b, 0) = (b, 1) from rfl, B1.1] at this
    have RR : ∀ x : TEdge, x.1 ∈ R → m.dest x = 0 → Reach M (t, 1) x := by
      refine fence_induct S.cr S.fr (s := ir) S.irm S.ir0 _ sr ?_
      intro x hx h0 ih
      by_cases h1 : lnext x = m.nb ir
      · rw [around, h1, mr.2.1]; exact sr
      · have := ih.next
        rwa [around, keepR (lnext x) hx ?_ h1] at this
        intro e
        have o : m.org (lnext x) = 0 := by rw [org_lnext]; exact h0
        rw [e] at o
        exact o0 o
    refine fence_of_reach C (s := (t, 1)) int t1 ?_
    intro x hx h0
    rcases split x hx with h | h | (rfl | rfl | rfl) | (rfl | rfl | rfl)
    · exact RL x h ((congrArg Prod.snd (eL x h)).symm.trans h0)
    · exact RR x h ((congrArg Prod.snd (eR x h)).symm.trans h0)
    · exact sb
    · exact absurd ((congrArg Prod.snd eb1).symm.trans h0) o0
    · exact absurd ((congrArg Prod.snd eb2).symm.trans h0) d0
    · exact absurd ((congrArg Prod.snd et0).symm.trans h0) o0
    · exact Reach.refl _ _
    · exact absurd ((congrArg Prod.snd et2).symm.trans h0) d0
  · rw [hM]
    intro x hx
    have gb : M.Ghost b := ⟨2, ab2⟩
    have gt : M.Ghost t := ⟨0, at0⟩
    rcases split x hx.1 with h | h | h | h
    · have e := eL x h
      simp only [ends, Prod.mk.injEq] at e
      rw [e.1, e.2, ap x (lb h).1 (lb h).2]
      exact hl x ⟨h, fun ⟨i, hi⟩ => hx.2 ⟨i, by rw [ap (x.1, i) (lb h).1 (lb h).2]; exact hi⟩⟩
    · have e := eR x h
      simp only [ends, Prod.mk.injEq] at e
      rw [e.1, e.2, ap x (rb h).1 (rb h).2]
      exact hr x ⟨h, fun ⟨i, hi⟩ => hx.2 ⟨i, by rw [ap (x.1, i) (rb h).1 (rb h).2]; exact hi⟩⟩
    · exact absurd (by rcases h with rfl | rfl | rfl <;> exact gb) hx.2
    · exact absurd (by rcases h with rfl | rfl | rfl <;> exact gt) hx.2
  · rw [hM]
    intro v
    have v0 : Vertex m L 0 := ⟨lnext il, S.ilm, S.il0⟩
    have v1 : Vertex m L (m.dest il) := ⟨lprev il, S.ilm, rfl⟩
    have v2 : Vertex m R (m.org ir) := ⟨lnext ir, S.irm, rfl⟩
    constructor
    · rintro ⟨x, hx, rfl⟩
      rcases split x hx with h | h | (rfl | rfl | rfl) | (rfl | rfl | rfl)
      · exact .inl ⟨x, h, (ap x (lb h).1 (lb h).2).symm⟩
      · exact .inr ⟨x, h, (ap x (rb h).1 (rb h).2).symm⟩
      · rw [ab0]; exact .inr v2
      · rw [ab1]; exact .inl v1
      · rw [ab2]; exact .inl v0
      · rw [at0]; exact .inl v0
      · rw [at1]; exact .inl v1
      · rw [at2]; exact .inr v2
    · rintro (⟨x, h, rfl⟩ | ⟨x, h, rfl⟩)
      · exact ⟨x, inL h, ap x (lb h).1 (lb h).2⟩
      · exact ⟨x, inR h, ap x (rb h).1 (rb h).2⟩
  · rw [hM]
    intro x hx
    simp only [Finset.mem_union, Finset.mem_insert, Finset.mem_singleton, not_or] at hx
    obtain ⟨⟨h1, h2⟩, h3, h4⟩ := hx
    refine ⟨keep x h3 h4 (fun e => h1 (e ▸ S.ilm)) (fun e => h2 (e ▸ S.irm)) (fun e => h2 (e ▸ mr.1))
      (fun e => h1 (e ▸ ml.1)), ap x h3 h4, ?_⟩
    rw [sg, if_neg h4, if_neg h3]

end start

/-! ### The handles -/

section handles
variable {m : TMesh K} {all : Finset Nat}

/-- A handle from `NULL`. -/
def From (m : TMesh K) (all : Finset Nat) (e : TEdge) : Prop := e.1 ∈ all ∧ m.org e = 0
/-- A handle to `NULL`. -/
def To (m : TMesh K) (all : Finset Nat) (e : TEdge) : Prop := e.1 ∈ all ∧ m.dest e = 0

theorem walk_inv {next : TEdge → TEdge} {go : TEdge → Bool} {P : TEdge → Prop} (h : ∀ e, P e → P (next e)) :
    ∀ {n : Nat} {e e' : TEdge}, P e → walk next go n e = some e' → P e' ∧ go e' = false := by
  intro n
  induction n with
  | zero => intro e e' _ h; simp [walk] at h
  | succ n ih =>
    intro e e' he h'
    rw [walk] at h'
    split at h'
    · exact ih (h e he) h'
    · next hg =>
      simp only [Option.some.injEq] at h'
      subst h'
      exact ⟨he, by simpa using hg⟩

theorem To.lower (C : m.Closed all) {e : TEdge} (h : To m all e) : To m all (m.nb (lnext e)) :=
  around_mem C h.1 h.2

theorem From.higher (C : m.Closed all) {e : TEdge} (h : From m all e) : From m all (lnext (m.nb e)) := by
  have := C.mate e h.1
  exact ⟨this.1, by rw [org_lnext, this.2.2.2, h.2]⟩

theorem From.lower (C : m.Closed all) {e : TEdge} (h : From m all e) : From m all (m.nb (lprev e)) := by
  have := C.mate (lprev e) h.1
  exact ⟨this.1, by rw [this.2.2.1, dest_lprev, h.2]⟩

theorem To.back (C : m.Closed all) {e : TEdge} (h : To m all e) : To m all (lprev (m.nb e)) := by
  have := C.mate e h.1
  exact ⟨this.1, by rw [dest_lprev, this.2.2.1, h.2]⟩

theorem tangent_inv {pos : Nat → Vec K} {L R : Finset Nat} (cl : m.Closed L) (cr : m.Closed R) :
    ∀ {n : Nat} {p p' : TEdge × TEdge}, From m L p.1 → To m R p.2 → m.tangent pos n p = some p' →
      From m L p'.1 ∧ To m R p'.2 ∧
      ¬ orient (pos (m.dest p'.1)) (pos (m.apex p'.1)) (pos (m.org p'.2)) > 0 ∧
      ¬ orient (pos (m.apex p'.2)) (pos (m.org p'.2)) (pos (m.dest p'.1)) > 0 := by
  intro n
  induction n with
  | zero => intro p p' _ _ h; simp [TMesh.tangent] at h
  | succ n ih =>
    intro p p' h1 h2 h
    obtain ⟨il, ir⟩ := p
    rw [TMesh.tangent] at h
    by_cases c1 : orient (pos (m.dest il)) (pos (m.apex il)) (pos (m.org ir)) > 0
    · simp only [c1, decide_true, if_true, Bool.true_or] at h
      refine ih (h1.lower cl) ?_ h
      simp only
      split
      · exact h2.lower cr
      · exact h2
    · simp only [c1, decide_false, Bool.false_eq_true, if_false, Bool.false_or] at h
      by_cases c2 : orient (pos (m.apex ir)) (pos (m.org ir)) (pos (m.dest il)) > 0
      · simp only [c2, decide_true, if_true] at h
        exact ih (p := (il, m.nb (lnext ir))) h1 (h2.lower cr) h
      · simp only [c2, decide_false, Bool.false_eq_true, if_false, Option.some.injEq] at h
        subst h
        exact ⟨h1, h2, c1, c2⟩

end handles

end Ghosts
end Nikfemm
