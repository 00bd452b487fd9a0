import Verif.Props.Refinement

/-!
# Refinement and the regions (C126)
-/

set_option linter.unusedSectionVars false

namespace Nikfemm
variable {K : Type} [Field K] [LinearOrder K] [IsStrictOrderedRing K] {b : Quality.Behavior K} {sqrt : K → K}
  {s s' : Refining K}

/-- What is inside of a triangle is within one with the same attribute, whenever the triangles with each attribute go round
every point equally often. -/
theorem Refining.After.covered (O : s.Ok) (O' : s'.Ok) (h : ∀ a p, s'.m.winding (s'.tris.filter fun t => s'.m.attr t = a) s'.pos p =
    s.m.winding (s.tris.filter fun t => s.m.attr t = a) s.pos p) {t : Nat} (ht : t ∈ s.tris) {p : Vec K}
    (hi : s.m.Inside s.pos t p) : ∃ t' ∈ s'.tris, s'.m.attr t' = s.m.attr t ∧ s'.m.Within s'.pos t' p := by
  obtain ⟨t', h1, h2⟩ := winding_cover_after (m := s.m) (m' := s'.m) (T := s.tris.filter fun x => s.m.attr x = s.m.attr t)
    (T' := s'.tris.filter fun x => s'.m.attr x = s.m.attr t)
    (fun e he => O.good.ccw e (Finset.mem_filter.1 he).1) (fun e he => O'.good.ccw e (Finset.mem_filter.1 he).1)
    (h (s.m.attr t)) (Finset.mem_filter.2 ⟨ht, rfl⟩) hi
  exact ⟨t', (Finset.mem_filter.1 h1).1, (Finset.mem_filter.1 h1).2, h2⟩

/-- Where triangles do not overlap, a point inside of one is on no other. -/
theorem TMesh.Apart.alone {m : TMesh K} {live : Nat → Prop} {pos : Nat → Vec K} (A : m.Apart live pos) (C : m.Ccw live pos)
    {t u : Nat} (ht : live t) (hu : live u) {p : Vec K} (hi : m.Inside pos t p) (hw : m.Within pos u p) : t = u := by
  by_contra hne
  set a := pos (m.org (u, 0)) with ha
  set b := pos (m.dest (u, 0)) with hb
  set c := pos (m.apex (u, 0)) with hc
  have hpos : 0 < ccw a b c := C (u, 0) hu
  have swap : ∀ {a b : Vec K}, ¬ CcwPts b a p → 0 ≤ ccw a b p := by
    intro a b h
    have h : ¬ 0 < ccw b a p := h
    rw [ccw_swap] at h
    linarith
  have w1 := swap hw.1
  have w2 := swap hw.2.1
  have w3 := swap hw.2.2
  rw [← ha, ← hb] at w1
  rw [← hb, ← hc] at w2
  rw [← hc, ← ha] at w3
  obtain ⟨s, hs, hL⟩ := nudge [lineOf (pos (m.org (t, 0))) (pos (m.dest (t, 0))), lineOf (pos (m.dest (t, 0))) (pos (m.apex (t, 0))),
    lineOf (pos (m.apex (t, 0))) (pos (m.org (t, 0)))] (p := p) (by
      intro l hl
      simp only [List.mem_cons, List.not_mem_nil, or_false] at hl
      rcases hl with rfl | rfl | rfl <;> rw [lineOf_at]
      · exact hi.1
      · exact hi.2.1
      · exact hi.2.2) ((a.x + b.x + c.x) / 3 - p.x) ((a.y + b.y + c.y) / 3 - p.y)
  set τ := min s (1 / 2) with hτ
  have τ0 : 0 < τ := lt_min hs (by norm_num)
  have τ1 : τ < 1 := lt_of_le_of_lt (min_le_right _ _) (by norm_num)
  have hL := hL τ τ0 (min_le_left _ _)
  set q : Vec K := ⟨p.x + τ * ((a.x + b.x + c.x) / 3 - p.x), p.y + τ * ((a.y + b.y + c.y) / 3 - p.y)⟩ with hq
  have h1 := hL (lineOf (pos (m.org (t, 0))) (pos (m.dest (t, 0)))) (by simp)
  have h2 := hL (lineOf (pos (m.dest (t, 0))) (pos (m.apex (t, 0)))) (by simp)
  have h3 := hL (lineOf (pos (m.apex (t, 0))) (pos (m.org (t, 0)))) (by simp)
  rw [lineOf_at] at h1 h2 h3
  have e : ∀ {z : K}, 0 ≤ z → 0 < (1 - τ) * z + τ * (ccw a b c / 3) := by
    intro z hz
    have := mul_nonneg (sub_nonneg.2 τ1.le) hz
    have := mul_pos τ0 (div_pos hpos (by norm_num : (0 : K) < 3))
    linarith
  refine A t u ht hu hne q ⟨⟨h1, h2, h3⟩, ?_, ?_, ?_⟩
  · show 0 < ccw a b q
    have := e w1
    rwa [show (1 - τ) * ccw a b p + τ * (ccw a b c / 3) = ccw a b q by simp only [hq, ccw]; ring] at this
  · show 0 < ccw b c q
    have := e w2
    rwa [show (1 - τ) * ccw b c p + τ * (ccw a b c / 3) = ccw b c q by simp only [hq, ccw]; ring] at this
  · show 0 < ccw c a q
    have := e w3
    rwa [show (1 - τ) * ccw c a p + τ * (ccw a b c / 3) = ccw c a q by simp only [hq, ccw]; ring] at this

/-- C126.  Refinement moves no point from one region to another: what is inside of a triangle is, afterwards, within a
triangle with the same attribute, and what is inside of a triangle afterwards was within one with the same attribute. -/
theorem enforcequality_materials (hsq : ∀ x, 0 < x → 0 < sqrt x) (O : s.Ok) (h : Refining.Enforces b sqrt s s') (p : Vec K) :
    (∀ t ∈ s.tris, s.m.Inside s.pos t p → ∃ t' ∈ s'.tris, s'.m.attr t' = s.m.attr t ∧ s'.m.Within s'.pos t' p) ∧
    (∀ t' ∈ s'.tris, s'.m.Inside s'.pos t' p → ∃ t ∈ s.tris, s.m.attr t = s'.m.attr t' ∧ s.m.Within s.pos t p) := by
  obtain ⟨O', A, -⟩ := enforcequality_mesh hsq O h
  exact ⟨fun t ht hi => Refining.After.covered O O' A.part ht hi,
    fun t ht hi => Refining.After.covered O' O (fun a p => (A.part a p).symm) ht hi⟩

/-- C126.  A triangle of the refined mesh and a triangle of the mesh have the same attribute if they overlap. -/
theorem enforcequality_overlap (hsq : ∀ x, 0 < x → 0 < sqrt x) (O : s.Ok) (h : Refining.Enforces b sqrt s s') {t t' : Nat}
    (ht : t ∈ s.tris) (ht' : t' ∈ s'.tris) {p : Vec K} (hi : s.m.Inside s.pos t p) (hi' : s'.m.Inside s'.pos t' p) :
    s'.m.attr t' = s.m.attr t := by
  obtain ⟨u, hu, ha, hw⟩ := (enforcequality_materials hsq O h p).2 t' ht' hi'
  rw [← ha, O.apart.alone O.good.ccw ht hu hi hw]

/-! ## Two regions -/

/-- Two triangles with different attributes on either side of a subsegment, and subsegments all around. -/
def kiteMesh : TMesh ℚ where
  nb := fun e => match e with
    | (0, 0) => (1, 0) | (1, 1) => (2, 2) | (2, 2) => (1, 1) | _ => space
  apex := fun e => match e with
    | (1, 0) => 1 | (1, 1) => 2 | (1, 2) => 3 | (2, 0) => 1 | (2, 1) => 3 | (2, 2) => 4 | _ => 0
  sg := fun e => match e with
    | (1, 0) => (1, 0) | (1, 1) => (2, 0) | (1, 2) => (3, 0) | (2, 0) => (4, 0) | (2, 1) => (5, 0) | (2, 2) => (2, 1)
    | _ => noSub
  st := fun s => match s with
    | (1, 0) => (1, 0) | (2, 0) => (1, 1) | (2, 1) => (2, 2) | (3, 0) => (1, 2) | (4, 0) => (2, 0) | (5, 0) => (2, 1)
    | _ => space
  sorg := fun s => match s with
    | (1, 0) => 3 | (1, 1) => 2 | (2, 0) => 1 | (2, 1) => 3 | (3, 0) => 2 | (3, 1) => 1 | (4, 0) => 4 | (4, 1) => 3
    | (5, 0) => 1 | (5, 1) => 4 | _ => 0
  attr := fun t => if t = 1 then 7 else 8
  checksegments := true

def kiteAt : Nat → Vec ℚ := fun i => match i with
  | 1 => ⟨-3, 0⟩ | 2 => ⟨0, -2⟩ | 3 => ⟨3, 0⟩ | _ => ⟨0, 2⟩

theorem kiteMesh_cases {p : TEdge → Prop} (h : ∀ t ∈ ({1, 2} : Finset Nat), ∀ o : Fin 3, p (t, o)) (e : TEdge)
    (he : e.1 ∈ ({1, 2} : Finset Nat)) : p e := h e.1 he e.2

def kiteState : Refining ℚ := ⟨kiteMesh, kiteAt, fun _ => .input, {1, 2}, [], []⟩

theorem kiteState_ok : kiteState.Ok := by
  have S : kiteMesh.Sound (· ∈ ({1, 2} : Finset Nat)) := by
    refine ⟨by decide, kiteMesh_cases ?_, kiteMesh_cases ?_, fun _ => by decide, kiteMesh_cases ?_, ?_⟩
    · decide
    · decide
    · decide
    · intro h; exact absurd h (by decide)
  have C : kiteMesh.Ccw (· ∈ ({1, 2} : Finset Nat)) kiteAt := by
    refine kiteMesh_cases ?_
    unfold CcwPts
    decide +kernel
  refine ⟨⟨S, C, ?_, kiteMesh_cases ?_⟩, ?_, kiteMesh_cases ?_, fun v hv => by cases hv⟩
  · intro e he
    refine (ld_iff C he).2 ?_
    revert e
    refine kiteMesh_cases ?_
    decide +kernel
  · decide
  · have side : ∀ t ∈ ({1, 2} : Finset Nat), ∀ p : Vec ℚ, kiteMesh.Inside kiteAt t p → if t = 1 then p.y < 0 else 0 < p.y := by
      intro t ht p hp
      simp only [Finset.mem_insert, Finset.mem_singleton] at ht
      obtain ⟨h1, h2, h3⟩ := hp
      unfold CcwPts at h1 h2 h3
      rcases ht with rfl | rfl <;> simp [kiteMesh, kiteAt, TMesh.org, TMesh.dest, lnext, lprev] at h1 h2 h3 ⊢ <;> linarith
    intro t t' ht ht' hne p ⟨h1, h2⟩
    have h1 := side t ht p h1
    have h2 := side t' ht' p h2
    have ht : t ∈ ({1, 2} : Finset Nat) := ht
    have ht' : t' ∈ ({1, 2} : Finset Nat) := ht'
    simp only [Finset.mem_insert, Finset.mem_singleton] at ht ht'
    rcases ht with rfl | rfl <;> rcases ht' with rfl | rfl <;> simp at hne h1 h2 <;> linarith
  · decide +kernel

/-- Angles of at least 30 degrees, and nothing in the circles on the subsegments. -/
def circle30 : Quality.Behavior ℚ := { lens30 with conformdel := true }

/-- Unused numbers. -/
def kitePick (s : Refining ℚ) : Picks ℚ := { pick5 s with ss := s.tris.sup id + 100 }

theorem kiteState_subs : kiteState.AllSubs subs5 := by
  constructor
  · exact kiteMesh_cases (p := fun x => kiteMesh.sg x ≠ noSub → kiteMesh.sg x ∈ subs5 ∨ ssym (kiteMesh.sg x) ∈ subs5) (by decide)
  · intro t ht
    simp only [subs5, List.mem_cons, List.not_mem_nil, or_false] at ht
    rcases ht with rfl | rfl | rfl | rfl | rfl
    · exact ⟨by decide, (1, 0), by decide, .inl rfl⟩
    · exact ⟨by decide, (1, 1), by decide, .inl rfl⟩
    · exact ⟨by decide, (1, 2), by decide, .inl rfl⟩
    · exact ⟨by decide, (2, 0), by decide, .inl rfl⟩
    · exact ⟨by decide, (2, 1), by decide, .inl rfl⟩

def kiteWaits : Refining ℚ := ({ kiteState with segs := [] } : Refining ℚ).tallyencs circle30 (kitePick kiteState) subs5

/-- The subsegment between the regions is encroached upon and split, and each region has three triangles in the end. -/
example : ∃ s s' : Refining ℚ, s.Ok ∧ Refining.Enforces circle30 id s s' ∧
    (s.tris.filter fun t => s.m.attr t = 7).card = 1 ∧ (s.tris.filter fun t => s.m.attr t = 8).card = 1 ∧
    (s'.tris.filter fun t => s'.m.attr t = 7).card = 3 ∧ (s'.tris.filter fun t => s'.m.attr t = 8).card = 3 := by
  have h : ((kiteWaits.splitsRun circle30 id false kitePick 9).map fun s1 => decide (s1.tris = {1, 2, 3, 4, 5, 6} ∧
      (({ s1 with bad := [] } : Refining ℚ).tallyfaces circle30 (kitePick kiteState) [1, 2, 3, 4, 5, 6]).bad = [] ∧
      (s1.tris.filter fun t => s1.m.attr t = 7).card = 3 ∧ (s1.tris.filter fun t => s1.m.attr t = 8).card = 3)) = some true := by
    decide +kernel
  obtain ⟨s1, h1, h2⟩ := Option.map_eq_some_iff.1 h
  obtain ⟨h2, h3, h4, h5⟩ := of_decide_eq_true h2
  refine ⟨kiteState, ({ s1 with bad := [] } : Refining ℚ).tallyfaces circle30 (kitePick kiteState) [1, 2, 3, 4, 5, 6], kiteState_ok,
    ⟨subs5, [1, 2, 3, 4, 5, 6], kitePick kiteState, kitePick kiteState, s1, kiteState_subs, splitsRun_splits h1, ?_, .done _ h3⟩,
    by decide +kernel, by decide +kernel, h4, h5⟩
  intro t
  rw [h2]
  simp

end Nikfemm
