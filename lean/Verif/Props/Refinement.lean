import Verif.Lemmas.RefinementRun
import Mathlib.Analysis.SpecialFunctions.Pow.Real

/-!
# The refinement as a whole (C122–C125)
-/

set_option linter.unusedSectionVars false

namespace Nikfemm
variable {K : Type} [Field K] [LinearOrder K] [IsStrictOrderedRing K] {b : Quality.Behavior K} {sqrt : K → K}
  {s s' : Refining K}

/-! ## One subsegment -/

section
variable (hsq : ∀ x, 0 < x → 0 < sqrt x) {triflaws : Bool} (O : s.Ok) (Kn : s.Known) (W : s.Waiting b)
include hsq O Kn W

/-- C122.  One entry of the list of encroached subsegments: afterwards the mesh is again a constrained Delaunay
triangulation that covers the same points with the same segments and every subsegment that is encroached upon waits; if
triangles are judged, every triangle passes or waits. -/
theorem splitencsegs_entry {q : BadSub} {c : Picks K} (hq : q ∈ s.segs)
    (h : ({ s with segs := s.segs.erase q } : Refining K).splitSub b sqrt triflaws c q = some s') :
    s'.Ok ∧ s.After s' ∧ s'.Waiting b ∧ s'.Known ∧ (triflaws = true → s.Judged b → s'.Judged b) := by
  obtain ⟨r1, r2, r3, r4, r5⟩ := splitSub_keeps (s := { s with segs := s.segs.erase q }) hsq
    ⟨O.good, O.apart, O.regional, O.free⟩
    (fun q' hq' => Kn q' (by
      rcases List.mem_cons.1 hq' with rfl | hq'
      · exact hq
      · exact List.mem_of_mem_erase hq'))
    (waiting_mem (s := s) (fun q' hq' => by
      by_cases e : q' = q
      · rw [e]; exact List.mem_cons_self
      · exact List.mem_cons_of_mem _ ((List.mem_erase_of_ne e).2 hq')) W) h
  exact ⟨r1, ⟨r2.vertex, r2.winding, r2.onSub, r2.part⟩, r3, r4, r5⟩

/-- C122.  The treatment of an entry ends, and it does not fail: with unused numbers and enough rounds there is a
result. -/
theorem splitencsegs_entry_ends [Archimedean K] {q : BadSub} (hq : q ∈ s.segs) :
    ∃ n0, (∀ c : Picks K, s.Fresh c → n0 ≤ c.n →
      ∃ s', ({ s with segs := s.segs.erase q } : Refining K).splitSub b sqrt triflaws c q = some s') ∧
      ∀ look turn, ∃ c : Picks K, s.Fresh c ∧ n0 ≤ c.n ∧ c.look = look ∧ c.turn = turn := by
  obtain ⟨n0, h⟩ := splitSub_ends (s := { s with segs := s.segs.erase q }) (b := b) (q := q) hsq triflaws
    ⟨O.good, O.apart, O.regional, O.free⟩
    (fun q' hq' => Kn q' (by
      rcases List.mem_cons.1 hq' with rfl | hq'
      · exact hq
      · exact List.mem_of_mem_erase hq'))
    (waiting_mem (s := s) (fun q' hq' => by
      by_cases e : q' = q
      · rw [e]; exact List.mem_cons_self
      · exact List.mem_cons_of_mem _ ((List.mem_erase_of_ne e).2 hq')) W)
  refine ⟨n0, fun c hF hn => h c hF hn, fun look turn => ?_⟩
  obtain ⟨c, hF, hn⟩ := fresh_exists s look turn n0
  exact ⟨⟨c.v, c.n1, c.n2, c.ss, n0, look, turn⟩, hF, le_rfl, rfl, rfl⟩

/-- C123.  When `splitencsegs` is done, no subsegment is encroached upon; the mesh is a constrained Delaunay triangulation
that covers the same points with the same segments, and vertices that are not free are where they were. -/
theorem splitencsegs_done (h : Refining.Splits b sqrt triflaws s s') :
    s'.Ok ∧ s.After s' ∧ s'.segs = [] ∧ s'.m.Unencroached b s'.pos (· ∈ s'.tris) ∧
      (triflaws = true → s.Judged b → s'.Judged b) := by
  obtain ⟨r1, r2, r3, r4, r5⟩ := splits_keeps hsq O Kn W h
  exact ⟨r1, r2, r4, unencroached_of_waiting r3 r4, r5⟩

end

/-! ## All triangles -/

/-- C124.  One bad triangle.  With no subsegment encroached upon, splitting a triangle ends (`splittriangle` never fails)
and leaves a constrained Delaunay triangulation that covers the same points with the same segments.  No subsegment is
encroached upon; if none waits, every triangle passes or waits, and otherwise this is so once the triangle is put back. -/
theorem enforcequality_triangle {q : BadTri} (O : s.Ok) (U : s.m.Unencroached b s.pos (· ∈ s.tris)) (h0 : s.segs = [])
    (J : s.Judged b) :
    (∀ c : Picks K, s.Fresh c → 3 * s.tris.card + 1 ≤ c.n →
      ∃ s', ({ s with bad := s.bad.erase q } : Refining K).splitBad b c q = some s') ∧
    ∀ c s', ({ s with bad := s.bad.erase q } : Refining K).splitBad b c q = some s' →
      s'.Ok ∧ s.After s' ∧ s'.Known ∧ s'.m.Unencroached b s'.pos (· ∈ s'.tris) ∧ (s'.segs = [] → s'.Judged b) ∧
        ({ s' with bad := q :: s'.bad } : Refining K).Judged b := by
  have O' : ({ s with bad := s.bad.erase q } : Refining K).Ok := ⟨O.good, O.apart, O.regional, O.free⟩
  refine ⟨fun c hF hn => splitBad_ends O' hF hn, fun c s' h => ?_⟩
  obtain ⟨r1, r2, r3⟩ := splitBad_keeps O' U h0 (J.mono ⟨rfl, rfl, rfl, rfl⟩ (fun q' hq' _ => by
    by_cases e : q' = q
    · rw [e]; exact List.mem_cons_self
    · exact List.mem_cons_of_mem _ ((List.mem_erase_of_ne e).2 hq'))) h
  exact ⟨r1, ⟨r2.vertex, r2.winding, r2.onSub, r2.part⟩, r3⟩

section
variable (hsq : ∀ x, 0 < x → 0 < sqrt x) (O : s.Ok) (h : Refining.Enforces b sqrt s s')
include hsq O h

/-- C124.  When `enforcequality` is done: the mesh is a consistent constrained Delaunay triangulation without overlaps,
attributes differ only across subsegments, no subsegment is encroached upon, and every triangle passes `testtriangle`. -/
theorem enforcequality_mesh : s'.Ok ∧ s.After s' ∧ s'.m.Unencroached b s'.pos (· ∈ s'.tris) ∧ ∀ t ∈ s'.tris, s'.Passes b t := by
  obtain ⟨subs, l, c, c', s1, hl, h1, h2, h3⟩ := h
  obtain ⟨w1, w2⟩ := tally_waiting (b := b) (c := c) O hl
  obtain ⟨r1, r2, r3, r4, -⟩ := splits_keeps hsq (s := ({ s with segs := [] } : Refining K).tallyencs b c subs)
    ⟨O.good, O.apart, O.regional, O.free⟩ w2 w1 h1
  have U := unencroached_of_waiting r3 r4
  have O1 : ({ s1 with bad := [] } : Refining K).Ok := ⟨r1.good, r1.apart, r1.regional, r1.free⟩
  obtain ⟨i1, i2, i3⟩ := improves_keeps hsq (s := ({ s1 with bad := [] } : Refining K).tallyfaces b c' l)
    ⟨r1.good, r1.apart, r1.regional, r1.free⟩ U r4 (tally_judged O1 h2) h3
  exact ⟨i1, Refining.After.trans ⟨r2.vertex, r2.winding, r2.onSub, r2.part⟩ ⟨i2.vertex, i2.winding, i2.onSub, i2.part⟩, i3⟩

/-- C124.  The refined mesh covers what the mesh covered: what is inside of a triangle is within one afterwards, and the
other way round. -/
theorem enforcequality_covers (p : Vec K) :
    (∀ t ∈ s.tris, s.m.Inside s.pos t p → ∃ t' ∈ s'.tris, s'.m.Within s'.pos t' p) ∧
    (∀ t ∈ s'.tris, s'.m.Inside s'.pos t p → ∃ t' ∈ s.tris, s.m.Within s.pos t' p) := by
  obtain ⟨O', A, -⟩ := enforcequality_mesh hsq O h
  exact ⟨fun t ht hi => winding_cover_after O.good.ccw O'.good.ccw A.winding ht hi,
    fun t ht hi => winding_cover_after O'.good.ccw O.good.ccw (fun p => (A.winding p).symm) ht hi⟩

end

/-- C125.  With a minimum angle `θ` of at most 90 degrees: in the refined mesh no triangle is larger than the maximum area,
and if an angle of a triangle is smaller than `θ`, a shortest edge of the triangle joins two vertices that were put on
segments by the mesher. -/
theorem enforcequality_quality {b : Quality.Behavior ℝ} {s s' : Refining ℝ} {θ : ℝ} (h0 : 0 ≤ θ) (hθ : θ ≤ Real.pi / 2)
    (hg : b.goodangle = Real.cos θ ^ 2) (O : s.Ok) (h : Refining.Enforces b Real.sqrt s s') :
    ∀ t ∈ s'.tris, ∃ e : TEdge, e.1 = t ∧
      (b.fixedarea = true → ccw (s'.pos (s'.m.org e)) (s'.pos (s'.m.dest e)) (s'.pos (s'.m.apex e)) / 2 ≤ b.maxarea) ∧
      (Spec.SmallAngle (s'.vtx (s'.m.org e)).pt (s'.vtx (s'.m.dest e)).pt (s'.vtx (s'.m.apex e)).pt θ →
        ∃ x : TEdge, x.1 = t ∧ s'.kind (s'.m.org x) = .segment ∧ s'.kind (s'.m.dest x) = .segment ∧
          ∀ y : TEdge, y.1 = t → Spec.sqDist (s'.vtx (s'.m.org x)).pt (s'.vtx (s'.m.dest x)).pt ≤
            Spec.sqDist (s'.vtx (s'.m.org y)).pt (s'.vtx (s'.m.dest y)).pt) := by
  obtain ⟨O', -, -, P⟩ := enforcequality_mesh (fun x hx => Real.sqrt_pos.2 hx) O h
  intro t ht
  obtain ⟨e, a, rfl, he⟩ := P t ht
  have hcc : Spec.area2 (s'.vtx (s'.m.org e)).pt (s'.vtx (s'.m.dest e)).pt (s'.vtx (s'.m.apex e)).pt =
      ccw (s'.pos (s'.m.org e)) (s'.pos (s'.m.dest e)) (s'.pos (s'.m.apex e)) := by
    simp only [vtx_pt]; unfold Spec.area2 ccw; ring
  have hpos : 0 < Spec.area2 (s'.vtx (s'.m.org e)).pt (s'.vtx (s'.m.dest e)).pt (s'.vtx (s'.m.apex e)).pt := by
    rw [hcc]; exact O'.good.ccw e ht
  obtain ⟨i, r, h1, h2, -, h3⟩ := Quality.testtriangle_verdict (areabound := a.bound) h0 hθ hg a.common a.around hpos
  obtain rfl : none = r := Except.ok.inj (he.symm.trans h1)
  have h3 := mt h3.2 (by simp)
  rw [not_or, not_or] at h3
  obtain ⟨k1, -, k3⟩ := h3
  refine ⟨e, rfl, fun hf => ?_, fun hs => ?_⟩
  · rw [← hcc]
    by_contra hc
    exact k1 ⟨hf, not_le.1 hc⟩
  · have k4 : (Spec.edgeOf (s'.vtx (s'.m.org e)) (s'.vtx (s'.m.dest e)) (s'.vtx (s'.m.apex e)) i).1.inSegment = true ∧
        (Spec.edgeOf (s'.vtx (s'.m.org e)) (s'.vtx (s'.m.dest e)) (s'.vtx (s'.m.apex e)) i).2.inSegment = true := by
      by_contra hc
      exact k3 ⟨hs, fun hk => hc ⟨hk.1, hk.2.1⟩⟩
    have all : ∀ y : TEdge, y.1 = e.1 → ∃ j : Fin 3, Spec.edgeOf (s'.vtx (s'.m.org e)).pt (s'.vtx (s'.m.dest e)).pt
        (s'.vtx (s'.m.apex e)).pt j = ((s'.vtx (s'.m.org y)).pt, (s'.vtx (s'.m.dest y)).pt) := by
      intro y hy
      rcases edge_cases e.2 hy with rfl | hy | hy
      · exact ⟨0, rfl⟩
      · refine ⟨1, ?_⟩
        rw [show y = lnext e from hy, org_lnext, dest_lnext]; rfl
      · refine ⟨2, ?_⟩
        rw [show y = lprev e from hy, org_lprev, dest_lprev]; rfl
    have kd : ∀ v, (s'.vtx v).inSegment = true → s'.kind v = .segment := fun v hv => of_decide_eq_true hv
    have fin : ∀ x : TEdge, x.1 = e.1 → Spec.edgeOf (s'.vtx (s'.m.org e)) (s'.vtx (s'.m.dest e)) (s'.vtx (s'.m.apex e)) i =
        (s'.vtx (s'.m.org x), s'.vtx (s'.m.dest x)) →
        Spec.edgeOf (s'.vtx (s'.m.org e)).pt (s'.vtx (s'.m.dest e)).pt (s'.vtx (s'.m.apex e)).pt i =
          ((s'.vtx (s'.m.org x)).pt, (s'.vtx (s'.m.dest x)).pt) →
        ∃ x : TEdge, x.1 = e.1 ∧ s'.kind (s'.m.org x) = .segment ∧ s'.kind (s'.m.dest x) = .segment ∧
          ∀ y : TEdge, y.1 = e.1 → Spec.sqDist (s'.vtx (s'.m.org x)).pt (s'.vtx (s'.m.dest x)).pt ≤
            Spec.sqDist (s'.vtx (s'.m.org y)).pt (s'.vtx (s'.m.dest y)).pt := by
      intro x hx e1 e2
      rw [e1] at k4
      refine ⟨x, hx, kd _ k4.1, kd _ k4.2, fun y hy => ?_⟩
      obtain ⟨j, hj⟩ := all y hy
      have := h2 j
      rw [e2, hj] at this
      exact this
    have i3 : i = 0 ∨ i = 1 ∨ i = 2 := by fin_cases i <;> simp
    rcases i3 with rfl | rfl | rfl
    · exact fin e rfl rfl rfl
    · exact fin (lnext e) rfl (by rw [org_lnext, dest_lnext]; rfl) (by rw [org_lnext, dest_lnext]; rfl)
    · exact fin (lprev e) rfl (by rw [org_lprev, dest_lprev]; rfl) (by rw [org_lprev, dest_lprev]; rfl)

/-! ## A wheel whose hub is too close to the rim -/

/-- The hub is in the circle on the rim from 3 to 4. -/
def wheel5Near : Nat → Vec ℚ := fun i => match i with
  | 1 => ⟨3, 0⟩ | 2 => ⟨1, 3⟩ | 3 => ⟨-3, 2⟩ | 4 => ⟨-3, -2⟩ | 5 => ⟨1, -3⟩ | _ => ⟨-2, 0⟩

theorem wheel5Near_good : wheel5.Good wheel5Live wheel5Near := by
  have C : wheel5.Ccw wheel5Live wheel5Near := by
    refine wheel5_cases ?_
    unfold CcwPts
    decide +kernel
  refine ⟨wheel5_good.sound, C, ?_, wheel5_good.fenced⟩
  intro e he
  rw [ld_iff C he]
  revert e
  refine wheel5_cases ?_
  decide +kernel

theorem wheel5Near_apart : wheel5.Apart wheel5Live wheel5Near := by
  have cone : ∀ t, wheel5Live t → ∀ p, wheel5.Inside wheel5Near t p →
      0 < ccw ⟨-2, 0⟩ (wheel5Near t) p ∧ ccw ⟨-2, 0⟩ (wheel5Near (if t = 5 then 1 else t + 1)) p < 0 := by
    intro t ht p hp
    unfold wheel5Live at ht
    simp only [Finset.mem_insert, Finset.mem_singleton] at ht
    obtain ⟨h1, h2, h3⟩ := hp
    unfold CcwPts at h1 h2 h3
    rcases ht with rfl | rfl | rfl | rfl | rfl <;>
      simp [wheel5, wheel5Near, TMesh.org, TMesh.dest, lnext, lprev, ccw] at h1 h2 h3 ⊢ <;>
      constructor <;> linarith
  intro t t' ht ht' hne p ⟨h1, h2⟩
  obtain ⟨a1, a2⟩ := cone t ht p h1
  obtain ⟨b1, b2⟩ := cone t' ht' p h2
  unfold wheel5Live at ht ht'
  simp only [Finset.mem_insert, Finset.mem_singleton] at ht ht'
  rcases ht with rfl | rfl | rfl | rfl | rfl <;> rcases ht' with rfl | rfl | rfl | rfl | rfl <;>
    simp [wheel5Near, ccw] at hne a1 a2 b1 b2 <;> linarith

/-- The wheel before the refinement; the hub is free. -/
def near5 : Refining ℚ := ⟨wheel5, wheel5Near, fun i => if i = 6 then .free else .input, {1, 2, 3, 4, 5}, [], []⟩

theorem near5_ok : near5.Ok := by
  refine ⟨wheel5Near_good, wheel5Near_apart, fun _ _ _ _ => rfl, fun v hv => ?_⟩
  have : v = 6 := by
    by_contra hc
    simp [near5, hc] at hv
  rw [this]
  exact wheel5_free

/-- Unused numbers; the walk around the vertices finds nothing. -/
def pick5 (s : Refining ℚ) : Picks ℚ where
  v := s.tris.sup id + 100
  n1 := s.tris.sup id + 1
  n2 := s.tris.sup id + 2
  ss := s.tris.sup id + 1
  n := 40
  look := fun _ _ => ⟨0, fun _ => false, fun _ => (⟨⟨0, 0, false⟩, ⟨0, 0, false⟩⟩, ⟨⟨0, 0, false⟩, ⟨0, 0, false⟩⟩)⟩
  turn := fun _ => false

def subs5 : List TSub := [(1, 0), (2, 0), (3, 0), (4, 0), (5, 0)]

theorem near5_subs : near5.AllSubs subs5 := by
  constructor
  · exact wheel5_cases (p := fun x => wheel5.sg x ≠ noSub → wheel5.sg x ∈ subs5 ∨ ssym (wheel5.sg x) ∈ subs5) (by decide)
  · intro t ht
    simp only [subs5, List.mem_cons, List.not_mem_nil, or_false] at ht
    rcases ht with rfl | rfl | rfl | rfl | rfl
    · exact ⟨by decide, (1, 1), by decide, .inl rfl⟩
    · exact ⟨by decide, (2, 1), by decide, .inl rfl⟩
    · exact ⟨by decide, (3, 1), by decide, .inl rfl⟩
    · exact ⟨by decide, (4, 1), by decide, .inl rfl⟩
    · exact ⟨by decide, (5, 1), by decide, .inl rfl⟩

/-- The encroached subsegments of the wheel wait. -/
def near5Waits : Refining ℚ := ({ near5 with segs := [] } : Refining ℚ).tallyencs lens30 (pick5 near5) subs5

theorem near5Waits_ok : near5Waits.Ok ∧ near5Waits.Known ∧ near5Waits.Waiting lens30 :=
  ⟨⟨near5_ok.good, near5_ok.apart, near5_ok.regional, near5_ok.free⟩, (tally_waiting near5_ok near5_subs).2,
    (tally_waiting near5_ok near5_subs).1⟩

/-- A subsegment of the wheel waits; the hub is deleted and the subsegment is split in the middle. -/
example : ∃ (s : Refining ℚ) (q : BadSub) (c : Picks ℚ), s.Ok ∧ s.Known ∧ s.Waiting lens30 ∧ q ∈ s.segs ∧ s.Fresh c ∧
    (({ s with segs := s.segs.erase q } : Refining ℚ).splitSub lens30 id false c q).map
      (fun s' => (s'.tris.card, s'.segs.length, s'.pos c.v)) = some (4, 0, ⟨-3, 0⟩) :=
  ⟨near5Waits, ⟨(3, 0), 4, 3⟩, pick5 near5, near5Waits_ok.1, near5Waits_ok.2.1, near5Waits_ok.2.2, by decide +kernel,
    by decide +kernel, by decide +kernel⟩

/-- `splitencsegs` splits a subsegment of the wheel and ends. -/
theorem near5_splits : ∃ s1 : Refining ℚ, Refining.Splits lens30 id false near5Waits s1 ∧
    near5Waits.splitsRun lens30 id false pick5 9 = some s1 := by
  have h : (near5Waits.splitsRun lens30 id false pick5 9).isSome = true := by decide +kernel
  obtain ⟨s1, h1⟩ := Option.isSome_iff_exists.1 h
  exact ⟨s1, splitsRun_splits h1, h1⟩

/-- One subsegment of the wheel waits; there are four triangles when `splitencsegs` is done. -/
example : near5Waits.segs.length = 1 ∧ ∃ s1, Refining.Splits lens30 id false near5Waits s1 ∧ s1.tris.card = 4 := by
  obtain ⟨s1, h1, h2⟩ := near5_splits
  have h3 : ((near5Waits.splitsRun lens30 id false pick5 9).map fun s => s.tris.card) = some 4 := by decide +kernel
  rw [h2] at h3
  exact ⟨by decide +kernel, s1, h1, by simpa using h3⟩

/-- The triangles that are there after `splitencsegs`. -/
def near5Tris (s : Refining ℚ) : List Nat := (List.range 9).filter (· ∈ s.tris)

theorem near5Tris_all {s1 : Refining ℚ} (h : near5Waits.splitsRun lens30 id false pick5 9 = some s1) (t : Nat) :
    t ∈ near5Tris s1 ↔ t ∈ s1.tris := by
  have h3 : ((near5Waits.splitsRun lens30 id false pick5 9).map fun s => decide (s.tris ⊆ Finset.range 9)) = some true := by
    decide +kernel
  rw [h] at h3
  have h3 : s1.tris ⊆ Finset.range 9 := by simpa using h3
  unfold near5Tris
  simp only [List.mem_filter, List.mem_range, decide_eq_true_eq, and_iff_right_iff_imp]
  exact fun ht => Finset.mem_range.1 (h3 ht)

/-- After `splitencsegs` a triangle of the wheel has an angle that is too small; it is split, or subsegments wait. -/
example : ∃ (s : Refining ℚ) (q : BadTri), s.Ok ∧ s.m.Unencroached lens30 s.pos (· ∈ s.tris) ∧ s.segs = [] ∧
    s.Judged lens30 ∧ q ∈ s.bad := by
  obtain ⟨s1, h1, h2⟩ := near5_splits
  obtain ⟨O, A, h0, U, -⟩ := splitencsegs_done (fun _ hx => hx) near5Waits_ok.1 near5Waits_ok.2.1 near5Waits_ok.2.2 h1
  have O' : ({ s1 with bad := [] } : Refining ℚ).Ok := ⟨O.good, O.apart, O.regional, O.free⟩
  have hb : ((near5Waits.splitsRun lens30 id false pick5 9).map fun s1 =>
      (({ s1 with bad := [] } : Refining ℚ).tallyfaces lens30 (pick5 near5) (near5Tris s1)).bad.isEmpty) = some false := by
    decide +kernel
  rw [h2] at hb
  have hb : ((({ s1 with bad := [] } : Refining ℚ).tallyfaces lens30 (pick5 near5) (near5Tris s1)).bad.isEmpty) = false := by
    simpa using hb
  obtain ⟨q, hq⟩ := List.exists_mem_of_ne_nil
    (({ s1 with bad := [] } : Refining ℚ).tallyfaces lens30 (pick5 near5) (near5Tris s1)).bad
    (by intro hc; rw [hc] at hb; cases hb)
  exact ⟨({ s1 with bad := [] } : Refining ℚ).tallyfaces lens30 (pick5 near5) (near5Tris s1), q,
    ⟨O.good, O.apart, O.regional, O.free⟩, U, h0,
    tally_judged O' (l := near5Tris s1) (near5Tris_all h2), hq⟩

/-- The wheel is refined: four triangles are there after `splitencsegs` and nine in the end. -/
example : ∃ s s' : Refining ℚ, s.Ok ∧ Refining.Enforces lens30 id s s' ∧ s'.tris.card = 9 := by
  obtain ⟨s1, h1, h2⟩ := near5_splits
  have h3 : ((near5Waits.splitsRun lens30 id false pick5 9).bind fun s1 =>
      ((({ s1 with bad := [] } : Refining ℚ).tallyfaces lens30 (pick5 near5) (near5Tris s1)).improvesRun lens30 id pick5
        20).map fun s => s.tris.card) = some 9 := by decide +kernel
  rw [h2] at h3
  obtain ⟨s', h4, h5⟩ := Option.map_eq_some_iff.1 (by simpa using h3)
  exact ⟨near5, s', near5_ok, ⟨subs5, near5Tris s1, pick5 near5, pick5 near5, s1, near5_subs, h1, near5Tris_all h2,
    improvesRun_improves h4⟩, h5⟩

/-! ## A triangle with real coordinates -/

/-- One triangle, with corners 1, 2, 3 and subsegments all around. -/
def roof : TMesh ℝ where
  nb e := if e = space then (1, 1) else space
  apex e := if e.1 = 1 then ![1, 2, 3] e.2 else 0
  sg e := if e.1 = 1 then ![(1, 0), (2, 0), (3, 0)] e.2 else noSub
  st s := match s with
    | (1, 0) => (1, 0) | (2, 0) => (1, 1) | (3, 0) => (1, 2) | _ => space
  sorg s := match s with
    | (1, 0) => 3 | (1, 1) => 2 | (2, 0) => 1 | (2, 1) => 3 | (3, 0) => 2 | (3, 1) => 1 | _ => 0
  attr _ := 0
  checksegments := true

def roofAt : Nat → Vec ℝ := fun i => match i with
  | 1 => ⟨0, 0⟩ | 2 => ⟨4, 0⟩ | _ => ⟨2, 3⟩

theorem roof_cases {p : TEdge → Prop} (h0 : p (1, 0)) (h1 : p (1, 1)) (h2 : p (1, 2)) (e : TEdge)
    (he : e.1 ∈ ({1} : Finset Nat)) : p e := by
  obtain ⟨t, o⟩ := e
  simp only [Finset.mem_singleton] at he
  subst he
  fin_cases o <;> assumption

/-- At most 10 units of area and angles of at least 30 degrees. -/
noncomputable def roofB : Quality.Behavior ℝ := ⟨true, 10, false, Real.cos (Real.pi / 6) ^ 2, 0, false, 0⟩

/-- The triangle is not to be refined. -/
example : ∃ (θ : ℝ) (b : Quality.Behavior ℝ) (s s' : Refining ℝ), 0 ≤ θ ∧ θ ≤ Real.pi / 2 ∧ b.goodangle = Real.cos θ ^ 2 ∧
    b.fixedarea = true ∧ s.Ok ∧ Refining.Enforces b Real.sqrt s s' ∧ s'.tris.Nonempty := by
  have S : roof.Sound (· ∈ ({1} : Finset Nat)) := by
    refine ⟨by decide, roof_cases ?_ ?_ ?_, roof_cases ?_ ?_ ?_, fun _ => by decide, roof_cases ?_ ?_ ?_, ?_⟩
    any_goals decide
    intro h; exact absurd h (by decide)
  have C : roof.Ccw (· ∈ ({1} : Finset Nat)) roofAt := by
    refine roof_cases ?_ ?_ ?_ <;> unfold CcwPts <;> simp [roof, roofAt, TMesh.org, TMesh.dest, lnext, lprev] <;> norm_num
  have G : roof.Good (· ∈ ({1} : Finset Nat)) roofAt :=
    ⟨S, C, fun e he => (ld_iff C he).2 (roof_cases (p := fun e => roof.sg e = noSub → roof.nb e ≠ space → _)
      (fun h => absurd h (by decide)) (fun h => absurd h (by decide)) (fun h => absurd h (by decide)) e he),
      roof_cases (by decide) (by decide) (by decide)⟩
  let s : Refining ℝ := ⟨roof, roofAt, fun _ => .input, {1}, [], []⟩
  have O : s.Ok := by
    refine ⟨G, ?_, fun _ _ _ _ => rfl, fun v hv => by cases hv⟩
    intro t t' ht ht' hne
    exact absurd ((Finset.mem_singleton.1 ht).trans (Finset.mem_singleton.1 ht').symm) hne
  let c : Picks ℝ := ⟨0, 0, 0, 0, 0, fun _ _ => ⟨0, fun _ => false, fun _ => (⟨⟨0, 0, false⟩, ⟨0, 0, false⟩⟩,
    ⟨⟨0, 0, false⟩, ⟨0, 0, false⟩⟩)⟩, fun _ => false⟩
  have he : ∀ t ∈ [((1 : Nat), (0 : Fin 2)), (2, 0), (3, 0)], roof.encroaches roofB roofAt t = false := by
    intro t ht
    simp only [List.mem_cons, List.not_mem_nil, or_false] at ht
    rcases ht with rfl | rfl | rfl <;>
      simp [TMesh.encroaches, roof, roofAt, TMesh.sideApex, Quality.checkseg4encroach, Quality.sideIn, Quality.inLens, vtxAt, ssym,
        space] <;> norm_num
  have e1 : s.tallyencs roofB c [(1, 0), (2, 0), (3, 0)] = s := by
    unfold Refining.tallyencs Refining.check
    rw [List.filter_eq_nil_iff.2 fun t ht => by rw [show s.m.encroaches roofB s.pos t = false from he t ht]; decide]
    rfl
  have e2 : s.tallyfaces roofB c [1] = s := by
    have hf : s.fails roofB c ((1, 0), 2, 3, 1) = false := by
      simp [Refining.fails, Quality.testtriangle, Quality.shortest, Quality.tooLarge, Quality.areaOf, Refining.vtx, roofB, s, roofAt,
        fdiv, c]
      norm_num [bind, Except.bind]
      rw [if_neg (fun h => by have h1 := h.1; rw [div_pow, Real.sq_sqrt (by norm_num)] at h1; norm_num at h1)]
    unfold Refining.tallyfaces Refining.judge
    simp only [List.map_cons, List.map_nil]
    rw [show ((((1 : Nat), (0 : Fin 3)), s.m.org (1, 0), s.m.dest (1, 0), s.m.apex (1, 0)) : TEdge × Nat × Nat × Nat) =
      ((1, 0), 2, 3, 1) from rfl, List.filter_cons, hf]
    rfl
  refine ⟨Real.pi / 6, roofB, s, s, by positivity, by linarith [Real.pi_pos], rfl, rfl, O,
    ⟨[(1, 0), (2, 0), (3, 0)], [1], c, c, s, ⟨?_, ?_⟩, ?_, by simp [s], ?_⟩, ⟨1, by simp [s]⟩⟩
  · exact roof_cases (by decide) (by decide) (by decide)
  · intro t ht
    simp only [List.mem_cons, List.not_mem_nil, or_false] at ht
    rcases ht with rfl | rfl | rfl
    · exact ⟨by decide, (1, 0), by decide, .inl rfl⟩
    · exact ⟨by decide, (1, 1), by decide, .inl rfl⟩
    · exact ⟨by decide, (1, 2), by decide, .inl rfl⟩
  · rw [show ({ s with segs := [] } : Refining ℝ) = s from rfl, e1]; exact .done s rfl
  · rw [show ({ s with bad := [] } : Refining ℝ) = s from rfl, e2]; exact .done s rfl

end Nikfemm
