import Verif.Lemmas.Refine
import Verif.Lemmas.Convex
import Verif.Props.Polygon
import Mathlib.Analysis.Real.Pi.Bounds

/-!
# Drawings: properties C30 to C36, C58
-/

namespace Nikfemm
open Spec Drawing

section
variable {K P : Type} [Field K] [LinearOrder K] [IsStrictOrderedRing K]

/-! ## C30 -/

/-- The operation is not `drawPolygon` without vertices (undefined behaviour, see C35). -/
def Allowed (o : Op K P) : Prop := o ≠ .polygon []

/-- By how much the operations of a history translate the drawing. -/
def totalShift (ops : List (Op K P)) : Vec K :=
  ops.foldl (fun v o => match o with | .translate w => v.add w | _ => v) ⟨0, 0⟩

omit [LinearOrder K] [IsStrictOrderedRing K] in
theorem wf_translate {D : Drawing K P} (h : WellFormed D) (v : Vec K) :
    WellFormed (D.translate v) := by
  refine ⟨?_, h.simple, ?_⟩
  · intro s hs
    simpa [Drawing.translate] using h.refs s hs
  · intro r hr
    simp only [Drawing.translate, List.mem_map] at hr
    obtain ⟨r', hr', rfl⟩ := hr
    exact h.materials r' hr'

omit [LinearOrder K] [IsStrictOrderedRing K] in
theorem extends_translate {D D' : Drawing K P} (h : Extends D D') (v : Vec K) :
    Extends (D.translate v) (D'.translate v) :=
  ⟨h.points.map _, h.segments, h.polygons.map _, h.regions.map _, h.regionMap⟩

omit [LinearOrder K] [IsStrictOrderedRing K] in
theorem translate_zero (D : Drawing K P) : D.translate ⟨0, 0⟩ = D := by
  have h : (fun p : Vec K => p.add ⟨0, 0⟩) = id := by funext p; simp [Vec.add]
  have hr : (fun r : Vec K × Nat => (r.1.add ⟨0, 0⟩, r.2)) = id := by funext r; simp [Vec.add]
  simp only [Drawing.translate, Polygon.translate, h, hr, List.map_id, List.map_id_fun, id]
  cases D; simp

omit [LinearOrder K] [IsStrictOrderedRing K] in
theorem translate_translate (D : Drawing K P) (v w : Vec K) :
    (D.translate v).translate w = D.translate (v.add w) := by
  simp only [Drawing.translate, Polygon.translate, List.map_map, Drawing.mk.injEq, true_and]
  refine ⟨?_, ?_, ?_⟩ <;> refine List.map_congr_left fun p _ => ?_
  · simp [Vec.add, add_assoc]
  · simp [Vec.add, add_assoc]
  · simp [Function.comp, Vec.add, add_assoc]

/-- One operation on a well-formed drawing. -/
theorem run_step (lm : Libm K) (eqP : P → P → Bool) {D : Drawing K P} (hD : WellFormed D)
    {o : Op K P} (ho : Allowed o) (hno : ∀ v, o ≠ .translate v) :
    Step WellFormed D (o.run lm eqP D) := by
  cases o with
  | rectangle p1 p2 => exact drawRectangle_step hD p1 p2
  | rectangleWH p1 w h => exact drawRectangle_step hD _ _
  | circle c r n => exact circleLoop_step lm c r _ n _ _ _ hD
  | polygon Q => exact drawPolygon_step hD (fun h => ho (by rw [h]))
  | region p v => exact drawRegion_step eqP hD p v
  | regionId v => exact regionId_step eqP hD v
  | point p => exact drawPoint_step hD p
  | refine => exact refine_step lm hD
  | translate v => exact absurd rfl (hno v)

theorem run_wf (lm : Libm K) (eqP : P → P → Bool) {D : Drawing K P} (hD : WellFormed D)
    {o : Op K P} (ho : Allowed o) :
    WellFormed (o.run lm eqP D).1 ∧ ((o.run lm eqP D).2 = none ∨ (o.run lm eqP D).2 = some .throw) := by
  by_cases h : ∃ v, o = .translate v
  · obtain ⟨v, rfl⟩ := h
    exact ⟨wf_translate hD v, Or.inl rfl⟩
  · push Not at h
    have := run_step lm eqP hD ho h
    exact ⟨this.inv, this.out⟩

theorem runAll_wf (lm : Libm K) (eqP : P → P → Bool) : ∀ (ops : List (Op K P)) {D : Drawing K P},
    WellFormed D → (∀ o ∈ ops, Allowed o) → WellFormed (runAll lm eqP ops D)
  | [], _, hD, _ => hD
  | o :: ops, _, hD, h =>
    runAll_wf lm eqP ops (run_wf lm eqP hD (h o (by simp))).1 (fun o ho => h o (by simp [ho]))

omit [LinearOrder K] [IsStrictOrderedRing K] in
theorem wf_empty : WellFormed (Drawing.empty : Drawing K P) :=
  ⟨by simp [Drawing.empty], by simp [Drawing.empty], by simp [Drawing.empty]⟩

/-- C30: after any history of operations, whatever exceptions were raised on the way, segments
refer to existing points, regions to registered materials and no pair of points is joined
twice. -/
theorem history_well_formed (lm : Libm K) (eqP : P → P → Bool) (ops : List (Op K P))
    (h : ∀ o ∈ ops, Allowed o) : WellFormed (runAll lm eqP ops Drawing.empty) :=
  runAll_wf lm eqP ops wf_empty h

/-- C30: no operation of a history has undefined behaviour; each ends normally or by throwing. -/
theorem history_no_undefined_behaviour (lm : Libm K) (eqP : P → P → Bool) (ops : List (Op K P))
    (h : ∀ o ∈ ops, Allowed o) (o : Op K P) (ho : Allowed o) :
    (o.run lm eqP (runAll lm eqP ops Drawing.empty)).2 = none ∨
      (o.run lm eqP (runAll lm eqP ops Drawing.empty)).2 = some .throw :=
  (run_wf lm eqP (history_well_formed lm eqP ops h) ho).2

omit [IsStrictOrderedRing K] in
theorem totalShift_aux : ∀ (ops : List (Op K P)) (v : Vec K),
    ops.foldl (fun v o => match o with | .translate w => v.add w | _ => v) v =
      v.add (totalShift ops)
  | [], v => by simp [totalShift, Vec.add]
  | o :: ops, v => by
    have h1 := totalShift_aux ops
    unfold totalShift
    simp only [List.foldl_cons]
    rw [h1, h1 (match o with | .translate w => (⟨0, 0⟩ : Vec K).add w | _ => ⟨0, 0⟩)]
    cases o <;> simp [Vec.add, add_assoc]

theorem runAll_keeps (lm : Libm K) (eqP : P → P → Bool) : ∀ (ops : List (Op K P)) {D : Drawing K P},
    WellFormed D → (∀ o ∈ ops, Allowed o) →
    Extends (D.translate (totalShift ops)) (runAll lm eqP ops D)
  | [], D, _, _ => by
    have : totalShift ([] : List (Op K P)) = ⟨0, 0⟩ := rfl
    rw [this, translate_zero]; exact extends_refl D
  | o :: ops, D, hD, h => by
    have ho := h o (by simp)
    have ih := runAll_keeps lm eqP ops (run_wf lm eqP hD ho).1 (fun o ho => h o (by simp [ho]))
    have hrun : runAll lm eqP (o :: ops) D = runAll lm eqP ops (o.run lm eqP D).1 := rfl
    have hs : totalShift (o :: ops) =
        (match o with | .translate w => w | _ => (⟨0, 0⟩ : Vec K)).add (totalShift ops) := by
      conv_lhs => unfold totalShift
      rw [List.foldl_cons, totalShift_aux]
      cases o <;> simp [Vec.add]
    rw [hrun, hs, ← translate_translate]
    by_cases ht : ∃ v, o = .translate v
    · obtain ⟨v, rfl⟩ := ht
      exact ih
    · push Not at ht
      have hstep := run_step lm eqP hD ho ht
      have : (match o with | .translate w => w | _ => (⟨0, 0⟩ : Vec K)) = ⟨0, 0⟩ := by
        cases o with
        | translate v => exact absurd rfl (ht v)
        | _ => rfl
      rw [this, translate_zero]
      exact extends_trans (extends_translate hstep.ext _) ih

/-- C30: what was in the drawing at some moment stays there at the same index: after further
operations the drawing extends the old one, moved by the translations among these operations. -/
theorem history_keeps_indices (lm : Libm K) (eqP : P → P → Bool) (before after : List (Op K P))
    (h : ∀ o ∈ before ++ after, Allowed o) :
    Extends ((runAll lm eqP before Drawing.empty).translate (totalShift after))
      (runAll lm eqP (before ++ after) Drawing.empty) := by
  have : runAll lm eqP (before ++ after) Drawing.empty =
      runAll lm eqP after (runAll lm eqP before Drawing.empty) := List.foldl_append
  rw [this]
  exact runAll_keeps lm eqP after
    (history_well_formed lm eqP before fun o ho => h o (List.mem_append_left _ ho))
    (fun o ho => h o (List.mem_append_right _ ho))

/-- C30: without translations values are kept as well. -/
theorem history_keeps_values (lm : Libm K) (eqP : P → P → Bool) (before after : List (Op K P))
    (h : ∀ o ∈ before ++ after, Allowed o) (ht : ∀ o ∈ after, ∀ v, o ≠ .translate v) :
    Extends (runAll lm eqP before Drawing.empty)
      (runAll lm eqP (before ++ after) Drawing.empty) := by
  have hz : ∀ (l : List (Op K P)), (∀ o ∈ l, ∀ v, o ≠ .translate v) → totalShift l = ⟨0, 0⟩ := by
    intro l
    induction l with
    | nil => intro _; rfl
    | cons o l ih =>
      intro hl
      have := ih (fun o ho => hl o (by simp [ho]))
      unfold totalShift at this ⊢
      rw [List.foldl_cons]
      cases o with
      | translate v => exact absurd rfl (hl _ (by simp) v)
      | _ => exact this
  have := history_keeps_indices lm eqP before after h
  rwa [hz after ht, translate_zero] at this

/-- A stand-in for `<cmath>` over `ℚ`, for examples. -/
def toyLibm : Libm ℚ := ⟨fun _ => 1, fun _ => 1, fun _ => 1, fun _ _ => 1, 3⟩

/-- A history with an exception: the second polygon is rejected at its second edge. -/
def toyHistory : List (Op ℚ Nat) :=
  [.rectangle ⟨0, 0⟩ ⟨4, 4⟩, .region ⟨1, 1⟩ 7, .polygon [⟨1, 1⟩, ⟨2, 1⟩, ⟨2, 4⟩], .translate ⟨1, 0⟩,
   .point ⟨3, 3⟩, .polygon [⟨2, 1⟩, ⟨3, 1⟩, ⟨3, 2⟩], .region ⟨2, 2⟩ 7]

example : (∀ o ∈ toyHistory, Allowed o) ∧
    ((Op.polygon [⟨1, 1⟩, ⟨2, 1⟩, ⟨2, 4⟩] : Op ℚ Nat).run toyLibm (· == ·)
      (runAll toyLibm (· == ·) (toyHistory.take 2) Drawing.empty)).2 = some .throw ∧
    (runAll toyLibm (· == ·) toyHistory Drawing.empty).segments.length = 7 := by
  refine ⟨by simp [toyHistory, Allowed], ?_, ?_⟩ <;> decide +kernel

/-! ## C31 -/

/-- Draw segments one after the other, going on after exceptions. -/
def drawSegments (reqs : List (Vec K × Vec K)) (D : Drawing K P) : Drawing K P :=
  reqs.foldl (fun D r => (D.drawSegment r.1 r.2).1) D

theorem drawSegments_step : ∀ (reqs : List (Vec K × Vec K)) {D : Drawing K P}, WellFormed D →
    WellFormed (drawSegments reqs D) ∧ Extends D (drawSegments reqs D)
  | [], D, h => ⟨h, extends_refl D⟩
  | r :: reqs, D, h => by
    have h1 := drawSegment_step h r.1 r.2
    have h2 := drawSegments_step reqs h1.inv
    exact ⟨h2.1, extends_trans h1.ext h2.2⟩

/-- C31: drawing only segments with ends at least 1e-9 apart (whatever was rejected among them)
keeps the points pairwise at least 1e-9 apart. -/
theorem drawn_points_separated (reqs : List (Vec K × Vec K))
    (h : ∀ r ∈ reqs, ¬ Near r.1 r.2) :
    Separated (drawSegments reqs (Drawing.empty : Drawing K P)).points := by
  have key : ∀ (reqs : List (Vec K × Vec K)) (D : Drawing K P), Separated D.points →
      (∀ r ∈ reqs, ¬ Near r.1 r.2) → Separated (drawSegments reqs D).points := by
    intro reqs
    induction reqs with
    | nil => intro D h _; exact h
    | cons r reqs ih =>
      intro D hD hr
      refine ih _ ?_ (fun r hr' => hr r (by simp [hr']))
      rw [drawSegment_points]
      refine place_separated hD ?_
      have := hr r (by simp)
      rw [near_iff, Bool.not_eq_true] at this
      exact this
  exact key reqs _ (by simp [Drawing.empty, Separated]) h

/-- C31: a segment that was drawn without exception is in the final drawing, between points
within 1e-9 of the requested ends. -/
theorem drawn_segments_present (pre post : List (Vec K × Vec K)) (p q : Vec K)
    (h : ((drawSegments pre (Drawing.empty : Drawing K P)).drawSegment p q).2 = none) :
    HasSegment (drawSegments (pre ++ (p, q) :: post) (Drawing.empty : Drawing K P)) p q := by
  have e : drawSegments (pre ++ (p, q) :: post) (Drawing.empty : Drawing K P) =
      drawSegments post ((drawSegments pre Drawing.empty).drawSegment p q).1 := by
    simp [drawSegments, List.foldl_append]
  rw [e]
  have h1 := (drawSegments_step pre (wf_empty (K := K) (P := P))).1
  have h2 := drawSegment_step h1 p q
  exact hasSegment_extends (drawSegments_step post h2.inv).2 (drawSegment_has h1 h)

/-- C31: the same through the public interface: rectangles and polygons whose consecutive
vertices are at least 1e-9 apart, regions and translations. -/
theorem history_points_separated (lm : Libm K) (eqP : P → P → Bool) (ops : List (Op K P))
    (h : ∀ o ∈ ops, match o with
      | .rectangle p q => ¬ Near p ⟨q.x, p.y⟩ ∧ ¬ Near p ⟨p.x, q.y⟩
      | .polygon Q => ∀ e ∈ polyEdges Q, ¬ Near e.1 e.2
      | .region _ _ | .regionId _ | .translate _ => True
      | _ => False) :
    Separated (runAll lm eqP ops (Drawing.empty : Drawing K P)).points := by
  have far : ∀ {p q : Vec K}, ¬ Near p q → p.eqv q = false := by
    intro p q hh; rwa [near_iff, Bool.not_eq_true] at hh
  have seg : ∀ {D : Drawing K P} {p q : Vec K}, Separated D.points → ¬ Near p q →
      Separated (D.drawSegment p q).1.points := by
    intro D p q hD hpq
    rw [drawSegment_points]; exact place_separated hD (far hpq)
  have sq : ∀ {x : Drawing K P × Option Fault} {f : Drawing K P → Drawing K P × Option Fault},
      Separated x.1.points → (∀ D, Separated D.points → Separated (f D).1.points) →
      Separated (seq x f).1.points := by
    rintro ⟨d, _ | e⟩ f hx hf
    · exact hf d hx
    · exact hx
  have chain : ∀ (l : List (Vec K)) (a : Vec K) (D : Drawing K P), Separated D.points →
      (∀ e ∈ (a :: l).zip l, ¬ Near e.1 e.2) → Separated (drawChain D a l).1.points := by
    intro l
    induction l with
    | nil => intro a D hD _; exact hD
    | cons b l ih =>
      intro a D hD hl
      exact sq (seg hD (hl (a, b) (by simp))) fun D' hD' =>
        ih b D' hD' (fun e he => hl e (by rw [List.zip_cons_cons]; exact List.mem_cons_of_mem _ he))
  have poly : ∀ (Q : Polygon K) (D : Drawing K P), Separated D.points →
      (∀ e ∈ polyEdges Q, ¬ Near e.1 e.2) → Separated (D.drawPolygon Q).1.points := by
    intro Q D hD hQ
    cases Q with
    | nil => exact hD
    | cons a l =>
      have hedges : polyEdges (a :: l) = (a :: l).zip l ++ [((a :: l).getLast (by simp), a)] := by
        unfold polyEdges
        have hr : List.rotate (a :: l) 1 = l ++ [a] := by simp
        rw [hr]
        conv_lhs => rw [← List.dropLast_append_getLast (List.cons_ne_nil a l)]
        rw [List.zip_append (by simp)]
        congr 1
        rw [← List.take_length (l := l)]
        conv_rhs => rw [List.zip_eq_zip_take_min]
        simp [List.dropLast_eq_take]
      rw [hedges] at hQ
      exact sq (chain l a D hD fun e he => hQ e (List.mem_append_left _ he)) fun D' hD' =>
        sq (seg hD' (hQ (_, a) (List.mem_append_right _ (by simp)))) fun D'' hD'' => hD''
  have key : ∀ (ops : List (Op K P)) (D : Drawing K P), Separated D.points →
      (∀ o ∈ ops, match o with
        | .rectangle p q => ¬ Near p ⟨q.x, p.y⟩ ∧ ¬ Near p ⟨p.x, q.y⟩
        | .polygon Q => ∀ e ∈ polyEdges Q, ¬ Near e.1 e.2
        | .region _ _ | .regionId _ | .translate _ => True
        | _ => False) → Separated (runAll lm eqP ops D).points := by
    intro ops
    induction ops with
    | nil => intro D hD _; exact hD
    | cons o ops ih =>
      intro D hD ho
      refine ih (o.run lm eqP D).1 ?_ (fun o' h' => ho o' (List.mem_cons_of_mem _ h'))
      have h0 := ho o (by simp)
      cases o with
      | rectangle p q =>
        show Separated (D.drawRectangle p q).1.points
        rw [drawRectangle_eq]
        refine poly [p, ⟨q.x, p.y⟩, q, ⟨p.x, q.y⟩] D hD ?_
        intro e he
        obtain ⟨h1, h2⟩ := h0
        simp only [polyEdges, List.rotate_cons_succ, List.rotate_zero, List.cons_append,
          List.nil_append, List.zip_cons_cons, List.zip_nil_right, List.mem_cons,
          List.not_mem_nil, or_false] at he
        unfold Near at h1 h2 ⊢
        rcases he with rfl | rfl | rfl | rfl <;> dsimp only at h1 h2 ⊢
        · exact h1
        · intro hh; apply h2; linarith
        · intro hh; apply h1; nlinarith
        · intro hh; apply h2; nlinarith
      | polygon Q => exact poly Q D hD h0
      | region p v =>
        show Separated (D.getRegionId eqP v).2.points
        rw [(getRegionId_step eqP D v).2.2.1]; exact hD
      | regionId v =>
        show Separated (D.getRegionId eqP v).2.points
        rw [(getRegionId_step eqP D v).2.2.1]; exact hD
      | translate v =>
        show Separated (D.points.map (fun p => p.add v))
        rw [separated_iff, List.pairwise_map]
        simp only [(point_equality_laws _ _ v).2.2]
        exact (separated_iff _).mp hD
      | rectangleWH | circle | point | refine => exact absurd h0 id
  exact key ops _ (by simp [Drawing.empty, Separated]) h

example : ∀ o ∈ ([.rectangle ⟨0, 0⟩ ⟨4, 4⟩, .region ⟨1, 1⟩ 7, .polygon [⟨1, 1⟩, ⟨2, 1⟩, ⟨2, 2⟩],
    .translate ⟨1, 0⟩] : List (Op ℚ Nat)), match o with
      | .rectangle p q => ¬ Near p ⟨q.x, p.y⟩ ∧ ¬ Near p ⟨p.x, q.y⟩
      | .polygon Q => ∀ e ∈ polyEdges Q, ¬ Near e.1 e.2
      | .region _ _ | .regionId _ | .translate _ => True
      | _ => False := by
  simp [polyEdges, Near]
  norm_num
  rintro a b (⟨rfl, rfl⟩ | ⟨rfl, rfl⟩ | ⟨rfl, rfl⟩) <;> norm_num

/-- C31: a zero-length segment stores its point twice, and so does drawing a point twice. -/
theorem separation_can_fail (p : Vec K) :
    ((Drawing.empty : Drawing K P).drawPolygon [p]).1.points = [p, p] ∧
    ((Drawing.empty : Drawing K P).drawPolygon [p]).2 = none ∧
    (((Drawing.empty : Drawing K P).drawPoint p).drawPoint p).points = [p, p] ∧
    ¬ Separated [p, p] := by
  refine ⟨rfl, rfl, rfl, ?_⟩
  unfold Separated
  simp

example : (∀ r ∈ ([(⟨0, 0⟩, ⟨1, 0⟩), (⟨1, 0⟩, ⟨0, 1⟩)] : List (Vec ℚ × Vec ℚ)), ¬ Near r.1 r.2) ∧
    ((drawSegments [(⟨0, 0⟩, ⟨1, 0⟩)] (Drawing.empty : Drawing ℚ Nat)).drawSegment
      ⟨1, 0⟩ ⟨0, 1⟩).2 = none := by
  refine ⟨?_, by decide +kernel⟩
  simp [Near]; norm_num

/-! ## C32 -/

/-- C32: a segment is rejected only because of an existing segment that shares no end point with
it and on which the intersection test fires; then no segment is stored, but the end points are:
the drawing has points near both. -/
theorem rejected_segment (D : Drawing K P) (hD : WellFormed D) (p q : Vec K)
    (h : (D.drawSegment p q).2 ≠ none) :
    (D.drawSegment p q).2 = some .throw ∧
    (D.drawSegment p q).1.segments = D.segments ∧
    (∃ i j a b, (D.drawSegment p q).1.points[i]? = some a ∧ Near a p ∧
      (D.drawSegment p q).1.points[j]? = some b ∧ Near b q ∧
      ∃ s ∈ D.segments, ¬ ShareEnd s (i, j) ∧ ∃ c d, D.points[s.1]? = some c ∧
        D.points[s.2]? = some d ∧ segmentsIntersect p q c d = true) := by
  have hpts := drawSegment_points D p q
  have hout := (drawSegment_step hD p q).out.resolve_left h
  obtain ⟨pre, ⟨a, ha, ea⟩, ⟨b, hb, eb⟩⟩ := place_spec D.points p q
  refine ⟨hout, ?_⟩
  rw [hpts]
  rw [drawSegment_eq] at h ⊢
  set r := place D.points p q with hr
  have hrefs : ∀ s ∈ D.segments, s.1 < r.2.2.length ∧ s.2 < r.2.2.length := by
    intro s hs
    have := hD.refs s hs
    have hl := pre.length_le
    omega
  have hspec := checkSegments_spec r.2.2 p q r.1 r.2.1 D.segments hrefs
  dsimp only at h ⊢
  cases hc : checkSegments r.2.2 p q r.1 r.2.1 D.segments with
  | ok v => rw [hc] at h; cases v <;> exact absurd rfl h
  | error e =>
    rw [hc] at hspec
    obtain ⟨-, s, hs, hsh, c, d, hcc, hd, -, hi⟩ := hspec
    refine ⟨rfl, r.1, r.2.1, a, b, ha, (near_iff _ _).mpr ea, hb, (near_iff _ _).mpr eb, s, hs, hsh,
      c, d, ?_, ?_, hi⟩
    · obtain ⟨t, ht⟩ := pre
      rw [← ht, List.getElem?_append_left (hD.refs s hs).1] at hcc; exact hcc
    · obtain ⟨t, ht⟩ := pre
      rw [← ht, List.getElem?_append_left (hD.refs s hs).2] at hd; exact hd

/-- C32: conversely, a new segment is rejected if one of its ends is in the bounding box of an
existing segment without common end point on which the test fires. -/
theorem rejected_segment_complete (D : Drawing K P) (hD : WellFormed D) (p q : Vec K) (s : Nat × Nat)
    (hs : s ∈ D.segments) (c d : Vec K) (hc : D.points[s.1]? = some c) (hd : D.points[s.2]? = some d)
    (hpc : ¬ Near c p) (hqc : ¬ Near c q) (hpd : ¬ Near d p) (hqd : ¬ Near d q)
    (hbb : (min c.x d.x ≤ p.x ∧ p.x ≤ max c.x d.x ∧ min c.y d.y ≤ p.y ∧ p.y ≤ max c.y d.y) ∨
      (min c.x d.x ≤ q.x ∧ q.x ≤ max c.x d.x ∧ min c.y d.y ≤ q.y ∧ q.y ≤ max c.y d.y))
    (hi : segmentsIntersect p q c d = true)
    (hnew : ¬ ∃ t ∈ D.segments, ∃ i j a b, SamePair t (i, j) ∧ D.points[i]? = some a ∧
      D.points[j]? = some b ∧ Near a p ∧ Near b q) :
    (D.drawSegment p q).2 = some .throw := by
  obtain ⟨pre, ⟨a, ha, ea⟩, ⟨b, hb, eb⟩⟩ := place_spec D.points p q
  rw [drawSegment_eq]
  set r := place D.points p q with hr
  have keep : ∀ {i : Nat} {v : Vec K}, D.points[i]? = some v → r.2.2[i]? = some v := by
    intro i v hv
    obtain ⟨t, ht⟩ := pre
    rw [← ht, List.getElem?_append_left (getElem?_lt hv)]; exact hv
  have hrefs : ∀ s ∈ D.segments, s.1 < r.2.2.length ∧ s.2 < r.2.2.length := by
    intro s hs
    have := hD.refs s hs
    have hl := pre.length_le
    omega
  have hspec := checkSegments_spec r.2.2 p q r.1 r.2.1 D.segments hrefs
  have nn : ∀ {i : Nat} {u v w : Vec K}, r.2.2[i]? = some u → u.eqv v = true → ∀ {j : Nat},
      r.2.2[j]? = some w → ¬ Near w v → j ≠ i := by
    rintro i u v w hu hv j hw hn rfl
    rw [hu] at hw; cases hw
    exact hn ((near_iff _ _).mpr hv)
  dsimp only
  cases hcc : checkSegments r.2.2 p q r.1 r.2.1 D.segments with
  | error e => rw [hcc] at hspec; rw [lift, hspec.1]
  | ok v =>
    rw [hcc] at hspec
    exfalso
    cases v with
    | true =>
      obtain ⟨t, ht, hsp⟩ := hspec
      refine hnew ⟨t, ht, r.1, r.2.1, a, b, hsp, ?_, ?_, (near_iff _ _).mpr ea, (near_iff _ _).mpr eb⟩
      · have hlt : r.1 < D.points.length := by
          have := hD.refs t ht
          rcases hsp with h | h <;> · dsimp only at h; omega
        obtain ⟨u, hu⟩ := pre
        rw [← hu, List.getElem?_append_left hlt] at ha; exact ha
      · have hlt : r.2.1 < D.points.length := by
          have := hD.refs t ht
          rcases hsp with h | h <;> · dsimp only at h; omega
        obtain ⟨u, hu⟩ := pre
        rw [← hu, List.getElem?_append_left hlt] at hb; exact hb
    | false =>
      have h1 := hspec.2 s hs ?_ c d (keep hc) (keep hd) ?_
      · rw [hi] at h1; cases h1
      · have n1 := nn ha ea (keep hc) hpc
        have n2 := nn hb eb (keep hc) hqc
        have n3 := nn ha ea (keep hd) hpd
        have n4 := nn hb eb (keep hd) hqd
        rintro (h | h | h | h)
        · exact n1 h
        · exact n2 h
        · exact n3 h
        · exact n4 h
      · unfold pointInSegmentBB
        simp only [Bool.and_eq_true, decide_eq_true_eq]
        tauto

/-- C32: a segment with both ends outside the bounding box of every existing segment is accepted,
whatever it crosses. -/
theorem bounding_box_gap (D : Drawing K P) (hD : WellFormed D) (p q : Vec K)
    (h : ∀ s ∈ D.segments, ∀ c d, D.points[s.1]? = some c → D.points[s.2]? = some d →
      ∀ e, e = p ∨ e = q → e.x < min c.x d.x ∨ max c.x d.x < e.x ∨ e.y < min c.y d.y ∨
        max c.y d.y < e.y) :
    (D.drawSegment p q).2 = none := by
  by_contra hn
  obtain ⟨pre, ⟨a, ha, ea⟩, ⟨b, hb, eb⟩⟩ := place_spec D.points p q
  rw [drawSegment_eq] at hn
  set r := place D.points p q with hr
  have hrefs : ∀ s ∈ D.segments, s.1 < r.2.2.length ∧ s.2 < r.2.2.length := by
    intro s hs
    have := hD.refs s hs
    have hl := pre.length_le
    omega
  have hspec := checkSegments_spec r.2.2 p q r.1 r.2.1 D.segments hrefs
  dsimp only at hn
  cases hc : checkSegments r.2.2 p q r.1 r.2.1 D.segments with
  | ok v => rw [hc] at hn; cases v <;> exact absurd rfl hn
  | error e =>
    rw [hc] at hspec
    obtain ⟨-, s, hs, -, c, d, hcc, hd, hbb, -⟩ := hspec
    have hcc' : D.points[s.1]? = some c := by
      obtain ⟨t, ht⟩ := pre
      rw [← ht, List.getElem?_append_left (hD.refs s hs).1] at hcc; exact hcc
    have hd' : D.points[s.2]? = some d := by
      obtain ⟨t, ht⟩ := pre
      rw [← ht, List.getElem?_append_left (hD.refs s hs).2] at hd; exact hd
    unfold pointInSegmentBB at hbb
    simp only [Bool.and_eq_true, decide_eq_true_eq] at hbb
    rcases hbb with hb' | hb'
    · rcases h s hs c d hcc' hd' p (Or.inl rfl) with h1 | h1 | h1 | h1
      · exact absurd hb'.1.1.2 (not_le.mpr h1)
      · exact absurd hb'.1.1.1 (not_le.mpr h1)
      · exact absurd hb'.2 (not_le.mpr h1)
      · exact absurd hb'.1.2 (not_le.mpr h1)
    · rcases h s hs c d hcc' hd' q (Or.inr rfl) with h1 | h1 | h1 | h1
      · exact absurd hb'.1.1.2 (not_le.mpr h1)
      · exact absurd hb'.1.1.1 (not_le.mpr h1)
      · exact absurd hb'.2 (not_le.mpr h1)
      · exact absurd hb'.1.2 (not_le.mpr h1)

end

/-- C32: two crossing rectangles are accepted through the public interface, although the
intersection test does fire on the pairs of crossing edges. -/
theorem crossing_rectangles_accepted :
    let D1 := (Drawing.empty : Drawing ℚ Nat).drawRectangle ⟨-1, -3⟩ ⟨1, 3⟩
    let D2 := D1.1.drawRectangle ⟨-3, -1⟩ ⟨3, 1⟩
    D1.2 = none ∧ D2.2 = none ∧
    ∃ s ∈ D2.1.segments, ∃ t ∈ D2.1.segments, ¬ ShareEnd s t ∧ ∃ a b c d,
      D2.1.points[s.1]? = some a ∧ D2.1.points[s.2]? = some b ∧
      D2.1.points[t.1]? = some c ∧ D2.1.points[t.2]? = some d ∧
      Meet a b c d ∧ segmentsIntersect a b c d = true := by
  refine ⟨by decide +kernel, by decide +kernel, (1, 2), by decide +kernel, (4, 5), by decide +kernel,
    by unfold ShareEnd; decide, ⟨1, -3⟩, ⟨1, 3⟩, ⟨-3, -1⟩, ⟨3, -1⟩, by decide +kernel,
    by decide +kernel, by decide +kernel, by decide +kernel, ?_, by decide +kernel⟩
  exact ⟨⟨1, -1⟩, ⟨1 / 3, by norm_num, by norm_num, by norm_num, by norm_num⟩,
    ⟨2 / 3, by norm_num, by norm_num, by norm_num, by norm_num⟩⟩

/-- C32: no rollback: after a rejected rectangle its first corner and one edge stay. -/
theorem rejected_rectangle_leaves_points :
    let D1 := (Drawing.empty : Drawing ℚ Nat).drawRectangle ⟨0, 0⟩ ⟨4, 4⟩
    let D2 := D1.1.drawPolygon [⟨1, 1⟩, ⟨2, 1⟩, ⟨2, 4⟩]
    D1.2 = none ∧ D2.2 = some .throw ∧ D2.1.polygons = D1.1.polygons ∧
    D2.1.points = D1.1.points ++ [⟨1, 1⟩, ⟨2, 1⟩, ⟨2, 4⟩] ∧
    D2.1.segments = D1.1.segments ++ [(4, 5)] := by
  decide +kernel

/-! ## C33 -/
section
variable {K P : Type}

/-- C33: the id of a material denotes a stored material that compares equal to it; it is the
first such entry; asking again gives the same id and leaves the drawing as it is; nothing but
the table of materials changes, and that only by appending. -/
theorem region_id_correct (eqP : P → P → Bool) (hrefl : ∀ v, eqP v v = true) (D : Drawing K P)
    (v : P) :
    let r := D.getRegionId eqP v
    (∃ w, r.2.getRegionPtrFromId r.1 = .ok w ∧ eqP w v = true) ∧
    (∀ i < r.1, ∀ w, r.2.getRegionPtrFromId i = .ok w → eqP w v = false) ∧
    r.2.getRegionId eqP v = r ∧
    (r.2 = D ∨ (r.2 = { D with regionMap := D.regionMap ++ [v] } ∧
      ∀ w ∈ D.regionMap, eqP w v = false)) := by
  have hget : ∀ (E : Drawing K P) i w, E.getRegionPtrFromId i = .ok w ↔ E.regionMap[i]? = some w := by
    intro E i w
    unfold getRegionPtrFromId
    cases E.regionMap[i]? <;> simp
  unfold getRegionId
  cases h : findProp eqP v D.regionMap 0 with
  | some i =>
    obtain ⟨j, hj, ⟨q, hq, he⟩, hf⟩ := (findProp_some eqP v _ _ _).mp h
    rw [Nat.zero_add] at hj; subst hj
    refine ⟨⟨q, (hget _ _ _).mpr hq, he⟩, ?_, by dsimp only; rw [h], Or.inl rfl⟩
    intro k hk w hw
    exact hf k hk w ((hget _ _ _).mp hw)
  | none =>
    have hn := (findProp_none eqP v _ _).mp h
    have h2 : findProp eqP v (D.regionMap ++ [v]) 0 = some D.regionMap.length := by
      rw [findProp_some]
      refine ⟨D.regionMap.length, by omega, ⟨v, by simp, hrefl v⟩, ?_⟩
      intro j hj q hq
      rw [List.getElem?_append_left hj] at hq
      exact hn q (List.mem_of_getElem? hq)
    refine ⟨⟨v, (hget _ _ _).mpr (by simp), hrefl v⟩, ?_, by dsimp only; rw [h2], Or.inr ⟨rfl, hn⟩⟩
    intro k hk w hw
    have hw' := (hget _ _ _).mp hw
    dsimp only at hk hw'
    rw [List.getElem?_append_left hk] at hw'
    exact hn w (List.mem_of_getElem? hw')

/-- C33: an id that was given out keeps denoting the same stored material through any further
operations. -/
theorem region_id_stable [Field K] [LinearOrder K] [IsStrictOrderedRing K] (lm : Libm K)
    (eqP : P → P → Bool) (before after : List (Op K P)) (h : ∀ o ∈ before ++ after, Allowed o)
    (id : Nat) (w : P)
    (hid : (runAll lm eqP before Drawing.empty).getRegionPtrFromId id = .ok w) :
    (runAll lm eqP (before ++ after) Drawing.empty).getRegionPtrFromId id = .ok w := by
  obtain ⟨t, ht⟩ := (history_keeps_indices lm eqP before after h).regionMap
  unfold getRegionPtrFromId at hid ⊢
  cases hc : (runAll lm eqP before Drawing.empty).regionMap[id]? with
  | none => rw [hc] at hid; cases hid
  | some v =>
    rw [hc] at hid
    rw [← ht]
    have : ((runAll lm eqP before Drawing.empty).translate (totalShift after)).regionMap =
      (runAll lm eqP before Drawing.empty).regionMap := rfl
    rw [this, List.getElem?_append_left (getElem?_lt hc), hc]
    exact hid

/-- C33: looking up an id succeeds exactly for the ids given out so far, otherwise it throws. -/
theorem region_lookup_total (D : Drawing K P) (id : Nat) :
    (id < D.regionMap.length → ∃ w, D.getRegionPtrFromId id = .ok w) ∧
    (D.regionMap.length ≤ id → D.getRegionPtrFromId id = .error .throw) := by
  unfold getRegionPtrFromId
  constructor
  · intro h; rw [List.getElem?_eq_getElem h]; exact ⟨_, rfl⟩
  · intro h; rw [List.getElem?_eq_none h]

/-- C33: drawing a region marks its point with an id of the material. -/
theorem draw_region_marks (eqP : P → P → Bool) (hrefl : ∀ v, eqP v v = true) (D : Drawing K P)
    (p : Vec K) (v : P) :
    ∃ id w, (D.drawRegion eqP p v).regions = D.regions ++ [(p, id)] ∧
      (D.drawRegion eqP p v).getRegionPtrFromId id = .ok w ∧ eqP w v = true := by
  obtain ⟨⟨w, hw, he⟩, -⟩ := region_id_correct eqP hrefl D v
  obtain ⟨-, -, -, -, -, hr⟩ := getRegionId_step eqP D v
  refine ⟨(D.getRegionId eqP v).1, w, ?_, hw, he⟩
  show (D.getRegionId eqP v).2.regions ++ _ = _
  rw [hr]
  rfl

example : ((Drawing.empty : Drawing ℚ Nat).drawRegion (fun a b => a % 10 == b % 10) ⟨0, 0⟩ 3).getRegionId
    (fun a b => a % 10 == b % 10) 13 =
    (0, (Drawing.empty : Drawing ℚ Nat).drawRegion (fun a b => a % 10 == b % 10) ⟨0, 0⟩ 3) := rfl

example : ∀ v : Nat, (fun a b => a % 10 == b % 10) v v = true := by simp

/-! ## C34 -/

/-- C34: translation moves every point, polygon vertex and region marker by the vector and
changes nothing else. -/
theorem translate_moves [Field K] (D : Drawing K P) (v : Vec K) :
    (D.translate v).segments = D.segments ∧ (D.translate v).regionMap = D.regionMap ∧
    (∀ i : Nat, (D.translate v).points[i]? =
      (D.points[i]?).map (fun p => (⟨p.x + v.x, p.y + v.y⟩ : Vec K))) ∧
    (∀ i : Nat, (D.translate v).regions[i]? =
      (D.regions[i]?).map (fun r => ((⟨r.1.x + v.x, r.1.y + v.y⟩ : Vec K), r.2))) ∧
    (∀ i : Nat, (D.translate v).polygons[i]? =
      (D.polygons[i]?).map (fun Q => Q.map (fun p => (⟨p.x + v.x, p.y + v.y⟩ : Vec K)))) := by
  refine ⟨rfl, rfl, ?_, ?_, ?_⟩ <;> intro i <;>
    simp only [Drawing.translate, List.getElem?_map] <;> rfl

/-- C34: translations compose by adding the vectors, the zero vector does nothing, and the
opposite vector undoes a translation. -/
theorem translate_group_action [Field K] (D : Drawing K P) (v w : Vec K) :
    (D.translate v).translate w = D.translate (v.add w) ∧ D.translate ⟨0, 0⟩ = D ∧
    (D.translate v).translate v.neg = D := by
  refine ⟨translate_translate D v w, translate_zero D, ?_⟩
  rw [translate_translate]
  have : v.add v.neg = ⟨0, 0⟩ := by simp [Vec.add, Vec.neg]
  rw [this, translate_zero]

end

/-! ## C35 -/
section
variable {K P : Type} [Field K] [LinearOrder K] [IsStrictOrderedRing K]

/-- C35: a polygon with at least three pairwise separated vertices, drawn into the empty drawing
without a rejected edge, gives its vertices as points, the closed chain of segments, and
itself. -/
theorem polygon_closed_chain (Q : Polygon K) (h3 : 3 ≤ Q.length) (hsep : Separated Q)
    (h : ((Drawing.empty : Drawing K P).drawPolygon Q).2 = none) :
    ((Drawing.empty : Drawing K P).drawPolygon Q).1 =
      { (Drawing.empty : Drawing K P) with
        points := Q, segments := closedChain Q.length, polygons := [Q] } := by
  match Q, h3, hsep, h with
  | a :: b :: c :: l, _, hsep, h =>
    change (seq _ _).2 = none at h
    change (seq _ _).1 = _
    obtain ⟨h1, h2, h3⟩ := seq_none h
    rw [h2]
    have hr := drawChain_empty a b (c :: l) hsep h1
    have hD := (drawChain_step (b :: c :: l) a (wf_empty (K := K) (P := P))).inv
    rw [hr] at h3 hD ⊢
    obtain ⟨h4, h5, h6⟩ := seq_none h3
    rw [h5]
    have hl : (a :: b :: c :: l)[l.length + 2]? = some ((a :: b :: c :: l).getLast (by simp)) := by
      rw [List.getLast_eq_getElem, List.getElem?_eq_getElem (by simp)]
      simp
    rw [drawSegment_close (k := l.length + 2) hD (by omega) rfl hsep hl rfl (eqv_refl a)
      (fun j r hr he => separated_unique hsep hr rfl he) (by simp) h4]
    rfl

/-- C35: no edge is rejected if the vertices turn left everywhere, with twice the area of each
triangle of vertices above the tolerance 1e-100 of the intersection test. -/
theorem convex_polygon_accepted (Q : Polygon K) (h3 : 3 ≤ Q.length) (hsep : Separated Q)
    (hconv : ∀ (i j k : Nat) (a b c : Vec K), i < j → j < k → (Q : List (Vec K))[i]? = some a →
      (Q : List (Vec K))[j]? = some b → (Q : List (Vec K))[k]? = some c →
      1 / 10 ^ 100 < (b.sub a).cross (c.sub a)) :
    ((Drawing.empty : Drawing K P).drawPolygon Q).2 = none :=
  drawPolygon_none Q h3 hsep hconv

/-- C35: a rectangle given by its lower left and upper right corner is never rejected. -/
theorem rectangle_closed_chain (p q : Vec K) (hx : p.x + 1 / 1000000000 ≤ q.x)
    (hy : p.y + 1 / 1000000000 ≤ q.y) :
    (Drawing.empty : Drawing K P).drawRectangle p q =
      ({ (Drawing.empty : Drawing K P) with
        points := [p, ⟨q.x, p.y⟩, q, ⟨p.x, q.y⟩]
        segments := [(0, 1), (1, 2), (2, 3), (3, 0)]
        polygons := [[p, ⟨q.x, p.y⟩, q, ⟨p.x, q.y⟩]] }, none) := by
  have e0 : (0 : K) < 1 / 1000000000 := by positivity
  have hsep : Separated ([p, ⟨q.x, p.y⟩, q, ⟨p.x, q.y⟩] : List (Vec K)) := by
    have sx : 1 / 1000000000 ^ 2 ≤ (p.x - q.x) ^ 2 := by
      rw [show (p.x - q.x) ^ 2 = (q.x - p.x) ^ 2 by ring]
      calc (1 : K) / 1000000000 ^ 2 = (1 / 1000000000) ^ 2 := by ring
        _ ≤ _ := pow_le_pow_left₀ e0.le (by linarith) 2
    have sy : 1 / 1000000000 ^ 2 ≤ (p.y - q.y) ^ 2 := by
      rw [show (p.y - q.y) ^ 2 = (q.y - p.y) ^ 2 by ring]
      calc (1 : K) / 1000000000 ^ 2 = (1 / 1000000000) ^ 2 := by ring
        _ ≤ _ := pow_le_pow_left₀ e0.le (by linarith) 2
    have tx : (q.x - p.x) ^ 2 = (p.x - q.x) ^ 2 := by ring
    unfold Separated
    simp only [List.pairwise_cons, List.mem_cons, List.not_mem_nil, or_false, forall_eq_or_imp,
      forall_eq, sub_self, tx, false_imp_iff, implies_true, List.Pairwise.nil, and_true]
    have := sq_nonneg (p.x - q.x)
    have := sq_nonneg (p.y - q.y)
    refine ⟨⟨?_, ?_, ?_⟩, ⟨?_, ?_⟩, ?_⟩ <;> linarith
  have harea : (1 : K) / 10 ^ 100 < (q.x - p.x) * (q.y - p.y) := by
    calc (1 : K) / 10 ^ 100 < 1 / 1000000000 * (1 / 1000000000) := by norm_num
      _ ≤ _ := mul_le_mul (by linarith) (by linarith) e0.le (by linarith)
  have hnone : ((Drawing.empty : Drawing K P).drawPolygon [p, ⟨q.x, p.y⟩, q, ⟨p.x, q.y⟩]).2 = none := by
    refine convex_polygon_accepted _ (by simp) hsep ?_
    intro i j k a b c hij hjk ha hb hc
    have hk : k < 4 := by simpa using getElem?_lt hc
    have hcases : (i = 0 ∧ j = 1 ∧ k = 2) ∨ (i = 0 ∧ j = 1 ∧ k = 3) ∨ (i = 0 ∧ j = 2 ∧ k = 3) ∨
      (i = 1 ∧ j = 2 ∧ k = 3) := by omega
    rcases hcases with ⟨rfl, rfl, rfl⟩ | ⟨rfl, rfl, rfl⟩ | ⟨rfl, rfl, rfl⟩ | ⟨rfl, rfl, rfl⟩ <;>
    · simp only [List.getElem?_cons_zero, List.getElem?_cons_succ, Option.some.injEq] at ha hb hc
      subst ha hb hc
      simp only [Vec.cross, Vec.sub]
      linarith
  have h1 := polygon_closed_chain _ (by simp) hsep hnone
  have : closedChain 4 = [(0, 1), (1, 2), (2, 3), (3, 0)] := by decide
  rw [drawRectangle_eq]
  refine Prod.ext ?_ hnone
  rw [h1]
  simp [this]

omit [IsStrictOrderedRing K] in
/-- C35: a polygon without vertices is read out of bounds. -/
theorem empty_polygon_undefined (D : Drawing K P) : (D.drawPolygon []).2 = some .ub := rfl

example : Separated ([⟨0, 0⟩, ⟨1, 0⟩, ⟨0, 1⟩] : List (Vec ℚ)) ∧
    ((Drawing.empty : Drawing ℚ Nat).drawPolygon [⟨0, 0⟩, ⟨1, 0⟩, ⟨0, 1⟩]).2 = none := by
  refine ⟨?_, by decide +kernel⟩
  unfold Separated; simp; norm_num

example : ∀ (i j k : Nat) (a b c : Vec ℚ), i < j → j < k →
    ([⟨0, 0⟩, ⟨1, 0⟩, ⟨0, 1⟩] : List (Vec ℚ))[i]? = some a →
    ([⟨0, 0⟩, ⟨1, 0⟩, ⟨0, 1⟩] : List (Vec ℚ))[j]? = some b →
    ([⟨0, 0⟩, ⟨1, 0⟩, ⟨0, 1⟩] : List (Vec ℚ))[k]? = some c →
    1 / 10 ^ 100 < (b.sub a).cross (c.sub a) := by
  intro i j k a b c hij hjk ha hb hc
  have hk : k < 3 := by simpa using getElem?_lt hc
  obtain ⟨rfl, rfl, rfl⟩ : i = 0 ∧ j = 1 ∧ k = 2 := by omega
  simp only [List.getElem?_cons_zero, List.getElem?_cons_succ, Option.some.injEq] at ha hb hc
  subst ha hb hc
  norm_num [Vec.cross, Vec.sub]

example : (0 : ℚ) + 1 / 1000000000 ≤ 2 := by norm_num

end

/-- The `i`-th vertex of a circle drawn with `n` segments. -/
noncomputable def circleVertex (pi : ℝ) (c : Vec ℝ) (r : ℝ) (n i : ℕ) : Vec ℝ :=
  ⟨c.x + r * Real.cos (i * (2 * pi / n)), c.y + r * Real.sin (i * (2 * pi / n))⟩

/-- C35: a circle drawn with at least three segments into the empty drawing is never rejected; the
last vertex is merged with the first one, and the chain is closed.  `pi` is the constant used in
place of π; the conditions say that it is precise enough for the radius and that the edges are not
too short. -/
theorem circle_closed_chain {P : Type} (pi : ℝ) (c : Vec ℝ) (r : ℝ) (n : ℕ) (hn : 3 ≤ n)
    (hr : 0 < r) (hr' : r ≤ 10 ^ 9) (hpi : r * |pi - Real.pi| < 5 / 10 ^ 10)
    (hlen : 1 / 10 ^ 9 ≤ r * Real.sin (Real.pi / n)) :
    (Drawing.empty : Drawing ℝ P).drawCircle (realLibm pi) c r n =
      ({ (Drawing.empty : Drawing ℝ P) with
        points := (List.range n).map (circleVertex pi c r n)
        segments := closedChain n
        polygons := [(List.range n).map (fun i => circleVertex pi c r n (i + 1))] }, none) := by
  obtain ⟨m, rfl⟩ : ∃ m, n = m + 3 := ⟨n - 3, by omega⟩
  set V := circleVertex pi c r (m + 3) with hV
  have hpts : circlePts (realLibm pi) c r (2 * (realLibm pi).pi / ((m + 3 : ℕ) : ℝ)) (m + 3) 0 =
      (List.range (m + 3)).map (fun i => V (i + 1)) := by
    rw [circlePts_eq]
    refine List.map_congr_left fun i _ => ?_
    simp only [realLibm, hV, circleVertex, zero_add]
    push_cast
    rfl
  have hstart : (⟨c.x + r, c.y⟩ : Vec ℝ) = V 0 := by simp [hV, circleVertex]
  have hfar : ∀ i j, i < j → j < i + (m + 3) → (V i).eqv (V j) = false := fun i j h1 h2 =>
    vertices_far c hr hpi hlen h1 h2
  have hleft : ∀ i j k, i < j → j < k → k < i + (m + 3) →
      1 / 10 ^ 100 < ((V j).sub (V i)).cross ((V k).sub (V i)) := fun i j k h1 h2 h3 =>
    vertices_left c hr hr' hpi hlen h1 h2 h3
  have hsep : Separated ((List.range (m + 3)).map V) := by
    rw [separated_iff, List.pairwise_map]
    refine List.Pairwise.imp_of_mem ?_ List.pairwise_lt_range
    intro i j hi hj hij
    rw [List.mem_range] at hi hj
    exact hfar i j hij (by omega)
  have hget : ∀ j, j < m + 3 → ((List.range (m + 3)).map V)[j]? = some (V j) := by
    intro j hj
    simp [List.getElem?_range hj]
  have hturns : LeftTurns ((List.range (m + 3)).map V) := by
    intro i j k a b d hij hjk ha hb hd
    have hk : k < m + 3 := by simpa using getElem?_lt hd
    rw [hget i (by omega)] at ha
    rw [hget j (by omega)] at hb
    rw [hget k hk] at hd
    cases ha; cases hb; cases hd
    exact hleft i j k hij hjk (by omega)
  have hsplit : (List.range (m + 3)).map (fun i => V (i + 1)) =
      (List.range (m + 2)).map (fun i => V (i + 1)) ++ [V (m + 3)] := by
    rw [List.range_succ, List.map_append]; rfl
  have hcons : (List.range (m + 3)).map V = V 0 :: (List.range (m + 2)).map (fun i => V (i + 1)) := by
    rw [List.range_succ_eq_map, List.map_cons, List.map_map]; rfl
  have hcons2 : (List.range (m + 2)).map (fun i => V (i + 1)) =
      V 1 :: (List.range (m + 1)).map (fun i => V (i + 2)) := by
    rw [List.range_succ_eq_map, List.map_cons, List.map_map]; rfl
  have hD := (drawChain_step ((List.range (m + 2)).map (fun i => V (i + 1))) (V 0)
    (wf_empty (K := ℝ) (P := P))).inv
  have hout : (drawChain (Drawing.empty : Drawing ℝ P) (V 0)
      ((List.range (m + 2)).map (fun i => V (i + 1)))).2 = none := by
    rw [hcons2]
    exact drawChain_empty_none _ _ _ (by rw [← hcons2, ← hcons]; exact hsep)
      (by rw [← hcons2, ← hcons]; exact hturns)
  have hchain : (drawChain (Drawing.empty : Drawing ℝ P) (V 0)
      ((List.range (m + 2)).map (fun i => V (i + 1)))).1 =
      { (Drawing.empty : Drawing ℝ P) with
        points := (List.range (m + 3)).map V, segments := openChain (m + 2) } := by
    rw [hcons2] at hout ⊢
    rw [drawChain_empty (V 0) (V 1) _ (by rw [← hcons2, ← hcons]; exact hsep) hout]
    rw [← hcons2, ← hcons]
    simp
  have hcl : (V 0).eqv (V (m + 3)) = true := vertices_close c hr (by omega) hpi
  have huniq : ∀ j q, ((List.range (m + 3)).map V)[j]? = some q → q.eqv (V (m + 3)) = true → j = 0 := by
    intro j q hq he
    have hj : j < m + 3 := by simpa using getElem?_lt hq
    rw [hget j hj] at hq; cases hq
    by_contra h0
    rw [hfar j (m + 3) hj (by omega)] at he
    cases he
  rw [hchain] at hD
  have hclose := drawSegment_close_none (k := m + 2) hD rfl hsep (hget (m + 2) (by omega))
    (hget 0 (by omega)) hcl huniq rfl (by
      intro j q hj0 hjk hq
      rw [hget j (by omega)] at hq; cases hq
      rw [segArea_rotate]
      exact hleft j (m + 2) (m + 3) hjk (by omega) (by omega))
  have hres := drawSegment_close (k := m + 2) hD (by omega) rfl hsep (hget (m + 2) (by omega))
    (hget 0 (by omega)) hcl huniq rfl hclose
  have hlast : ((V 0) :: (List.range (m + 2)).map (fun i => V (i + 1))).getLast (by simp) =
      V (m + 2) := by
    simp [List.getLast_cons, List.getLast_map]
  unfold drawCircle
  rw [circleLoop_eq, hpts, hstart, List.nil_append, hsplit, drawChain_append Drawing.empty, seq_assoc]
  rcases hx : drawChain (Drawing.empty : Drawing ℝ P) (V 0)
      ((List.range (m + 2)).map (fun i => V (i + 1))) with ⟨d, o⟩
  rw [hx] at hout hchain
  dsimp only at hout hchain
  subst hout hchain
  simp only [seq]
  rw [hlast]
  rcases hy : (Drawing.drawSegment _ (V (m + 2)) (V (m + 3))) with ⟨d', o'⟩
  rw [hy] at hclose hres
  dsimp only at hclose hres
  subst hclose hres
  simp [addPolygon, Drawing.empty]

/-- The constant of the code is precise enough for any radius below 5e9. -/
example (r : ℝ) (h : r < 5 * 10 ^ 9) :
    r * |(3.14159265358979323846 : ℝ) - Real.pi| < 5 / 10 ^ 10 := by
  have h1 := Real.pi_gt_d20
  have h2 := Real.pi_lt_d20
  rw [abs_sub_comm, abs_of_pos (by linarith)]
  have h3 : Real.pi - 3.14159265358979323846 < 1 / 10 ^ 20 := by norm_num at h1 h2 ⊢; linarith
  calc r * (Real.pi - 3.14159265358979323846) ≤ (5 * 10 ^ 9) * (Real.pi - 3.14159265358979323846) :=
        mul_le_mul_of_nonneg_right h.le (by linarith)
    _ < (5 * 10 ^ 9) * (1 / 10 ^ 20) := by linarith
    _ < 5 / 10 ^ 10 := by norm_num

/-- A circle of radius 1 with three segments meets the length condition. -/
example : (1 : ℝ) / 10 ^ 9 ≤ 1 * Real.sin (Real.pi / (3 : ℕ)) := by
  rw [show ((3 : ℕ) : ℝ) = 3 by norm_num, Real.sin_pi_div_three]
  have : (1 : ℝ) ≤ √3 := Real.one_le_sqrt.mpr (by norm_num)
  norm_num
  linarith

/-! ## C36 -/
section
variable {K P : Type} [Field K] [LinearOrder K] [IsStrictOrderedRing K]

/-- C36: corner refinement of a drawing with valid references ends normally; it only appends
points, at most 18 for each point of the drawing, and each of them is inside some polygon. -/
theorem refinement_only_appends (lm : Libm K) (D : Drawing K P) (hD : WellFormed D) :
    ∃ new, D.addRefiningPoints lm = .ok { D with points := D.points ++ new } ∧
      new.length ≤ 18 * D.points.length ∧ ∀ q ∈ new, ∃ Q ∈ D.polygons, Q.contains q = true := by
  obtain ⟨eps, D', -, e, new, rfl, hlen, hnew⟩ := addRefiningPoints_spec lm hD
  exact ⟨new, e, hlen, fun q hq => (hnew q hq).inside⟩

end

/-- `d` is the distance from `q` to the segment `s` of the drawing. -/
def SegDist {P : Type} (D : Drawing ℝ P) (q : Vec ℝ) (s : Nat × Nat) (d : ℝ) : Prop :=
  ∃ a b, D.points[s.1]? = some a ∧ D.points[s.2]? = some b ∧
    (∀ r, OnSegment a b r → d ≤ euclid q r) ∧ ∃ r, OnSegment a b r ∧ d = euclid q r

/-- C36: `getCurrentEpsilon` is a lower bound of the distances between points and segments they
are not an end of (segments of zero length excepted), and the smallest of them if there is any
below the largest double. -/
theorem current_epsilon_correct {P : Type} (D : Drawing ℝ P) (hD : WellFormed D)
    (hne : ∀ s ∈ D.segments, D.points[s.1]? ≠ D.points[s.2]?) :
    ∃ eps, D.getCurrentEpsilon Real.sqrt = .ok eps ∧ 0 ≤ eps ∧
      (∀ i p, D.points[i]? = some p → ∀ s ∈ D.segments, s.1 ≠ i → s.2 ≠ i → ∀ d,
        SegDist D p s d → eps ≤ d) ∧
      (eps = (2 - 1 / 2 ^ 52) * 2 ^ 1023 ∨ ∃ i p s, D.points[i]? = some p ∧ s ∈ D.segments ∧
        s.1 ≠ i ∧ s.2 ≠ i ∧ SegDist D p s eps) := by
  obtain ⟨eps, e, h1, h2, h3⟩ := getCurrentEpsilon_spec Real.sqrt hD
  have conv : ∀ {p a b : Vec ℝ} {d : ℝ}, a ≠ b → pointSegmentDistance Real.sqrt p a b = .ok d →
      (∀ r, OnSegment a b r → d ≤ euclid p r) ∧ ∃ r, OnSegment a b r ∧ d = euclid p r := by
    intro p a b d hab hd
    obtain ⟨d', e', h1, h2⟩ := point_segment_distance_correct p a b hab
    rw [hd] at e'; cases e'
    exact ⟨h1, h2⟩
  have hne' : ∀ s ∈ D.segments, ∀ a b, D.points[s.1]? = some a → D.points[s.2]? = some b → a ≠ b := by
    rintro s hs a b ha hb rfl
    exact hne s hs (by rw [ha, hb])
  refine ⟨eps, e, ?_, ?_, ?_⟩
  · rcases h3 with h3 | ⟨i, s, hs, -, -, p, a, b, -, ha, hb, hd⟩
    · rw [h3]; norm_num
    · obtain ⟨-, r, -, hr⟩ := conv (hne' s hs a b ha hb) hd
      rw [hr]; exact Real.sqrt_nonneg _
  · rintro i p hp s hs hi1 hi2 d ⟨a, b, ha, hb, -, r, hr, rfl⟩
    obtain ⟨d', e', hl, -⟩ := point_segment_distance_correct p a b (hne' s hs a b ha hb)
    exact (h2 i s d' hs ⟨hi1, hi2, p, a, b, hp, ha, hb, e'⟩).trans (hl r hr)
  · rcases h3 with h3 | ⟨i, s, hs, hi1, hi2, p, a, b, hp, ha, hb, hd⟩
    · exact Or.inl h3
    · obtain ⟨hl, hr⟩ := conv (hne' s hs a b ha hb) hd
      exact Or.inr ⟨i, p, s, hp, hs, hi1, hi2, a, b, ha, hb, hl, hr⟩

/-- C36: every refining point is `eps/100` away from a point of the drawing and at least `eps/200`
away from every segment, `eps` being the current epsilon. -/
theorem refining_points_clear_of_segments {P : Type} (pi : ℝ) (D : Drawing ℝ P) (hD : WellFormed D)
    (hne : ∀ s ∈ D.segments, D.points[s.1]? ≠ D.points[s.2]?) :
    ∃ eps new, D.getCurrentEpsilon Real.sqrt = .ok eps ∧
      D.addRefiningPoints (realLibm pi) = .ok { D with points := D.points ++ new } ∧
      ∀ q ∈ new, (∃ c ∈ D.points, euclid q c = eps / 100) ∧
        ∀ s ∈ D.segments, ∀ a b, D.points[s.1]? = some a → D.points[s.2]? = some b →
          ∀ r, OnSegment a b r → eps / 200 ≤ euclid q r := by
  obtain ⟨eps, D', he, e, new, rfl, hlen, hnew⟩ := addRefiningPoints_spec (realLibm pi) hD
  obtain ⟨eps', he', h0, hmin, -⟩ := current_epsilon_correct D hD hne
  have : eps' = eps := by
    have h := he.symm.trans (he' : D.getCurrentEpsilon (realLibm pi).sqrt = .ok eps')
    cases h; rfl
  subst this
  refine ⟨eps', new, he', e, fun q hq => ?_⟩
  obtain ⟨-, i, c, hc, ⟨θ, hθ⟩, hinc⟩ := hnew q hq
  have hqc : euclid q c = eps' / 100 := by
    rw [hθ]
    unfold euclid
    have : (c.x + eps' / 100 * (realLibm pi).cos θ - c.x) ^ 2 +
        (c.y + eps' / 100 * (realLibm pi).sin θ - c.y) ^ 2 = (eps' / 100) ^ 2 := by
      have := Real.sin_sq_add_cos_sq θ
      simp only [realLibm]
      linear_combination (eps' / 100) ^ 2 * this
    rw [this, Real.sqrt_sq (by positivity)]
  refine ⟨⟨c, List.mem_of_getElem? hc, hqc⟩, ?_⟩
  intro s hs a b ha hb r hr
  have hab : a ≠ b := by rintro rfl; exact hne s hs (by rw [ha, hb])
  by_cases hi : s.1 = i ∨ s.2 = i
  · obtain ⟨d, hd, hl, -⟩ := point_segment_distance_correct q a b hab
    have h1 := hinc s hs hi a b d ha hb hd
    have h2 := hl r hr
    linarith
  · push Not at hi
    obtain ⟨d, hd, hl, hat⟩ := point_segment_distance_correct c a b hab
    have h1 := hmin i c hc s hs hi.1 hi.2 d ⟨a, b, ha, hb, hl, hat⟩
    have h2 := hl r hr
    have tri : euclid c r ≤ euclid q c + euclid q r := by
      unfold euclid
      have key : ∀ x y u v : ℝ, √((x + u) ^ 2 + (y + v) ^ 2) ≤ √(x ^ 2 + y ^ 2) + √(u ^ 2 + v ^ 2) := by
        intro x y u v
        apply Real.sqrt_le_iff.mpr
        refine ⟨by positivity, ?_⟩
        have s1 := Real.sq_sqrt (by positivity : 0 ≤ x ^ 2 + y ^ 2)
        have s2 := Real.sq_sqrt (by positivity : 0 ≤ u ^ 2 + v ^ 2)
        have cs : x * u + y * v ≤ √(x ^ 2 + y ^ 2) * √(u ^ 2 + v ^ 2) := by
          rw [← Real.sqrt_mul (by positivity)]
          apply Real.le_sqrt_of_sq_le
          nlinarith [sq_nonneg (x * v - y * u)]
        nlinarith
      have := key (c.x - q.x) (c.y - q.y) (q.x - r.x) (q.y - r.y)
      rw [show c.x - q.x + (q.x - r.x) = c.x - r.x by ring,
        show c.y - q.y + (q.y - r.y) = c.y - r.y by ring] at this
      rw [show (q.x - c.x) ^ 2 + (q.y - c.y) ^ 2 = (c.x - q.x) ^ 2 + (c.y - q.y) ^ 2 by ring]
      exact this
    linarith

/-- A drawing meeting the conditions, whose corners do get refining points. -/
example : WellFormed (runAll toyLibm (· == ·) [.rectangle ⟨0, 0⟩ ⟨4, 4⟩] (Drawing.empty : Drawing ℚ Nat)) ∧
    ((runAll toyLibm (· == ·) [.rectangle ⟨0, 0⟩ ⟨4, 4⟩, .refine]
      (Drawing.empty : Drawing ℚ Nat)).points.length = 4 + 18) := by
  refine ⟨history_well_formed _ _ _ (by simp [Allowed]), by decide +kernel⟩

/-! ## C58 -/
section
variable {K P : Type} [Field K] [LinearOrder K] [IsStrictOrderedRing K]

/-- The region markers inside a polygon. -/
def markersIn (D : Drawing K P) (Q : Polygon K) : List (Vec K × Nat) :=
  D.regions.filter (fun r => Q.contains r.1)

/-- C58: the material of a polygon of the drawing: with one marker inside it is the marker's
material, without marker inside an exception, and with two or more markers inside always the
default-constructed material, because the polygon counts as one of the polygons it contains. -/
theorem polygon_prop (dflt : P) (D : Drawing K P) (hD : WellFormed D) (Q : Polygon K)
    (hQ : Q ∈ D.polygons) :
    (markersIn D Q = [] → D.getPolygonProp dflt Q = .error .throw) ∧
    (∀ p id, markersIn D Q = [(p, id)] → ∃ v, D.regionMap[id]? = some v ∧
      D.getPolygonProp dflt Q = .ok v) ∧
    (2 ≤ (markersIn D Q).length → D.getPolygonProp dflt Q = .ok dflt) := by
  have hfound : D.polygons.any (fun R => R.eqv Q) = true := by
    rw [List.any_eq_true]
    refine ⟨Q, hQ, ?_⟩
    have : ∀ l : Polygon K, (l.zip l).all (fun e => e.1.eqv e.2) = true := by
      intro l
      rw [List.all_eq_true]
      intro e he
      rw [List.zip_eq_zipWith, List.zipWith_self, List.mem_map] at he
      obtain ⟨v, -, rfl⟩ := he
      exact eqv_refl v
    unfold Polygon.eqv
    rw [this]; simp
  unfold getPolygonProp
  rw [if_pos hfound]
  refine ⟨?_, ?_, ?_⟩
  · intro h
    unfold markersIn at h
    rw [h]
  · intro p id h
    have hmem : (p, id) ∈ D.regions := by
      have : (p, id) ∈ markersIn D Q := by rw [h]; simp
      exact List.mem_of_mem_filter this
    unfold markersIn at h
    rw [h]
    have hlt := hD.materials _ hmem
    exact ⟨_, List.getElem?_eq_getElem hlt, rd_ok hlt⟩
  · intro h
    have hself : Q ∈ D.polygons.filter (fun R => Q.containsPolygon R) := by
      rw [List.mem_filter]
      refine ⟨hQ, ?_⟩
      unfold Polygon.containsPolygon
      rw [List.all_eq_true]
      exact fun v hv => contains_vertices Q v hv
    have hnone : (markersIn D Q).find? (fun r =>
        !((D.polygons.filter (fun R => Q.containsPolygon R)).any (fun R => R.contains r.1))) = none := by
      rw [List.find?_eq_none]
      intro r hr
      have : Q.contains r.1 = true := by simpa using (List.mem_filter.mp hr).2
      simp only [Bool.not_eq_true', Bool.not_eq_false, List.any_eq_true]
      exact ⟨Q, hself, this⟩
    unfold markersIn at h hnone
    generalize hm : D.regions.filter (fun r => Q.contains r.1) = rs at h hnone
    match rs, h with
    | a :: b :: l, _ =>
      dsimp only
      rw [hnone]

omit [IsStrictOrderedRing K] in
/-- C58: a polygon that does not match one of the drawing, vertex by vertex, is an error. -/
theorem polygon_prop_unknown (dflt : P) (D : Drawing K P) (Q : Polygon K)
    (h : ∀ R ∈ D.polygons, R.length ≠ Q.length ∨ ∃ (i : Nat) (a b : Vec K), (R : List (Vec K))[i]? = some a ∧
      (Q : List (Vec K))[i]? = some b ∧ ¬ Near a b) :
    D.getPolygonProp dflt Q = .error .throw := by
  unfold getPolygonProp
  rw [if_neg]
  rw [List.any_eq_true]
  rintro ⟨R, hR, he⟩
  unfold Polygon.eqv at he
  rw [Bool.and_eq_true, decide_eq_true_iff, List.all_eq_true] at he
  rcases h R hR with hl | ⟨i, a, b, ha, hb, hn⟩
  · exact hl he.1
  · apply hn
    rw [near_iff]
    refine he.2 (a, b) ?_
    rw [List.mem_iff_getElem?]
    exact ⟨i, by rw [List.getElem?_zip_eq_some]; exact ⟨ha, hb⟩⟩

end

/-- A square with an inner square and a marker in each: the material of the outer square is
reported as the default. -/
example : let D := runAll toyLibm (· == ·) [.rectangle ⟨0, 0⟩ ⟨9, 9⟩, .rectangle ⟨3, 3⟩ ⟨6, 6⟩,
      .region ⟨1, 1⟩ 7, .region ⟨4, 4⟩ 8] (Drawing.empty : Drawing ℚ Nat)
    D.getPolygonProp 0 [⟨0, 0⟩, ⟨9, 0⟩, ⟨9, 9⟩, ⟨0, 9⟩] = .ok 0 ∧
    D.getPolygonProp 0 [⟨3, 3⟩, ⟨6, 3⟩, ⟨6, 6⟩, ⟨3, 6⟩] = .ok 8 ∧
    D.getPolygonProp 0 [⟨3, 3⟩, ⟨6, 3⟩, ⟨6, 7⟩, ⟨3, 6⟩] = .error .throw := by
  decide +kernel

end Nikfemm
