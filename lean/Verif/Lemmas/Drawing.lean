import Verif.Spec.Drawing
import Verif.Props.Vector

/-!
# Drawings: lemmas
-/

namespace Nikfemm
open Spec

namespace Drawing
variable {K P : Type}

theorem extends_refl (D : Drawing K P) : Extends D D :=
  ⟨List.prefix_rfl, List.prefix_rfl, List.prefix_rfl, List.prefix_rfl, List.prefix_rfl⟩

theorem extends_trans {A B C : Drawing K P} (h : Extends A B) (h' : Extends B C) : Extends A C :=
  ⟨h.points.trans h'.points, h.segments.trans h'.segments, h.polygons.trans h'.polygons,
    h.regions.trans h'.regions, h.regionMap.trans h'.regionMap⟩

/-- `r` is a good outcome of an operation started on `D`: the state satisfies `I`, extends `D`,
and the operation ended normally or with an exception. -/
structure Step (I : Drawing K P → Prop) (D : Drawing K P) (r : Drawing K P × Option Fault) :
    Prop where
  inv : I r.1
  ext : Extends D r.1
  out : r.2 = none ∨ r.2 = some .throw

theorem Step.seq {I : Drawing K P → Prop} {D : Drawing K P} {x : Drawing K P × Option Fault}
    {f : Drawing K P → Drawing K P × Option Fault} (h : Step I D x)
    (hf : ∀ D', I D' → Step I D' (f D')) : Step I D (Drawing.seq x f) := by
  obtain ⟨d, o⟩ := x
  cases o with
  | none =>
    have h2 := hf d h.inv
    exact ⟨h2.inv, extends_trans h.ext h2.ext, h2.out⟩
  | some e => exact h

section
variable [Field K] [LinearOrder K]

theorem lastIndex_some (p : Vec K) : ∀ (l : List (Vec K)) (i : Nat) (f : Option Nat) (k : Nat),
    lastIndex p l i f = some k → f = some k ∨ ∃ j q, k = i + j ∧ l[j]? = some q ∧ q.eqv p = true
  | [], _, f, k, h => Or.inl h
  | q :: l, i, f, k, h => by
    unfold lastIndex at h
    rcases lastIndex_some p l (i + 1) _ k h with h1 | ⟨j, r, hk, hr, he⟩
    · split_ifs at h1 with hq
      · cases h1
        exact Or.inr ⟨0, q, rfl, rfl, hq⟩
      · exact Or.inl h1
    · exact Or.inr ⟨j + 1, r, by omega, by simpa using hr, he⟩

theorem lastIndex_none (p : Vec K) : ∀ (l : List (Vec K)) (i : Nat) (f : Option Nat),
    lastIndex p l i f = none → f = none ∧ ∀ q ∈ l, q.eqv p = false
  | [], _, f, h => ⟨h, by simp⟩
  | q :: l, i, f, h => by
    unfold lastIndex at h
    obtain ⟨h1, h2⟩ := lastIndex_none p l (i + 1) _ h
    split_ifs at h1 with hq
    exact ⟨h1, by simpa [hq] using h2⟩

/-- Where `drawSegment` puts its ends: indices and new list of points. -/
def place (pts : List (Vec K)) (p1 p2 : Vec K) : Nat × Nat × List (Vec K) :=
  let (i1, pts') := match lastIndex p1 pts 0 none with
    | some i => (i, pts)
    | none => (pts.length, pts ++ [p1])
  let (i2, pts') := match lastIndex p2 pts 0 none with
    | some i => (i, pts')
    | none => (pts'.length, pts' ++ [p2])
  (i1, i2, pts')

theorem drawSegment_eq (D : Drawing K P) (p1 p2 : Vec K) :
    D.drawSegment p1 p2 =
      let r := place D.points p1 p2
      let D' := { D with points := r.2.2 }
      lift D' (checkSegments r.2.2 p1 p2 r.1 r.2.1 D'.segments) fun already =>
        if already then (D', none)
        else ({ D' with segments := D'.segments ++ [(r.1, r.2.1)] }, none) := by
  unfold drawSegment place
  cases lastIndex p1 D.points 0 none <;> cases lastIndex p2 D.points 0 none <;> rfl

/-- What `place` guarantees. -/
structure Placed (pts : List (Vec K)) (p1 p2 : Vec K) (r : Nat × Nat × List (Vec K)) : Prop where
  pre : pts <+: r.2.2
  first : ∃ a, r.2.2[r.1]? = some a ∧ a.eqv p1 = true
  second : ∃ b, r.2.2[r.2.1]? = some b ∧ b.eqv p2 = true

variable [IsStrictOrderedRing K]

theorem eqv_refl (p : Vec K) : p.eqv p = true := (point_equality_laws p p p).1
theorem eqv_comm (p q : Vec K) : p.eqv q = q.eqv p := (point_equality_laws p q p).2.1

theorem place_spec (pts : List (Vec K)) (p1 p2 : Vec K) : Placed pts p1 p2 (place pts p1 p2) := by
  unfold place
  cases h1 : lastIndex p1 pts 0 none with
  | some i =>
    obtain ⟨j, q, hj, hq, he⟩ := (lastIndex_some p1 pts 0 none i h1).resolve_left (by simp)
    simp only [Nat.zero_add] at hj; subst hj
    cases h2 : lastIndex p2 pts 0 none with
    | some k =>
      obtain ⟨j', q', hj', hq', he'⟩ := (lastIndex_some p2 pts 0 none k h2).resolve_left (by simp)
      simp only [Nat.zero_add] at hj'; subst hj'
      exact ⟨List.prefix_rfl, ⟨q, hq, he⟩, ⟨q', hq', he'⟩⟩
    | none =>
      have hlt := (List.getElem?_eq_some_iff.mp hq).1
      exact ⟨List.prefix_append _ _, ⟨q, by simpa [List.getElem?_append_left hlt] using hq, he⟩,
        ⟨p2, by simp, eqv_refl p2⟩⟩
  | none =>
    cases h2 : lastIndex p2 pts 0 none with
    | some k =>
      obtain ⟨j', q', hj', hq', he'⟩ := (lastIndex_some p2 pts 0 none k h2).resolve_left (by simp)
      simp only [Nat.zero_add] at hj'; subst hj'
      have hlt := (List.getElem?_eq_some_iff.mp hq').1
      exact ⟨List.prefix_append _ _, ⟨p1, by simp, eqv_refl p1⟩,
        ⟨q', by simpa [List.getElem?_append_left hlt] using hq', he'⟩⟩
    | none =>
      refine ⟨?_, ⟨p1, by simp, eqv_refl p1⟩, ⟨p2, by simp, eqv_refl p2⟩⟩
      exact (List.prefix_append _ _).trans (List.prefix_append _ _)

omit [IsStrictOrderedRing K] in
/-- The three outcomes of the check against the existing segments. -/
theorem checkSegments_spec (pts : List (Vec K)) (p1 p2 : Vec K) (i1 i2 : Nat) :
    ∀ (l : List (Nat × Nat)), (∀ s ∈ l, s.1 < pts.length ∧ s.2 < pts.length) →
    match checkSegments pts p1 p2 i1 i2 l with
    | .ok true => ∃ s ∈ l, SamePair s (i1, i2)
    | .ok false => (∀ s ∈ l, ¬ SamePair s (i1, i2)) ∧
        ∀ s ∈ l, ¬ ShareEnd s (i1, i2) → ∀ a b, pts[s.1]? = some a → pts[s.2]? = some b →
          (pointInSegmentBB p1 a b = true ∨ pointInSegmentBB p2 a b = true) →
          segmentsIntersect p1 p2 a b = false
    | .error e => e = .throw ∧ ∃ s ∈ l, ¬ ShareEnd s (i1, i2) ∧
        ∃ a b, pts[s.1]? = some a ∧ pts[s.2]? = some b ∧
        (pointInSegmentBB p1 a b = true ∨ pointInSegmentBB p2 a b = true) ∧
        segmentsIntersect p1 p2 a b = true
  | [], _ => by simp [checkSegments]
  | s :: l, h => by
    have ih := checkSegments_spec pts p1 p2 i1 i2 l (fun t ht => h t (by simp [ht]))
    obtain ⟨h1, h2⟩ := h s (by simp)
    unfold checkSegments
    by_cases hs : (s.1 = i1 ∧ s.2 = i2) ∨ (s.1 = i2 ∧ s.2 = i1)
    · rw [if_pos hs]; exact ⟨s, by simp, hs⟩
    rw [if_neg hs]
    have hns : ¬ SamePair s (i1, i2) := hs
    -- a step that goes on with the rest of the list
    have skip : (¬ ShareEnd s (i1, i2) → ∀ a b, pts[s.1]? = some a → pts[s.2]? = some b →
        (pointInSegmentBB p1 a b = true ∨ pointInSegmentBB p2 a b = true) →
        segmentsIntersect p1 p2 a b = false) →
        match checkSegments pts p1 p2 i1 i2 l with
        | .ok true => ∃ t ∈ s :: l, SamePair t (i1, i2)
        | .ok false => (∀ t ∈ s :: l, ¬ SamePair t (i1, i2)) ∧
            ∀ t ∈ s :: l, ¬ ShareEnd t (i1, i2) → ∀ a b, pts[t.1]? = some a → pts[t.2]? = some b →
              (pointInSegmentBB p1 a b = true ∨ pointInSegmentBB p2 a b = true) →
              segmentsIntersect p1 p2 a b = false
        | .error e => e = .throw ∧ ∃ t ∈ s :: l, ¬ ShareEnd t (i1, i2) ∧
            ∃ a b, pts[t.1]? = some a ∧ pts[t.2]? = some b ∧
            (pointInSegmentBB p1 a b = true ∨ pointInSegmentBB p2 a b = true) ∧
            segmentsIntersect p1 p2 a b = true := by
      intro hh
      cases hc : checkSegments pts p1 p2 i1 i2 l with
      | error e =>
        rw [hc] at ih
        obtain ⟨he, t, ht, hr⟩ := ih
        exact ⟨he, t, by simp [ht], hr⟩
      | ok r =>
        rw [hc] at ih
        cases r with
        | true =>
          obtain ⟨t, ht, hr⟩ := ih
          exact ⟨t, by simp [ht], hr⟩
        | false =>
          obtain ⟨ha, hb⟩ := ih
          refine ⟨?_, ?_⟩
          · intro t ht
            rcases List.mem_cons.mp ht with rfl | ht
            · exact hns
            · exact ha t ht
          · intro t ht
            rcases List.mem_cons.mp ht with rfl | ht
            · exact hh
            · exact hb t ht
    by_cases hsh : s.1 = i1 ∨ s.1 = i2 ∨ s.2 = i1 ∨ s.2 = i2
    · rw [if_pos hsh]
      exact skip (fun hn => absurd hsh hn)
    rw [if_neg hsh, rd_ok h1, ok_bind, rd_ok h2, ok_bind]
    by_cases hbb : (pointInSegmentBB p1 pts[s.1] pts[s.2] || pointInSegmentBB p2 pts[s.1] pts[s.2]) = true
    · rw [hbb]
      simp only [Bool.not_true, Bool.false_eq_true, if_false]
      rw [Bool.or_eq_true] at hbb
      by_cases hi : segmentsIntersect p1 p2 pts[s.1] pts[s.2] = true
      · rw [if_pos hi]
        exact ⟨rfl, s, by simp, hsh, _, _, List.getElem?_eq_getElem h1, List.getElem?_eq_getElem h2,
          hbb, hi⟩
      · rw [if_neg hi]
        apply skip
        intro _ a b ha hb _
        rw [List.getElem?_eq_getElem h1] at ha; rw [List.getElem?_eq_getElem h2] at hb
        cases ha; cases hb
        simpa using hi
    · rw [Bool.not_eq_true] at hbb
      rw [hbb]
      simp only [Bool.not_false, if_true]
      apply skip
      intro _ a b ha hb hc
      rw [List.getElem?_eq_getElem h1] at ha; rw [List.getElem?_eq_getElem h2] at hb
      cases ha; cases hb
      rw [Bool.or_eq_false_iff] at hbb
      rcases hc with hc | hc
      · rw [hbb.1] at hc; cases hc
      · rw [hbb.2] at hc; cases hc

theorem getElem?_lt {α : Type} {l : List α} {i : Nat} {a : α} (h : l[i]? = some a) : i < l.length :=
  (List.getElem?_eq_some_iff.mp h).1

/-- `drawSegment` from a well-formed drawing. -/
theorem drawSegment_step {D : Drawing K P} (hD : WellFormed D) (p1 p2 : Vec K) :
    Step WellFormed D (D.drawSegment p1 p2) := by
  rw [drawSegment_eq]
  obtain ⟨pre, ⟨a, ha, ea⟩, ⟨b, hb, eb⟩⟩ := place_spec D.points p1 p2
  set r := place D.points p1 p2 with hr
  have hrefs : ∀ s ∈ D.segments, s.1 < r.2.2.length ∧ s.2 < r.2.2.length := by
    intro s hs
    have := hD.refs s hs
    have hl := pre.length_le
    omega
  have hspec := checkSegments_spec r.2.2 p1 p2 r.1 r.2.1 D.segments hrefs
  have hext : Extends D { D with points := r.2.2 } :=
    ⟨pre, List.prefix_rfl, List.prefix_rfl, List.prefix_rfl, List.prefix_rfl⟩
  have hwf : WellFormed { D with points := r.2.2 } := ⟨hrefs, hD.simple, hD.materials⟩
  dsimp only
  cases hc : checkSegments r.2.2 p1 p2 r.1 r.2.1 D.segments with
  | error e =>
    rw [hc] at hspec
    exact ⟨hwf, hext, Or.inr (by rw [lift]; simp [hspec.1])⟩
  | ok v =>
    rw [hc] at hspec
    cases v with
    | true => exact ⟨hwf, hext, Or.inl rfl⟩
    | false =>
      refine ⟨⟨?_, ?_, hD.materials⟩, ⟨pre, List.prefix_append _ _, List.prefix_rfl,
        List.prefix_rfl, List.prefix_rfl⟩, Or.inl rfl⟩
      · intro s hs
        simp only [lift, Bool.false_eq_true, if_false, List.mem_append, List.mem_singleton] at hs
        rcases hs with hs | rfl
        · exact hrefs s hs
        · exact ⟨getElem?_lt ha, getElem?_lt hb⟩
      · show (D.segments ++ [(r.1, r.2.1)]).Pairwise _
        rw [List.pairwise_append]
        refine ⟨hD.simple, by simp, ?_⟩
        intro s hs t ht
        rw [List.mem_singleton] at ht; subst ht
        exact hspec.1 s hs

omit [IsStrictOrderedRing K] in
theorem addPolygon_step {I : Drawing K P → Prop}
    (hI : ∀ D Q, I D → I { D with polygons := D.polygons ++ [Q] })
    {D : Drawing K P} (hD : I D) (Q : Polygon K) : Step I D (D.addPolygon Q) :=
  ⟨hI D Q hD, ⟨List.prefix_rfl, List.prefix_rfl, List.prefix_append _ _, List.prefix_rfl,
    List.prefix_rfl⟩, Or.inl rfl⟩

omit [LinearOrder K] [IsStrictOrderedRing K] [Field K] in
theorem wf_addPolygon (D : Drawing K P) (Q : Polygon K) (h : WellFormed D) :
    WellFormed { D with polygons := D.polygons ++ [Q] } := ⟨h.refs, h.simple, h.materials⟩

theorem drawRectangle_step {D : Drawing K P} (hD : WellFormed D) (p1 p2 : Vec K) :
    Step WellFormed D (D.drawRectangle p1 p2) :=
  (drawSegment_step hD _ _).seq fun _ h => (drawSegment_step h _ _).seq fun _ h =>
    (drawSegment_step h _ _).seq fun _ h => (drawSegment_step h _ _).seq fun _ h =>
    addPolygon_step wf_addPolygon h _

theorem drawChain_step : ∀ (l : List (Vec K)) (a : Vec K) {D : Drawing K P}, WellFormed D →
    Step WellFormed D (drawChain D a l)
  | [], _, D, h => ⟨h, extends_refl D, Or.inl rfl⟩
  | b :: l, a, D, h => (drawSegment_step h a b).seq fun _ h => drawChain_step l b h

theorem drawPolygon_step {D : Drawing K P} (hD : WellFormed D) {Q : Polygon K} (hQ : Q ≠ []) :
    Step WellFormed D (D.drawPolygon Q) := by
  cases Q with
  | nil => exact absurd rfl hQ
  | cons a l =>
    exact (drawChain_step l a hD).seq fun _ h => (drawSegment_step h _ _).seq fun _ h =>
      addPolygon_step wf_addPolygon h _

theorem circleLoop_step (lm : Libm K) (p : Vec K) (r st : K) : ∀ (n : Nat) (an : K) (p1 : Vec K)
    (acc : List (Vec K)) {D : Drawing K P}, WellFormed D →
    Step WellFormed D (circleLoop lm p r st n an p1 acc D)
  | 0, _, _, acc, _, h => addPolygon_step wf_addPolygon h acc
  | n + 1, _, _, _, _, h => (drawSegment_step h _ _).seq fun _ h => circleLoop_step lm p r st n _ _ _ h

/-! ## Materials -/

omit [IsStrictOrderedRing K] [LinearOrder K] [Field K] in
theorem findProp_some (eqP : P → P → Bool) (v : P) : ∀ (l : List P) (i k : Nat),
    findProp eqP v l i = some k ↔ ∃ j, k = i + j ∧ (∃ q, l[j]? = some q ∧ eqP q v = true) ∧
      ∀ j' < j, ∀ q, l[j']? = some q → eqP q v = false
  | [], i, k => by simp [findProp]
  | q :: l, i, k => by
    unfold findProp
    split_ifs with h
    · constructor
      · rintro ⟨⟩
        exact ⟨0, rfl, ⟨q, rfl, h⟩, by simp⟩
      · rintro ⟨j, rfl, -, hj⟩
        cases j with
        | zero => rfl
        | succ j => have := hj 0 (by omega) q rfl; simp [h] at this
    · rw [findProp_some eqP v l (i + 1) k]
      constructor
      · rintro ⟨j, rfl, ⟨r, hr, he⟩, hj⟩
        refine ⟨j + 1, by omega, ⟨r, by simpa using hr, he⟩, ?_⟩
        intro j' hj' s hs
        cases j' with
        | zero => simp only [List.getElem?_cons_zero, Option.some.injEq] at hs; subst hs; simpa using h
        | succ j' => exact hj j' (by omega) s (by simpa using hs)
      · rintro ⟨j, rfl, ⟨r, hr, he⟩, hj⟩
        cases j with
        | zero => simp only [List.getElem?_cons_zero, Option.some.injEq] at hr; subst hr; exact absurd he h
        | succ j =>
          refine ⟨j, by omega, ⟨r, by simpa using hr, he⟩, ?_⟩
          intro j' hj' s hs
          exact hj (j' + 1) (by omega) s (by simpa using hs)

theorem findProp_none (eqP : P → P → Bool) (v : P) : ∀ (l : List P) (i : Nat),
    findProp eqP v l i = none ↔ ∀ q ∈ l, eqP q v = false
  | [], i => by simp [findProp]
  | q :: l, i => by
    unfold findProp
    split_ifs with h
    · simp [h]
    · rw [findProp_none eqP v l (i + 1)]; simp [h]

omit [IsStrictOrderedRing K] [LinearOrder K] [Field K] in
theorem getRegionId_step (eqP : P → P → Bool) (D : Drawing K P) (v : P) :
    Extends D (D.getRegionId eqP v).2 ∧ (D.getRegionId eqP v).1 < (D.getRegionId eqP v).2.regionMap.length
    ∧ (D.getRegionId eqP v).2.points = D.points ∧ (D.getRegionId eqP v).2.segments = D.segments
    ∧ (D.getRegionId eqP v).2.polygons = D.polygons ∧ (D.getRegionId eqP v).2.regions = D.regions := by
  unfold getRegionId
  cases h : findProp eqP v D.regionMap 0 with
  | none =>
    exact ⟨⟨List.prefix_rfl, List.prefix_rfl, List.prefix_rfl, List.prefix_rfl,
      List.prefix_append _ _⟩, by simp, rfl, rfl, rfl, rfl⟩
  | some i =>
    obtain ⟨j, hj, ⟨q, hq, -⟩, -⟩ := (findProp_some eqP v _ _ _).mp h
    refine ⟨extends_refl D, ?_, rfl, rfl, rfl, rfl⟩
    have := (List.getElem?_eq_some_iff.mp hq).1
    dsimp only; omega

omit [IsStrictOrderedRing K] [LinearOrder K] [Field K] in
theorem regionId_step (eqP : P → P → Bool) {D : Drawing K P} (hD : WellFormed D) (v : P) :
    Step WellFormed D ((D.getRegionId eqP v).2, none) := by
  obtain ⟨he, hl, h1, h2, h3, h4⟩ := getRegionId_step eqP D v
  refine ⟨⟨?_, ?_, ?_⟩, he, Or.inl rfl⟩
  · dsimp only; rw [h1, h2]; exact hD.refs
  · dsimp only; rw [h2]; exact hD.simple
  · dsimp only; rw [h4]
    intro r hr
    exact lt_of_lt_of_le (hD.materials r hr) he.regionMap.length_le

omit [IsStrictOrderedRing K] [LinearOrder K] [Field K] in
theorem drawRegion_step (eqP : P → P → Bool) {D : Drawing K P} (hD : WellFormed D) (p : Vec K) (v : P) :
    Step WellFormed D (D.drawRegion eqP p v, none) := by
  obtain ⟨hw, he, -⟩ := regionId_step eqP hD v
  obtain ⟨-, hl, -⟩ := getRegionId_step eqP D v
  refine ⟨⟨hw.refs, hw.simple, ?_⟩, ⟨he.points, he.segments, he.polygons,
    he.regions.trans (List.prefix_append _ _), he.regionMap⟩, Or.inl rfl⟩
  intro r hr
  simp only [drawRegion, List.mem_append, List.mem_singleton] at hr
  rcases hr with hr | rfl
  · exact hw.materials r hr
  · exact hl

omit [IsStrictOrderedRing K] [LinearOrder K] [Field K] in
theorem drawPoint_step {D : Drawing K P} (hD : WellFormed D) (p : Vec K) :
    Step WellFormed D (D.drawPoint p, none) := by
  refine ⟨⟨?_, hD.simple, hD.materials⟩, ⟨List.prefix_append _ _, List.prefix_rfl, List.prefix_rfl,
    List.prefix_rfl, List.prefix_rfl⟩, Or.inl rfl⟩
  intro s hs
  have := hD.refs s hs
  simp only [drawPoint, List.length_append, List.length_singleton]
  omega

end
end Drawing
end Nikfemm
