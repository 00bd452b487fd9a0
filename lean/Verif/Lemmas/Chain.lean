import Verif.Lemmas.Drawing

/-!
# Separated points and chains of segments
-/

namespace Nikfemm
open Spec

namespace Drawing
variable {K P : Type} [Field K] [LinearOrder K]

theorem near_iff (p q : Vec K) : Near p q ↔ p.eqv q = true := by
  unfold Near Vec.eqv vecEps
  rw [decide_eq_true_iff, div_pow, one_pow]

theorem far_iff (p q : Vec K) :
    1 / 1000000000 ^ 2 ≤ (p.x - q.x) ^ 2 + (p.y - q.y) ^ 2 ↔ p.eqv q = false := by
  rw [← not_lt, ← Bool.not_eq_true, ← near_iff]; rfl

theorem separated_iff (l : List (Vec K)) :
    Separated l ↔ l.Pairwise (fun p q => p.eqv q = false) := by
  unfold Separated
  simp only [far_iff]

variable [IsStrictOrderedRing K]

theorem separated_append (l : List (Vec K)) (p : Vec K) :
    Separated (l ++ [p]) ↔ Separated l ∧ ∀ q ∈ l, q.eqv p = false := by
  rw [separated_iff, separated_iff, List.pairwise_append]
  simp

/-- In a separated list a point is near only one member. -/
theorem separated_unique {l : List (Vec K)} (h : Separated l) {i j : Nat} {a b : Vec K}
    (ha : l[i]? = some a) (hb : l[j]? = some b) (hab : a.eqv b = true) : i = j := by
  rw [separated_iff, List.pairwise_iff_getElem] at h
  obtain ⟨hi, rfl⟩ := List.getElem?_eq_some_iff.mp ha
  obtain ⟨hj, rfl⟩ := List.getElem?_eq_some_iff.mp hb
  rcases Nat.lt_trichotomy i j with hij | hij | hij
  · rw [h i j hi hj hij] at hab; cases hab
  · exact hij
  · rw [eqv_comm, h j i hj hi hij] at hab; cases hab

/-- Drawing a segment with ends at least 1e-9 apart keeps the points separated. -/
theorem place_separated {pts : List (Vec K)} (h : Separated pts) {p1 p2 : Vec K}
    (hp : p1.eqv p2 = false) : Separated (place pts p1 p2).2.2 := by
  unfold place
  cases h1 : lastIndex p1 pts 0 none with
  | some i =>
    cases h2 : lastIndex p2 pts 0 none with
    | some k => exact h
    | none => exact (separated_append _ _).mpr ⟨h, (lastIndex_none p2 pts 0 none h2).2⟩
  | none =>
    have ha := (separated_append _ _).mpr ⟨h, (lastIndex_none p1 pts 0 none h1).2⟩
    cases h2 : lastIndex p2 pts 0 none with
    | some k => exact ha
    | none =>
      refine (separated_append _ _).mpr ⟨ha, ?_⟩
      intro q hq
      rw [List.mem_append, List.mem_singleton] at hq
      rcases hq with hq | rfl
      · exact (lastIndex_none p2 pts 0 none h2).2 q hq
      · exact hp

omit [IsStrictOrderedRing K] in
theorem drawSegment_points (D : Drawing K P) (p1 p2 : Vec K) :
    (D.drawSegment p1 p2).1.points = (place D.points p1 p2).2.2 := by
  rw [drawSegment_eq]
  dsimp only
  cases checkSegments (place D.points p1 p2).2.2 p1 p2 (place D.points p1 p2).1
    (place D.points p1 p2).2.1 D.segments with
  | error e => rfl
  | ok b => cases b <;> rfl

/-- Where the ends of a segment go when they are members of a separated list, or new. -/
theorem lastIndex_mem {pts : List (Vec K)} (h : Separated pts) {i : Nat} {p q : Vec K}
    (hp : pts[i]? = some q) (hq : q.eqv p = true) (hu : ∀ j r, pts[j]? = some r → r.eqv p = true → j = i) :
    lastIndex p pts 0 none = some i := by
  cases hc : lastIndex p pts 0 none with
  | none =>
    have := (lastIndex_none p pts 0 none hc).2 q (List.mem_of_getElem? hp)
    rw [hq] at this; cases this
  | some k =>
    obtain ⟨j, r, hj, hr, he⟩ := (lastIndex_some p pts 0 none k hc).resolve_left (by simp)
    rw [Nat.zero_add] at hj; subst hj
    rw [hu _ _ hr he]

omit [IsStrictOrderedRing K] in
theorem lastIndex_new {pts : List (Vec K)} {p : Vec K} (h : ∀ q ∈ pts, q.eqv p = false) :
    lastIndex p pts 0 none = none := by
  cases hc : lastIndex p pts 0 none with
  | none => rfl
  | some k =>
    obtain ⟨j, r, hj, hr, he⟩ := (lastIndex_some p pts 0 none k hc).resolve_left (by simp)
    rw [h r (List.mem_of_getElem? hr)] at he; cases he

omit [Field K] [LinearOrder K] [IsStrictOrderedRing K] in
theorem seq_none {D : Type} {x : D × Option Fault} {f : D → D × Option Fault}
    (h : (seq x f).2 = none) : x.2 = none ∧ seq x f = f x.1 ∧ (f x.1).2 = none := by
  obtain ⟨d, o⟩ := x
  cases o with
  | none => exact ⟨rfl, rfl, h⟩
  | some e => cases h

/-- A segment that is drawn without exception, between known indices. -/
theorem drawSegment_result {D : Drawing K P} (hD : WellFormed D) {p1 p2 : Vec K}
    (h : (D.drawSegment p1 p2).2 = none) (r : Nat × Nat × List (Vec K))
    (hr : place D.points p1 p2 = r) (hn : ∀ s ∈ D.segments, ¬ SamePair s (r.1, r.2.1)) :
    (D.drawSegment p1 p2).1 =
      { D with points := r.2.2, segments := D.segments ++ [(r.1, r.2.1)] } := by
  have hp := place_spec D.points p1 p2
  rw [drawSegment_eq] at h ⊢
  rw [hr] at h ⊢ hp
  have hrefs : ∀ s ∈ D.segments, s.1 < r.2.2.length ∧ s.2 < r.2.2.length := by
    intro s hs
    have := hD.refs s hs
    have hl := hp.pre.length_le
    omega
  have hspec := checkSegments_spec r.2.2 p1 p2 r.1 r.2.1 D.segments hrefs
  dsimp only at h ⊢
  cases hc : checkSegments r.2.2 p1 p2 r.1 r.2.1 D.segments with
  | error e => rw [hc] at h; cases h
  | ok b =>
    cases b with
    | true =>
      rw [hc] at hspec
      obtain ⟨s, hs, hp⟩ := hspec
      exact absurd hp (hn s hs)
    | false => rfl

/-- After a segment is drawn without exception it is there. -/
theorem drawSegment_has {D : Drawing K P} (hD : WellFormed D) {p1 p2 : Vec K}
    (h : (D.drawSegment p1 p2).2 = none) : HasSegment (D.drawSegment p1 p2).1 p1 p2 := by
  obtain ⟨pre, ⟨a, ha, ea⟩, ⟨b, hb, eb⟩⟩ := place_spec D.points p1 p2
  have hpts := drawSegment_points D p1 p2
  set r := place D.points p1 p2 with hr
  by_cases hn : ∀ s ∈ D.segments, ¬ SamePair s (r.1, r.2.1)
  · rw [drawSegment_result hD h r rfl hn]
    exact ⟨(r.1, r.2.1), by simp, r.1, r.2.1, a, b, Or.inl ⟨rfl, rfl⟩, ha, hb, (near_iff _ _).mpr ea,
      (near_iff _ _).mpr eb⟩
  · push Not at hn
    obtain ⟨s, hs, hp⟩ := hn
    have := (drawSegment_step hD p1 p2).ext.segments.subset hs
    exact ⟨s, this, r.1, r.2.1, a, b, hp, by rw [hpts]; exact ha, by rw [hpts]; exact hb,
      (near_iff _ _).mpr ea, (near_iff _ _).mpr eb⟩

omit [IsStrictOrderedRing K] in
theorem hasSegment_extends {D D' : Drawing K P} (h : Extends D D') {p q : Vec K}
    (hs : HasSegment D p q) : HasSegment D' p q := by
  obtain ⟨s, hs, i, j, a, b, hp, ha, hb, na, nb⟩ := hs
  have pre : ∀ {i : Nat} {a : Vec K}, D.points[i]? = some a → D'.points[i]? = some a := by
    intro i a ha
    obtain ⟨t, ht⟩ := h.points
    rw [← ht, List.getElem?_append_left (getElem?_lt ha)]; exact ha
  exact ⟨s, h.segments.subset hs, i, j, a, b, hp, pre ha, pre hb, na, nb⟩

/-! ## Chains -/

/-- The open chain `(0,1), (1,2), ..., (k-1,k)`. -/
def openChain (k : Nat) : List (Nat × Nat) := (List.range k).map (fun i => (i, i + 1))

omit [IsStrictOrderedRing K] [LinearOrder K] [Field K] in
theorem openChain_succ (k : Nat) : openChain (k + 1) = openChain k ++ [(k, k + 1)] := by
  simp [openChain, List.range_succ]

/-- Drawing a segment from the last point of the drawing to a new one. -/
theorem drawSegment_new {D : Drawing K P} (hD : WellFormed D) {pre : List (Vec K)} {a b : Vec K}
    (hpts : D.points = pre ++ [a]) (hsep : Separated (pre ++ [a] ++ [b]))
    (h : (D.drawSegment a b).2 = none) :
    (D.drawSegment a b).1 = { D with
      points := pre ++ [a] ++ [b]
      segments := D.segments ++ [(pre.length, pre.length + 1)] } := by
  obtain ⟨hs1, hs2⟩ := (separated_append _ _).mp hsep
  have hpl : place D.points a b = (pre.length, pre.length + 1, pre ++ [a] ++ [b]) := by
    unfold place
    have h1 : lastIndex a (pre ++ [a]) 0 none = some pre.length :=
      lastIndex_mem hs1 (q := a) (by simp) (eqv_refl a) fun j r hr he =>
        separated_unique hs1 hr (by simp) he
    have h2 : lastIndex b (pre ++ [a]) 0 none = none := lastIndex_new hs2
    rw [hpts, h1, h2]
    simp
  rw [drawSegment_result hD h _ hpl]
  intro s hs hp
  have := hD.refs s hs
  rw [hpts] at this
  simp only [List.length_append, List.length_singleton] at this
  rcases hp with hp | hp <;> · dsimp only at hp; omega

theorem drawChain_chain : ∀ (l : List (Vec K)) (pre : List (Vec K)) (a : Vec K) (D : Drawing K P),
    WellFormed D → D.points = pre ++ [a] → D.segments = openChain pre.length →
    Separated (pre ++ a :: l) → (drawChain D a l).2 = none →
    (drawChain D a l).1 = { D with
      points := pre ++ a :: l, segments := openChain (pre.length + l.length) }
  | [], pre, a, D, hD, hp, hs, _, _ => by
    unfold drawChain
    cases D
    simp_all
  | b :: l, pre, a, D, hD, hp, hs, hsep, h => by
    unfold drawChain at h ⊢
    obtain ⟨h1, h2, h3⟩ := seq_none h
    rw [h2]
    have hsep' : Separated (pre ++ [a] ++ [b]) := by
      rw [separated_iff] at hsep ⊢
      refine hsep.sublist ?_
      rw [List.append_assoc]
      exact List.Sublist.append_left (by simp) _
    have hr := drawSegment_new hD hp hsep' h1
    have hD' := (drawSegment_step hD a b).inv
    rw [hr] at h3 hD' ⊢
    rw [drawChain_chain l (pre ++ [a]) b _ hD' rfl
      (by rw [hs, List.length_append, List.length_singleton, openChain_succ]) (by simpa using hsep) h3]
    simp [Nat.add_assoc, Nat.add_comm 1]

omit [IsStrictOrderedRing K] [LinearOrder K] [Field K] in
theorem mem_openChain {k : Nat} {s : Nat × Nat} : s ∈ openChain k ↔ s.1 < k ∧ s.2 = s.1 + 1 := by
  simp only [openChain, List.mem_map, List.mem_range]
  constructor
  · rintro ⟨i, hi, rfl⟩; exact ⟨hi, rfl⟩
  · rintro ⟨h1, h2⟩; exact ⟨s.1, h1, by rw [← h2]⟩

omit [IsStrictOrderedRing K] [LinearOrder K] [Field K] in
theorem closedChain_eq (k : Nat) : closedChain (k + 1) = openChain k ++ [(k, 0)] := by
  unfold closedChain openChain
  rw [List.range_succ, List.map_append]
  congr 1
  · refine List.map_congr_left fun i hi => ?_
    rw [List.mem_range] at hi
    rw [Nat.mod_eq_of_lt (by omega)]
  · simp

/-- Closing a chain: the last point is joined to (a point near) the first one. -/
theorem drawSegment_close {D : Drawing K P} (hD : WellFormed D) {k : Nat} (hk : 2 ≤ k)
    {pts : List (Vec K)} {a a' b : Vec K} (hpts : D.points = pts) (hsep : Separated pts)
    (hb : pts[k]? = some b) (ha : pts[0]? = some a)
    (haa : a.eqv a' = true) (hu : ∀ j r, pts[j]? = some r → r.eqv a' = true → j = 0)
    (hs : D.segments = openChain k) (h : (D.drawSegment b a').2 = none) :
    (D.drawSegment b a').1 = { D with points := pts, segments := closedChain (k + 1) } := by
  have hpl : place D.points b a' = (k, 0, pts) := by
    unfold place
    have h1 : lastIndex b pts 0 none = some k :=
      lastIndex_mem hsep hb (eqv_refl b) fun j r hr he => separated_unique hsep hr hb he
    have h2 : lastIndex a' pts 0 none = some 0 := lastIndex_mem hsep ha haa hu
    rw [hpts, h1, h2]
  rw [drawSegment_result hD h _ hpl, hs, closedChain_eq]
  intro s hs'
  rw [hs, mem_openChain] at hs'
  rintro (hp | hp) <;> · dsimp only at hp; omega

end Drawing
end Nikfemm

namespace Nikfemm
open Spec

namespace Drawing
variable {K P : Type} [Field K] [LinearOrder K] [IsStrictOrderedRing K]

/-- A chain of at least two points drawn into the empty drawing. -/
theorem drawChain_empty (a b : Vec K) (l : List (Vec K)) (hsep : Separated (a :: b :: l))
    (h : (drawChain (Drawing.empty : Drawing K P) a (b :: l)).2 = none) :
    (drawChain (Drawing.empty : Drawing K P) a (b :: l)).1 =
      { (Drawing.empty : Drawing K P) with
        points := a :: b :: l, segments := openChain (l.length + 1) } := by
  unfold drawChain at h ⊢
  obtain ⟨h1, h2, h3⟩ := seq_none h
  rw [h2]
  have hwf : WellFormed (Drawing.empty : Drawing K P) :=
    ⟨by simp [Drawing.empty], by simp [Drawing.empty], by simp [Drawing.empty]⟩
  have hr : ((Drawing.empty : Drawing K P).drawSegment a b).1 =
      { (Drawing.empty : Drawing K P) with points := [a, b], segments := [(0, 1)] } :=
    drawSegment_result hwf h1 (0, 1, [a, b]) rfl (by simp [Drawing.empty])
  have hD' := (drawSegment_step hwf a b).inv
  rw [hr] at h3 hD' ⊢
  rw [drawChain_chain l [a] b _ hD' rfl rfl (by simpa using hsep) h3]
  simp [Nat.add_comm 1]

omit [IsStrictOrderedRing K] in
theorem drawChain_append (D : Drawing K P) (b : Vec K) : ∀ (l : List (Vec K)) (a : Vec K)
    (D : Drawing K P), drawChain D a (l ++ [b]) =
      seq (drawChain D a l) (fun D => D.drawSegment ((a :: l).getLast (by simp)) b)
  | [], a, D => by
    simp only [List.nil_append, drawChain, List.getLast_singleton, seq]
    rcases hd : D.drawSegment a b with ⟨d, _ | e⟩ <;> rfl
  | c :: l, a, D => by
    simp only [List.cons_append, drawChain]
    rcases hd : D.drawSegment a c with ⟨d, _ | e⟩
    · simp only [seq]
      rw [drawChain_append D b l c d]
      rfl
    · rfl

omit [IsStrictOrderedRing K] in
theorem seq_assoc {D : Type} (x : D × Option Fault) (f g : D → D × Option Fault) :
    seq (seq x f) g = seq x (fun d => seq (f d) g) := by
  obtain ⟨d, _ | e⟩ := x <;> rfl

omit [IsStrictOrderedRing K] in
/-- A rectangle is the polygon through its corners. -/
theorem drawRectangle_eq (D : Drawing K P) (p q : Vec K) :
    D.drawRectangle p q = D.drawPolygon [p, ⟨q.x, p.y⟩, q, ⟨p.x, q.y⟩] := by
  simp only [drawRectangle, drawPolygon, drawChain, seq_assoc]
  rfl

/-- The vertices of a circle after the angle `an`, in the order they are generated. -/
def circlePts (lm : Libm K) (p : Vec K) (r st : K) : Nat → K → List (Vec K)
  | 0, _ => []
  | n + 1, an => ⟨p.x + r * lm.cos (an + st), p.y + r * lm.sin (an + st)⟩ ::
      circlePts lm p r st n (an + st)

omit [IsStrictOrderedRing K] in
theorem circleLoop_eq (lm : Libm K) (p : Vec K) (r st : K) : ∀ (n : Nat) (an : K) (p1 : Vec K)
    (acc : List (Vec K)) (D : Drawing K P), circleLoop lm p r st n an p1 acc D =
      seq (drawChain D p1 (circlePts lm p r st n an))
        (fun D => D.addPolygon (acc ++ circlePts lm p r st n an))
  | 0, an, p1, acc, D => by simp [circleLoop, circlePts, drawChain, seq]
  | n + 1, an, p1, acc, D => by
    simp only [circleLoop, circlePts, drawChain]
    rcases hd : D.drawSegment p1 ⟨p.x + r * lm.cos (an + st), p.y + r * lm.sin (an + st)⟩ with
      ⟨d, _ | e⟩
    · simp only [seq]
      rw [circleLoop_eq lm p r st n]
      simp [seq]
    · rfl

omit [LinearOrder K] [IsStrictOrderedRing K] in
theorem circlePts_eq (lm : Libm K) (p : Vec K) (r st : K) : ∀ (n : Nat) (an : K),
    circlePts lm p r st n an = (List.range n).map (fun i : Nat =>
      ⟨p.x + r * lm.cos (an + (i + 1) * st), p.y + r * lm.sin (an + (i + 1) * st)⟩)
  | 0, _ => rfl
  | n + 1, an => by
    rw [circlePts, circlePts_eq lm p r st n, List.range_succ_eq_map, List.map_cons, List.map_map]
    congr 1
    · simp
    · refine List.map_congr_left fun i _ => ?_
      simp only [Function.comp, Nat.succ_eq_add_one, Nat.cast_add, Nat.cast_one]
      rw [show an + st + ((i : K) + 1) * st = an + ((i : K) + 1 + 1) * st by ring]

end Drawing
end Nikfemm
