import Verif.Lemmas.Rings
import Verif.Props.Drawing

set_option linter.unusedSectionVars false

/-!
# Points drawn around interconnections before meshing (C72)
-/

namespace Nikfemm
open Spec Drawing

namespace Spec

/-- End points of an interconnection in layer `k`. -/
def endsIn {K : Type} (l : Link K) (k : Nat) : List (Vec K) :=
  (if l.layer1 = k then [l.p1] else []) ++ (if l.layer2 = k then [l.p2] else [])

/-- `e` is the distance from `p` to the segments of the drawing, or the largest double if they are
all farther. -/
def Clearance {P : Type} (D : Drawing ℝ P) (p : Vec ℝ) (e : ℝ) : Prop :=
  (∀ s ∈ D.segments, ∀ a b, D.points[s.1]? = some a → D.points[s.2]? = some b →
    ∀ r, OnSegment a b r → e ≤ euclid p r) ∧
  e ≤ (2 - 1 / 2 ^ 52) * 2 ^ 1023 ∧
  (e = (2 - 1 / 2 ^ 52) * 2 ^ 1023 ∨ ∃ s ∈ D.segments, ∃ a b, D.points[s.1]? = some a ∧
    D.points[s.2]? = some b ∧ ∃ r, OnSegment a b r ∧ e = euclid p r)

/-- `q` is one of the ten points at distance `e f` from `c`. -/
def OnRing (pi : ℝ) (c : Vec ℝ) (e f : ℝ) (q : Vec ℝ) : Prop :=
  ∃ i : Nat, i < 10 ∧ q = ⟨c.x + e * f * Real.cos (2 * pi * i / 10), c.y + e * f * Real.sin (2 * pi * i / 10)⟩

/-- No segment joins two points at the same place. -/
def NoPointSegments {K P : Type} (D : Drawing K P) : Prop :=
  ∀ s ∈ D.segments, D.points[s.1]? ≠ D.points[s.2]?

end Spec

variable {P : Type}

theorem clearance_unique {D : Drawing ℝ P} {p : Vec ℝ} {e e' : ℝ} (h : Clearance D p e)
    (h' : Clearance D p e') : e = e' := by
  have key : ∀ {e e'}, Clearance D p e → Clearance D p e' → e ≤ e' := by
    rintro e e' ⟨h1, h2, -⟩ ⟨-, -, h3 | ⟨s, hs, a, b, ha, hb, r, hr, rfl⟩⟩
    · rw [h3]; exact h2
    · exact h1 s hs a b ha hb r hr
  exact le_antisymm (key h h') (key h' h)

theorem clearance_nonneg {D : Drawing ℝ P} {p : Vec ℝ} {e : ℝ} (h : Clearance D p e) : 0 ≤ e := by
  rcases h.2.2 with h | ⟨s, hs, a, b, ha, hb, r, hr, rfl⟩
  · rw [h]; norm_num
  · exact Real.sqrt_nonneg _

/-- C72: the radius used around a point is its distance to the drawing. -/
theorem ring_radius (D : Drawing ℝ P) (hD : WellFormed D) (hne : NoPointSegments D) (p : Vec ℝ) :
    ∃ e, ringEpsilon Real.sqrt D p = .ok e ∧ Clearance D p e := by
  obtain ⟨e, he, h1, h2, h3⟩ := ringEpsilon_spec Real.sqrt hD p
  have ne : ∀ s ∈ D.segments, ∀ a b, D.points[s.1]? = some a → D.points[s.2]? = some b → a ≠ b := by
    rintro s hs a b ha hb rfl
    exact hne s hs (by rw [ha, hb])
  refine ⟨e, he, ?_, h2, h3.imp id ?_⟩
  · intro s hs a b ha hb r hr
    obtain ⟨d, hd, hl, -⟩ := point_segment_distance_correct p a b (ne s hs a b ha hb)
    exact (h1 s hs a b d ha hb hd).trans (hl r hr)
  · rintro ⟨s, hs, a, b, ha, hb, hd⟩
    obtain ⟨d, hd', -, r, hr, hdr⟩ := point_segment_distance_correct p a b (ne s hs a b ha hb)
    rw [hd] at hd'; cases hd'
    exact ⟨s, hs, a, b, ha, hb, r, hr, hdr⟩

theorem ringPoint_eq (pi : ℝ) (c : Vec ℝ) (e f : ℝ) (i : Nat) :
    ringPoint (realLibm pi) c e i f =
      ⟨c.x + e * f * Real.cos (2 * pi * i / 10), c.y + e * f * Real.sin (2 * pi * i / 10)⟩ := by
  unfold ringPoint
  simp only [realLibm, Vec.add]
  congr 1 <;> ring

theorem endsList_eq {K : Type} (links : List (Link K)) (k : Nat) :
    endsList links k = links.flatMap (endsIn · k) := by
  unfold endsList endsIn onLayer; rfl

theorem ringList_length {K : Type} [Field K] [LinearOrder K] (lm : Libm K) (l : Link K) (e1 e2 : K)
    (k : Nat) : (ringList lm l e1 e2 10 k).length = 20 * (endsIn l k).length := by
  unfold ringList endsIn onLayer
  simp only [List.length_flatMap, List.length_append]
  split_ifs <;> simp

theorem mem_ringList {pi : ℝ} {l : Link ℝ} {e1 e2 : ℝ} {k : Nat} {q : Vec ℝ} :
    q ∈ ringList (realLibm pi) l e1 e2 10 k ↔
      (l.layer1 = k ∧ (OnRing pi l.p1 e1 (1 / 2) q ∨ OnRing pi l.p1 e1 (1 / 4) q)) ∨
      (l.layer2 = k ∧ (OnRing pi l.p2 e2 (1 / 2) q ∨ OnRing pi l.p2 e2 (1 / 4) q)) := by
  have on : ∀ (m : Nat) (x : Vec ℝ), q ∈ onLayer m [x] k ↔ m = k ∧ q = x := by
    intro m x; unfold onLayer; split_ifs with h <;> simp [h]
  unfold ringList OnRing
  simp only [List.mem_flatMap, List.mem_range, List.mem_append, on, ringPoint_eq]
  constructor
  · rintro ⟨i, hi, ((⟨a, b⟩ | ⟨a, b⟩) | ⟨a, b⟩) | ⟨a, b⟩⟩
    · exact Or.inl ⟨a, Or.inl ⟨i, hi, b⟩⟩
    · exact Or.inr ⟨a, Or.inl ⟨i, hi, b⟩⟩
    · exact Or.inl ⟨a, Or.inr ⟨i, hi, b⟩⟩
    · exact Or.inr ⟨a, Or.inr ⟨i, hi, b⟩⟩
  · rintro (⟨a, ⟨i, hi, b⟩ | ⟨i, hi, b⟩⟩ | ⟨a, ⟨i, hi, b⟩ | ⟨i, hi, b⟩⟩)
    · exact ⟨i, hi, Or.inl (Or.inl (Or.inl ⟨a, b⟩))⟩
    · exact ⟨i, hi, Or.inl (Or.inr ⟨a, b⟩)⟩
    · exact ⟨i, hi, Or.inl (Or.inl (Or.inr ⟨a, b⟩))⟩
    · exact ⟨i, hi, Or.inr ⟨a, b⟩⟩

theorem euclid_ring {pi : ℝ} {c q : Vec ℝ} {e f : ℝ} (he : 0 ≤ e * f) (h : OnRing pi c e f q) :
    euclid q c = e * f := by
  obtain ⟨i, -, rfl⟩ := h
  unfold euclid
  have := Real.sin_sq_add_cos_sq (2 * pi * i / 10)
  rw [show (c.x + e * f * Real.cos (2 * pi * i / 10) - c.x) ^ 2 +
      (c.y + e * f * Real.sin (2 * pi * i / 10) - c.y) ^ 2 = (e * f) ^ 2 by
    linear_combination (e * f) ^ 2 * this, Real.sqrt_sq he]

theorem euclid_triangle (c q r : Vec ℝ) : euclid c r ≤ euclid q c + euclid q r := by
  unfold euclid
  have key : ∀ x y u v : ℝ, √((x + u) ^ 2 + (y + v) ^ 2) ≤ √(x ^ 2 + y ^ 2) + √(u ^ 2 + v ^ 2) := by
    intro x y u v
    apply Real.sqrt_le_iff.mpr
    refine ⟨by positivity, ?_⟩
    have s1 := Real.sq_sqrt (by positivity : 0 ≤ x ^ 2 + y ^ 2)
    have s2 := Real.sq_sqrt (by positivity : 0 ≤ u ^ 2 + v ^ 2)
    have cs : x * u + y * v ≤ √(x ^ 2 + y ^ 2) * √(u ^ 2 + v ^ 2) := by
      rw [← Real.sqrt_mul (by positivity)]
      apply Real.le_sqrt_of_sq_le
      nlinarith [sq_nonneg (x * v - y * u)]
    nlinarith
  have := key (c.x - q.x) (c.y - q.y) (q.x - r.x) (q.y - r.y)
  rw [show c.x - q.x + (q.x - r.x) = c.x - r.x by ring,
    show c.y - q.y + (q.y - r.y) = c.y - r.y by ring] at this
  rw [show (q.x - c.x) ^ 2 + (q.y - c.y) ^ 2 = (c.x - q.x) ^ 2 + (c.y - q.y) ^ 2 by ring]
  exact this

/-- The drawings after the optional refinement of corners. -/
def Spec.Refinement (pi : ℝ) (refine : Bool) (D D0 : Drawing ℝ P) : Prop :=
  if refine then D.addRefiningPoints (realLibm pi) = .ok D0 else D0 = D

theorem refineAll_ok (pi : ℝ) (refine : Bool) (ds : List (Drawing ℝ P))
    (hwf : ∀ D ∈ ds, WellFormed D) :
    ∃ ds0, (if refine then forUp 0 ds.length (fun i ds => do
        let D ← rd ds i
        let D ← D.addRefiningPoints (realLibm pi)
        wr ds i D) ds else .ok ds) = .ok ds0 ∧ ds0.length = ds.length ∧
      ∀ (k : Nat) D, ds[k]? = some D → ∃ D0 new, ds0[k]? = some D0 ∧ Refinement pi refine D D0 ∧
        D0 = { D with points := D.points ++ new } := by
  cases refine with
  | false => exact ⟨ds, rfl, rfl, fun k D h => ⟨D, [], h, rfl, by simp⟩⟩
  | true =>
    obtain ⟨ds0, e, h⟩ := forUp_inv (σ := List (Drawing ℝ P)) (fun i s => s.length = ds.length ∧
        (∀ k, i ≤ k → s[k]? = ds[k]?) ∧
        ∀ (k : Nat) D, k < i → ds[k]? = some D → ∃ D0 new, s[k]? = some D0 ∧
          D.addRefiningPoints (realLibm pi) = .ok D0 ∧ D0 = { D with points := D.points ++ new })
      (Nat.zero_le ds.length) (s := ds) (body := fun i ds => do
        let D ← rd ds i
        let D ← D.addRefiningPoints (realLibm pi)
        wr ds i D) ⟨rfl, fun _ _ => rfl, fun k D hk => absurd hk (Nat.not_lt_zero k)⟩ (by
        rintro i s - hi ⟨hl, hr, hd⟩
        have his : i < s.length := by omega
        have hsi : s[i] = ds[i] := by
          have := hr i (le_refl i)
          rw [List.getElem?_eq_getElem his, List.getElem?_eq_getElem hi] at this
          exact Option.some.inj this
        obtain ⟨new, hn, -⟩ := refinement_only_appends (realLibm pi) ds[i]
          (hwf _ (List.getElem_mem hi))
        rw [rd_ok his, ok_bind, hsi, hn, ok_bind, wr_ok his]
        refine ⟨_, rfl, by simpa using hl, ?_, ?_⟩
        · intro k hk
          rw [List.getElem?_set_ne (by omega)]
          exact hr k (by omega)
        · intro k D hk hD
          by_cases hki : k = i
          · subst hki
            rw [List.getElem?_eq_getElem hi] at hD
            cases hD
            exact ⟨_, new, by rw [List.getElem?_set_self his], hn, rfl⟩
          · rw [List.getElem?_set_ne (by omega)]
            exact hd k D (by omega) hD)
    refine ⟨ds0, by simpa using e, h.1, fun k D hD => ?_⟩
    obtain ⟨D0, new, a, b, c⟩ := h.2.2 k D (Drawing.getElem?_lt hD) hD
    exact ⟨D0, new, a, b, c⟩

theorem wf_appendPoints {K : Type} {D : Drawing K P} (h : WellFormed D) (new : List (Vec K)) :
    WellFormed { D with points := D.points ++ new } := by
  refine ⟨fun s hs => ?_, h.simple, h.materials⟩
  have := h.refs s hs
  simp only [List.length_append]
  omega

theorem clearance_append {D : Drawing ℝ P} (hD : WellFormed D) {new : List (Vec ℝ)} {p : Vec ℝ}
    {e : ℝ} : Clearance { D with points := D.points ++ new } p e ↔ Clearance D p e := by
  have key : ∀ s ∈ D.segments, (D.points ++ new)[s.1]? = D.points[s.1]? ∧
      (D.points ++ new)[s.2]? = D.points[s.2]? := fun s hs =>
    ⟨List.getElem?_append_left (hD.refs s hs).1, List.getElem?_append_left (hD.refs s hs).2⟩
  unfold Clearance
  constructor
  · rintro ⟨h1, h2, h3⟩
    refine ⟨fun s hs a b ha hb => h1 s hs a b ((key s hs).1.trans ha) ((key s hs).2.trans hb), h2,
      h3.imp id ?_⟩
    rintro ⟨s, hs, a, b, ha, hb, r⟩
    exact ⟨s, hs, a, b, (key s hs).1.symm.trans ha, (key s hs).2.symm.trans hb, r⟩
  · rintro ⟨h1, h2, h3⟩
    refine ⟨fun s hs a b ha hb => h1 s hs a b ((key s hs).1.symm.trans ha)
      ((key s hs).2.symm.trans hb), h2, h3.imp id ?_⟩
    rintro ⟨s, hs, a, b, ha, hb, r⟩
    exact ⟨s, hs, a, b, (key s hs).1.trans ha, (key s hs).2.trans hb, r⟩

/-- Exact result of the preparation. -/
theorem prepare_exact (pi : ℝ) (refine : Bool) (links : List (Link ℝ)) (ds : List (Drawing ℝ P))
    (hwf : ∀ D ∈ ds, WellFormed D) (hne : ∀ D ∈ ds, NoPointSegments D)
    (hl : ∀ l ∈ links, l.layer1 < ds.length ∧ l.layer2 < ds.length) :
    ∃ (ds' : List (Drawing ℝ P)) (E : Nat → Vec ℝ → ℝ),
      prepareDrawings (realLibm pi) refine links ds = .ok ds' ∧ ds'.length = ds.length ∧
      (∀ k D p, ds[k]? = some D → Clearance D p (E k p)) ∧
      ∀ (k : Nat) D, ds[k]? = some D → ∃ D0, Refinement pi refine D D0 ∧
        ds'[k]? = some { D0 with points := D0.points ++ (endsList links k ++
          ringsList (realLibm pi) E links k) } := by
  obtain ⟨ds0, e0, hlen, h0⟩ := refineAll_ok pi refine ds hwf
  have back : ∀ (k : Nat) D0, ds0[k]? = some D0 → ∃ D new, ds[k]? = some D ∧ Refinement pi refine D D0 ∧
      D0 = { D with points := D.points ++ new } := by
    intro k D0 hD0
    have hk : k < ds.length := hlen ▸ Drawing.getElem?_lt hD0
    obtain ⟨D0', new, a, b, c⟩ := h0 k _ (List.getElem?_eq_getElem hk)
    rw [hD0] at a; cases a
    exact ⟨_, new, List.getElem?_eq_getElem hk, b, c⟩
  have hwf0 : ∀ D ∈ ds0, WellFormed D := by
    intro D0 hD0
    obtain ⟨k, hk⟩ := List.mem_iff_getElem?.mp hD0
    obtain ⟨D, new, hD, -, rfl⟩ := back k D0 hk
    exact wf_appendPoints (hwf D (List.mem_of_getElem? hD)) new
  have hex : ∀ (k : Nat) (p : Vec ℝ), ∃ e : ℝ, ∀ D D0 : Drawing ℝ P, ds[k]? = some D →
      ds0[k]? = some D0 → ringEpsilon Real.sqrt D0 p = .ok e ∧ Clearance D p e := by
    intro k p
    cases hD : ds[k]? with
    | none => exact ⟨0, by simp⟩
    | some D =>
      obtain ⟨D0, new, a, b, c⟩ := h0 k D hD
      obtain ⟨e, he, hc⟩ := ring_radius D (hwf D (List.mem_of_getElem? hD))
        (hne D (List.mem_of_getElem? hD)) p
      refine ⟨e, ?_⟩
      rintro D' D0' h1 h2
      cases h1
      rw [a] at h2; cases h2
      subst c
      exact ⟨(ringEpsilon_append _ (hwf D (List.mem_of_getElem? hD)) new p).trans he, hc⟩
  choose E hE using hex
  refine ⟨appendPts (fun k => endsList links k ++ ringsList (realLibm pi) E links k) ds0, E,
    ?_, ?_, ?_, ?_⟩
  · unfold prepareDrawings
    have hl0 : ∀ l ∈ links, l.layer1 < ds0.length ∧ l.layer2 < ds0.length := by rwa [hlen]
    refine bind_eq_ok_iff.mpr ⟨ds0, e0, ?_⟩
    have h1 := drawEnds_ok ds0 links (fun _ => []) hl0
    rw [appendPts_nil] at h1
    refine bind_eq_ok_iff.mpr ⟨_, h1, ?_⟩
    have h2 := drawRings_ok (realLibm pi) hwf0 (E := E) (by
      intro k D0 p hD0
      obtain ⟨D, new, hD, -, -⟩ := back k D0 hD0
      exact (hE k p D D0 hD hD0).1) links (fun k => [] ++ endsList links k) hl0
    rw [h2]
    simp
  · simpa using hlen
  · intro k D p hD
    obtain ⟨D0, new, a, -, -⟩ := h0 k D hD
    exact (hE k p D D0 hD a).2
  · intro k D hD
    obtain ⟨D0, new, a, b, -⟩ := h0 k D hD
    exact ⟨D0, b, by rw [appendPts_get, a]; rfl⟩

/-- C72: preparing well-formed drawings for interconnections between existing layers always
succeeds.  In each layer it keeps everything, then appends the ends of the interconnections in this
layer, and around each of them ten points at half and ten at a quarter of the distance from this end
to the drawing.  The appended ring points keep half of that distance to every segment. -/
theorem prepared_drawings (pi : ℝ) (refine : Bool) (links : List (Link ℝ))
    (ds : List (Drawing ℝ P)) (hwf : ∀ D ∈ ds, WellFormed D) (hne : ∀ D ∈ ds, NoPointSegments D)
    (hl : ∀ l ∈ links, l.layer1 < ds.length ∧ l.layer2 < ds.length) :
    ∃ ds', prepareDrawings (realLibm pi) refine links ds = .ok ds' ∧ ds'.length = ds.length ∧
      ∀ (k : Nat) D, ds[k]? = some D → ∃ D0 rings, Refinement pi refine D D0 ∧
        ds'[k]? = some { D0 with points := D0.points ++ (links.flatMap (endsIn · k) ++ rings) } ∧
        rings.length = 20 * (links.flatMap (endsIn · k)).length ∧
        (∀ q, q ∈ rings ↔ ∃ c ∈ links.flatMap (endsIn · k), ∃ e, Clearance D c e ∧
          (OnRing pi c e (1 / 2) q ∨ OnRing pi c e (1 / 4) q)) ∧
        ∀ q ∈ rings, ∃ c ∈ links.flatMap (endsIn · k), ∃ e, Clearance D c e ∧
          (euclid q c = e / 2 ∨ euclid q c = e / 4) ∧
          ∀ s ∈ D.segments, ∀ a b, D.points[s.1]? = some a → D.points[s.2]? = some b →
            ∀ r, OnSegment a b r → e / 2 ≤ euclid q r := by
  obtain ⟨ds', E, e, hlen, hE, h⟩ := prepare_exact pi refine links ds hwf hne hl
  refine ⟨ds', e, hlen, fun k D hD => ?_⟩
  obtain ⟨D0, hr, hD'⟩ := h k D hD
  have hmem : ∀ q, q ∈ ringsList (realLibm pi) E links k ↔
      ∃ c ∈ links.flatMap (endsIn · k), ∃ e, Clearance D c e ∧
        (OnRing pi c e (1 / 2) q ∨ OnRing pi c e (1 / 4) q) := by
    intro q
    unfold ringsList
    simp only [List.mem_flatMap, mem_ringList]
    constructor
    · rintro ⟨l, hl, ⟨rfl, h⟩ | ⟨rfl, h⟩⟩
      · exact ⟨l.p1, ⟨l, hl, by simp [endsIn]⟩, _, hE _ D l.p1 hD, h⟩
      · exact ⟨l.p2, ⟨l, hl, by simp [endsIn]⟩, _, hE _ D l.p2 hD, h⟩
    · rintro ⟨c, ⟨l, hl, hc⟩, e, he, h⟩
      refine ⟨l, hl, ?_⟩
      have := clearance_unique he (hE k D c hD)
      subst this
      unfold endsIn at hc
      rcases List.mem_append.mp hc with hc | hc
      · split_ifs at hc with hk
        · simp only [List.mem_singleton] at hc; subst hc hk; exact Or.inl ⟨rfl, h⟩
        · simp at hc
      · split_ifs at hc with hk
        · simp only [List.mem_singleton] at hc; subst hc hk; exact Or.inr ⟨rfl, h⟩
        · simp at hc
  refine ⟨D0, ringsList (realLibm pi) E links k, hr, by rw [hD', endsList_eq], ?_, hmem, ?_⟩
  · unfold ringsList
    simp only [List.length_flatMap, ringList_length]
    rw [List.sum_map_mul_left]
  · intro q hq
    obtain ⟨c, hc, e, he, h⟩ := (hmem q).mp hq
    have h0 := clearance_nonneg he
    have hd : euclid q c = e / 2 ∨ euclid q c = e / 4 := by
      rcases h with h | h
      · left; rw [euclid_ring (by positivity) h]; ring
      · right; rw [euclid_ring (by positivity) h]; ring
    refine ⟨c, hc, e, he, hd, fun s hs a b ha hb r hr => ?_⟩
    have h1 := he.1 s hs a b ha hb r hr
    have h2 := euclid_triangle c q r
    rcases hd with hd | hd <;> linarith

/-- C72: an interconnection of a layer that does not exist is an out-of-bounds access. -/
theorem missing_layer_undefined (pi : ℝ) (refine : Bool) (links : List (Link ℝ))
    (ds : List (Drawing ℝ P)) (hwf : ∀ D ∈ ds, WellFormed D)
    (hl : ∃ l ∈ links, ds.length ≤ l.layer1 ∨ ds.length ≤ l.layer2) :
    prepareDrawings (realLibm pi) refine links ds = .error .ub := by
  obtain ⟨ds0, e0, hlen, -⟩ := refineAll_ok pi refine ds hwf
  unfold prepareDrawings
  refine (congrArg (· >>= _) e0).trans ?_
  rw [ok_bind]
  have key : ∀ (links : List (Link ℝ)) (s : List (Drawing ℝ P)), s.length = ds.length →
      (∃ l ∈ links, ds.length ≤ l.layer1 ∨ ds.length ≤ l.layer2) →
      forEach (fun (l : Link ℝ) ds => do
        let ds ← drawOn ds l.layer1 l.p1
        drawOn ds l.layer2 l.p2) links s = .error .ub := by
    intro links
    induction links with
    | nil => rintro s - ⟨l, hl, -⟩; simp at hl
    | cons l links ih =>
      rintro s hs ⟨m, hm, hbad⟩
      simp only [forEach]
      by_cases h1 : l.layer1 < ds.length
      · rw [drawOn_ok (by omega), ok_bind]
        by_cases h2 : l.layer2 < ds.length
        · rw [drawOn_ok (by simp; omega)]
          refine ih _ (by simpa using hs) ⟨m, ?_, hbad⟩
          rcases List.mem_cons.mp hm with rfl | hm
          · omega
          · exact hm
        · rw [drawOn_ub (by simp; omega)]
      · rw [drawOn_ub (by omega), error_bind]
  rw [key links ds0 hlen hl, error_bind]

/-- C72: nothing checks whether a point is already there.  An interconnection ending on a segment
of the drawing has radius zero, and the same point is appended 21 times. -/
theorem interconnection_on_segment (pi : ℝ) (refine : Bool) (links : List (Link ℝ))
    (ds : List (Drawing ℝ P)) (hwf : ∀ D ∈ ds, WellFormed D) (hne : ∀ D ∈ ds, NoPointSegments D)
    (hl : ∀ l ∈ links, l.layer1 < ds.length ∧ l.layer2 < ds.length)
    (l : Link ℝ) (hlk : l ∈ links) (D : Drawing ℝ P) (hD : ds[l.layer1]? = some D)
    (s : Nat × Nat) (hs : s ∈ D.segments) (a b : Vec ℝ) (ha : D.points[s.1]? = some a)
    (hb : D.points[s.2]? = some b) (hon : OnSegment a b l.p1) :
    ∃ ds' D', prepareDrawings (realLibm pi) refine links ds = .ok ds' ∧
      ds'[l.layer1]? = some D' ∧ List.Sublist (List.replicate 21 l.p1) D'.points := by
  obtain ⟨ds', E, e, -, hE, h⟩ := prepare_exact pi refine links ds hwf hne hl
  obtain ⟨D0, -, hD'⟩ := h _ D hD
  refine ⟨ds', _, e, hD', ?_⟩
  have hz : E l.layer1 l.p1 = 0 := by
    have hc := hE _ D l.p1 hD
    refine le_antisymm ((hc.1 s hs a b ha hb l.p1 hon).trans ?_) (clearance_nonneg hc)
    unfold euclid; simp
  have h1 : List.Sublist [l.p1] (endsList links l.layer1) := by
    rw [List.singleton_sublist, endsList_eq]
    exact List.mem_flatMap.mpr ⟨l, hlk, by simp [endsIn]⟩
  have h2 : List.Sublist (List.replicate 20 l.p1)
      (ringList (realLibm pi) l (E l.layer1 l.p1) (E l.layer2 l.p2) 10 l.layer1) := by
    have rp : ∀ i f, ringPoint (realLibm pi) l.p1 (E l.layer1 l.p1) i f = l.p1 := by
      intro i f; rw [ringPoint_eq, hz]; simp
    rw [show List.replicate 20 l.p1 = (List.range 10).flatMap (fun _ => [l.p1, l.p1]) by rfl]
    unfold ringList
    simp only [rp]
    have : ∀ (n : List Nat) (f g : Nat → List (Vec ℝ)), (∀ i, List.Sublist (f i) (g i)) →
        List.Sublist (n.flatMap f) (n.flatMap g) := by
      intro n f g hfg
      induction n with
      | nil => simp
      | cons x n ih => simpa using (hfg x).append ih
    refine this _ _ _ (fun i => ?_)
    simp only [onLayer, if_true]
    split_ifs <;> simp
  have h3 : List.Sublist (ringList (realLibm pi) l (E l.layer1 l.p1) (E l.layer2 l.p2) 10 l.layer1)
      (ringsList (realLibm pi) E links l.layer1) := by
    unfold ringsList
    obtain ⟨pre, post, rfl⟩ := List.append_of_mem hlk
    simp only [List.flatMap_append, List.flatMap_cons]
    exact (List.sublist_append_left _ _).trans (List.sublist_append_right _ _)
  have h4 := h1.append (h2.trans h3)
  exact h4.trans (List.sublist_append_right _ _)

/-- Two layers with a segment each, and an interconnection from a place off the first segment to
one on the second. -/
def exRingLayer : Drawing ℝ Nat := ⟨[], [], [⟨0, 0⟩, ⟨4, 0⟩], [(0, 1)], []⟩

theorem exRingLayer_ok : WellFormed exRingLayer ∧ NoPointSegments exRingLayer := by
  refine ⟨⟨?_, ?_, ?_⟩, ?_⟩
  · simp [exRingLayer]
  · simp [exRingLayer]
  · simp [exRingLayer]
  · intro s hs
    simp only [exRingLayer, List.mem_singleton] at hs
    subst hs
    simp [exRingLayer]

/-- The first end is at distance 3 from the drawing. -/
example : Clearance exRingLayer ⟨1, 3⟩ 3 ∧ OnSegment (⟨0, 0⟩ : Vec ℝ) ⟨4, 0⟩ ⟨2, 0⟩ := by
  have hmax : (3 : ℝ) ≤ (2 - 1 / 2 ^ 52) * 2 ^ 1023 := by
    have h1 : (2 : ℝ) ^ 2 ≤ 2 ^ 1023 := pow_le_pow_right₀ (by norm_num) (by norm_num)
    have h2 : (1 : ℝ) ≤ 2 - 1 / 2 ^ 52 := by norm_num
    have h3 : (0 : ℝ) ≤ 2 ^ 1023 := by positivity
    have h4 := mul_le_mul_of_nonneg_right h2 h3
    rw [one_mul] at h4
    exact le_trans (le_trans (by norm_num) h1) h4
  refine ⟨⟨?_, hmax, Or.inr ⟨(0, 1), by simp [exRingLayer], ⟨0, 0⟩, ⟨4, 0⟩, rfl, rfl, ⟨1, 0⟩, ?_, ?_⟩⟩,
    ⟨1 / 2, by norm_num⟩⟩
  · intro s hs a b ha hb r hr
    simp only [exRingLayer, List.mem_singleton] at hs
    subst hs
    simp [exRingLayer] at ha hb
    subst ha hb
    obtain ⟨t, -, -, -, h⟩ := hr
    unfold euclid
    apply Real.le_sqrt_of_sq_le
    simp only [mul_zero, add_zero, sub_zero] at h
    rw [h]
    nlinarith [sq_nonneg ((1 : ℝ) - r.x)]
  · exact ⟨1 / 4, by norm_num⟩
  · unfold euclid
    rw [show ((1 : ℝ) - 1) ^ 2 + (3 - 0) ^ 2 = 3 ^ 2 by norm_num, Real.sqrt_sq (by norm_num)]

example : ∃ ds', prepareDrawings (realLibm 3) false [⟨⟨1, 3⟩, ⟨2, 0⟩, 0, 1, 5⟩] [exRingLayer, exRingLayer] =
    .ok ds' ∧ ds'.length = 2 := by
  obtain ⟨ds', e, hl, -⟩ := prepared_drawings 3 false [⟨⟨1, 3⟩, ⟨2, 0⟩, 0, 1, 5⟩] [exRingLayer, exRingLayer]
    (by simp [exRingLayer_ok.1]) (by simp [exRingLayer_ok.2]) (by simp)
  exact ⟨ds', e, hl⟩

end Nikfemm
