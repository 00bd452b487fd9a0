import Verif.Lemmas.Erase
import Verif.Lemmas.Winding

/-!
# C120, C121: deleting a vertex
-/

set_option linter.unusedSectionVars false

namespace Nikfemm
variable {K : Type} [Field K] [LinearOrder K] [IsStrictOrderedRing K] {pos : Nat → Vec K} {m : TMesh K}
  {live : Nat → Prop} {v n : Nat} {T : Finset Nat} {d : TEdge}

section
variable (hT : ∀ t, live t ↔ t ∈ T) (G : m.Good live pos) (A : m.Apart live pos) (F : m.Free live v) (hd : live d.1)
  (ho : m.org d = v) (hn : T.card ≤ n)
include hT G A F hd ho hn

/-- Deleting a vertex ends: its loops and recursions are not deeper than there are triangles. -/
theorem deletevertex_ends : ∃ r, m.deletevertex pos n d = some r := by
  obtain ⟨r, h, -⟩ := deletevertex_run hT G.sound G.ccw G.delaunay A F hd ho hn
  exact ⟨r, h⟩

variable {r : Deleted K} (h : m.deletevertex pos n d = some r)
include h

/-- The two dead triangles are different triangles at the vertex. -/
theorem deletevertex_dead : r.dead.1 ≠ r.dead.2 ∧ ∀ t, t = r.dead.1 ∨ t = r.dead.2 → live t ∧ ∃ o : Fin 3, m.apex (t, o) = v := by
  obtain ⟨_, h', h1, h2, h3, -⟩ := deletevertex_run hT G.sound G.ccw G.delaunay A F hd ho hn
  obtain rfl := Option.some.inj (h.symm.trans h')
  refine ⟨h1, ?_⟩
  rintro t (rfl | rfl)
  · have := h2.2
    unfold TMesh.Off at this
    push Not at this
    exact ⟨h2.1, this⟩
  · have := h3.2
    unfold TMesh.Off at this
    push Not at this
    exact ⟨h3.1, this⟩

omit hT A F hd ho hn h in
theorem healed_fenced {Y : Nat → Nat} {m' : TMesh K} {live' : Nat → Prop} {l : Tested}
    (Fl : Healed m live T pos v Y m' live' l) : m'.Fenced live' := by
  intro x hx hs
  obtain ⟨y, hy, h1, h2, h3, h4⟩ := (Fl.edge (m'.org x) (m'.dest x) (m'.sg x) true (.inr rfl)).1
    ⟨x, hx, rfl, rfl, rfl, by simp [hs]⟩
  rw [← h3]
  exact G.fenced y hy (h4.1 rfl)

/-- After a vertex is deleted the mesh is again a consistent constrained Delaunay triangulation without overlaps. -/
theorem deletevertex_good : r.m.Good (Shrunk live r.dead) pos ∧ r.m.Apart (Shrunk live r.dead) pos := by
  classical
  obtain ⟨_, h', -, -, -, Fl⟩ := deletevertex_run hT G.sound G.ccw G.delaunay A F hd ho hn
  obtain rfl := Option.some.inj (h.symm.trans h')
  refine ⟨⟨Fl.sound, Fl.ccw, Fl.delaunay, healed_fenced G Fl⟩, ?_⟩
  have hT' : ∀ t, Shrunk live r.dead t ↔ t ∈ T.filter fun t => t ≠ r.dead.1 ∧ t ≠ r.dead.2 := by
    intro t
    rw [Finset.mem_filter, ← hT]; rfl
  refine winding_apart hT hT' G.ccw Fl.ccw (fun p => ?_) A
  rw [winding_total, winding_total]
  exact Fl.total _ hT' _ fun a b => crossing_anti _ _ _

/-- Only the vertex is gone. -/
theorem deletevertex_vertices (w : Nat) : r.m.HasCorner (Shrunk live r.dead) w ↔ m.HasCorner live w ∧ w ≠ v := by
  obtain ⟨_, h', -, -, -, Fl⟩ := deletevertex_run hT G.sound G.ccw G.delaunay A F hd ho hn
  obtain rfl := Option.some.inj (h.symm.trans h')
  exact Fl.corner w

/-- The subsegments and the outer edges stay as they are. -/
theorem deletevertex_edges (a b : Nat) (s : TSub) (o : Bool) (hso : s ≠ noSub ∨ o = true) :
    r.m.HasEdge (Shrunk live r.dead) a b s o ↔ m.HasEdge live a b s o := by
  obtain ⟨_, h', -, -, -, Fl⟩ := deletevertex_run hT G.sound G.ccw G.delaunay A F hd ho hn
  obtain rfl := Option.some.inj (h.symm.trans h')
  exact Fl.edge a b s o hso

/-- The triangles cover the same points as before. -/
theorem deletevertex_covers (p : Vec K) :
    (∀ t, live t → m.Inside pos t p → ∃ t', Shrunk live r.dead t' ∧ r.m.Within pos t' p) ∧
    (∀ t, Shrunk live r.dead t → r.m.Inside pos t p → ∃ t', live t' ∧ m.Within pos t' p) := by
  classical
  obtain ⟨_, h', -, -, -, Fl⟩ := deletevertex_run hT G.sound G.ccw G.delaunay A F hd ho hn
  obtain rfl := Option.some.inj (h.symm.trans h')
  have hT' : ∀ t, Shrunk live r.dead t ↔ t ∈ T.filter fun t => t ≠ r.dead.1 ∧ t ≠ r.dead.2 := by
    intro t
    rw [Finset.mem_filter, ← hT]; rfl
  have w : ∀ p, r.m.winding (T.filter fun t => t ≠ r.dead.1 ∧ t ≠ r.dead.2) pos p = m.winding T pos p := by
    intro p
    rw [winding_total, winding_total]
    exact Fl.total _ hT' _ fun a b => crossing_anti _ _ _
  exact ⟨fun t ht hi => winding_cover hT hT' G.ccw Fl.ccw w ht hi, fun t ht hi =>
    winding_cover hT' hT Fl.ccw G.ccw (fun p => (w p).symm) ht hi⟩

/-- Triangles that do not have the vertex keep their number, their corners and their subsegments. -/
theorem deletevertex_local {t : Nat} (ht : live t) (hv : ∀ o : Fin 3, m.apex (t, o) ≠ v) :
    Shrunk live r.dead t ∧ ∀ o : Fin 3, r.m.apex (t, o) = m.apex (t, o) ∧ r.m.sg (t, o) = m.sg (t, o) := by
  obtain ⟨_, h', -, -, -, Fl⟩ := deletevertex_run hT G.sound G.ccw G.delaunay A F hd ho hn
  obtain rfl := Option.some.inj (h.symm.trans h')
  exact ⟨(Fl.fixed (t, 0) ht hv).1, fun o => (Fl.fixed (t, o) ht hv).2⟩

/-- Attributes: no triangle changes its own, and within a region they still agree. -/
theorem deletevertex_regional (Rg : m.Regional live) : r.m.attr = m.attr ∧ r.m.Regional (Shrunk live r.dead) := by
  obtain ⟨_, h', -, -, -, Fl⟩ := deletevertex_run hT G.sound G.ccw G.delaunay A F hd ho hn
  obtain rfl := Option.some.inj (h.symm.trans h')
  exact ⟨Fl.attr, Fl.regional Rg⟩

/-- Exactly the new triangles are tested, each with the corners that it finally has. -/
theorem deletevertex_tested :
    (∀ q ∈ r.tested, Shrunk live r.dead q.1.1 ∧ r.m.corners q.1 = q.2 ∧ ∃ o : Fin 3, m.apex (q.1.1, o) = v) ∧
    (∀ t, Shrunk live r.dead t → (∃ o : Fin 3, m.apex (t, o) = v) → ∃ q ∈ r.tested, q.1.1 = t) := by
  obtain ⟨_, h', -, -, -, Fl⟩ := deletevertex_run hT G.sound G.ccw G.delaunay A F hd ho hn
  obtain rfl := Option.some.inj (h.symm.trans h')
  refine ⟨fun q hq => ?_, fun t ht ⟨o, hv⟩ => Fl.tested t ht fun hoff => hoff o hv⟩
  obtain ⟨h1, h2, h3⟩ := Fl.entries q hq
  unfold TMesh.Off at h2
  push Not at h2
  exact ⟨h1, h3, h2⟩

/-- A subsegment that is encroached upon afterwards was encroached upon, from the same side, before. -/
theorem deletevertex_encroached {b : Quality.Behavior K} {x : TEdge} (hx : Shrunk live r.dead x.1)
    (he : r.m.Encroached b pos x) :
    ∃ y : TEdge, live y.1 ∧ m.Encroached b pos y ∧ m.org y = r.m.org x ∧ m.dest y = r.m.dest x ∧ m.sg y = r.m.sg x := by
  obtain ⟨_, h', -, -, -, Fl⟩ := deletevertex_run hT G.sound G.ccw G.delaunay A F hd ho hn
  obtain rfl := Option.some.inj (h.symm.trans h')
  obtain ⟨he1, he2⟩ := he
  obtain ⟨y, hy, h1, h2, h3, h4⟩ := (Fl.edge (r.m.org x) (r.m.dest x) (r.m.sg x) (decide (r.m.nb x = space)) (.inl he1)).1
    ⟨x, hx, rfl, rfl, rfl, by simp⟩
  refine ⟨y, hy, ⟨by rw [h3]; exact he1, ?_⟩, h1, h2, h3⟩
  have sy : m.sg y ≠ noSub := by rw [h3]; exact he1
  have vo : m.org y ≠ v := fun e => sy (F y hy (.inl e)).2
  have vd : m.dest y ≠ v := fun e => sy (F y hy (.inr e)).2
  by_cases hv : m.apex y = v
  · have hnew : ¬ m.Off v x.1 := by
      intro hoff
      obtain ⟨k1, k2, k3⟩ := Fl.fixed x hx.1 hoff
      have : m.sg x = m.sg y := k3.symm.trans h3.symm
      have e := G.sound.sg_inj hx.1 hy this (by rw [this]; exact sy)
      rw [e, off_iff] at hoff
      exact hoff.2.2 hv
    obtain ⟨s, hs⟩ := Fl.inner x hx hnew
    have cy : 0 < ccw (pos (m.org y)) (pos (m.dest y)) (pos v) := by rw [← hv]; exact G.ccw y hy
    have cx : 0 < ccw (pos (m.org y)) (pos (m.dest y)) (pos (m.dest (m.spin d s))) := by
      rw [h1, h2, ← hs]; exact Fl.ccw x hx
    have w := rim_weak hT G.sound G.ccw G.delaunay A F hd ho hy hv cx
    rw [hv]
    refine lens_inscribed cx cy w ?_
    rw [hs, ← h1, ← h2] at he2
    exact he2
  · have hoff : m.Off v y.1 := by rw [off_iff]; exact ⟨vo, vd, hv⟩
    obtain ⟨k1, k2, k3⟩ := Fl.fixed y hy hoff
    have e : r.m.sg x = r.m.sg y := h3.symm.trans k3.symm
    have e' := Fl.sound.sg_inj hx k1 e he1
    rw [e'] at he2 h1 h2
    rw [h1, h2, ← k2]
    exact he2

/-- In particular a mesh without encroached subsegments stays so. -/
theorem deletevertex_unencroached {b : Quality.Behavior K} (U : m.Unencroached b pos live) :
    r.m.Unencroached b pos (Shrunk live r.dead) := by
  intro x hx he
  obtain ⟨y, hy, hy', -⟩ := deletevertex_encroached hT G A F hd ho hn h hx he
  exact U y hy hy'

end

/-! ## A wheel with five spokes -/

/-- The hub is 6, the rim 1 to 5; triangle `t` is `6 t (t + 1)`. -/
def wheel5 : TMesh ℚ where
  nb := fun e => match e with
    | (0, 0) => (1, 1)
    | (1, 2) => (2, 0) | (2, 2) => (3, 0) | (3, 2) => (4, 0) | (4, 2) => (5, 0) | (5, 2) => (1, 0)
    | (1, 0) => (5, 2) | (2, 0) => (1, 2) | (3, 0) => (2, 2) | (4, 0) => (3, 2) | (5, 0) => (4, 2)
    | _ => space
  apex := fun e => match e with
    | (1, 0) => 2 | (2, 0) => 3 | (3, 0) => 4 | (4, 0) => 5 | (5, 0) => 1
    | (1, 1) => 6 | (2, 1) => 6 | (3, 1) => 6 | (4, 1) => 6 | (5, 1) => 6
    | (1, 2) => 1 | (2, 2) => 2 | (3, 2) => 3 | (4, 2) => 4 | (5, 2) => 5
    | _ => 0
  sg := fun e => match e with
    | (1, 1) => (1, 0) | (2, 1) => (2, 0) | (3, 1) => (3, 0) | (4, 1) => (4, 0) | (5, 1) => (5, 0) | _ => noSub
  st := fun s => match s with
    | (1, 0) => (1, 1) | (2, 0) => (2, 1) | (3, 0) => (3, 1) | (4, 0) => (4, 1) | (5, 0) => (5, 1) | _ => space
  sorg := fun s => match s with
    | (1, 0) => 2 | (2, 0) => 3 | (3, 0) => 4 | (4, 0) => 5 | (5, 0) => 1
    | (1, 1) => 1 | (2, 1) => 2 | (3, 1) => 3 | (4, 1) => 4 | (5, 1) => 5 | _ => 0
  attr := fun _ => 5
  checksegments := true

def wheel5At : Nat → Vec ℚ := fun i => match i with
  | 1 => ⟨3, 0⟩ | 2 => ⟨1, 3⟩ | 3 => ⟨-3, 2⟩ | 4 => ⟨-3, -2⟩ | 5 => ⟨1, -3⟩ | _ => ⟨0, 0⟩

/-- The triangles of the wheel. -/
def wheel5Live (t : Nat) : Prop := t ∈ ({1, 2, 3, 4, 5} : Finset Nat)

theorem wheel5_cases {p : TEdge → Prop} (h : ∀ t ∈ ({1, 2, 3, 4, 5} : Finset Nat), ∀ o : Fin 3, p (t, o)) (e : TEdge)
    (he : wheel5Live e.1) : p e := h e.1 he e.2

theorem wheel5_good : wheel5.Good wheel5Live wheel5At := by
  have S : wheel5.Sound wheel5Live := by
    refine ⟨by unfold wheel5Live; decide, wheel5_cases ?_, wheel5_cases ?_, fun _ => ?_, wheel5_cases ?_, ?_⟩
    · unfold wheel5Live; decide
    · decide
    · unfold wheel5Live; decide
    · decide
    · intro h; exact absurd h (by decide)
  have C : wheel5.Ccw wheel5Live wheel5At := by
    refine wheel5_cases ?_
    unfold CcwPts
    decide +kernel
  refine ⟨S, C, ?_, wheel5_cases ?_⟩
  · intro e he
    rw [ld_iff C he]
    revert e
    refine wheel5_cases ?_
    decide +kernel
  · decide

theorem wheel5_apart : wheel5.Apart wheel5Live wheel5At := by
  have cone : ∀ t, wheel5Live t → ∀ p, wheel5.Inside wheel5At t p →
      0 < ccw ⟨0, 0⟩ (wheel5At t) p ∧ ccw ⟨0, 0⟩ (wheel5At (if t = 5 then 1 else t + 1)) p < 0 := by
    intro t ht p hp
    unfold wheel5Live at ht
    simp only [Finset.mem_insert, Finset.mem_singleton] at ht
    obtain ⟨h1, h2, h3⟩ := hp
    unfold CcwPts at h1 h2 h3
    rcases ht with rfl | rfl | rfl | rfl | rfl <;>
      simp [wheel5, wheel5At, TMesh.org, TMesh.dest, lnext, lprev, ccw] at h1 h2 h3 ⊢ <;>
      constructor <;> linarith
  intro t t' ht ht' hne p ⟨h1, h2⟩
  obtain ⟨a1, a2⟩ := cone t ht p h1
  obtain ⟨b1, b2⟩ := cone t' ht' p h2
  unfold wheel5Live at ht ht'
  simp only [Finset.mem_insert, Finset.mem_singleton] at ht ht'
  rcases ht with rfl | rfl | rfl | rfl | rfl <;> rcases ht' with rfl | rfl | rfl | rfl | rfl <;>
    first
    | exact hne rfl
    | (simp [wheel5At, ccw] at a1 a2 b1 b2; linarith)

theorem wheel5_free : wheel5.Free wheel5Live 6 := by
  refine wheel5_cases ?_
  decide

/-- The wheel meets all the conditions; two flips are made, three triangles are tested, two are dead. -/
example : ∃ (m : TMesh ℚ) (live : Nat → Prop) (T : Finset Nat) (pos : Nat → Vec ℚ) (v n : Nat) (d : TEdge),
    (∀ t, live t ↔ t ∈ T) ∧ m.Good live pos ∧ m.Apart live pos ∧ m.Free live v ∧ live d.1 ∧ m.org d = v ∧ T.card ≤ n ∧
    m.Regional live ∧
    (m.deletevertex pos n d).map (fun r => (r.dead, r.tested)) =
      some ((5, 4), [((1, 0), 5, 1, 2), ((2, 2), 5, 2, 3), ((3, 2), 5, 3, 4)]) :=
  ⟨wheel5, wheel5Live, {1, 2, 3, 4, 5}, wheel5At, 6, 5, (1, 0), fun _ => Iff.rfl, wheel5_good, wheel5_apart, wheel5_free,
    by unfold wheel5Live; decide, by decide, by decide, fun _ _ _ _ => rfl, by decide +kernel⟩

end Nikfemm
