import Verif.Lemmas.Direction
import Verif.Props.RefinementMaterials

/-!
# The first triangle on the way to a point
-/

set_option linter.unusedSectionVars false

namespace Nikfemm
variable {K : Type} [Field K] [LinearOrder K] [IsStrictOrderedRing K] {m : TMesh K} {live : Nat → Prop} {pos : Nat → Vec K}
  {T : Finset Nat} {p : Vec K} {n : Nat} {e : TEdge}

section
variable (hT : ∀ t, live t ↔ t ∈ T) (S : m.Sound live) (C : m.Ccw live pos) (he : live e.1) (hp : p ≠ pos (m.org e))
include hT S C he hp

/-- The triangle that `finddirection` returns has the given origin, and the ray from there through the point leads into
it: through its apex, through its destination, or strictly between them, as reported. -/
theorem finddirection_correct {d : Direction} {e' : TEdge} (h : m.finddirection pos p n e = some (d, e')) :
    live e'.1 ∧ m.org e' = m.org e ∧ m.Leads pos p d e' :=
  (finddirection_leads S C hT he hp).1 d e' h

/-- Towards a point that is beyond no outer edge, the search succeeds, within as many rounds as there are triangles. -/
theorem finddirection_total (hn : T.card < n) (hB : ¬ m.Beyond live pos p) :
    ∃ d e', m.finddirection pos p n e = some (d, e') :=
  (finddirection_leads S C hT he hp).2 hn hB

/-- Of the three answers only one is right for a triangle. -/
theorem leads_unique {d d' : Direction} (h : m.Leads pos p d e) (h' : m.Leads pos p d' e) : d = d' := by
  have hc : 0 < ccw (pos (m.org e)) (pos (m.dest e)) (pos (m.apex e)) := C e he
  have left : m.Leads pos p .leftCollinear e → ccw (pos (m.org e)) p (pos (m.apex e)) = 0 ∧
      ccw (pos (m.org e)) p (pos (m.dest e)) ≠ 0 := by
    rintro ⟨r, r0, h⟩
    have e1 : r * ccw (pos (m.org e)) p (pos (m.dest e)) =
        - ccw (pos (m.org e)) (pos (m.dest e)) ((pos (m.org e)).toward p r) := by unfold ccw Vec.toward; ring
    have e2 : r * ccw (pos (m.org e)) p (pos (m.apex e)) =
        ccw (pos (m.org e)) ((pos (m.org e)).toward p r) (pos (m.apex e)) := by unfold ccw Vec.toward; ring
    rw [h] at e1 e2
    constructor
    · have : ccw (pos (m.org e)) (pos (m.apex e)) (pos (m.apex e)) = 0 := by unfold ccw; ring
      rw [this] at e2
      exact (mul_eq_zero.1 e2).resolve_left r0.ne'
    · intro hz; rw [hz, mul_zero] at e1; linarith
  have right : m.Leads pos p .rightCollinear e → ccw (pos (m.org e)) p (pos (m.dest e)) = 0 ∧
      ccw (pos (m.org e)) p (pos (m.apex e)) ≠ 0 := by
    rintro ⟨r, r0, h⟩
    have e1 : r * ccw (pos (m.org e)) p (pos (m.dest e)) =
        ccw (pos (m.org e)) ((pos (m.org e)).toward p r) (pos (m.dest e)) := by unfold ccw Vec.toward; ring
    have e2 : r * ccw (pos (m.org e)) p (pos (m.apex e)) =
        ccw (pos (m.org e)) ((pos (m.org e)).toward p r) (pos (m.apex e)) := by unfold ccw Vec.toward; ring
    rw [h] at e1 e2
    constructor
    · have : ccw (pos (m.org e)) (pos (m.dest e)) (pos (m.dest e)) = 0 := by unfold ccw; ring
      rw [this] at e1
      exact (mul_eq_zero.1 e1).resolve_left r0.ne'
    · intro hz; rw [hz, mul_zero] at e2; linarith
  have within : m.Leads pos p .within e → ccw (pos (m.org e)) p (pos (m.dest e)) ≠ 0 ∧
      ccw (pos (m.org e)) p (pos (m.apex e)) ≠ 0 := by
    rintro ⟨r, t, r0, t0, t1, h⟩
    have e1 : r * ccw (pos (m.org e)) p (pos (m.dest e)) =
        ccw (pos (m.org e)) ((pos (m.org e)).toward p r) (pos (m.dest e)) := by unfold ccw Vec.toward; ring
    have e2 : r * ccw (pos (m.org e)) p (pos (m.apex e)) =
        ccw (pos (m.org e)) ((pos (m.org e)).toward p r) (pos (m.apex e)) := by unfold ccw Vec.toward; ring
    have a1 : ccw (pos (m.org e)) ((pos (m.dest e)).toward (pos (m.apex e)) t) (pos (m.dest e)) =
        - (t * ccw (pos (m.org e)) (pos (m.dest e)) (pos (m.apex e))) := by unfold ccw Vec.toward; ring
    have a2 : ccw (pos (m.org e)) ((pos (m.dest e)).toward (pos (m.apex e)) t) (pos (m.apex e)) =
        (1 - t) * ccw (pos (m.org e)) (pos (m.dest e)) (pos (m.apex e)) := by unfold ccw Vec.toward; ring
    rw [h] at e1 e2
    rw [a1] at e1
    rw [a2] at e2
    have := mul_pos t0 hc
    have := mul_pos (sub_pos.2 t1) hc
    constructor
    · intro hz; rw [hz, mul_zero] at e1; linarith
    · intro hz; rw [hz, mul_zero] at e2; linarith
  cases d <;> cases d' <;> first | rfl | (exfalso; first
    | exact (left h').2 (right h).1 | exact (right h').2 (left h).1 | exact (within h').2 (left h).1
    | exact (within h).2 (left h').1 | exact (within h').1 (right h).1 | exact (within h).1 (right h').1)

end

/-- Two triangles with a common edge, seen from the left end of that edge: the way up to the vertex on top starts in the
other triangle, and goes through its apex. -/
example : ∃ (m : TMesh ℚ) (live : Nat → Prop) (pos : Nat → Vec ℚ) (T : Finset Nat) (p : Vec ℚ) (n : Nat) (e : TEdge),
    (∀ t, live t ↔ t ∈ T) ∧ m.Sound live ∧ m.Ccw live pos ∧ live e.1 ∧ p ≠ pos (m.org e) ∧ T.card < n ∧
    ¬ m.Beyond live pos p ∧ m.finddirection pos p n e = some (.leftCollinear, (2, 2)) ∧ e.1 = 1 := by
  refine ⟨kiteMesh, (· ∈ ({1, 2} : Finset Nat)), kiteAt, {1, 2}, ⟨0, 2⟩, 104, (1, 2), fun _ => Iff.rfl, kiteState_ok.good.sound,
    kiteState_ok.good.ccw, by decide, by decide +kernel, by decide, ?_, by decide +kernel, rfl⟩
  rintro ⟨y, hy, h1, h2⟩
  have := kiteMesh_cases (p := fun y => kiteMesh.nb y = space → ¬ (0 < ccw (kiteAt (kiteMesh.dest y)) (kiteAt (kiteMesh.org y)) ⟨0, 2⟩))
    (by decide +kernel) y hy h1
  exact this h2

end Nikfemm
