import Verif.Lemmas.Fixup

/-!
# The flips beside a segment do not disturb the other edges at the vertex
-/

set_option linter.unusedSectionVars false

namespace Nikfemm
variable {K : Type} [Field K] [LinearOrder K] [IsStrictOrderedRing K]

variable {pos : Nat → Vec K} {left : Bool} {live : Nat → Prop} {T : Finset Nat} (hT : ∀ t, live t ↔ t ∈ T)
include hT

/-- The edge of the handle keeps its neighbour and its subsegment.  The edges of the other triangles at the vertex keep their
subsegments, and their neighbours if these are at the vertex too. -/
theorem fixup_side : ∀ (n : Nat) (m : TMesh K) (fix : TEdge), m.Sound live → live fix.1 →
    ∀ r, m.delaunayfixup pos left n fix = some r →
    (m.nb fix ≠ space → r.1.nb r.2 = m.nb fix) ∧ r.1.sg r.2 = m.sg fix ∧
    ∀ x : TEdge, live x.1 → x.1 ≠ fix.1 → ¬ m.Off (m.org fix) x.1 → r.1.sg x = m.sg x ∧
      ((m.nb x).1 ≠ fix.1 → ¬ m.Off (m.org fix) (m.nb x).1 → r.1.nb x = m.nb x) := by
  intro n
  induction n with
  | zero => exact fun m fix _ _ r h => by simp [TMesh.delaunayfixup] at h
  | succ n ih =>
    intro m fix S h r hr
    rcases fixup_cases (pos := pos) (left := left) S h with ⟨-, he⟩ | ⟨⟨hs, hseg, hf, -⟩, he⟩
    · rw [he] at hr
      simp only [Option.some.injEq] at hr
      subst hr
      exact ⟨fun _ => rfl, rfl, fun _ _ _ _ => ⟨rfl, fun _ _ => rfl⟩⟩
    · rw [he] at hr
      obtain ⟨k1, k2, k3⟩ := fixup_handles S h hs hseg hf
      have hoff := fixup_off S h hs hseg hf
      have S' := flip_sound S (e := lnext fix) h hs hseg hf
      have hl := S.nb_live (x := lnext fix) h hs
      have hne := S.nb_ne (x := lnext fix) h
      obtain ⟨r1, h1, hr⟩ := Option.bind_eq_some_iff.1 hr
      obtain ⟨r2, h2, rfl⟩ := Option.map_eq_some_iff.1 hr
      have P1 := (fixup_post hT n (m.flip (lnext fix)) (lprev fix) S' h).1 r1 h1
      rw [k1] at P1
      obtain ⟨o1, -⟩ := fixPost_step hT S h hs hseg hf P1 (m2 := m) (fix2 := fix)
      obtain ⟨a1, a2, a3⟩ := ih _ (lprev fix) S' h r1 h1
      obtain ⟨-, -, b3⟩ := ih _ (m.nb (lnext fix)) P1.sound hl r2 h2
      rw [k1] at a3
      rw [o1] at b3
      obtain ⟨F1, F2, F3, -⟩ := flip_view S (e := lnext fix) h hs hseg hf
      have c := (flip_casing S (e := lnext fix) h hs hseg hf).2.1
      rw [lprev_lnext, lnext_lnext] at c
      -- triangles at the vertex other than that of the handle
      have stay : ∀ t, t ≠ fix.1 → ¬ m.Off (m.org fix) t →
          t ≠ (m.nb (lnext fix)).1 ∧ ¬ (m.flip (lnext fix)).Off (m.org fix) t ∧ ¬ r1.1.Off (m.org fix) t := by
        intro t t1 t2
        have t3 : t ≠ (m.nb (lnext fix)).1 := fun h0 => t2 (h0 ▸ hoff)
        have g1 : ¬ (m.flip (lnext fix)).Off (m.org fix) t := by
          intro h0; apply t2; intro o; rw [← (F1 (t, o) t1 t3).1]; exact h0 o
        exact ⟨t3, g1, fun h0 => g1 (P1.off t h0)⟩
      have n1 : r1.2.1 ≠ (m.nb (lnext fix)).1 := by rw [P1.tri]; exact hne.symm
      have l1 : live r1.2.1 := by rw [P1.tri]; exact h
      obtain ⟨b4, b5⟩ := b3 r1.2 l1 n1 (not_off P1.org)
      refine ⟨fun h0 => ?_, ?_, fun x hx x1 x2 => ?_⟩
      · have e1 : r1.1.nb r1.2 = m.nb fix := by rw [a1 (by rw [c.nb]; exact h0), c.nb]
        have y1 : (m.nb fix).1 ≠ fix.1 := S.nb_ne h
        have y2 : ¬ m.Off (m.org fix) (m.nb fix).1 := by
          have := (S.nb_ends (x := fix) h h0).2
          intro hc
          exact ((off_iff (m.nb fix)).1 hc).2.1 this
        obtain ⟨z1, -, z2⟩ := stay _ y1 y2
        show r2.1.nb r1.2 = _
        rw [b5 (by rw [e1]; exact z1) (by rw [e1]; exact z2), e1]
      · show r2.1.sg r1.2 = _
        rw [b4, a2, c.sg]
      · obtain ⟨z1, z2, z3⟩ := stay _ x1 x2
        obtain ⟨u1, u2⟩ := a3 x hx x1 z2
        obtain ⟨w1, w2⟩ := b3 x hx z1 z3
        refine ⟨by show r2.1.sg x = _; rw [w1, u1, F2 x hx x1 z1], fun x3 x4 => ?_⟩
        obtain ⟨v1, v2, v3⟩ := stay _ x3 x4
        have e0 := F3 x hx x1 z1 x3 v1
        have e1 : r1.1.nb x = m.nb x := by
          rw [u2 (by rw [e0]; exact x3) (by rw [e0]; exact v2), e0]
        show r2.1.nb x = _
        rw [w2 (by rw [e1]; exact v1) (by rw [e1]; exact v3), e1]

end Nikfemm
