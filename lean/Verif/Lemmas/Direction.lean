import Verif.Lemmas.Locate
import Verif.Spec.Segments

/-!
# The search for the triangle that leads to a point
-/

set_option linter.unusedSectionVars false

namespace Nikfemm
variable {K : Type} [Field K] [LinearOrder K] [IsStrictOrderedRing K] {m : TMesh K} {live : Nat → Prop}
  {pos : Nat → Vec K} {p : Vec K}

/-! ## Geometry -/

theorem ccw_plucker (s p a b c : Vec K) : ccw s p b * ccw s a c = ccw s p c * ccw s a b + ccw s p a * ccw s b c := by
  unfold ccw; ring

/-- On one side of a line through `s`, turning is transitive. -/
theorem turn_trans {s p a b c : Vec K} (ha : ccw s p a < 0) (hb : ccw s p b < 0) (hc : ccw s p c < 0)
    (h1 : 0 < ccw s a b) (h2 : 0 < ccw s b c) : 0 < ccw s a c := by
  have h := ccw_plucker s p a b c
  have h3 := mul_neg_of_neg_of_pos hc h1
  have h4 := mul_neg_of_neg_of_pos ha h2
  by_contra hn
  have := mul_nonneg_of_nonpos_of_nonpos hb.le (not_lt.1 hn)
  linarith

theorem lead_left {s p a d : Vec K} (hp : p ≠ s) (h : 0 < ccw s d a) (ha : ccw s p a = 0) (hd : ccw s p d ≤ 0) :
    ∃ r, 0 < r ∧ s.toward p r = a := by
  have hd0 : ccw s p d < 0 := by
    rcases hd.lt_or_eq with h' | h'
    · exact h'
    exfalso
    have hx : (p.x - s.x) * ccw s d a = 0 := by
      have : (p.x - s.x) * ccw s d a = (d.x - s.x) * ccw s p a - (a.x - s.x) * ccw s p d := by unfold ccw; ring
      rw [this, ha, h']; ring
    have hy : (p.y - s.y) * ccw s d a = 0 := by
      have : (p.y - s.y) * ccw s d a = (d.y - s.y) * ccw s p a - (a.y - s.y) * ccw s p d := by unfold ccw; ring
      rw [this, ha, h']; ring
    have hx := (mul_eq_zero.1 hx).resolve_right h.ne'
    have hy := (mul_eq_zero.1 hy).resolve_right h.ne'
    exact hp (Vec.ext (by linarith) (by linarith))
  refine ⟨ccw s d a / - ccw s p d, div_pos h (by linarith), ?_⟩
  have e1 : (p.x - s.x) * ccw s d a = - (a.x - s.x) * ccw s p d := by
    have : (p.x - s.x) * ccw s d a = (d.x - s.x) * ccw s p a - (a.x - s.x) * ccw s p d := by unfold ccw; ring
    rw [this, ha]; ring
  have e2 : (p.y - s.y) * ccw s d a = - (a.y - s.y) * ccw s p d := by
    have : (p.y - s.y) * ccw s d a = (d.y - s.y) * ccw s p a - (a.y - s.y) * ccw s p d := by unfold ccw; ring
    rw [this, ha]; ring
  have hne : - ccw s p d ≠ 0 := by linarith [hd0]
  unfold Vec.toward
  refine Vec.ext ?_ ?_
  · show s.x + ccw s d a / - ccw s p d * (p.x - s.x) = a.x
    rw [div_mul_eq_mul_div, mul_comm (ccw s d a), e1, show -(a.x - s.x) * ccw s p d = (a.x - s.x) * - ccw s p d by ring,
      mul_div_assoc, div_self hne]; ring
  · show s.y + ccw s d a / - ccw s p d * (p.y - s.y) = a.y
    rw [div_mul_eq_mul_div, mul_comm (ccw s d a), e2, show -(a.y - s.y) * ccw s p d = (a.y - s.y) * - ccw s p d by ring,
      mul_div_assoc, div_self hne]; ring

theorem lead_right {s p a d : Vec K} (h : 0 < ccw s d a) (hd : ccw s p d = 0) (ha : 0 < ccw s p a) :
    ∃ r, 0 < r ∧ s.toward p r = d := by
  refine ⟨ccw s d a / ccw s p a, div_pos h ha, ?_⟩
  have e1 : (p.x - s.x) * ccw s d a = (d.x - s.x) * ccw s p a := by
    have : (p.x - s.x) * ccw s d a = (d.x - s.x) * ccw s p a - (a.x - s.x) * ccw s p d := by unfold ccw; ring
    rw [this, hd]; ring
  have e2 : (p.y - s.y) * ccw s d a = (d.y - s.y) * ccw s p a := by
    have : (p.y - s.y) * ccw s d a = (d.y - s.y) * ccw s p a - (a.y - s.y) * ccw s p d := by unfold ccw; ring
    rw [this, hd]; ring
  unfold Vec.toward
  refine Vec.ext ?_ ?_
  · show s.x + ccw s d a / ccw s p a * (p.x - s.x) = d.x
    rw [div_mul_eq_mul_div, mul_comm (ccw s d a), e1, mul_div_assoc, div_self ha.ne']; ring
  · show s.y + ccw s d a / ccw s p a * (p.y - s.y) = d.y
    rw [div_mul_eq_mul_div, mul_comm (ccw s d a), e2, mul_div_assoc, div_self ha.ne']; ring

theorem lead_within {s p a d : Vec K} (h : 0 < ccw s d a) (hd : ccw s p d < 0) (ha : 0 < ccw s p a) :
    ∃ r t, 0 < r ∧ 0 < t ∧ t < 1 ∧ s.toward p r = d.toward a t := by
  have hD : 0 < ccw s p a - ccw s p d := by linarith
  refine ⟨ccw s d a / (ccw s p a - ccw s p d), - ccw s p d / (ccw s p a - ccw s p d), div_pos h hD,
    div_pos (by linarith) hD, (div_lt_one hD).2 (by linarith), ?_⟩
  unfold Vec.toward
  refine Vec.ext ?_ ?_
  · show s.x + ccw s d a / (ccw s p a - ccw s p d) * (p.x - s.x) =
      d.x + - ccw s p d / (ccw s p a - ccw s p d) * (a.x - d.x)
    have hne := hD.ne'
    field_simp
    unfold ccw; ring
  · show s.y + ccw s d a / (ccw s p a - ccw s p d) * (p.y - s.y) =
      d.y + - ccw s p d / (ccw s p a - ccw s p d) * (a.y - d.y)
    have hne := hD.ne'
    field_simp
    unfold ccw; ring

/-! ## Turning -/

section
variable (S : m.Sound live) (C : m.Ccw live pos)
include S

theorem onext_ends {e : TEdge} (he : live e.1) (hs : m.nb (lprev e) ≠ space) :
    live (m.onext e).1 ∧ m.org (m.onext e) = m.org e ∧ m.dest (m.onext e) = m.apex e := by
  have hl : live (lprev e).1 := he
  refine ⟨S.nb_live hl hs, ?_, ?_⟩
  · unfold TMesh.onext; rw [(S.nb_ends hl hs).1, dest_lprev]
  · unfold TMesh.onext; rw [(S.nb_ends hl hs).2, org_lprev]

theorem oprev_ends {e : TEdge} (he : live e.1) (hs : m.nb e ≠ space) :
    live (m.oprev e).1 ∧ m.org (m.oprev e) = m.org e ∧ m.apex (m.oprev e) = m.dest e := by
  refine ⟨S.nb_live he hs, ?_, ?_⟩
  · unfold TMesh.oprev; rw [org_lnext, (S.nb_ends he hs).2]
  · unfold TMesh.oprev; rw [apex_lnext, (S.nb_ends he hs).1]

theorem nb_zero_iff {e : TEdge} (he : live e.1) : (m.nb e).1 = 0 ↔ m.nb e = space := by
  constructor
  · intro h
    by_contra hs
    exact S.out (h ▸ S.nb_live he hs)
  · intro h; rw [h]; rfl

/-- In a triangle only one handle has a given origin. -/
theorem one_origin {x y : TEdge} (hx : live x.1) (ht : x.1 = y.1) (ho : m.org x = m.org y) : x = y := by
  have hap := S.apex_ne x hx
  have hc := S.corners x hx
  rcases edge_cases x.2 (x := y) ht.symm with h | h | h
  · exact h.symm
  · exfalso
    have : y = lnext x := h
    rw [this, org_lnext] at ho
    exact hc ho
  · exfalso
    have : y = lprev x := h
    rw [this, org_lprev] at ho
    have h3 := S.corners (lprev x) hx
    rw [org_lprev, dest_lprev] at h3
    exact h3 ho.symm

include C

/-- The triangles at the origin further to the left, on the right side of the line. -/
theorem turnLeft_spec {T : Finset Nat} (hT : ∀ t, live t ↔ t ∈ T) : ∀ (n : Nat) (l : K) (e : TEdge), live e.1 →
    ccw (pos (m.org e)) p (pos (m.apex e)) < 0 →
    (∀ l' r' e', m.turnLeft pos p (pos (m.org e)) n l e = some (l', r', e') → 0 < l →
      live e'.1 ∧ m.org e' = m.org e ∧ l' = - ccw (pos (m.org e)) p (pos (m.apex e')) ∧ l' ≤ 0 ∧ 0 < r' ∧
        ccw (pos (m.org e)) p (pos (m.dest e')) < 0) ∧
    ((T.filter fun t => ∃ o : Fin 3, m.org (t, o) = m.org e ∧ ccw (pos (m.org e)) p (pos (m.apex (t, o))) < 0 ∧
        0 < ccw (pos (m.org e)) (pos (m.apex e)) (pos (m.apex (t, o)))).card < n →
      m.turnLeft pos p (pos (m.org e)) n l e = none → m.Beyond live pos p) := by
  intro n
  induction n with
  | zero =>
    intro l e he ha
    exact ⟨fun _ _ _ h => by unfold TMesh.turnLeft at h; exact absurd h (by simp), fun h => absurd h (by omega)⟩
  | succ n ih =>
    intro l e he ha
    by_cases hz : (m.onext e).1 = 0
    · have e1 : m.turnLeft pos p (pos (m.org e)) (n + 1) l e = none := by
        unfold TMesh.turnLeft; rw [if_pos hz]
      refine ⟨fun _ _ _ h => by rw [e1] at h; exact absurd h (by simp), fun _ _ => ?_⟩
      refine ⟨lprev e, he, (nb_zero_iff S (e := lprev e) he).1 hz, ?_⟩
      rw [dest_lprev, org_lprev]
      show 0 < ccw (pos (m.org e)) (pos (m.apex e)) p
      have : ccw (pos (m.org e)) (pos (m.apex e)) p = - ccw (pos (m.org e)) p (pos (m.apex e)) := by unfold ccw; ring
      linarith
    have hs : m.nb (lprev e) ≠ space := fun h => hz ((nb_zero_iff S (e := lprev e) he).2 h)
    obtain ⟨hl, ho, hd⟩ := onext_ends S he hs
    have el : orient p (pos (m.org e)) (pos (m.apex (m.onext e))) =
        - ccw (pos (m.org e)) p (pos (m.apex (m.onext e))) := by rw [orient_eq]; unfold ccw; ring
    by_cases hg : orient p (pos (m.org e)) (pos (m.apex (m.onext e))) > 0
    · have e1 : m.turnLeft pos p (pos (m.org e)) (n + 1) l e =
          m.turnLeft pos p (pos (m.org (m.onext e))) n (orient p (pos (m.org e)) (pos (m.apex (m.onext e)))) (m.onext e) := by
        conv_lhs => unfold TMesh.turnLeft
        rw [if_neg hz, if_pos hg, ho]
      have ha' : ccw (pos (m.org (m.onext e))) p (pos (m.apex (m.onext e))) < 0 := by rw [ho]; linarith
      obtain ⟨i1, i2⟩ := ih (orient p (pos (m.org e)) (pos (m.apex (m.onext e)))) (m.onext e) hl ha'
      rw [e1]
      refine ⟨fun l' r' e' h _ => ?_, fun hn h => i2 ?_ h⟩
      · have := i1 l' r' e' h hg
        rw [ho] at this
        exact this
      · refine lt_of_lt_of_le (Finset.card_lt_card ?_) (Nat.lt_succ_iff.1 hn)
        have hc := C (m.onext e) hl
        rw [ho, hd] at hc
        have hc : 0 < ccw (pos (m.org e)) (pos (m.apex e)) (pos (m.apex (m.onext e))) := hc
        rw [Finset.ssubset_iff_of_subset]
        · refine ⟨(m.onext e).1, ?_, ?_⟩
          · simp only [Finset.mem_filter]
            exact ⟨(hT _).1 hl, (m.onext e).2, ho, by rw [ho] at ha'; exact ha', hc⟩
          · simp only [Finset.mem_filter, not_and, not_exists]
            intro _ o h1 _ h2
            have : (m.onext e) = ((m.onext e).1, o) := one_origin S hl rfl h1.symm
            rw [← this] at h2
            have h0 : ccw (pos (m.org (m.onext e))) (pos (m.apex (m.onext e))) (pos (m.apex (m.onext e))) = 0 := by
              unfold ccw; ring
            rw [h0] at h2
            exact lt_irrefl _ h2
        · intro t ht
          simp only [Finset.mem_filter] at ht ⊢
          obtain ⟨h0, o, h1, h2, h3⟩ := ht
          rw [ho] at h1 h2 h3
          refine ⟨h0, o, h1, h2, ?_⟩
          rw [ho] at ha'
          exact turn_trans ha ha' h2 hc h3
    · have e1 : m.turnLeft pos p (pos (m.org e)) (n + 1) l e =
          some (orient p (pos (m.org e)) (pos (m.apex (m.onext e))), l, m.onext e) := by
        conv_lhs => unfold TMesh.turnLeft
        rw [if_neg hz, if_neg hg]
      rw [e1]
      refine ⟨fun l' r' e' h hl0 => ?_, fun _ h => absurd h (by simp)⟩
      simp only [Option.some.injEq, Prod.mk.injEq] at h
      obtain ⟨rfl, rfl, rfl⟩ := h
      exact ⟨hl, ho, el, not_lt.1 hg, hl0, by rw [hd]; exact ha⟩

theorem turnRight_spec {T : Finset Nat} (hT : ∀ t, live t ↔ t ∈ T) : ∀ (n : Nat) (r : K) (e : TEdge), live e.1 →
    0 < ccw (pos (m.org e)) p (pos (m.dest e)) →
    (∀ l' r' e', m.turnRight pos p (pos (m.org e)) n r e = some (l', r', e') → 0 < r →
      live e'.1 ∧ m.org e' = m.org e ∧ r' = ccw (pos (m.org e)) p (pos (m.dest e')) ∧ r' ≤ 0 ∧ 0 < l' ∧
        0 < ccw (pos (m.org e)) p (pos (m.apex e'))) ∧
    ((T.filter fun t => ∃ o : Fin 3, m.org (t, o) = m.org e ∧ 0 < ccw (pos (m.org e)) p (pos (m.dest (t, o))) ∧
        0 < ccw (pos (m.org e)) (pos (m.dest (t, o))) (pos (m.dest e))).card < n →
      m.turnRight pos p (pos (m.org e)) n r e = none → m.Beyond live pos p) := by
  intro n
  induction n with
  | zero =>
    intro l e he ha
    exact ⟨fun _ _ _ h => by unfold TMesh.turnRight at h; exact absurd h (by simp), fun h => absurd h (by omega)⟩
  | succ n ih =>
    intro r e he ha
    have hnz : (m.oprev e).1 = 0 ↔ m.nb e = space := nb_zero_iff S he
    by_cases hz : (m.oprev e).1 = 0
    · have e1 : m.turnRight pos p (pos (m.org e)) (n + 1) r e = none := by
        unfold TMesh.turnRight; rw [if_pos hz]
      refine ⟨fun _ _ _ h => by rw [e1] at h; exact absurd h (by simp), fun _ _ => ?_⟩
      refine ⟨e, he, hnz.1 hz, ?_⟩
      show 0 < ccw (pos (m.dest e)) (pos (m.org e)) p
      have : ccw (pos (m.dest e)) (pos (m.org e)) p = ccw (pos (m.org e)) p (pos (m.dest e)) := by unfold ccw; ring
      linarith
    have hs : m.nb e ≠ space := fun h => hz (hnz.2 h)
    obtain ⟨hl, ho, hd⟩ := oprev_ends S he hs
    have el : orient (pos (m.org e)) p (pos (m.dest (m.oprev e))) =
        ccw (pos (m.org e)) p (pos (m.dest (m.oprev e))) := by rw [orient_eq]
    by_cases hg : orient (pos (m.org e)) p (pos (m.dest (m.oprev e))) > 0
    · have e1 : m.turnRight pos p (pos (m.org e)) (n + 1) r e =
          m.turnRight pos p (pos (m.org (m.oprev e))) n (orient (pos (m.org e)) p (pos (m.dest (m.oprev e)))) (m.oprev e) := by
        conv_lhs => unfold TMesh.turnRight
        rw [if_neg hz, if_pos hg, ho]
      have ha' : 0 < ccw (pos (m.org (m.oprev e))) p (pos (m.dest (m.oprev e))) := by rw [ho, ← el]; exact hg
      obtain ⟨i1, i2⟩ := ih (orient (pos (m.org e)) p (pos (m.dest (m.oprev e)))) (m.oprev e) hl ha'
      rw [e1]
      refine ⟨fun l' r' e' h _ => ?_, fun hn h => i2 ?_ h⟩
      · have := i1 l' r' e' h hg
        rw [ho] at this
        exact this
      · refine lt_of_lt_of_le (Finset.card_lt_card ?_) (Nat.lt_succ_iff.1 hn)
        have hc := C (m.oprev e) hl
        rw [ho, hd] at hc
        have hc : 0 < ccw (pos (m.org e)) (pos (m.dest (m.oprev e))) (pos (m.dest e)) := hc
        rw [Finset.ssubset_iff_of_subset]
        · refine ⟨(m.oprev e).1, ?_, ?_⟩
          · simp only [Finset.mem_filter]
            exact ⟨(hT _).1 hl, (m.oprev e).2, ho, by rw [ho] at ha'; exact ha', hc⟩
          · simp only [Finset.mem_filter, not_and, not_exists]
            intro _ o h1 _ h2
            have : (m.oprev e) = ((m.oprev e).1, o) := one_origin S hl rfl h1.symm
            rw [← this] at h2
            have h0 : ccw (pos (m.org (m.oprev e))) (pos (m.dest (m.oprev e))) (pos (m.dest (m.oprev e))) = 0 := by
              unfold ccw; ring
            rw [h0] at h2
            exact lt_irrefl _ h2
        · intro t ht
          simp only [Finset.mem_filter] at ht ⊢
          obtain ⟨h0, o, h1, h2, h3⟩ := ht
          rw [ho] at h1 h2 h3
          refine ⟨h0, o, h1, h2, ?_⟩
          rw [ho] at ha'
          have sw : ∀ x y : Vec K, ccw y x (pos (m.org e)) = - ccw (pos (m.org e)) x y := fun x y => by unfold ccw; ring
          have flipped : ∀ x : Vec K, ccw (pos (m.org e)) (p.toward (pos (m.org e)) 2) x =
              - ccw (pos (m.org e)) p x := by
            intro x; unfold ccw Vec.toward; ring
          exact turn_trans (p := p.toward (pos (m.org e)) 2) (by rw [flipped]; linarith) (by rw [flipped]; linarith)
            (by rw [flipped]; linarith) h3 hc
    · have e1 : m.turnRight pos p (pos (m.org e)) (n + 1) r e =
          some (r, orient (pos (m.org e)) p (pos (m.dest (m.oprev e))), m.oprev e) := by
        conv_lhs => unfold TMesh.turnRight
        rw [if_neg hz, if_neg hg]
      rw [e1]
      refine ⟨fun l' r' e' h hl0 => ?_, fun _ h => absurd h (by simp)⟩
      simp only [Option.some.injEq, Prod.mk.injEq] at h
      obtain ⟨rfl, rfl, rfl⟩ := h
      exact ⟨hl, ho, el, not_lt.1 hg, hl0, by rw [hd]; exact ha⟩

/-- What the loops leave behind leads to the point. -/
theorem leads_of {e : TEdge} {l r : K} (he : live e.1) (hp : p ≠ pos (m.org e))
    (h1 : 0 ≤ ccw (pos (m.org e)) p (pos (m.apex e))) (h2 : ccw (pos (m.org e)) p (pos (m.dest e)) ≤ 0)
    (hl : l = 0 ↔ ccw (pos (m.org e)) p (pos (m.apex e)) = 0)
    (hr : r = 0 ↔ ccw (pos (m.org e)) p (pos (m.dest e)) = 0) :
    m.Leads pos p (if l = 0 then (.leftCollinear, e) else if r = 0 then (.rightCollinear, e) else (.within, e) : Direction × TEdge).1
      e := by
  have hc : 0 < ccw (pos (m.org e)) (pos (m.dest e)) (pos (m.apex e)) := C e he
  by_cases hl0 : l = 0
  · rw [if_pos hl0]
    exact lead_left hp hc (hl.1 hl0) h2
  rw [if_neg hl0]
  have ha : 0 < ccw (pos (m.org e)) p (pos (m.apex e)) := lt_of_le_of_ne h1 fun h => hl0 (hl.2 h.symm)
  by_cases hr0 : r = 0
  · rw [if_pos hr0]
    exact lead_right hc (hr.1 hr0) ha
  rw [if_neg hr0]
  exact lead_within hc (lt_of_le_of_ne h2 fun h => hr0 (hr.2 h)) ha

theorem finddirection_leads {T : Finset Nat} (hT : ∀ t, live t ↔ t ∈ T) {n : Nat} {e : TEdge} (he : live e.1)
    (hp : p ≠ pos (m.org e)) :
    (∀ d e', m.finddirection pos p n e = some (d, e') → live e'.1 ∧ m.org e' = m.org e ∧ m.Leads pos p d e') ∧
    (T.card < n → ¬ m.Beyond live pos p → ∃ d e', m.finddirection pos p n e = some (d, e')) := by
  have L := turnLeft_spec (p := p) S C hT n (orient p (pos (m.org e)) (pos (m.apex e))) e he
  have R := turnRight_spec (p := p) S C hT n (orient (pos (m.org e)) p (pos (m.dest e))) e he
  have el : orient p (pos (m.org e)) (pos (m.apex e)) = - ccw (pos (m.org e)) p (pos (m.apex e)) := by
    rw [orient_eq]; unfold ccw; ring
  have er : orient (pos (m.org e)) p (pos (m.dest e)) = ccw (pos (m.org e)) p (pos (m.dest e)) := orient_eq _ _ _
  have go : ∀ (a : K × K × TEdge), ((∃ l r e', a = (l, r, e') ∧ live e'.1 ∧ m.org e' = m.org e ∧
      0 ≤ ccw (pos (m.org e)) p (pos (m.apex e')) ∧ ccw (pos (m.org e)) p (pos (m.dest e')) ≤ 0 ∧
      (l = 0 ↔ ccw (pos (m.org e)) p (pos (m.apex e')) = 0) ∧ (r = 0 ↔ ccw (pos (m.org e)) p (pos (m.dest e')) = 0))) →
      ∀ d e', (if a.1 = 0 then (.leftCollinear, a.2.2) else if a.2.1 = 0 then (.rightCollinear, a.2.2)
        else (.within, a.2.2) : Direction × TEdge) = (d, e') → live e'.1 ∧ m.org e' = m.org e ∧ m.Leads pos p d e' := by
    rintro a ⟨l, r, e1, rfl, h1, h2, h3, h4, h5, h6⟩ d e' h
    have h7 := leads_of (l := l) (r := r) S C h1 (by rw [h2]; exact hp) (by rw [h2]; exact h3) (by rw [h2]; exact h4)
      (by rw [h2]; exact h5) (by rw [h2]; exact h6)
    have h8 : e1 = e' := by
      have := congrArg Prod.snd h
      simp only at this
      split_ifs at this <;> exact this
    subst h8
    refine ⟨h1, h2, ?_⟩
    simp only at h
    rw [h] at h7
    exact h7
  have fromL : 0 < orient p (pos (m.org e)) (pos (m.apex e)) → ∀ a,
      m.turnLeft pos p (pos (m.org e)) n (orient p (pos (m.org e)) (pos (m.apex e))) e = some a →
      (∃ l r e', a = (l, r, e') ∧ live e'.1 ∧ m.org e' = m.org e ∧
      0 ≤ ccw (pos (m.org e)) p (pos (m.apex e')) ∧ ccw (pos (m.org e)) p (pos (m.dest e')) ≤ 0 ∧
      (l = 0 ↔ ccw (pos (m.org e)) p (pos (m.apex e')) = 0) ∧ (r = 0 ↔ ccw (pos (m.org e)) p (pos (m.dest e')) = 0)) := by
    rintro hg ⟨l', r', e'⟩ h
    obtain ⟨h1, h2, h3, h4, h5, h6⟩ := (L (by linarith)).1 l' r' e' h hg
    exact ⟨l', r', e', rfl, h1, h2, by linarith, h6.le, by rw [h3, neg_eq_zero],
      ⟨fun h => absurd h h5.ne', fun h => absurd h h6.ne⟩⟩
  have fromR : 0 < orient (pos (m.org e)) p (pos (m.dest e)) → ∀ a,
      m.turnRight pos p (pos (m.org e)) n (orient (pos (m.org e)) p (pos (m.dest e))) e = some a →
      (∃ l r e', a = (l, r, e') ∧ live e'.1 ∧ m.org e' = m.org e ∧
      0 ≤ ccw (pos (m.org e)) p (pos (m.apex e')) ∧ ccw (pos (m.org e)) p (pos (m.dest e')) ≤ 0 ∧
      (l = 0 ↔ ccw (pos (m.org e)) p (pos (m.apex e')) = 0) ∧ (r = 0 ↔ ccw (pos (m.org e)) p (pos (m.dest e')) = 0)) := by
    rintro hg ⟨l', r', e'⟩ h
    obtain ⟨h1, h2, h3, h4, h5, h6⟩ := (R (by linarith)).1 l' r' e' h hg
    exact ⟨l', r', e', rfl, h1, h2, h6.le, by linarith, ⟨fun h => absurd h h5.ne', fun h => absurd h h6.ne'⟩, by rw [h3]⟩
  unfold TMesh.finddirection
  simp only []
  by_cases hl : orient p (pos (m.org e)) (pos (m.apex e)) > 0 <;>
    by_cases hr : orient (pos (m.org e)) p (pos (m.dest e)) > 0
  · by_cases hz : (m.onext e).1 = 0
    · simp only [hl, hr, hz, decide_true, Bool.and_true, if_true, ne_eq, not_true_eq_false, decide_false,
        Bool.false_eq_true, if_false, Option.bind_some, Option.map_eq_some_iff]
      refine ⟨fun d e' ⟨a, ha, hb⟩ => go a (fromR hr a ha) d e' hb, fun hn hB => ?_⟩
      cases h : m.turnRight pos p (pos (m.org e)) n (orient (pos (m.org e)) p (pos (m.dest e))) e with
      | none => exact absurd ((R (by linarith)).2 (lt_of_le_of_lt (Finset.card_filter_le _ _) hn) h) hB
      | some a => exact ⟨_, _, a, rfl, rfl⟩
    · simp only [hl, hr, hz, decide_true, Bool.and_true, if_true, ne_eq, not_false_eq_true, decide_false,
        Bool.false_eq_true, if_false, Option.map_some]
      refine ⟨fun d e' h => ?_, fun hn hB => ?_⟩
      · obtain ⟨a, ha, hb⟩ := Option.bind_eq_some_iff.1 h
        exact go a (fromL hl a ha) d e' (Option.some.inj hb)
      cases h : m.turnLeft pos p (pos (m.org e)) n (orient p (pos (m.org e)) (pos (m.apex e))) e with
      | none => exact absurd ((L (by linarith)).2 (lt_of_le_of_lt (Finset.card_filter_le _ _) hn) h) hB
      | some a => exact ⟨_, _, rfl⟩
  · simp only [hl, hr, decide_true, decide_false, Bool.and_false, if_true, Bool.false_eq_true, if_false, Option.map_some]
    refine ⟨fun d e' h => ?_, fun hn hB => ?_⟩
    · obtain ⟨a, ha, hb⟩ := Option.bind_eq_some_iff.1 h
      exact go a (fromL hl a ha) d e' (Option.some.inj hb)
    cases h : m.turnLeft pos p (pos (m.org e)) n (orient p (pos (m.org e)) (pos (m.apex e))) e with
    | none => exact absurd ((L (by linarith)).2 (lt_of_le_of_lt (Finset.card_filter_le _ _) hn) h) hB
    | some a => exact ⟨_, _, rfl⟩
  · simp only [hl, hr, decide_true, decide_false, Bool.false_and, if_true, Bool.false_eq_true, if_false,
      Option.bind_some, Option.map_eq_some_iff]
    refine ⟨fun d e' ⟨a, ha, hb⟩ => go a (fromR hr a ha) d e' hb, fun hn hB => ?_⟩
    cases h : m.turnRight pos p (pos (m.org e)) n (orient (pos (m.org e)) p (pos (m.dest e))) e with
    | none => exact absurd ((R (by linarith)).2 (lt_of_le_of_lt (Finset.card_filter_le _ _) hn) h) hB
    | some a => exact ⟨_, _, a, rfl, rfl⟩
  · simp only [hl, hr, decide_false, Bool.false_and, Bool.false_eq_true, if_false, Option.bind_some, Option.map_some]
    refine ⟨fun d e' h => go (orient p (pos (m.org e)) (pos (m.apex e)), orient (pos (m.org e)) p (pos (m.dest e)), e)
      ⟨_, _, e, rfl, he, rfl, by linarith [not_lt.1 hl], by linarith [not_lt.1 hr], by rw [el, neg_eq_zero], by rw [er]⟩
      d e' (Option.some.inj h), fun _ _ => ⟨_, _, rfl⟩⟩

end

end Nikfemm
