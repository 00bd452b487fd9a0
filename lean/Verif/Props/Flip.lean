import Verif.Lemmas.Flip
import Mathlib.Data.Rat.Defs

/-!
# C105: flipping an edge of the triangulation

`flip` replaces the diagonal of the quadrilateral of two triangles by the other one.  The triangulation stays
consistent, the four outer edges keep their ends, neighbours and subsegments, nothing else changes, and
`unflip` restores what was there before.
-/

namespace Nikfemm
variable {K : Type} {m : TMesh K} {live : Nat → Prop} {e : TEdge}

/-- A flip leaves a consistent triangulation. -/
theorem flip_sound (S : m.Sound live) (he : live e.1) (hs : m.nb e ≠ space) (hseg : m.sg e = noSub)
    (hf : m.apex e ≠ m.apex (m.nb e)) : (m.flip e).Sound live :=
  (flip_moved S he hs hseg hf).sound S

/-- The two triangles afterwards: the ends of the edge and the two other corners change places.  The corners
of all other triangles stay. -/
theorem flip_triangles (S : m.Sound live) (he : live e.1) (hs : m.nb e ≠ space) :
    (m.flip e).corners e = (m.apex (m.nb e), m.apex e, m.org e) ∧
    (m.flip e).corners (m.nb e) = (m.apex e, m.apex (m.nb e), m.dest e) ∧
    ∀ x : TEdge, x.1 ≠ e.1 → x.1 ≠ (m.nb e).1 → (m.flip e).corners x = m.corners x := by
  obtain ⟨⟨c1, c2, c3⟩, ⟨c4, c5, c6⟩, c7⟩ :=
    rot_corners S he hs (m.org e) (m.dest e) (m.apex e) (m.apex (m.nb e))
  refine ⟨?_, ?_, ?_⟩
  · unfold TMesh.corners TMesh.flip
    rw [c1, c2, c3]
  · unfold TMesh.corners TMesh.flip
    rw [c4, c5, c6]
  · intro x h1 h2
    exact Prod.ext (c7 (lnext x) h1 h2) (Prod.ext (c7 (lprev x) h1 h2) (c7 x h1 h2))

/-- The four outer edges of the quadrilateral are the same edges as before, at other places. -/
theorem flip_casing (S : m.Sound live) (he : live e.1) (hs : m.nb e ≠ space) (hseg : m.sg e = noSub)
    (hf : m.apex e ≠ m.apex (m.nb e)) :
    m.SameEdge (m.flip e) (lnext e) (lprev (m.nb e)) ∧ m.SameEdge (m.flip e) (lprev e) (lnext e) ∧
    m.SameEdge (m.flip e) (lnext (m.nb e)) (lprev e) ∧
    m.SameEdge (m.flip e) (lprev (m.nb e)) (lnext (m.nb e)) := by
  have hl := S.nb_live he hs
  have M := flip_moved S he hs hseg hf
  obtain ⟨v1, v2, v3, v4⟩ := rotMap_vals S he hs
  obtain ⟨q0, q1, q2, q3, q4, q5, q6, q7, q8, q9⟩ := S.quad he hs
  have key : ∀ x : TEdge, live x.1 → x ≠ e → x ≠ m.nb e →
      (x = lnext e ∨ x = lprev e ∨ x = lnext (m.nb e) ∨ x = lprev (m.nb e)) →
      m.SameEdge (m.flip e) x (rotMap m e x) := by
    intro x hx h1 h2 hq
    have hk : live x.1 ∧ x ≠ e ∧ x ≠ m.nb e := ⟨hx, h1, h2⟩
    obtain ⟨k1, k2⟩ := S.casing he hs hf hq
    refine ⟨M.org x hk, M.dest x hk, ?_, M.sg x hk⟩
    rw [M.nb x hk]
    split
    · next h => exact h.symm
    · exact rotMap_same (ne_of_tri k1) (ne_of_tri k1) (ne_of_tri k2) (ne_of_tri k2)
  refine ⟨?_, ?_, ?_, ?_⟩
  · have := key (lnext e) he (lnext_ne e) q3 (by simp); rwa [v1] at this
  · have := key (lprev e) he (lprev_ne e) q6 (by simp); rwa [v2] at this
  · have := key (lnext (m.nb e)) hl q7.symm (lnext_ne _) (by simp); rwa [v3] at this
  · have := key (lprev (m.nb e)) hl q8.symm (lprev_ne _) (by simp); rwa [v4] at this

/-- The edges of the other triangles are the same as before; only the outer neighbours of the quadrilateral
have a new neighbour, at the place where the outer edge now is.  Attributes and the ends of subsegments do
not change. -/
theorem flip_outside (S : m.Sound live) (he : live e.1) (hs : m.nb e ≠ space) (hseg : m.sg e = noSub)
    (hf : m.apex e ≠ m.apex (m.nb e)) :
    (∀ x : TEdge, live x.1 → x.1 ≠ e.1 → x.1 ≠ (m.nb e).1 →
      (m.flip e).sg x = m.sg x ∧
      ((m.nb x).1 ≠ e.1 → (m.nb x).1 ≠ (m.nb e).1 → (m.flip e).nb x = m.nb x) ∧
      (m.nb x = lnext e → (m.flip e).nb x = lprev (m.nb e)) ∧
      (m.nb x = lprev e → (m.flip e).nb x = lnext e) ∧
      (m.nb x = lnext (m.nb e) → (m.flip e).nb x = lprev e) ∧
      (m.nb x = lprev (m.nb e) → (m.flip e).nb x = lnext (m.nb e))) ∧
    (m.flip e).nb e = m.nb e ∧ (m.flip e).nb (m.nb e) = e ∧
    (m.flip e).attr = m.attr ∧ (m.flip e).sorg = m.sorg := by
  have hl := S.nb_live he hs
  have M := flip_moved S he hs hseg hf
  obtain ⟨v1, v2, v3, v4⟩ := rotMap_vals S he hs
  obtain ⟨d1, d2⟩ := rot_diag S he hs hf
  have hnb : (m.flip e).nb = bonds m.nb (rotBonds m e) := rotate_nb ..
  obtain ⟨r1, r2, -⟩ := rotate_rest m e (m.org e) (m.dest e) (m.apex e) (m.apex (m.nb e))
  refine ⟨?_, by rw [hnb, d1], by rw [hnb, d2], r2, r1⟩
  intro x hx t1 t2
  have hk : live x.1 ∧ x ≠ e ∧ x ≠ m.nb e := ⟨hx, ne_of_tri t1, ne_of_tri t2⟩
  have hfx : rotMap m e x = x := rotMap_same (ne_of_tri t1) (ne_of_tri t1) (ne_of_tri t2) (ne_of_tri t2)
  have hsg := M.sg x hk
  have hn := M.nb x hk
  rw [hfx] at hsg hn
  have mv : ∀ y : TEdge, live y.1 → m.nb x = y → (m.flip e).nb x = rotMap m e y := by
    rintro y hy rfl
    rw [hn, if_neg (S.ne_space hy)]
  refine ⟨hsg, ?_, fun h => (mv (lnext e) he h).trans v1, fun h => (mv (lprev e) he h).trans v2,
    fun h => (mv (lnext (m.nb e)) hl h).trans v3, fun h => (mv (lprev (m.nb e)) hl h).trans v4⟩
  intro k1 k2
  rw [hn]
  split
  · next h => exact h.symm
  · exact rotMap_same (ne_of_tri k1) (ne_of_tri k1) (ne_of_tri k2) (ne_of_tri k2)

/-- A flip does not mix regions: triangles that share an edge without a subsegment still have the same
attribute. -/
theorem flip_regional (S : m.Sound live) (he : live e.1) (hs : m.nb e ≠ space) (hseg : m.sg e = noSub)
    (hf : m.apex e ≠ m.apex (m.nb e)) (R : m.Regional live) : (m.flip e).Regional live := by
  have hl := S.nb_live he hs
  have M := flip_moved S he hs hseg hf
  obtain ⟨-, d1, d2, r2, -⟩ := flip_outside S he hs hseg hf
  have same : m.attr (m.nb e).1 = m.attr e.1 := R e he hseg hs
  have at' : ∀ x : TEdge, m.attr (rotMap m e x).1 = m.attr x.1 := by
    intro x
    unfold rotMap
    split
    · next h => subst h; exact same
    · split
      · next h => subst h; rfl
      · split
        · next h => subst h; exact same.symm
        · split
          · next h => subst h; rfl
          · rfl
  intro x hx hxs hxn
  rw [r2]
  by_cases h1 : x = e
  · subst h1; rw [d1]; exact same
  by_cases h2 : x = m.nb e
  · subst h2; rw [d2]; exact same.symm
  obtain ⟨y, hy, rfl⟩ := rotMap_surj S he hs hx h1 h2
  rw [M.nb y hy] at hxn ⊢
  rw [M.sg y hy] at hxs
  split
  · next h => rw [if_pos h] at hxn; exact absurd rfl hxn
  · next h => rw [at', at']; exact R y hy.1 hxs h

/-- `unflip` undoes `flip`: everything is where it was.  Only outer space may know another outer edge. -/
theorem unflip_flip (S : m.Sound live) (he : live e.1) (hs : m.nb e ≠ space) (hseg : m.sg e = noSub)
    (hf : m.apex e ≠ m.apex (m.nb e)) :
    ∃ h : TEdge, (m.flip e).unflip e = { m with nb := Function.update m.nb space h } ∧
      (live h.1 ∧ m.nb h = space ∨ h = m.nb space) := by
  obtain ⟨⟨h, hn, hh⟩, h1, h2, h3⟩ := unflip_flip_aux S he hs hseg hf
  obtain ⟨r1, r2, r3⟩ := rotate_rest m e (m.org e) (m.dest e) (m.apex e) (m.apex (m.nb e))
  obtain ⟨u1, u2, u3⟩ := unflip_rest (m.flip e) e
  refine ⟨h, ?_, hh⟩
  cases hm : (m.flip e).unflip e with
  | mk nb apex sg st sorg attr chk =>
    rw [hm] at hn h1 h2 h3 u1 u2 u3
    simp only at hn h1 h2 h3 u1 u2 u3
    subst hn h1 h2 h3 u1 u2 u3
    have r1' : (m.flip e).sorg = m.sorg := r1
    have r2' : (m.flip e).attr = m.attr := r2
    have r3' : (m.flip e).checksegments = m.checksegments := r3
    rw [r1', r2', r3']

/-- The triangulation after undoing a flip is consistent. -/
theorem unflip_flip_sound (S : m.Sound live) (he : live e.1) (hs : m.nb e ≠ space) (hseg : m.sg e = noSub)
    (hf : m.apex e ≠ m.apex (m.nb e)) : ((m.flip e).unflip e).Sound live := by
  obtain ⟨h, hn, hh⟩ := unflip_flip S he hs hseg hf
  rw [hn]
  have hne : ∀ x : TEdge, live x.1 → Function.update m.nb space h x = m.nb x :=
    fun x hx => Function.update_of_ne (S.ne_space hx) _ _
  refine ⟨S.out, ?_, S.corners, ?_, ?_, S.chk⟩
  · intro x hx
    simp only [hne x hx]
    rcases S.mate x hx with h' | ⟨k1, k2, k3, k4⟩
    · exact .inl h'
    · exact .inr ⟨k1, (hne _ k1).trans k2, k3, k4⟩
  · rintro ⟨x, hx, hxs⟩
    simp only [hne x hx] at hxs
    show live (Function.update m.nb space h space).1 ∧
      Function.update m.nb space h (Function.update m.nb space h space) = space
    rw [Function.update_self]
    rcases hh with ⟨k1, k2⟩ | rfl
    · exact ⟨k1, (hne _ k1).trans k2⟩
    · obtain ⟨k1, k2⟩ := S.hull ⟨x, hx, hxs⟩
      exact ⟨k1, (hne _ k1).trans k2⟩
  · intro x hx
    simp only [hne x hx]
    exact S.seg x hx

/-! ## A square of two triangles with subsegments around -/

/-- The corners of the square are 1 to 4; the triangles are `3 1 2` and `1 3 4`. -/
def squareTri : TMesh ℚ where
  nb := fun e => match e with
    | (0, 0) => (1, 1) | (1, 0) => (2, 0) | (2, 0) => (1, 0) | _ => space
  apex := fun e => match e with
    | (1, 0) => 2 | (1, 1) => 3 | (1, 2) => 1 | (2, 0) => 4 | (2, 1) => 1 | (2, 2) => 3 | _ => 0
  sg := fun e => match e with
    | (1, 1) => (1, 0) | (1, 2) => (2, 0) | (2, 1) => (3, 0) | (2, 2) => (4, 0) | _ => noSub
  st := fun s => match s with
    | (1, 0) => (1, 1) | (2, 0) => (1, 2) | (3, 0) => (2, 1) | (4, 0) => (2, 2) | _ => space
  sorg := fun s => match s with
    | (1, 0) => 2 | (1, 1) => 1 | (2, 0) => 3 | (2, 1) => 2 | (3, 0) => 4 | (3, 1) => 3
    | (4, 0) => 1 | (4, 1) => 4 | _ => 0
  attr := fun _ => 5
  checksegments := true

theorem squareTri_sound : squareTri.Sound fun t => t = 1 ∨ t = 2 where
  out := by decide
  mate := by
    rintro ⟨t, o⟩ (h | h) <;> simp only at h <;> subst h <;> fin_cases o <;> decide
  corners := by
    rintro ⟨t, o⟩ (h | h) <;> simp only at h <;> subst h <;> fin_cases o <;> decide
  hull := fun _ => by decide
  seg := by
    rintro ⟨t, o⟩ (h | h) <;> simp only at h <;> subst h <;> fin_cases o <;> decide
  chk := by intro h; exact absurd h (by decide)

example : ∃ (m : TMesh ℚ) (live : Nat → Prop) (e : TEdge), m.Sound live ∧ live e.1 ∧ m.nb e ≠ space ∧
    m.sg e = noSub ∧ m.apex e ≠ m.apex (m.nb e) ∧ m.Regional live ∧ m.checksegments = true ∧
    m.corners e = (3, 1, 2) ∧ (m.flip e).corners e = (4, 2, 3) ∧
    m.sg (1, 1) = (1, 0) ∧ (m.flip e).sg (2, 2) = (1, 0) ∧ (m.flip e).st (1, 0) = (2, 2) :=
  ⟨squareTri, fun t => t = 1 ∨ t = 2, (1, 0), squareTri_sound, .inl rfl, by decide, by decide, by decide,
    fun _ _ _ _ => rfl, rfl, by decide, by decide, by decide, by decide, by decide⟩

end Nikfemm
