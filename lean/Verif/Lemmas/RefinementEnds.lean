import Verif.Lemmas.RefinementBad
import Mathlib.Algebra.Order.Archimedean.Basic
import Mathlib.Data.Finset.Max

/-!
# The refinement: every step ends
-/

set_option linter.unusedSectionVars false

namespace Nikfemm
variable {K : Type} [Field K] [LinearOrder K] [IsStrictOrderedRing K]

/-- Numbers that are not used. -/
theorem fresh_exists (s : Refining K) (look : TMesh K → TEdge → Look K) (turn : TSub → Bool) (n : Nat) :
    ∃ c : Picks K, s.Fresh c ∧ c.n = n := by
  classical
  obtain ⟨v, hv⟩ := Infinite.exists_notMem_finset ((s.tris ×ˢ (Finset.univ : Finset (Fin 3))).image s.m.apex)
  obtain ⟨ss, hss⟩ := Infinite.exists_notMem_finset (insert 0 ((s.tris ×ˢ (Finset.univ : Finset (Fin 3))).image fun e => (s.m.sg e).1))
  obtain ⟨n1, h1⟩ := Infinite.exists_notMem_finset (insert 0 s.tris)
  obtain ⟨n2, h2⟩ := Infinite.exists_notMem_finset (insert n1 (insert 0 s.tris))
  simp only [Finset.mem_insert, not_or] at h1 h2 hss
  refine ⟨⟨v, n1, n2, ss, n, look, turn⟩, ⟨fun t ht o => ⟨fun hc => hv ?_, fun hc => hss.2 ?_⟩, h1.2, h2.2.2, h1.1, h2.2.1,
    fun h => h2.1 h.symm, hss.1⟩, rfl⟩
  · exact Finset.mem_image.2 ⟨(t, o), Finset.mem_product.2 ⟨ht, Finset.mem_univ _⟩, hc⟩
  · exact Finset.mem_image.2 ⟨(t, o), Finset.mem_product.2 ⟨ht, Finset.mem_univ _⟩, hc⟩

section remove
variable {b : Quality.Behavior K} {c : Picks K} {s : Refining K} (O : s.Ok) {e : TEdge} (he : e.1 ∈ s.tris)
  (hk : s.kind (s.m.org e) = .free) {n : Nat} {r : Deleted K} (h : s.m.deletevertex s.pos n e = some r)
include O he hk h

theorem remove_fresh (hF : s.Fresh c) : (s.remove b c r).Fresh c := by
  have sub : ∀ t, t ∈ (s.remove b c r).tris → t ∈ s.tris := fun t ht => Finset.mem_of_mem_erase (Finset.mem_of_mem_erase ht)
  refine ⟨fun t ht o => ⟨?_, ?_⟩, fun hc => hF.2.1 (sub _ hc), fun hc => hF.2.2.1 (sub _ hc), hF.2.2.2⟩
  · have := (deletevertex_vertices (fun _ => Iff.rfl) O.good O.apart (O.free _ hk) he rfl (le_max_right n s.tris.card)
      (deletevertex_mono (le_max_left _ _) h) (r.m.apex (t, o))).1
    rw [shrunk_eq] at this
    intro hc
    have := (this ⟨(t, o), ht, rfl⟩).1
    exact fresh_corner hF (hc ▸ this)
  · by_cases h0 : (s.remove b c r).m.sg (t, o) = noSub
    · rw [h0]; exact hF.2.2.2.2.2.2.symm
    · obtain ⟨y, hy, -, -, y3, -⟩ := (remove_edges (b := b) (c := c) O he hk h _ _ _
        (decide ((s.remove b c r).m.nb (t, o) = space)) (.inl h0)).1 ⟨(t, o), ht, rfl, rfl, rfl, by simp⟩
      rw [← y3]
      exact (hF.1 y.1 hy y.2).2

theorem remove_card : (s.remove b c r).tris.card < s.tris.card := by
  obtain ⟨d1, d2⟩ := deletevertex_dead (fun _ => Iff.rfl) O.good O.apart (O.free _ hk) he rfl (le_max_right n s.tris.card)
    (deletevertex_mono (le_max_left _ _) h)
  exact lt_of_le_of_lt (Finset.card_le_card (Finset.erase_subset _ _)) (Finset.card_erase_lt_of_mem (d2 _ (.inl rfl)).1)

end remove

theorem clear_ends {b : Quality.Behavior K} {c : Picks K} {eorg edest : Nat} {side : TMesh K → TEdge}
    (P : Refining K → Prop)
    (hP : ∀ (s : Refining K), P s → s.kind (s.m.apex (side s.m)) = .free →
      ∃ r, s.m.deletevertex s.pos c.n (lprev (side s.m)) = some r ∧ P (s.remove b c r) ∧
        (s.remove b c r).tris.card < s.tris.card) :
    ∀ {n : Nat} {s : Refining K}, P s → s.tris.card < n → ∃ s', s.clear b c eorg edest side n = some s' ∧ P s'
  | 0, _, _, h => absurd h (by omega)
  | n + 1, s, hs, hn => by
    unfold Refining.clear
    simp only
    split
    · next hc =>
      obtain ⟨r, r1, r2, r3⟩ := hP s hs hc.1
      rw [r1]
      exact clear_ends P hP r2 (by omega)
    · exact ⟨s, rfl, hs⟩


theorem splitVertex_ends [Archimedean K] {sqrt : K → K} {o d : Quality.Vtx K}
    (hl : 0 < sqrt ((d.x - o.x) * (d.x - o.x) + (d.y - o.y) * (d.y - o.y))) :
    ∃ n0, ∀ n, n0 ≤ n → ∀ ao ad, ∃ v, Quality.splitVertex sqrt n ao ad o d = .ok v := by
  set len := sqrt ((d.x - o.x) * (d.x - o.x) + (d.y - o.y) * (d.y - o.y)) with hlen
  obtain ⟨N1, h1⟩ := pow_unbounded_of_one_lt len (one_lt_two (α := K))
  obtain ⟨N2, h2⟩ := pow_unbounded_of_one_lt len⁻¹ (one_lt_two (α := K))
  have up : len ≤ 2 ^ (max N1 N2) := h1.le.trans (pow_le_pow_right₀ one_le_two (le_max_left _ _))
  have lo : (2 : K) ^ (-((max N1 N2 : ℕ) : ℤ)) ≤ len := by
    rw [zpow_neg, zpow_natCast]
    refine inv_le_of_inv_le₀ hl ?_
    exact h2.le.trans (pow_le_pow_right₀ one_le_two (le_max_right _ _))
  refine ⟨2 * max N1 N2 + 3, fun n hn ao ad => ?_⟩
  unfold Quality.splitVertex
  rw [← hlen]
  by_cases h : ao = true ∨ ad = true
  · obtain ⟨k, hk, -⟩ := Quality.splitRatio_ok up lo hn h
    rw [hk]
    exact ⟨_, rfl⟩
  · have : Quality.splitRatio n ao ad len = .ok (1 / 2) := by unfold Quality.splitRatio; rw [if_neg h]
    rw [this]
    exact ⟨_, rfl⟩

theorem splitVertex_ne {o d : Quality.Vtx K} {t x y : K} (t0 : 0 < t) (t1 : t < 1)
    (hl : 0 < (d.x - o.x) * (d.x - o.x) + (d.y - o.y) * (d.y - o.y)) (hx : x = o.x + t * (d.x - o.x))
    (hy : y = o.y + t * (d.y - o.y)) : (⟨x, y⟩ : Vec K) ≠ ⟨o.x, o.y⟩ ∧ (⟨x, y⟩ : Vec K) ≠ ⟨d.x, d.y⟩ := by
  have key : ¬ (d.x - o.x = 0 ∧ d.y - o.y = 0) := by
    rintro ⟨h1, h2⟩
    rw [h1, h2] at hl
    simp at hl
  constructor
  · intro hc
    rw [Vec.mk.injEq] at hc
    have h1 : t * (d.x - o.x) = 0 := by linarith [hc.1]
    have h2 : t * (d.y - o.y) = 0 := by linarith [hc.2]
    exact key ⟨(mul_eq_zero.1 h1).resolve_left t0.ne', (mul_eq_zero.1 h2).resolve_left t0.ne'⟩
  · intro hc
    rw [Vec.mk.injEq] at hc
    have t1' : 1 - t ≠ 0 := by linarith
    have h1 : (1 - t) * (d.x - o.x) = 0 := by linarith [hc.1]
    have h2 : (1 - t) * (d.y - o.y) = 0 := by linarith [hc.2]
    exact key ⟨(mul_eq_zero.1 h1).resolve_left t1', (mul_eq_zero.1 h2).resolve_left t1'⟩

section
variable {b : Quality.Behavior K} {q : BadSub} {s : Refining K}

theorem splitSub_ends [Archimedean K] {sqrt : K → K} (hsq : ∀ x, 0 < x → 0 < sqrt x) (triflaws : Bool) (O : s.Ok)
    (Kn : ({ s with segs := q :: s.segs } : Refining K).Known)
    (Wt : ({ s with segs := q :: s.segs } : Refining K).Waiting b) :
    ∃ n0, ∀ c : Picks K, s.Fresh c → n0 ≤ c.n → ∃ s', s.splitSub b sqrt triflaws c q = some s' := by
  by_cases hc : s.m.sorg q.sub = q.org ∧ s.m.sorg (ssym q.sub) = q.dest
  swap
  · exact ⟨0, fun c _ _ => ⟨s, by unfold Refining.splitSub; rw [if_neg hc]⟩⟩
  have B : Refining.Busy b q s s := ⟨O, Refining.After.refl s, Kn, Wt, id, hc.1, hc.2, rfl⟩
  obtain ⟨n0, hn0⟩ := splitVertex_ends (sqrt := sqrt) (hsq _ B.length_pos)
  refine ⟨max n0 (2 * s.tris.card + 1), fun c hF hn => ?_⟩
  have hn1 : n0 ≤ c.n := (le_max_left _ _).trans hn
  have hn2 : 2 * s.tris.card + 1 ≤ c.n := (le_max_right _ _).trans hn
  set P : Refining K → Prop := fun s' => Refining.Busy b q s s' ∧ s'.Fresh c ∧ s'.tris.card ≤ s.tris.card ∧ s'.pos = s.pos with hPdef
  have hP0 : P s := ⟨B, hF, le_rfl, rfl⟩
  have step : ∀ (s' : Refining K) (e : TEdge), P s' → e.1 ∈ s'.tris → s'.kind (s'.m.apex e) = .free →
      ∃ r, s'.m.deletevertex s'.pos c.n (lprev e) = some r ∧ P (s'.remove b c r) ∧
        (s'.remove b c r).tris.card < s'.tris.card := by
    rintro s' e ⟨B', hF', hcard, hpos⟩ he hk
    have hk' : s'.kind (s'.m.org (lprev e)) = .free := by rw [org_lprev]; exact hk
    obtain ⟨r, hr⟩ := deletevertex_ends (d := lprev e) (fun _ => Iff.rfl) B'.ok.good B'.ok.apart (B'.ok.free _ hk') he rfl
      (show s'.tris.card ≤ c.n by omega)
    have hlt := remove_card (b := b) (c := c) B'.ok (e := lprev e) he hk' hr
    exact ⟨r, hr, ⟨B'.remove (e := lprev e) he hk' hr, remove_fresh B'.ok (e := lprev e) he hk' hr hF', by omega, hpos⟩, hlt⟩
  unfold Refining.splitSub
  rw [if_pos hc]
  simp only
  have c1 : ∃ s1, (if b.conformdel = false ∧ decide ((s.m.sg (lnext (s.m.st q.sub))).1 ≠ 0) = false ∧
      decide ((s.m.sg (lprev (s.m.st q.sub))).1 ≠ 0) = false then s.clear b c q.org q.dest (fun m => m.st q.sub) c.n
      else some s) = some s1 ∧ P s1 := by
    split
    · exact clear_ends P (fun s' hs' hk => step s' _ hs' hs'.1.side.1 hk) hP0 (by omega)
    · exact ⟨s, rfl, hP0⟩
  obtain ⟨s1, e1, P1⟩ := c1
  rw [e1, Option.bind_some]
  obtain ⟨k1, k2, k3⟩ := P1.1.side
  set e := s1.m.st q.sub with he
  have c2 : ∀ A : Prop, [Decidable A] → ∃ s2, (if (s1.m.nb e).1 ≠ 0 ∧ A then s1.clear b c q.org q.dest (fun m => m.nb e) c.n
      else some s1) = some s2 ∧ P s2 ∧ e.1 ∈ s2.tris ∧ s2.m.sg e = q.sub := by
    intro A _
    split
    · next hc' =>
      have hs : s1.m.nb e ≠ space := fun h => hc'.1 (by rw [h]; rfl)
      obtain ⟨s2, e2, P2⟩ := clear_ends (b := b) (c := c) (eorg := q.org) (edest := q.dest) (side := fun m => m.nb e) (n := c.n)
        (fun s' => P s' ∧ e.1 ∈ s'.tris ∧ s'.m.sg e = q.sub ∧ s'.m.nb e ≠ space)
        (fun s' hs' hk => by
          obtain ⟨r, r1, r2, r3⟩ := step s' _ hs'.1 ((hs'.1.1.ok.good.sound.mate e hs'.2.1).resolve_left hs'.2.2.2).1 hk
          exact ⟨r, r1, ⟨r2, (hs'.1.1.stays hs'.2.1 hs'.2.2.1 hs'.2.2.2 hk r1).2⟩, r3⟩) ⟨P1, k1, k2, hs⟩ (by have := P1.2.2.1; omega)
      exact ⟨s2, e2, P2.1, P2.2.1, P2.2.2.1⟩
    · exact ⟨s1, rfl, P1, k1, k2⟩
  obtain ⟨s2, e2, P2, m1, m2⟩ := c2 (b.conformdel = false ∧
    (decide ((s1.m.nb e).1 ≠ 0) && decide ((s1.m.sg (lprev (s1.m.nb e))).1 ≠ 0)) = false ∧
    (decide ((s1.m.nb e).1 ≠ 0) && decide ((s1.m.sg (lnext (s1.m.nb e))).1 ≠ 0)) = false)
  rw [e2, Option.bind_some]
  obtain ⟨B2, F2, card2, pos2⟩ := P2
  obtain ⟨v, hv⟩ := hn0 c.n hn1 (decide ((s.m.sg (lnext (s.m.st q.sub))).1 ≠ 0) || (decide ((s1.m.nb e).1 ≠ 0) && decide ((s1.m.sg (lprev (s1.m.nb e))).1 ≠ 0))) (decide ((s.m.sg (lprev (s.m.st q.sub))).1 ≠ 0) || (decide ((s1.m.nb e).1 ≠ 0) && decide ((s1.m.sg (lnext (s1.m.nb e))).1 ≠ 0)))
  rw [← pos2] at hv
  rw [hv]
  simp only
  obtain ⟨t, t0, t1, tx, ty⟩ := Quality.splitVertex_between (hsq _ B2.length_pos) hv
  obtain ⟨-, s1', s2', -⟩ := sub_ends B2.ok.good.sound m1 (by rw [m2]; exact k3)
  rw [m2, B2.org] at s1'
  rw [m2, B2.dest] at s2'
  obtain ⟨ne1, ne2⟩ := splitVertex_ne t0 t1 B2.length_pos tx ty
  have hp := on_place (p := ⟨v.x, v.y⟩) F2 m1 (by rw [m2]; exact k3) (r := 1 - t) (by linarith) (by linarith)
    (by rw [← s1', ← s2']; simp only [vtxAt] at tx; simp only; rw [tx]; ring)
    (by rw [← s1', ← s2']; simp only [vtxAt] at ty; simp only; rw [ty]; ring)
  have G := B2.ok.good.congr (fresh_pos F2 ⟨v.x, v.y⟩)
  obtain ⟨m', e', entry, l, hI⟩ := insertNoting_ends (fun _ => Iff.rfl) G.sound G.ccw G.delaunay (fresh_corner F2) F2.2.1 F2.2.2.1
    F2.2.2.2.1 F2.2.2.2.2.1 F2.2.2.2.2.2.1 hp b (show 2 * s2.tris.card + 1 ≤ c.n by omega)
  unfold Refining.insertOn
  rw [if_pos ⟨F2, ne1, ne2⟩, hI]
  exact ⟨_, rfl⟩

theorem splitBad_ends {q : BadTri} (O : s.Ok) {c : Picks K} (hF : s.Fresh c) (hn : 3 * s.tris.card + 1 ≤ c.n) :
    ∃ s', s.splitBad b c q = some s' := by
  unfold Refining.splitBad
  rw [if_pos hF]
  by_cases hq : s.m.Current s.tris q
  · obtain ⟨r, hr, -⟩ := splittriangle_ends (b := b) (fun _ => Iff.rfl) O.good (fresh_corner hF) hF.2.1 hF.2.2.1 hF.2.2.2.1
      hF.2.2.2.2.1 hF.2.2.2.2.2.1 hq hn
    rw [hr]
    exact ⟨_, rfl⟩
  · rw [(splittriangle_stale (b := b) (pos := s.pos) (v := c.v) (n1 := c.n1) (n2 := c.n2) (n := c.n)).2 hq]
    exact ⟨_, rfl⟩

end
/-- If the winding numbers are the same, points inside of a triangle are within a triangle. -/
theorem winding_cover_after {m m' : TMesh K} {T T' : Finset Nat} {pos pos' : Nat → Vec K} (C : m.Ccw (· ∈ T) pos)
    (C' : m'.Ccw (· ∈ T') pos') (h : ∀ p, m'.winding T' pos' p = m.winding T pos p) {t : Nat} (ht : t ∈ T) {p : Vec K}
    (hp : m.Inside pos t p) : ∃ t' ∈ T', m'.Within pos' t' p := by
  by_contra hc
  have h0 : m'.winding T' pos' p ≤ 0 := by
    rw [winding_eq]
    refine Finset.sum_nonpos fun s hs => ?_
    by_contra hs'
    exact hc ⟨s, hs, wind_within C' hs (not_le.1 hs')⟩
  have h1 : 1 ≤ m.winding T pos p := by
    rw [winding_eq, ← wind_inside C ht hp]
    exact Finset.single_le_sum (f := m.wind pos p) (fun s hs => wind_nonneg C hs p) ht
  have := h p
  omega

end Nikfemm
