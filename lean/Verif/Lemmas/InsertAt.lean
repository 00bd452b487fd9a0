import Verif.Lemmas.KeepsSplit

/-!
# From the splits through the loop
-/

set_option linter.unusedSectionVars false

namespace Nikfemm
variable {K : Type} [Field K] [LinearOrder K] [IsStrictOrderedRing K] {pos : Nat → Vec K}

theorem Circling.run_mono {v first : Nat} {r : TMesh K × TEdge} : ∀ {n k : Nat} {s : Circling K}, n ≤ k →
    Circling.run pos v first n s = some r → Circling.run pos v first k s = some r := by
  intro n
  induction n with
  | zero => intro k s _ h; exact absurd h (by simp [Circling.run])
  | succ n ih =>
    intro k s hk h
    obtain ⟨j, rfl⟩ : ∃ j, k = j + 1 := ⟨k - 1, by omega⟩
    unfold Circling.run at h ⊢
    cases hst : s.step pos v first with
    | inl q => rw [hst] at h; exact h
    | inr q =>
      rw [hst] at h
      exact ih (by omega) h

/-- The loop from a ring. -/
theorem circle_ring {m : TMesh K} {live : Nat → Prop} {v : Nat} {h : TEdge} {ys : List TEdge}
    {o : TEdge → Vec K} {T : Finset Nat} (hT : ∀ t, live t ↔ t ∈ T) (R : Ring m live pos v (h :: ys) o)
    {N : Nat} (hN : 2 * offCount T m v + ys.length + 1 ≤ N) :
    ∃ r : TMesh K × TEdge, (∀ k, N ≤ k → m.circle pos v k h = some r) ∧ r.1.Sound live ∧ r.1.Ccw live pos ∧
      r.1.Delaunay live pos ∧ live r.2.1 ∧ r.1.org r.2 = v ∧ Keeps live T pos m r.1 := by
  obtain ⟨r, L', o', h1, h2, h3, h4, h5, h6⟩ := Circling.run_ring (first := m.org h) hT (Q := Keeps live T pos m)
    (fun m' e S he hs hg hf k => Keeps.flip hT S he hs hg hf k) N
    { m := m, horiz := h, right := m.org h, left := m.dest h } [] ys o R (by simp) rfl rfl (by simp)
    (Keeps.refl m) hN
  exact ⟨r, fun k hk => Circling.run_mono hk h1, h2.sound, h2.ccw, fun x hx => h2.all h3 hx, h4, h5, h6⟩

/-- Only the given triangles lack the corner `v`. -/
theorem offCount_bound {m : TMesh K} {v : Nat} {T T0 : Finset Nat} (h : ∀ t ∈ T, m.Off v t → t ∈ T0) :
    offCount T m v ≤ T0.card := by
  classical
  refine Finset.card_le_card ?_
  intro t ht
  rw [Finset.mem_filter] at ht
  exact h t ht.1 ht.2

section
variable {m : TMesh K} {live : Nat → Prop} {v n1 n2 : Nat} {ss : Option Nat} {place : Located × TEdge}
  {T T' : Finset Nat}

/-- The mesh after the split. -/
def TMesh.splitAt (m : TMesh K) (v n1 n2 : Nat) (ss : Option Nat) : Located × TEdge → TMesh K
  | (.inTriangle, e) => m.splitThree e v n1 n2
  | (_, e) => m.splitEdge e v n1 n2 ss

/-- The edge where the loop begins. -/
def startAt : Located × TEdge → TEdge
  | (.inTriangle, e) => e
  | (_, e) => lnext e

theorem insertAt_split (hp : m.Place live pos v ss place) (k : Nat) :
    m.insertAt pos v n1 n2 ss k place =
      ((m.splitAt v n1 n2 ss place).circle pos v k (startAt place)).map fun r => .inserted r.1 r.2 := by
  obtain ⟨loc, e⟩ := place
  cases loc with
  | inTriangle => rfl
  | onVertex => exact hp.elim
  | outside => exact hp.elim
  | onEdge =>
    show (if _ then _ else _) = _
    rw [if_neg]
    · rfl
    · cases ss with
      | some k => simp
      | none =>
        have : m.sg e = noSub := hp.2.1
        simp [this, noSub]

/-- The split makes a ring around the new vertex, and few triangles lack it. -/
theorem insertAt_ring (hT : ∀ t, live t ↔ t ∈ T) (hT' : ∀ t, m.Grown live n1 n2 place t ↔ t ∈ T')
    (S : m.Sound live) (C : m.Ccw live pos) (D : m.Delaunay live pos) (hv : ¬ m.HasCorner live v)
    (hn1 : ¬ live n1) (hn2 : ¬ live n2) (h10 : n1 ≠ 0) (h20 : n2 ≠ 0) (h12 : n1 ≠ n2)
    (hp : m.Place live pos v ss place) :
    ∃ (ys : List TEdge) (o : TEdge → Vec K),
      Ring (m.splitAt v n1 n2 ss place) (m.Grown live n1 n2 place) pos v (startAt place :: ys) o ∧
      2 * offCount T' (m.splitAt v n1 n2 ss place) v + ys.length + 1 ≤ 2 * T.card + 1 := by
  have hnew : ∀ x : TEdge, live x.1 → m.apex x ≠ v := fun x hx e => hv ⟨x, hx, e⟩
  obtain ⟨loc, h⟩ := place
  cases loc with
  | onVertex => exact hp.elim
  | outside => exact hp.elim
  | inTriangle =>
    obtain ⟨hh, -, i1, i2, i3⟩ := hp
    have hg : m.Grown live n1 n2 (.inTriangle, h) = fun t => live t ∨ t = n1 ∨ t = n2 := by
      funext t; simp [TMesh.Grown]
    rw [hg] at hT' ⊢
    obtain ⟨o, R⟩ := three_ring S hh hn1 hn2 h10 h20 h12 C D hnew i1 i2 i3
    refine ⟨_, o, R, ?_⟩
    have hb : offCount T' (m.splitThree h v n1 n2) v ≤ (T.erase h.1).card := by
      refine offCount_bound ?_
      intro t ht hoff
      rw [Finset.mem_erase, ← hT]
      have q : ∀ x ∈ [h, (n1, 0), (n2, 0)], t ≠ x.1 := by
        rintro x hx rfl
        exact hoff x.2 (R.apex hx)
      refine ⟨q h (by simp), ?_⟩
      rcases (hT' t).2 ht with h' | h' | h'
      · exact h'
      · exact absurd h' (q (n1, 0) (by simp))
      · exact absurd h' (q (n2, 0) (by simp))
    have := Finset.card_erase_add_one ((hT _).1 hh)
    show 2 * offCount T' (m.splitThree h v n1 n2) v + 2 + 1 ≤ _
    omega
  | onEdge =>
    obtain ⟨hh, hss, r, r0, r1, hx, hy⟩ := hp
    have hg : m.Grown live n1 n2 (.onEdge, h) = fun t => live t ∨ t = n1 ∨ (t = n2 ∧ m.nb h ≠ space) := by
      funext t; simp [TMesh.Grown]
    rw [hg] at hT' ⊢
    by_cases hs : m.nb h = space
    · obtain ⟨o, R⟩ := one_ring S hh hs hn1 hn2 h10 h20 h12 hss C D hnew r0 r1 hx hy
      refine ⟨_, o, R, ?_⟩
      have hb : offCount T' (m.splitEdge h v n1 n2 ss) v ≤ (T.erase h.1).card := by
        refine offCount_bound ?_
        intro t ht hoff
        rw [Finset.mem_erase, ← hT]
        have q : ∀ x ∈ [lnext h, (n1, 0)], t ≠ x.1 := by
          rintro x hx rfl
          exact hoff x.2 (R.apex hx)
        refine ⟨q (lnext h) (by simp), ?_⟩
        rcases (hT' t).2 ht with h' | h' | h'
        · exact h'
        · exact absurd h' (q (n1, 0) (by simp))
        · exact absurd hs h'.2
      have := Finset.card_erase_add_one ((hT _).1 hh)
      show 2 * offCount T' (m.splitEdge h v n1 n2 ss) v + 1 + 1 ≤ _
      omega
    · obtain ⟨o, R⟩ := two_ring S hh hs hn1 hn2 h10 h20 h12 hss C D hnew r0 r1 hx hy
      refine ⟨_, o, R, ?_⟩
      have hb' : offCount T' (m.splitEdge h v n1 n2 ss) v ≤ ((T.erase h.1).erase (m.nb h).1).card := by
        refine offCount_bound ?_
        intro t ht hoff
        rw [Finset.mem_erase, Finset.mem_erase, ← hT]
        have q : ∀ x ∈ [lnext h, (n1, 0), (n2, 0), lprev (m.nb h)], t ≠ x.1 := by
          rintro x hx rfl
          exact hoff x.2 (R.apex hx)
        refine ⟨q (lprev (m.nb h)) (by simp), q (lnext h) (by simp), ?_⟩
        rcases (hT' t).2 ht with h' | h' | h'
        · exact h'
        · exact absurd h' (q (n1, 0) (by simp))
        · exact absurd h'.1 (q (n2, 0) (by simp))
      have e1 := Finset.card_erase_add_one ((hT _).1 hh)
      have e2 := Finset.card_erase_add_one (Finset.mem_erase.2 ⟨S.nb_ne hh, (hT _).1 (S.nb_live hh hs)⟩)
      show 2 * offCount T' (m.splitEdge h v n1 n2 ss) v + 3 + 1 ≤ _
      omega

theorem insertAt_core (hT : ∀ t, live t ↔ t ∈ T) (hT' : ∀ t, m.Grown live n1 n2 place t ↔ t ∈ T')
    (S : m.Sound live) (C : m.Ccw live pos) (D : m.Delaunay live pos) (hv : ¬ m.HasCorner live v)
    (hn1 : ¬ live n1) (hn2 : ¬ live n2) (h10 : n1 ≠ 0) (h20 : n2 ≠ 0) (h12 : n1 ≠ n2)
    (hp : m.Place live pos v ss place) :
    ∃ r : TMesh K × TEdge,
      (∀ k, 2 * T.card + 1 ≤ k → (m.splitAt v n1 n2 ss place).circle pos v k (startAt place) = some r) ∧
      r.1.Sound (m.Grown live n1 n2 place) ∧ r.1.Ccw (m.Grown live n1 n2 place) pos ∧
      r.1.Delaunay (m.Grown live n1 n2 place) pos ∧ m.Grown live n1 n2 place r.2.1 ∧ r.1.org r.2 = v ∧
      Keeps (m.Grown live n1 n2 place) T' pos (m.splitAt v n1 n2 ss place) r.1 := by
  obtain ⟨ys, o, R, h⟩ := insertAt_ring hT hT' S C D hv hn1 hn2 h10 h20 h12 hp
  exact circle_ring hT' R h

/-- Grown sets are finite. -/
theorem grown_finset (hT : ∀ t, live t ↔ t ∈ T) :
    ∃ T' : Finset Nat, ∀ t, m.Grown live n1 n2 place t ↔ t ∈ T' := by
  classical
  by_cases hc : place.1 = .inTriangle ∨ m.nb place.2 ≠ space
  · refine ⟨insert n1 (insert n2 T), fun t => ?_⟩
    rw [Finset.mem_insert, Finset.mem_insert, ← hT]
    unfold TMesh.Grown
    simp only [hc, and_true]
    tauto
  · refine ⟨insert n1 T, fun t => ?_⟩
    rw [Finset.mem_insert, ← hT]
    unfold TMesh.Grown
    simp only [hc, and_false, or_false]
    tauto

end

end Nikfemm
