import Verif.Lemmas.SplitEdge
import Verif.Lemmas.Split

/-!
# What splitting triangles and edges does
-/

set_option linter.unusedSectionVars false

namespace Nikfemm
variable {K : Type}

/-- Regions after moving edges. -/
theorem Moved.regional {m m' : TMesh K} {live live' : Nat → Prop} {f : TEdge → TEdge} {kept : TEdge → Prop}
    (M : Moved m m' live live' f kept) (R : m.Regional live)
    (ha : ∀ x, kept x → m'.attr (f x).1 = m.attr x.1)
    (hr : ∀ x : TEdge, live' x.1 → (∀ y, kept y → f y ≠ x) → m'.sg x = noSub → m'.nb x ≠ space →
      m'.attr (m'.nb x).1 = m'.attr x.1) : m'.Regional live' := by
  intro x hx hsg hnb
  by_cases hk : ∃ y, kept y ∧ f y = x
  · obtain ⟨y, hy, rfl⟩ := hk
    rw [M.nb y hy] at hnb ⊢
    rw [M.sg y hy] at hsg
    split
    · next h => rw [if_pos h] at hnb; exact absurd rfl hnb
    · next h =>
      rw [ha y hy, ha _ (M.closed y hy h)]
      exact R y (M.was y hy) hsg h
  · push Not at hk
    exact hr x hx hk hsg hnb

variable [Zero K] {m : TMesh K} {h : TEdge} {v n1 n2 : Nat} {live : Nat → Prop}

section three
variable (S : m.Sound live) (hh : live h.1) (hn1 : ¬ live n1) (hn2 : ¬ live n2)
  (h10 : n1 ≠ 0) (h20 : n2 ≠ 0) (h12 : n1 ≠ n2)
include S hh hn1 hn2 h10 h20 h12

theorem three_links :
    (m.splitThree h v n1 n2).nb (lnext h) = (n1, 2) ∧ (m.splitThree h v n1 n2).nb (n1, 2) = lnext h ∧
    (m.splitThree h v n1 n2).nb (n1, 1) = (n2, 2) ∧ (m.splitThree h v n1 n2).nb (n2, 2) = (n1, 1) ∧
    (m.splitThree h v n1 n2).nb (n2, 1) = lprev h ∧ (m.splitThree h v n1 n2).nb (lprev h) = (n2, 1) := by
  have hP := three_apart S hh hn1 hn2 h10 h20 h12
  have k1 : ∀ o : Fin 3, (n1, o) ≠ space := fun o hc => h10 (congrArg Prod.fst hc)
  have k2 : ∀ o : Fin 3, (n2, o) ≠ space := fun o hc => h20 (congrArg Prod.fst hc)
  obtain ⟨a1, a2⟩ := bonds_mem hP ((m.maketriangle n1).maketriangle n2).nb (p := (lnext h, (n1, 2)))
    (by simp [threeBonds])
  obtain ⟨b1, b2⟩ := bonds_mem hP ((m.maketriangle n1).maketriangle n2).nb (p := ((n1, 1), (n2, 2)))
    (by simp [threeBonds])
  obtain ⟨c1, c2⟩ := bonds_mem hP ((m.maketriangle n1).maketriangle n2).nb (p := (lprev h, (n2, 1)))
    (by simp [threeBonds])
  rw [splitThree_nb]
  exact ⟨a1, a2 (k1 _), b1, b2 (k2 _), c2 (k2 _), c1⟩

omit S h10 h20 in
theorem three_attr : (m.splitThree h v n1 n2).attr n1 = m.attr h.1 ∧
    (m.splitThree h v n1 n2).attr n2 = m.attr h.1 ∧
    ∀ t, t ≠ n1 → t ≠ n2 → (m.splitThree h v n1 n2).attr t = m.attr t := by
  obtain ⟨-, -, r⟩ := splitThree_rest (m := m) (h := h) (v := v) (n1 := n1) (n2 := n2)
  rw [r]
  refine ⟨?_, ?_, ?_⟩
  · simp [TMesh.setattr, Function.update_of_ne h12]
  · simp [TMesh.setattr]
  · intro t t1 t2
    simp [TMesh.setattr, TMesh.maketriangle, Function.update_of_ne t1, Function.update_of_ne t2]

/-- The edges that have not been moved somewhere. -/
theorem three_inner {x : TEdge} (hx : live x.1 ∨ x.1 = n1 ∨ x.1 = n2)
    (hk : ∀ y : TEdge, live y.1 → threeMap h n1 n2 y ≠ x) :
    x = lnext h ∨ x = lprev h ∨ x = (n1, 1) ∨ x = (n1, 2) ∨ x = (n2, 1) ∨ x = (n2, 2) := by
  obtain ⟨v1, v2⟩ := threeMap_vals h n1 n2
  rcases hx with hx | hx | hx
  · by_contra hc
    simp only [not_or] at hc
    exact hk x hx (threeMap_same hc.1 hc.2.1)
  · rcases edge_cases 0 hx with h' | h' | h'
    · exact absurd (v1.trans h'.symm) (hk (lnext h) hh)
    · exact .inr (.inr (.inl h'))
    · exact .inr (.inr (.inr (.inl h')))
  · rcases edge_cases 0 hx with h' | h' | h'
    · exact absurd (v2.trans h'.symm) (hk (lprev h) hh)
    · exact .inr (.inr (.inr (.inr (.inl h'))))
    · exact .inr (.inr (.inr (.inr (.inr h'))))

end three

section two
variable (S : m.Sound live) (hh : live h.1) (hs : m.nb h ≠ space)
  (hf : m.apex h ≠ m.apex (m.nb h)) (hn1 : ¬ live n1) (hn2 : ¬ live n2) (h10 : n1 ≠ 0) (h20 : n2 ≠ 0)
  (h12 : n1 ≠ n2)
include S hh hs hf hn1 hn2 h10 h20 h12

theorem two_attr (ss : Option Nat) : (m.splitEdge h v n1 n2 ss).attr n1 = m.attr h.1 ∧
    (m.splitEdge h v n1 n2 ss).attr n2 = m.attr (m.nb h).1 ∧
    ∀ t, t ≠ n1 → t ≠ n2 → (m.splitEdge h v n1 n2 ss).attr t = m.attr t := by
  obtain ⟨f1, f2, f3, f4, f5, f6, -⟩ := two_facts S hh hs hf hn1 hn2 h10 h20 h12
  obtain ⟨-, -, r⟩ := two_rest (m := m) (h := h) (v := v) (n1 := n1) (n2 := n2) f6
  rw [(splitEdge_seg m h v n1 n2 ss).2.2.1, r]
  refine ⟨?_, ?_, ?_⟩
  · simp [TMesh.setattr, TMesh.maketriangle, Function.update_of_ne h12, Function.update_of_ne f1,
      Function.update_of_ne f2]
  · simp [TMesh.setattr, TMesh.maketriangle, Function.update_of_ne f3, Function.update_of_ne f4]
  · intro t t1 t2
    simp [TMesh.setattr, TMesh.maketriangle, Function.update_of_ne t1, Function.update_of_ne t2]

theorem two_inner {x : TEdge} (hx : live x.1 ∨ x.1 = n1 ∨ x.1 = n2)
    (hk : ∀ y : TEdge, live y.1 ∧ y ≠ h ∧ y ≠ m.nb h → twoMap m h n1 n2 y ≠ x) :
    x = h ∨ x = m.nb h ∨ x = lprev h ∨ x = lnext (m.nb h) ∨ x = (n1, 1) ∨ x = (n1, 2) ∨ x = (n2, 1) ∨
      x = (n2, 2) := by
  obtain ⟨f1, f2, f3, f4, f5, f6, -⟩ := two_facts S hh hs hf hn1 hn2 h10 h20 h12
  obtain ⟨v1, v2⟩ := twoMap_vals (m := m) f5 n1 n2
  have hl := S.nb_live hh hs
  rcases hx with hx | hx | hx
  · by_contra hc
    simp only [not_or] at hc
    exact hk x ⟨hx, hc.1, hc.2.1⟩ (twoMap_same hc.2.2.1 hc.2.2.2.1)
  · rcases edge_cases 0 hx with h' | h' | h'
    · exact absurd (v1.trans h'.symm) (hk (lprev h) ⟨hh, lprev_ne h, ne_of_tri (x := lprev h) f5.symm⟩)
    · simp [h']
    · simp [h']
  · rcases edge_cases 0 hx with h' | h' | h'
    · exact absurd (v2.trans h'.symm)
        (hk (lnext (m.nb h)) ⟨hl, ne_of_tri (x := lnext (m.nb h)) f5, lnext_ne _⟩)
    · simp [h']
    · simp [h']

end two

section one
variable (S : m.Sound live) (hh : live h.1) (hs : m.nb h = space) (hn1 : ¬ live n1) (h10 : n1 ≠ 0)
include S hh hs hn1 h10

theorem one_attr (ss : Option Nat) : (m.splitEdge h v n1 n2 ss).attr n1 = m.attr h.1 ∧
    ∀ t, t ≠ n1 → (m.splitEdge h v n1 n2 ss).attr t = m.attr t := by
  obtain ⟨f1, f2, -⟩ := one_facts S hh hs hn1 h10
  obtain ⟨-, -, r⟩ := one_rest (m := m) (h := h) (v := v) (n1 := n1) (n2 := n2) f2
  rw [(splitEdge_seg m h v n1 n2 ss).2.2.1, r]
  refine ⟨?_, ?_⟩
  · simp [TMesh.setattr, TMesh.maketriangle, Function.update_of_ne f1]
  · intro t t1
    simp [TMesh.setattr, TMesh.maketriangle, Function.update_of_ne t1]

theorem one_inner {x : TEdge} (hx : live x.1 ∨ x.1 = n1)
    (hk : ∀ y : TEdge, live y.1 ∧ y ≠ h → oneMap h n1 y ≠ x) :
    x = h ∨ x = lprev h ∨ x = (n1, 1) ∨ x = (n1, 2) := by
  rcases hx with hx | hx
  · by_contra hc
    simp only [not_or] at hc
    exact hk x ⟨hx, hc.1⟩ (oneMap_same hc.2.1)
  · rcases edge_cases 0 hx with h' | h' | h'
    · exact absurd ((oneMap_val h n1).trans h'.symm) (hk (lprev h) ⟨hh, lprev_ne h⟩)
    · simp [h']
    · simp [h']

end one

end Nikfemm
