import Verif.Lemmas.KeepsSplit

/-!
# The parts of the mesh with one attribute
-/

set_option linter.unusedSectionVars false

namespace Nikfemm

theorem sum_insert_three (f f' : Nat → ℤ) {T T' : Finset Nat} {x n1 n2 : Nat} (h12 : n1 ≠ n2) (k1 : n1 ∉ T) (k2 : n2 ∉ T)
    (hx : x ∈ T → f' x + f' n1 + f' n2 = f x) (hz : ∀ t ∈ T, t ≠ x → f' t = f t)
    (hT' : ∀ t, t ∈ T' ↔ t ∈ T ∨ (x ∈ T ∧ (t = n1 ∨ t = n2))) : ∑ t ∈ T', f' t = ∑ t ∈ T, f t := by
  by_cases h : x ∈ T
  · have e : T' = insert n1 (insert n2 T) := by
      ext t
      rw [hT', Finset.mem_insert, Finset.mem_insert]
      tauto
    rw [e, Finset.sum_insert (by rw [Finset.mem_insert, not_or]; exact ⟨h12, k1⟩), Finset.sum_insert k2,
      ← Finset.add_sum_erase _ _ h, ← Finset.add_sum_erase _ f h, ← hx h,
      Finset.sum_congr rfl fun t ht => hz t (Finset.mem_of_mem_erase ht) (Finset.ne_of_mem_erase ht)]
    ring
  · have e : T' = T := by
      ext t
      rw [hT']
      tauto
    rw [e]
    exact Finset.sum_congr rfl fun t ht => hz t ht fun hc => h (hc ▸ ht)

theorem sum_insert_two (f f' : Nat → ℤ) {T T' : Finset Nat} {x y n1 n2 : Nat} (hxy : x ≠ y) (h12 : n1 ≠ n2) (k1 : n1 ∉ T)
    (k2 : n2 ∉ T) (hx : x ∈ T → f' x + f' n1 = f x) (hy : y ∈ T → f' y + f' n2 = f y)
    (hz : ∀ t ∈ T, t ≠ x → t ≠ y → f' t = f t)
    (hT' : ∀ t, t ∈ T' ↔ t ∈ T ∨ (x ∈ T ∧ t = n1) ∨ (y ∈ T ∧ t = n2)) : ∑ t ∈ T', f' t = ∑ t ∈ T, f t := by
  have e1 : ∑ t ∈ T, f t = ∑ t ∈ T, (f' t + ((if t = x then f' n1 else 0) + if t = y then f' n2 else 0)) := by
    refine Finset.sum_congr rfl fun t ht => ?_
    by_cases t1 : t = x
    · subst t1
      rw [if_pos rfl, if_neg hxy, ← hx ht]; ring
    · by_cases t2 : t = y
      · subst t2
        rw [if_neg t1, if_pos rfl, ← hy ht]; ring
      · rw [if_neg t1, if_neg t2, hz t ht t1 t2]; ring
  rw [e1, Finset.sum_add_distrib, Finset.sum_add_distrib, Finset.sum_ite_eq', Finset.sum_ite_eq']
  have e2 : T' = T ∪ ((if x ∈ T then {n1} else ∅) ∪ if y ∈ T then {n2} else ∅) := by
    ext t
    rw [hT', Finset.mem_union, Finset.mem_union]
    by_cases h1 : x ∈ T <;> by_cases h2 : y ∈ T <;> simp [h1, h2]
  have d1 : Disjoint (if x ∈ T then ({n1} : Finset Nat) else ∅) (if y ∈ T then {n2} else ∅) := by
    split <;> split <;> simp [h12]
  have d2 : Disjoint T ((if x ∈ T then {n1} else ∅) ∪ if y ∈ T then {n2} else ∅) := by
    rw [Finset.disjoint_union_right]
    constructor <;> split <;> simp [k1, k2]
  rw [e2, Finset.sum_union d2, Finset.sum_union d1]
  split <;> split <;> simp

variable {K : Type} [Field K] [LinearOrder K] [IsStrictOrderedRing K] {m : TMesh K} {live : Nat → Prop}
  {h : TEdge} {v n1 n2 : Nat} {pos : Nat → Vec K}

theorem three_total_on (S : m.Sound live) (hh : live h.1) (hn1 : ¬ live n1) (hn2 : ¬ live n2) (h10 : n1 ≠ 0) (h20 : n2 ≠ 0)
    (h12 : n1 ≠ n2) {F : Nat → Nat → ℤ} (hF : ∀ a b, F a b = - F b a) {T T' : Finset Nat} (hT : ∀ t ∈ T, live t)
    (hT' : ∀ t, t ∈ T' ↔ t ∈ T ∨ (h.1 ∈ T ∧ (t = n1 ∨ t = n2))) :
    (m.splitThree h v n1 n2).total F T' = m.total F T := by
  obtain ⟨c1, c2, c3, c4⟩ := splitThree_triangles (v := v) S hh hn1 hn2 h10 h20 h12
  rw [total_eq, total_eq]
  refine sum_insert_three (x := h.1) _ _ h12 (fun hc => hn1 (hT _ hc)) (fun hc => hn2 (hT _ hc)) (fun _ => ?_)
    (fun t ht hne => triSum_corners (c4 (t, 0) (hT t ht) hne)) hT'
  rw [triSum_turn (x := (h.1, 0)) (y := h) _ rfl, triSum_turn (x := (h.1, 0)) (y := h) m rfl, triSum_corners c1,
    triSum_corners c2, triSum_corners c3]
  unfold TMesh.triSum
  rw [hF v (m.org h), hF v (m.dest h), hF v (m.apex h)]
  ring

theorem edge_total_on {ss : Option Nat} (S : m.Sound live) (hh : live h.1) (hn1 : ¬ live n1) (hn2 : ¬ live n2)
    (h10 : n1 ≠ 0) (h20 : n2 ≠ 0) (h12 : n1 ≠ n2) (hf : m.nb h ≠ space → m.apex h ≠ m.apex (m.nb h))
    {F : Nat → Nat → ℤ} (hF : ∀ a b, F a b = - F b a) (hx : F (m.org h) v + F v (m.dest h) = F (m.org h) (m.dest h))
    {T T' : Finset Nat} (hT : ∀ t ∈ T, live t)
    (hT' : ∀ t, t ∈ T' ↔ t ∈ T ∨ (h.1 ∈ T ∧ t = n1) ∨ ((m.nb h).1 ∈ T ∧ t = n2)) :
    (m.splitEdge h v n1 n2 ss).total F T' = m.total F T := by
  obtain ⟨c1, c2, c3, c4⟩ := splitEdge_triangles (v := v) (ss := ss) S hh hf hn1 hn2 h10 h20 h12
  rw [total_eq, total_eq]
  refine sum_insert_two (x := h.1) (y := (m.nb h).1) _ _ (S.nb_ne hh).symm h12 (fun hc => hn1 (hT _ hc))
    (fun hc => hn2 (hT _ hc)) (fun _ => ?_) (fun hc => ?_)
    (fun t ht k1 k2 => triSum_corners (c4 (t, 0) (hT t ht) k1 k2)) hT'
  · rw [triSum_turn (x := (h.1, 0)) (y := h) _ rfl, triSum_turn (x := (h.1, 0)) (y := h) m rfl, triSum_corners c1,
      triSum_corners c2]
    unfold TMesh.triSum
    rw [← hx, hF v (m.apex h)]
    ring
  · have hs : m.nb h ≠ space := by
      intro hs
      rw [hs] at hc
      exact S.out (hT _ hc)
    obtain ⟨c3, c5⟩ := c3 hs
    obtain ⟨q1, q2⟩ := S.nb_ends hh hs
    rw [triSum_turn (x := ((m.nb h).1, 0)) (y := m.nb h) _ rfl, triSum_turn (x := ((m.nb h).1, 0)) (y := m.nb h) m rfl,
      triSum_corners c3, triSum_corners c5]
    unfold TMesh.triSum
    rw [q1, q2, hF (m.dest h) (m.org h), ← hx, hF v (m.apex (m.nb h)), hF v (m.org h), hF v (m.dest h)]
    ring

end Nikfemm
