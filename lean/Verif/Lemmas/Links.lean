import Verif.Lemmas.Layers
import Verif.Spec.Multilayer
import Mathlib.Algebra.BigOperators.Ring.Finset
import Mathlib.Algebra.Order.BigOperators.Group.Finset
import Mathlib.Tactic.Ring
import Mathlib.Tactic.LinearCombination

set_option linter.unusedSectionVars false

namespace Nikfemm
open Spec Finset

variable {K : Type} [Field K] [LinearOrder K]

theorem entry_symm (A : Coo K) (i j : Nat) : A.entry i j = A.entry j i := by
  unfold Coo.entry; rw [Nat.min_comm, Nat.max_comm]

/-- Cells after an interconnection. -/
theorem addLink_ok {sizes : List Nat} {A : Coo K} (hA : CooWF A) (hm : A.m < 2 ^ 32)
    (hc : ∀ k ∈ A.elems.map Prod.fst, keyCol k < A.m) {l : NodeLink K} (hl : l.Valid sizes A.m) :
    ∃ A', addLink (offsetsOf sizes) l A = .ok A' ∧ A'.m = A.m ∧ CooWF A' ∧
      (∀ k ∈ A'.elems.map Prod.fst, keyCol k < A'.m) ∧
      A'.elems.length ≤ A.elems.length + 3 ∧
      (∀ a b, a < 2 ^ 32 → b < 2 ^ 32 → (findKey A.elems (packKey a b)).isSome →
        (findKey A'.elems (packKey a b)).isSome) ∧
      ∀ i j, i < A.m → j < A.m → A'.entry i j =
        if (i = (l.ends sizes).1 ∧ j = (l.ends sizes).2) ∨
           (i = (l.ends sizes).2 ∧ j = (l.ends sizes).1) then -2 / l.R
        else if i = j ∧ (i = (l.ends sizes).1 ∨ i = (l.ends sizes).2) then
          A.entry i j + 2 / l.R
        else A.entry i j := by
  obtain ⟨l1, l2, e1, e2, hR⟩ := hl
  have h1 : l.node1 + (sizes.take l.mesh1).sum = (l.ends sizes).1 := rfl
  have h2 : l.node2 + (sizes.take l.mesh2).sum = (l.ends sizes).2 := rfl
  unfold addLink
  rw [rd_offsetsOf l1, rd_offsetsOf l2]
  simp only [ok_bind, h1, h2]
  rw [fdiv_ok hR, fdiv_ok hR]
  simp only [ok_bind]
  generalize (l.ends sizes).1 = p at *
  generalize (l.ends sizes).2 = q at *
  obtain ⟨A1, q1, m1, w1, n1, f1⟩ := modify_cell hA (le_refl p) (by omega) (· + 2 / l.R)
  obtain ⟨A2, q2, m2, w2, n2, f2⟩ := modify_cell w1 (le_refl q) (by omega) (· + 2 / l.R)
  have q3 : ∃ A3, (if p ≥ q then A2.assign q p (-2 / l.R) else A2.assign p q (-2 / l.R)) = .ok A3 ∧
      A3.m = A2.m ∧ CooWF A3 ∧ A3.elems.length ≤ A2.elems.length + 1 ∧
      ∀ a b, a < 2 ^ 32 → b < 2 ^ 32 → findKey A3.elems (packKey a b) =
        if a = min p q ∧ b = max p q then some (-2 / l.R) else findKey A2.elems (packKey a b) := by
    by_cases h : p ≥ q
    · rw [if_pos h, Nat.min_eq_right h, Nat.max_eq_left h]
      exact modify_cell w2 h (by omega) (fun _ => -2 / l.R)
    · rw [if_neg h, Nat.min_eq_left (by omega), Nat.max_eq_right (by omega)]
      exact modify_cell w2 (by omega) (by omega) (fun _ => -2 / l.R)
  obtain ⟨A3, q3, m3, w3, n3, f3⟩ := q3
  rw [q1]; simp only [ok_bind]
  rw [q2]; simp only [ok_bind]
  refine ⟨A3, q3, by omega, w3, ?_, by omega, ?_, ?_⟩
  · intro k hk
    obtain ⟨k1, k2⟩ := w3.keys k hk
    have hs := findKey_isSome_iff.mpr hk
    rw [← packKey_keyRow_keyCol k1, f3 _ _ (keyRow_lt k) (keyCol_lt k),
      f2 _ _ (keyRow_lt k) (keyCol_lt k), f1 _ _ (keyRow_lt k) (keyCol_lt k),
      packKey_keyRow_keyCol k1] at hs
    rw [m3, m2, m1]
    split at hs
    · omega
    · split at hs
      · omega
      · split at hs
        · omega
        · exact hc k (findKey_isSome_iff.mp hs)
  · intro a b ha hb hs
    rw [f3 a b ha hb, f2 a b ha hb, f1 a b ha hb]
    split
    · rfl
    · split
      · rfl
      · split
        · rfl
        · exact hs
  · intro i j hi hj
    unfold Coo.entry
    rw [f3 _ _ (by omega) (by omega), f2 _ _ (by omega) (by omega), f1 _ _ (by omega) (by omega)]
    by_cases c1 : (i = p ∧ j = q) ∨ (i = q ∧ j = p)
    · rw [if_pos c1, if_pos (by omega)]; rfl
    · rw [if_neg c1, if_neg (by omega)]
      by_cases c2 : i = j ∧ (i = p ∨ i = q)
      · rw [if_pos c2]
        obtain ⟨rfl, c2⟩ := c2
        simp only [Nat.min_self, Nat.max_self, and_self]
        rcases c2 with rfl | rfl
        · have : i ≠ q := by rintro rfl; exact c1 (Or.inl ⟨rfl, rfl⟩)
          simp [this]
        · have : i ≠ p := by rintro rfl; exact c1 (Or.inl ⟨rfl, rfl⟩)
          simp [this]
      · rw [if_neg c2, if_neg (by omega), if_neg (by omega)]

/-- Numeric effect of an interconnection of two different nodes on the products with the matrix;
`a` is the coupling already present. -/
theorem link_mulVec {n p q : Nat} {g a : K} {E E' : Nat → Nat → K} (hp : p < n) (hq : q < n)
    (hne : p ≠ q) (hpq : E p q = a) (hqp : E q p = a)
    (hE : ∀ i j, i < n → j < n → E' i j =
      if (i = p ∧ j = q) ∨ (i = q ∧ j = p) then -g
      else if i = j ∧ (i = p ∨ i = q) then E i j + g else E i j) (V : Nat → K) {i : Nat}
    (hi : i < n) :
    mulVec n E' V i = mulVec n E V i + (if i = p then g * (V p - V q) - a * V q else 0) +
      (if i = q then g * (V q - V p) - a * V p else 0) := by
  unfold mulVec
  have e : ∀ j ∈ range n, E' i j * V j = E i j * V j +
      ((if j = p then (if i = p then g * V p else if i = q then -(g + a) * V p else 0) else 0) +
       (if j = q then (if i = q then g * V q else if i = p then -(g + a) * V q else 0) else 0)) := by
    intro j hj
    rw [hE i j hi (Finset.mem_range.mp hj)]
    by_cases i1 : i = p
    · subst i1
      by_cases j1 : j = i
      · subst j1; simp [hne]; ring
      · by_cases j2 : j = q
        · subst j2; simp [hne, Ne.symm hne, hpq]; ring
        · simp [j1, j2, Ne.symm j1]
    · by_cases i2 : i = q
      · subst i2
        by_cases j1 : j = i
        · subst j1; simp [Ne.symm hne]; ring
        · by_cases j2 : j = p
          · subst j2; simp [hne, Ne.symm hne, hqp]; ring
          · simp [j1, j2, Ne.symm j1]
      · simp [i1, i2]
  rw [Finset.sum_congr rfl e, Finset.sum_add_distrib, Finset.sum_add_distrib, Finset.sum_ite_eq',
    Finset.sum_ite_eq', if_pos (Finset.mem_range.mpr hp), if_pos (Finset.mem_range.mpr hq),
    add_assoc]
  congr 1
  by_cases i1 : i = p
  · subst i1; simp [hne]; ring
  · by_cases i2 : i = q
    · subst i2; simp [Ne.symm hne]; ring
    · simp [i1, i2]

theorem link_inner {n p q : Nat} {g a : K} {E E' : Nat → Nat → K} (hp : p < n) (hq : q < n)
    (hne : p ≠ q) (hpq : E p q = a) (hqp : E q p = a)
    (hE : ∀ i j, i < n → j < n → E' i j =
      if (i = p ∧ j = q) ∨ (i = q ∧ j = p) then -g
      else if i = j ∧ (i = p ∨ i = q) then E i j + g else E i j) (V W : Nat → K) :
    inner n W (mulVec n E' V) = inner n W (mulVec n E V) + g * ((W p - W q) * (V p - V q)) -
      a * (W p * V q + W q * V p) := by
  unfold inner
  have e : ∀ i ∈ range n, W i * mulVec n E' V i = W i * mulVec n E V i +
      ((if i = p then W p * (g * (V p - V q) - a * V q) else 0) +
       (if i = q then W q * (g * (V q - V p) - a * V p) else 0)) := by
    intro i hi
    rw [link_mulVec hp hq hne hpq hqp hE V (Finset.mem_range.mp hi)]
    by_cases i1 : i = p
    · subst i1; simp [hne]; ring
    · by_cases i2 : i = q
      · subst i2; simp [Ne.symm hne]; ring
      · simp [i1, i2]
  rw [Finset.sum_congr rfl e, Finset.sum_add_distrib, Finset.sum_add_distrib, Finset.sum_ite_eq',
    Finset.sum_ite_eq', if_pos (Finset.mem_range.mpr hp), if_pos (Finset.mem_range.mpr hq)]
  ring

/-- Pairwise different, previously uncoupled interconnections. -/
structure LinksOK (sizes : List Nat) (A : Coo K) (links : List (NodeLink K)) : Prop where
  valid : ∀ l ∈ links, l.Valid sizes A.m
  distinct : ∀ l ∈ links, (l.ends sizes).1 ≠ (l.ends sizes).2
  free : ∀ l ∈ links, A.entry (l.ends sizes).1 (l.ends sizes).2 = 0
  pairs : links.Pairwise (fun l l' => ¬ l.SamePair sizes l')

theorem addLinks_ok {sizes : List Nat} : ∀ (links : List (NodeLink K)) {A : Coo K}, CooWF A →
    A.m < 2 ^ 32 → (∀ k ∈ A.elems.map Prod.fst, keyCol k < A.m) → LinksOK sizes A links →
    ∃ A', forEach (addLink (offsetsOf sizes)) links A = .ok A' ∧ A'.m = A.m ∧ CooWF A' ∧
      (∀ k ∈ A'.elems.map Prod.fst, keyCol k < A'.m) ∧
      A'.elems.length ≤ A.elems.length + 3 * links.length ∧
      (∀ a b, a < 2 ^ 32 → b < 2 ^ 32 → (findKey A.elems (packKey a b)).isSome →
        (findKey A'.elems (packKey a b)).isSome) ∧
      (∀ (V W : Nat → K), inner A.m W (mulVec A.m A'.entry V) = inner A.m W (mulVec A.m A.entry V) +
        (links.map (fun l => 2 / l.R * ((W (l.ends sizes).1 - W (l.ends sizes).2) *
          (V (l.ends sizes).1 - V (l.ends sizes).2)))).sum) := by
  intro links
  induction links with
  | nil =>
    intro A hA hm hc _
    exact ⟨A, rfl, rfl, hA, hc, by simp, fun _ _ _ _ h => h, fun V W => by simp⟩
  | cons l links ih =>
    intro A hA hm hc h
    obtain ⟨A1, e1, m1, w1, c1, n1, k1, f1⟩ := addLink_ok hA hm hc (h.valid l (by simp))
    have hne := h.distinct l (by simp)
    have hfree := h.free l (by simp)
    have hv := h.valid l (by simp)
    have hpw := List.pairwise_cons.mp h.pairs
    obtain ⟨A2, e2, m2, w2, c2, n2, k2, f2⟩ := ih w1 (by omega) c1
      ⟨fun l' hl' => m1 ▸ h.valid l' (by simp [hl']), fun l' hl' => h.distinct l' (by simp [hl']),
       fun l' hl' => by
        have hv' := h.valid l' (by simp [hl'])
        rw [f1 _ _ hv'.end1 hv'.end2, if_neg, if_neg, h.free l' (by simp [hl'])]
        · rintro ⟨he, -⟩
          exact h.distinct l' (by simp [hl']) he
        · intro hc'
          apply hpw.1 l' hl'
          unfold NodeLink.SamePair
          rcases hc' with ⟨a, b⟩ | ⟨a, b⟩
          · left; exact (Prod.ext a b).symm
          · right; exact Prod.ext b.symm a.symm, hpw.2⟩
    refine ⟨A2, ?_, by omega, w2, c2, by simp only [List.length_cons]; omega,
      fun a b ha hb hs => k2 a b ha hb (k1 a b ha hb hs), fun V W => ?_⟩
    · unfold forEach; rw [e1]; exact e2
    · rw [← m1, f2 V W, m1, List.map_cons, List.sum_cons]
      rw [link_inner (g := 2 / l.R) (a := 0) hv.end1 hv.end2 hne hfree
        (by rw [entry_symm]; exact hfree)
        (fun i j hi hj => by rw [f1 i j hi hj, neg_div]) V W]
      ring

/-! ### Nearest nodes -/

theorem closestNode_ok (pts : List (Vec K)) (p : Vec K) :
    (pts = [] ∧ closestNode pts p = .ok none) ∨
      ∃ k, closestNode pts p = .ok (some k) ∧ IsNearest pts p k := by
  have h := forUp_inv (body := fun i (s : Option (Nat × K)) => do
      let q ← rd pts i
      let d := (q.x - p.x) * (q.x - p.x) + (q.y - p.y) * (q.y - p.y)
      match s with
      | none => .ok (some (i, d))
      | some (_, best) => if d < best then .ok (some (i, d)) else .ok s)
    (fun i s => (i = 0 ∧ s = none) ∨ ∃ k q, s = some (k, distSqTo p q) ∧ k < i ∧
      pts[k]? = some q ∧ ∀ (j : Nat) r, j < i → pts[j]? = some r →
        distSqTo p q ≤ distSqTo p r ∧ (j < k → distSqTo p q < distSqTo p r))
    (lo := 0) (hi := pts.length) (s := none) (Nat.zero_le _) (Or.inl ⟨rfl, rfl⟩) (by
      rintro i s - hi hs
      rw [rd_ok hi]
      simp only [ok_bind]
      rcases hs with ⟨rfl, rfl⟩ | ⟨k, q, rfl, hk, hq, hmin⟩
      · refine ⟨_, rfl, Or.inr ⟨0, pts[0], rfl, by omega, by simp [hi], ?_⟩⟩
        intro j r hj hr
        have : j = 0 := by omega
        subst this
        rw [List.getElem?_eq_getElem hi] at hr
        cases hr
        exact ⟨le_refl _, fun h => by omega⟩
      · simp only
        by_cases hlt : (pts[i].x - p.x) * (pts[i].x - p.x) + (pts[i].y - p.y) * (pts[i].y - p.y) <
            distSqTo p q
        · rw [if_pos hlt]
          refine ⟨_, rfl, Or.inr ⟨i, pts[i], rfl, by omega, by simp [hi], ?_⟩⟩
          intro j r hj hr
          by_cases hji : j = i
          · subst hji
            rw [List.getElem?_eq_getElem hi] at hr
            cases hr
            exact ⟨le_refl _, fun h => by omega⟩
          · have := lt_of_lt_of_le hlt (hmin j r (by omega) hr).1
            exact ⟨le_of_lt this, fun _ => this⟩
        · rw [if_neg hlt]
          refine ⟨_, rfl, Or.inr ⟨k, q, rfl, by omega, hq, ?_⟩⟩
          intro j r hj hr
          by_cases hji : j = i
          · subst hji
            rw [List.getElem?_eq_getElem hi] at hr
            cases hr
            exact ⟨not_lt.mp hlt, fun h => by omega⟩
          · exact hmin j r (by omega) hr)
  obtain ⟨s, e, h⟩ := h
  have e2 : closestNode pts p = .ok (s.map Prod.fst) :=
    (congrArg (fun x : Res (Option (Nat × K)) => x >>= fun s => .ok (s.map Prod.fst)) e).trans rfl
  rw [e2]
  rcases h with ⟨h0, rfl⟩ | ⟨k, q, rfl, hk, hq, hmin⟩
  · left
    exact ⟨List.length_eq_zero_iff.mp h0, rfl⟩
  · right
    exact ⟨k, rfl, q, hq, fun i r hr => hmin i r (by
      by_contra hc; rw [List.getElem?_eq_none (by omega)] at hr; cases hr) hr⟩

theorem isNearest_unique {pts : List (Vec K)} {p : Vec K} {k k' : Nat} (h : IsNearest pts p k)
    (h' : IsNearest pts p k') : k = k' := by
  obtain ⟨q, hq, h1⟩ := h
  obtain ⟨q', hq', h2⟩ := h'
  by_contra hne
  rcases Nat.lt_or_gt_of_ne hne with hlt | hlt
  · have a := (h2 k q hq).2 hlt
    have b := (h1 k' q' hq').1
    exact absurd a (not_lt.mpr b)
  · have a := (h1 k' q' hq').2 hlt
    have b := (h2 k q hq).1
    exact absurd a (not_lt.mpr b)

theorem IsNearest.lt {pts : List (Vec K)} {p : Vec K} {k : Nat} (h : IsNearest pts p k) :
    k < pts.length := by
  obtain ⟨q, hq, _⟩ := h
  by_contra hc
  rw [List.getElem?_eq_none (by omega)] at hq
  cases hq

/-- The search used for interconnections, with a monotone function of the squared distance. -/
theorem nearestFrom0_ok {sq : K → K} (hsq : ∀ a b, 0 ≤ a → a < b → sq a < sq b)
    [IsStrictOrderedRing K] (pts : List (Vec K)) (p : Vec K) :
    (pts = [] ∧ nearestFrom0 (fun q => (q.sub p).norm sq) pts = .ok 0) ∨
      ∃ k, nearestFrom0 (fun q => (q.sub p).norm sq) pts = .ok k ∧ IsNearest pts p k := by
  have hn : ∀ q : Vec K, (q.sub p).norm sq = sq (distSqTo p q) := fun q => rfl
  have hnn : ∀ q : Vec K, 0 ≤ distSqTo p q := fun q =>
    add_nonneg (mul_self_nonneg _) (mul_self_nonneg _)
  have hlt : ∀ q r : Vec K, sq (distSqTo p q) < sq (distSqTo p r) ↔
      distSqTo p q < distSqTo p r := by
    intro q r
    constructor
    · intro h
      by_contra hc
      rcases lt_or_eq_of_le (not_lt.mp hc) with h' | h'
      · exact absurd h (not_lt.mpr (le_of_lt (hsq _ _ (hnn r) h')))
      · rw [h'] at h; exact lt_irrefl _ h
    · exact fun h => hsq _ _ (hnn q) h
  have h := forUp_inv (body := fun i (s : Nat × Option K) => do
      let q ← rd pts i
      let d := (q.sub p).norm sq
      match s.2 with
      | none => .ok (i, some d)
      | some best => if d < best then .ok (i, some d) else .ok s)
    (fun i s => (i = 0 ∧ s = (0, none)) ∨ ∃ k q, s = (k, some (sq (distSqTo p q))) ∧ k < i ∧
      pts[k]? = some q ∧ ∀ (j : Nat) r, j < i → pts[j]? = some r →
        distSqTo p q ≤ distSqTo p r ∧ (j < k → distSqTo p q < distSqTo p r))
    (lo := 0) (hi := pts.length) (s := (0, none)) (Nat.zero_le _) (Or.inl ⟨rfl, rfl⟩) (by
      rintro i s - hi hs
      rw [rd_ok hi]
      simp only [ok_bind]
      rcases hs with ⟨rfl, rfl⟩ | ⟨k, q, rfl, hk, hq, hmin⟩
      · refine ⟨_, rfl, Or.inr ⟨0, pts[0], rfl, by omega, by simp [hi], ?_⟩⟩
        intro j r hj hr
        have : j = 0 := by omega
        subst this
        rw [List.getElem?_eq_getElem hi] at hr
        cases hr
        exact ⟨le_refl _, fun h => by omega⟩
      · simp only [hn]
        by_cases hc : sq (distSqTo p pts[i]) < sq (distSqTo p q)
        · rw [if_pos hc]
          have hc' := (hlt _ _).mp hc
          refine ⟨_, rfl, Or.inr ⟨i, pts[i], rfl, by omega, by simp [hi], ?_⟩⟩
          intro j r hj hr
          by_cases hji : j = i
          · subst hji
            rw [List.getElem?_eq_getElem hi] at hr
            cases hr
            exact ⟨le_refl _, fun h => by omega⟩
          · have := lt_of_lt_of_le hc' (hmin j r (by omega) hr).1
            exact ⟨le_of_lt this, fun _ => this⟩
        · rw [if_neg hc]
          have hc' := fun h => hc ((hlt _ _).mpr h)
          refine ⟨_, rfl, Or.inr ⟨k, q, rfl, by omega, hq, ?_⟩⟩
          intro j r hj hr
          by_cases hji : j = i
          · subst hji
            rw [List.getElem?_eq_getElem hi] at hr
            cases hr
            exact ⟨not_lt.mp hc', fun h => by omega⟩
          · exact hmin j r (by omega) hr)
  obtain ⟨s, e, h⟩ := h
  have e2 : nearestFrom0 (fun q => (q.sub p).norm sq) pts = .ok s.1 :=
    (congrArg (fun x : Res (Nat × Option K) => x >>= fun s => .ok s.1) e).trans rfl
  rw [e2]
  rcases h with ⟨h0, rfl⟩ | ⟨k, q, rfl, hk, hq, hmin⟩
  · left
    exact ⟨List.length_eq_zero_iff.mp h0, rfl⟩
  · right
    exact ⟨k, rfl, q, hq, fun i r hr => hmin i r (by
      by_contra hc; rw [List.getElem?_eq_none (by omega)] at hr; cases hr) hr⟩

end Nikfemm
