import Verif.Lemmas.Force
import Mathlib.Tactic.LinearCombination
import Mathlib.Tactic.Linarith

set_option linter.unusedSectionVars false

/-!
# Properties of the force computation (C51)
-/

namespace Nikfemm
open Spec

section
variable {K : Type} [Field K] [LinearOrder K]

/-- A matrix on three nodes: node 0 is free, nodes 1 and 2 belong to the body. -/
def exZones : Zones := ⟨[false, true, true], [false, true, true], [true, true, true],
  [false, false, false]⟩

/-- Its elements in one of the possible orders. -/
def exCoo : Coo ℚ := ⟨3, [(packKey 0 0, 2), (packKey 0 1, -1), (packKey 1 1, 3),
  (packKey 1 2, -2), (packKey 2 2, 4)]⟩

theorem exCoo_full : exCoo.Full := by
  refine ⟨⟨by decide +kernel, by decide +kernel⟩, by decide, by decide +kernel, ?_⟩
  intro i hi
  have : i = 0 ∨ i = 1 ∨ i = 2 := by
    have : i < 3 := hi
    omega
  rcases this with rfl | rfl | rfl <;> decide +kernel

theorem exZones_covers : exZones.Covers 3 := ⟨rfl, rfl, rfl, rfl⟩

theorem entry_le (A : Coo K) {i j : Nat} (h : i ≤ j) :
    A.entry i j = (findKey A.elems (packKey i j)).getD 0 := by
  unfold Coo.entry
  rw [Nat.min_eq_left h, Nat.max_eq_right h]

theorem entry_symm (A : Coo K) (i j : Nat) : A.entry i j = A.entry j i := by
  unfold Coo.entry; rw [Nat.min_comm, Nat.max_comm]

/-- **C51.** What the boundary loop does, in every iteration order: the rows of constrained nodes
with the *smaller* number are replaced, everything else in the matrix stays; in particular the cell
between a free node and a constrained node with a larger number is kept.  The right-hand side of a
free node collects the couplings with body nodes of a smaller number. -/
theorem zones_effect (z : Zones) (A : Coo K) (hA : A.Full) (hz : z.Covers A.m) :
    ∃ S, imposeZones z A = .ok S ∧ S.A.m = A.m ∧ S.b.length = A.m ∧
      (∀ i j, i ≤ j → j < A.m → S.A.entry i j =
        if z.kind i = .free then A.entry i j else if i = j then 1 else 0) ∧
      (∀ r, r < A.m → z.kind r = .free →
        fn S.b r = - ∑ c ∈ Finset.range r, if z.kind c = .body then A.entry c r else 0) := by
  obtain ⟨S, e, hm, hel, hb, hr⟩ := imposeZones_ok hA.wf hA.cols hz
  have hM := hA.m_lt
  refine ⟨S, e, hm, hb, fun i j hij hj => ?_, fun r hrm hf => ?_⟩
  · rw [entry_le _ hij, entry_le _ hij, hel, findKey_map]
    unfold zoneVal
    rw [keyRow_packKey (by omega) (by omega), keyCol_packKey (by omega) (by omega)]
    by_cases hf : z.kind i = .free
    · simp [hf]
    · by_cases hd : i = j
      · subst hd
        obtain ⟨v, hv⟩ := Option.isSome_iff_exists.mp (findKey_isSome_iff.mpr (hA.diag i hj))
        simp [hf, hv]
      · simp only [hf, hd, if_false]
        cases findKey A.elems (packKey i j) <;> rfl
  · have hsum := bodyLoad_eq (z := z) (show r < 2 ^ 32 by omega) A.elems hA.wf.nodup hA.wf.keys
    have hload : (∑ c ∈ Finset.range r, if z.kind c = .body then A.entry c r else 0) =
        bodyLoad z r A.elems := by
      rw [hsum]
      refine Finset.sum_congr rfl (fun c hc => ?_)
      rw [entry_le _ (Finset.mem_range.mp hc).le]
    rw [hr r hrm, foldl_zoneRhs_free _ _ (Or.inl hf), hload]
    ring

example : ∃ S, imposeZones exZones exCoo = .ok S ∧ S.A.entry 0 1 = -1 := by
  obtain ⟨S, e, _, _, h, _⟩ := zones_effect exZones exCoo exCoo_full exZones_covers
  exact ⟨S, e, (h 0 1 (by decide) (by decide)).trans (by decide +kernel)⟩

theorem bodyLoad_eq_values {z : Zones} {r : Nat} {l : List (Nat × K)}
    (h : ∀ e ∈ l, ¬ (keyCol e.1 = r ∧ keyRow e.1 = r)) :
    bodyLoad z r l = bodyValues z r l := by
  unfold bodyLoad bodyValues
  congr 2
  refine List.filter_congr (fun e he => ?_)
  have := h e he
  by_cases h1 : keyCol e.1 = r <;> by_cases h2 : keyRow e.1 = r <;> simp_all

/-- **C51.** The right-hand side of a constrained node is its prescribed value less the couplings
with body nodes of a smaller number *that are visited after the diagonal cell*. -/
theorem zones_constrained_rhs (z : Zones) (A : Coo K) (hA : A.Full) (hz : z.Covers A.m) (r : Nat)
    (hr : r < A.m) (hc : z.kind r ≠ .free) (v : K) (pre post : List (Nat × K))
    (hsplit : A.elems = pre ++ (packKey r r, v) :: post) :
    ∃ S, imposeZones z A = .ok S ∧ fn S.b r = (z.kind r).value - bodyValues z r post := by
  obtain ⟨S, e, hm, hel, hb, hrhs⟩ := imposeZones_ok hA.wf hA.cols hz
  have hM := hA.m_lt
  refine ⟨S, e, ?_⟩
  have hpost : ∀ e ∈ post, ¬ (keyCol e.1 = r ∧ keyRow e.1 = r) := by
    intro e he hd
    have hn := hA.wf.nodup
    have hk : e.1 < 2 ^ 64 := (hA.wf.keys e.1
      (List.mem_map_of_mem (by rw [hsplit]; simp [he]))).1
    rw [hsplit, List.map_append, List.map_cons, List.nodup_append] at hn
    have := (List.nodup_cons.mp hn.2.1).1
    have hmem := List.mem_map_of_mem (f := Prod.fst) he
    rw [(packKey_eq_iff_row hk (by omega)).mpr hd] at hmem
    exact this hmem
  rw [hrhs r hr, hsplit, List.foldl_append, List.foldl_cons, foldl_zoneRhs_free _ _ (Or.inr hpost),
    bodyLoad_eq_values hpost]
  congr 1
  unfold zoneRhs
  simp [keyRow_packKey (show r < 2 ^ 32 by omega) (show r < 2 ^ 32 by omega),
    keyCol_packKey (show r < 2 ^ 32 by omega) (show r < 2 ^ 32 by omega), hc]

example : ∃ S, imposeZones exZones exCoo = .ok S ∧ fn S.b 2 = 1 :=
  (zones_constrained_rhs exZones exCoo exCoo_full exZones_covers 2 (by decide) (by decide) 4
    [(packKey 0 0, 2), (packKey 0 1, -1), (packKey 1 1, 3), (packKey 1 2, -2)] [] rfl).imp
    fun _ h => ⟨h.1, h.2.trans (by decide +kernel)⟩

theorem Coo.Full.perm {A : Coo K} (hA : A.Full) {l : List (Nat × K)} (hp : A.elems.Perm l) :
    Coo.Full { A with elems := l } :=
  ⟨hA.wf.perm hp, hA.m_lt, fun k hk => hA.cols k ((hp.map Prod.fst).mem_iff.mpr hk),
    fun i hi => (hp.map Prod.fst).mem_iff.mp (hA.diag i hi)⟩

theorem split_at_diag {A : Coo K} (hA : A.Full) {r : Nat} (hr : r < A.m) :
    ∃ v pre post, A.elems = pre ++ (packKey r r, v) :: post := by
  obtain ⟨e, he, hk⟩ := List.mem_map.mp (hA.diag r hr)
  obtain ⟨pre, post, h⟩ := List.append_of_mem he
  exact ⟨e.2, pre, post, by rw [h, ← hk]⟩

/-- **C51.** The right-hand side is the same for all iteration orders of the hash map exactly when
no body node is coupled with a constrained node of a larger number. -/
theorem zones_order_independent_iff (z : Zones) (A : Coo K) (hA : A.Full) (hz : z.Covers A.m) :
    (∀ l l', A.elems.Perm l → A.elems.Perm l' → ∀ S S',
      imposeZones z { A with elems := l } = .ok S → imposeZones z { A with elems := l' } = .ok S' →
      S.b = S'.b) ↔
    (∀ c r, c < r → r < A.m → z.kind c = .body → z.kind r ≠ .free → A.entry c r = 0) := by
  have hM := hA.m_lt
  constructor
  · intro h c r hcr hr hc hk
    rw [entry_le _ hcr.le]
    cases hf : findKey A.elems (packKey c r) with
    | none => rfl
    | some v =>
      show v = 0
      -- the two cells, in either order, followed by the others
      obtain ⟨d, pre, post, hs⟩ := split_at_diag hA hr
      have hr32 : r < 2 ^ 32 := by omega
      have hc32 : c < 2 ^ 32 := by omega
      have hne : packKey c r ≠ packKey r r := fun he =>
        hcr.ne ((packKey_inj hc32 hr32 hr32 hr32).mp he).1
      have hmem : (packKey c r, v) ∈ pre ++ post := by
        have := mem_of_findKey hf
        rw [hs] at this
        simp only [List.mem_append, List.mem_cons, Prod.mk.injEq] at this ⊢
        rcases this with h1 | h1 | h1
        · exact Or.inl h1
        · exact absurd h1.1 hne
        · exact Or.inr h1
      obtain ⟨l1, l2, hl⟩ := List.append_of_mem hmem
      have hp1 : A.elems.Perm ((packKey r r, d) :: (packKey c r, v) :: (l1 ++ l2)) := by
        rw [hs]
        refine List.perm_middle.trans (List.Perm.cons _ ?_)
        rw [hl]
        exact List.perm_middle
      have hp2 := hp1.trans (List.Perm.swap (packKey c r, v) (packKey r r, d) (l1 ++ l2))
      obtain ⟨S1, e1, b1⟩ := zones_constrained_rhs z _ (hA.perm hp1) hz r hr hk d []
        ((packKey c r, v) :: (l1 ++ l2)) rfl
      obtain ⟨S2, e2, b2⟩ := zones_constrained_rhs z _ (hA.perm hp2) hz r hr hk d
        [(packKey c r, v)] (l1 ++ l2) rfl
      have heq := h _ _ hp1 hp2 S1 S2 e1 e2
      rw [heq, b2] at b1
      have hv : bodyValues z r ((packKey c r, v) :: (l1 ++ l2)) =
          v + bodyValues z r (l1 ++ l2) := by
        unfold bodyValues
        rw [List.filter_cons_of_pos (by
          simp [keyCol_packKey hc32 hr32, keyRow_packKey hc32 hr32, hc])]
        simp
      rw [hv] at b1
      linear_combination b1
  · intro h
    -- in every order the right-hand side is given by the matrix
    have key : ∀ l, A.elems.Perm l → ∀ S, imposeZones z { A with elems := l } = .ok S →
        S.b.length = A.m ∧ ∀ r, r < A.m → fn S.b r = if z.kind r = .free then
          - bodyLoad z r A.elems else (z.kind r).value := by
      intro l hp S e
      have hA' := hA.perm hp
      obtain ⟨T, e', hm, hel, hb, hr⟩ := imposeZones_ok hA'.wf hA'.cols hz
      obtain rfl : S = T := by
        have := e.symm.trans e'
        simpa using this
      refine ⟨hb, fun r hrm => ?_⟩
      by_cases hf : z.kind r = .free
      · rw [if_pos hf, hr r hrm, foldl_zoneRhs_free _ _ (Or.inl hf), bodyLoad_perm hp]
        ring
      · rw [if_neg hf]
        obtain ⟨d, pre, post, hs⟩ := split_at_diag hA' hrm
        obtain ⟨T, e2, b2⟩ := zones_constrained_rhs z _ hA' hz r hrm hf d pre post hs
        obtain rfl : S = T := by
          have := e.symm.trans e2
          simpa using this
        rw [b2]
        have : bodyValues z r post = 0 := by
          unfold bodyValues
          refine List.sum_eq_zero (fun x hx => ?_)
          obtain ⟨q, hq, rfl⟩ := List.mem_map.mp hx
          obtain ⟨hq1, hq2⟩ := List.mem_filter.mp hq
          simp only [decide_eq_true_eq] at hq2
          have hql : q ∈ A.elems := hp.mem_iff.mpr (by
            have : q ∈ pre ++ (packKey r r, d) :: post := by simp [hq1]
            rwa [← hs] at this)
          obtain ⟨k64, krc⟩ := hA.wf.keys q.1 (List.mem_map_of_mem hql)
          have hlt : keyRow q.1 < r := by
            rcases Nat.lt_or_ge (keyRow q.1) r with h' | h'
            · exact h'
            · exfalso
              have : keyRow q.1 = r := by omega
              have hk' := (packKey_eq_iff_row k64 (by omega)).mpr ⟨hq2.1, this⟩
              have hn := hA'.wf.nodup
              rw [hs, List.map_append, List.map_cons, List.nodup_append] at hn
              apply (List.nodup_cons.mp hn.2.1).1
              have hmem := List.mem_map_of_mem (f := Prod.fst) hq1
              rwa [hk'] at hmem
          have h0 := h (keyRow q.1) r hlt hrm hq2.2 hf
          rw [entry_le _ hlt.le, ← hq2.1, packKey_keyRow_keyCol k64,
            findKey_of_mem hA.wf.nodup (show (q.1, q.2) ∈ A.elems from hql)] at h0
          exact h0
        rw [this, sub_zero]
    intro l l' hp hp' S S' e e'
    obtain ⟨h1, h2⟩ := key l hp S e
    obtain ⟨h3, h4⟩ := key l' hp' S' e'
    apply List.ext_getElem (by omega)
    intro i hi hi'
    have := (h2 i (by omega)).trans (h4 i (by omega)).symm
    simpa [fn, hi, hi'] using this

/-- **C51.** Two iteration orders of one matrix with different right-hand sides. -/
theorem zones_order_matters : ∃ (z : Zones) (A : Coo ℚ) (l : List (Nat × ℚ)) (S S' : Sys ℚ),
    A.Full ∧ z.Covers A.m ∧ A.elems.Perm l ∧ imposeZones z A = .ok S ∧
      imposeZones z { A with elems := l } = .ok S' ∧ fn S.b 2 = 1 ∧ fn S'.b 2 = 3 := by
  have hp : exCoo.elems.Perm [(packKey 0 0, 2), (packKey 0 1, -1), (packKey 1 1, 3),
      (packKey 2 2, 4), (packKey 1 2, -2)] := by
    refine List.Perm.cons _ (List.Perm.cons _ (List.Perm.cons _ ?_))
    exact List.Perm.swap _ _ _
  obtain ⟨S, e, b⟩ := zones_constrained_rhs exZones exCoo exCoo_full exZones_covers 2 (by decide)
    (by decide) 4 [(packKey 0 0, 2), (packKey 0 1, -1), (packKey 1 1, 3), (packKey 1 2, -2)] [] rfl
  obtain ⟨S', e', b'⟩ := zones_constrained_rhs exZones _ (exCoo_full.perm hp) exZones_covers 2
    (by decide) (by decide) 4 [(packKey 0 0, 2), (packKey 0 1, -1), (packKey 1 1, 3)]
    [(packKey 1 2, -2)] rfl
  exact ⟨exZones, exCoo, _, S, S', exCoo_full, exZones_covers, hp, e, e',
    b.trans (by decide +kernel), b'.trans (by decide +kernel)⟩

example : ¬ ∀ l l', exCoo.elems.Perm l → exCoo.elems.Perm l' → ∀ S S',
    imposeZones exZones { exCoo with elems := l } = .ok S →
    imposeZones exZones { exCoo with elems := l' } = .ok S' → S.b = S'.b := by
  rw [zones_order_independent_iff exZones exCoo exCoo_full exZones_covers]
  exact fun h => absurd (h 1 2 (by decide) (by decide) (by decide) (by decide)) (by decide +kernel)

theorem sum_range_lt {n r : Nat} (h : r ≤ n) (f : Nat → K) :
    ∑ c ∈ Finset.range r, f c = ∑ c ∈ Finset.range n, if c < r then f c else 0 := by
  rw [← Finset.sum_filter]
  congr 1
  ext c
  simp only [Finset.mem_range, Finset.mem_filter]
  omega

/-- **C51.** The equations of the system handed to the solver.  The equation of a constrained node
still contains all free neighbours with a smaller number, so it does not say that the node has its
prescribed value; the equation of a free node uses the prescribed values of the constrained
neighbours with a smaller number only. -/
theorem zones_equations (z : Zones) (A : Coo K) (hA : A.Full) (hz : z.Covers A.m) :
    ∃ S, imposeZones z A = .ok S ∧ S.A.m = A.m ∧ ∀ (g : Nat → K) r, r < A.m →
      (z.kind r ≠ .free → (S.Equation g r ↔
        g r + (∑ c ∈ Finset.range r, if z.kind c = .free then A.entry c r * g c else 0) =
          fn S.b r)) ∧
      (z.kind r = .free → (S.Equation g r ↔ mulVec A.m A.entry
        (fun c => if c < r ∧ z.kind c ≠ .free then (z.kind c).value else g c) r = 0)) := by
  obtain ⟨S, e, hm, hb, hent, hrhs⟩ := zones_effect z A hA hz
  refine ⟨S, e, hm, fun g r hr => ⟨fun hk => ?_, fun hk => ?_⟩⟩
  · unfold Sys.Equation mulVec
    rw [hm, sum_range_lt hr.le]
    have : ∀ j ∈ Finset.range A.m, S.A.entry r j * g j = (if r = j then g j else 0) +
        (if j < r then (if z.kind j = .free then A.entry j r * g j else 0) else 0) := by
      intro j hj
      rw [Finset.mem_range] at hj
      rcases Nat.lt_trichotomy j r with h | h | h
      · rw [entry_symm, hent j r h.le hr]
        by_cases hf : z.kind j = .free <;> simp [h, h.ne', h.ne, hf]
      · subst h
        rw [hent j j le_rfl hr]
        simp [hk]
      · rw [hent r j h.le hj]
        simp [hk, h.ne, Nat.not_lt.mpr h.le]
    rw [Finset.sum_congr rfl this, Finset.sum_add_distrib, Finset.sum_ite_eq,
      if_pos (Finset.mem_range.mpr hr)]
  · unfold Sys.Equation mulVec
    rw [hm, hrhs r hr hk, sum_range_lt hr.le, eq_neg_iff_add_eq_zero, ← Finset.sum_add_distrib]
    have : ∀ j ∈ Finset.range A.m, S.A.entry r j * g j +
        (if j < r then (if z.kind j = .body then A.entry j r else 0) else 0) =
        A.entry r j * (if j < r ∧ z.kind j ≠ .free then (z.kind j).value else g j) := by
      intro j hj
      rw [Finset.mem_range] at hj
      rcases Nat.lt_or_ge j r with h | h
      · rw [entry_symm S.A, hent j r h.le hr, entry_symm A r j]
        cases hf : z.kind j <;> simp [h, h.ne, NodeKind.value]
      · rw [hent r j h hj]
        simp [hk, Nat.not_lt.mpr h]
    rw [Finset.sum_congr rfl this]

example : ∃ S, imposeZones exZones exCoo = .ok S ∧ ∀ g : Nat → ℚ,
    S.Equation g 1 ↔ g 1 + -1 * g 0 = fn S.b 1 := by
  obtain ⟨S, e, _, h⟩ := zones_equations exZones exCoo exCoo_full exZones_covers
  refine ⟨S, e, fun g => ((h g 1 (by decide)).1 (by decide)).trans ?_⟩
  have : exCoo.entry 0 1 = -1 := by decide +kernel
  simp [this, show exZones.kind 0 = .free by decide]

/-- **C51.** The constrained problem is solved if every constrained node is coupled only with nodes
of a larger number or away from the body: then the solutions of the system are exactly the
functions with the prescribed values that satisfy the equations of the free nodes. -/
theorem zones_correct (z : Zones) (A : Coo K) (hA : A.Full) (hz : z.Covers A.m)
    (h : ∀ c r, c < r → r < A.m → z.kind r ≠ .free → z.kind c ≠ .away → A.entry c r = 0) :
    ∃ S, imposeZones z A = .ok S ∧ ∀ g : Nat → K, S.Solves g ↔
      (∀ r, r < A.m → z.kind r ≠ .free → g r = (z.kind r).value) ∧
      (∀ r, r < A.m → z.kind r = .free → mulVec A.m A.entry g r = 0) := by
  obtain ⟨S, e, hm, heq⟩ := zones_equations z A hA hz
  refine ⟨S, e, fun g => ?_⟩
  have hcon : ∀ r, r < A.m → z.kind r ≠ .free → (S.Equation g r ↔ g r = (z.kind r).value) := by
    intro r hr hk
    rw [(heq g r hr).1 hk]
    have h1 : (∑ c ∈ Finset.range r, if z.kind c = .free then A.entry c r * g c else 0) = 0 := by
      refine Finset.sum_eq_zero (fun c hc => ?_)
      rw [Finset.mem_range] at hc
      split
      · rename_i hf
        rw [h c r hc hr hk (by rw [hf]; decide), zero_mul]
      · rfl
    have h2 : fn S.b r = (z.kind r).value := by
      have hind := (zones_order_independent_iff z A hA hz).mpr (fun c r hc hr hb hk =>
        h c r hc hr hk (by rw [hb]; decide))
      -- an order in which the diagonal cell comes last
      obtain ⟨d, pre, post, hs⟩ := split_at_diag hA hr
      have hp : A.elems.Perm ((pre ++ post) ++ [(packKey r r, d)]) := by
        rw [hs]
        refine List.perm_middle.trans ?_
        exact (List.perm_append_singleton _ _).symm
      obtain ⟨T, e', b'⟩ := zones_constrained_rhs z _ (hA.perm hp) hz r hr hk d (pre ++ post) [] rfl
      have := hind _ _ (List.Perm.refl _) hp S T e e'
      rw [this, b']
      simp [bodyValues]
    rw [h1, h2, add_zero]
  have hfree : (∀ r, r < A.m → z.kind r ≠ .free → g r = (z.kind r).value) → ∀ r, r < A.m →
      z.kind r = .free → (S.Equation g r ↔ mulVec A.m A.entry g r = 0) := by
    intro hg r hr hk
    rw [(heq g r hr).2 hk]
    have : (fun c => if c < r ∧ z.kind c ≠ .free then (z.kind c).value else g c) =
        fun c => if c < r ∧ z.kind c ≠ .free then g c else g c := by
      funext c
      by_cases hc : c < r ∧ z.kind c ≠ .free
      · rw [if_pos hc, if_pos hc, hg c (by omega) hc.2]
      · rw [if_neg hc, if_neg hc]
    rw [this]
    simp
  constructor
  · intro hs
    have hg : ∀ r, r < A.m → z.kind r ≠ .free → g r = (z.kind r).value := fun r hr hk =>
      (hcon r hr hk).mp (hs r (hm ▸ hr))
    exact ⟨hg, fun r hr hk => (hfree hg r hr hk).mp (hs r (hm ▸ hr))⟩
  · rintro ⟨hg, hf⟩ r hr
    rw [hm] at hr
    by_cases hk : z.kind r = .free
    · exact (hfree hg r hr hk).mpr (hf r hr hk)
    · exact (hcon r hr hk).mpr (hg r hr hk)

/-- Two nodes: the body node comes first. -/
example : ∃ S, imposeZones ⟨[true, false], [true, false], [true, true], [false, false]⟩
    (⟨2, [(packKey 0 0, 2), (packKey 0 1, -1), (packKey 1 1, 2)]⟩ : Coo ℚ) = .ok S ∧
    ∀ g : Nat → ℚ, S.Solves g → g 0 = 1 := by
  have hF : (⟨2, [(packKey 0 0, 2), (packKey 0 1, -1), (packKey 1 1, 2)]⟩ : Coo ℚ).Full := by
    refine ⟨⟨by decide +kernel, by decide +kernel⟩, by decide, by decide +kernel, fun i hi => ?_⟩
    have hi' : i < 2 := hi
    have : i = 0 ∨ i = 1 := by omega
    rcases this with rfl | rfl <;> decide +kernel
  obtain ⟨S, e, h⟩ := zones_correct ⟨[true, false], [true, false], [true, true], [false, false]⟩ _ hF
    ⟨rfl, rfl, rfl, rfl⟩ (by
      intro c r hcr hr hk
      have hr' : r < 2 := hr
      obtain ⟨rfl, rfl⟩ : r = 1 ∧ c = 0 := by omega
      exact absurd (by decide) hk)
  exact ⟨S, e, fun g hg => ((h g).mp hg).1 0 (by decide) (by decide)⟩

/-- **C51.** A free node 0 coupled with a body node 1: the only solution of the system takes the
value 2 on the body instead of 1. -/
theorem zones_wrong_solution : ∃ (z : Zones) (A : Coo ℚ) (S : Sys ℚ),
    A.Full ∧ z.Covers A.m ∧ A.m = 2 ∧ z.kind 0 = .free ∧ z.kind 1 = .body ∧
      imposeZones z A = .ok S ∧ ∀ g : Nat → ℚ, S.Solves g ↔ g 0 = 1 ∧ g 1 = 2 := by
  have hF : (⟨2, [(packKey 0 0, 2), (packKey 0 1, -1), (packKey 1 1, 2)]⟩ : Coo ℚ).Full := by
    refine ⟨⟨by decide +kernel, by decide +kernel⟩, by decide, by decide +kernel, fun i hi => ?_⟩
    have hi' : i < 2 := hi
    have : i = 0 ∨ i = 1 := by omega
    rcases this with rfl | rfl <;> decide +kernel
  have hz : Zones.Covers ⟨[false, true], [false, true], [true, true], [false, false]⟩ 2 :=
    ⟨rfl, rfl, rfl, rfl⟩
  obtain ⟨S, e, hm, heq⟩ := zones_equations _ _ hF hz
  obtain ⟨S', e', hb⟩ := zones_constrained_rhs _ _ hF hz 1 (by decide) (by decide) 2
    [(packKey 0 0, 2), (packKey 0 1, -1)] [] rfl
  obtain rfl : S = S' := by
    have := e.symm.trans e'
    simpa using this
  refine ⟨_, _, S, hF, hz, rfl, by decide, by decide, e, fun g => ?_⟩
  have h0 := (heq g 0 (by decide)).2 (by decide)
  have h1 := (heq g 1 (by decide)).1 (by decide)
  rw [hb] at h1
  have e00 : (⟨2, [(packKey 0 0, 2), (packKey 0 1, -1), (packKey 1 1, 2)]⟩ : Coo ℚ).entry 0 0 = 2 := by
    decide +kernel
  have e01 : (⟨2, [(packKey 0 0, 2), (packKey 0 1, -1), (packKey 1 1, 2)]⟩ : Coo ℚ).entry 0 1 = -1 := by
    decide +kernel
  have k0 : Zones.kind ⟨[false, true], [false, true], [true, true], [false, false]⟩ 0 = .free := by
    decide
  have k1 : Zones.kind ⟨[false, true], [false, true], [true, true], [false, false]⟩ 1 = .body := by
    decide
  simp [mulVec, Finset.sum_range_succ, e00, e01] at h0
  simp [e01, k0, k1, bodyValues, NodeKind.value] at h1
  constructor
  · intro hs
    have a0 := h0.mp (hs 0 (by rw [hm]; decide))
    have a1 := h1.mp (hs 1 (by rw [hm]; decide))
    constructor <;> linarith
  · rintro ⟨g0, g1⟩ r hr
    rw [hm] at hr
    have hr' : r < 2 := hr
    have : r = 0 ∨ r = 1 := by omega
    rcases this with rfl | rfl
    · exact h0.mpr (by rw [g0, g1]; norm_num)
    · exact h1.mpr (by rw [g0, g1]; norm_num)

end

end Nikfemm
