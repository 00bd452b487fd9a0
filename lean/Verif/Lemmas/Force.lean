import Verif.Spec.Force
import Verif.Lemmas.CooWF
import Verif.Lemmas.Sums
import Mathlib.Algebra.BigOperators.Ring.Finset
import Mathlib.Algebra.Order.Field.Basic
import Mathlib.Tactic.Ring

set_option linter.unusedSectionVars false

namespace Nikfemm
open Spec

section Zones
variable {K : Type} [Field K] [LinearOrder K]

/-- New value of a stored element. -/
def zoneVal (z : Zones) (k : Nat) (v : K) : K :=
  if z.kind (keyRow k) = .free then v else if keyRow k = keyCol k then 1 else 0

/-- What a stored element does to component `r` of the right-hand side. -/
def zoneRhs (z : Zones) (r : Nat) (x : K) (e : Nat × K) : K :=
  if keyCol e.1 = r then
    if keyRow e.1 = r then (if z.kind r = .free then x else (z.kind r).value)
    else if z.kind (keyRow e.1) = .body then x - e.2 else x
  else x

theorem Zones.kind_eq {z : Zones} {n v : Nat} (hz : z.Covers n) (hv : v < n) :
    ∃ bnd hole one, rd z.boundary v = .ok bnd ∧ rd z.hole v = .ok hole ∧
      rd z.insideB v = .ok one ∧
      z.kind v = if bnd = false ∨ hole = true then .away else if one = true then .body
        else .free := by
  refine ⟨z.boundary[v]'(hz.boundary ▸ hv), z.hole[v]'(hz.hole ▸ hv),
    z.insideB[v]'(hz.insideB ▸ hv), rd_ok _, rd_ok _, rd_ok _, ?_⟩
  unfold Zones.kind
  rw [List.getElem?_eq_getElem (hz.boundary ▸ hv), List.getElem?_eq_getElem (hz.hole ▸ hv),
    List.getElem?_eq_getElem (hz.insideB ▸ hv)]
  rfl

theorem zoneElem_ok {z : Zones} {n : Nat} (hz : z.Covers n) {e : Nat × K}
    (hrc : keyRow e.1 ≤ keyCol e.1) (hc : keyCol e.1 < n) {l : List (Nat × K)} {b : List K}
    (hb : b.length = n) :
    ∃ b', zoneElem z e (l, b) = .ok (l ++ [(e.1, zoneVal z e.1 e.2)], b') ∧ b'.length = n ∧
      ∀ r, r < n → fn b' r = zoneRhs z r (fn b r) e := by
  obtain ⟨bnd, hole, one, e1, e2, e3, hk⟩ := Zones.kind_eq hz (show keyRow e.1 < n by omega)
  obtain ⟨k, v⟩ := e
  simp only at hrc hc e1 e2 e3 hk
  have hset : ∀ (x : K) r, r < n → fn (b.set (keyCol k) x) r = if keyCol k = r then x else fn b r := by
    intro x r hr
    unfold fn
    rw [List.getElem?_set]
    by_cases h : keyCol k = r
    · simp [h, hb, hr]
    · simp [h]
  have hrd : rd b (keyCol k) = .ok (fn b (keyCol k)) := by
    rw [rd_ok (by omega)]
    simp [fn, hb, hc]
  have hcl : keyCol k < b.length := by omega
  unfold zoneElem
  simp only [e1, e2, e3, ok_bind]
  have hkr : ∀ r, r < n → keyRow k = r → z.kind r = z.kind (keyRow k) := by
    intro r _ h; rw [h]
  unfold zoneVal zoneRhs
  cases bnd <;> cases hole <;> cases one <;> simp at hk <;>
    by_cases hd : keyCol k = keyRow k <;>
    simp only [Bool.false_eq_true, if_true, if_false, ok_bind, hd, hk, wr_ok hcl, hrd] <;>
    first
    | (have hd' : ¬ (keyRow k = keyCol k) := fun h => hd h.symm
       simp only [hd', if_false, reduceCtorEq]
       refine ⟨_, rfl, by simp [hb], fun r hr => ?_⟩
       (try rw [hset _ r hr])
       by_cases hcr : keyCol k = r
       · have : ¬ keyRow k = r := fun h => hd (hcr.trans h.symm)
         simp [hcr, this]
       · simp [hcr])
    | (rw [← hd]
       simp only [wr_ok hcl, ok_bind, reduceCtorEq, if_false]
       refine ⟨_, rfl, by simp [hb], fun r hr => ?_⟩
       (try rw [hset _ r hr])
       by_cases hcr : keyCol k = r
       · have : z.kind r = z.kind (keyRow k) := by rw [← hcr, hd]
         simp [hcr, this, hk, NodeKind.value]
       · simp [hcr])

theorem zones_loop {z : Zones} {n : Nat} (hz : z.Covers n) :
    ∀ (l : List (Nat × K)), (∀ e ∈ l, keyRow e.1 ≤ keyCol e.1 ∧ keyCol e.1 < n) →
    ∀ (acc : List (Nat × K)) (b : List K), b.length = n →
    ∃ b', forEach (zoneElem z) l (acc, b) =
        .ok (acc ++ l.map (fun e => (e.1, zoneVal z e.1 e.2)), b') ∧ b'.length = n ∧
      ∀ r, r < n → fn b' r = l.foldl (zoneRhs z r) (fn b r) := by
  intro l
  induction l with
  | nil => intro _ acc b hb; exact ⟨b, by simp [forEach], hb, fun r _ => rfl⟩
  | cons e l ih =>
    intro hl acc b hb
    obtain ⟨h1, h2⟩ := hl e (by simp)
    obtain ⟨b1, q1, l1, f1⟩ := zoneElem_ok hz h1 h2 (l := acc) hb
    obtain ⟨b2, q2, l2, f2⟩ := ih (fun e he => hl e (by simp [he]))
      (acc ++ [(e.1, zoneVal z e.1 e.2)]) b1 l1
    refine ⟨b2, ?_, l2, fun r hr => ?_⟩
    · rw [forEach, q1]
      simp only [q2, List.map_cons, List.append_assoc, List.singleton_append]
    · rw [f2 r hr, f1 r hr, List.foldl_cons]

/-- Sum of the values stored in row `r` next to body nodes with a smaller number. -/
def bodyLoad (z : Zones) (r : Nat) (l : List (Nat × K)) : K :=
  ((l.filter (fun e => keyCol e.1 = r ∧ keyRow e.1 ≠ r ∧ z.kind (keyRow e.1) = .body)).map
    Prod.snd).sum

theorem bodyLoad_perm {z : Zones} {r : Nat} {l l' : List (Nat × K)} (h : l.Perm l') :
    bodyLoad z r l = bodyLoad z r l' := by
  unfold bodyLoad
  exact ((h.filter _).map _).sum_eq

theorem bodyLoad_cons {z : Zones} {r : Nat} (e : Nat × K) (l : List (Nat × K)) :
    bodyLoad z r (e :: l) =
      (if keyCol e.1 = r ∧ keyRow e.1 ≠ r ∧ z.kind (keyRow e.1) = .body then e.2 else 0) +
        bodyLoad z r l := by
  unfold bodyLoad
  by_cases h : keyCol e.1 = r ∧ keyRow e.1 ≠ r ∧ z.kind (keyRow e.1) = .body
  · simp [h]
  · rw [List.filter_cons_of_neg (by simpa using h), if_neg h, zero_add]

/-- Without a diagonal element that sets it, component `r` collects the values. -/
theorem foldl_zoneRhs_free {z : Zones} {r : Nat} : ∀ (l : List (Nat × K)) (x : K),
    (z.kind r = .free ∨ ∀ e ∈ l, ¬ (keyCol e.1 = r ∧ keyRow e.1 = r)) →
    l.foldl (zoneRhs z r) x = x - bodyLoad z r l := by
  intro l
  induction l with
  | nil => intro x _; simp [bodyLoad]
  | cons e l ih =>
    intro x h
    rw [List.foldl_cons, ih _ (h.imp id (fun h e he => h e (by simp [he]))), bodyLoad_cons]
    unfold zoneRhs
    by_cases h1 : keyCol e.1 = r
    · by_cases h2 : keyRow e.1 = r
      · have hf : z.kind r = .free := by
          rcases h with h | h
          · exact h
          · exact absurd ⟨h1, h2⟩ (h e (by simp))
        simp [h1, h2, hf]
      · by_cases h3 : z.kind (keyRow e.1) = .body <;> simp [h1, h2, h3]
        ring
    · simp [h1]

theorem packKey_eq_iff_row {k r : Nat} (hk : k < 2 ^ 64) (hr : r < 2 ^ 32) :
    k = packKey r r ↔ keyCol k = r ∧ keyRow k = r := by
  constructor
  · rintro rfl; exact ⟨keyCol_packKey hr hr, keyRow_packKey hr hr⟩
  · rintro ⟨h1, h2⟩
    rw [← packKey_keyRow_keyCol hk, h1, h2]

/-- `bodyLoad` in terms of the matrix. -/
theorem bodyLoad_eq {z : Zones} {r : Nat} (hr : r < 2 ^ 32) : ∀ (l : List (Nat × K)),
    (l.map Prod.fst).Nodup → (∀ k ∈ l.map Prod.fst, k < 2 ^ 64 ∧ keyRow k ≤ keyCol k) →
    bodyLoad z r l = ∑ c ∈ Finset.range r,
      if z.kind c = .body then (findKey l (packKey c r)).getD 0 else 0 := by
  intro l
  induction l with
  | nil => intro _ _; simp [bodyLoad, findKey]
  | cons e l ih =>
    intro hn hk
    simp only [List.map_cons, List.nodup_cons] at hn
    obtain ⟨k64, krc⟩ := hk e.1 (by simp)
    rw [bodyLoad_cons, ih hn.2 (fun k h => hk k (by simp [h]))]
    have hcell : ∀ q, (findKey (e :: l) q).getD 0 =
        (if e.1 = q then e.2 else 0) + (findKey l q).getD 0 := by
      intro q
      obtain ⟨k, v⟩ := e
      by_cases h : k = q
      · subst h
        rw [findKey_eq_none_iff.mpr hn.1]
        simp [findKey]
      · simp [findKey, h]
    simp only [hcell]
    have hsplit : ∀ c, (if z.kind c = NodeKind.body then
        (if e.1 = packKey c r then e.2 else 0) + (findKey l (packKey c r)).getD 0 else 0) =
        (if z.kind c = NodeKind.body then (if e.1 = packKey c r then e.2 else 0) else 0) +
        (if z.kind c = NodeKind.body then (findKey l (packKey c r)).getD 0 else 0) := by
      intro c; split <;> simp
    simp only [hsplit, Finset.sum_add_distrib]
    congr 1
    by_cases h : keyCol e.1 = r ∧ keyRow e.1 ≠ r ∧ z.kind (keyRow e.1) = .body
    · rw [if_pos h, Finset.sum_eq_single (keyRow e.1)]
      · have : e.1 = packKey (keyRow e.1) r := by
          conv_lhs => rw [← packKey_keyRow_keyCol k64, h.1]
        rw [if_pos h.2.2, if_pos this]
      · intro c hc hne
        rw [Finset.mem_range] at hc
        split
        · rw [if_neg]
          intro he
          apply hne
          rw [he, keyRow_packKey (by omega) hr]
        · rfl
      · intro hc
        rw [Finset.mem_range] at hc
        omega
    · rw [if_neg h]
      symm
      refine Finset.sum_eq_zero (fun c hc => ?_)
      rw [Finset.mem_range] at hc
      split
      · rename_i hb
        rw [if_neg]
        intro he
        apply h
        rw [he, keyRow_packKey (by omega) hr, keyCol_packKey (by omega) hr]
        exact ⟨rfl, by omega, hb⟩
      · rfl

theorem imposeZones_ok {z : Zones} {A : Coo K} (hA : CooWF A)
    (hc : ∀ k ∈ A.elems.map Prod.fst, keyCol k < A.m) (hz : z.Covers A.m) :
    ∃ S, imposeZones z A = .ok S ∧ S.A.m = A.m ∧
      S.A.elems = A.elems.map (fun e => (e.1, zoneVal z e.1 e.2)) ∧ S.b.length = A.m ∧
      ∀ r, r < A.m → fn S.b r = A.elems.foldl (zoneRhs z r) 0 := by
  obtain ⟨b, e, hb, hf⟩ := zones_loop hz A.elems (fun e he =>
    ⟨(hA.keys e.1 (List.mem_map_of_mem he)).2, hc e.1 (List.mem_map_of_mem he)⟩) []
    (List.replicate A.m 0) (by simp)
  refine ⟨⟨{ A with elems := A.elems.map (fun e => (e.1, zoneVal z e.1 e.2)) }, b⟩, ?_, rfl, rfl,
    hb, fun r hr => ?_⟩
  · unfold imposeZones
    rw [e]
    rfl
  · rw [hf r hr]
    simp [fn, hr]

end Zones

end Nikfemm
