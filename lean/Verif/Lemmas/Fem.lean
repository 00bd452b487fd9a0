import Verif.Spec.Fem
import Verif.Lemmas.CooWF
import Verif.Lemmas.NonLinear

set_option linter.unusedSectionVars false

namespace Nikfemm
open Spec

section Adj
variable {K P : Type} [Field K] [LinearOrder K]

theorem MeshData.rd_pt {D : MeshData K} {v : Nat} (h : v < D.pts.length) :
    rd D.pts v = .ok (D.pt v) := by
  simp [rd_ok h, MeshData.pt, h]

theorem MeshData.rd_tri {D : MeshData K} {t : Nat} (h : t < D.tris.length) :
    rd D.tris t = .ok (D.tri t) := by
  simp [rd_ok h, MeshData.tri, h]

theorem MeshData.tri_mem {D : MeshData K} {t : Nat} (h : t < D.tris.length) :
    D.tri t ∈ D.tris := by
  simp [MeshData.tri, h]

/-- All incidences (triangle, corner) in the order in which the code visits them. -/
def MeshData.incs (D : MeshData K) (T : Nat) : List (Nat × Nat) :=
  (List.range T).flatMap fun t => (D.tri t).verts.map (t, ·)

/-- Adjacency lists after some incidences. -/
def adjOf (mat : Nat → P) (l : List (Nat × Nat)) (v : Nat) : List (Nat × P) :=
  (l.filter (fun x => x.2 = v)).map (fun x => (x.1, mat x.1))

theorem adjOf_length (mat : Nat → P) (l : List (Nat × Nat)) (v : Nat) :
    (adjOf mat l v).length = (l.map Prod.snd).count v := by
  induction l with
  | nil => rfl
  | cons a l ih =>
    unfold adjOf at *
    by_cases h : a.2 = v <;> simp_all

theorem incs_snd (D : MeshData K) : ∀ T, T ≤ D.tris.length →
    (D.incs T).map Prod.snd = (D.tris.take T).flatMap Elem.verts := by
  intro T
  induction T with
  | zero => intro _; simp [MeshData.incs]
  | succ T ih =>
    intro h
    have := ih (by omega)
    unfold MeshData.incs at *
    rw [List.range_succ, List.flatMap_append, List.map_append, this, ← List.take_append_getElem (show T < D.tris.length by omega),
      List.flatMap_append]
    simp [MeshData.tri, show T < D.tris.length by omega, Function.comp_def]

theorem incs_count (D : MeshData K) (v : Nat) :
    ((D.incs D.tris.length).map Prod.snd).count v = D.valence v := by
  rw [incs_snd D _ (le_refl _), List.take_length]; rfl

/-- State of the adjacency loop after the incidences `l`. -/
def AdjInv (M : Mesh K P) (mat : Nat → P) (l : List (Nat × Nat)) (adj : List (List (Nat × P))) :
    Prop :=
  adj = (List.range M.data.pts.length).map (adjOf mat l)

theorem set_map_range {β : Type} {n v : Nat} (f g : Nat → β)
    (h : ∀ w, w ≠ v → g w = f w) :
    ((List.range n).map f).set v (g v) = (List.range n).map g := by
  apply List.ext_getElem (by simp)
  intro j h1 h2
  rw [List.getElem_set]
  by_cases hj : v = j
  · subst hj; simp
  · simp [hj, h j (Ne.symm hj)]

theorem adjStep_spec {M : Mesh K P} {mat : Nat → P} (hM : MeshOK M mat) {t v : Nat}
    (ht : t < M.data.tris.length) (hv : v < M.data.pts.length) (l : List (Nat × Nat)) :
    adjStep M t v ((List.range M.data.pts.length).map (adjOf mat l)) =
      if 18 ≤ (l.map Prod.snd).count v then .error .ub
      else .ok ((List.range M.data.pts.length).map (adjOf mat (l ++ [(t, v)]))) := by
  unfold adjStep
  rw [rd_ok (by simpa using hv)]
  simp only [ok_bind, List.getElem_map, List.getElem_range, adjOf_length]
  split
  · rfl
  · obtain ⟨id, h1, h2⟩ := hM.mats t ht
    rw [rd_eq_ok_iff.mpr h1]
    simp only [ok_bind, Drawing.getRegionPtrFromId, h2]
    rw [wr_ok (by simpa using hv)]
    congr 1
    have : adjOf mat l v ++ [(t, mat t)] = adjOf mat (l ++ [(t, v)]) v := by
      simp [adjOf, List.filter_append]
    rw [this]
    exact set_map_range _ _ (fun w hw => by simp [adjOf, List.filter_append, Ne.symm hw])

open Classical in
/-- The three corners of one triangle. -/
theorem adjTri_spec {M : Mesh K P} {mat : Nat → P} (hM : MeshOK M mat) {t : Nat}
    (ht : t < M.data.tris.length) (vs : List Nat) (hvs : ∀ v ∈ vs, v < M.data.pts.length) :
    ∀ l : List (Nat × Nat),
    forEach (adjStep M t) vs ((List.range M.data.pts.length).map (adjOf mat l)) =
      if ∃ v, 18 < (l.map Prod.snd ++ vs).count v ∧ v ∈ vs then .error .ub
      else .ok ((List.range M.data.pts.length).map (adjOf mat (l ++ vs.map (t, ·)))) := by
  induction vs with
  | nil => intro l; simp [forEach]
  | cons v vs ih =>
    intro l
    simp only [forEach, adjStep_spec hM ht (hvs v (by simp))]
    by_cases h : 18 ≤ (l.map Prod.snd).count v
    · rw [if_pos h, if_pos]
      exact ⟨v, by simp [List.count_append]; omega, by simp⟩
    · rw [if_neg h]
      simp only
      rw [ih (fun w hw => hvs w (by simp [hw]))]
      have e : ((l ++ [(t, v)]).map Prod.snd ++ vs) = (l.map Prod.snd ++ v :: vs) := by simp
      rw [e]
      have e2 : l ++ [(t, v)] ++ vs.map (t, ·) = l ++ (v :: vs).map (t, ·) := by simp
      rw [e2]
      congr 1
      apply propext
      constructor
      · rintro ⟨w, h1, h2⟩; exact ⟨w, h1, by simp [h2]⟩
      · rintro ⟨w, h1, h2⟩
        rcases List.mem_cons.mp h2 with rfl | h2
        · by_cases hm : w ∈ vs
          · exact ⟨w, h1, hm⟩
          · exfalso
            rw [List.count_append, List.count_cons_self, List.count_eq_zero_of_not_mem hm] at h1
            omega
        · exact ⟨w, h1, h2⟩

open Classical in
/-- The adjacency lists, or the array overrun. -/
theorem adjacency_spec {M : Mesh K P} {mat : Nat → P} (hM : MeshOK M mat) :
    adjacency M = if ∃ v, 18 < M.data.valence v then .error .ub
      else .ok ((List.range M.data.pts.length).map (adjOf mat (M.data.incs M.data.tris.length))) := by
  unfold adjacency forUp
  have key : ∀ cnt lo, lo + cnt = M.data.tris.length →
      (∀ v, ((M.data.incs lo).map Prod.snd).count v ≤ 18) →
      loopN (fun i adj => do
        let e ← rd M.data.tris i
        forEach (adjStep M i) e.verts adj) cnt lo
        ((List.range M.data.pts.length).map (adjOf mat (M.data.incs lo))) =
      if ∃ v, 18 < M.data.valence v then .error .ub
      else .ok ((List.range M.data.pts.length).map
        (adjOf mat (M.data.incs M.data.tris.length))) := by
    intro cnt
    induction cnt with
    | zero =>
      intro lo hlo hle
      obtain rfl : lo = M.data.tris.length := by omega
      rw [if_neg]
      · rfl
      · rintro ⟨v, hv⟩
        have := hle v
        rw [incs_count] at this
        omega
    | succ cnt ih =>
      intro lo hlo hle
      have ht : lo < M.data.tris.length := by omega
      unfold loopN
      rw [MeshData.rd_tri ht]
      simp only [ok_bind]
      rw [adjTri_spec hM ht _ (hM.verts _ (MeshData.tri_mem ht))]
      have e1 : M.data.incs lo ++ (M.data.tri lo).verts.map (lo, ·) = M.data.incs (lo + 1) := by
        simp [MeshData.incs, List.range_succ]
      have e2 : (M.data.incs lo).map Prod.snd ++ (M.data.tri lo).verts =
          (M.data.incs (lo + 1)).map Prod.snd := by
        rw [← e1]; simp [Function.comp_def]
      rw [e1, e2]
      by_cases h : ∃ v, 18 < ((M.data.incs (lo + 1)).map Prod.snd).count v ∧ v ∈ (M.data.tri lo).verts
      · rw [if_pos h]
        obtain ⟨v, hv, _⟩ := h
        rw [if_pos]
        refine ⟨v, ?_⟩
        rw [← incs_count]
        have : ((M.data.incs (lo + 1)).map Prod.snd).count v ≤
            ((M.data.incs M.data.tris.length).map Prod.snd).count v := by
          rw [incs_snd _ _ (by omega), incs_snd _ _ (le_refl _), List.take_length]
          apply List.Sublist.count_le
          exact (List.take_sublist _ _).flatMap _
        omega
      · rw [if_neg h]
        simp only
        refine ih (lo + 1) (by omega) (fun v => ?_)
        by_contra hc
        refine h ⟨v, by omega, ?_⟩
        by_contra hm
        rw [← e2, List.count_append, List.count_eq_zero_of_not_mem hm] at hc
        have := hle v
        omega
  have := key M.data.tris.length 0 (by omega) (by simp [MeshData.incs])
  rw [← this]
  simp only [Nat.sub_zero]
  congr 1
  apply List.ext_getElem (by simp)
  intro j h1 h2
  simp [adjOf, MeshData.incs]

end Adj

end Nikfemm
