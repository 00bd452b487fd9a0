import Verif.Lemmas.Conduction
import Verif.Spec.Force

set_option linter.unusedSectionVars false

namespace Nikfemm
open Spec

section
variable {K : Type} [Field K] [LinearOrder K] [IsStrictOrderedRing K]

/-! ### Adjacency -/

/-- The triangles at a vertex after some incidences. -/
def idsOf (l : List (Nat × Nat)) (v : Nat) : List Nat :=
  (l.filter (fun x => x.2 = v)).map Prod.fst

theorem idsOf_eq (l : List (Nat × Nat)) (v : Nat) :
    idsOf l v = (adjOf (fun _ => ()) l v).map Prod.fst := by
  simp [idsOf, adjOf, Function.comp_def]

theorem idsOf_length (l : List (Nat × Nat)) (v : Nat) :
    (idsOf l v).length = (l.map Prod.snd).count v := by
  rw [idsOf_eq, List.length_map, adjOf_length]

theorem adjIdStep_spec {n t v : Nat} (hv : v < n) (l : List (Nat × Nat)) :
    adjIdStep t v ((List.range n).map (idsOf l)) =
      if 18 ≤ (l.map Prod.snd).count v then .error .ub
      else .ok ((List.range n).map (idsOf (l ++ [(t, v)]))) := by
  unfold adjIdStep
  rw [rd_ok (by simpa using hv)]
  simp only [ok_bind, List.getElem_map, List.getElem_range, idsOf_length]
  split
  · rfl
  · rw [wr_ok (by simpa using hv)]
    congr 1
    have : idsOf l v ++ [t] = idsOf (l ++ [(t, v)]) v := by
      simp [idsOf, List.filter_append]
    rw [this]
    exact set_map_range _ _ (fun w hw => by simp [idsOf, List.filter_append, Ne.symm hw])

open Classical in
theorem adjIdTri_spec {n t : Nat} (vs : List Nat) (hvs : ∀ v ∈ vs, v < n) :
    ∀ l : List (Nat × Nat),
    forEach (adjIdStep t) vs ((List.range n).map (idsOf l)) =
      if ∃ v, 18 < (l.map Prod.snd ++ vs).count v ∧ v ∈ vs then .error .ub
      else .ok ((List.range n).map (idsOf (l ++ vs.map (t, ·)))) := by
  induction vs with
  | nil => intro l; simp [forEach]
  | cons v vs ih =>
    intro l
    simp only [forEach, adjIdStep_spec (hvs v (by simp))]
    by_cases h : 18 ≤ (l.map Prod.snd).count v
    · rw [if_pos h, if_pos]
      exact ⟨v, by simp [List.count_append]; omega, by simp⟩
    · rw [if_neg h]
      simp only
      rw [ih (fun w hw => hvs w (by simp [hw]))]
      have e : ((l ++ [(t, v)]).map Prod.snd ++ vs) = (l.map Prod.snd ++ v :: vs) := by simp
      rw [e]
      have e2 : l ++ [(t, v)] ++ vs.map (t, ·) = l ++ (v :: vs).map (t, ·) := by simp
      rw [e2]
      congr 1
      apply propext
      constructor
      · rintro ⟨w, h1, h2⟩; exact ⟨w, h1, by simp [h2]⟩
      · rintro ⟨w, h1, h2⟩
        rcases List.mem_cons.mp h2 with rfl | h2
        · by_cases hm : w ∈ vs
          · exact ⟨w, h1, hm⟩
          · exfalso
            rw [List.count_append, List.count_cons_self, List.count_eq_zero_of_not_mem hm] at h1
            omega
        · exact ⟨w, h1, h2⟩

open Classical in
/-- The adjacency lists, or the array overrun. -/
theorem adjacencyIds_spec {D : MeshData K} (hv : ∀ e ∈ D.tris, ∀ v ∈ e.verts, v < D.pts.length) :
    adjacencyIds D = if ∃ v, 18 < D.valence v then .error .ub
      else .ok ((List.range D.pts.length).map (idsOf (D.incs D.tris.length))) := by
  unfold adjacencyIds forUp
  have key : ∀ cnt lo, lo + cnt = D.tris.length →
      (∀ v, ((D.incs lo).map Prod.snd).count v ≤ 18) →
      loopN (fun i adj => do
        let e ← rd D.tris i
        forEach (adjIdStep i) e.verts adj) cnt lo
        ((List.range D.pts.length).map (idsOf (D.incs lo))) =
      if ∃ v, 18 < D.valence v then .error .ub
      else .ok ((List.range D.pts.length).map (idsOf (D.incs D.tris.length))) := by
    intro cnt
    induction cnt with
    | zero =>
      intro lo hlo hle
      obtain rfl : lo = D.tris.length := by omega
      rw [if_neg]
      · rfl
      · rintro ⟨v, hv⟩
        have := hle v
        rw [incs_count] at this
        omega
    | succ cnt ih =>
      intro lo hlo hle
      have ht : lo < D.tris.length := by omega
      unfold loopN
      rw [MeshData.rd_tri ht]
      simp only [ok_bind]
      rw [adjIdTri_spec _ (hv _ (MeshData.tri_mem ht))]
      have e1 : D.incs lo ++ (D.tri lo).verts.map (lo, ·) = D.incs (lo + 1) := by
        simp [MeshData.incs, List.range_succ]
      have e2 : (D.incs lo).map Prod.snd ++ (D.tri lo).verts =
          (D.incs (lo + 1)).map Prod.snd := by
        rw [← e1]; simp [Function.comp_def]
      rw [e1, e2]
      by_cases h : ∃ v, 18 < ((D.incs (lo + 1)).map Prod.snd).count v ∧ v ∈ (D.tri lo).verts
      · rw [if_pos h]
        obtain ⟨v, hv, _⟩ := h
        rw [if_pos]
        refine ⟨v, ?_⟩
        rw [← incs_count]
        have : ((D.incs (lo + 1)).map Prod.snd).count v ≤
            ((D.incs D.tris.length).map Prod.snd).count v := by
          rw [incs_snd _ _ (by omega), incs_snd _ _ (le_refl _), List.take_length]
          apply List.Sublist.count_le
          exact (List.take_sublist _ _).flatMap _
        omega
      · rw [if_neg h]
        simp only
        refine ih (lo + 1) (by omega) (fun v => ?_)
        by_contra hc
        refine h ⟨v, by omega, ?_⟩
        by_contra hm
        rw [← e2, List.count_append, List.count_eq_zero_of_not_mem hm] at hc
        have := hle v
        omega
  have := key D.tris.length 0 (by omega) (by simp [MeshData.incs])
  rw [← this]
  simp only [Nat.sub_zero]
  congr 1
  apply List.ext_getElem (by simp)
  intro j h1 h2
  simp [idsOf, MeshData.incs]

theorem mem_idsOf {D : MeshData K} {T i t : Nat} :
    t ∈ idsOf (D.incs T) i ↔ t < T ∧ i ∈ (D.tri t).verts := by
  rw [idsOf_eq, List.mem_map]
  constructor
  · rintro ⟨a, ha, rfl⟩
    exact ⟨(mem_adjOf ha).1, (mem_adjOf ha).2.1⟩
  · rintro ⟨h1, h2⟩
    exact ⟨(t, ()), adjOf_mem (mat := fun _ => ()) h1 h2, rfl⟩

theorem sum_idsOf {β : Type} [AddCommMonoid β] {D : MeshData K} (hsol : D.Solid) (i : Nat)
    (F : Nat → β) : ((idsOf (D.incs D.tris.length) i).map F).sum =
      ∑ t ∈ Finset.range D.tris.length, if i ∈ (D.tri t).verts then F t else 0 := by
  rw [idsOf_eq, List.map_map]
  exact sum_adjOf hsol (fun _ => ()) i (fun t _ => F t) _ (le_refl _)

/-! ### One triangle -/

/-- The corners seen from corner `i`. -/
theorem corner_data {D : MeshData K} {e : Elem} {i : Nat} (hi : i ∈ e.verts) (h : D.area2 e ≠ 0) :
    ∃ b c, otherVerts e i = .ok (b, c) ∧ i ≠ b ∧ i ≠ c ∧ b ≠ c ∧
      (∀ v, v ∈ e.verts ↔ v = i ∨ v = b ∨ v = c) ∧ D.area2 ⟨i, b, c⟩ = D.area2 e ∧
      D.hat e = D.hat ⟨i, b, c⟩ := by
  obtain ⟨n01, n02, n12⟩ := verts_ne h
  obtain ⟨v0, v1, v2⟩ := e
  simp only at n01 n02 n12
  simp only [Elem.verts, List.mem_cons, List.not_mem_nil, or_false] at hi ⊢
  rcases hi with rfl | rfl | rfl
  · exact ⟨v1, v2, by simp [otherVerts], n01, n02, n12, fun v => Iff.rfl, rfl, rfl⟩
  · refine ⟨v2, v0, by simp [otherVerts, n01.symm], n12, n01.symm, n02.symm, fun v => by tauto,
      by unfold MeshData.area2; ring, ?_⟩
    have hA : D.area2 ⟨i, v2, v0⟩ = D.area2 ⟨v0, i, v2⟩ := by unfold MeshData.area2; ring
    funext v; unfold MeshData.hat; simp only [hA]
    by_cases a1 : v = v0
    · subst a1; simp [n01, n02]
    · by_cases a2 : v = i <;> by_cases a3 : v = v2 <;> simp_all
  · refine ⟨v0, v1, by simp [otherVerts, n02.symm, n12.symm], n02.symm, n12.symm, n01,
      fun v => by tauto, by unfold MeshData.area2; ring, ?_⟩
    have hA : D.area2 ⟨i, v0, v1⟩ = D.area2 ⟨v0, v1, i⟩ := by unfold MeshData.area2; ring
    funext v; unfold MeshData.hat; simp only [hA]
    by_cases a1 : v = v0
    · subst a1; simp [n02]
    · by_cases a2 : v = v1 <;> by_cases a3 : v = i <;> simp_all

/-- What triangle `t` adds to the cell of `v` and `w`. -/
def MeshData.pull (D : MeshData K) (w : Nat → K) (k : Nat → Vec K) (t a b : Nat) : K :=
  |D.area2 (D.tri t)| * w t * (k t).dot (D.hat (D.tri t) a) * (k t).dot (D.hat (D.tri t) b)

theorem pull_not_mem {D : MeshData K} {w : Nat → K} {k : Nat → Vec K} {t a b : Nat}
    (h : a ∉ (D.tri t).verts ∨ b ∉ (D.tri t).verts) : D.pull w k t a b = 0 := by
  unfold MeshData.pull Vec.dot
  rcases h with h | h <;> rw [hat_not_mem h] <;> simp

theorem pull_comm (D : MeshData K) (w : Nat → K) (k : Nat → Vec K) (t a b : Nat) :
    D.pull w k t a b = D.pull w k t b a := by unfold MeshData.pull; ring

/-- The coefficients of triangle `t` are `k t` from whichever corner they are computed. -/
def CoeffIs (D : MeshData K) (coeff : Nat → Vec K → Vec K → Vec K → Res (Vec K))
    (k : Nat → Vec K) : Prop :=
  ∀ t a b c, t < D.tris.length → a ≠ b → a ≠ c → b ≠ c →
    (∀ v, v ∈ (D.tri t).verts ↔ v = a ∨ v = b ∨ v = c) →
    coeff t (D.pt a) (D.pt b) (D.pt c) = .ok (k t)

theorem weightedElem_ok {sq : K → K} {D : MeshData K} (hr : D.InRange) (hsol : D.Solid)
    {As : Assets K} {coeff : Nat → Vec K → Vec K → Vec K → Res (Vec K)} {k : Nat → Vec K}
    (hk : CoeffIs D coeff k) {w : Nat → K}
    (hw : ∀ t, t < D.tris.length → (do
      let err ← rd As.errs t
      elemWeight sq As.minErr As.maxErr err) = .ok (w t))
    {i t : Nat} (ht : t < D.tris.length) (hi : i ∈ (D.tri t).verts) {A : Coo K} (hA : CooWF A) :
    ∃ A', weightedElem sq D As coeff i t A = .ok A' ∧ A'.m = A.m ∧ CooWF A' ∧
      ∀ a b, a < 2 ^ 32 → b < 2 ^ 32 → findKey A'.elems (packKey a b) =
        if a = i ∧ b ∈ (D.tri t).verts ∧ i ≤ b then
          some ((findKey A.elems (packKey a b)).getD 0 + D.pull w k t b i)
        else findKey A.elems (packKey a b) := by
  have hmem := MeshData.tri_mem ht
  have hv : ∀ v ∈ (D.tri t).verts, v < D.pts.length := hr.2 _ hmem
  have h32 : ∀ v ∈ (D.tri t).verts, v < 2 ^ 32 := fun v h => (hv v h).trans hr.1
  obtain ⟨b, c, ho, n1, n2, n3, hm, hA2, hhat⟩ := corner_data hi (hsol _ hmem)
  obtain ⟨err, he, hwe⟩ := bind_eq_ok_iff.mp (hw t ht)
  have hpi := hv i hi
  have hpb := hv b ((hm b).mpr (by simp))
  have hpc := hv c ((hm c).mpr (by simp))
  have h0 := hsol _ hmem
  have hA0 : D.area2 ⟨i, b, c⟩ ≠ 0 := by rw [hA2]; exact h0
  have hneg : D.area2 ⟨i, c, b⟩ = - D.area2 ⟨i, b, c⟩ := by unfold MeshData.area2; ring
  unfold weightedElem
  rw [MeshData.rd_tri ht]
  simp only [ok_bind, ho]
  rw [doubleOrientedArea_ok hpi hpb hpc]
  simp only [ok_bind]
  by_cases hs : D.area2 ⟨i, b, c⟩ < 0
  · simp only [hs, if_true]
    have h0' : D.area2 ⟨i, c, b⟩ ≠ 0 := by rw [hneg]; exact neg_ne_zero.mpr hA0
    rw [doubleOrientedArea_ok hpi hpc hpb, MeshData.rd_pt hpi, MeshData.rd_pt hpb, MeshData.rd_pt hpc]
    simp only [ok_bind, fdiv_ok h0', he, hwe]
    rw [hk t i c b ht n2 n1 n3.symm (fun v => by rw [hm v]; tauto)]
    simp only [ok_bind]
    refine stampElem_gen (e := D.tri t) hA (fun b => D.pull w k t b i) (fun s x => x + s)
      (h32 i hi) h32 ?_ ?_ ?_ ?_ ?_ ?_ ?_
    · exact n2
    · exact n1
    · exact n3.symm
    · intro v; rw [hm v]; tauto
    all_goals
      unfold MeshData.pull Vec.dot
      rw [hhat, ← hA2]
      simp only [MeshData.hat, abs_of_neg hs, hneg, if_true, n1.symm, n2.symm, n3.symm, if_false]
      field_simp
      try ring
  · simp only [hs, if_false]
    rw [doubleOrientedArea_ok hpi hpb hpc, MeshData.rd_pt hpi, MeshData.rd_pt hpb, MeshData.rd_pt hpc]
    simp only [ok_bind, fdiv_ok hA0, he, hwe]
    rw [hk t i b c ht n1 n2 n3 hm]
    simp only [ok_bind]
    have hab' := abs_of_nonneg (not_lt.mp hs)
    refine stampElem_gen (e := D.tri t) hA (fun b => D.pull w k t b i) (fun s x => x + s)
      (h32 i hi) h32 ?_ ?_ ?_ ?_ ?_ ?_ ?_
    · exact n1
    · exact n2
    · exact n3
    · exact hm
    all_goals
      unfold MeshData.pull Vec.dot
      rw [hhat, ← hA2]
      simp only [MeshData.hat, hab', if_true, n1.symm, n2.symm, n3.symm, if_false]
      try ring

/-! ### Rows -/

/-- What the cell `(i, b)` becomes by one triangle. -/
def pullStep (D : MeshData K) (w : Nat → K) (k : Nat → Vec K) (i b : Nat) (o : Option K) (t : Nat) :
    Option K := if b ∈ (D.tri t).verts then some (o.getD 0 + D.pull w k t b i) else o

theorem pullStep_isSome {D : MeshData K} {w : Nat → K} {k : Nat → Vec K} {i b : Nat} :
    ∀ (l : List Nat) (o : Option K),
    (l.foldl (pullStep D w k i b) o).isSome ↔ o.isSome ∨ ∃ t ∈ l, b ∈ (D.tri t).verts := by
  intro l
  induction l with
  | nil => intro o; simp
  | cons a l ih =>
    intro o
    rw [List.foldl_cons, ih]
    unfold pullStep
    by_cases h : b ∈ (D.tri a).verts <;> simp [h]

theorem pullStep_sum {D : MeshData K} {w : Nat → K} {k : Nat → Vec K} {i b : Nat} :
    ∀ (l : List Nat) (o : Option K),
    (l.foldl (pullStep D w k i b) o).getD 0 = o.getD 0 + (l.map (fun t => D.pull w k t b i)).sum := by
  intro l
  induction l with
  | nil => intro o; simp
  | cons a l ih =>
    intro o
    rw [List.foldl_cons, ih, List.map_cons, List.sum_cons, ← add_assoc]
    congr 1
    unfold pullStep
    by_cases h : b ∈ (D.tri a).verts
    · rw [if_pos h]; simp
    · rw [if_neg h, pull_not_mem (Or.inl h)]; simp

theorem weightedRow_ok {sq : K → K} {D : MeshData K} (hr : D.InRange) (hsol : D.Solid)
    {As : Assets K} {coeff : Nat → Vec K → Vec K → Vec K → Res (Vec K)} {k : Nat → Vec K}
    (hk : CoeffIs D coeff k) {w : Nat → K}
    (hw : ∀ t, t < D.tris.length → (do
      let err ← rd As.errs t
      elemWeight sq As.minErr As.maxErr err) = .ok (w t)) {i : Nat} :
    ∀ (l : List Nat), (∀ t ∈ l, t < D.tris.length ∧ i ∈ (D.tri t).verts) → ∀ A : Coo K, CooWF A →
    ∃ A', forEach (weightedElem sq D As coeff i) l A = .ok A' ∧ A'.m = A.m ∧ CooWF A' ∧
      ∀ a b, a < 2 ^ 32 → b < 2 ^ 32 → findKey A'.elems (packKey a b) =
        if a = i ∧ i ≤ b then l.foldl (pullStep D w k i b) (findKey A.elems (packKey a b))
        else findKey A.elems (packKey a b)
  | [], _, A, hA => ⟨A, rfl, rfl, hA, fun a b _ _ => by simp⟩
  | t :: l, hl, A, hA => by
    obtain ⟨ht, hi⟩ := hl t (by simp)
    obtain ⟨A1, q1, m1, w1, f1⟩ := weightedElem_ok hr hsol hk hw ht hi hA
    obtain ⟨A2, q2, m2, w2, f2⟩ := weightedRow_ok hr hsol hk hw l (fun t h => hl t (by simp [h])) A1 w1
    refine ⟨A2, ?_, by rw [m2, m1], w2, fun a b ha hb => ?_⟩
    · simp only [forEach, q1]
      exact q2
    · rw [f2 a b ha hb, f1 a b ha hb]
      by_cases h : a = i ∧ i ≤ b
      · rw [if_pos h, if_pos h, List.foldl_cons]
        congr 1
        unfold pullStep
        by_cases hbm : b ∈ (D.tri t).verts
        · rw [if_pos ⟨h.1, hbm, h.2⟩, if_pos hbm]
        · rw [if_neg (fun hc => hbm hc.2.1), if_neg hbm]
      · rw [if_neg h, if_neg h, if_neg (fun hc => h ⟨hc.1, hc.2.2⟩)]

theorem weightedMatrix_ok {sq : K → K} {D : MeshData K} (hr : D.InRange) (hsol : D.Solid)
    {As : Assets K} (hadj : adjacencyIds D = .ok As.adj)
    {coeff : Nat → Vec K → Vec K → Vec K → Res (Vec K)} {k : Nat → Vec K}
    (hk : CoeffIs D coeff k) {w : Nat → K}
    (hw : ∀ t, t < D.tris.length → (do
      let err ← rd As.errs t
      elemWeight sq As.minErr As.maxErr err) = .ok (w t)) :
    ∃ A, weightedMatrix sq D As coeff = .ok A ∧ A.m = D.pts.length ∧ CooWF A ∧
      ∀ a b, a < 2 ^ 32 → b < 2 ^ 32 → findKey A.elems (packKey a b) =
        if a < D.pts.length ∧ a ≤ b then
          (idsOf (D.incs D.tris.length) a).foldl (pullStep D w k a b) none
        else none := by
  have hsz := hr.1
  rw [adjacencyIds_spec hr.2] at hadj
  split at hadj
  · cases hadj
  have hadj' : As.adj = (List.range D.pts.length).map (idsOf (D.incs D.tris.length)) := by
    injection hadj with h; exact h.symm
  unfold weightedMatrix
  obtain ⟨A, e, hm, hwf, hc⟩ := forUp_inv (body := fun i A => do
      let l ← rd As.adj i
      forEach (weightedElem sq D As coeff i) l A)
    (fun r (A : Coo K) => A.m = D.pts.length ∧ CooWF A ∧
      ∀ a b, a < 2 ^ 32 → b < 2 ^ 32 → findKey A.elems (packKey a b) =
        if a < r ∧ a ≤ b then
          (idsOf (D.incs D.tris.length) a).foldl (pullStep D w k a b) none
        else none) (lo := 0) (hi := D.pts.length) (s := Coo.new D.pts.length) (Nat.zero_le _)
    ⟨rfl, CooWF.new _, fun a b _ _ => by simp [Coo.new, findKey]⟩ (by
      rintro i A - hi ⟨hm, hwf, hc⟩
      rw [hadj', rd_ok (by simpa using hi)]
      simp only [ok_bind, List.getElem_map, List.getElem_range]
      obtain ⟨A', q, m, w', f⟩ := weightedRow_ok hr hsol hk hw (idsOf (D.incs D.tris.length) i)
        (fun t h => mem_idsOf.mp h) A hwf
      refine ⟨A', q, by rw [m, hm], w', fun a b ha hb => ?_⟩
      rw [f a b ha hb, hc a b ha hb]
      by_cases h1 : a = i
      · subst h1
        by_cases h2 : a ≤ b <;> simp [h2]
      · rw [if_neg (by tauto)]
        refine if_congr ?_ rfl rfl
        omega)
  exact ⟨A, e, hm, hwf, hc⟩

end

end Nikfemm
