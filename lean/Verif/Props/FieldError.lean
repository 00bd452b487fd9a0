import Verif.Lemmas.EdgeTable
import Verif.Lemmas.Conduction
import Verif.Lemmas.NonLinear
import Verif.Props.Display
import Mathlib.Analysis.Real.Sqrt

set_option linter.unusedSectionVars false

/-!
# Field errors and weights of the triangles (C68)
-/

namespace Nikfemm

section
variable {K : Type} [Field K] [LinearOrder K] [IsStrictOrderedRing K]

theorem MeshData.Solid.nodup {D : MeshData K} (h : D.Solid) : ∀ e ∈ D.tris, e.verts.Nodup :=
  fun e he => verts_nodup (h e he)

theorem MeshData.InRange.small {D : MeshData K} (h : D.InRange) :
    ∀ e ∈ D.tris, ∀ v ∈ e.verts, v < 2 ^ 32 :=
  fun e he v hv => (h.2 e he v hv).trans h.1

theorem hasEdge_mem {e : Elem} {a b : Nat} (h : e.HasEdge a b) : a ∈ e.verts ∧ b ∈ e.verts := by
  obtain ⟨s, hs, hh⟩ := h
  simp only [Elem.sides, List.mem_cons, List.not_mem_nil, or_false] at hs
  unfold SameEdge at hh
  simp only at hh
  simp only [Elem.verts, List.mem_cons, List.not_mem_nil, or_false]
  rcases hs with rfl | rfl | rfl <;> rcases hh with ⟨h1, h2⟩ | ⟨h1, h2⟩ <;> simp only at h1 h2 <;>
    subst h1 <;> subst h2 <;> simp

theorem recorded_length {D : MeshData K} (hr : D.InRange) (hs : D.Solid) {a b : Nat} (ha : a < 2 ^ 32)
    (hb : b < 2 ^ 32) : (recorded (sideIncs 0 D.tris) (edgeKey a b)).length =
      (D.tris.filter (fun e => e.HasEdge a b)).length := by
  rw [recorded_sides _ _ hs.nodup hr.small ha hb, List.length_map]
  have : ∀ (l : List Elem) n, ((l.zipIdx n).filter (fun x => x.1.HasEdge a b)).length =
      (l.filter (fun e => e.HasEdge a b)).length := by
    intro l
    induction l with
    | nil => intro n; rfl
    | cons e l ih =>
      intro n
      rw [List.zipIdx_cons, List.filter_cons, List.filter_cons]
      by_cases h : e.HasEdge a b <;> simp [h, ih]
  exact this _ _

theorem recorded_short_iff {D : MeshData K} (hr : D.InRange) (hs : D.Solid) :
    (∀ k, (recorded (sideIncs 0 D.tris) k).length ≤ 2) ↔
      ∀ a b, (D.tris.filter (fun e => e.HasEdge a b)).length ≤ 2 := by
  constructor
  · intro h a b
    by_cases hab : a < 2 ^ 32 ∧ b < 2 ^ 32
    · rw [← recorded_length hr hs hab.1 hab.2]
      exact h _
    · have : D.tris.filter (fun e => e.HasEdge a b) = [] := by
        refine List.filter_eq_nil_iff.mpr (fun e he hh => hab ?_)
        have hm := hasEdge_mem (of_decide_eq_true hh)
        exact ⟨hr.small e he a hm.1, hr.small e he b hm.2⟩
      rw [this]
      exact Nat.zero_le _
  · intro h k
    by_cases h0 : recorded (sideIncs 0 D.tris) k = []
    · rw [h0]; exact Nat.zero_le _
    · obtain ⟨e, he, s, hm, rfl⟩ := recorded_nil h0
      have hv : s.1 ∈ e.verts ∧ s.2 ∈ e.verts :=
        hasEdge_mem (e := e) ⟨s, hm, Or.inl ⟨rfl, rfl⟩⟩
      rw [recorded_length hr hs (hr.small e he _ hv.1) (hr.small e he _ hv.2)]
      exact h _ _

/-- **C68.** The table of the triangles at each side is built exactly when no side belongs to more
than two triangles; otherwise the third triangle is written behind an array of two. -/
theorem edge_table_outcome (D : MeshData K) (hr : D.InRange) (hs : D.Solid) :
    ((∀ a b, (D.tris.filter (fun e => e.HasEdge a b)).length ≤ 2) → ∃ tab, edgeTable D.tris = .ok tab) ∧
    ((∃ a b, 2 < (D.tris.filter (fun e => e.HasEdge a b)).length) →
      edgeTable D.tris = .error .ub) := by
  have := edgeTable_spec D.tris
  by_cases h : ∀ k, (recorded (sideIncs 0 D.tris) k).length ≤ 2
  · rw [if_pos h] at this
    obtain ⟨tab, e, -⟩ := this
    refine ⟨fun _ => ⟨tab, e⟩, fun ⟨a, b, hab⟩ => ?_⟩
    exact absurd ((recorded_short_iff hr hs).mp h a b) (Nat.not_le.mpr hab)
  · rw [if_neg h] at this
    exact ⟨fun hc => absurd ((recorded_short_iff hr hs).mpr hc) h, fun _ => this⟩

/-- **C68.** Across each side the code looks at the other triangle with this side; at a side of the
border it looks at triangle number 0, wherever that is. -/
theorem neighbour_spec (D : MeshData K) (hr : D.InRange) (hs : D.Solid)
    (tab : List (Nat × List Nat)) (htab : edgeTable D.tris = .ok tab) (t : Nat)
    (ht : t < D.tris.length) (a b : Nat) (hab : (D.tri t).HasEdge a b) :
    D.Across t a b (neighbourOf tab (edgeKey a b) t) := by
  have := edgeTable_spec D.tris
  split at this
  swap
  · rw [htab] at this; cases this
  rename_i h2
  obtain ⟨tab', e', hinv⟩ := this
  rw [htab] at e'
  cases e'
  have hm := hasEdge_mem hab
  have ha := hr.small _ (MeshData.tri_mem ht) a hm.1
  have hb := hr.small _ (MeshData.tri_mem ht) b hm.2
  have hrec := recorded_sides D.tris 0 hs.nodup hr.small ha hb
  have hlen := h2 (edgeKey a b)
  have hk := hinv (edgeKey a b)
  have hmem : ∀ u, u ∈ recorded (sideIncs 0 D.tris) (edgeKey a b) ↔
      u < D.tris.length ∧ (D.tri u).HasEdge a b := by
    intro u
    rw [hrec]
    simp only [List.mem_map, List.mem_filter, List.mem_zipIdx_iff_getElem?, decide_eq_true_eq]
    constructor
    · rintro ⟨x, ⟨hx, hh⟩, rfl⟩
      obtain ⟨hu, hx'⟩ := List.getElem?_eq_some_iff.mp hx
      refine ⟨hu, ?_⟩
      rw [MeshData.tri, hx]
      exact hh
    · rintro ⟨hu, hh⟩
      refine ⟨(D.tri u, u), ⟨?_, hh⟩, rfl⟩
      simp [MeshData.tri, hu]
  have hnd : (recorded (sideIncs 0 D.tris) (edgeKey a b)).Nodup := by
    rw [hrec]
    refine List.Nodup.sublist (List.Sublist.map _ List.filter_sublist) ?_
    rw [List.zipIdx_map_snd]
    exact List.nodup_range'
  have htm := (hmem t).mpr ⟨ht, hab⟩
  rw [if_neg (List.ne_nil_of_mem htm)] at hk
  unfold neighbourOf
  rw [hk]
  simp only [Option.getD_some]
  generalize recorded (sideIncs 0 D.tris) (edgeKey a b) = R at *
  match R, hlen, hnd, htm with
  | [x], _, _, htm =>
    obtain rfl := List.mem_singleton.mp htm
    refine Or.inr ⟨by simp, fun u hu hne hh => hne ?_⟩
    exact List.mem_singleton.mp ((hmem u).mpr ⟨hu, hh⟩)
  | [x, y], _, hnd, htm =>
    have hxy : x ≠ y := by
      intro hc; subst hc; simp at hnd
    refine Or.inl ?_
    by_cases hx : x = t
    · subst hx
      have := (hmem y).mp (by simp)
      simpa using ⟨this.1, hxy.symm, this.2⟩
    · have := (hmem x).mp (by simp)
      simp only [List.getElem?_cons_zero, Option.getD_some, if_neg hx]
      exact ⟨this.1, hx, this.2⟩

theorem edge_term {sq : K → K} (hsq : ∀ a, 0 ≤ a → sq a * sq a = a) (p q d : Vec K) :
    ((q.sub p).normal.normalize sq).cross d * p.dist sq q = -along p q d := by
  have he : (q.sub p).normal.norm sq = p.dist sq q := by
    unfold Vec.norm Vec.dist Vec.normal Vec.sub
    congr 1
    simp only
    ring
  have h2 : p.dist sq q * p.dist sq q = (p.x - q.x) ^ 2 + (p.y - q.y) ^ 2 :=
    hsq _ (add_nonneg (sq_nonneg _) (sq_nonneg _))
  unfold Vec.normalize
  simp only [he]
  by_cases h0 : p.dist sq q = 0
  · rw [if_pos h0]
    rw [h0, mul_zero] at h2
    have hx : p.x - q.x = 0 := by
      have := (add_eq_zero_iff_of_nonneg (sq_nonneg _) (sq_nonneg _)).mp h2.symm
      exact pow_eq_zero_iff (two_ne_zero) |>.mp this.1
    have hy : p.y - q.y = 0 := by
      have := (add_eq_zero_iff_of_nonneg (sq_nonneg _) (sq_nonneg _)).mp h2.symm
      exact pow_eq_zero_iff (two_ne_zero) |>.mp this.2
    rw [h0, mul_zero]
    unfold along
    rw [← sub_eq_zero.mp hx, ← sub_eq_zero.mp hy]
    ring
  · rw [if_neg h0]
    unfold Vec.cross Vec.normal Vec.sub along
    simp only
    field_simp
    ring

theorem edgeJump_ok {sq : K → K} (hsq : ∀ a, 0 ≤ a → sq a * sq a = a) {D : MeshData K}
    {B : List (Vec K)} {tab : List (Nat × List Nat)} {i a b : Nat} (ha : a < D.pts.length)
    (hb : b < D.pts.length) (hi : i < B.length) (hn : neighbourOf tab (edgeKey a b) i < B.length)
    (err : K) :
    edgeJump sq D B tab i a b err = .ok (err - along (D.pt a) (D.pt b)
      ((fieldAt B (neighbourOf tab (edgeKey a b) i)).sub (fieldAt B i))) := by
  have hf : ∀ j, j < B.length → rd B j = .ok (fieldAt B j) := by
    intro j hj
    simp [rd_ok hj, fieldAt, hj]
  unfold edgeJump
  simp only [MeshData.rd_pt ha, MeshData.rd_pt hb, ok_bind, hf i hi, hf _ hn]
  rw [edge_term hsq, sub_eq_add_neg]

theorem edgeKey_comm (a b : Nat) : edgeKey a b = edgeKey b a := by
  unfold edgeKey
  rcases Nat.lt_trichotomy a b with h | h | h
  · rw [if_pos h, if_neg (Nat.lt_asymm h)]
  · rw [h]
  · rw [if_neg (Nat.lt_asymm h), if_pos h]

/-- **C68.** The error of a triangle is a third of the size of its field, minus the sum over its
sides, in counterclockwise order, of the side times the field across it.  The field of the triangle
itself does not enter the second part. -/
theorem field_error_formula (sq : K → K) (hsq : ∀ a, 0 ≤ a → sq a * sq a = a) (D : MeshData K)
    (hr : D.InRange) (hs : D.Solid) (B : List (Vec K)) (hB : B.length = D.tris.length)
    (tab : List (Nat × List Nat)) (htab : edgeTable D.tris = .ok tab) (t : Nat)
    (ht : t < D.tris.length) :
    ∃ n0 n1 n2, D.Across t (D.tri t).v0 (D.tri t).v1 n0 ∧ D.Across t (D.tri t).v1 (D.tri t).v2 n1 ∧
      D.Across t (D.tri t).v2 (D.tri t).v0 n2 ∧
      fieldError sq D B tab t = .ok ((fieldAt B t).norm sq / 3 -
        (if D.area2 (D.tri t) < 0 then -1 else 1) *
          (along (D.pt (D.tri t).v0) (D.pt (D.tri t).v1) (fieldAt B n0) +
           along (D.pt (D.tri t).v1) (D.pt (D.tri t).v2) (fieldAt B n1) +
           along (D.pt (D.tri t).v2) (D.pt (D.tri t).v0) (fieldAt B n2))) := by
  set e := D.tri t with hee
  have hv : ∀ v ∈ e.verts, v < D.pts.length := hr.2 e (MeshData.tri_mem ht)
  have h0 := hv e.v0 (by simp [Elem.verts])
  have h1 := hv e.v1 (by simp [Elem.verts])
  have h2 := hv e.v2 (by simp [Elem.verts])
  have a0 := neighbour_spec D hr hs tab htab t ht e.v0 e.v1
    ⟨(e.v0, e.v1), by simp [Elem.sides, ← hee], Or.inl ⟨rfl, rfl⟩⟩
  have a1 := neighbour_spec D hr hs tab htab t ht e.v1 e.v2
    ⟨(e.v1, e.v2), by simp [Elem.sides, ← hee], Or.inl ⟨rfl, rfl⟩⟩
  have a2 := neighbour_spec D hr hs tab htab t ht e.v2 e.v0
    ⟨(e.v2, e.v0), by simp [Elem.sides, ← hee], Or.inl ⟨rfl, rfl⟩⟩
  refine ⟨_, _, _, a0, a1, a2, ?_⟩
  have hin : ∀ a b nb, D.Across t a b nb → nb < B.length := by
    rintro a b nb (⟨h, -, -⟩ | ⟨h, -⟩) <;> omega
  have hti : t < B.length := by omega
  have k0 := hin _ _ _ a0
  have k1 := hin _ _ _ a1
  have k2 := hin _ _ _ a2
  have hft : rd B t = .ok (fieldAt B t) := by simp [rd_ok hti, fieldAt, hti]
  have harea : Vec.doubleOrientedArea (D.pt e.v0) (D.pt e.v1) (D.pt e.v2) = D.area2 e := by
    unfold Vec.doubleOrientedArea MeshData.area2; ring
  unfold fieldError
  simp only [hft, MeshData.rd_tri ht, ← hee, MeshData.rd_pt h0, MeshData.rd_pt h1, MeshData.rd_pt h2,
    ok_bind, harea]
  by_cases hneg : D.area2 e < 0
  · simp only [if_pos hneg]
    rw [edgeKey_comm e.v0 e.v1] at k0 ⊢
    rw [edgeKey_comm e.v1 e.v2] at k1 ⊢
    rw [edgeKey_comm e.v2 e.v0] at k2 ⊢
    rw [edgeJump_ok hsq h1 h0 hti k0, ok_bind, edgeJump_ok hsq h0 h2 hti k2, ok_bind,
      edgeJump_ok hsq h2 h1 hti k1]
    congr 1
    unfold along Vec.sub
    ring
  · simp only [if_neg hneg]
    rw [edgeJump_ok hsq h0 h1 hti k0, ok_bind, edgeJump_ok hsq h1 h2 hti k1, ok_bind,
      edgeJump_ok hsq h2 h0 hti k2]
    congr 1
    unfold along Vec.sub
    ring

/-- **C68.** If the fields across the three sides are equal, whatever the field in the triangle, the
error is a third of the size of its field. -/
theorem field_error_uniform (sq : K → K) (hsq : ∀ a, 0 ≤ a → sq a * sq a = a) (D : MeshData K)
    (hr : D.InRange) (hs : D.Solid) (B : List (Vec K)) (hB : B.length = D.tris.length)
    (tab : List (Nat × List Nat)) (htab : edgeTable D.tris = .ok tab) (t : Nat)
    (ht : t < D.tris.length) (C : Vec K)
    (hC : ∀ s ∈ (D.tri t).sides, ∀ nb, D.Across t s.1 s.2 nb → fieldAt B nb = C) :
    fieldError sq D B tab t = .ok ((fieldAt B t).norm sq / 3) := by
  obtain ⟨n0, n1, n2, a0, a1, a2, e⟩ := field_error_formula sq hsq D hr hs B hB tab htab t ht
  rw [e, hC ((D.tri t).v0, (D.tri t).v1) (by simp [Elem.sides]) _ a0,
    hC ((D.tri t).v1, (D.tri t).v2) (by simp [Elem.sides]) _ a1,
    hC ((D.tri t).v2, (D.tri t).v0) (by simp [Elem.sides]) _ a2]
  congr 1
  unfold along
  ring

/-- **C68.** The list of errors has the error of each triangle. -/
theorem field_errors_all (sq : K → K) (hsq : ∀ a, 0 ≤ a → sq a * sq a = a) (D : MeshData K)
    (hr : D.InRange) (hs : D.Solid) (B : List (Vec K)) (hB : B.length = D.tris.length)
    (tab : List (Nat × List Nat)) (htab : edgeTable D.tris = .ok tab) :
    ∃ errs, fieldErrors sq D B tab = .ok errs ∧ errs.length = D.tris.length ∧
      ∀ t, t < D.tris.length → ∃ x, errs[t]? = some x ∧ fieldError sq D B tab t = .ok x := by
  have hex : ∀ t, ∃ x, t < D.tris.length → fieldError sq D B tab t = .ok x := by
    intro t
    by_cases ht : t < D.tris.length
    · obtain ⟨_, _, _, -, -, -, e⟩ := field_error_formula sq hsq D hr hs B hB tab htab t ht
      exact ⟨_, fun _ => e⟩
    · exact ⟨0, fun h => absurd h ht⟩
  choose h hh using hex
  refine ⟨(List.range D.tris.length).map h, fill_loop (by simp) hh, by simp, fun t ht => ?_⟩
  exact ⟨h t, by simp [ht], hh t ht⟩

/-- **C68.** The smallest and the largest error.  The largest is never below `lo`, the smallest
positive number, so it is not an error of the mesh when all errors are negative. -/
theorem error_range (hi lo : K) (errs : List K) :
    (∀ x ∈ errs, (errRange hi lo errs).1 ≤ x ∧ x ≤ (errRange hi lo errs).2) ∧
    ((errRange hi lo errs).1 = hi ∨ (errRange hi lo errs).1 ∈ errs) ∧
    ((errRange hi lo errs).2 = lo ∨ (errRange hi lo errs).2 ∈ errs) ∧
    (errRange hi lo errs).1 ≤ hi ∧ lo ≤ (errRange hi lo errs).2 := by
  unfold errRange
  induction errs generalizing hi lo with
  | nil => simp
  | cons e errs ih =>
    obtain ⟨h1, h2, h3, h4, h5⟩ := ih (min hi e) (max lo e)
    simp only [List.foldl_cons]
    generalize List.foldl (fun (s : K × K) e => (min s.1 e, max s.2 e)) (min hi e, max lo e) errs = r at *
    refine ⟨?_, ?_, ?_, h4.trans (min_le_left _ _), (le_max_left _ _).trans h5⟩
    · intro x hx
      rcases List.mem_cons.mp hx with rfl | hx
      · exact ⟨h4.trans (min_le_right _ _), (le_max_right _ _).trans h5⟩
      · exact h1 x hx
    · rcases h2 with h2 | h2
      · rcases min_choice hi e with h | h
        · exact Or.inl (h2.trans h)
        · exact Or.inr (by rw [h2, h]; simp)
      · exact Or.inr (by simp [h2])
    · rcases h3 with h3 | h3
      · rcases max_choice lo e with h | h
        · exact Or.inl (h3.trans h)
        · exact Or.inr (by rw [h3, h]; simp)
      · exact Or.inr (by simp [h3])

/-- **C68.** The weight of a triangle is between 1 and 1000, grows with the error, is 1 exactly when
the *root* of the error is at most the smallest error and 1000 exactly when the root is at least the
largest error. -/
theorem weight_limits (sq : K → K) (lo hi err : K) (h : lo < hi) :
    ∃ w, elemWeight sq lo hi err = .ok w ∧ 1 ≤ w ∧ w ≤ 1000 ∧ (w = 1 ↔ sq |err| ≤ lo) ∧
      (w = 1000 ↔ hi ≤ sq |err|) ∧
      ∀ err' w', elemWeight sq lo hi err' = .ok w' → sq |err| ≤ sq |err'| → w ≤ w' := by
  have hd : 0 < hi - lo := sub_pos.mpr h
  have e : ∀ err, elemWeight sq lo hi err =
      .ok (limit ((sq |err| - lo) * (1000 - 1) / (hi - lo) + 1) 1 1000) := by
    intro err
    unfold elemWeight mapRange
    rw [fdiv_ok hd.ne', ok_bind, ok_bind]
  have l1 : ∀ x, (sq |x| - lo) * (1000 - 1) / (hi - lo) + 1 ≤ 1 ↔ sq |x| ≤ lo := by
    intro x
    rw [add_le_iff_nonpos_left, div_le_iff₀ hd]
    constructor <;> intro h <;> linarith
  have l2 : ∀ x, 1000 ≤ (sq |x| - lo) * (1000 - 1) / (hi - lo) + 1 ↔ hi ≤ sq |x| := by
    intro x
    rw [← sub_le_iff_le_add, le_div_iff₀ hd]
    constructor <;> intro h <;> linarith
  have mono : ∀ x y, sq |x| ≤ sq |y| → (sq |x| - lo) * (1000 - 1) / (hi - lo) + 1 ≤
      (sq |y| - lo) * (1000 - 1) / (hi - lo) + 1 := by
    intro x y hxy
    rw [add_le_add_iff_right, div_le_div_iff_of_pos_right hd]
    linarith
  have k1 := l1 err
  have k2 := l2 err
  have hm := mono err
  refine ⟨_, e err, ?_⟩
  have hl : ∀ y : K, 1 ≤ limit y 1 1000 ∧ limit y 1 1000 ≤ 1000 ∧ (limit y 1 1000 = 1 ↔ y ≤ 1) ∧
      (limit y 1 1000 = 1000 ↔ 1000 ≤ y) := by
    intro y
    unfold limit
    split_ifs with h1 h2
    · refine ⟨le_rfl, by norm_num, by simp [h1.le], ?_⟩
      constructor
      · intro h; norm_num at h
      · intro h; linarith
    · refine ⟨by norm_num, le_rfl, ?_, by simp [h2.le]⟩
      constructor
      · intro h; norm_num at h
      · intro h; linarith
    · refine ⟨not_lt.mp h1, not_lt.mp h2, ?_, ?_⟩
      · exact ⟨fun h => h.le, fun h => le_antisymm h (not_lt.mp h1)⟩
      · exact ⟨fun h => h.ge, fun h => le_antisymm (not_lt.mp h2) h⟩
  obtain ⟨a1, a2, a3, a4⟩ := hl ((sq |err| - lo) * (1000 - 1) / (hi - lo) + 1)
  refine ⟨a1, a2, a3.trans k1, a4.trans k2, ?_⟩
  intro err' w' hw' hle
  rw [e err'] at hw'
  cases hw'
  have := hm err' hle
  generalize (sq |err| - lo) * (1000 - 1) / (hi - lo) + 1 = y at *
  generalize (sq |err'| - lo) * (1000 - 1) / (hi - lo) + 1 = z at *
  unfold limit
  split_ifs <;> linarith

/-- **C68.** The weight is not a number when the smallest and the largest error are equal. -/
theorem weight_fails (sq : K → K) (lo err : K) : elemWeight sq lo lo err = .error .nonfinite := by
  unfold elemWeight mapRange
  rw [sub_self, fdiv_zero, error_bind, error_bind]

/-- **C68.** If all errors are negative, every triangle whose error is not tiny has the weight
1000. -/
theorem weight_saturated (sq : K → K) (hi lo : K) (errs : List K) (hlo : 0 < lo)
    (hneg : ∀ x ∈ errs, x < 0) (hne : errs ≠ []) (x : K) (hx : lo ≤ sq |x|) :
    elemWeight sq (errRange hi lo errs).1 (errRange hi lo errs).2 x = .ok 1000 := by
  obtain ⟨h1, -, h3, -, -⟩ := error_range hi lo errs
  have h2 : (errRange hi lo errs).2 = lo := by
    refine h3.resolve_right (fun h => ?_)
    have := hneg _ h
    have := (error_range hi lo errs).2.2.2.2
    linarith
  obtain ⟨y, hy⟩ := List.exists_mem_of_ne_nil _ hne
  have := hneg y hy
  have := (h1 y hy).1
  obtain ⟨w, ew, -, -, -, h, -⟩ := weight_limits sq (errRange hi lo errs).1 (errRange hi lo errs).2 x
    (by rw [h2]; linarith)
  rw [ew, h.mpr (by rw [h2]; exact hx)]

end

/-! ## Examples -/

/-- A unit square cut into two triangles. -/
noncomputable def exTwo : MeshData ℝ :=
  ⟨[⟨0, 0⟩, ⟨1, 0⟩, ⟨1, 1⟩, ⟨0, 1⟩], [⟨0, 1, 2⟩, ⟨0, 2, 3⟩], [0, 0], [0, 0, 0, 0]⟩

theorem exTwo_range : exTwo.InRange := by
  refine ⟨by simp [exTwo], ?_⟩
  intro e he v hv
  simp only [exTwo, List.mem_cons, List.not_mem_nil, or_false] at he
  rcases he with rfl | rfl <;> simp [Elem.verts] at hv <;> simp [exTwo] <;> omega

theorem exTwo_solid : exTwo.Solid := by
  intro e he
  simp only [exTwo, List.mem_cons, List.not_mem_nil, or_false] at he
  rcases he with rfl | rfl <;> simp [MeshData.area2, MeshData.pt, exTwo]

/-- Two triangles with the same field.  Each of them sees the other, and itself or triangle 0 at the
border: the error is a third of the size of the field. -/
example : ∃ tab, edgeTable exTwo.tris = .ok tab ∧ ∀ t, t < 2 →
    fieldError Real.sqrt exTwo [⟨3, 4⟩, ⟨3, 4⟩] tab t = .ok ((⟨3, 4⟩ : Vec ℝ).norm Real.sqrt / 3) := by
  obtain ⟨tab, e⟩ : ∃ tab, edgeTable exTwo.tris = .ok tab :=
    (edge_table_outcome exTwo exTwo_range exTwo_solid).1 (fun _ _ => List.length_filter_le _ _)
  refine ⟨tab, e, fun t ht => ?_⟩
  have hf : ∀ u, u < 2 → fieldAt ([⟨3, 4⟩, ⟨3, 4⟩] : List (Vec ℝ)) u = ⟨3, 4⟩ := by
    intro u hu
    have : u = 0 ∨ u = 1 := by omega
    rcases this with rfl | rfl <;> rfl
  have := field_error_uniform Real.sqrt (fun a ha => Real.mul_self_sqrt ha) exTwo exTwo_range
    exTwo_solid [⟨3, 4⟩, ⟨3, 4⟩] rfl tab e t ht ⟨3, 4⟩ (by
      rintro s - nb (⟨h, -, -⟩ | ⟨h, -⟩)
      · exact hf nb h
      · rw [h]; exact hf 0 (by decide))
  rw [hf t ht] at this
  exact this

/-- Three triangles at one side. -/
example : edgeTable [⟨0, 1, 2⟩, ⟨0, 3, 1⟩, ⟨0, 1, 4⟩] = .error .ub := by decide +kernel

example : elemWeight Real.sqrt 0 9 (-4) = .ok 223 := by
  have : Real.sqrt |(-4 : ℝ)| = 2 := by
    rw [show |(-4 : ℝ)| = 2 ^ 2 by norm_num]; exact Real.sqrt_sq (by norm_num)
  unfold elemWeight mapRange
  rw [this, fdiv_ok (by norm_num), ok_bind, ok_bind]
  norm_num [limit]

end Nikfemm
