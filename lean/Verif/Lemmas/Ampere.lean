import Verif.Spec.Ampere
import Verif.Lemmas.Balance
import Verif.Props.MagnetostaticSolve

set_option linter.unusedSectionVars false

namespace Nikfemm
open Spec Finset

variable {K : Type} [Field K] [LinearOrder K] [IsStrictOrderedRing K]

theorem circulation_outflow (D : MeshData K) (v : Nat) (F : Nat → Vec K) :
    D.circulation v (fun t => ⟨-(F t).y, (F t).x⟩) = D.outflow v F := by
  unfold MeshData.circulation MeshData.outflow
  refine Finset.sum_congr rfl (fun t _ => ?_)
  split
  · ring
  · rfl

theorem circulation_congr {D : MeshData K} {v : Nat} {J J' : Nat → Vec K}
    (h : ∀ t, t < D.tris.length → J t = J' t) : D.circulation v J = D.circulation v J' := by
  unfold MeshData.circulation
  refine Finset.sum_congr rfl (fun t ht => ?_)
  rw [h t (Finset.mem_range.mp ht)]

/-- Row of a node in an assembled matrix. -/
theorem row_circulation {D : MeshData K} (hsol : D.Solid) {n : Nat} {E : Nat → Nat → K}
    {mu : Nat → K}
    (hform : ∀ (V W : Nat → K) (g w : Nat → Vec K),
        (∀ t, t < D.tris.length → D.IsGradient (D.tri t) V (g t)) →
        (∀ t, t < D.tris.length → D.IsGradient (D.tri t) W (w t)) →
        inner n W (mulVec n E V) =
          ∑ t ∈ range D.tris.length, D.triArea t * ((w t).x * (g t).x + (w t).y * (g t).y) / mu t)
    {V : Nat → K} {g : Nat → Vec K} (hg : ∀ t, t < D.tris.length → D.IsGradient (D.tri t) V (g t))
    {v : Nat} (hv : v < n) :
    mulVec n E V v = - D.circulation v (fun t => ⟨-(g t).y / mu t, (g t).x / mu t⟩) := by
  have hrow : inner n (fun j => if j = v then 1 else 0) (mulVec n E V) = mulVec n E V v := by
    unfold inner
    simp [Finset.sum_ite_eq', hv]
  rw [← hrow, hform V _ g (fun t => D.hat (D.tri t) v) hg
    (fun t ht => hat_isGradient (hsol _ (MeshData.tri_mem ht)) v)]
  have h1 := circulation_outflow D v (fun t => ⟨(g t).x / mu t, (g t).y / mu t⟩)
  have h2 : D.circulation v (fun t => ⟨-(g t).y / mu t, (g t).x / mu t⟩) =
      D.outflow v (fun t => ⟨(g t).x / mu t, (g t).y / mu t⟩) := by
    rw [← h1]
    exact circulation_congr (fun t _ => by simp only [neg_div])
  rw [h2, ← hat_outflow hsol v]
  refine Finset.sum_congr rfl (fun t _ => ?_)
  simp only
  ring

theorem Coo.EvaluatesTo.entry_unique {A : Coo (NLExpr K)} {mu : List K} {B C : Coo K}
    (h : A.EvaluatesTo mu B) (h' : A.EvaluatesTo mu C) : B.m = C.m ∧ B.entry = C.entry := by
  refine ⟨h.1.symm.trans h'.1, ?_⟩
  have : ∀ k, findKey B.elems k = findKey C.elems k := by
    intro k
    have e := (h.2 k).symm.trans (h'.2 k)
    cases hb : findKey B.elems k <;> cases hc : findKey C.elems k <;> rw [hb, hc] at e <;>
      simp_all
  funext i j
  unfold Coo.entry
  simp only [this]

theorem Sys.EvaluatesTo.rhs_unique {S : Sys (NLExpr K)} {mu : List K} {T U : Sys K}
    (h : S.EvaluatesTo mu T) (h' : S.EvaluatesTo mu U) : T.b = U.b := by
  have hl : T.b.length = U.b.length := h.2.1.symm.trans h'.2.1
  refine List.ext_getElem hl (fun i h1 h2 => ?_)
  have hi : i < S.b.length := h.2.1 ▸ h1
  have a := h.2.2 i _ _ (List.getElem?_eq_getElem hi) (List.getElem?_eq_getElem h1)
  have b := h'.2.2 i _ _ (List.getElem?_eq_getElem hi) (List.getElem?_eq_getElem h2)
  rw [a] at b
  exact Except.ok.inj b

/-- The steps of the three cells inside a triangle cancel. -/
theorem cellStep_sum {D : MeshData K} {e : Elem} (h : D.area2 e ≠ 0) :
    (D.cellStep e e.v0).x + (D.cellStep e e.v1).x + (D.cellStep e e.v2).x = 0 ∧
    (D.cellStep e e.v0).y + (D.cellStep e e.v1).y + (D.cellStep e e.v2).y = 0 := by
  obtain ⟨n1, n2, n3⟩ := verts_ne h
  unfold MeshData.cellStep MeshData.opposite MeshData.middle
  by_cases hp : 0 < D.area2 e <;>
    simp only [hp, if_true, if_false, n1, n2, n3, n1.symm, n2.symm, n3.symm, Prod.swap] <;>
    constructor <;> ring

theorem sum_verts {n : Nat} {e : Elem} (h : e.v0 ≠ e.v1 ∧ e.v0 ≠ e.v2 ∧ e.v1 ≠ e.v2)
    (hlt : ∀ u ∈ e.verts, u < n) (f : Nat → K) :
    ∑ v ∈ range n, (if v ∈ e.verts then f v else 0) = f e.v0 + f e.v1 + f e.v2 := by
  obtain ⟨n1, n2, n3⟩ := h
  have : ∀ v, (if v ∈ e.verts then f v else 0) = (if v = e.v0 then f v else 0) +
      (if v = e.v1 then f v else 0) + (if v = e.v2 then f v else 0) := by
    intro v
    simp only [Elem.verts, List.mem_cons, List.not_mem_nil, or_false]
    by_cases h0 : v = e.v0
    · subst h0; simp [n1, n2]
    · by_cases h1 : v = e.v1
      · subst h1; simp [Ne.symm n1, n3]
      · by_cases h2 : v = e.v2
        · subst h2; simp [Ne.symm n2, Ne.symm n3]
        · simp [h0, h1, h2]
  simp only [this, Finset.sum_add_distrib, Finset.sum_ite_eq', Finset.mem_range]
  rw [if_pos (hlt _ (by simp [Elem.verts])), if_pos (hlt _ (by simp [Elem.verts])),
    if_pos (hlt _ (by simp [Elem.verts]))]

end Nikfemm
