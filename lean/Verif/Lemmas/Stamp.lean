import Verif.Lemmas.Fem
import Mathlib.Algebra.Order.Field.Basic
import Mathlib.Tactic.FieldSimp
import Mathlib.Tactic.LinearCombination

set_option linter.unusedSectionVars false

namespace Nikfemm
open Spec

section Geo
variable {K P : Type} [Field K] [LinearOrder K] [IsStrictOrderedRing K]

/-- Gradient on the triangle `e` of the hat function of vertex `v`. -/
def MeshData.hat (D : MeshData K) (e : Elem) (v : Nat) : Vec K :=
  if v = e.v0 then ⟨((D.pt e.v1).y - (D.pt e.v2).y) / D.area2 e,
    ((D.pt e.v2).x - (D.pt e.v1).x) / D.area2 e⟩
  else if v = e.v1 then ⟨((D.pt e.v2).y - (D.pt e.v0).y) / D.area2 e,
    ((D.pt e.v0).x - (D.pt e.v2).x) / D.area2 e⟩
  else if v = e.v2 then ⟨((D.pt e.v0).y - (D.pt e.v1).y) / D.area2 e,
    ((D.pt e.v1).x - (D.pt e.v0).x) / D.area2 e⟩
  else ⟨0, 0⟩

/-- Geometric factor coupling `v` and `w` on `e`. -/
def MeshData.stiff (D : MeshData K) (e : Elem) (v w : Nat) : K :=
  |D.area2 e| / 2 * ((D.hat e v).x * (D.hat e w).x + (D.hat e v).y * (D.hat e w).y)

theorem stiff_comm (D : MeshData K) (e : Elem) (v w : Nat) : D.stiff e v w = D.stiff e w v := by
  unfold MeshData.stiff; ring

theorem hat_not_mem {D : MeshData K} {e : Elem} {v : Nat} (h : v ∉ e.verts) :
    D.hat e v = ⟨0, 0⟩ := by
  simp only [Elem.verts, List.mem_cons, List.not_mem_nil, or_false, not_or] at h
  simp [MeshData.hat, h.1, h.2.1, h.2.2]

theorem stiff_not_mem {D : MeshData K} {e : Elem} {v w : Nat} (h : v ∉ e.verts ∨ w ∉ e.verts) :
    D.stiff e v w = 0 := by
  unfold MeshData.stiff
  rcases h with h | h <;> rw [hat_not_mem h] <;> simp

theorem verts_ne {D : MeshData K} {e : Elem} (h : D.area2 e ≠ 0) :
    e.v0 ≠ e.v1 ∧ e.v0 ≠ e.v2 ∧ e.v1 ≠ e.v2 := by
  refine ⟨?_, ?_, ?_⟩ <;> intro hc <;> apply h <;> unfold MeshData.area2 <;> rw [hc] <;> ring

theorem doubleOrientedArea_ok {D : MeshData K} {a b c : Nat} (ha : a < D.pts.length)
    (hb : b < D.pts.length) (hc : c < D.pts.length) :
    D.doubleOrientedArea a b c = .ok (D.area2 ⟨a, b, c⟩) := by
  unfold MeshData.doubleOrientedArea
  rw [MeshData.rd_pt ha, MeshData.rd_pt hb, MeshData.rd_pt hc]
  rfl

/-- The row of `i` receives the geometric factors of its triangle. -/
theorem localElem_ok {D : MeshData K} {e : Elem} {i : Nat} (hi : i ∈ e.verts)
    (hv : ∀ v ∈ e.verts, v < D.pts.length) (h : D.area2 e ≠ 0) :
    ∃ g, localElem D e i = .ok g ∧ g.area2 = |D.area2 e| ∧ i ≠ g.v2 ∧ i ≠ g.v3 ∧ g.v2 ≠ g.v3 ∧
      (∀ v, v ∈ e.verts ↔ v = i ∨ v = g.v2 ∨ v = g.v3) ∧
      g.s1 = D.stiff e i i ∧ g.s2 = D.stiff e g.v2 i ∧ g.s3 = D.stiff e g.v3 i := by
  obtain ⟨n01, n02, n12⟩ := verts_ne h
  obtain ⟨v0, v1, v2⟩ := e
  simp only [Elem.verts, List.mem_cons, List.not_mem_nil, or_false, forall_eq_or_imp,
    forall_eq] at hi hv n01 n02 n12
  obtain ⟨h0, h1, h2⟩ := hv
  -- the three cyclic cases share one computation
  have main : ∀ a b c : Nat, a < D.pts.length → b < D.pts.length → c < D.pts.length →
      a ≠ b → a ≠ c → b ≠ c → otherVerts ⟨v0, v1, v2⟩ a = .ok (b, c) →
      D.area2 ⟨a, b, c⟩ = D.area2 ⟨v0, v1, v2⟩ →
      D.hat ⟨v0, v1, v2⟩ = D.hat ⟨a, b, c⟩ →
      ∃ g, localElem D ⟨v0, v1, v2⟩ a = .ok g ∧ g.area2 = |D.area2 ⟨v0, v1, v2⟩| ∧ a ≠ g.v2 ∧
        a ≠ g.v3 ∧ g.v2 ≠ g.v3 ∧ ((g.v2 = b ∧ g.v3 = c) ∨ (g.v2 = c ∧ g.v3 = b)) ∧
        g.s1 = D.stiff ⟨v0, v1, v2⟩ a a ∧ g.s2 = D.stiff ⟨v0, v1, v2⟩ g.v2 a ∧
        g.s3 = D.stiff ⟨v0, v1, v2⟩ g.v3 a := by
    intro a b c ha hb hc hab hac hbc ho hA hh
    have hA0 : D.area2 ⟨a, b, c⟩ ≠ 0 := by rw [hA]; exact h
    have hba := hab.symm
    have hca := hac.symm
    have hcb := hbc.symm
    have hneg : D.area2 ⟨a, c, b⟩ = - D.area2 ⟨a, b, c⟩ := by unfold MeshData.area2; ring
    unfold localElem MeshData.stiff
    rw [ho, hh, ← hA]
    simp only [ok_bind]
    rw [doubleOrientedArea_ok ha hb hc]
    simp only [ok_bind]
    by_cases hs : D.area2 ⟨a, b, c⟩ < 0
    · simp only [hs, if_true]
      rw [doubleOrientedArea_ok ha hc hb, MeshData.rd_pt ha, MeshData.rd_pt hb, MeshData.rd_pt hc]
      have h0' : D.area2 ⟨a, c, b⟩ ≠ 0 := by rw [hneg]; exact neg_ne_zero.mpr hA0
      simp only [ok_bind, fdiv_ok h0']
      refine ⟨_, rfl, ?_, hac, hab, hcb, Or.inr ⟨rfl, rfl⟩, ?_, ?_, ?_⟩
      · rw [hneg, abs_of_neg hs]
      all_goals
        simp only [MeshData.hat, abs_of_neg hs, hneg, if_true, hba, hca, hcb, if_false]
        field_simp
        ring
    · simp only [hs, if_false]
      rw [doubleOrientedArea_ok ha hb hc, MeshData.rd_pt ha, MeshData.rd_pt hb, MeshData.rd_pt hc]
      simp only [ok_bind, fdiv_ok hA0]
      have hab' := abs_of_nonneg (not_lt.mp hs)
      refine ⟨_, rfl, hab'.symm, hab, hac, hbc, Or.inl ⟨rfl, rfl⟩, ?_, ?_, ?_⟩
      all_goals
        simp only [MeshData.hat, hab', if_true, hba, hca, hcb, if_false]
        field_simp
  rcases hi with rfl | rfl | rfl
  · obtain ⟨g, e, ea, q1, q2, q3, ev, e1, e2, e3⟩ := main i v1 v2 h0 h1 h2 n01 n02 n12
      (by simp [otherVerts]) rfl rfl
    refine ⟨g, e, ea, q1, q2, q3, fun v => ?_, e1, e2, e3⟩
    simp only [Elem.verts, List.mem_cons, List.not_mem_nil, or_false]
    rcases ev with ⟨a1, a2⟩ | ⟨a1, a2⟩ <;> rw [a1, a2] <;> tauto
  · obtain ⟨g, e, ea, q1, q2, q3, ev, e1, e2, e3⟩ := main i v2 v0 h1 h2 h0 n12 n01.symm n02.symm
      (by simp [otherVerts, n01.symm]) (by unfold MeshData.area2; ring) (by
        have hA : D.area2 ⟨i, v2, v0⟩ = D.area2 ⟨v0, i, v2⟩ := by unfold MeshData.area2; ring
        funext v; unfold MeshData.hat; simp only [hA]
        by_cases a1 : v = v0
        · subst a1; simp [n01, n02]
        · by_cases a2 : v = i <;> by_cases a3 : v = v2 <;> simp_all)
    refine ⟨g, e, ea, q1, q2, q3, fun v => ?_, e1, e2, e3⟩
    simp only [Elem.verts, List.mem_cons, List.not_mem_nil, or_false]
    rcases ev with ⟨a1, a2⟩ | ⟨a1, a2⟩ <;> rw [a1, a2] <;> tauto
  · obtain ⟨g, e, ea, q1, q2, q3, ev, e1, e2, e3⟩ := main i v0 v1 h2 h0 h1 n02.symm n12.symm n01
      (by simp [otherVerts, n02.symm, n12.symm]) (by unfold MeshData.area2; ring) (by
        have hA : D.area2 ⟨i, v0, v1⟩ = D.area2 ⟨v0, v1, i⟩ := by unfold MeshData.area2; ring
        funext v; unfold MeshData.hat; simp only [hA]
        by_cases a1 : v = v0
        · subst a1; simp [n02]
        · by_cases a2 : v = v1 <;> by_cases a3 : v = i <;> simp_all)
    refine ⟨g, e, ea, q1, q2, q3, fun v => ?_, e1, e2, e3⟩
    simp only [Elem.verts, List.mem_cons, List.not_mem_nil, or_false]
    rcases ev with ⟨a1, a2⟩ | ⟨a1, a2⟩ <;> rw [a1, a2] <;> tauto

end Geo

section Cells
variable {K α : Type} [Field K] [LinearOrder K] [IsStrictOrderedRing K] [Zero α]

/-- Effect of `A(i, v) = f(A(i, v))` guarded by `v ≥ i`. -/
theorem addUpper_ok {A : Coo α} (hA : CooWF A) {i v : Nat} (hi : i < 2 ^ 32) (hv : v < 2 ^ 32)
    (f : α → α) :
    ∃ A', addUpper i v f A = .ok A' ∧ A'.m = A.m ∧ CooWF A' ∧
      ∀ a b, a < 2 ^ 32 → b < 2 ^ 32 → findKey A'.elems (packKey a b) =
        if a = i ∧ b = v ∧ i ≤ b then some (f ((findKey A.elems (packKey a b)).getD 0))
        else findKey A.elems (packKey a b) := by
  unfold addUpper
  by_cases h : v ≥ i
  · rw [if_pos h]
    obtain ⟨A', e, hm, hf, _⟩ := Coo.modify_ok (A := A) f (show i % 2 ^ 32 ≤ v % 2 ^ 32 by omega)
    refine ⟨A', e, hm, hA.modify e, fun a b ha hb => ?_⟩
    rw [hf]
    refine if_congr ?_ rfl rfl
    rw [packKey_inj ha hb hi hv]
    constructor
    · rintro ⟨rfl, rfl⟩; exact ⟨rfl, rfl, h⟩
    · rintro ⟨rfl, rfl, _⟩; exact ⟨rfl, rfl⟩
  · rw [if_neg h]
    refine ⟨A, rfl, rfl, hA, fun a b _ _ => ?_⟩
    rw [if_neg]
    rintro ⟨_, rfl, h'⟩
    exact h h'

/-- Effect of the three additions of one triangle on the cells, for any values `st`. -/
theorem stampElem_gen {A : Coo α} (hA : CooWF A) {e : Elem} {i : Nat}
    (st : Nat → K)
    (upd : K → α → α) {g : LocalElem K} (hi : i < 2 ^ 32) (hv : ∀ v ∈ e.verts, v < 2 ^ 32)
    (n2 : i ≠ g.v2) (n3 : i ≠ g.v3) (n23 : g.v2 ≠ g.v3)
    (hm : ∀ v, v ∈ e.verts ↔ v = i ∨ v = g.v2 ∨ v = g.v3)
    (e1 : g.s1 = st i) (e2 : g.s2 = st g.v2) (e3 : g.s3 = st g.v3) :
    ∃ A', stampElem upd i g A = .ok A' ∧ A'.m = A.m ∧ CooWF A' ∧
      ∀ a b, a < 2 ^ 32 → b < 2 ^ 32 → findKey A'.elems (packKey a b) =
        if a = i ∧ b ∈ e.verts ∧ i ≤ b then
          some (upd (st b) ((findKey A.elems (packKey a b)).getD 0))
        else findKey A.elems (packKey a b) := by
  have h2 : g.v2 < 2 ^ 32 := hv _ ((hm _).mpr (by simp))
  have h3 : g.v3 < 2 ^ 32 := hv _ ((hm _).mpr (by simp))
  unfold stampElem
  obtain ⟨A1, q1, m1, w1, f1⟩ := addUpper_ok hA hi hi (upd g.s1)
  obtain ⟨A2, q2, m2, w2, f2⟩ := addUpper_ok w1 hi h2 (upd g.s2)
  obtain ⟨A3, q3, m3, w3, f3⟩ := addUpper_ok w2 hi h3 (upd g.s3)
  rw [q1]; simp only [ok_bind]
  rw [q2]; simp only [ok_bind]
  refine ⟨A3, q3, by rw [m3, m2, m1], w3, fun a b ha hb => ?_⟩
  rw [f3 a b ha hb, f2 a b ha hb, f1 a b ha hb]
  simp only [hm b]
  by_cases hai : a = i
  · by_cases hib : i ≤ b
    · by_cases c1 : b = i
      · have c2 : b ≠ g.v2 := by rw [c1]; exact n2
        have c3 : b ≠ g.v3 := by rw [c1]; exact n3
        simp only [hai, c1, n2, n3, e1, true_and, if_false, le_refl, and_true, if_true,
          true_or]
      · by_cases c2 : b = g.v2
        · have c3 : b ≠ g.v3 := by rw [c2]; exact n23
          have c1' : ¬ g.v2 = i := fun h => n2 h.symm
          have hib' : i ≤ g.v2 := c2 ▸ hib
          simp only [hai, c2, c1', n23, hib', e2, true_and, if_false, and_true,
            if_true, true_or, or_true]
        · by_cases c3 : b = g.v3
          · have c1' : ¬ g.v3 = i := fun h => n3 h.symm
            have c2' : ¬ g.v3 = g.v2 := fun h => n23 h.symm
            have hib' : i ≤ g.v3 := c3 ▸ hib
            simp only [hai, c3, c1', c2', hib', e3, true_and, if_false, and_true,
              if_true, or_true]
          · simp [c1, c2, c3]
    · simp [hib]
  · simp [hai]

/-- Effect of the three additions of one triangle on the cells. -/
theorem stampElem_ok {A : Coo α} (hA : CooWF A) {D : MeshData K} {e : Elem} {i : Nat}
    (upd : K → α → α) {g : LocalElem K} (hi : i < 2 ^ 32) (hv : ∀ v ∈ e.verts, v < 2 ^ 32)
    (n2 : i ≠ g.v2) (n3 : i ≠ g.v3) (n23 : g.v2 ≠ g.v3)
    (hm : ∀ v, v ∈ e.verts ↔ v = i ∨ v = g.v2 ∨ v = g.v3)
    (e1 : g.s1 = D.stiff e i i) (e2 : g.s2 = D.stiff e g.v2 i) (e3 : g.s3 = D.stiff e g.v3 i) :
    ∃ A', stampElem upd i g A = .ok A' ∧ A'.m = A.m ∧ CooWF A' ∧
      ∀ a b, a < 2 ^ 32 → b < 2 ^ 32 → findKey A'.elems (packKey a b) =
        if a = i ∧ b ∈ e.verts ∧ i ≤ b then
          some (upd (D.stiff e b i) ((findKey A.elems (packKey a b)).getD 0))
        else findKey A.elems (packKey a b) :=
  stampElem_gen hA (fun b => D.stiff e b i) upd hi hv n2 n3 n23 hm e1 e2 e3

/-- What the cell `(i, b)` of row `i` becomes by one triangle. -/
def cellStep {P : Type} (D : MeshData K) (upd : Nat × P → K → α → α) (i b : Nat) (o : Option α)
    (a : Nat × P) : Option α :=
  if b ∈ (D.tri a.1).verts then some (upd a (D.stiff (D.tri a.1) b i) (o.getD 0)) else o

/-- Stamping a list of triangles into row `i`. -/
theorem stampRow_ok {P : Type} {D : MeshData K} (hsz : D.pts.length < 2 ^ 32)
    (hv : ∀ e ∈ D.tris, ∀ v ∈ e.verts, v < D.pts.length) (hsol : D.Solid) {i : Nat}
    (hi : i < D.pts.length) (upd : Nat × P → K → α → α) (l : List (Nat × P))
    (hl : ∀ a ∈ l, a.1 < D.tris.length ∧ i ∈ (D.tri a.1).verts) :
    ∀ A : Coo α, CooWF A →
    ∃ A', forEach (fun (a : Nat × P) A => do
        let e ← rd D.tris a.1
        let g ← localElem D e i
        stampElem (upd a) i g A) l A = .ok A' ∧ A'.m = A.m ∧ CooWF A' ∧
      ∀ a b, a < 2 ^ 32 → b < 2 ^ 32 → findKey A'.elems (packKey a b) =
        if a = i ∧ i ≤ b then l.foldl (cellStep D upd i b) (findKey A.elems (packKey a b))
        else findKey A.elems (packKey a b) := by
  induction l with
  | nil => intro A hA; exact ⟨A, rfl, rfl, hA, fun a b _ _ => by simp⟩
  | cons x l ih =>
    intro A hA
    obtain ⟨ht, him⟩ := hl x (by simp)
    have hmem := MeshData.tri_mem ht
    obtain ⟨g, eg, _, n2, n3, n23, hm, s1, s2, s3⟩ := localElem_ok him (hv _ hmem) (hsol _ hmem)
    obtain ⟨A1, q1, m1, w1, f1⟩ := stampElem_ok hA (upd x) (show i < 2 ^ 32 by omega)
      (fun v h => by have := hv _ hmem v h; omega) n2 n3 n23 hm s1 s2 s3
    obtain ⟨A2, q2, m2, w2, f2⟩ := ih (fun a ha => hl a (by simp [ha])) A1 w1
    refine ⟨A2, ?_, by rw [m2, m1], w2, fun a b ha hb => ?_⟩
    · simp only [forEach, MeshData.rd_tri ht, ok_bind, eg, q1]
      exact q2
    · rw [f2 a b ha hb, f1 a b ha hb]
      by_cases h : a = i ∧ i ≤ b
      · rw [if_pos h, if_pos h, List.foldl_cons]
        congr 1
        unfold cellStep
        by_cases hbm : b ∈ (D.tri x.1).verts
        · rw [if_pos ⟨h.1, hbm, h.2⟩, if_pos hbm]
        · rw [if_neg (fun hc => hbm hc.2.1), if_neg hbm]
      · rw [if_neg h, if_neg h, if_neg (fun hc => h ⟨hc.1, hc.2.2⟩)]

end Cells

end Nikfemm
