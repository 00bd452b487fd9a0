import Verif.Model.Cotangent
import Verif.Spec.Cotangent
import Verif.Lemmas.Conduction
import Mathlib.Algebra.BigOperators.Group.Finset.Basic
import Mathlib.Analysis.SpecialFunctions.Complex.Arg

set_option linter.unusedSectionVars false

namespace Nikfemm
open Spec Finset

section Lists
variable {K P : Type} [Field K] [LinearOrder K]

/-! ### Neighbour lists -/

/-- The (corner, other corner) pairs of one triangle in the order of the code. -/
def Elem.pairs (e : Elem) : List (Nat × Nat) :=
  [(e.v0, e.v1), (e.v0, e.v2), (e.v1, e.v2), (e.v1, e.v0), (e.v2, e.v0), (e.v2, e.v1)]

/-- Neighbour list of `v` after some pairs. -/
def neighOf (l : List (Nat × Nat)) (v : Nat) : List Nat :=
  (l.filter (fun x => x.1 = v)).map Prod.snd

theorem neighOf_length (l : List (Nat × Nat)) (v : Nat) :
    (neighOf l v).length = (l.map Prod.fst).count v := by
  induction l with
  | nil => rfl
  | cons a l ih =>
    unfold neighOf at *
    by_cases h : a.1 = v <;> simp_all

theorem neighOf_count (l : List (Nat × Nat)) (v w : Nat) :
    (neighOf l v).count w = l.count (v, w) := by
  induction l with
  | nil => rfl
  | cons a l ih =>
    unfold neighOf at *
    obtain ⟨x, y⟩ := a
    by_cases h : x = v <;> by_cases h' : y = w <;> simp_all [List.count_cons]

theorem pushVert_spec {n : Nat} {x : Nat × Nat} (hx : x.1 < n) (l : List (Nat × Nat)) :
    pushVert x.1 x.2 ((List.range n).map (neighOf l)) =
      if 18 ≤ (l.map Prod.fst).count x.1 then .error .ub
      else .ok ((List.range n).map (neighOf (l ++ [x]))) := by
  unfold pushVert
  rw [rd_ok (by simpa using hx)]
  simp only [ok_bind, List.getElem_map, List.getElem_range, neighOf_length]
  split
  · rfl
  · rw [wr_ok (by simpa using hx)]
    congr 1
    have : neighOf l x.1 ++ [x.2] = neighOf (l ++ [x]) x.1 := by
      simp [neighOf, List.filter_append]
    rw [this]
    exact set_map_range _ _ (fun w hw => by simp [neighOf, List.filter_append, Ne.symm hw])

open Classical in
theorem pushAll_spec {n : Nat} (xs : List (Nat × Nat)) (hxs : ∀ x ∈ xs, x.1 < n) :
    ∀ l : List (Nat × Nat),
    forEach (fun (x : Nat × Nat) adj => pushVert x.1 x.2 adj) xs ((List.range n).map (neighOf l)) =
      if ∃ v, 18 < ((l ++ xs).map Prod.fst).count v ∧ v ∈ xs.map Prod.fst then .error .ub
      else .ok ((List.range n).map (neighOf (l ++ xs))) := by
  induction xs with
  | nil => intro l; simp [forEach]
  | cons x xs ih =>
    intro l
    simp only [forEach, pushVert_spec (hxs x (by simp))]
    by_cases h : 18 ≤ (l.map Prod.fst).count x.1
    · rw [if_pos h, if_pos]
      exact ⟨x.1, by simp [List.count_append]; omega, by simp⟩
    · rw [if_neg h]
      simp only
      rw [ih (fun w hw => hxs w (by simp [hw]))]
      have e : l ++ [x] ++ xs = l ++ x :: xs := by simp
      rw [e]
      congr 1
      apply propext
      constructor
      · rintro ⟨w, h1, h2⟩; exact ⟨w, h1, by simp only [List.map_cons]; exact List.mem_cons_of_mem _ h2⟩
      · rintro ⟨w, h1, h2⟩
        rw [List.map_cons] at h2
        rcases List.mem_cons.mp h2 with rfl | h2
        · by_cases hm : x.1 ∈ xs.map Prod.fst
          · exact ⟨_, h1, hm⟩
          · exfalso
            rw [List.map_append, List.count_append, List.map_cons, List.count_cons_self,
              List.count_eq_zero_of_not_mem hm] at h1
            omega
        · exact ⟨w, h1, h2⟩

theorem loopN_forEach {α σ : Type} {body : α → σ → Res σ} {f : Nat → List α}
    {g : Nat → σ → Res σ} : ∀ (cnt lo : Nat) (s : σ),
    (∀ i, lo ≤ i → i < lo + cnt → ∀ s, g i s = forEach body (f i) s) →
    loopN g cnt lo s = forEach body ((List.range' lo cnt).flatMap f) s := by
  intro cnt
  induction cnt with
  | zero => intro lo s _; rfl
  | succ cnt ih =>
    intro lo s h
    rw [List.range'_succ, List.flatMap_cons, forEach_append]
    unfold loopN
    rw [h lo (le_refl _) (by omega)]
    cases forEach body (f lo) s with
    | error e => rfl
    | ok s' => exact ih (lo + 1) s' (fun i h1 h2 => h i (by omega) (by omega))

/-- All pairs of the mesh. -/
def MeshData.pairs (D : MeshData K) : List (Nat × Nat) :=
  (List.range D.tris.length).flatMap fun t => (D.tri t).pairs

theorem pairs_fst_count (D : MeshData K) (v : Nat) :
    (D.pairs.map Prod.fst).count v = 2 * D.valence v := by
  have gen : ∀ l : List Elem, ((l.flatMap Elem.pairs).map Prod.fst).count v =
      2 * (l.flatMap Elem.verts).count v := by
    intro l
    induction l with
    | nil => rfl
    | cons e l ih =>
      rw [List.flatMap_cons, List.map_append, List.count_append, ih, List.flatMap_cons,
        List.count_append]
      simp only [Elem.pairs, Elem.verts, List.map_cons, List.map_nil, List.count_cons, List.count_nil]
      ring
  have e : D.pairs = D.tris.flatMap Elem.pairs := by
    unfold MeshData.pairs
    have : D.tris = (List.range D.tris.length).map D.tri := by
      apply List.ext_getElem (by simp)
      intro j h1 h2
      simp [MeshData.tri, h1]
    conv_rhs => rw [this]
    rw [List.flatMap_map]
  rw [e, gen]
  rfl

open Classical in
theorem adjVerts_spec {D : MeshData K} (hv : ∀ e ∈ D.tris, ∀ v ∈ e.verts, v < D.pts.length) :
    adjVerts D = if ∃ v, 9 < D.valence v then .error .ub
      else .ok ((List.range D.pts.length).map (neighOf D.pairs)) := by
  unfold adjVerts forUp
  rw [loopN_forEach (body := fun (x : Nat × Nat) adj => pushVert x.1 x.2 adj)
    (f := fun t => (D.tri t).pairs)]
  · have e0 : List.replicate D.pts.length ([] : List Nat) =
        (List.range D.pts.length).map (neighOf []) := by
      apply List.ext_getElem (by simp)
      intro j h1 h2
      simp [neighOf]
    rw [e0, ← List.range_eq_range', Nat.sub_zero, show (List.range D.tris.length).flatMap
      (fun t => (D.tri t).pairs) = D.pairs from rfl, pushAll_spec, List.nil_append]
    · congr 1
      apply propext
      constructor
      · rintro ⟨v, h1, _⟩
        rw [pairs_fst_count] at h1
        exact ⟨v, by omega⟩
      · rintro ⟨v, h1⟩
        have : 18 < (D.pairs.map Prod.fst).count v := by rw [pairs_fst_count]; omega
        exact ⟨v, this, List.count_pos_iff.mp (by omega)⟩
    · intro x hx
      simp only [MeshData.pairs, List.mem_flatMap, List.mem_range] at hx
      obtain ⟨t, ht, hx⟩ := hx
      have := hv _ (MeshData.tri_mem ht)
      simp only [Elem.verts, List.mem_cons, List.not_mem_nil, or_false, forall_eq_or_imp,
        forall_eq] at this
      simp only [Elem.pairs, List.mem_cons, List.not_mem_nil, or_false] at hx
      rcases hx with rfl | rfl | rfl | rfl | rfl | rfl
      all_goals first | exact this.1 | exact this.2.1 | exact this.2.2
  · intro i _ h s
    rw [MeshData.rd_tri (by omega)]
    rfl

end Lists

section Sharing
variable {K P : Type} [Field K] [LinearOrder K] [IsStrictOrderedRing K]

theorem sharing_comm (D : MeshData K) (a b : Nat) : D.sharing a b = D.sharing b a := by
  unfold MeshData.sharing
  simp only [Bool.and_comm]

theorem mem_sharing {D : MeshData K} {a b t : Nat} : t ∈ D.sharing a b ↔
    t < D.tris.length ∧ a ∈ (D.tri t).verts ∧ b ∈ (D.tri t).verts := by
  simp [MeshData.sharing]

/-- A neighbour is listed once for every common triangle. -/
theorem pairs_count {D : MeshData K} (hsol : D.Solid) {a b : Nat} (hab : a ≠ b) :
    D.pairs.count (a, b) = (D.sharing a b).length := by
  unfold MeshData.pairs MeshData.sharing
  have gen : ∀ l : List Nat, (∀ t ∈ l, t < D.tris.length) →
      (l.flatMap fun t => (D.tri t).pairs).count (a, b) =
      (l.filter fun t => decide (a ∈ (D.tri t).verts) && decide (b ∈ (D.tri t).verts)).length := by
    intro l
    induction l with
    | nil => intro _; rfl
    | cons t l ih =>
      intro hl
      obtain ⟨n1, n2, n3⟩ := verts_ne (hsol _ (MeshData.tri_mem (hl t (by simp))))
      rw [List.flatMap_cons, List.count_append, ih (fun t ht => hl t (by simp [ht])),
        List.filter_cons]
      generalize D.tri t = e at *
      have : e.pairs.count (a, b) = if a ∈ e.verts ∧ b ∈ e.verts then 1 else 0 := by
        obtain ⟨x, y, z⟩ := e
        simp only at n1 n2 n3
        simp only [Elem.pairs, Elem.verts, List.count_cons, List.count_nil, List.mem_cons,
          List.not_mem_nil, or_false, beq_iff_eq, Prod.mk.injEq]
        by_cases a1 : a = x
        · subst a1
          have := hab.symm
          by_cases b1 : b = y
          · subst b1; simp_all [eq_comm]
          · by_cases b2 : b = z
            · subst b2; simp_all [eq_comm]
            · simp_all [eq_comm]
        · by_cases a2 : a = y
          · subst a2
            have := hab.symm
            by_cases b1 : b = x
            · subst b1; simp_all [eq_comm]
            · by_cases b2 : b = z
              · subst b2; simp_all [eq_comm]
              · simp_all [eq_comm]
          · by_cases a3 : a = z
            · subst a3
              have := hab.symm
              by_cases b1 : b = x
              · subst b1; simp_all [eq_comm]
              · by_cases b2 : b = y
                · subst b2; simp_all [eq_comm]
                · simp_all [eq_comm]
            · simp_all [eq_comm]
      rw [this]
      by_cases h : a ∈ e.verts ∧ b ∈ e.verts
      · simp [h, Nat.add_comm]
      · rw [if_neg h, if_neg (by simpa using h), Nat.zero_add]
  exact gen _ (fun t ht => by simpa using ht)

theorem findTwo_gen {D : MeshData K} {v1 v2 : Nat} : ∀ (l : List (Nat × P)) (f : List Nat),
    (∀ a ∈ l, a.1 < D.tris.length) → f.length < 2 →
    findTwo D v1 v2 l f = .ok ((f ++ (l.map Prod.fst).filter (fun t =>
      decide (v1 ∈ (D.tri t).verts) && decide (v2 ∈ (D.tri t).verts))).take 2) := by
  intro l
  induction l with
  | nil => intro f _ hf; simp [findTwo, List.take_of_length_le (show f.length ≤ 2 by omega)]
  | cons a l ih =>
    intro f hl hf
    have ha := hl a (by simp)
    unfold findTwo
    rw [MeshData.rd_tri ha]
    simp only [ok_bind, List.map_cons, List.filter_cons]
    by_cases h : v1 ∈ (D.tri a.1).verts ∧ v2 ∈ (D.tri a.1).verts
    · have hb : (decide (v1 ∈ (D.tri a.1).verts) && decide (v2 ∈ (D.tri a.1).verts)) = true := by
        simpa using h
      rw [if_pos hb]
      simp only [h, and_self, if_true]
      by_cases h2 : (f ++ [a.1]).length = 2
      · rw [if_pos h2]
        congr 1
        conv_rhs => rw [List.append_cons f, List.take_append_of_le_length h2.ge,
          List.take_of_length_le h2.le]
      · rw [if_neg h2, ih _ (fun x hx => hl x (by simp [hx])) (by
          rw [List.length_append, List.length_singleton] at h2 ⊢; omega)]
        simp
    · have hb : ¬ (decide (v1 ∈ (D.tri a.1).verts) && decide (v2 ∈ (D.tri a.1).verts)) = true := by
        simpa using h
      rw [if_neg h, if_neg hb, if_neg (by omega), ih _ (fun x hx => hl x (by simp [hx])) hf]

/-- The triangles at `i`, each once. -/
theorem adjOf_fst {D : MeshData K} (hsol : D.Solid) (mat : Nat → P) (i : Nat) :
    ∀ T, T ≤ D.tris.length → (adjOf mat (D.incs T) i).map Prod.fst =
      (List.range T).filter (fun t => decide (i ∈ (D.tri t).verts)) := by
  intro T
  induction T with
  | zero => intro _; simp [adjOf, MeshData.incs]
  | succ T ih =>
    intro hT
    have e : adjOf mat (D.incs (T + 1)) i = adjOf mat (D.incs T) i ++
        ((D.tri T).verts.filter (fun v => v = i)).map (fun _ => (T, mat T)) := by
      simp [adjOf, MeshData.incs, List.range_succ, List.filter_append, List.filter_map,
        Function.comp_def]
    rw [e, List.map_append, ih (by omega), List.range_succ, List.filter_append]
    congr 1
    have hn := verts_nodup (hsol _ (MeshData.tri_mem (show T < D.tris.length by omega)))
    by_cases hi : i ∈ (D.tri T).verts
    · have : (D.tri T).verts.filter (fun v => v = i) = [i] := by
        rw [List.filter_eq, List.count_eq_one_of_mem hn hi]; rfl
      rw [this]; simp [hi]
    · have : (D.tri T).verts.filter (fun v => v = i) = [] := by
        rw [List.filter_eq_nil_iff]
        intro a ha hc
        simp only [decide_eq_true_eq] at hc
        exact hi (hc ▸ ha)
      rw [this]; simp [hi]

theorem findTwo_ok {D : MeshData K} (hsol : D.Solid) (mat : Nat → P) (i v2 : Nat) :
    findTwo D i v2 (adjOf mat (D.incs D.tris.length) i) [] = .ok ((D.sharing i v2).take 2) := by
  rw [findTwo_gen _ _ (fun a ha => (mem_adjOf ha).1) (by simp), List.nil_append,
    adjOf_fst hsol mat i _ (le_refl _), List.filter_filter]
  congr 2
  unfold MeshData.sharing
  apply List.filter_congr
  intro t _
  cases decide (i ∈ (D.tri t).verts) <;> simp

theorem thirdVertex_ok {D : MeshData K} {e : Elem} (h : D.area2 e ≠ 0) {a b : Nat} (hab : a ≠ b)
    (ha : a ∈ e.verts) (hb : b ∈ e.verts) :
    ∃ c, thirdVertex e a b = .ok c ∧ c ∈ e.verts ∧
      e.verts.filter (fun c => c ≠ a ∧ c ≠ b) = [c] ∧
      |((D.pt a).x - (D.pt c).x) * ((D.pt b).y - (D.pt c).y) -
        ((D.pt a).y - (D.pt c).y) * ((D.pt b).x - (D.pt c).x)| = |D.area2 e| := by
  obtain ⟨n1, n2, n3⟩ := verts_ne h
  obtain ⟨x, y, z⟩ := e
  simp only [Elem.verts, List.mem_cons, List.not_mem_nil, or_false] at ha hb n1 n2 n3 ⊢
  have hba := hab.symm
  have m1 := n1.symm
  have m2 := n2.symm
  have m3 := n3.symm
  unfold thirdVertex MeshData.area2
  rcases ha with rfl | rfl | rfl <;> rcases hb with rfl | rfl | rfl <;>
    first
    | exact absurd rfl hab
    | (refine ⟨z, ?_, by simp, ?_, ?_⟩ <;> [simp [*]; simp [*]; skip]
       first
       | (refine congrArg _ ?_; ring1)
       | (rw [← abs_neg]; refine congrArg _ ?_; ring1))
    | (refine ⟨y, ?_, by simp, ?_, ?_⟩ <;> [simp [*]; simp [*]; skip]
       first
       | (refine congrArg _ ?_; ring1)
       | (rw [← abs_neg]; refine congrArg _ ?_; ring1))
    | (refine ⟨x, ?_, by simp, ?_, ?_⟩ <;> [simp [*]; simp [*]; skip]
       first
       | (refine congrArg _ ?_; ring1)
       | (rw [← abs_neg]; refine congrArg _ ?_; ring1))

theorem cotOpposite_comm (D : MeshData K) (a b t : Nat) :
    D.cotOpposite a b t = D.cotOpposite b a t := by
  unfold MeshData.cotOpposite
  have e : (fun c => decide (c ≠ a ∧ c ≠ b)) = (fun c : Nat => decide (c ≠ b ∧ c ≠ a)) := by
    funext c; simp only [and_comm]
  rw [e]
  congr 2
  funext c
  congr 1
  · ring
  · rw [← abs_neg]; congr 1; ring

/-- The cotangent is twice the negative coupling of the two vertices. -/
theorem cotOpposite_stiff {D : MeshData K} {t a b : Nat} (h : D.area2 (D.tri t) ≠ 0) (hab : a ≠ b)
    (ha : a ∈ (D.tri t).verts) (hb : b ∈ (D.tri t).verts) :
    D.cotOpposite a b t = -2 * D.stiff (D.tri t) a b := by
  obtain ⟨c, _, _, hf, hA⟩ := thirdVertex_ok h hab ha hb
  unfold MeshData.cotOpposite
  rw [hf]
  simp only [List.map_cons, List.map_nil, List.sum_cons, List.sum_nil, add_zero]
  rw [hA]
  obtain ⟨n1, n2, n3⟩ := verts_ne h
  have m1 := n1.symm
  have m2 := n2.symm
  have m3 := n3.symm
  generalize D.tri t = e at *
  have h2 : |D.area2 e| ≠ 0 := abs_ne_zero.mpr h
  have hsq : D.area2 e ^ 2 = |D.area2 e| ^ 2 := (sq_abs _).symm
  have key : ∀ p q r s : K, |D.area2 e| / 2 * (p / D.area2 e * (q / D.area2 e) +
      r / D.area2 e * (s / D.area2 e)) = (p * q + r * s) / (2 * |D.area2 e|) := by
    intro p q r s
    rw [div_mul_div_comm, div_mul_div_comm, ← pow_two, hsq]
    field_simp
  unfold MeshData.stiff MeshData.hat
  have hc : ∀ v ∈ e.verts.filter (fun c => c ≠ a ∧ c ≠ b), v = c := by
    intro v hv; rw [hf] at hv; simpa using hv
  simp only [Elem.verts, List.mem_cons, List.not_mem_nil, or_false, List.mem_filter,
    decide_eq_true_eq, forall_eq_or_imp, and_imp, forall_eq] at ha hb hc
  obtain ⟨c0, c1, c2⟩ := hc
  rcases ha with rfl | rfl | rfl <;> rcases hb with rfl | rfl | rfl
  all_goals first | exact absurd rfl hab | skip
  all_goals simp only [if_true, n1, n2, n3, m1, m2, m3, if_false, key]
  all_goals first
    | rw [← c2 (by assumption) (by assumption)]
    | rw [← c1 (by assumption) (by assumption)]
    | rw [← c0 (by assumption) (by assumption)]
  all_goals field_simp
  all_goals ring

end Sharing

/-! ### Angles -/

theorem cot_geomAngle (pi : ℝ) (a b c : Vec ℝ)
    (h : (a.x - b.x) * (c.y - b.y) - (a.y - b.y) * (c.x - b.x) ≠ 0) :
    Real.sin (geomAngle (realLibm pi) a b c) ≠ 0 ∧
    Real.cos (geomAngle (realLibm pi) a b c) / Real.sin (geomAngle (realLibm pi) a b c) =
      ((a.x - b.x) * (c.x - b.x) + (a.y - b.y) * (c.y - b.y)) /
      |(a.x - b.x) * (c.y - b.y) - (a.y - b.y) * (c.x - b.x)| := by
  simp only [geomAngle, realLibm]
  generalize (a.x - b.x) * (c.y - b.y) - (a.y - b.y) * (c.x - b.x) = det at *
  generalize (a.x - b.x) * (c.x - b.x) + (a.y - b.y) * (c.y - b.y) = dot at *
  have hz : (⟨dot, det⟩ : ℂ) ≠ 0 := by
    intro hc
    exact h (by have := congrArg Complex.im hc; simpa using this)
  have hn : ‖(⟨dot, det⟩ : ℂ)‖ ≠ 0 := norm_ne_zero_iff.mpr hz
  have hn0 : 0 < ‖(⟨dot, det⟩ : ℂ)‖ := norm_pos_iff.mpr hz
  have hs : Real.sin |Complex.arg ⟨dot, det⟩| = |det| / ‖(⟨dot, det⟩ : ℂ)‖ := by
    have h1 : Real.sin |Complex.arg ⟨dot, det⟩| = |Real.sin (Complex.arg ⟨dot, det⟩)| := by
      rw [← Real.abs_sin_eq_sin_abs_of_abs_le_pi (Complex.abs_arg_le_pi _)]
    rw [h1, Complex.sin_arg, abs_div, abs_of_pos hn0]
  have hc : Real.cos |Complex.arg ⟨dot, det⟩| = dot / ‖(⟨dot, det⟩ : ℂ)‖ := by
    rw [Real.cos_abs, Complex.cos_arg hz]
  have h3 : |det| ≠ 0 := abs_ne_zero.mpr h
  rw [hs, hc]
  refine ⟨div_ne_zero h3 hn, ?_⟩
  field_simp

/-! ### Weights and rows -/

section Rows
variable {P : Type}

/-- Weight of the edge from `a` to `b`. -/
noncomputable def MeshData.wt (D : MeshData ℝ) (a b : Nat) : ℝ :=
  match (D.sharing a b).take 2 with
  | [t1, t2] => 1 / 2 * (D.cotOpposite a b t1 + D.cotOpposite a b t2)
  | _ => 0

theorem wt_comm (D : MeshData ℝ) (a b : Nat) : D.wt a b = D.wt b a := by
  unfold MeshData.wt
  rw [sharing_comm]
  simp only [cotOpposite_comm D a b]

theorem cotWeight_ok {D : MeshData ℝ} (hsol : D.Solid)
    (hv : ∀ e ∈ D.tris, ∀ v ∈ e.verts, v < D.pts.length) (pi : ℝ) {a b t1 t2 : Nat} (hab : a ≠ b)
    (h1 : t1 ∈ D.sharing a b) (h2 : t2 ∈ D.sharing a b) :
    cotWeight (realLibm pi) D a b t1 t2 =
      .ok (1 / 2 * (D.cotOpposite a b t1 + D.cotOpposite a b t2)) := by
  obtain ⟨l1, a1, b1⟩ := mem_sharing.mp h1
  obtain ⟨l2, a2, b2⟩ := mem_sharing.mp h2
  have m1 := MeshData.tri_mem l1
  have m2 := MeshData.tri_mem l2
  obtain ⟨c1, q1, i1, f1, A1⟩ := thirdVertex_ok (hsol _ m1) hab a1 b1
  obtain ⟨c2, q2, i2, f2, A2⟩ := thirdVertex_ok (hsol _ m2) hab a2 b2
  have n1 := cot_geomAngle pi (D.pt a) (D.pt c1) (D.pt b)
    (abs_ne_zero.mp (by rw [A1]; exact abs_ne_zero.mpr (hsol _ m1)))
  have n2 := cot_geomAngle pi (D.pt a) (D.pt c2) (D.pt b)
    (abs_ne_zero.mp (by rw [A2]; exact abs_ne_zero.mpr (hsol _ m2)))
  unfold cotWeight
  rw [MeshData.rd_tri l1, MeshData.rd_tri l2]
  simp only [ok_bind, q1, q2]
  rw [MeshData.rd_pt (hv _ m1 _ a1), MeshData.rd_pt (hv _ m1 _ b1), MeshData.rd_pt (hv _ m1 _ i1),
    MeshData.rd_pt (hv _ m2 _ i2)]
  simp only [ok_bind]
  rw [show (realLibm pi).cos = Real.cos from rfl, show (realLibm pi).sin = Real.sin from rfl,
    fdiv_ok n1.1, fdiv_ok n2.1]
  simp only [ok_bind]
  rw [n1.2, n2.2]
  unfold MeshData.cotOpposite
  rw [f1, f2]
  simp

theorem cotNeighbour_ok {D : MeshData ℝ} (hsz : D.pts.length < 2 ^ 32) (hsol : D.Solid)
    (hv : ∀ e ∈ D.tris, ∀ v ∈ e.verts, v < D.pts.length) (pi : ℝ) (mat : Nat → P) {i v : Nat}
    (hi : i < D.pts.length) (hvn : v < D.pts.length) (hiv : i ≠ v) (s : ℝ) {A : Coo ℝ}
    (hA : CooWF A) :
    ∃ A', cotNeighbour (realLibm pi) D (adjOf mat (D.incs D.tris.length) i) i v (s, A) =
        .ok (s + D.wt i v, A') ∧ A'.m = A.m ∧ CooWF A' ∧
      ∀ a b, a < 2 ^ 32 → b < 2 ^ 32 →
        (findKey A'.elems (packKey a b)).getD 0 = (findKey A.elems (packKey a b)).getD 0 +
          (if a = i ∧ b = v ∧ i ≤ b then D.wt i v else 0) ∧
        ((findKey A'.elems (packKey a b)).isSome →
          (findKey A.elems (packKey a b)).isSome ∨ (a = i ∧ b = v)) ∧
        ((findKey A.elems (packKey a b)).isSome → (findKey A'.elems (packKey a b)).isSome) := by
  unfold cotNeighbour
  rw [findTwo_ok hsol]
  simp only [ok_bind]
  have hmem : ∀ t ∈ (D.sharing i v).take 2, t ∈ D.sharing i v := fun t ht => List.mem_of_mem_take ht
  have hw : D.wt i v = match (D.sharing i v).take 2 with
    | [t1, t2] => 1 / 2 * (D.cotOpposite i v t1 + D.cotOpposite i v t2)
    | _ => 0 := rfl
  generalize (D.sharing i v).take 2 = l at *
  match l, hmem, hw with
  | [t1, t2], hmem, hw =>
    simp only at hw ⊢
    rw [cotWeight_ok hsol hv pi hiv (hmem t1 (by simp)) (hmem t2 (by simp)), ← hw]
    simp only [ok_bind]
    obtain ⟨A', e, hm, hwf, hf⟩ := addUpper_ok hA (show i < 2 ^ 32 by omega)
      (show v < 2 ^ 32 by omega) (· + D.wt i v)
    rw [e]
    refine ⟨A', rfl, hm, hwf, fun a b ha hb => ?_⟩
    rw [hf a b ha hb]
    by_cases h : a = i ∧ b = v ∧ i ≤ b
    · rw [if_pos h, if_pos h]
      exact ⟨rfl, fun _ => Or.inr ⟨h.1, h.2.1⟩, fun _ => rfl⟩
    · rw [if_neg h, if_neg h]
      exact ⟨by simp, fun h => Or.inl h, id⟩
  | [], _, hw => exact ⟨A, by simp [hw], rfl, hA, fun a b _ _ => ⟨by simp [hw], Or.inl, id⟩⟩
  | [_], _, hw => exact ⟨A, by simp [hw], rfl, hA, fun a b _ _ => ⟨by simp [hw], Or.inl, id⟩⟩
  | _ :: _ :: _ :: _, _, hw =>
    exact ⟨A, by simp [hw], rfl, hA, fun a b _ _ => ⟨by simp [hw], Or.inl, id⟩⟩

theorem cotLoop_ok {D : MeshData ℝ} (hsz : D.pts.length < 2 ^ 32) (hsol : D.Solid)
    (hv : ∀ e ∈ D.tris, ∀ v ∈ e.verts, v < D.pts.length) (pi : ℝ) (mat : Nat → P) {i : Nat}
    (hi : i < D.pts.length) : ∀ (vs : List Nat), (∀ v ∈ vs, v < D.pts.length ∧ i ≠ v) →
    ∀ (s : ℝ) (A : Coo ℝ), CooWF A →
    ∃ A', forEach (cotNeighbour (realLibm pi) D (adjOf mat (D.incs D.tris.length) i) i) vs (s, A) =
        .ok (s + (vs.map (D.wt i)).sum, A') ∧ A'.m = A.m ∧ CooWF A' ∧
      ∀ a b, a < 2 ^ 32 → b < 2 ^ 32 →
        (findKey A'.elems (packKey a b)).getD 0 = (findKey A.elems (packKey a b)).getD 0 +
          (if a = i ∧ i ≤ b then vs.count b * D.wt i b else 0) ∧
        ((findKey A'.elems (packKey a b)).isSome →
          (findKey A.elems (packKey a b)).isSome ∨ (a = i ∧ b < D.pts.length)) ∧
        ((findKey A.elems (packKey a b)).isSome → (findKey A'.elems (packKey a b)).isSome) := by
  intro vs
  induction vs with
  | nil => intro _ s A hA; exact ⟨A, by simp [forEach], rfl, hA, fun a b _ _ => ⟨by simp, Or.inl, id⟩⟩
  | cons v vs ih =>
    intro hvs s A hA
    obtain ⟨h1, h2⟩ := hvs v (by simp)
    obtain ⟨A1, e1, m1, w1, f1⟩ := cotNeighbour_ok hsz hsol hv pi mat hi h1 h2 s hA
    obtain ⟨A2, e2, m2, w2, f2⟩ := ih (fun x hx => hvs x (by simp [hx])) (s + D.wt i v) A1 w1
    refine ⟨A2, ?_, by rw [m2, m1], w2, fun a b ha hb => ⟨?_, ?_, ?_⟩⟩
    · simp only [forEach, e1, e2, List.map_cons, List.sum_cons, add_assoc]
    · rw [(f2 a b ha hb).1, (f1 a b ha hb).1, List.count_cons, add_assoc]
      congr 1
      by_cases h : a = i ∧ i ≤ b
      · rw [if_pos h, if_pos h]
        by_cases hb' : b = v
        · subst hb'
          rw [if_pos ⟨h.1, rfl, h.2⟩]
          simp only [beq_self_eq_true, if_true]
          push_cast
          ring
        · rw [if_neg (fun hc => hb' hc.2.1)]
          simp [Ne.symm hb']
      · rw [if_neg h, if_neg h, if_neg (fun hc => h ⟨hc.1, hc.2.2⟩), add_zero]
    · intro h
      rcases (f2 a b ha hb).2.1 h with h | h
      · rcases (f1 a b ha hb).2.1 h with h | h
        · exact Or.inl h
        · exact Or.inr ⟨h.1, by rw [h.2]; exact h1⟩
      · exact Or.inr h
    · exact fun h => (f2 a b ha hb).2.2 ((f1 a b ha hb).2.2 h)

theorem mem_neigh {D : MeshData ℝ} (hsol : D.Solid)
    (hv : ∀ e ∈ D.tris, ∀ v ∈ e.verts, v < D.pts.length) {i v : Nat}
    (h : v ∈ neighOf D.pairs i) : v < D.pts.length ∧ i ≠ v := by
  simp only [neighOf, MeshData.pairs, List.mem_map, List.mem_filter, List.mem_flatMap,
    List.mem_range, decide_eq_true_eq] at h
  obtain ⟨x, ⟨⟨t, ht, hx⟩, rfl⟩, rfl⟩ := h
  have hm := MeshData.tri_mem ht
  obtain ⟨n1, n2, n3⟩ := verts_ne (hsol _ hm)
  have := hv _ hm
  simp only [Elem.verts, List.mem_cons, List.not_mem_nil, or_false, forall_eq_or_imp,
    forall_eq] at this
  simp only [Elem.pairs, List.mem_cons, List.not_mem_nil, or_false] at hx
  rcases hx with rfl | rfl | rfl | rfl | rfl | rfl
  · exact ⟨this.2.1, n1⟩
  · exact ⟨this.2.2, n2⟩
  · exact ⟨this.2.2, n3⟩
  · exact ⟨this.1, n1.symm⟩
  · exact ⟨this.1, n2.symm⟩
  · exact ⟨this.2.1, n3.symm⟩

/-- The value written outside the diagonal. -/
noncomputable def MeshData.cotOff (D : MeshData ℝ) (a b : Nat) : ℝ :=
  (D.sharing a b).length * D.wt a b

theorem cotOff_comm (D : MeshData ℝ) (a b : Nat) : D.cotOff a b = D.cotOff b a := by
  unfold MeshData.cotOff
  rw [sharing_comm, wt_comm]

/-- The value written in any cell. -/
noncomputable def MeshData.cotCell (D : MeshData ℝ) (a b : Nat) : ℝ :=
  if a = b then - ∑ c ∈ range D.pts.length, (if c = a then 0 else D.cotOff a c) else D.cotOff a b

theorem neigh_sum {D : MeshData ℝ} (hsol : D.Solid)
    (hv : ∀ e ∈ D.tris, ∀ v ∈ e.verts, v < D.pts.length) (i : Nat) :
    ((neighOf D.pairs i).map (D.wt i)).sum =
      ∑ c ∈ range D.pts.length, (if c = i then 0 else D.cotOff i c) := by
  rw [Finset.sum_list_map_count]
  have hs : (neighOf D.pairs i).toFinset ⊆ range D.pts.length := by
    intro x hx
    rw [List.mem_toFinset] at hx
    exact Finset.mem_range.mpr (mem_neigh hsol hv hx).1
  rw [Finset.sum_subset (f := fun m => (neighOf D.pairs i).count m • D.wt i m) hs]
  · refine Finset.sum_congr rfl (fun c _ => ?_)
    rw [nsmul_eq_mul]
    by_cases h : c = i
    · subst h
      rw [if_pos rfl, List.count_eq_zero_of_not_mem (fun hc => (mem_neigh hsol hv hc).2 rfl)]
      simp
    · rw [if_neg h, neighOf_count, pairs_count hsol (Ne.symm h)]
      rfl
  · intro x _ hx
    rw [List.mem_toFinset] at hx
    rw [List.count_eq_zero_of_not_mem hx, zero_nsmul]

/-- State after `r` rows. -/
structure CotDone (D : MeshData ℝ) (r : Nat) (A : Coo ℝ) : Prop where
  dim : A.m = D.pts.length
  wf : CooWF A
  cell : ∀ a b, a < 2 ^ 32 → b < 2 ^ 32 → a ≤ b → (findKey A.elems (packKey a b)).getD 0 =
    if a < r then D.cotCell a b else 0
  bound : ∀ a b, a < 2 ^ 32 → b < 2 ^ 32 → (findKey A.elems (packKey a b)).isSome →
    b < D.pts.length
  diag : ∀ a, a < r → (findKey A.elems (packKey a a)).isSome
  above : ∀ a b, a < 2 ^ 32 → b < 2 ^ 32 → r ≤ a → findKey A.elems (packKey a b) = none

theorem cotRow_ok {M : Mesh ℝ P} {mat : Nat → P} (hM : MeshOK M mat) (hsol : M.data.Solid)
    (pi : ℝ) {i : Nat} (hi : i < M.data.pts.length) {S : Sys ℝ} (h : CotDone M.data i S.A)
    (hb : S.b = List.replicate M.data.pts.length 0) :
    ∃ S', cotRow (realLibm pi) M.data ((List.range M.data.pts.length).map
        (adjOf mat (M.data.incs M.data.tris.length)))
        ((List.range M.data.pts.length).map (neighOf M.data.pairs)) i S = .ok S' ∧
      CotDone M.data (i + 1) S'.A ∧ S'.b = List.replicate M.data.pts.length 0 := by
  have hsz := hM.size
  unfold cotRow
  rw [rd_ok (by simpa using hi), rd_ok (by simpa using hi)]
  simp only [ok_bind, List.getElem_map, List.getElem_range]
  obtain ⟨A', e, hm, hwf, hf⟩ := cotLoop_ok hM.size hsol hM.verts pi mat hi (neighOf M.data.pairs i)
    (fun v hv => mem_neigh hsol hM.verts hv) 0 S.A h.wf
  rw [e]
  simp only [ok_bind]
  obtain ⟨A2, e2, m2, f2, _⟩ := Coo.modify_ok (A := A')
    (fun _ => -(0 + ((neighOf M.data.pairs i).map (M.data.wt i)).sum)) (le_refl (i % 2 ^ 32))
  unfold Coo.assign
  rw [e2]
  simp only [ok_bind]
  rw [wr_ok (by rw [hb]; simpa using hi)]
  have key : ∀ a b, a < 2 ^ 32 → b < 2 ^ 32 → (packKey a b = packKey i i ↔ a = i ∧ b = i) :=
    fun a b ha hb => packKey_inj ha hb (by omega) (by omega)
  refine ⟨_, rfl, ⟨by simp only; rw [m2, hm, h.dim], hwf.modify e2, ?_, ?_, ?_, ?_⟩, ?_⟩
  · intro a b ha hb' hab
    simp only
    rw [f2]
    by_cases hk : packKey a b = packKey i i
    · obtain ⟨rfl, rfl⟩ := (key a b ha hb').mp hk
      rw [if_pos hk, if_pos (by omega), Option.getD_some, zero_add, neigh_sum hsol hM.verts]
      unfold MeshData.cotCell
      rw [if_pos rfl]
    · rw [if_neg hk, (hf a b ha hb').1, h.cell a b ha hb' hab]
      by_cases hai : a = i
      · subst hai
        have hne : a ≠ b := fun hc => hk ((key a b ha hb').mpr ⟨rfl, hc.symm⟩)
        rw [if_neg (by omega), if_pos ⟨rfl, hab⟩, if_pos (by omega), zero_add, neighOf_count,
          pairs_count hsol hne]
        unfold MeshData.cotCell
        rw [if_neg hne]
        rfl
      · rw [if_neg (show ¬ (a = i ∧ i ≤ b) from fun hc => hai hc.1), add_zero]
        exact if_congr (by omega) rfl rfl
  · intro a b ha hb'
    simp only
    rw [f2]
    by_cases hk : packKey a b = packKey i i
    · intro _
      rw [((key a b ha hb').mp hk).2]
      exact hi
    · rw [if_neg hk]
      intro hs
      rcases (hf a b ha hb').2.1 hs with hs | hs
      · exact h.bound a b ha hb' hs
      · exact hs.2
  · intro a ha
    simp only
    rw [f2]
    by_cases hk : packKey a a = packKey i i
    · rw [if_pos hk]; rfl
    · rw [if_neg hk]
      have hai : a ≠ i := fun hc => hk (by rw [hc])
      have ha' : a < i := by omega
      exact (hf a a (by omega) (by omega)).2.2 (h.diag a ha')
  · intro a b ha hb' hai
    simp only
    rw [f2, if_neg (fun hk => by have := ((key a b ha hb').mp hk).1; omega)]
    by_contra hc
    have hs : (findKey A'.elems (packKey a b)).isSome := Option.isSome_iff_ne_none.mpr hc
    rcases (hf a b ha hb').2.1 hs with hs | hs
    · rw [h.above a b ha hb' (by omega)] at hs
      exact absurd hs (by simp)
    · omega
  · simp only [hb]
    apply List.ext_getElem (by simp)
    intro j h1 h2
    rw [List.getElem_set]
    simp

theorem cotangentSystem_ok {M : Mesh ℝ P} {mat : Nat → P} (hM : MeshOK M mat)
    (hsol : M.data.Solid) (pi : ℝ) (hle : ∀ v, M.data.valence v ≤ 9) :
    ∃ S, cotangentSystem (realLibm pi) M = .ok S ∧ CotDone M.data M.data.pts.length S.A ∧
      S.b = List.replicate M.data.pts.length 0 := by
  unfold cotangentSystem
  rw [adjacency_spec hM, if_neg (by rintro ⟨v, hv⟩; have := hle v; omega),
    adjVerts_spec hM.verts, if_neg (by rintro ⟨v, hv⟩; have := hle v; omega)]
  simp only [ok_bind]
  refine forUp_inv (fun i (S : Sys ℝ) => CotDone M.data i S.A ∧
    S.b = List.replicate M.data.pts.length 0) (Nat.zero_le _) ⟨⟨rfl, CooWF.new _, ?_, ?_, ?_, ?_⟩, rfl⟩
    (fun i S _ hi ⟨h1, h2⟩ => cotRow_ok hM hsol pi hi h1 h2)
  · intro a b _ _ _; simp [Sys.new, Coo.new, findKey]
  · intro a b _ _; simp [Sys.new, Coo.new, findKey]
  · intro a ha; omega
  · intro a b _ _ _; simp [Sys.new, Coo.new, findKey]

/-- Entries of the finished matrix. -/
theorem CotDone.entry {D : MeshData ℝ} {A : Coo ℝ} (h : CotDone D D.pts.length A)
    (hsz : D.pts.length < 2 ^ 32) {i j : Nat} (hi : i < D.pts.length) (hj : j < D.pts.length) :
    A.entry i j = D.cotCell i j := by
  unfold Coo.entry
  rcases le_total i j with hij | hij
  · rw [Nat.min_eq_left hij, Nat.max_eq_right hij, h.cell i j (by omega) (by omega) hij, if_pos hi]
  · rw [Nat.min_eq_right hij, Nat.max_eq_left hij, h.cell j i (by omega) (by omega) hij, if_pos hj]
    unfold MeshData.cotCell
    by_cases he : j = i
    · subst he; rfl
    · rw [if_neg he, if_neg (Ne.symm he), cotOff_comm]

theorem CotDone.sysOK {D : MeshData ℝ} {S : Sys ℝ} (h : CotDone D D.pts.length S.A)
    (hsz : D.pts.length < 2 ^ 32) (hb : S.b = List.replicate D.pts.length 0) : SysOK S := by
  refine ⟨h.wf, by rw [h.dim]; exact hsz, fun k hk => ?_, by rw [hb, h.dim]; simp⟩
  rw [h.dim]
  refine h.bound (keyRow k) (keyCol k) (keyRow_lt k) (keyCol_lt k) ?_
  rw [packKey_keyRow_keyCol (h.wf.keys k hk).1]
  exact findKey_isSome_iff.mpr hk

/-- On a manifold mesh the value outside the diagonal is the sum of the two cotangents. -/
theorem cotOff_manifold {D : MeshData ℝ} (hm : D.Manifold) {a b : Nat} (hab : a ≠ b) :
    D.cotOff a b = if (D.sharing a b).length = 2 then
      ((D.sharing a b).map (D.cotOpposite a b)).sum else 0 := by
  have h2 := hm a b hab
  unfold MeshData.cotOff MeshData.wt
  generalize D.sharing a b = l at *
  match l, h2 with
  | [], _ => simp
  | [_], _ => simp
  | [t1, t2], _ => simp
  | _ :: _ :: _ :: _, h2 => simp at h2

end Rows

/-! ### No undefined behaviour after the arrays are built -/

section NoUb
variable {K P : Type} [Field K] [LinearOrder K]

theorem findTwo_no_ub {D : MeshData K} {v1 v2 : Nat} : ∀ (l : List (Nat × P)) (f : List Nat),
    (∀ a ∈ l, a.1 < D.tris.length) → (∀ t ∈ f, t < D.tris.length) →
    Sat (· ≠ .ub) (fun r => ∀ t ∈ r, t < D.tris.length) (findTwo D v1 v2 l f) := by
  intro l
  induction l with
  | nil => intro f _ hf; exact Sat.ok hf
  | cons a l ih =>
    intro f hl hf
    unfold findTwo
    rw [MeshData.rd_tri (hl a (by simp))]
    simp only [ok_bind]
    have hf' : ∀ t ∈ (if v1 ∈ (D.tri a.1).verts ∧ v2 ∈ (D.tri a.1).verts then f ++ [a.1] else f),
        t < D.tris.length := by
      intro t ht
      split at ht
      · rcases List.mem_append.mp ht with ht | ht
        · exact hf t ht
        · rw [List.mem_singleton] at ht; rw [ht]; exact hl a (by simp)
      · exact hf t ht
    generalize (if v1 ∈ (D.tri a.1).verts ∧ v2 ∈ (D.tri a.1).verts then f ++ [a.1] else f) = g at *
    split
    · exact Sat.ok hf'
    · exact ih g (fun x hx => hl x (by simp [hx])) hf'

theorem thirdVertex_no_ub (e : Elem) (v1 v2 : Nat) :
    Sat (· ≠ .ub) (fun c => c ∈ e.verts) (thirdVertex e v1 v2) := by
  unfold thirdVertex
  repeat' split
  all_goals first | exact Sat.ok (by simp [Elem.verts]) | exact Sat.error (by simp)

theorem cotWeight_no_ub (lm : Libm K) {D : MeshData K}
    (hv : ∀ e ∈ D.tris, ∀ v ∈ e.verts, v < D.pts.length) {v1 v2 t1 t2 : Nat}
    (h1 : v1 < D.pts.length) (h2 : v2 < D.pts.length) (l1 : t1 < D.tris.length)
    (l2 : t2 < D.tris.length) :
    Sat (· ≠ .ub) (fun _ => True) (cotWeight lm D v1 v2 t1 t2) := by
  have hf : ∀ x y : K, Sat (· ≠ .ub) (fun _ => True) (fdiv x y) := by
    intro x y
    unfold fdiv
    split
    · exact Sat.error (by simp)
    · exact Sat.ok trivial
  unfold cotWeight
  rw [MeshData.rd_tri l1, MeshData.rd_tri l2]
  simp only [ok_bind]
  refine Sat.bind (thirdVertex_no_ub _ _ _) fun c1 hc1 => ?_
  refine Sat.bind (thirdVertex_no_ub _ _ _) fun c2 hc2 => ?_
  rw [MeshData.rd_pt h1, MeshData.rd_pt h2, MeshData.rd_pt (hv _ (MeshData.tri_mem l1) _ hc1),
    MeshData.rd_pt (hv _ (MeshData.tri_mem l2) _ hc2)]
  simp only [ok_bind]
  refine Sat.bind (hf _ _) fun _ _ => ?_
  exact Sat.bind (hf _ _) fun _ _ => Sat.ok trivial

theorem modify_no_ub {α : Type} [Zero α] (A : Coo α) (i j : Nat) (f : α → α) :
    Sat (· ≠ .ub) (fun _ => True) (A.modify i j f) := by
  by_cases h : i % 2 ^ 32 ≤ j % 2 ^ 32
  · obtain ⟨A', e, _⟩ := Coo.modify_ok (A := A) f h
    rw [e]; exact Sat.ok trivial
  · unfold Coo.modify
    rw [Coo.touch_error (by omega)]
    exact Sat.error (by simp)

theorem cotNeighbour_no_ub (lm : Libm K) {D : MeshData K}
    (hv : ∀ e ∈ D.tris, ∀ v ∈ e.verts, v < D.pts.length) {es : List (Nat × P)}
    (hes : ∀ a ∈ es, a.1 < D.tris.length) {i v : Nat} (hi : i < D.pts.length)
    (hvn : v < D.pts.length) (s : K × Coo K) :
    Sat (· ≠ .ub) (fun _ => True) (cotNeighbour lm D es i v s) := by
  unfold cotNeighbour
  refine Sat.bind (findTwo_no_ub es [] hes (by simp)) fun found hf => ?_
  match found, hf with
  | [t1, t2], hf =>
    simp only
    refine Sat.bind (cotWeight_no_ub lm hv hi hvn (hf t1 (by simp)) (hf t2 (by simp))) fun w _ => ?_
    refine Sat.bind (P := fun _ => True) ?_ fun _ _ => Sat.ok trivial
    unfold addUpper
    split
    · exact modify_no_ub _ _ _ _
    · exact Sat.ok trivial
  | [], _ => exact Sat.ok trivial
  | [_], _ => exact Sat.ok trivial
  | _ :: _ :: _ :: _, _ => exact Sat.ok trivial

end NoUb

end Nikfemm
