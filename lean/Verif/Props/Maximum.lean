import Verif.Lemmas.Maximum
import Verif.Props.Balance
import Mathlib.Tactic.IntervalCases

/-!
# Range of the computed voltages (C86)
-/

set_option linter.unusedSectionVars false

namespace Nikfemm
open Spec Finset

section
variable {K P : Type} [Field K] [LinearOrder K] [IsStrictOrderedRing K]

/-! ## C86 -/

/-- **C86**.  Let voltages be imposed as in C60, nodes addressed several times always with the same
value, all values between `lo` and `hi`.  If no triangle is obtuse, the exact solution lies between
`lo` and `hi` everywhere, and there is a constant `C`, the same for all tolerances, such that the
computed voltages leave this range by at most `C` times the tolerance. -/
theorem voltages_between_imposed {sq : K → K} (hsq : ∀ a b, 0 ≤ a → a < b → sq a < sq b)
    {meshes : List (Mesh K P)} {mat : Nat → Nat → P} (h : LayersOK meshes mat) {sigma : P → K}
    (hsig : ∀ k t, 0 < sigma (mat k t)) (hdepth : ∀ M ∈ meshes, 0 < M.depth)
    {links : List (Link K)} (hlinks : ∀ l ∈ links, l.layer1 ≠ l.layer2 ∧ 0 < l.R ∧
      (∃ M, meshes[l.layer1]? = some M ∧ M.data.pts ≠ []) ∧
      ∃ M, meshes[l.layer2]? = some M ∧ M.data.pts ≠ [])
    (hsmall : 3 * ((elemCounts meshes).sum + links.length) < 2 ^ 32)
    {calls : List (VoltageCall K)} (hc : ∀ c ∈ calls, c.Valid (meshes.map (fun M => M.data)))
    (hn0 : 0 < (nodeCounts meshes).sum)
    {N : List (NodeLink K)} (hN : List.Forall₂ (Resolves meshes) links N)
    (hpw : N.Pairwise (fun l l' => ¬ l.SamePair (nodeCounts meshes) l')) {l : List (Nat × K)}
    (h1 : List.Forall₂ (VoltageCall.Addresses (meshes.map (fun M => M.data))) calls l)
    (hconn : ∀ i, i < (nodeCounts meshes).sum →
      ∃ y ∈ l, Relation.ReflTransGen (Joined meshes N) i y.1)
    (hsame : ∀ y ∈ l, ∀ y' ∈ l, y.1 = y'.1 → y.2 = y'.2)
    (hno : ∀ M ∈ meshes, M.data.NonObtuse) {lo hi : K}
    (hrange : ∀ c ∈ calls, lo ≤ c.V ∧ c.V ≤ hi) :
    ∃ S S' C, multiSystem sq sigma meshes links = .ok S ∧
      applyVoltages (meshes.map (fun M => M.data)) calls S = .ok S' ∧
      (∃ x : Nat → K, S'.Solves x) ∧
      (∀ x : Nat → K, S'.Solves x → ∀ i, i < (nodeCounts meshes).sum → lo ≤ x i ∧ x i ≤ hi) ∧
      ∀ tol, 0 < tol → ∀ maxIterations, (nodeCounts meshes).sum ≤ maxIterations →
        ∃ x, solveConduction S' S'.b.length tol maxIterations = .ok (x, true) ∧
          ∀ i, i < (nodeCounts meshes).sum → lo - C * tol ≤ fn x i ∧ fn x i ≤ hi + C * tol := by
  obtain ⟨S, S', eS, eV, eP, hS, hS', hm, hm', hb, _, hpd, h2, hR, hform⟩ :=
    multilayer_pinned_system hsq h hsig hdepth hlinks hsmall hc hN hpw h1 hconn
  have hlt : ∀ c ∈ l, c.1 < S.A.m := fun c hc => hm ▸ h2 c hc
  obtain ⟨S1, e1, _, hmm, _, he, _, _⟩ := pinAll_ok l hS hlt
  rw [eP] at e1; cases e1
  let val : Nat → K := fun i => ((l.find? (fun y => y.1 = i)).map Prod.snd).getD 0
  have hval : ∀ y ∈ l, y.2 = val y.1 := by
    intro y hy
    simp only [val]
    cases hf : l.find? (fun z => z.1 = y.1) with
    | none =>
      have := List.find?_eq_none.mp hf y hy
      simp at this
    | some z =>
      have hz1 := List.find?_some hf
      have hz2 := List.mem_of_find?_eq_some hf
      simp only [decide_eq_true_eq] at hz1
      simp only [Option.map_some, Option.getD_some]
      exact hsame y hy z hz2 hz1.symm
  have hvr : ∀ i ∈ l.map Prod.fst, lo ≤ val i ∧ val i ≤ hi := by
    intro i hi
    obtain ⟨y, hy, rfl⟩ := List.mem_map.mp hi
    obtain ⟨n, hn⟩ := List.mem_iff_getElem?.mp hy
    obtain ⟨c, hcn, ha⟩ := forall2_getElem?' h1 n y hn
    rw [← hval y hy, ha.1]
    exact hrange c (List.mem_iff_getElem?.mpr ⟨n, hcn⟩)
  have hex : ∀ x : Nat → K, S'.Solves x → ∀ i, i < (nodeCounts meshes).sum → lo ≤ x i ∧ x i ≤ hi := by
    intro x hx
    obtain ⟨hp, hq⟩ := (pinAll_solves hS hlt hval eP x).mp hx
    have hq' : ∀ i, i < S.A.m → i ∉ l.map Prod.fst → mulVec S.A.m S.A.entry x i = 0 :=
      fun i hi hni => by rw [hq i hi hni, hb i]
    have up := maximum_lemma h hsig hdepth hno hR (fun i => i ∈ l.map Prod.fst) he (hmm ▸ hpd) hform
      (V := x) (c := hi) (fun i _ hi => by rw [hp i hi]; exact (hvr i hi).2)
      (fun i hi hni => le_of_eq (hq' i hi hni))
    have down := maximum_lemma h hsig hdepth hno hR (fun i => i ∈ l.map Prod.fst) he (hmm ▸ hpd) hform
      (V := fun i => -x i) (c := -lo)
      (fun i _ hi => neg_le_neg (by rw [hp i hi]; exact (hvr i hi).1))
      (fun i hi hni => by
        have : mulVec S.A.m S.A.entry (fun i => -x i) i = -mulVec S.A.m S.A.entry x i := by
          unfold mulVec
          rw [← Finset.sum_neg_distrib]
          exact Finset.sum_congr rfl (fun j _ => by ring)
        rw [this, hq' i hi hni, neg_zero])
    intro i hi
    rw [← hm] at hi
    exact ⟨neg_le_neg_iff.mp (down i hi), up i hi⟩
  obtain ⟨U, hU⟩ := posDef_solution hpd (fn S'.b)
  obtain ⟨C, hC, hbound⟩ := posDef_bound hpd
  refine ⟨S, S', C, eS, eV, ⟨U, hU⟩, hex, fun tol ht maxIterations hmax => ?_⟩
  obtain ⟨S1, S1', eS1, eV1, hsolve⟩ := multilayer_simulation_converges hsq h hsig hdepth hlinks
    hsmall hc hn0 tol ht hN hpw h1 hconn
  rw [eS] at eS1; cases eS1
  rw [eV] at eV1; cases eV1
  obtain ⟨x, ex, _, hres, _⟩ := hsolve maxIterations hmax
  refine ⟨x, ex, fun i hi => ?_⟩
  have hb1 := hbound (fun j => fn x j - U j) tol (fun i hi => by
    have : mulVec S'.A.m S'.A.entry (fun j => fn x j - U j) i =
        mulVec S'.A.m S'.A.entry (fn x) i - fn S'.b i := by
      rw [← hU i hi]
      unfold mulVec
      rw [← Finset.sum_sub_distrib]
      exact Finset.sum_congr rfl (fun j _ => by ring)
    rw [this]
    have := lt_of_le_of_lt (sq_le_normSq hi _) hres
    unfold Spec.residual at this
    refine le_of_lt (abs_lt_of_sq_lt_sq ?_ (le_of_lt ht))
    rw [pow_two, pow_two]
    refine lt_of_eq_of_lt ?_ this
    ring) i (hm' ▸ hi)
  obtain ⟨u1, u2⟩ := hex U hU i hi
  obtain ⟨b1, b2⟩ := abs_le.mp hb1
  constructor <;> linarith

end

/-- The hypotheses of `voltages_between_imposed` hold for the two plates of C60, cut into right-angled
triangles and interconnected: with 5 volts imposed on one and -1 on the other, all voltages stay
between the two up to the tolerance. -/
example : ∃ S S' C, multiSystem (fun x => x) id twoPlates [plateLink] = .ok S ∧
    applyVoltages (twoPlates.map (fun M => M.data)) plateCalls S = .ok S' ∧
    ∀ tol : ℚ, 0 < tol → ∃ x, solveConduction S' S'.b.length tol 8 = .ok (x, true) ∧
      ∀ i < 8, -1 - C * tol ≤ fn x i ∧ fn x i ≤ 5 + C * tol := by
  have hn : nodeCounts twoPlates = [4, 4] := rfl
  obtain ⟨S, S', C, e1, e2, _, _, h⟩ := voltages_between_imposed (sq := fun x => x)
    (fun a b _ h => h) twoPlates_ok (sigma := id) (fun _ _ => by decide +kernel)
    (fun M hM => by rw [twoPlates_mem hM]; decide +kernel) (links := [plateLink])
    (fun l hl => by
      simp only [List.mem_cons, List.not_mem_nil, or_false] at hl
      subst hl
      exact ⟨by decide, by decide +kernel, ⟨squarePlate, rfl, by decide⟩, squarePlate, rfl,
        by decide⟩)
    (by decide) (calls := plateCalls)
    (fun c hc => by
      simp only [plateCalls, List.mem_cons, List.not_mem_nil, or_false] at hc
      rcases hc with rfl | rfl
      · exact ⟨squareMesh, rfl, by decide⟩
      · exact ⟨squareMesh, rfl, by decide⟩)
    (by rw [hn]; decide) (N := [⟨0, 1, 2, 0, 4⟩])
    (List.Forall₂.cons ⟨rfl, rfl, rfl, ⟨squarePlate, rfl, square_nearest 2 ⟨1, 1⟩ _ rfl
      (by decide +kernel)⟩, squarePlate, rfl, square_nearest 0 ⟨0, 0⟩ _ rfl (by decide +kernel)⟩
      List.Forall₂.nil)
    (by simp) (l := [(0, 5), (6, -1)])
    (List.Forall₂.cons ⟨rfl, squareMesh, 0, rfl, square_nearest 0 ⟨0, 0⟩ _ rfl
      (by decide +kernel), rfl⟩ (List.Forall₂.cons ⟨rfl, squareMesh, 2, rfl,
      square_nearest 2 ⟨1, 1⟩ _ rfl (by decide +kernel), rfl⟩ List.Forall₂.nil))
    (fun i hi => by
      rw [hn] at hi
      have hi' : i < 8 := hi
      by_cases h4 : i < 4
      · exact ⟨(0, 5), by simp, Relation.ReflTransGen.single
          (by simpa using plate_joined 0 (by omega) i h4 0 (Or.inl rfl))⟩
      · refine ⟨(6, -1), by simp, Relation.ReflTransGen.single ?_⟩
        have := plate_joined 1 (by omega) (i - 4) (by omega) 2 (Or.inr rfl)
        rwa [show 4 * 1 + (i - 4) = i by omega] at this)
    (by decide +kernel)
    (fun M hM => by
      rw [twoPlates_mem hM]
      have : ∀ e ∈ squareMesh.tris, 0 ≤ squareMesh.cornerDot e.v0 e.v1 e.v2 ∧
        0 ≤ squareMesh.cornerDot e.v1 e.v2 e.v0 ∧ 0 ≤ squareMesh.cornerDot e.v2 e.v0 e.v1 := by
        decide +kernel
      exact this)
    (lo := -1) (hi := 5) (by decide +kernel)
  refine ⟨S, S', C, e1, e2, fun tol ht => ?_⟩
  obtain ⟨x, ex, hx⟩ := h tol ht 8 (by rw [hn]; decide)
  exact ⟨x, ex, fun i hi => hx i (by rw [hn]; exact hi)⟩

/-! ### An obtuse triangle -/

/-- A single triangle whose angle at the last node is obtuse. -/
def obtuseMesh : MeshData ℚ :=
  { pts := [⟨0, 0⟩, ⟨4, 0⟩, ⟨1, 1⟩], tris := [⟨0, 1, 2⟩], attrs := [0], markers := [0, 0, 0] }

def obtusePlate : Mesh ℚ ℚ := { squarePlate with data := obtuseMesh }

/-- **C86** (obtuse triangles).  The hypothesis is needed: on a plate that is one obtuse triangle, with
one volt imposed at a corner and none at the obtuse one, the only solution has a negative voltage at
the third. -/
theorem obtuse_triangle_overshoots : ¬ obtuseMesh.NonObtuse ∧
    ∃ S S', multiSystem (fun x => x) id [obtusePlate] [] = .ok S ∧
      applyVoltages [obtuseMesh] [⟨⟨4, 0⟩, 1, 0⟩, ⟨⟨1, 1⟩, 0, 0⟩] S = .ok S' ∧
      ∀ x : Nat → ℚ, S'.Solves x ↔ x 0 = -1 / 5 ∧ x 1 = 1 ∧ x 2 = 0 := by
  refine ⟨fun h => ?_, ?_⟩
  · have := (h ⟨0, 1, 2⟩ (by simp [obtuseMesh])).2.2
    exact absurd this (by decide +kernel)
  have key : ((multiSystem (fun x => x) id [obtusePlate] []).toOption.bind (fun S =>
      (applyVoltages [obtuseMesh] [⟨⟨4, 0⟩, 1, 0⟩, ⟨⟨1, 1⟩, 0, 0⟩] S).toOption)).map (fun S' =>
      (S'.A.m, (List.range 3).map (fun i => (List.range 3).map (S'.A.entry i)), S'.b)) =
      some (3, [[15 / 2, 0, 0], [0, 1, 0], [0, 0, 1]], [-3 / 2, 1, 0]) := by decide +kernel
  cases e1 : multiSystem (fun x => x) id [obtusePlate] [] with
  | error f => rw [e1] at key; cases key
  | ok S =>
    rw [e1] at key
    change ((applyVoltages [obtuseMesh] [⟨⟨4, 0⟩, 1, 0⟩, ⟨⟨1, 1⟩, 0, 0⟩] S).toOption).map _ = _ at key
    cases e2 : applyVoltages [obtuseMesh] [⟨⟨4, 0⟩, 1, 0⟩, ⟨⟨1, 1⟩, 0, 0⟩] S with
    | error f => rw [e2] at key; cases key
    | ok S' =>
      refine ⟨S, S', rfl, e2, fun x => ?_⟩
      rw [e2] at key
      change some (S'.A.m, (List.range 3).map (fun i => (List.range 3).map (S'.A.entry i)), S'.b) =
        _ at key
      simp only [Option.some.injEq, Prod.mk.injEq, List.range_succ, List.range_zero, List.nil_append,
        List.cons_append, List.map_cons, List.map_nil, List.cons.injEq, and_true] at key
      obtain ⟨hm, ⟨⟨a1, a2, a3⟩, ⟨b1, b2, b3⟩, c1, c2, c3⟩, hb⟩ := key
      have hrow : ∀ i, mulVec S'.A.m S'.A.entry x i =
          S'.A.entry i 0 * x 0 + S'.A.entry i 1 * x 1 + S'.A.entry i 2 * x 2 := by
        intro i
        unfold mulVec
        rw [hm, Finset.sum_range_succ, Finset.sum_range_succ, Finset.sum_range_succ,
          Finset.sum_range_zero, zero_add]
      unfold Sys.Solves Sys.Equation
      constructor
      · intro hx
        have r0 := hx 0 (by omega)
        have r1 := hx 1 (by omega)
        have r2 := hx 2 (by omega)
        rw [hrow, hb] at r0 r1 r2
        rw [a1, a2, a3] at r0
        rw [b1, b2, b3] at r1
        rw [c1, c2, c3] at r2
        simp only [fn, List.getElem?_cons_zero, List.getElem?_cons_succ, Option.getD_some] at r0 r1 r2
        refine ⟨?_, ?_, ?_⟩ <;> linarith
      · rintro ⟨x0, x1, x2⟩ i hi
        rw [hm] at hi
        rw [hrow, hb, x0, x1, x2]
        interval_cases i
        · rw [a1, a2, a3]; simp only [fn, List.getElem?_cons_zero, Option.getD_some]; norm_num
        · rw [b1, b2, b3]
          simp only [fn, List.getElem?_cons_zero, List.getElem?_cons_succ, Option.getD_some]; norm_num
        · rw [c1, c2, c3]
          simp only [fn, List.getElem?_cons_zero, List.getElem?_cons_succ, Option.getD_some]; norm_num

end Nikfemm
