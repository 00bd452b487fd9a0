import Verif.Lemmas.NonLinear
import Verif.Lemmas.CsrUnsafe
import Verif.Spec.NonLinear
import Verif.Spec.System
import Mathlib.Algebra.Field.Rat

/-!
# C11, C12: symbolic coefficients
-/

namespace Nikfemm
open Spec
variable {K : Type} [Field K] [DecidableEq K]

/-- **C11 (one operation).** If a variable evaluates to `a`, every operation on it evaluates to the
same operation on the numbers, whenever its operand evaluates. -/
theorem expression_operation_homomorphic (mu : List K) (x : NLExpr K) (a : K)
    (hx : x.evaluate mu = .ok a) (op : NLOp K) (b : K) (hop : op.runNumber mu a = .ok b) :
    (op.run x).evaluate mu = .ok b := by
  obtain ⟨hd, rfl⟩ := evaluate_ok_iff.mp hx
  rw [evaluate_ok_iff]
  cases op with
  | setScalar c =>
    cases hop
    exact ⟨by simp [NLOp.run, NLExpr.assignScalar, NLExpr.Defined],
      by simp [NLOp.run, NLExpr.assignScalar, NLExpr.value]⟩
  | set e => exact evaluate_ok_iff.mp hop
  | addScalar c =>
    cases hop
    exact ⟨hd, by simp only [NLOp.run, NLExpr.addScalar, NLExpr.value]; ring⟩
  | addTerm t =>
    simp only [NLOp.runNumber, bind_eq_ok_iff, rd_eq_ok_iff, fdiv_eq_ok_iff] at hop
    obtain ⟨m, hm, q, ⟨hq, rfl⟩, hb⟩ := hop
    cases hb
    have hfm : fn mu t.idx = m := by simp [fn, hm]
    refine ⟨?_, ?_⟩
    · intro t' ht'
      rcases List.mem_append.mp ht' with h | h
      · exact hd t' h
      · rw [List.mem_singleton.mp h, hfm]
        exact ⟨(List.getElem?_eq_some_iff.mp hm).1, hq⟩
    · simp [NLOp.run, NLExpr.addTerm, NLExpr.value, hfm, add_assoc]
  | add e =>
    simp only [NLOp.runNumber, bind_eq_ok_iff] at hop
    obtain ⟨v, hv, hb⟩ := hop
    cases hb
    obtain ⟨he, rfl⟩ := evaluate_ok_iff.mp hv
    exact ⟨defined_add.mpr ⟨hd, he⟩, value_add.symm⟩
  | subScalar c =>
    cases hop
    exact ⟨hd, by simp only [NLOp.run, NLExpr.subScalar, NLExpr.value]; ring⟩
  | subTerm t =>
    simp only [NLOp.runNumber, bind_eq_ok_iff, rd_eq_ok_iff, fdiv_eq_ok_iff] at hop
    obtain ⟨m, hm, q, ⟨hq, rfl⟩, hb⟩ := hop
    cases hb
    have hfm : fn mu t.idx = m := by simp [fn, hm]
    refine ⟨?_, ?_⟩
    · intro t' ht'
      rcases List.mem_append.mp ht' with h | h
      · exact hd t' h
      · rw [List.mem_singleton.mp h]
        exact ⟨(List.getElem?_eq_some_iff.mp hm).1, hfm ▸ hq⟩
    · simp only [NLOp.run, NLExpr.subTerm, NLExpr.value, List.map_append, List.map_cons,
        List.map_nil, List.sum_append, List.sum_cons, List.sum_nil, hfm]
      ring
  | sub e =>
    simp only [NLOp.runNumber, bind_eq_ok_iff] at hop
    obtain ⟨v, hv, hb⟩ := hop
    cases hb
    obtain ⟨he, rfl⟩ := evaluate_ok_iff.mp hv
    exact ⟨defined_sub.mpr ⟨hd, he⟩, value_sub.symm⟩
  | mul c =>
    cases hop
    exact ⟨defined_mul.mpr hd, value_mul.symm⟩

/-- **C11 (histories).** A default-constructed expression put through any sequence of operations
evaluates to the number obtained by running the same operations on the evaluated operands starting
from zero. -/
theorem expression_history_homomorphic (mu : List K) (ops : List (NLOp K)) (b : K)
    (h : forEach (fun op x => op.runNumber mu x) ops 0 = .ok b) :
    (ops.foldl NLOp.run (0 : NLExpr K)).evaluate mu = .ok b := by
  suffices H : ∀ (ops : List (NLOp K)) (x : NLExpr K) (a : K), x.evaluate mu = .ok a →
      forEach (fun op x => op.runNumber mu x) ops a = .ok b →
      (ops.foldl NLOp.run x).evaluate mu = .ok b from H ops 0 0 rfl h
  intro ops
  induction ops with
  | nil => intro x a hx h; cases h; exact hx
  | cons op ops ih =>
    intro x a hx h
    simp only [forEach] at h
    split at h
    · rename_i a' ha'
      exact ih _ a' (expression_operation_homomorphic mu x a hx op a' ha') h
    · cases h

/-- Non-vacuity: `x = 0; x += 3; x += 4/mu₁; x -= (1 + 2/mu₀); x = x * 2` at `mu = (2, 8)`. -/
example : (List.foldl NLOp.run (0 : NLExpr ℚ)
      [.addScalar 3, .addTerm ⟨4, 1⟩, .sub ⟨1, [⟨2, 0⟩]⟩, .mul 2]).evaluate [2, 8] = .ok 3 :=
  expression_history_homomorphic [2, 8] _ 3 (by decide +kernel)

/-- **C11 (linear expressions).** An expression reported as linear evaluates to the same number for
every permeability assignment. -/
theorem linear_expression_constant (e : NLExpr K) (h : e.isLinear = true) (mu mu' : List K) :
    ∃ c, e.evaluate mu = .ok c ∧ e.evaluate mu' = .ok c := by
  have h0 : e.terms = [] := by simpa [NLExpr.isLinear] using h
  exact ⟨e.constant, by simp [NLExpr.evaluate, h0, forEach], by simp [NLExpr.evaluate, h0, forEach]⟩

example : ∃ c, (⟨5, []⟩ : NLExpr ℚ).evaluate [] = .ok c ∧
    (⟨5, []⟩ : NLExpr ℚ).evaluate [1, 2] = .ok c := linear_expression_constant _ rfl _ _

/-- **C11 (failure).** Evaluation fails exactly when some term refers to a missing or zero
permeability: adding expressions never hides a failure. -/
theorem expression_sum_defined_iff (mu : List K) (x y : NLExpr K) :
    ((∃ c, (x.add y).evaluate mu = .ok c) ↔
      (∃ a, x.evaluate mu = .ok a) ∧ ∃ b, y.evaluate mu = .ok b) := by
  constructor
  · rintro ⟨c, h⟩
    obtain ⟨h1, h2⟩ := defined_add.mp (evaluate_ok_iff.mp h).1
    exact ⟨⟨_, evaluate_ok h1⟩, ⟨_, evaluate_ok h2⟩⟩
  · rintro ⟨⟨a, ha⟩, ⟨b, hb⟩⟩
    exact ⟨_, evaluate_ok (defined_add.mpr
      ⟨(evaluate_ok_iff.mp ha).1, (evaluate_ok_iff.mp hb).1⟩)⟩

example : ¬ ∃ c, ((⟨1, []⟩ : NLExpr ℚ).add ⟨0, [⟨1, 0⟩]⟩).evaluate [0] = .ok c := by
  rw [expression_sum_defined_iff]
  rintro ⟨-, b, hb⟩
  exact absurd hb (by
    have : (⟨0, [⟨1, 0⟩]⟩ : NLExpr ℚ).evaluate [0] = .error .nonfinite := by decide +kernel
    rw [this]; intro h; cases h)

/-! ### C12 -/

theorem evaluatesTo_cases {mu : List K} {x : Option (NLExpr K)} {y : Option K} :
    x.map (fun e => e.evaluate mu) = y.map (fun x => (.ok x : Res K)) →
    (match x, y with
    | some e, some x => e.evaluate mu = .ok x
    | none, none => True
    | _, _ => False) := by
  cases x <;> cases y <;> simp

/-- **C12 (conversion).** Converting a full symbolic matrix and evaluating it gives exactly the
arrays of the converted numeric matrix, for every numeric matrix holding the evaluated cells,
whatever the iteration orders. -/
theorem symbolic_conversion_agrees_with_numeric (A : Coo (NLExpr K)) (B : Coo K) (mu : List K)
    (hA : CooWF A) (hB : (B.elems.map Prod.fst).Nodup) (hm : A.m < 2 ^ 32)
    (hc : ∀ k ∈ A.elems.map Prod.fst, keyCol k < A.m)
    (hd : ∀ r, r < A.m → (findKey A.elems (packKey r r)).isSome)
    (hs : A.elems.length < A.m + 2 ^ 32) (hAB : A.EvaluatesTo mu B) :
    ∃ N N', NLCsr.ofCoo A = .ok N ∧ N.evaluate A mu = .ok N' ∧ Csr.ofCoo B = .ok N'.numeric := by
  have hfull : CooFull A := ⟨hA, hm, hc, fun r hr => findKey_isSome_iff.mp (hd r hr), hs⟩
  have hev : ∀ k e, findKey A.elems k = some e → e.Defined mu ∧
      findKey B.elems k = some (e.value mu) := by
    intro k e he
    have := evaluatesTo_cases (hAB.2 k)
    rw [he] at this
    cases hb : findKey B.elems k with
    | none => rw [hb] at this; exact this.elim
    | some x =>
      rw [hb] at this
      obtain ⟨h1, h2⟩ := evaluate_ok_iff.mp this
      exact ⟨h1, by rw [h2]⟩
  have hnone : ∀ k, findKey A.elems k = none → findKey B.elems k = none := by
    intro k hk
    have := evaluatesTo_cases (hAB.2 k)
    rw [hk] at this
    cases hb : findKey B.elems k with
    | none => rfl
    | some x => rw [hb] at this; exact this.elim
  obtain ⟨N, N', e1, e2, e3⟩ := nl_evaluate_ok hfull (mu := mu) (fun e he =>
    (hev e.1 e.2 (findKey_of_mem hA.nodup he)).1)
  refine ⟨N, N', e1, e2, ?_⟩
  have hEn : ((A.evalAt mu).elems.map Prod.fst).Nodup := by
    have : (A.evalAt mu).elems.map Prod.fst = A.elems.map Prod.fst := by
      simp [Coo.evalAt]
    rw [this]; exact hA.nodup
  have hfk : ∀ k, findKey (A.evalAt mu).elems k = findKey B.elems k := by
    intro k
    have : findKey (A.evalAt mu).elems k = (findKey A.elems k).map (fun e => e.value mu) :=
      findKey_map (f := fun _ (e : NLExpr K) => e.value mu)
    rw [this]
    cases h : findKey A.elems k with
    | none => rw [hnone k h]; rfl
    | some e => rw [(hev k e h).2]; rfl
  have hperm : (A.evalAt mu).elems.Perm B.elems := by
    rw [List.perm_ext_iff_of_nodup (List.Nodup.of_map _ hEn) (List.Nodup.of_map _ hB)]
    rintro ⟨k, v⟩
    rw [← findKey_eq_some_iff hEn, ← findKey_eq_some_iff hB, hfk]
  rw [← e3, ← ofCoo_perm hEn hperm]
  congr 1
  cases B
  simp [Coo.evalAt, hAB.1]

/-- Non-vacuity: a symbolic 2×2 matrix, stored in different orders. -/
example : ∃ N N', NLCsr.ofCoo (⟨2, [(packKey 0 1, ⟨0, [⟨-1, 0⟩]⟩), (packKey 1 1, ⟨3, []⟩),
      (packKey 0 0, ⟨1, [⟨1, 0⟩]⟩)]⟩ : Coo (NLExpr ℚ)) = .ok N ∧
    N.evaluate ⟨2, [(packKey 0 1, ⟨0, [⟨-1, 0⟩]⟩), (packKey 1 1, ⟨3, []⟩),
      (packKey 0 0, ⟨1, [⟨1, 0⟩]⟩)]⟩ [2] = .ok N' ∧
    Csr.ofCoo ⟨2, [(packKey 0 0, 3 / 2), (packKey 0 1, -1 / 2), (packKey 1 1, 3)]⟩ =
      .ok N'.numeric := by
  apply symbolic_conversion_agrees_with_numeric _ _ _ ⟨by decide, by decide⟩ (by decide)
    (by decide) (by decide) (by decide) (by decide)
  refine ⟨rfl, fun k => ?_⟩
  by_cases h1 : k = packKey 0 0
  · subst h1; decide +kernel
  · by_cases h2 : k = packKey 0 1
    · subst h2; decide +kernel
    · by_cases h3 : k = packKey 1 1
      · subst h3; decide +kernel
      · simp [findKey, Ne.symm h1, Ne.symm h2, Ne.symm h3]

/-- **C12 (Dirichlet).** Imposing a Dirichlet condition on the symbolic system and evaluating gives
the same system as imposing it on the evaluated one. -/
theorem dirichlet_commutes_with_evaluation (S : Sys (NLExpr K)) (T : Sys K) (mu : List K)
    (hS : SysOK S) (hT : SysOK T) (hST : S.EvaluatesTo mu T) (id : Nat) (hid : id < S.A.m)
    (value : K) :
    ∃ S' T', S.addDirichlet nlOps id value = .ok S' ∧ T.addDirichlet scalarOps id value = .ok T' ∧
      S'.EvaluatesTo mu T' := by
  obtain ⟨⟨hm, hA⟩, hlen, hb⟩ := hST
  obtain ⟨S', e1, m1, _, l1, _, f1, r1, _⟩ := addDirichlet_ok (nlOps : WeightOps K (NLExpr K)) value
    hS.wf rfl hS.cols hS.rhs hid hS.m_lt
  obtain ⟨T', e2, m2, _, l2, _, f2, r2, _⟩ := addDirichlet_ok (scalarOps : WeightOps K K) value
    hT.wf rfl hT.cols hT.rhs (hm ▸ hid) hT.m_lt
  have hconst : ∀ c : K, ((nlOps : WeightOps K (NLExpr K)).ofScalar c).evaluate mu = .ok c := by
    intro c; rfl
  refine ⟨S', T', e1, e2, ⟨by rw [m1, m2, hm], fun k => ?_⟩, by rw [l1, l2, hm], ?_⟩
  · rw [f1, f2]
    by_cases hk : k = packKey id id
    · simp only [hk, if_true, Option.map_some, hconst]; rfl
    · simp only [hk, if_false]
      have := evaluatesTo_cases (hA k)
      cases h1 : findKey S.A.elems k with
      | none =>
        rw [h1] at this
        cases h2 : findKey T.A.elems k with
        | none => rfl
        | some x => rw [h2] at this; exact this.elim
      | some e =>
        rw [h1] at this
        cases h2 : findKey T.A.elems k with
        | none => rw [h2] at this; exact this.elim
        | some x =>
          rw [h2] at this
          simp only [Option.map_some, dirVal]
          split
          · rw [hconst 0]; rfl
          · rw [this]
  · intro i e x he hx
    have hi : i < S.A.m := by
      have := (List.getElem?_eq_some_iff.mp he).1; omega
    rw [r1 i hi] at he
    rw [r2 i (hm ▸ hi)] at hx
    by_cases h1 : i = id
    · simp only [h1, if_true, Option.some.injEq] at he hx
      rw [← he, ← hx]
      exact hconst value
    · simp only [h1, if_false] at he hx
      have hlS : i < S.b.length := by rw [hS.rhs]; exact hi
      have hlT : i < T.b.length := by rw [← hlen]; exact hlS
      rw [List.getElem?_eq_getElem hlS, Option.map_some, Option.some.injEq] at he
      rw [List.getElem?_eq_getElem hlT, Option.map_some, Option.some.injEq] at hx
      have hbi := hb i _ _ (List.getElem?_eq_getElem hlS) (List.getElem?_eq_getElem hlT)
      rw [← he, ← hx]
      have := evaluatesTo_cases (hA (symKey i id))
      cases h2 : findKey S.A.elems (symKey i id) with
      | none =>
        rw [h2] at this
        cases h3 : findKey T.A.elems (symKey i id) with
        | none => exact hbi
        | some x => rw [h3] at this; exact this.elim
      | some c =>
        rw [h2] at this
        cases h3 : findKey T.A.elems (symKey i id) with
        | none => rw [h3] at this; exact this.elim
        | some y =>
          rw [h3] at this
          simp only [dirRhs]
          obtain ⟨d1, v1⟩ := evaluate_ok_iff.mp hbi
          obtain ⟨d2, v2⟩ := evaluate_ok_iff.mp this
          rw [evaluate_ok_iff]
          refine ⟨defined_sub.mpr ⟨d1, defined_mul.mpr d2⟩, ?_⟩
          simp only [nlOps, scalarOps, value_sub, value_mul, ← v1, ← v2]

/-- Non-vacuity: two nodes coupled through element 0 with permeability 2. -/
example : ∃ S' T', (⟨⟨2, [(packKey 0 1, ⟨0, [⟨-1, 0⟩]⟩), (packKey 1 1, ⟨3, []⟩)]⟩,
      [⟨1, []⟩, ⟨0, [⟨4, 0⟩]⟩]⟩ : Sys (NLExpr ℚ)).addDirichlet nlOps 1 (10 : ℚ) = .ok S' ∧
    (⟨⟨2, [(packKey 1 1, 3), (packKey 0 1, -1 / 2)]⟩, [1, 2]⟩ : Sys ℚ).addDirichlet scalarOps 1 10
      = .ok T' ∧ S'.EvaluatesTo [2] T' := by
  apply dirichlet_commutes_with_evaluation _ _ _ ⟨⟨by decide, by decide⟩, by decide, by decide, rfl⟩
    ⟨⟨by decide, by decide⟩, by decide, by decide, rfl⟩ _ 1 (by decide)
  refine ⟨⟨rfl, fun k => ?_⟩, rfl, ?_⟩
  · by_cases h2 : k = packKey 0 1
    · subst h2; decide +kernel
    · by_cases h3 : k = packKey 1 1
      · subst h3; decide +kernel
      · simp [findKey, Ne.symm h2, Ne.symm h3]
  · rintro (_ | _ | i) e x he hx <;> simp at he hx <;> subst he <;> subst hx <;> decide +kernel

end Nikfemm
