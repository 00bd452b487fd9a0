import Verif.Model.NonLinear
import Verif.Lemmas.CsrOfCoo
import Verif.Lemmas.Sums
import Verif.Lemmas.Dirichlet
import Mathlib.Algebra.BigOperators.Group.List.Basic
import Mathlib.Algebra.Field.Basic
import Mathlib.Tactic.Ring
import Mathlib.Tactic.FieldSimp

namespace Nikfemm
open Spec
variable {K : Type}

theorem forEach_map {α β σ : Type} (f : α → β) (body : β → σ → Res σ) (l : List α) (s : σ) :
    forEach body (l.map f) s = forEach (fun a s => body (f a) s) l s := by
  induction l generalizing s with
  | nil => rfl
  | cons a l ih =>
    simp only [List.map_cons, forEach]
    cases body (f a) s with
    | ok s' => exact ih s'
    | error e => rfl

/-- A loop that fills an array entry by entry. -/
theorem fill_loop {β : Type} {n : Nat} {g : Nat → Res β} {h : Nat → β} {init : List β}
    (hl : init.length = n) (hg : ∀ i, i < n → g i = .ok (h i)) :
    forUp 0 n (fun i l => do let x ← g i; wr l i x) init = .ok ((List.range n).map h) := by
  obtain ⟨s, e, hs, h1⟩ := forUp_inv (body := fun i l => do let x ← g i; wr l i x)
    (fun i s => s.length = n ∧ ∀ j, j < i → s[j]? = some (h j)) (lo := 0) (hi := n) (s := init)
    (Nat.zero_le _) ⟨hl, by simp⟩ (by
      rintro i s - hi ⟨hs, h1⟩
      have hlt : i < s.length := by omega
      refine ⟨s.set i (h i), by simp only [hg i hi, ok_bind, wr_ok hlt], by simp [hs], ?_⟩
      intro j hj
      rw [List.getElem?_set]
      by_cases hij : i = j
      · subst hij; simp [hlt]
      · rw [if_neg hij]; exact h1 j (by omega))
  rw [e]
  congr 1
  apply List.ext_getElem (by simp [hs])
  intro j h2 h3
  have := h1 j (by omega)
  rw [List.getElem?_eq_getElem h2] at this
  simpa using this

section Eval
variable [Field K] [DecidableEq K]

/-- All terms refer to existing, non-zero permeabilities. -/
def NLExpr.Defined (e : NLExpr K) (mu : List K) : Prop :=
  ∀ t ∈ e.terms, t.idx < mu.length ∧ fn mu t.idx ≠ 0

/-- Mathematical value of an expression. -/
def NLExpr.value (e : NLExpr K) (mu : List K) : K :=
  e.constant + (e.terms.map fun t => t.coef / fn mu t.idx).sum

theorem evalFrom_ok {terms : List (NLTerm K)} {mu : List K} :
    ∀ (r s : K), forEach (fun (t : NLTerm K) (r : K) => do
        let m ← rd mu t.idx
        let q ← fdiv t.coef m
        .ok (r + q)) terms r = .ok s ↔
      (∀ t ∈ terms, t.idx < mu.length ∧ fn mu t.idx ≠ 0) ∧
        s = r + (terms.map fun t => t.coef / fn mu t.idx).sum := by
  induction terms with
  | nil => intro r s; simp [forEach, eq_comm]
  | cons t l ih =>
    intro r s
    simp only [forEach]
    by_cases h1 : t.idx < mu.length
    · by_cases h2 : fn mu t.idx = 0
      · have : ¬ ∀ t' ∈ t :: l, t'.idx < mu.length ∧ fn mu t'.idx ≠ 0 :=
          fun h => (h t (by simp)).2 h2
        simp only [rd_fn h1, ok_bind, h2, fdiv_zero, error_bind]
        simp [h2]
      · simp only [rd_fn h1, ok_bind, fdiv_ok h2]
        rw [ih]
        simp only [List.mem_cons, forall_eq_or_imp, h1, h2, ne_eq, not_false_eq_true, and_self,
          true_and, List.map_cons, List.sum_cons, add_assoc]
    · simp only [rd_ub (not_lt.mp h1), error_bind]
      simp [h1]

theorem evaluate_ok_iff {e : NLExpr K} {mu : List K} {s : K} :
    e.evaluate mu = .ok s ↔ e.Defined mu ∧ s = e.value mu := evalFrom_ok _ _

theorem evaluate_ok {e : NLExpr K} {mu : List K} (h : e.Defined mu) :
    e.evaluate mu = .ok (e.value mu) := evaluate_ok_iff.mpr ⟨h, rfl⟩

omit [DecidableEq K] in
theorem sum_map_neg' {ι : Type} (l : List ι) (f : ι → K) :
    (l.map fun t => - f t).sum = - (l.map f).sum := by
  induction l with
  | nil => simp
  | cons a l ih => simp [ih]; ring

omit [DecidableEq K] in
theorem sum_map_mul' {ι : Type} (l : List ι) (f : ι → K) (c : K) :
    (l.map fun t => f t * c).sum = (l.map f).sum * c := by
  induction l with
  | nil => simp
  | cons a l ih => simp [ih]; ring

omit [DecidableEq K] in
theorem defined_add {e o : NLExpr K} {mu : List K} :
    (e.add o).Defined mu ↔ e.Defined mu ∧ o.Defined mu := by
  simp only [NLExpr.Defined, NLExpr.add, List.mem_append]
  constructor
  · exact fun h => ⟨fun t ht => h t (Or.inl ht), fun t ht => h t (Or.inr ht)⟩
  · rintro ⟨h1, h2⟩ t (ht | ht)
    · exact h1 t ht
    · exact h2 t ht

omit [DecidableEq K] in
theorem defined_sub {e o : NLExpr K} {mu : List K} :
    (e.sub o).Defined mu ↔ e.Defined mu ∧ o.Defined mu := by
  simp only [NLExpr.Defined, NLExpr.sub, List.mem_append, List.mem_map]
  constructor
  · exact fun h => ⟨fun t ht => h t (Or.inl ht),
      fun t ht => h ⟨-t.coef, t.idx⟩ (Or.inr ⟨t, ht, rfl⟩)⟩
  · rintro ⟨h1, h2⟩ t (ht | ⟨t', ht, rfl⟩)
    · exact h1 t ht
    · exact h2 t' ht

omit [DecidableEq K] in
theorem defined_mul {e : NLExpr K} {mu : List K} {c : K} :
    (e.mulScalar c).Defined mu ↔ e.Defined mu := by
  simp only [NLExpr.Defined, NLExpr.mulScalar, List.mem_map]
  constructor
  · exact fun h t ht => h ⟨t.coef * c, t.idx⟩ ⟨t, ht, rfl⟩
  · rintro h t ⟨t', ht, rfl⟩
    exact h t' ht

omit [DecidableEq K] in
theorem value_add {e o : NLExpr K} {mu : List K} :
    (e.add o).value mu = e.value mu + o.value mu := by
  simp only [NLExpr.value, NLExpr.add, List.map_append, List.sum_append]
  ring

omit [DecidableEq K] in
theorem value_sub {e o : NLExpr K} {mu : List K} :
    (e.sub o).value mu = e.value mu - o.value mu := by
  simp only [NLExpr.value, NLExpr.sub, List.map_append, List.sum_append, List.map_map]
  have : ((o.terms.map ((fun t : NLTerm K => t.coef / fn mu t.idx) ∘
      fun t => ⟨-t.coef, t.idx⟩))).sum = - (o.terms.map fun t => t.coef / fn mu t.idx).sum := by
    rw [← sum_map_neg']
    congr 1
    apply List.map_congr_left
    intro t _
    simp [neg_div]
  rw [this]
  ring

omit [DecidableEq K] in
theorem value_mul {e : NLExpr K} {mu : List K} {c : K} :
    (e.mulScalar c).value mu = e.value mu * c := by
  simp only [NLExpr.value, NLExpr.mulScalar, List.map_map]
  have : ((e.terms.map ((fun t : NLTerm K => t.coef / fn mu t.idx) ∘
      fun t => ⟨t.coef * c, t.idx⟩))).sum = (e.terms.map fun t => t.coef / fn mu t.idx).sum * c := by
    rw [← sum_map_mul']
    congr 1
    apply List.map_congr_left
    intro t _
    simp only [Function.comp]
    ring
  rw [this]
  ring

/-! ### Conversion -/

/-- The COO matrix with evaluated cells. -/
def Coo.evalAt (A : Coo (NLExpr K)) (mu : List K) : Coo K :=
  { m := A.m, elems := A.elems.map fun e => (e.1, e.2.value mu) }

/-- The COO matrix with addresses of cells. -/
def Coo.addresses (A : Coo (NLExpr K)) : Coo ExprPtr :=
  { m := A.m, elems := A.elems.map fun e => (e.1, some e.1) }

theorem sortedElems_map {α β : Type} (A : Coo α) (f : Nat × α → β) :
    sortedElems ({ m := A.m, elems := A.elems.map fun e => (e.1, f e) } : Coo β) =
      (sortedElems A).map fun e => (e.1, f e) := by
  unfold sortedElems
  symm
  apply List.map_mergeSort
  intros; rfl

theorem offs_map {α β : Type} (l : List (Nat × α)) (f : Nat × α → β) :
    offs (l.map fun e => (e.1, f e)) = (offs l).map fun e => (e.1, f e) := by
  unfold offs
  rw [List.filter_map]
  rfl

theorem CooFull.map {α β : Type} {A : Coo α} (h : CooFull A) (f : Nat × α → β) :
    CooFull ({ m := A.m, elems := A.elems.map fun e => (e.1, f e) } : Coo β) := by
  have hfst : (A.elems.map fun e => (e.1, f e)).map Prod.fst = A.elems.map Prod.fst := by
    rw [List.map_map]; rfl
  exact ⟨⟨by rw [hfst]; exact h.wf.nodup, by rw [hfst]; exact h.wf.keys⟩, h.m_lt,
    by rw [hfst]; exact h.cols, by rw [hfst]; exact h.diag, by simpa using h.size⟩

omit [DecidableEq K] in
theorem nlOfCoo_eq (A : Coo (NLExpr K)) :
    NLCsr.ofCoo A = (Csr.ofCoo A.addresses).map (fun P =>
      { ptrs := P, val := List.replicate P.nnz 0, diag := List.replicate P.m 0 }) := by
  unfold NLCsr.ofCoo Csr.ofCoo
  have hs : (A.addresses.elems.mergeSort fun a b => decide (a.1 ≤ b.1)) =
      ((A.elems.map Prod.fst).mergeSort fun a b => decide (a ≤ b)).map
        (fun k => (k, (some k : ExprPtr))) := by
    have : A.addresses.elems = (A.elems.map Prod.fst).map (fun k => (k, (some k : ExprPtr))) := by
      simp [Coo.addresses]
    rw [this]
    symm
    apply List.map_mergeSort
    intros; rfl
  simp only [hs, forEach_map]
  have hlen : (((A.elems.map Prod.fst).mergeSort fun a b => decide (a ≤ b)).map
        (fun k => (k, (some k : ExprPtr)))).length = A.elems.length := by simp
  rw [hlen]
  have hm : A.addresses.m = A.m := rfl
  rw [hm]
  generalize forEach (fun key s => csrFillStep (key, (some key : ExprPtr)) s) _ _ = r
  cases r with
  | error e => rfl
  | ok s =>
    simp only [ok_bind]
    generalize forUp 0 A.m csrPrefixStep s.rowPtr = r
    cases r <;> rfl

/-- Converting and evaluating equals evaluating and converting. -/
theorem nl_evaluate_ok {A : Coo (NLExpr K)} (h : CooFull A) {mu : List K}
    (hmu : ∀ e ∈ A.elems, e.2.Defined mu) :
    ∃ N N', NLCsr.ofCoo A = .ok N ∧ N.evaluate A mu = .ok N' ∧
      Csr.ofCoo (A.evalAt mu) = .ok N'.numeric := by
  have hP : CooFull A.addresses := h.map (fun e => some e.1)
  have hE : CooFull (A.evalAt mu) := h.map (fun e => e.2.value mu)
  have hdef : ∀ k e, findKey A.elems k = some e → e.Defined mu := fun k e hk =>
    hmu (k, e) (mem_of_findKey hk)
  have hsP : sortedElems A.addresses = (sortedElems A).map fun e => (e.1, some e.1) :=
    sortedElems_map A (fun e => some e.1)
  have hsE : sortedElems (A.evalAt mu) = (sortedElems A).map fun e => (e.1, e.2.value mu) :=
    sortedElems_map A (fun e => e.2.value mu)
  have hoP : offs (sortedElems A.addresses) =
      (offs (sortedElems A)).map fun e => (e.1, some e.1) := by rw [hsP, offs_map]
  have hoE : offs (sortedElems (A.evalAt mu)) =
      (offs (sortedElems A)).map fun e => (e.1, e.2.value mu) := by rw [hsE, offs_map]
  refine ⟨⟨csrClosed A.addresses, List.replicate (csrClosed A.addresses).nnz 0,
      List.replicate (csrClosed A.addresses).m 0⟩,
    ⟨csrClosed A.addresses, (csrClosed (A.evalAt mu)).val, (csrClosed (A.evalAt mu)).diag⟩,
    by rw [nlOfCoo_eq, ofCoo_eq hP]; rfl, ?_, ?_⟩
  · have hd : forUp 0 (csrClosed A.addresses).m (fun i diag => do
        let x ← (do
          let p ← rd (csrClosed A.addresses).diag i
          let e ← derefExpr A p
          e.evaluate mu)
        wr diag i x) (List.replicate (csrClosed A.addresses).m 0) =
          .ok (csrClosed (A.evalAt mu)).diag := by
      rw [fill_loop (h := fun r => (findKey (A.evalAt mu).elems (packKey r r)).getD 0)]
      · rfl
      · simp
      · intro r hr
        have hr' : r < A.m := hr
        obtain ⟨e, he⟩ := Option.isSome_iff_exists.mp (findKey_isSome_iff.mpr (h.diag r hr'))
        have h1 : (csrClosed A.addresses).diag[r]? = some (some (packKey r r)) := by
          simp only [csrClosed, getElem?_map_range]
          rw [if_pos (show r < A.addresses.m from hr)]
          simp only [Coo.addresses]
          rw [findKey_map (f := fun k _ => (some k : ExprPtr)), he]
          rfl
        rw [rd_eq_ok_iff.mpr h1]
        simp only [ok_bind, derefExpr, he, evaluate_ok (hdef _ _ he), Coo.evalAt]
        rw [findKey_map (f := fun _ (e : NLExpr K) => e.value mu), he]
        rfl
    have hv : forUp 0 (csrClosed A.addresses).nnz (fun i val => do
        let x ← (do
          let p ← rd (csrClosed A.addresses).val i
          let e ← derefExpr A p
          e.evaluate mu)
        wr val i x) (List.replicate (csrClosed A.addresses).nnz 0) =
          .ok (csrClosed (A.evalAt mu)).val := by
      have hn : (csrClosed A.addresses).nnz = (offs (sortedElems A)).length := by
        simp [csrClosed, hoP]
      rw [fill_loop (h := fun r => fn (csrClosed (A.evalAt mu)).val r)]
      · congr 1
        apply List.ext_getElem
        · simp [csrClosed, hoE, hoP]
        · intro i h1 h2
          simp [fn, h2]
      · simp
      · intro r hr
        rw [hn] at hr
        have hmem : (offs (sortedElems A))[r] ∈ A.elems :=
          (sortedElems_perm A).mem_iff.mp (List.mem_filter.mp (List.getElem_mem hr)).1
        have hfk : findKey A.elems (offs (sortedElems A))[r].1 = some (offs (sortedElems A))[r].2 :=
          findKey_of_mem h.wf.nodup hmem
        have h1 : (csrClosed A.addresses).val[r]? = some (some (offs (sortedElems A))[r].1) := by
          simp [csrClosed, hoP, hr]
        rw [rd_eq_ok_iff.mpr h1]
        simp only [ok_bind, derefExpr, hfk, evaluate_ok (hdef _ _ hfk)]
        simp [fn, csrClosed, hoE, hr]
    unfold NLCsr.evaluate
    simp only [bind_assoc] at hd hv
    simp only [hd, hv, ok_bind]
  · rw [ofCoo_eq hE]
    congr 1
    simp only [NLCsr.numeric, csrClosed, hoP, hoE, List.map_map, List.length_map]
    congr 1
    rw [hsE, hsP]
    apply List.map_congr_left
    intro r _
    simp only [cumRow, offs_map, List.countP_map]
    rfl

end Eval
end Nikfemm
