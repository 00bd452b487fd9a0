import Verif.Lemmas.CooWF

/-!
Histories of client actions on the COO matrix object.
-/

namespace Nikfemm
open Spec

variable {α : Type} [Zero α]

/-- One client action on the C++ object: `A(i,j) = v`, `A(i,j) = f(A(i,j))` or a read of
`A(i,j)`; the first component is the value of the cell afterwards (or the fault), the second the
object afterwards. An exception leaves the object as it was (`coo.hpp:39-41` throws first). -/
def Coo.act (A : Coo α) : CellOp α → Res α × Coo α
  | .write i j v => match A.assign i j v with
    | .ok A' => (match A'.read i j with | .ok (w, A'') => (.ok w, A'') | .error e => (.error e, A'))
    | .error e => (.error e, A)
  | .update i j f => match A.modify i j f with
    | .ok A' => (match A'.read i j with | .ok (w, A'') => (.ok w, A'') | .error e => (.error e, A'))
    | .error e => (.error e, A)
  | .read i j => match A.read i j with | .ok (w, A') => (.ok w, A') | .error e => (.error e, A)

/-- Results of a history of client actions. -/
def Coo.acts (A : Coo α) : List (CellOp α) → List (Res α)
  | [] => []
  | op :: ops => (A.act op).1 :: (A.act op).2.acts ops

/-- Object after a history of client actions. -/
def Coo.after (A : Coo α) : List (CellOp α) → Coo α
  | [] => A
  | op :: ops => (A.act op).2.after ops

theorem coo_read_spec {A : Coo α} {i j : Nat} (h : i % 2 ^ 32 ≤ j % 2 ^ 32) :
    ∃ A', A.read i j = .ok ((findKey A.elems (packKey i j)).getD 0, A') ∧ A'.m = A.m ∧
      ∀ k, findKey A'.elems k =
        if k = packKey i j then some ((findKey A.elems k).getD 0) else findKey A.elems k := by
  unfold Coo.read
  rw [Coo.touch_ok h]
  cases hf : findKey A.elems (packKey i j) with
  | some v =>
    refine ⟨A, by simp [bind, Except.bind, hf], rfl, fun k => ?_⟩
    split
    · subst_vars; simp [hf]
    · rfl
  | none =>
    refine ⟨{ A with elems := A.elems ++ [(packKey i j, 0)] },
      by simp [bind, Except.bind, findKey_append, hf, findKey], rfl, fun k => ?_⟩
    simp only [findKey_append]
    split
    · subst_vars; simp [hf, findKey]
    · rename_i hk
      simp [findKey, Ne.symm hk]

theorem coo_act_spec {A : Coo α} {M : Nat → Nat → α} {op : CellOp α}
    (hr : op.cell.1 < 2 ^ 32 ∧ op.cell.2 < 2 ^ 32)
    (hM : ∀ i j, i < 2 ^ 32 → j < 2 ^ 32 → (findKey A.elems (packKey i j)).getD 0 = M i j) :
    (A.act op).1 = (match (idealStep M op).1 with | some v => .ok v | none => .error .throw) ∧
    (∀ i j, i < 2 ^ 32 → j < 2 ^ 32 →
      (findKey (A.act op).2.elems (packKey i j)).getD 0 = (idealStep M op).2 i j) ∧
    (A.act op).2.m = A.m ∧
    (∀ i j, i < 2 ^ 32 → j < 2 ^ 32 →
      ((findKey (A.act op).2.elems (packKey i j)).isSome ↔
        (findKey A.elems (packKey i j)).isSome ∨ (i, j) = op.cell ∧ i ≤ j)) := by
  have upd : ∀ (i j : Nat) (f : α → α) (v : α), i < 2 ^ 32 → j < 2 ^ 32 → v = f (M i j) →
      (A.act (.update i j f)).1 = (if i ≤ j then .ok v else .error .throw) ∧
      (∀ a b, a < 2 ^ 32 → b < 2 ^ 32 → (findKey (A.act (.update i j f)).2.elems
        (packKey a b)).getD 0 = if i ≤ j ∧ a = i ∧ b = j then v else M a b) ∧
      (A.act (.update i j f)).2.m = A.m ∧
      (∀ a b, a < 2 ^ 32 → b < 2 ^ 32 →
        ((findKey (A.act (.update i j f)).2.elems (packKey a b)).isSome ↔
          (findKey A.elems (packKey a b)).isSome ∨ (a, b) = (i, j) ∧ a ≤ b)) := by
    intro i j f v hi hj hv
    by_cases hij : i ≤ j
    · have hij' : i % 2 ^ 32 ≤ j % 2 ^ 32 := by omega
      obtain ⟨A1, e1, m1, f1, _⟩ := Coo.modify_ok (A := A) f hij'
      obtain ⟨A2, e2, m2, f2⟩ := coo_read_spec (A := A1) hij'
      have hval : (findKey A1.elems (packKey i j)).getD 0 = v := by
        rw [f1, if_pos rfl, Option.getD_some, hM i j hi hj, hv]
      have hact : A.act (.update i j f) = (.ok v, A2) := by
        simp only [Coo.act, e1, e2, hval]
      rw [hact]
      refine ⟨by simp [hij], fun a b ha hb => ?_, by rw [m2, m1], fun a b ha hb => ?_⟩
      · rw [f2]
        by_cases hk : packKey a b = packKey i j
        · obtain ⟨rfl, rfl⟩ := (packKey_inj ha hb hi hj).mp hk
          simp [hval, hij]
        · rw [if_neg hk, f1, if_neg hk, hM a b ha hb, if_neg]
          rintro ⟨_, rfl, rfl⟩
          exact hk rfl
      · rw [f2]
        by_cases hk : packKey a b = packKey i j
        · obtain ⟨rfl, rfl⟩ := (packKey_inj ha hb hi hj).mp hk
          simp [hij]
        · rw [if_neg hk, f1, if_neg hk]
          have : (a, b) ≠ (i, j) := by rintro h; cases h; exact hk rfl
          simp [this]
    · have hact : A.act (.update i j f) = (.error .throw, A) := by
        simp only [Coo.act, Coo.modify, Coo.touch_error (show i % 2 ^ 32 > j % 2 ^ 32 by omega)]
        rfl
      rw [hact]
      refine ⟨by simp [hij], fun a b ha hb => by simp [hij, hM a b ha hb], rfl, fun a b _ _ => ?_⟩
      simp only [Prod.mk.injEq]
      constructor
      · exact Or.inl
      · rintro (h | ⟨⟨rfl, rfl⟩, h⟩)
        · exact h
        · exact absurd h hij
  cases op with
  | write i j v =>
    have := upd i j (fun _ => v) v hr.1 hr.2 rfl
    simp only [CellOp.cell, idealStep]
    by_cases hij : i ≤ j
    · simpa [hij, Coo.act, Coo.assign] using this
    · simpa [hij, Coo.act, Coo.assign] using this
  | update i j f =>
    have := upd i j f (f (M i j)) hr.1 hr.2 rfl
    simp only [CellOp.cell, idealStep]
    by_cases hij : i ≤ j
    · simpa [hij] using this
    · simpa [hij] using this
  | read i j =>
    obtain ⟨hi, hj⟩ := hr
    simp only [CellOp.cell] at hi hj ⊢
    by_cases hij : i ≤ j
    · obtain ⟨A2, e2, m2, f2⟩ := coo_read_spec (A := A) (show i % 2 ^ 32 ≤ j % 2 ^ 32 by omega)
      simp only [Coo.act, e2, idealStep, hij, if_true]
      refine ⟨by rw [hM i j hi hj], fun a b ha hb => ?_, m2, fun a b ha hb => ?_⟩
      · rw [f2]
        split
        · simp [hM a b ha hb]
        · exact hM a b ha hb
      · rw [f2]
        by_cases hk : packKey a b = packKey i j
        · obtain ⟨rfl, rfl⟩ := (packKey_inj ha hb hi hj).mp hk
          simp [hij]
        · have : (a, b) ≠ (i, j) := by rintro h; cases h; exact hk rfl
          simp [hk, this]
    · have : A.read i j = .error .throw := by
        simp only [Coo.read, Coo.touch_error (show i % 2 ^ 32 > j % 2 ^ 32 by omega)]
        rfl
      simp only [Coo.act, this, idealStep, hij, if_false]
      refine ⟨trivial, hM, trivial, fun a b _ _ => ?_⟩
      simp only [Prod.mk.injEq]
      constructor
      · exact Or.inl
      · rintro (h | ⟨⟨rfl, rfl⟩, h⟩)
        · exact h
        · exact absurd h hij

theorem coo_acts_spec (ops : List (CellOp α)) :
    ∀ (A : Coo α) (M : Nat → Nat → α),
      (∀ op ∈ ops, op.cell.1 < 2 ^ 32 ∧ op.cell.2 < 2 ^ 32) →
      (∀ i j, i < 2 ^ 32 → j < 2 ^ 32 → (findKey A.elems (packKey i j)).getD 0 = M i j) →
      A.acts ops = (idealRun M ops).map
        (fun o => match o with | some v => .ok v | none => .error .throw) ∧
      (A.after ops).m = A.m ∧
      (∀ i j, i < 2 ^ 32 → j < 2 ^ 32 →
        (findKey (A.after ops).elems (packKey i j)).getD 0 = idealAfter M ops i j) ∧
      ∀ i j, i < 2 ^ 32 → j < 2 ^ 32 →
        ((findKey (A.after ops).elems (packKey i j)).isSome ↔
          (findKey A.elems (packKey i j)).isSome ∨ i ≤ j ∧ (i, j) ∈ ops.map CellOp.cell) := by
  induction ops with
  | nil =>
    intro A M _ hM
    refine ⟨rfl, rfl, hM, ?_⟩
    simp [Coo.after]
  | cons op ops ih =>
    intro A M hr hM
    obtain ⟨h1, h2, h3, h4⟩ := coo_act_spec (A := A) (hr op (by simp)) hM
    obtain ⟨i1, i2, i2', i3⟩ := ih (A.act op).2 (idealStep M op).2 (fun o ho => hr o (by simp [ho])) h2
    refine ⟨?_, ?_, i2', fun i j hi hj => ?_⟩
    · simp only [Coo.acts, idealRun, List.map_cons, h1, i1]
    · simp only [Coo.after, i2, h3]
    · simp only [Coo.after, i3 i j hi hj, h4 i j hi hj, List.map_cons, List.mem_cons]
      tauto

theorem CooWF.touch {A A' : Coo α} {i j k : Nat} (h : CooWF A) (e : A.touch i j = .ok (A', k)) :
    CooWF A' ∧ A'.elems.length ≤ A.elems.length + 1 := by
  have hm : A.modify i j id = .ok A' := by
    unfold Coo.modify
    rw [e]
    simp only [ok_bind]
    congr 1
    cases A'
    simp [updKey]
  refine ⟨h.modify hm, ?_⟩
  by_cases hij : i % 2 ^ 32 ≤ j % 2 ^ 32
  · rw [Coo.touch_ok hij] at e
    cases hf : findKey A.elems (packKey i j) <;> rw [hf] at e <;> cases e <;> simp
  · rw [Coo.touch_error (by omega)] at e
    cases e

theorem CooWF.act {A : Coo α} (h : CooWF A) (op : CellOp α) :
    CooWF (A.act op).2 ∧ (A.act op).2.elems.length ≤ A.elems.length + 1 := by
  have hread : ∀ {B B' : Coo α} {i j : Nat} {w : α}, CooWF B → B.read i j = .ok (w, B') →
      CooWF B' ∧ B'.elems.length ≤ B.elems.length + 1 := by
    intro B B' i j w hB e
    unfold Coo.read at e
    rw [bind_eq_ok_iff] at e
    obtain ⟨⟨B1, k⟩, e1, e2⟩ := e
    simp only at e2
    split at e2 <;> cases e2
    exact hB.touch e1
  have hupd : ∀ (i j : Nat) (f : α → α), CooWF (A.act (.update i j f)).2 ∧
      (A.act (.update i j f)).2.elems.length ≤ A.elems.length + 1 := by
    intro i j f
    simp only [Coo.act]
    by_cases hij : i % 2 ^ 32 ≤ j % 2 ^ 32
    · obtain ⟨A1, e1, _, f1, hk⟩ := Coo.modify_ok (A := A) f hij
      have hw1 := h.modify e1
      have hlen : A1.elems.length ≤ A.elems.length + 1 := by
        rcases hk with hk | hk <;> have := congrArg List.length hk.1 <;> simp at this <;> omega
      have hr : A1.read i j = .ok ((findKey A1.elems (packKey i j)).getD 0, A1) := by
        unfold Coo.read
        rw [Coo.touch_ok hij, f1, if_pos rfl]
        simp only [ok_bind]
        rw [f1, if_pos rfl]
        rfl
      simp only [e1, hr]
      exact ⟨hw1, hlen⟩
    · have e1 : A.modify i j f = .error .throw := by
        unfold Coo.modify
        rw [Coo.touch_error (by omega)]; rfl
      simp only [e1]
      exact ⟨h, Nat.le_succ _⟩
  cases op with
  | write i j v => exact hupd i j (fun _ => v)
  | update i j f => exact hupd i j f
  | read i j =>
    simp only [Coo.act]
    split
    · rename_i e
      exact hread h e
    · exact ⟨h, Nat.le_succ _⟩

theorem CooWF.after {A : Coo α} (h : CooWF A) (ops : List (CellOp α)) :
    CooWF (A.after ops) ∧ (A.after ops).elems.length ≤ A.elems.length + ops.length := by
  induction ops generalizing A with
  | nil => exact ⟨h, le_refl _⟩
  | cons op ops ih =>
    have h1 := h.act op
    have h2 := ih h1.1
    refine ⟨h2.1, ?_⟩
    have := h1.2
    have := h2.2
    simp only [Coo.after, List.length_cons]
    omega

end Nikfemm
