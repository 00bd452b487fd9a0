import Mathlib.Tactic.Common
import Mathlib.Data.List.Basic

/-!
# Outcomes, checked array access and counted loops

The vocabulary in which the C++ functions of `/repo` are modelled.  Nothing here is
specific to nikfemm.
-/

namespace Nikfemm

/-- How a C++ computation can fail to return a (finite) value.
* `throw`  : a C++ exception (`nexit`, `nassert` in `utils/utils.hpp`, `std::runtime_error`).
* `ub`     : undefined behaviour (out-of-bounds access, dereferencing `end()`,
             use of invalidated iterators, use of uninitialised memory).
* `nonfinite` : a floating point division by zero; IEEE arithmetic would go on with NaN/Inf,
             the model stops and makes no claim about what follows. -/
inductive Fault where
  | throw
  | ub
  | nonfinite
  deriving DecidableEq, Repr

/-- Result of a modelled computation. -/
abbrev Res (α : Type) := Except Fault α

/-- `v[i]` read from a C++ vector/array: undefined behaviour when out of bounds. -/
def rd {α : Type} (l : List α) (i : Nat) : Res α :=
  match l[i]? with
  | some a => .ok a
  | none => .error .ub

/-- `v[i] = a` on a C++ vector/array: undefined behaviour when out of bounds. -/
def wr {α : Type} (l : List α) (i : Nat) (a : α) : Res (List α) :=
  if i < l.length then .ok (l.set i a) else .error .ub

/-- `a / b` on doubles, with division by zero as a separate outcome. -/
def fdiv {K : Type} [Div K] [Zero K] [DecidableEq K] (a b : K) : Res K :=
  if b = 0 then .error .nonfinite else .ok (a / b)

/-- `for (i = lo; cnt times; i++) body`. -/
def loopN {σ : Type} (body : Nat → σ → Res σ) : (cnt lo : Nat) → σ → Res σ
  | 0, _, s => .ok s
  | cnt + 1, lo, s => match body lo s with
    | .ok s' => loopN body cnt (lo + 1) s'
    | .error e => .error e

/-- `for (i = lo; i < hi; i++) body`. -/
def forUp {σ : Type} (lo hi : Nat) (body : Nat → σ → Res σ) (s : σ) : Res σ :=
  loopN body (hi - lo) lo s

/-- `for (i = hi; i-- > 0;) body`, i.e. `i = hi-1, ..., 0`. -/
def forDown {σ : Type} (body : Nat → σ → Res σ) : (hi : Nat) → σ → Res σ
  | 0, s => .ok s
  | hi + 1, s => match body hi s with
    | .ok s' => forDown body hi s'
    | .error e => .error e

/-- `for (auto const& a : l) body`. -/
def forEach {α σ : Type} (body : α → σ → Res σ) : List α → σ → Res σ
  | [], s => .ok s
  | a :: l, s => match body a s with
    | .ok s' => forEach body l s'
    | .error e => .error e

/-- Conversion of a mathematical integer to `uint32_t`. -/
def wrap32 (x : Int) : Nat := (x % 4294967296).toNat

/-! ## Invariant rules -/

section Rules
variable {σ α : Type}

theorem ok_bind {β : Type} (a : α) (f : α → Res β) :
    ((Except.ok a : Res α) >>= f) = f a := rfl

theorem error_bind {β : Type} (e : Fault) (f : α → Res β) :
    ((Except.error e : Res α) >>= f) = .error e := rfl

theorem bind_eq_ok_iff {β : Type} {x : Res α} {f : α → Res β} {b : β} :
    (x >>= f) = .ok b ↔ ∃ a, x = .ok a ∧ f a = .ok b := by
  cases x with
  | ok a => simp [ok_bind]
  | error e => simp [error_bind]

theorem bind_eq_error_iff {β : Type} {x : Res α} {f : α → Res β} {e : Fault} :
    (x >>= f) = .error e ↔ x = .error e ∨ ∃ a, x = .ok a ∧ f a = .error e := by
  cases x with
  | ok a => simp [ok_bind]
  | error e => simp [error_bind]

theorem rd_ok {l : List α} {i : Nat} (h : i < l.length) : rd l i = .ok l[i] := by
  simp [rd, h]

theorem rd_ub {l : List α} {i : Nat} (h : l.length ≤ i) : rd l i = .error .ub := by
  simp [rd, h]

theorem rd_eq_ok_iff {l : List α} {i : Nat} {a : α} : rd l i = .ok a ↔ l[i]? = some a := by
  unfold rd; cases h : l[i]? <;> simp

theorem wr_ok {l : List α} {i : Nat} {a : α} (h : i < l.length) : wr l i a = .ok (l.set i a) := by
  simp [wr, h]

theorem wr_ub {l : List α} {i : Nat} {a : α} (h : l.length ≤ i) : wr l i a = .error .ub := by
  simp [wr, Nat.not_lt.mpr h]

theorem wr_eq_ok_iff {l l' : List α} {i : Nat} {a : α} :
    wr l i a = .ok l' ↔ i < l.length ∧ l' = l.set i a := by
  unfold wr; split
  · simp_all [eq_comm]
  · simp; omega

theorem fdiv_ok {K : Type} [Div K] [Zero K] [DecidableEq K] {a b : K} (h : b ≠ 0) :
    fdiv a b = .ok (a / b) := by simp [fdiv, h]

theorem fdiv_zero {K : Type} [Div K] [Zero K] [DecidableEq K] {a : K} :
    fdiv a (0 : K) = .error .nonfinite := by simp [fdiv]

theorem fdiv_eq_ok_iff {K : Type} [Div K] [Zero K] [DecidableEq K] {a b c : K} :
    fdiv a b = .ok c ↔ b ≠ 0 ∧ c = a / b := by
  unfold fdiv; split <;> simp_all [eq_comm]

/-- Total-correctness rule for `loopN`. -/
theorem loopN_inv (P : Nat → σ → Prop) {body : Nat → σ → Res σ} :
    ∀ (cnt lo : Nat) (s : σ), P lo s →
      (∀ i s, lo ≤ i → i < lo + cnt → P i s → ∃ s', body i s = .ok s' ∧ P (i + 1) s') →
      ∃ s', loopN body cnt lo s = .ok s' ∧ P (lo + cnt) s'
  | 0, lo, s, h0, _ => ⟨s, rfl, h0⟩
  | cnt + 1, lo, s, h0, hs => by
    obtain ⟨s1, e1, h1⟩ := hs lo s (Nat.le_refl _) (by omega) h0
    obtain ⟨s2, e2, h2⟩ := loopN_inv P cnt (lo + 1) s1 h1
      (fun i s hi hi' hP => hs i s (by omega) (by omega) hP)
    refine ⟨s2, ?_, by simpa [Nat.add_assoc, Nat.add_comm 1 cnt] using h2⟩
    simp [loopN, e1, e2]

/-- Total-correctness rule for `forUp`. -/
theorem forUp_inv (P : Nat → σ → Prop) {body : Nat → σ → Res σ} {lo hi : Nat} {s : σ}
    (hle : lo ≤ hi) (h0 : P lo s)
    (hs : ∀ i s, lo ≤ i → i < hi → P i s → ∃ s', body i s = .ok s' ∧ P (i + 1) s') :
    ∃ s', forUp lo hi body s = .ok s' ∧ P hi s' := by
  obtain ⟨s', e, h⟩ := loopN_inv P (hi - lo) lo s h0 (fun i s h1 h2 h3 => hs i s h1 (by omega) h3)
  exact ⟨s', e, by simpa [Nat.add_sub_cancel' hle] using h⟩

/-- Partial-correctness rule for `loopN`. -/
theorem loopN_partial (P : Nat → σ → Prop) {body : Nat → σ → Res σ} :
    ∀ (cnt lo : Nat) (s s' : σ), P lo s → loopN body cnt lo s = .ok s' →
      (∀ i s s', lo ≤ i → i < lo + cnt → P i s → body i s = .ok s' → P (i + 1) s') →
      P (lo + cnt) s'
  | 0, lo, s, s', h0, e, _ => by simp [loopN] at e; subst e; exact h0
  | cnt + 1, lo, s, s', h0, e, hs => by
    unfold loopN at e
    split at e
    · rename_i s1 e1
      have h1 := hs lo s s1 (Nat.le_refl _) (by omega) h0 e1
      have := loopN_partial P cnt (lo + 1) s1 s' h1 e
        (fun i s s' hi hi' hP => hs i s s' (by omega) (by omega) hP)
      simpa [Nat.add_assoc, Nat.add_comm 1 cnt] using this
    · simp at e

/-- Partial-correctness rule for `forUp`. -/
theorem forUp_partial (P : Nat → σ → Prop) {body : Nat → σ → Res σ} {lo hi : Nat} {s s' : σ}
    (hle : lo ≤ hi) (h0 : P lo s) (e : forUp lo hi body s = .ok s')
    (hs : ∀ i s s', lo ≤ i → i < hi → P i s → body i s = .ok s' → P (i + 1) s') : P hi s' := by
  have := loopN_partial P (hi - lo) lo s s' h0 e
    (fun i s s' h1 h2 h3 => hs i s s' h1 (by omega) h3)
  simpa [Nat.add_sub_cancel' hle] using this

/-- Total-correctness rule for `forDown`; the invariant is indexed by the number of
iterations still to run. -/
theorem forDown_inv (P : Nat → σ → Prop) {body : Nat → σ → Res σ} :
    ∀ (hi : Nat) (s : σ), P hi s →
      (∀ i s, i < hi → P (i + 1) s → ∃ s', body i s = .ok s' ∧ P i s') →
      ∃ s', forDown body hi s = .ok s' ∧ P 0 s'
  | 0, s, h0, _ => ⟨s, rfl, h0⟩
  | hi + 1, s, h0, hs => by
    obtain ⟨s1, e1, h1⟩ := hs hi s (by omega) h0
    obtain ⟨s2, e2, h2⟩ := forDown_inv P hi s1 h1 (fun i s hi' hP => hs i s (by omega) hP)
    exact ⟨s2, by simp [forDown, e1, e2], h2⟩

/-- Partial-correctness rule for `forDown`. -/
theorem forDown_partial (P : Nat → σ → Prop) {body : Nat → σ → Res σ} :
    ∀ (hi : Nat) (s s' : σ), P hi s → forDown body hi s = .ok s' →
      (∀ i s s', i < hi → P (i + 1) s → body i s = .ok s' → P i s') → P 0 s'
  | 0, s, s', h0, e, _ => by simp [forDown] at e; subst e; exact h0
  | hi + 1, s, s', h0, e, hs => by
    unfold forDown at e
    split at e
    · rename_i s1 e1
      exact forDown_partial P hi s1 s' (hs hi s s1 (by omega) h0 e1) e
        (fun i s s' hi' hP => hs i s s' (by omega) hP)
    · simp at e

/-- Total-correctness rule for `forEach`; the invariant sees the processed prefix. -/
theorem forEach_inv (P : List α → σ → Prop) {body : α → σ → Res σ} :
    ∀ (l pre : List α) (s : σ), P pre s →
      (∀ pre' a post s, pre ++ l = pre' ++ a :: post → pre.length ≤ pre'.length →
        P pre' s → ∃ s', body a s = .ok s' ∧ P (pre' ++ [a]) s') →
      ∃ s', forEach body l s = .ok s' ∧ P (pre ++ l) s'
  | [], pre, s, h0, _ => ⟨s, rfl, by simpa using h0⟩
  | a :: l, pre, s, h0, hs => by
    obtain ⟨s1, e1, h1⟩ := hs pre a l s rfl (Nat.le_refl _) h0
    obtain ⟨s2, e2, h2⟩ := forEach_inv P l (pre ++ [a]) s1 h1
      (fun pre' b post s he hl hP => hs pre' b post s (by simpa using he)
        (by simp at hl; omega) hP)
    exact ⟨s2, by simp [forEach, e1, e2], by simpa using h2⟩

/-- Partial-correctness rule for `forEach`. -/
theorem forEach_partial (P : List α → σ → Prop) {body : α → σ → Res σ} :
    ∀ (l pre : List α) (s s' : σ), P pre s → forEach body l s = .ok s' →
      (∀ pre' a post s s', pre ++ l = pre' ++ a :: post → pre.length ≤ pre'.length →
        P pre' s → body a s = .ok s' → P (pre' ++ [a]) s') →
      P (pre ++ l) s'
  | [], pre, s, s', h0, e, _ => by simp [forEach] at e; subst e; simpa using h0
  | a :: l, pre, s, s', h0, e, hs => by
    unfold forEach at e
    split at e
    · rename_i s1 e1
      have h1 := hs pre a l s s1 rfl (Nat.le_refl _) h0 e1
      have := forEach_partial P l (pre ++ [a]) s1 s' h1 e
        (fun pre' b post s s' he hl hP => hs pre' b post s s' (by simpa using he)
          (by simp at hl; omega) hP)
      simpa using this
    · simp at e

/-- If every failure of the body satisfies `Q`, so does every failure of the loop. -/
theorem forEach_error {body : α → σ → Res σ} {Q : Fault → Prop} :
    ∀ (l : List α) (s : σ) (e : Fault), forEach body l s = .error e →
      (∀ a ∈ l, ∀ s e, body a s = .error e → Q e) → Q e
  | [], s, e, h, _ => by simp [forEach] at h
  | a :: l, s, e, h, hb => by
    unfold forEach at h
    split at h
    · exact forEach_error l _ e h (fun b hb' => hb b (by simp [hb']))
    · rename_i e' he
      cases h
      exact hb a (by simp) s _ he

theorem loopN_error {body : Nat → σ → Res σ} {Q : Fault → Prop} :
    ∀ (cnt lo : Nat) (s : σ) (e : Fault), loopN body cnt lo s = .error e →
      (∀ i s e, body i s = .error e → Q e) → Q e
  | 0, _, s, e, h, _ => by simp [loopN] at h
  | cnt + 1, lo, s, e, h, hb => by
    unfold loopN at h
    split at h
    · exact loopN_error cnt _ _ e h hb
    · rename_i e' he
      cases h
      exact hb _ s _ he

theorem forUp_error {body : Nat → σ → Res σ} {Q : Fault → Prop} {lo hi : Nat} {s : σ} {e : Fault}
    (h : forUp lo hi body s = .error e) (hb : ∀ i s e, body i s = .error e → Q e) : Q e :=
  loopN_error _ _ _ e h hb

theorem rd_error {l : List α} {i : Nat} {e : Fault} (h : rd l i = .error e) : e = .ub := by
  unfold rd at h; split at h <;> cases h; rfl

theorem wr_error {l : List α} {i : Nat} {a : α} {e : Fault} (h : wr l i a = .error e) :
    e = .ub := by
  unfold wr at h; split at h <;> cases h; rfl

theorem forEach_append {body : α → σ → Res σ} (l₁ l₂ : List α) (s : σ) :
    forEach body (l₁ ++ l₂) s = (forEach body l₁ s).bind (forEach body l₂) := by
  induction l₁ generalizing s with
  | nil => rfl
  | cons a l ih =>
    simp only [List.cons_append, forEach]
    cases body a s with
    | ok s' => simpa using ih s'
    | error e => rfl

/-- A `forEach` whose body never fails is a fold. -/
theorem forEach_pure {body : α → σ → Res σ} {f : σ → α → σ} (l : List α) (s : σ)
    (h : ∀ a ∈ l, ∀ s, body a s = .ok (f s a)) : forEach body l s = .ok (l.foldl f s) := by
  induction l generalizing s with
  | nil => rfl
  | cons a l ih =>
    simp only [forEach, h a (by simp) s, List.foldl_cons]
    exact ih _ (fun b hb => h b (by simp [hb]))


/-! ### Hoare-style rules with a postcondition for failures -/

/-- `x` satisfies `P` on success and `Q` on failure. -/
def Sat (Q : Fault → Prop) (P : α → Prop) (x : Res α) : Prop :=
  match x with
  | .ok a => P a
  | .error e => Q e

theorem Sat.ok {Q : Fault → Prop} {P : α → Prop} {a : α} (h : P a) : Sat Q P (.ok a) := h

theorem Sat.error {Q : Fault → Prop} {P : α → Prop} {e : Fault} (h : Q e) :
    Sat Q P (.error e) := h

theorem Sat.bind {β : Type} {Q : Fault → Prop} {P : α → Prop} {R : β → Prop} {x : Res α}
    {f : α → Res β} (h : Sat Q P x) (hf : ∀ a, P a → Sat Q R (f a)) : Sat Q R (x >>= f) := by
  cases x with
  | ok a => exact hf a h
  | error e => exact h

theorem Sat.mono {Q : Fault → Prop} {P P' : α → Prop} {x : Res α} (h : Sat Q P x)
    (hP : ∀ a, P a → P' a) : Sat Q P' x := by
  cases x with
  | ok a => exact hP a h
  | error e => exact h

theorem Sat.rd {Q : Fault → Prop} {l : List α} {i : Nat} (h : i < l.length) :
    Sat Q (fun a => l[i]? = some a) (rd l i) := by
  rw [rd_ok h]; exact List.getElem?_eq_getElem h

theorem Sat.wr {Q : Fault → Prop} {l : List α} {i : Nat} {a : α} (h : i < l.length) :
    Sat Q (fun l' => l' = l.set i a) (wr l i a) := by
  rw [wr_ok h]; rfl

theorem Sat.loopN {Q : Fault → Prop} (P : Nat → σ → Prop) {body : Nat → σ → Res σ} :
    ∀ (cnt lo : Nat) (s : σ), P lo s →
      (∀ i s, lo ≤ i → i < lo + cnt → P i s → Sat Q (P (i + 1)) (body i s)) →
      Sat Q (P (lo + cnt)) (loopN body cnt lo s)
  | 0, _, _, h0, _ => h0
  | cnt + 1, lo, s, h0, hs => by
    have h1 := hs lo s (Nat.le_refl _) (by omega) h0
    unfold Nikfemm.loopN
    cases hb : body lo s with
    | error e => rw [hb] at h1; exact h1
    | ok s1 =>
      rw [hb] at h1
      have := Sat.loopN P cnt (lo + 1) s1 h1 (fun i s hi hi' hP => hs i s (by omega) (by omega) hP)
      simpa [Nat.add_assoc, Nat.add_comm 1 cnt] using this

theorem Sat.forUp {Q : Fault → Prop} (P : Nat → σ → Prop) {body : Nat → σ → Res σ} {lo hi : Nat}
    {s : σ} (hle : lo ≤ hi) (h0 : P lo s)
    (hs : ∀ i s, lo ≤ i → i < hi → P i s → Sat Q (P (i + 1)) (body i s)) :
    Sat Q (P hi) (forUp lo hi body s) := by
  have := Sat.loopN P (hi - lo) lo s h0 (fun i s h1 h2 h3 => hs i s h1 (by omega) h3)
  rw [Nat.add_sub_cancel' hle] at this
  exact this

theorem Sat.forDown {Q : Fault → Prop} (P : Nat → σ → Prop) {body : Nat → σ → Res σ} :
    ∀ (hi : Nat) (s : σ), P hi s →
      (∀ i s, i < hi → P (i + 1) s → Sat Q (P i) (body i s)) →
      Sat Q (P 0) (forDown body hi s)
  | 0, _, h0, _ => h0
  | hi + 1, s, h0, hs => by
    have h1 := hs hi s (by omega) h0
    unfold Nikfemm.forDown
    cases hb : body hi s with
    | error e => rw [hb] at h1; exact h1
    | ok s1 =>
      rw [hb] at h1
      exact Sat.forDown P hi s1 h1 (fun i s hi' hP => hs i s (by omega) hP)

theorem Sat.forEach {Q : Fault → Prop} (P : List α → σ → Prop) {body : α → σ → Res σ} :
    ∀ (l pre : List α) (s : σ), P pre s →
      (∀ pre' a post s, pre ++ l = pre' ++ a :: post → P pre' s →
        Sat Q (P (pre' ++ [a])) (body a s)) →
      Sat Q (P (pre ++ l)) (forEach body l s)
  | [], pre, s, h0, _ => by simpa [Nikfemm.forEach, Sat] using h0
  | a :: l, pre, s, h0, hs => by
    have h1 := hs pre a l s rfl h0
    unfold Nikfemm.forEach
    cases hb : body a s with
    | error e => rw [hb] at h1; exact h1
    | ok s1 =>
      rw [hb] at h1
      have := Sat.forEach P l (pre ++ [a]) s1 h1
        (fun pre' b post s he hP => hs pre' b post s (by simpa using he) hP)
      simpa using this

end Rules

end Nikfemm
