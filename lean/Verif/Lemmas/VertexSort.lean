import Verif.Spec.VertexSort
import Mathlib.Data.List.Perm.Basic
import Mathlib.Tactic.Linarith

/-!
# Partitioning, sorting and cutting lists of vertices
-/

set_option linter.unusedSectionVars false
set_option linter.unusedVariables false

namespace Nikfemm
namespace VSort

open Spec

variable {K : Type} [LinearOrder K]

/-- The order on keys. -/
def KLe (a b : K × K) : Prop := a.1 < b.1 ∨ (a.1 = b.1 ∧ a.2 ≤ b.2)

theorem keyLt_iff {a b : K × K} : keyLt a b = true ↔ ¬ KLe b a := by
  unfold keyLt KLe
  simp only [Bool.or_eq_true, decide_eq_true_eq, Bool.and_eq_true, not_or, not_and, not_lt, not_le]
  constructor
  · rintro (h | ⟨h1, h2⟩)
    · exact ⟨h.le, fun e => absurd e h.ne'⟩
    · exact ⟨h1.le, fun _ => h2⟩
  · rintro ⟨h1, h2⟩
    rcases h1.lt_or_eq with h | h
    · exact Or.inl h
    · exact Or.inr ⟨h, h2 h.symm⟩

theorem KLe.refl (a : K × K) : KLe a a := Or.inr ⟨rfl, le_rfl⟩

theorem KLe.trans {a b c : K × K} (h : KLe a b) (h' : KLe b c) : KLe a c := by
  rcases h with h | ⟨h, h2⟩ <;> rcases h' with h' | ⟨h', h2'⟩
  · exact Or.inl (h.trans h')
  · exact Or.inl (h' ▸ h)
  · exact Or.inl (h ▸ h')
  · exact Or.inr ⟨h.trans h', h2.trans h2'⟩

theorem KLe.total (a b : K × K) : KLe a b ∨ KLe b a := by
  rcases lt_trichotomy a.1 b.1 with h | h | h
  · exact Or.inl (Or.inl h)
  · rcases le_total a.2 b.2 with h2 | h2
    · exact Or.inl (Or.inr ⟨h, h2⟩)
    · exact Or.inr (Or.inr ⟨h.symm, h2⟩)
  · exact Or.inr (Or.inl h)

theorem KLe.of_lt {a b : K × K} (h : keyLt a b = true) : KLe a b :=
  (KLe.total a b).resolve_right (keyLt_iff.mp h)

theorem KLe.of_not_lt {a b : K × K} (h : ¬ keyLt a b = true) : KLe b a := by
  rwa [keyLt_iff, not_not] at h

theorem lexLe_iff {axis : Bool} {u v : MVertex K} : lexLe axis u v ↔ KLe (key axis u) (key axis v) := by
  cases axis <;> rfl

theorem randomnation_spec (seed : ℕ) {n : ℕ} (h : n ≠ 0) :
    ∃ s r, randomnation seed n = .ok (s, r) ∧ r < n := by
  unfold randomnation
  rw [if_neg h]
  refine ⟨_, _, rfl, ?_⟩
  rw [Nat.div_lt_iff_lt_mul (by positivity)]
  have h1 : (seed * 1366 + 150889) % 714025 < 714025 := Nat.mod_lt _ (by norm_num)
  have h2 : 714025 < n * (714025 / n + 1) := by
    have := Nat.div_add_mod 714025 n
    have := Nat.mod_lt 714025 (Nat.pos_of_ne_zero h)
    rw [Nat.mul_add, Nat.mul_one]; omega
  omega

theorem rdI_ok {a : List (MVertex K)} {i : ℤ} (h0 : 0 ≤ i) (h : i < a.length) :
    ∃ v, rdI a i = .ok v ∧ a[i.toNat]? = some v := by
  unfold rdI
  rw [if_neg (by omega), rd_ok (by omega)]
  exact ⟨_, rfl, List.getElem?_eq_getElem (by omega)⟩

/-- Entries with index at most `left` are not above the pivot. -/
def LowTo (axis : Bool) (p : K × K) (a : List (MVertex K)) (left : ℤ) : Prop :=
  ∀ (i : ℕ) (v : MVertex K), a[i]? = some v → (i : ℤ) ≤ left → KLe (key axis v) p

/-- Entries with index at least `right` are not below the pivot. -/
def HighFrom (axis : Bool) (p : K × K) (a : List (MVertex K)) (right : ℤ) : Prop :=
  ∀ (i : ℕ) (v : MVertex K), a[i]? = some v → right ≤ (i : ℤ) → KLe p (key axis v)

theorem scanUp_spec {axis : Bool} {p : K × K} {a : List (MVertex K)} {right : ℤ} {j : ℕ} {w : MVertex K}
    (hj : a[j]? = some w) (hjr : (j : ℤ) ≤ right) (hw : KLe p (key axis w)) :
    ∀ (n : ℕ) (left : ℤ), -1 ≤ left → left < j → (j : ℤ) - left ≤ n → LowTo axis p a left →
    ∃ l, scanUp axis p a right n left = .ok l ∧ left < l ∧ l ≤ j ∧ LowTo axis p a (l - 1) ∧
      ∃ v, a[l.toNat]? = some v ∧ KLe p (key axis v) := by
  have hjl : j < a.length := (List.getElem?_eq_some_iff.mp hj).1
  intro n
  induction n with
  | zero => intro left _ h2 h3; omega
  | succ n ih =>
    intro left h1 h2 h3 h4
    rw [scanUp]
    rw [if_pos (by omega)]
    obtain ⟨v, hv, hv'⟩ := rdI_ok (a := a) (i := left + 1) (by omega) (by omega)
    rw [hv, ok_bind]
    by_cases hlt : keyLt (key axis v) p = true
    · rw [if_pos hlt]
      have hne : left + 1 ≠ j := by
        intro e
        rw [e, Int.toNat_natCast, hj] at hv'
        obtain rfl := Option.some.inj hv'
        exact keyLt_iff.mp hlt hw
      obtain ⟨l, q1, q2, q3, q4⟩ := ih (left + 1) (by omega) (by omega) (by omega) (by
        intro i u hu hi
        rcases hi.lt_or_eq with hi | hi
        · exact h4 i u hu (by omega)
        · rw [← hi, Int.toNat_natCast, hu] at hv'
          obtain rfl := Option.some.inj hv'
          exact KLe.of_lt hlt)
      exact ⟨l, q1, by omega, q3, q4⟩
    · rw [if_neg hlt]
      exact ⟨left + 1, rfl, by omega, by omega, by simpa using h4, v, hv', KLe.of_not_lt hlt⟩

theorem scanDown_spec {axis : Bool} {p : K × K} {a : List (MVertex K)} {left : ℤ} (hl : 0 ≤ left) :
    ∀ (n : ℕ) (right : ℤ), right ≤ a.length → left ≤ right → right - left < n → HighFrom axis p a right →
    ∃ r, scanDown axis p a left n right = .ok r ∧ r < right ∧ left - 1 ≤ r ∧ HighFrom axis p a (r + 1) ∧
      (left ≤ r → ∃ v, a[r.toNat]? = some v ∧ KLe (key axis v) p) ∧
      ∀ (j : ℕ) (w : MVertex K), a[j]? = some w → left ≤ j → (j : ℤ) < right → KLe (key axis w) p → (j : ℤ) ≤ r := by
  intro n
  induction n with
  | zero => intro right _ h2 h3; omega
  | succ n ih =>
    intro right h1 h2 h3 h4
    rw [scanDown]
    by_cases hc : left ≤ right - 1
    · rw [if_pos hc]
      obtain ⟨v, hv, hv'⟩ := rdI_ok (a := a) (i := right - 1) (by omega) (by omega)
      rw [hv, ok_bind]
      by_cases hlt : keyLt p (key axis v) = true
      · rw [if_pos hlt]
        obtain ⟨r, q1, q2, q3, q4, q5, q6⟩ := ih (right - 1) (by omega) (by omega) (by omega) (by
          intro i u hu hi
          rcases hi.lt_or_eq with hi | hi
          · exact h4 i u hu (by omega)
          · rw [hi, Int.toNat_natCast, hu] at hv'
            obtain rfl := Option.some.inj hv'
            exact KLe.of_lt hlt)
        refine ⟨r, q1, by omega, q3, q4, q5, fun j w hj hj1 hj2 hw => q6 j w hj hj1 ?_ hw⟩
        rcases (show (j : ℤ) ≤ right - 1 by omega).lt_or_eq with h | h
        · exact h
        · rw [← h, Int.toNat_natCast, hj] at hv'
          obtain rfl := Option.some.inj hv'
          exact absurd hw (keyLt_iff.mp hlt)
      · rw [if_neg hlt]
        exact ⟨right - 1, rfl, by omega, by omega, by simpa using h4,
          fun _ => ⟨v, hv', KLe.of_not_lt hlt⟩, fun j w _ _ h _ => by omega⟩
    · rw [if_neg hc]
      exact ⟨right - 1, rfl, by omega, by omega, by simpa using h4, fun h => by omega, fun j w _ _ _ _ => by omega⟩

/-- What the split leaves. -/
structure Parted (axis : Bool) (p : K × K) (a0 a : List (MVertex K)) (l r : ℤ) : Prop where
  perm : a.Perm a0
  l0 : 0 ≤ l
  r0 : 0 ≤ r
  ln : l < a.length
  rn : r < a.length
  lr : l = r ∨ l = r + 1
  low : LowTo axis p a (l - 1)
  high : HighFrom axis p a (r + 1)
  mid : l = r → ∀ v, a[l.toNat]? = some v → KLe (key axis v) p ∧ KLe p (key axis v)

theorem swap_perm {a : List (MVertex K)} {i j : ℕ} {u v : MVertex K} (hi : a[i]? = some u)
    (hj : a[j]? = some v) (hij : i < j) : ((a.set i v).set j u).Perm a := by
  obtain ⟨hj1, rfl⟩ := List.getElem?_eq_some_iff.mp hj
  obtain ⟨hi1, rfl⟩ := List.getElem?_eq_some_iff.mp hi
  exact List.set_set_perm hi1 hj1

theorem split_spec {axis : Bool} {p : K × K} {a0 : List (MVertex K)} :
    ∀ (n : ℕ) (a : List (MVertex K)) (left right : ℤ), a.Perm a0 → left < right →
    LowTo axis p a left → HighFrom axis p a right → -1 ≤ left → right ≤ a.length →
    right - left + 1 ≤ n →
    ((left = -1 ∧ right = a.length ∧ ∃ (j : ℕ) (w : MVertex K), a[j]? = some w ∧ key axis w = p) ∨
      (0 ≤ left ∧ right < a.length)) →
    ∃ b l r, split axis p n a left right = .ok (b, l, r) ∧ Parted axis p a0 b l r := by
  intro n
  induction n with
  | zero => intro a left right _ _ _ _ _ _ h; omega
  | succ n ih =>
    intro a left right hp hlr hlow hhigh h1 h2 hn hsent
    rw [split, if_pos hlr]
    -- an entry that stops the first search
    obtain ⟨j, w, hj, hjr, hlj, hw, hw'⟩ : ∃ (j : ℕ) (w : MVertex K), a[j]? = some w ∧ (j : ℤ) ≤ right ∧
        left < j ∧ KLe p (key axis w) ∧ (left = -1 → KLe (key axis w) p ∧ (j : ℤ) < right) := by
      rcases hsent with ⟨e1, e2, j, w, hj, hw⟩ | ⟨e1, e2⟩
      · have := (List.getElem?_eq_some_iff.mp hj).1
        exact ⟨j, w, hj, by omega, by omega, by rw [hw]; exact KLe.refl _,
          fun _ => ⟨by rw [hw]; exact KLe.refl _, by omega⟩⟩
      · refine ⟨right.toNat, a[right.toNat]'(by omega), List.getElem?_eq_getElem (by omega), by omega,
          by omega, ?_, fun h => by omega⟩
        exact hhigh right.toNat _ (List.getElem?_eq_getElem (by omega)) (by omega)
    have hjn : j < a.length := (List.getElem?_eq_some_iff.mp hj).1
    obtain ⟨l, s1, s2, s3, s4, vl, s5, s6⟩ := scanUp_spec hj hjr hw (a.length + 2) left h1 hlj
      (by push_cast; omega) hlow
    rw [s1, ok_bind]
    obtain ⟨r, t1, t2, t3, t4, t5, t6⟩ := scanDown_spec (axis := axis) (p := p) (a := a) (left := l)
      (by omega) (a.length + 2) right h2 (by omega) (by push_cast; omega) hhigh
    rw [t1, ok_bind]
    have hr0 : 0 ≤ r := by
      rcases hsent with ⟨e1, -⟩ | ⟨e1, -⟩
      · have := t6 j w hj s3 (hw' e1).2 (hw' e1).1
        omega
      · omega
    have hrn : r < a.length := by omega
    rw [swapIf]
    by_cases hlt : l < r
    · rw [if_pos hlt]
      obtain ⟨vr, t7, t8⟩ := t5 (by omega)
      obtain ⟨u, hu, hu'⟩ := rdI_ok (a := a) (i := l) (by omega) (by omega)
      obtain ⟨v, hv, hv'⟩ := rdI_ok (a := a) (i := r) (by omega) (by omega)
      rw [hu, ok_bind, hv, ok_bind, ok_bind]
      rw [s5] at hu'
      rw [t7] at hv'
      obtain rfl := Option.some.inj hu'
      obtain rfl := Option.some.inj hv'
      have hlen : ((a.set l.toNat vr).set r.toNat vl).length = a.length := by simp
      have key' : ∀ (i : ℕ) (x : MVertex K), ((a.set l.toNat vr).set r.toNat vl)[i]? = some x →
          (i = r.toNat ∧ x = vl) ∨ (i = l.toNat ∧ x = vr) ∨ (i ≠ r.toNat ∧ i ≠ l.toNat ∧ a[i]? = some x) := by
        intro i x hx
        rw [List.getElem?_set] at hx
        by_cases h1 : r.toNat = i
        · rw [if_pos h1] at hx
          split_ifs at hx
          exact Or.inl ⟨h1.symm, (Option.some.inj hx).symm⟩
        · rw [if_neg h1, List.getElem?_set] at hx
          by_cases h2 : l.toNat = i
          · rw [if_pos h2] at hx
            split_ifs at hx
            exact Or.inr (Or.inl ⟨h2.symm, (Option.some.inj hx).symm⟩)
          · rw [if_neg h2] at hx
            exact Or.inr (Or.inr ⟨Ne.symm h1, Ne.symm h2, hx⟩)
      refine ih _ l r ((swap_perm s5 t7 (by omega)).trans hp) hlt ?_ ?_ (by omega) (by omega) (by omega)
        (Or.inr ⟨by omega, by omega⟩)
      · intro i x hx hi
        rcases key' i x hx with ⟨e, rfl⟩ | ⟨e, rfl⟩ | ⟨e, e', hx'⟩
        · omega
        · exact t8
        · exact s4 i x hx' (by omega)
      · intro i x hx hi
        rcases key' i x hx with ⟨e, rfl⟩ | ⟨e, rfl⟩ | ⟨e, e', hx'⟩
        · exact s6
        · omega
        · exact t4 i x hx' (by omega)
    · rw [if_neg hlt, ok_bind]
      refine ⟨a, l, r, ?_, hp, by omega, hr0, by omega, hrn, by omega, s4, t4, ?_⟩
      · cases n with
        | zero => omega
        | succ n => rw [split, if_neg hlt]
      · intro e v hv
        rw [s5] at hv
        obtain rfl := Option.some.inj hv
        obtain ⟨w', hw1, hw2⟩ := t5 (by omega)
        rw [← e, s5] at hw1
        obtain rfl := Option.some.inj hw1
        exact ⟨hw2, s6⟩

theorem pivotSplit_spec (axis : Bool) (seed : ℕ) {a : List (MVertex K)} (h : a ≠ []) :
    ∃ s p b l r, pivotSplit axis seed a = .ok (s, b, l, r) ∧ Parted axis p a b l r := by
  obtain ⟨s, k, h1, h2⟩ := randomnation_spec seed (n := a.length) (by simpa using h)
  obtain ⟨b, l, r, h3, h4⟩ := split_spec (axis := axis) (p := key axis a[k]) (a0 := a) (a.length + 2) a (-1)
    a.length (List.Perm.refl _) (by omega)
    (fun i v _ hi => by omega)
    (fun i v hv hi => by have := (List.getElem?_eq_some_iff.mp hv).1; omega)
    le_rfl le_rfl (by push_cast; omega)
    (Or.inl ⟨rfl, rfl, k, a[k], List.getElem?_eq_getElem h2, rfl⟩)
  refine ⟨s, _, b, l, r, ?_, h4⟩
  unfold pivotSplit
  rw [h1, ok_bind, rd_ok h2, ok_bind, h3, ok_bind]

/-! ## Calls on a part of the array -/

theorem onLeft_spec {c : Prop} [Decidable c] {f : ℕ → List (MVertex K) → Res (ℕ × List (MVertex K))}
    {A B : List (MVertex K)} {Q : List (MVertex K) → Prop} {seed k : ℕ} (hk : k = A.length)
    (h : c → ∃ s A', f seed A = .ok (s, A') ∧ A'.Perm A ∧ Q A') (h' : ¬ c → Q A) :
    ∃ s A', onLeft c k f seed (A ++ B) = .ok (s, A' ++ B) ∧ A'.Perm A ∧ Q A' := by
  subst hk
  unfold onLeft
  by_cases hc : c
  · obtain ⟨s, A', h1, h2, h3⟩ := h hc
    rw [if_pos hc, List.take_left, h1, ok_bind, List.drop_left]
    exact ⟨s, A', rfl, h2, h3⟩
  · rw [if_neg hc]
    exact ⟨seed, A, rfl, List.Perm.refl _, h' hc⟩

theorem onRight_spec {c : Prop} [Decidable c] {f : ℕ → List (MVertex K) → Res (ℕ × List (MVertex K))}
    {A B : List (MVertex K)} {Q : List (MVertex K) → Prop} {seed k : ℕ} (hk : k = A.length)
    (h : c → ∃ s B', f seed B = .ok (s, B') ∧ B'.Perm B ∧ Q B') (h' : ¬ c → Q B) :
    ∃ s B', onRight c k f seed (A ++ B) = .ok (s, A ++ B') ∧ B'.Perm B ∧ Q B' := by
  subst hk
  unfold onRight
  by_cases hc : c
  · obtain ⟨s, A', h1, h2, h3⟩ := h hc
    rw [if_pos hc, List.drop_left, h1, ok_bind, List.take_left]
    exact ⟨s, A', rfl, h2, h3⟩
  · rw [if_neg hc]
    exact ⟨seed, B, rfl, List.Perm.refl _, h' hc⟩

/-- A split array is three parts in a row. -/
theorem Parted.parts {axis : Bool} {p : K × K} {a b : List (MVertex K)} {l r : ℤ}
    (h : Parted axis p a b l r) : ∃ A M C, b = A ++ M ++ C ∧ A.length = l.toNat ∧
      (A ++ M).length = (r + 1).toNat ∧ (∀ v ∈ A, KLe (key axis v) p) ∧
      (∀ v ∈ M, KLe (key axis v) p ∧ KLe p (key axis v)) ∧ (∀ v ∈ C, KLe p (key axis v)) ∧ M.length ≤ 1 := by
  have h0 := h.l0
  have h1 := h.r0
  have h2 := h.ln
  have h3 := h.rn
  have h4 := h.lr
  have hM : b.take l.toNat ++ (b.drop l.toNat).take ((r + 1).toNat - l.toNat) = b.take (r + 1).toNat := by
    rw [← List.take_add]; congr 1; omega
  refine ⟨b.take l.toNat, (b.drop l.toNat).take ((r + 1).toNat - l.toNat), b.drop (r + 1).toNat, ?_, ?_, ?_,
    ?_, ?_, ?_, ?_⟩
  · rw [hM, List.take_append_drop]
  · rw [List.length_take]; omega
  · rw [hM, List.length_take]; omega
  · intro v hv
    obtain ⟨i, hi, rfl⟩ := List.mem_iff_getElem.mp hv
    rw [List.length_take] at hi
    rw [List.getElem_take]
    exact h.low i _ (List.getElem?_eq_getElem (by omega)) (by omega)
  · intro v hv
    obtain ⟨i, hi, rfl⟩ := List.mem_iff_getElem.mp hv
    rw [List.length_take, List.length_drop] at hi
    rw [List.getElem_take, List.getElem_drop]
    have hi0 : i = 0 := by omega
    subst hi0
    exact h.mid (by omega) _ (List.getElem?_eq_getElem (by omega))
  · intro v hv
    obtain ⟨i, hi, rfl⟩ := List.mem_iff_getElem.mp hv
    rw [List.length_drop] at hi
    rw [List.getElem_drop]
    exact h.high _ _ (List.getElem?_eq_getElem (by omega)) (by omega)
  · rw [List.length_take]; omega

theorem sortTwo_spec (axis : Bool) {a : List (MVertex K)} (h : a.length = 2) :
    ∃ b, sortTwo axis a = .ok b ∧ b.Perm a ∧ b.Pairwise (lexLe axis) := by
  match a, h with
  | [u, v], _ =>
    unfold sortTwo
    simp only [rd, List.getElem?_cons_zero, List.getElem?_cons_succ, ok_bind]
    by_cases hc : keyLt (key axis v) (key axis u) = true
    · refine ⟨_, rfl, ?_, ?_⟩
      · rw [if_pos hc]; exact List.Perm.swap _ _ _
      · rw [if_pos hc]
        simp only [List.set_cons_succ, List.set_cons_zero, List.pairwise_cons, List.mem_singleton,
          forall_eq, List.not_mem_nil, IsEmpty.forall_iff, implies_true, List.Pairwise.nil, and_true]
        exact lexLe_iff.mpr (KLe.of_lt hc)
    · refine ⟨_, rfl, ?_, ?_⟩
      · rw [if_neg hc]
      · rw [if_neg hc]
        simp only [List.pairwise_cons, List.mem_singleton,
          forall_eq, List.not_mem_nil, IsEmpty.forall_iff, implies_true, List.Pairwise.nil, and_true]
        exact lexLe_iff.mpr (KLe.of_not_lt hc)

theorem pairwise_short {R : MVertex K → MVertex K → Prop} {l : List (MVertex K)} (h : l.length ≤ 1) :
    l.Pairwise R := by
  match l, h with
  | [], _ => exact List.Pairwise.nil
  | [_], _ => exact List.pairwise_singleton _ _

theorem vertexsort_ok : ∀ (n seed : ℕ) (a : List (MVertex K)), a ≠ [] → a.length ≤ n →
    ∃ s b, vertexsort n seed a = .ok (s, b) ∧ b.Perm a ∧ b.Pairwise (lexLe false) := by
  intro n
  induction n with
  | zero => intro seed a h h'; simp only [Nat.le_zero, List.length_eq_zero_iff] at h'; exact absurd h' h
  | succ n ih =>
    intro seed a ha hn
    rw [vertexsort]
    by_cases h2 : a.length = 2
    · rw [if_pos h2]
      obtain ⟨b, h3, h4, h5⟩ := sortTwo_spec false h2
      rw [h3, ok_bind]
      exact ⟨seed, b, rfl, h4, h5⟩
    rw [if_neg h2]
    obtain ⟨s, p, b, l, r, h3, h4⟩ := pivotSplit_spec false seed ha
    rw [h3, ok_bind]
    simp only
    obtain ⟨A, M, C, rfl, hA, hM, pA, pM, pC, hM1⟩ := h4.parts
    have hlen : A.length + M.length + C.length = a.length := by
      rw [← h4.perm.length_eq, List.length_append, List.length_append]
    have e1 := h4.ln
    have e2 := h4.r0
    have e3 := h4.l0
    rw [List.length_append] at hM
    simp only [List.length_append] at e1
    rw [List.append_assoc]
    obtain ⟨s1, A', g1, g2, g3⟩ := onLeft_spec (c := 1 < l) (f := vertexsort n) (A := A) (B := M ++ C)
      (Q := fun A => A.Pairwise (lexLe false)) (seed := s) hA.symm
      (fun h => ih s A (by rintro rfl; simp only [List.length_nil] at hA; omega) (by omega))
      (fun h => pairwise_short (by omega))
    rw [g1, ok_bind]
    simp only
    rw [show A' ++ (M ++ C) = A' ++ M ++ C from (List.append_assoc _ _ _).symm]
    have hlA := g2.length_eq
    obtain ⟨s2, C', k1, k2, k3⟩ := onRight_spec (c := r < (a.length : ℤ) - 2) (f := vertexsort n) (A := A' ++ M)
      (B := C) (Q := fun A => A.Pairwise (lexLe false)) (seed := s1) (k := (r + 1).toNat)
      (by rw [List.length_append]; omega)
      (fun h => ih s1 C (by rintro rfl; simp only [List.length_nil] at hlen; omega) (by omega))
      (fun h => pairwise_short (by omega))
    refine ⟨s2, A' ++ M ++ C', k1, ((g2.append_right M).append k2).trans h4.perm, ?_⟩
    rw [List.pairwise_append, List.pairwise_append]
    refine ⟨⟨g3, pairwise_short hM1, ?_⟩, k3, ?_⟩
    · intro u hu v hv
      exact lexLe_iff.mpr ((pA u (g2.subset hu)).trans (pM v hv).2)
    · intro u hu v hv
      have hv' := pC v (k2.subset hv)
      rcases List.mem_append.mp hu with hu | hu
      · exact lexLe_iff.mpr ((pA u (g2.subset hu)).trans hv')
      · exact lexLe_iff.mpr ((pM u hu).1.trans hv')

/-- The first `m` entries do not come after the others. -/
def SplitAt (axis : Bool) (m : ℕ) (b : List (MVertex K)) : Prop :=
  ∃ L R, b = L ++ R ∧ L.length = m ∧ ∀ u ∈ L, ∀ v ∈ R, KLe (key axis u) (key axis v)

theorem vertexmedian_ok (axis : Bool) : ∀ (n : ℕ) (median : ℕ) (seed : ℕ) (a : List (MVertex K)),
    1 ≤ median → median < a.length → a.length ≤ n →
    ∃ s b, vertexmedian axis n median seed a = .ok (s, b) ∧ b.Perm a ∧ SplitAt axis median b := by
  intro n
  induction n with
  | zero => intro median seed a h1 h2 h3; omega
  | succ n ih =>
    intro median seed a hm hma hn
    rw [vertexmedian]
    by_cases h2 : a.length = 2
    · rw [if_pos h2]
      obtain ⟨b, h3, h4, h5⟩ := sortTwo_spec axis h2
      rw [h3, ok_bind]
      refine ⟨seed, b, rfl, h4, ?_⟩
      have hb := h4.length_eq
      rw [h2] at hb
      match b, hb with
      | [u, v], _ =>
        refine ⟨[u], [v], rfl, by simp; omega, ?_⟩
        intro x hx y hy
        rw [List.mem_singleton] at hx hy
        subst hx hy
        exact lexLe_iff.mp (List.rel_of_pairwise_cons h5 (by simp))
    rw [if_neg h2]
    obtain ⟨s, p, b, l, r, h3, h4⟩ := pivotSplit_spec axis seed (a := a)
      (by rintro rfl; simp only [List.length_nil] at hma; omega)
    rw [h3, ok_bind]
    simp only
    obtain ⟨A, M, C, rfl, hA, hM, pA, pM, pC, hM1⟩ := h4.parts
    have hlen : A.length + M.length + C.length = a.length := by
      rw [← h4.perm.length_eq, List.length_append, List.length_append]
    have e1 := h4.ln
    have e2 := h4.r0
    have e3 := h4.l0
    have e4 := h4.lr
    rw [List.length_append] at hM
    simp only [List.length_append] at e1
    rw [List.append_assoc]
    obtain ⟨s1, A', g1, g2, g3⟩ := onLeft_spec (c := (median : ℤ) < l) (f := vertexmedian axis n median) (A := A)
      (B := M ++ C) (Q := fun A => (median : ℤ) < l → SplitAt axis median A) (seed := s) hA.symm
      (fun h => by
        obtain ⟨s', A', q1, q2, q3⟩ := ih median s A hm (by omega) (by omega)
        exact ⟨s', A', q1, q2, fun _ => q3⟩)
      (fun h h' => absurd h' h)
    rw [g1, ok_bind]
    simp only
    rw [show A' ++ (M ++ C) = A' ++ M ++ C from (List.append_assoc _ _ _).symm]
    have hlA := g2.length_eq
    obtain ⟨s2, C', k1, k2, k3⟩ := onRight_spec (c := r < (median : ℤ) - 1)
      (f := vertexmedian axis n ((median : ℤ) - r - 1)) (A := A' ++ M) (B := C)
      (Q := fun C => r < (median : ℤ) - 1 → SplitAt axis (median - (r + 1).toNat) C) (seed := s1)
      (k := (r + 1).toNat)
      (by rw [List.length_append]; omega)
      (fun h => by
        obtain ⟨s', A', q1, q2, q3⟩ := ih (median - (r + 1).toNat) s1 C (by omega) (by omega) (by omega)
        refine ⟨s', A', ?_, q2, fun _ => q3⟩
        rw [← q1]; congr 1; omega)
      (fun h h' => absurd h' h)
    refine ⟨s2, A' ++ M ++ C', k1, ((g2.append_right M).append k2).trans h4.perm, ?_⟩
    have pA' : ∀ v ∈ A', KLe (key axis v) p := fun v hv => pA v (g2.subset hv)
    have pC' : ∀ v ∈ C', KLe p (key axis v) := fun v hv => pC v (k2.subset hv)
    by_cases hc1 : (median : ℤ) < l
    · obtain ⟨L, R, rfl, hL, hLR⟩ := g3 hc1
      refine ⟨L, R ++ M ++ C', by simp, hL, ?_⟩
      intro u hu v hv
      rw [List.mem_append, List.mem_append] at hv
      rcases hv with (hv | hv) | hv
      · exact hLR u hu v hv
      · exact (pA' u (by simp [hu])).trans (pM v hv).2
      · exact (pA' u (by simp [hu])).trans (pC' v hv)
    by_cases hc2 : r < (median : ℤ) - 1
    · obtain ⟨L, R, rfl, hL, hLR⟩ := k3 hc2
      refine ⟨A' ++ M ++ L, R, by simp, ?_, ?_⟩
      · simp only [List.length_append]; omega
      intro u hu v hv
      rw [List.mem_append, List.mem_append] at hu
      rcases hu with (hu | hu) | hu
      · exact (pA' u hu).trans (pC' v (by simp [hv]))
      · exact (pM u hu).1.trans (pC' v (by simp [hv]))
      · exact hLR u hu v hv
    -- the cut is at one of the two ends of the middle part
    by_cases hc3 : (median : ℤ) = l
    · refine ⟨A', M ++ C', by simp, by omega, ?_⟩
      intro u hu v hv
      rcases List.mem_append.mp hv with hv | hv
      · exact (pA' u hu).trans (pM v hv).2
      · exact (pA' u hu).trans (pC' v hv)
    · refine ⟨A' ++ M, C', rfl, by rw [List.length_append]; omega, ?_⟩
      intro u hu v hv
      rcases List.mem_append.mp hu with hu | hu
      · exact (pA' u hu).trans (pC' v hv)
      · exact (pM u hu).1.trans (pC' v hv)

theorem alternateaxes_ok : ∀ (n : ℕ) (axis : Bool) (seed : ℕ) (a : List (MVertex K)), 2 ≤ a.length →
    a.length ≤ n → ∃ s b, alternateaxes n axis seed a = .ok (s, b) ∧ b.Perm a ∧ Cut axis b := by
  intro n
  induction n with
  | zero => intro axis seed a h1 h2; omega
  | succ n ih =>
    intro axis seed a h2 hn
    rw [alternateaxes]
    obtain ⟨s, b, q1, q2, L, R, rfl, q3, q4⟩ := vertexmedian_ok (if a.length ≤ 3 then false else axis)
      (a.length + 1) (a.length / 2) seed a (by omega) (by omega) (by omega)
    rw [q1, ok_bind]
    simp only
    have hlen := q2.length_eq
    rw [List.length_append] at hlen
    obtain ⟨s1, L', g1, g2, g3⟩ := onLeft_spec (c := 2 ≤ a.length - a.length / 2 ∧ 2 ≤ a.length / 2)
      (f := alternateaxes n (!(if a.length ≤ 3 then false else axis))) (A := L) (B := R)
      (Q := fun l => Cut (!(if a.length ≤ 3 then false else axis)) l) (seed := s) q3.symm
      (fun h => ih _ s L (by omega) (by omega))
      (fun h => Cut.small (by omega) (pairwise_short (by omega)))
    rw [g1, ok_bind]
    simp only
    obtain ⟨s2, R', k1, k2, k3⟩ := onRight_spec (c := 2 ≤ a.length - a.length / 2)
      (f := alternateaxes n (!(if a.length ≤ 3 then false else axis))) (A := L') (B := R)
      (Q := fun l => Cut (!(if a.length ≤ 3 then false else axis)) l) (seed := s1) (k := a.length / 2)
      (by rw [g2.length_eq]; omega)
      (fun h => ih _ s1 R (by omega) (by omega))
      (fun h => Cut.small (by omega) (pairwise_short (by omega)))
    have hl' := g2.length_eq
    have hr' := k2.length_eq
    refine ⟨s2, L' ++ R', k1, (g2.append k2).trans q2, ?_⟩
    by_cases h3 : a.length ≤ 3
    · rw [if_pos h3] at *
      refine Cut.small (by rw [List.length_append]; omega) ?_
      rw [List.pairwise_append]
      refine ⟨pairwise_short (by omega), ?_, ?_⟩
      · cases k3 with
        | small _ hs => exact hs
        | halves h => omega
      · intro u hu v hv
        exact lexLe_iff.mpr (q4 u (g2.subset hu) v (k2.subset hv))
    · rw [if_neg h3] at *
      refine Cut.halves (by rw [List.length_append]; omega) (by rw [List.length_append]; omega) ?_ g3 k3
      intro u hu v hv
      exact lexLe_iff.mpr (q4 u (g2.subset hu) v (k2.subset hv))

/-! ## Duplicates -/

theorem lexLe_antisymm {u v : MVertex K} (h : lexLe false u v) (h' : lexLe false v u) : samePlace u v := by
  rcases h with h | ⟨h, h2⟩ <;> rcases h' with h' | ⟨h', h2'⟩
  · exact absurd h' h.not_gt
  · exact absurd h'.symm h.ne
  · exact absurd h.symm h'.ne
  · exact ⟨h, le_antisymm h2 h2'⟩

theorem lexLe_trans {axis : Bool} {u v w : MVertex K} (h : lexLe axis u v) (h' : lexLe axis v w) :
    lexLe axis u w := lexLe_iff.mpr ((lexLe_iff.mp h).trans (lexLe_iff.mp h'))

theorem lexLe_of_samePlace {u v : MVertex K} (h : samePlace u v) : lexLe false u v :=
  Or.inr ⟨h.1, h.2.le⟩

/-- Sorted without duplicates. -/
def Strict (l : List (MVertex K)) : Prop := l.Pairwise (fun u v => lexLe false u v ∧ ¬ samePlace u v)

/-- The state of the loop over `j`. -/
structure DiscardInv (a : List (MVertex K)) (j : ℕ) (s : List (MVertex K) × ℕ × List (MVertex K))
    (P : List (MVertex K)) (u : MVertex K) (J T : List (MVertex K)) : Prop where
  arr : s.1 = P ++ u :: (J ++ T)
  idx : s.2.1 = P.length
  len : P.length + 1 + J.length = j
  tail : T = a.drop j
  perm : (P ++ [u] ++ s.2.2).Perm (a.take j)
  strict : Strict (P ++ [u])
  dup : ∀ d ∈ s.2.2, ∃ k ∈ P ++ [u], samePlace k d

theorem discard_ok {a : List (MVertex K)} (ha : a ≠ []) (hs : a.Pairwise (lexLe false)) :
    ∃ b i d, discard a.length a = .ok (b, i, d) ∧ i < a.length ∧ (b.take (i + 1)).length = i + 1 ∧
      (b.take (i + 1) ++ d).Perm a ∧ Strict (b.take (i + 1)) ∧
      ∀ v ∈ d, ∃ k ∈ b.take (i + 1), samePlace k v := by
  have hn : 1 ≤ a.length := by
    cases a with
    | nil => exact absurd rfl ha
    | cons _ _ => simp
  obtain ⟨s, h1, P, u, J, T, h2⟩ := forUp_inv
    (P := fun j s => ∃ P u J T, DiscardInv a j s P u J T) (lo := 1) (hi := a.length) (s := (a, 0, []))
    (body := fun j (s : List (MVertex K) × ℕ × List (MVertex K)) => do
      let u ← rd s.1 s.2.1
      let v ← rd s.1 j
      if u.x = v.x ∧ u.y = v.y then .ok (s.1, s.2.1, v :: s.2.2)
      else do
        let a ← wr s.1 (s.2.1 + 1) v
        .ok (a, s.2.1 + 1, s.2.2)) hn
    (by
      cases a with
      | nil => exact absurd rfl ha
      | cons v l =>
        refine ⟨[], v, [], l, rfl, rfl, rfl, rfl, ?_, List.pairwise_singleton _ _, ?_⟩
        · simp
        · intro d hd; cases hd)
    (by
      rintro j ⟨A, i, D⟩ hj1 hj2 ⟨P, u, J, T, hI⟩
      obtain ⟨hA, hi, hl, hT, hp, hst, hd⟩ := hI
      simp only at hA hi hp hd
      have hT' : T = a[j] :: a.drop (j + 1) := by rw [hT]; exact List.drop_eq_getElem_cons hj2
      have hru : rd A i = .ok u := by rw [rd_eq_ok_iff, hA, hi]; simp
      have hrv : rd A j = .ok a[j] := by
        rw [rd_eq_ok_iff, hA, hT', List.getElem?_append_right (by omega)]
        have e : j - P.length = J.length + 1 := by omega
        rw [e, List.getElem?_cons_succ, List.getElem?_append_right le_rfl]
        simp
      have htake : a.take (j + 1) = a.take j ++ [a[j]] := (List.take_append_getElem hj2).symm
      -- what was seen does not come after the next vertex
      have hle : ∀ x ∈ P ++ [u] ++ D, lexLe false x a[j] := by
        intro x hx
        have hx' := hp.subset hx
        have := hs
        rw [← List.take_append_drop j a, List.pairwise_append] at this
        refine this.2.2 x hx' a[j] ?_
        rw [List.drop_eq_getElem_cons hj2]
        exact List.mem_cons_self
      simp only
      rw [hru, ok_bind, hrv, ok_bind]
      by_cases hsame : u.x = a[j].x ∧ u.y = a[j].y
      · rw [if_pos hsame]
        refine ⟨_, rfl, P, u, J ++ [a[j]], a.drop (j + 1), ?_, hi, ?_, rfl, ?_, hst, ?_⟩
        · simp only; rw [hA, hT']; simp
        · rw [List.length_append, List.length_singleton]; omega
        · simp only
          rw [htake]
          exact ((List.perm_middle).trans (hp.cons _)).trans (List.perm_append_singleton _ _).symm
        · intro d hd'
          rcases List.mem_cons.mp hd' with rfl | hd'
          · exact ⟨u, by simp, hsame⟩
          · exact hd d hd'
      · rw [if_neg hsame]
        have hstrict : Strict (P ++ [u] ++ [a[j]]) := by
          unfold Strict at hst ⊢
          rw [List.pairwise_append]
          refine ⟨hst, List.pairwise_singleton _ _, ?_⟩
          intro x hx y hy
          rw [List.mem_singleton] at hy
          subst hy
          refine ⟨hle x (List.mem_append_left _ hx), fun hxy => hsame ?_⟩
          rcases List.mem_append.mp hx with hx1 | hx1
          · -- then the latest vertex lies between the two
            have h3 : lexLe false x u := ((List.pairwise_append.mp hst).2.2 x hx1 u (by simp)).1
            have h4 : lexLe false u a[j] := hle u (by simp)
            exact lexLe_antisymm h4 (lexLe_trans (lexLe_of_samePlace ⟨hxy.1.symm, hxy.2.symm⟩) h3)
          · rw [List.mem_singleton] at hx1
            subst hx1
            exact hxy
        have hperm : ∀ D', D' = D → (P ++ [u] ++ [a[j]] ++ D').Perm (a.take (j + 1)) := by
          rintro _ rfl
          rw [htake, List.append_assoc (P ++ [u])]
          exact ((List.perm_middle).trans (hp.cons _)).trans (List.perm_append_singleton _ _).symm
        have hdup : ∀ d ∈ D, ∃ k ∈ P ++ [u] ++ [a[j]], samePlace k d := by
          intro d hd'
          obtain ⟨k, hk, hk'⟩ := hd d hd'
          exact ⟨k, List.mem_append_left _ hk, hk'⟩
        have hlen : i + 1 < A.length := by
          rw [hA, hT', hi]; simp only [List.length_append, List.length_cons]; omega
        rw [wr_ok hlen, ok_bind]
        refine ⟨_, rfl, ?_⟩
        cases J with
        | nil =>
          refine ⟨P ++ [u], a[j], [], a.drop (j + 1), ?_, by simp [hi], by simp at hl ⊢; omega, rfl, hperm _ rfl,
            hstrict, hdup⟩
          simp only
          rw [hA, hT', hi, List.set_append_right _ _ (by omega), show P.length + 1 - P.length = 1 by omega,
            List.nil_append, List.set_cons_succ, List.set_cons_zero, List.append_assoc]
          rfl
        | cons x J =>
          refine ⟨P ++ [u], a[j], J ++ [a[j]], a.drop (j + 1), ?_, by simp [hi], by simp at hl ⊢; omega, rfl,
            hperm _ rfl, hstrict, hdup⟩
          simp only
          rw [hA, hT', hi, List.set_append_right _ _ (by omega)]
          simp)
  have htk : s.1.take (s.2.1 + 1) = P ++ [u] := by
    rw [h2.arr, h2.idx]
    have : P ++ u :: (J ++ T) = P ++ [u] ++ (J ++ T) := by simp
    rw [this]
    exact List.take_left' (by simp)
  refine ⟨s.1, s.2.1, s.2.2, h1, ?_, ?_, ?_, ?_, ?_⟩
  · have := h2.idx; have := h2.len; omega
  · rw [htk, h2.idx]; simp
  · rw [htk]; simpa using h2.perm
  · rw [htk]; exact h2.strict
  · rw [htk]; exact h2.dup

theorem Strict.sorted {l : List (MVertex K)} (h : Strict l) : l.Pairwise (lexLe false) := h.imp And.left

theorem arrange_ok (dwyer : Bool) (seed : ℕ) {verts : List (MVertex K)} (h : verts ≠ []) :
    ∃ kept dead, arrange dwyer seed verts = .ok (kept, dead) ∧ (kept ++ dead).Perm verts ∧
      kept.Pairwise (fun u v => ¬ samePlace u v) ∧ (∀ d ∈ dead, ∃ k ∈ kept, samePlace k d) ∧
      (dwyer = false → kept.Pairwise (lexLe false)) ∧ (dwyer = true → Cut false kept) := by
  obtain ⟨s, b, h1, h2, h3⟩ := vertexsort_ok (verts.length + 1) seed verts h (by omega)
  have hb : b ≠ [] := by
    rintro rfl
    have := h2.length_eq
    rw [List.length_nil, eq_comm, List.length_eq_zero_iff] at this
    exact h this
  obtain ⟨b', i, dead, k1, k2, k3, k4, k5, k6⟩ := discard_ok hb h3
  unfold arrange
  rw [h1, ok_bind, ← h2.length_eq, k1, ok_bind]
  simp only
  generalize b'.take (i + 1) = a at *
  have hsplit : a = a.take ((i + 1) / 2) ++ a.drop ((i + 1) / 2) := (List.take_append_drop _ _).symm
  have hL : (a.take ((i + 1) / 2)).length = (i + 1) / 2 := by rw [List.length_take]; omega
  have hR : (a.drop ((i + 1) / 2)).length = i + 1 - (i + 1) / 2 := by rw [List.length_drop]; omega
  generalize a.take ((i + 1) / 2) = L at *
  generalize a.drop ((i + 1) / 2) = R at *
  subst hsplit
  have hs' := k5.sorted
  rw [List.pairwise_append] at hs'
  obtain ⟨s1, L', g1, g2, g3⟩ := onLeft_spec
    (c := dwyer = true ∧ 2 ≤ i + 1 - (i + 1) / 2 ∧ 2 ≤ (i + 1) / 2)
    (f := alternateaxes (i + 1 + 1) true) (A := L) (B := R) (seed := s)
    (Q := fun l => (dwyer = false → l.Pairwise (lexLe false)) ∧ (dwyer = true → Cut true l)) hL.symm
    (fun hc => by
      obtain ⟨s', A', q1, q2, q3⟩ := alternateaxes_ok (i + 1 + 1) true s L (by omega) (by omega)
      exact ⟨s', A', q1, q2, fun h' => by simp [hc.1] at h', fun _ => q3⟩)
    (fun hc => ⟨fun _ => hs'.1, fun hd => Cut.small (by by_contra; exact hc ⟨hd, by omega, by omega⟩) hs'.1⟩)
  rw [g1, ok_bind]
  simp only
  obtain ⟨s2, R', q1, q2, q3⟩ := onRight_spec
    (c := dwyer = true ∧ 2 ≤ i + 1 - (i + 1) / 2) (k := (i + 1) / 2)
    (f := alternateaxes (i + 1 + 1) true) (A := L') (B := R) (seed := s1)
    (Q := fun l => (dwyer = false → l.Pairwise (lexLe false)) ∧ (dwyer = true → Cut true l))
    (by rw [g2.length_eq]; exact hL.symm)
    (fun hc => by
      obtain ⟨s', A', q1, q2, q3⟩ := alternateaxes_ok (i + 1 + 1) true s1 R (by omega) (by omega)
      exact ⟨s', A', q1, q2, fun h' => by simp [hc.1] at h', fun _ => q3⟩)
    (fun hc => ⟨fun _ => hs'.2.1,
      fun hd => Cut.small (by by_contra; exact hc ⟨hd, by omega⟩) hs'.2.1⟩)
  rw [q1, ok_bind]
  have hperm : (L' ++ R').Perm (L ++ R) := g2.append q2
  have hord : ∀ u ∈ L', ∀ v ∈ R', lexLe false u v := fun u hu v hv =>
    hs'.2.2 u (g2.subset hu) v (q2.subset hv)
  refine ⟨_, _, rfl, ((hperm.append_right _).trans k4).trans h2, ?_, ?_, ?_, ?_⟩
  · have : (L ++ R).Pairwise (fun u v => ¬ samePlace u v) := List.Pairwise.imp And.right k5
    exact hperm.symm.pairwise this (fun {u v} h h' => h ⟨h'.1.symm, h'.2.symm⟩)
  · intro d hd
    obtain ⟨k, hk, hk'⟩ := k6 d hd
    exact ⟨k, hperm.symm.subset hk, hk'⟩
  · intro hd
    rw [List.pairwise_append]
    exact ⟨g3.1 hd, q3.1 hd, hord⟩
  · intro hd
    have hl' := g2.length_eq
    have hr' := q2.length_eq
    by_cases h3 : i + 1 ≤ 3
    · refine Cut.small (by rw [List.length_append]; omega) ?_
      rw [List.pairwise_append]
      refine ⟨pairwise_short (by omega), ?_, hord⟩
      cases q3.2 hd with
      | small _ hs => exact hs
      | halves h => omega
    · exact Cut.halves (by rw [List.length_append]; omega) (by rw [List.length_append]; omega) hord
        (g3.2 hd) (q3.2 hd)

theorem vertexsort_empty (n seed : ℕ) : vertexsort (K := K) (n + 1) seed [] = .error .ub := by
  rw [vertexsort, if_neg (by simp)]
  rfl

/-! ## The order is determined by the places -/

theorem KLe.samePlace {axis : Bool} {u v : MVertex K} (h : KLe (key axis u) (key axis v))
    (h' : KLe (key axis v) (key axis u)) : samePlace u v := by
  cases axis
  · exact lexLe_antisymm (lexLe_iff.mpr h) (lexLe_iff.mpr h')
  · have := lexLe_antisymm (u := ⟨0, u.y, u.x⟩) (v := ⟨0, v.y, v.x⟩) h h'
    exact ⟨this.2, this.1⟩

/-- No two vertices at the same place. -/
def Apart (l : List (MVertex K)) : Prop := l.Pairwise (fun u v => ¬ samePlace u v)

theorem Apart.eq {l : List (MVertex K)} (h : Apart l) {u v : MVertex K} (hu : u ∈ l) (hv : v ∈ l)
    (huv : samePlace u v) : u = v := by
  by_contra hne
  exact List.Pairwise.forall_of_forall_of_flip (R := fun u v => u ≠ v → ¬ samePlace u v)
    (fun x _ hx => absurd rfl hx) (List.Pairwise.imp (S := fun u v => u ≠ v → ¬ samePlace u v) (fun {_ _} h _ => h) h)
    (List.Pairwise.imp (S := flip fun u v => u ≠ v → ¬ samePlace u v)
      (fun {_ _} h _ h' => h ⟨h'.1.symm, h'.2.symm⟩) h) hu hv hne huv

theorem Apart.nodup {l : List (MVertex K)} (h : Apart l) : l.Nodup :=
  List.Pairwise.imp (S := fun u v => u ≠ v) (fun {u v} h e => h (by rw [e]; exact ⟨rfl, rfl⟩)) h

theorem perm_of_subset {l l' : List (MVertex K)} (hn : l.Nodup) (hs : l ⊆ l') (hl : l'.length ≤ l.length) :
    l.Perm l' := (List.subperm_of_subset hn hs).perm_of_length_le hl

theorem halves_unique {axis : Bool} {l r l' r' : List (MVertex K)} (hp : (l ++ r).Perm (l' ++ r'))
    (hl : l.length = l'.length) (ha : Apart (l ++ r)) (h : ∀ u ∈ l, ∀ v ∈ r, lexLe axis u v)
    (h' : ∀ u ∈ l', ∀ v ∈ r', lexLe axis u v) : l.Perm l' := by
  have hn := ha.nodup
  have hn' : (l' ++ r').Nodup := hp.nodup_iff.mp hn
  refine perm_of_subset (List.nodup_append.mp hn).1 ?_ hl.ge
  intro u hu
  by_contra hu'
  have hur : u ∈ r' := (List.mem_append.mp (hp.subset (List.mem_append_left _ hu))).resolve_left hu'
  obtain ⟨w, hw, hw'⟩ : ∃ w ∈ l', w ∉ l := by
    by_contra hall
    push Not at hall
    exact hu' ((perm_of_subset (List.nodup_append.mp hn').1 hall hl.le).symm.subset hu)
  have hwr : w ∈ r := (List.mem_append.mp (hp.symm.subset (List.mem_append_left _ hw))).resolve_left hw'
  have := ha.eq (List.mem_append_left _ hu) (List.mem_append_right _ hwr)
    (KLe.samePlace (lexLe_iff.mp (h u hu w hwr)) (lexLe_iff.mp (h' w hw u hur)))
  exact hw' (this ▸ hu)

theorem sorted_unique {a b : List (MVertex K)} (hp : a.Perm b) (ha : Apart a)
    (h : a.Pairwise (lexLe false)) (h' : b.Pairwise (lexLe false)) : a = b := by
  refine List.Perm.eq_of_pairwise ?_ h h' hp
  intro u v hu hv h1 h2
  exact ha.eq hu (hp.symm.subset hv) (lexLe_antisymm h1 h2)

theorem cut_unique {axis : Bool} {a b : List (MVertex K)} (h : Cut axis a) (h' : Cut axis b)
    (hp : a.Perm b) (ha : Apart a) : a = b := by
  induction h generalizing b with
  | small h hs =>
    cases h' with
    | small _ hs' => exact sorted_unique hp ha hs hs'
    | halves h2 => have := hp.length_eq; omega
  | @halves axis l r h hl hc cl cr ihl ihr =>
    cases h' with
    | small h2 hs' => have := hp.length_eq; omega
    | @halves _ l' r' h2 hl' hc' cl' cr' =>
      have hlen : l.length = l'.length := by rw [hl, hl', hp.length_eq]
      have p1 := halves_unique hp hlen ha hc hc'
      have e1 := ihl cl' p1 (List.pairwise_append.mp ha).1
      subst e1
      have p2 := (List.perm_append_left_iff l).mp hp
      rw [ihr cr' p2 (List.pairwise_append.mp ha).2.1]

/-- The vertex without its number. -/
def strip (v : MVertex K) : MVertex K := ⟨0, v.x, v.y⟩

theorem cut_strip {axis : Bool} {a : List (MVertex K)} (h : Cut axis a) : Cut axis (a.map strip) := by
  induction h with
  | small h hs => exact Cut.small (by simpa using h) (List.pairwise_map.mpr hs)
  | @halves axis l r h hl hc cl cr ihl ihr =>
    rw [List.map_append]
    refine Cut.halves (by simpa using h) (by simpa using hl) ?_ ihl ihr
    intro u hu v hv
    obtain ⟨u', hu', rfl⟩ := List.mem_map.mp hu
    obtain ⟨v', hv', rfl⟩ := List.mem_map.mp hv
    exact hc u' hu' v' hv'

theorem apart_strip {a : List (MVertex K)} (h : Apart a) : Apart (a.map strip) := List.pairwise_map.mpr h

end VSort
end Nikfemm
