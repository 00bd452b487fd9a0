import Verif.Props.Region
import Verif.Spec.Force

set_option linter.unusedSectionVars false

/-!
# The region around a body (C67)
-/

namespace Nikfemm

section
variable {K P : Type} [Field K] [LinearOrder K] [IsStrictOrderedRing K]

/-- The candidates in the order of drawing. -/
theorem mem_candidates {polys : List (Polygon K)} {Q R : Polygon K} :
    R ∈ polys.filter (fun R => R.containsPolygon Q && !(R.eqv Q)) ↔
      R ∈ polys ∧ R.Encloses Q := by
  rw [List.mem_filter, ← encloses_iff, Bool.and_comm]

theorem shrinkLoop_short (n : Nat) {l : List (Polygon K)} (h : l.length ≤ 1) :
    shrinkLoop n l = .ok l := by
  cases n with
  | zero => simp [shrinkLoop, Nat.not_lt.mpr h]
  | succ n => simp [shrinkLoop, Nat.not_lt.mpr h]

theorem shrinkLoop_cyclic {l : List (Polygon K)} (h : 1 < l.length)
    (hr : shrinkRound l = .ok l) : ∀ n, shrinkLoop n l = .error .throw
  | 0 => by simp [shrinkLoop, h]
  | n + 1 => by
    have := shrinkLoop_cyclic h hr n
    simp only [shrinkLoop, if_pos h, hr, ok_bind, this]

theorem shrinkRound_spec (l : List (Polygon K)) :
    (shrinkRound l = .error .ub ∧ ∃ Q ∈ l, ∀ R ∈ l, ¬ Q.Encloses R) ∨
    (shrinkRound l = .ok l ∧ ∀ Q ∈ l, ∃ R ∈ l, Q.Encloses R) := by
  unfold shrinkRound
  by_cases h : l.any (fun Q => !(l.any (fun R => !(Q.eqv R) && Q.containsPolygon R))) = true
  · rw [if_pos h]
    obtain ⟨Q, hQ, hq⟩ := List.any_eq_true.mp h
    refine Or.inl ⟨rfl, Q, hQ, fun R hR hc => ?_⟩
    have : l.any (fun R => !(Q.eqv R) && Q.containsPolygon R) = true :=
      List.any_eq_true.mpr ⟨R, hR, (encloses_iff Q R).mpr hc⟩
    rw [this] at hq
    exact absurd hq (by decide)
  · rw [if_neg h]
    refine Or.inr ⟨rfl, fun Q hQ => ?_⟩
    by_contra hc
    apply h
    refine List.any_eq_true.mpr ⟨Q, hQ, ?_⟩
    rw [Bool.not_eq_true', Bool.eq_false_iff]
    intro ha
    obtain ⟨R, hR, hr⟩ := List.any_eq_true.mp ha
    exact hc ⟨R, hR, (encloses_iff Q R).mp hr⟩

theorem shrinkLoop_long {l : List (Polygon K)} (h : 1 < l.length) (n : Nat) :
    (shrinkLoop (n + 1) l = .error .ub ∧ ∃ Q ∈ l, ∀ R ∈ l, ¬ Q.Encloses R) ∨
    (shrinkLoop (n + 1) l = .error .throw ∧ ∀ Q ∈ l, ∃ R ∈ l, Q.Encloses R) := by
  rcases shrinkRound_spec l with ⟨hr, hq⟩ | ⟨hr, hq⟩
  · refine Or.inl ⟨?_, hq⟩
    simp only [shrinkLoop, if_pos h, hr, error_bind]
  · exact Or.inr ⟨shrinkLoop_cyclic h hr (n + 1), hq⟩

/-- **C67** (success).  The surrounding region is found exactly when exactly one entry of the list
of polygons encloses the body; the result is that polygon. -/
theorem surrounding_iff (polys : List (Polygon K)) (Q R : Polygon K) :
    surroundingPolygon polys Q = .ok R ↔
      ∃ pre post, polys = pre ++ R :: post ∧ R.Encloses Q ∧ ∀ S ∈ pre ++ post, ¬ S.Encloses Q := by
  have hfil : ∀ S : Polygon K, (S.containsPolygon Q && !(S.eqv Q)) = true ↔ S.Encloses Q := fun S => by
    rw [← encloses_iff, Bool.and_comm]
  constructor
  · intro h
    unfold surroundingPolygon at h
    obtain ⟨l, hl, hr⟩ := bind_eq_ok_iff.mp h
    by_cases hlen : (polys.filter (fun R => R.containsPolygon Q && !(R.eqv Q))).length ≤ 1
    · rw [shrinkLoop_short _ hlen] at hl
      obtain rfl : _ = l := by simpa using hl
      have hone : polys.filter (fun R => R.containsPolygon Q && !(R.eqv Q)) = [R] := by
        rw [rd_eq_ok_iff] at hr
        cases hf : polys.filter (fun R => R.containsPolygon Q && !(R.eqv Q)) with
        | nil => rw [hf] at hr; simp at hr
        | cons a t =>
          rw [hf] at hr hlen
          simp only [List.length_cons, Nat.le_iff_lt_or_eq] at hlen
          have : t = [] := List.length_eq_zero_iff.mp (by omega)
          simp_all
      obtain ⟨pre, post, h1, h2, h3, h4⟩ := (List.filter_eq_cons_iff).mp hone
      refine ⟨pre, post, h1, (hfil R).mp h3, fun S hS hc => ?_⟩
      rcases List.mem_append.mp hS with hS | hS
      · exact absurd ((hfil S).mpr hc) (by simpa using h2 S hS)
      · have : S ∈ post.filter (fun R => R.containsPolygon Q && !(R.eqv Q)) :=
          List.mem_filter.mpr ⟨hS, (hfil S).mpr hc⟩
        rw [h4] at this
        cases this
    · rcases shrinkLoop_long (Nat.lt_of_not_le hlen) 100 with ⟨h1, -⟩ | ⟨h1, -⟩ <;>
        rw [h1] at hl <;> cases hl
  · rintro ⟨pre, post, rfl, hR, hno⟩
    have hf : (pre ++ R :: post).filter (fun R => R.containsPolygon Q && !(R.eqv Q)) = [R] := by
      rw [List.filter_append, List.filter_cons, if_pos ((hfil R).mpr hR)]
      have h1 : pre.filter (fun R => R.containsPolygon Q && !(R.eqv Q)) = [] :=
        List.filter_eq_nil_iff.mpr (fun S hS hc => hno S (by simp [hS]) ((hfil S).mp hc))
      have h2 : post.filter (fun R => R.containsPolygon Q && !(R.eqv Q)) = [] :=
        List.filter_eq_nil_iff.mpr (fun S hS hc => hno S (by simp [hS]) ((hfil S).mp hc))
      rw [h1, h2]
      rfl
    unfold surroundingPolygon
    rw [hf, shrinkLoop_short _ (by simp)]
    rfl

/-- **C67** (failure).  Without an enclosing polygon the program reads the first element of an empty
vector.  With several, it erases from the vector it iterates over as soon as one of them encloses
no other of them, and raises an error after a hundred rounds otherwise. -/
theorem surrounding_failure (polys : List (Polygon K)) (Q : Polygon K) :
    ((∀ R ∈ polys, ¬ R.Encloses Q) → surroundingPolygon polys Q = .error .ub) ∧
    (∀ (i j : Nat) (R S : Polygon K), i < j → polys[i]? = some R → polys[j]? = some S → R.Encloses Q → S.Encloses Q →
      (surroundingPolygon polys Q = .error .ub ∧
        ∃ T ∈ polys, T.Encloses Q ∧ ∀ U ∈ polys, U.Encloses Q → ¬ T.Encloses U) ∨
      (surroundingPolygon polys Q = .error .throw ∧
        ∀ T ∈ polys, T.Encloses Q → ∃ U ∈ polys, U.Encloses Q ∧ T.Encloses U)) := by
  constructor
  · intro h
    have hf : polys.filter (fun R => R.containsPolygon Q && !(R.eqv Q)) = [] := by
      refine List.filter_eq_nil_iff.mpr (fun S hS hc => h S hS ?_)
      rwa [← encloses_iff, Bool.and_comm]
    unfold surroundingPolygon
    rw [hf, shrinkLoop_short _ (by simp)]
    rfl
  · intro i j R S hij hR hS hRQ hSQ
    have hlen : 1 < (polys.filter (fun R => R.containsPolygon Q && !(R.eqv Q))).length := by
      have hfil : ∀ S : Polygon K, (S.containsPolygon Q && !(S.eqv Q)) = true ↔ S.Encloses Q := fun S => by
        rw [← encloses_iff, Bool.and_comm]
      obtain ⟨hj, ej⟩ := List.getElem?_eq_some_iff.mp hS
      obtain ⟨hi, ei⟩ := List.getElem?_eq_some_iff.mp hR
      have hsplit := List.take_append_drop j polys
      rw [← hsplit, List.filter_append, List.length_append]
      have h1 : 0 < ((polys.take j).filter (fun R => R.containsPolygon Q && !(R.eqv Q))).length :=
        List.length_pos_of_mem (List.mem_filter.mpr
          ⟨List.mem_take_iff_getElem.mpr ⟨i, by omega, ei⟩, (hfil R).mpr hRQ⟩)
      have h2 : 0 < ((polys.drop j).filter (fun R => R.containsPolygon Q && !(R.eqv Q))).length :=
        List.length_pos_of_mem (List.mem_filter.mpr
          ⟨List.mem_drop_iff_getElem.mpr ⟨0, by omega, by simpa using ej⟩, (hfil S).mpr hSQ⟩)
      omega
    unfold surroundingPolygon
    rcases shrinkLoop_long hlen 100 with ⟨h1, T, hT, hno⟩ | ⟨h1, hall⟩
    · rw [h1]
      refine Or.inl ⟨rfl, T, (mem_candidates.mp hT).1, (mem_candidates.mp hT).2, fun U hU hUQ => ?_⟩
      exact hno U (mem_candidates.mpr ⟨hU, hUQ⟩)
    · rw [h1]
      refine Or.inr ⟨rfl, fun T hT hTQ => ?_⟩
      obtain ⟨U, hU, hc⟩ := hall T (mem_candidates.mpr ⟨hT, hTQ⟩)
      exact ⟨U, (mem_candidates.mp hU).1, (mem_candidates.mp hU).2, hc⟩

/-- **C67** (nested regions).  A body inside two nested regions: if enclosed polygons can be ranked,
for example by their area, the search for the surrounding region is undefined behaviour. -/
theorem surrounding_nested (polys : List (Polygon K)) (Q : Polygon K) (rank : Polygon K → K)
    (hrank : ∀ R S, R ∈ polys → S ∈ polys → R.Encloses S → rank S < rank R) (i j : Nat)
    (R S : Polygon K) (hij : i < j) (hR : polys[i]? = some R) (hS : polys[j]? = some S)
    (hRQ : R.Encloses Q) (hSQ : S.Encloses Q) :
    surroundingPolygon polys Q = .error .ub := by
  rcases (surrounding_failure polys Q).2 i j R S hij hR hS hRQ hSQ with ⟨h, -⟩ | ⟨-, hall⟩
  · exact h
  · exfalso
    obtain ⟨T, hT, hmin⟩ := (polys.filter (fun R => R.containsPolygon Q && !(R.eqv Q))).toFinset.exists_min_image
      rank ⟨R, by
        rw [List.mem_toFinset]
        exact mem_candidates.mpr ⟨List.mem_of_getElem? hR, hRQ⟩⟩
    rw [List.mem_toFinset] at hT
    obtain ⟨hT1, hT2⟩ := mem_candidates.mp hT
    obtain ⟨U, hU, hUQ, hc⟩ := hall T hT1 hT2
    have h1 := hmin U (by rw [List.mem_toFinset]; exact mem_candidates.mpr ⟨hU, hUQ⟩)
    have h2 := hrank T U hT1 hU hc
    exact absurd h2 (not_lt.mpr h1)

/-- **C67** (force and torque).  A force or torque is computed only for a body that is enclosed by
exactly one polygon of the drawing. -/
theorem force_needs_one_surrounding (sq : K → K) (order : List (Nat × K) → List (Nat × K))
    (hi lo c depth : K) (M : Mesh K P) (B : List (Vec K)) (p center : Vec K) :
    (∀ f, computeForce sq order hi lo c depth M B p = .ok f → ∃ Q R pre post,
      M.getInnermostPolygon p = .ok Q ∧ M.drawing.polygons = pre ++ R :: post ∧ R.Encloses Q ∧
        ∀ S ∈ pre ++ post, ¬ S.Encloses Q) ∧
    (∀ t, computeTorque sq order hi lo c depth M B p center = .ok t → ∃ Q R pre post,
      M.getInnermostPolygon p = .ok Q ∧ M.drawing.polygons = pre ++ R :: post ∧ R.Encloses Q ∧
        ∀ S ∈ pre ++ post, ¬ S.Encloses Q) ∧
    (∀ s, computeStress sq order hi lo c depth M B p center = .ok s → ∃ Q R pre post,
      M.getInnermostPolygon p = .ok Q ∧ M.drawing.polygons = pre ++ R :: post ∧ R.Encloses Q ∧
        ∀ S ∈ pre ++ post, ¬ S.Encloses Q) := by
  have main : ∀ As, surroundingAssets sq hi lo M B p = .ok As → ∃ Q R pre post,
      M.getInnermostPolygon p = .ok Q ∧ M.drawing.polygons = pre ++ R :: post ∧ R.Encloses Q ∧
        ∀ S ∈ pre ++ post, ¬ S.Encloses Q := by
    intro As h
    unfold surroundingAssets at h
    obtain ⟨Q, hQ, h⟩ := bind_eq_ok_iff.mp h
    obtain ⟨R, hR, -⟩ := bind_eq_ok_iff.mp h
    obtain ⟨pre, post, h1, h2, h3⟩ := (surrounding_iff _ Q R).mp hR
    exact ⟨Q, R, pre, post, hQ, h1, h2, h3⟩
  refine ⟨fun f h => ?_, fun t h => ?_, fun s h => ?_⟩
  · obtain ⟨As, hA, -⟩ := bind_eq_ok_iff.mp h
    exact main As hA
  · obtain ⟨As, hA, -⟩ := bind_eq_ok_iff.mp h
    exact main As hA
  · obtain ⟨As, hA, -⟩ := bind_eq_ok_iff.mp h
    exact main As hA

/-- A square around the origin. -/
def squareOf (a : ℚ) : Polygon ℚ := [⟨-a, -a⟩, ⟨a, -a⟩, ⟨a, a⟩, ⟨-a, a⟩]

theorem square_encloses_1_2 : (squareOf 2).Encloses (squareOf 1) := by
  rw [← encloses_iff]; decide +kernel

example : surroundingPolygon [squareOf 1, squareOf 2] (squareOf 1) = .ok (squareOf 2) :=
  (surrounding_iff _ _ _).mpr ⟨[squareOf 1], [], rfl, square_encloses_1_2, by
    intro S hS
    simp only [List.append_nil, List.mem_singleton] at hS
    subst hS
    rw [← encloses_iff]
    decide +kernel⟩

/-- Three nested squares, the innermost one is the body. -/
example : surroundingPolygon [squareOf 1, squareOf 2, squareOf 3] (squareOf 1) = .error .ub := by
  refine surrounding_nested _ _ (fun Q => (Q.map (fun v => |v.x|)).sum) ?_ 1 2 _ _ (by decide) rfl rfl
    square_encloses_1_2 (by rw [← encloses_iff]; decide +kernel)
  intro R S hR hS hc
  rw [← encloses_iff] at hc
  simp only [List.mem_cons, List.not_mem_nil, or_false] at hR hS
  rcases hR with rfl | rfl | rfl <;> rcases hS with rfl | rfl | rfl <;>
    revert hc <;> decide +kernel

end

end Nikfemm
