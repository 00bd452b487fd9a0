import Verif.Lemmas.Ccw
import Verif.Spec.Predicates
import Mathlib.Data.Rat.Floor

/-!
# Properties of the orientation test

* **C92** `counterclockwise` returns a number with the exact sign of the area of the triangle.
* **C93** its last stage reads one element past the end of its arrays.
-/

set_option linter.unusedSectionVars false

namespace Nikfemm
namespace Pred

open Flt

variable {K : Type} [Field K] [LinearOrder K] [IsStrictOrderedRing K] [FloorRing K]

/-- The vertex at a point of the plane. -/
def Vertex.at (p : Spec.Point K) : Vertex K := ⟨⟨p.x⟩, ⟨p.y⟩⟩

theorem rep_machine {x : K} : Rep 53 x ↔ Spec.Machine x := by
  constructor
  · intro h
    obtain ⟨k, ⟨n, hn⟩, h2⟩ := h.strict (by norm_num)
    refine ⟨n, k, ?_, hn⟩
    have hk := two_pos' (K := K) k
    rw [hn, abs_mul, abs_of_pos hk, two_add, mul_comm] at h2
    have h3 := lt_of_mul_lt_mul_left h2 hk.le
    have h4 : ((|n| : ℤ) : K) < ((2 ^ 53 : ℤ) : K) := by
      rw [Int.cast_abs]
      refine h3.trans_le ?_
      norm_num
    exact_mod_cast h4
  · rintro ⟨m, k, h, rfl⟩
    exact rep_int m k h.le

theorem vok_at {p : Spec.Point K} (h : p.Machine) : VOk (Vertex.at p) :=
  ⟨rep_machine.mpr h.1, rep_machine.mpr h.2⟩

theorem detOf_at (a b c : Spec.Point K) :
    detOf (Vertex.at a) (Vertex.at b) (Vertex.at c) = Spec.area2 a b c := by
  unfold detOf Vertex.at Spec.area2; ring

theorem initLoop_mono {s s' : InitState K} : ∀ {n m : ℕ}, initLoop n s = some s' → n ≤ m →
    initLoop m s = some s' := by
  intro n
  induction n generalizing s with
  | zero => intro m h; simp [initLoop] at h
  | succ n ih =>
    intro m h hm
    obtain ⟨m, rfl⟩ : ∃ k, m = k + 1 := ⟨m - 1, by omega⟩
    rw [initLoop] at h ⊢
    split at h
    · rename_i hc
      rw [if_pos hc]; exact ih h (by omega)
    · rename_i hc
      rw [if_neg hc]; exact h

/-- The loop of `exactinit` stops, after 53 rounds. -/
theorem exactinit_stops : ∃ c, exactinit (K := K) 53 = some c :=
  (exactinit_spec le_rfl).imp fun _ h => h.1

/-- The constants are not rounded: `epsilon` is half of the distance from 1 to the next number. -/
theorem exactinit_exact {n : ℕ} {c : Consts K} (h : exactinit n = some c) :
    c.epsilon.val = 1 / 2 ^ 53 ∧ c.splitter.val = 2 ^ 27 + 1 ∧
    c.ccwerrboundA.val = (3 + 16 / 2 ^ 53) / 2 ^ 53 ∧ c.ccwerrboundB.val = (2 + 12 / 2 ^ 53) / 2 ^ 53 ∧
    c.ccwerrboundC.val = (9 + 64 / 2 ^ 53) / 2 ^ 106 ∧ c.resulterrbound.val = (3 + 8 / 2 ^ 53) / 2 ^ 53 := by
  obtain ⟨c', h1, h2⟩ := exactinit_spec (K := K) (n := max n 53) (le_max_right _ _)
  have h3 : exactinit (max n 53) = some c := by
    unfold exactinit at h ⊢
    obtain ⟨s, hs, rfl⟩ := Option.map_eq_some_iff.mp h
    rw [initLoop_mono hs (le_max_left _ _)]; rfl
  obtain rfl : c = c' := Option.some.inj (h3.symm.trans h1)
  have he : eps K = 1 / 2 ^ 53 := by
    rw [eps, zpow_neg, one_div]; norm_cast
  refine ⟨by rw [h2.epsilon, he], h2.splitter, ?_, ?_, ?_, ?_⟩
  · rw [h2.a, he]; ring
  · rw [h2.b, he]; ring
  · rw [h2.c, he]; ring
  · rw [h2.result, he]; ring

theorem exact_of {n : ℕ} {c : Consts K} (h : exactinit n = some c) : Exact c := by
  obtain ⟨c', h1, h2⟩ := exactinit_spec (K := K) (n := max n 53) (le_max_right _ _)
  have h3 : exactinit (max n 53) = some c := by
    unfold exactinit at h ⊢
    obtain ⟨s, hs, rfl⟩ := Option.map_eq_some_iff.mp h
    rw [initLoop_mono hs (le_max_left _ _)]; rfl
  obtain rfl : c = c' := Option.some.inj (h3.symm.trans h1)
  exact h2

/-- **C92.** For any three points with machine coordinates the orientation test returns a number whose
sign is the sign of the exact area, whatever lies in memory behind its arrays. -/
theorem ccw_exact_sign {n : ℕ} {c : Consts K} (h : exactinit n = some c) {past : ℕ → List (Dbl K)}
    (hp : ∀ i, past i ≠ []) {pa pb pc : Spec.Point K} (ha : pa.Machine) (hb : pb.Machine)
    (hc : pc.Machine) :
    ∃ d, counterclockwise c past false (Vertex.at pa) (Vertex.at pb) (Vertex.at pc) = .ok d ∧
      SignType.sign d.val = SignType.sign (Spec.area2 pa pb pc) := by
  rw [← detOf_at]
  rcases ccw_decided (past := past) (exact_of h) (vok_at ha) (vok_at hb) (vok_at hc) with
    ⟨d, h1, h2, -⟩ | ⟨h1, -⟩
  · exact ⟨d, h1, h2⟩
  · rw [h1]; exact lastOf_spec (exact_of h) hp (vok_at ha) (vok_at hb) (vok_at hc)

/-- The result is zero exactly for points on a line. -/
theorem ccw_zero_iff {n : ℕ} {c : Consts K} (h : exactinit n = some c) {past : ℕ → List (Dbl K)}
    (hp : ∀ i, past i ≠ []) {pa pb pc : Spec.Point K} (ha : pa.Machine) (hb : pb.Machine)
    (hc : pc.Machine) {d : Dbl K}
    (hd : counterclockwise c past false (Vertex.at pa) (Vertex.at pb) (Vertex.at pc) = .ok d) :
    d = 0 ↔ Spec.area2 pa pb pc = 0 := by
  obtain ⟨d', h1, h2⟩ := ccw_exact_sign h hp ha hb hc
  obtain rfl : d = d' := Except.ok.inj (hd.symm.trans h1)
  rw [eq_zero_iff, ← sign_eq_zero_iff (a := d.val), h2, sign_eq_zero_iff]

/-- The answers on the three points in another order are consistent: a rotation keeps the sign, an
exchange reverses it. -/
theorem ccw_consistent {n : ℕ} {c : Consts K} (h : exactinit n = some c) {past : ℕ → List (Dbl K)}
    (hp : ∀ i, past i ≠ []) {pa pb pc : Spec.Point K} (ha : pa.Machine) (hb : pb.Machine)
    (hc : pc.Machine) {d d' d'' : Dbl K}
    (hd : counterclockwise c past false (Vertex.at pa) (Vertex.at pb) (Vertex.at pc) = .ok d)
    (hd' : counterclockwise c past false (Vertex.at pb) (Vertex.at pc) (Vertex.at pa) = .ok d')
    (hd'' : counterclockwise c past false (Vertex.at pb) (Vertex.at pa) (Vertex.at pc) = .ok d'') :
    (0 < d ↔ 0 < d') ∧ (d < 0 ↔ d' < 0) ∧ (0 < d ↔ d'' < 0) ∧ (d < 0 ↔ 0 < d'') := by
  obtain ⟨e, h1, s⟩ := ccw_exact_sign h hp ha hb hc
  obtain ⟨e', h1', s'⟩ := ccw_exact_sign h hp hb hc ha
  obtain ⟨e'', h1'', s''⟩ := ccw_exact_sign h hp hb ha hc
  obtain rfl : d = e := Except.ok.inj (hd.symm.trans h1)
  obtain rfl : d' = e' := Except.ok.inj (hd'.symm.trans h1')
  obtain rfl : d'' = e'' := Except.ok.inj (hd''.symm.trans h1'')
  have r1 : Spec.area2 pb pc pa = Spec.area2 pa pb pc := by unfold Spec.area2; ring
  have r2 : Spec.area2 pb pa pc = -Spec.area2 pa pb pc := by unfold Spec.area2; ring
  rw [r1] at s'
  rw [r2, Left.sign_neg] at s''
  simp only [lt_val, zero_val, ← sign_eq_one_iff, ← sign_eq_neg_one_iff, s, s', s'']
  cases SignType.sign (Spec.area2 pa pb pc) <;> simp

/-- **C93.** For three different points on a line (no two on the same coordinate line through `pc`) of
which some coordinate difference is not a machine number, the last stage is reached, and with arrays as
large as the declarations make them (`REAL B[4]`, `u[4]`) it reads behind the end. -/
theorem ccw_reads_past_end {n : ℕ} {c : Consts K} (h : exactinit n = some c)
    {past : ℕ → List (Dbl K)} (hp : past 0 = []) {pa pb pc : Spec.Point K} (ha : pa.Machine)
    (hb : pb.Machine) (hc : pc.Machine) (hline : Spec.area2 pa pb pc = 0) (hx : pa.x ≠ pc.x)
    (hy : pb.y ≠ pc.y)
    (hdiff : ¬ (Spec.Machine (pa.x - pc.x) ∧ Spec.Machine (pa.y - pc.y) ∧ Spec.Machine (pb.x - pc.x) ∧
      Spec.Machine (pb.y - pc.y))) :
    counterclockwise c past false (Vertex.at pa) (Vertex.at pb) (Vertex.at pc) = .error .ub := by
  have hnt : ¬ NoTails (Vertex.at pa) (Vertex.at pb) (Vertex.at pc) := by
    rintro ⟨h1, h2, h3, h4⟩
    refine hdiff ⟨?_, ?_, ?_, ?_⟩
    · rw [← rep_machine]; have := ok_sub (Vertex.at pa).x (Vertex.at pc).x; rwa [Ok, h1] at this
    · rw [← rep_machine]; have := ok_sub (Vertex.at pa).y (Vertex.at pc).y; rwa [Ok, h2] at this
    · rw [← rep_machine]; have := ok_sub (Vertex.at pb).x (Vertex.at pc).x; rwa [Ok, h3] at this
    · rw [← rep_machine]; have := ok_sub (Vertex.at pb).y (Vertex.at pc).y; rwa [Ok, h4] at this
  rcases ccw_decided (past := past) (exact_of h) (vok_at ha) (vok_at hb) (vok_at hc) with
    ⟨d, -, h2, h3⟩ | ⟨h1, -⟩
  · exfalso
    rcases h3 with h3 | h3 | h3
    · rw [detOf_at, hline, sign_zero, sign_eq_zero_iff] at h2
      exact h3 h2
    · exact hnt h3
    · rcases mul_eq_zero.mp h3 with h | h
      · exact hx (sub_eq_zero.mp h)
      · exact hy (sub_eq_zero.mp h)
  · rw [h1]; exact ccwLast_ub hp

/-! ### Examples -/

/-- Three points on the diagonal; the differences with the third do not fit into 53 digits. -/
example : let pa : Spec.Point ℚ := ⟨1, 1⟩; let pb : Spec.Point ℚ := ⟨3, 3⟩
    let pc : Spec.Point ℚ := ⟨1 / 2 ^ 60, 1 / 2 ^ 60⟩
    pa.Machine ∧ pb.Machine ∧ pc.Machine ∧ Spec.area2 pa pb pc = 0 ∧ pa.x ≠ pc.x ∧ pb.y ≠ pc.y ∧
    ¬ Spec.Machine (pa.x - pc.x) := by
  have h1 : Spec.Machine (1 : ℚ) := ⟨1, 0, by norm_num, by norm_num⟩
  have h3 : Spec.Machine (3 : ℚ) := ⟨3, 0, by norm_num, by norm_num⟩
  have h2 : Spec.Machine (1 / 2 ^ 60 : ℚ) := ⟨1, -60, by norm_num, by norm_num⟩
  refine ⟨⟨h1, h1⟩, ⟨h3, h3⟩, ⟨h2, h2⟩, ?_, ?_, ?_, ?_⟩
  · norm_num [Spec.area2]
  · norm_num
  · norm_num
  · rw [← rep_machine]
    intro h
    have := rnd_rep (by norm_num) h
    revert this
    decide +kernel

/-- The last stage gives the right sign where the rounded determinant is zero: the point
`(2⁻⁶⁰, 0)` lies off the line, and the area is `-2⁻⁵⁹`. -/
example : ((exactinit (K := ℚ) 53).map fun c =>
    (counterclockwise c (fun _ => [0]) false (Vertex.at ⟨1, 1⟩) (Vertex.at ⟨3, 3⟩)
      (Vertex.at ⟨1 / 2 ^ 60, 0⟩)).toOption) = some (some (lit (-1 / 2 ^ 59))) := by
  decide +kernel

/-- With the switch `X` (`noexact`) only the rounded determinant is computed, and it has the wrong sign
for these points. -/
theorem noexact_wrong_sign : ∃ (pa pb pc : Spec.Point ℚ) (d : Dbl ℚ), pa.Machine ∧ pb.Machine ∧
    pc.Machine ∧ Spec.area2 pa pb pc < 0 ∧
    ∀ c past, counterclockwise c past true (Vertex.at pa) (Vertex.at pb) (Vertex.at pc) = .ok d ∧
      d = 0 := by
  have h1 : Spec.Machine (1 : ℚ) := ⟨1, 0, by norm_num, by norm_num⟩
  have h0 : Spec.Machine (0 : ℚ) := ⟨0, 0, by norm_num, by norm_num⟩
  have h3 : Spec.Machine (3 : ℚ) := ⟨3, 0, by norm_num, by norm_num⟩
  have h2 : Spec.Machine (1 / 2 ^ 60 : ℚ) := ⟨1, -60, by norm_num, by norm_num⟩
  refine ⟨⟨1, 1⟩, ⟨3, 3⟩, ⟨1 / 2 ^ 60, 0⟩, 0, ⟨h1, h1⟩, ⟨h3, h3⟩, ⟨h2, h0⟩, ?_, fun c past => ⟨?_, rfl⟩⟩
  · norm_num [Spec.area2]
  · show Except.ok _ = _
    congr 1
    decide +kernel

end Pred
end Nikfemm
