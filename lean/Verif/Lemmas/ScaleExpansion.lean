import Verif.Model.InCircle
import Verif.Lemmas.ExpansionSum

/-!
# `scale_expansion_zeroelim`, and what the arrays of `incircleadapt` hold
-/

set_option linter.unusedSectionVars false

namespace Nikfemm
namespace Pred

open Flt

variable {K : Type} [Field K] [LinearOrder K] [IsStrictOrderedRing K] [FloorRing K]

/-- The array `l` holds at most `n` components of an expansion of `v`. -/
structure Good (g : ℤ) (l : List (Dbl K)) (n : ℕ) (v : K) : Prop where
  ne : l ≠ []
  len : l.length ≤ n
  rep : ∀ x ∈ vals l, Rep 53 x
  exp : Gapped g (vals l)
  sum : (vals l).sum = v

theorem presplit_eq (c a b : Dbl K) :
    twoProductPresplit c a b (split c b).1 (split c b).2 = twoProduct c a b := rfl

theorem push_emit {cap : ℕ} {h : List (Dbl K)} {hh : Dbl K} (hc : h.length < cap) :
    ∃ h', push cap h hh = .ok h' ∧ vals h' = emit (vals h) hh.val ∧ h'.length ≤ h.length + 1 := by
  obtain ⟨h', h1, h2⟩ := push_spec (hh := hh) hc
  refine ⟨h', h1, h2, ?_⟩
  have := congrArg List.length h2
  rw [List.length_map] at this
  have h3 := emit_length (vals h) hh.val
  unfold emit at h3
  rw [this]
  simpa using h3

section

variable {c b : Dbl K} (hc : c.val = 2 ^ 27 + 1) (hb : Ok b) {g : ℤ} (hg : 0 ≤ g) (hg1 : g ≤ 1)
  {k : ℤ} (hbk : OnGrid k b.val) (hbl : |b.val| < (2 : K) ^ (k + (53 : ℕ))) {cap : ℕ}

include hc hb hg hg1 hbk hbl

theorem scaleStep_spec {E : List K} {Q : Dbl K} {H : List (Dbl K)}
    (h : ScaleInv 53 g b.val k E Q.val (vals H)) {e : Dbl K} (he : Ok e) (hE : Gap g E e.val)
    (hcap : H.length + 1 < cap) :
    ∃ Q' H', scaleStep c cap b (split c b).1 (split c b).2 (Q, H) e = .ok (Q', H') ∧
      ScaleInv 53 g b.val k (E ++ [e.val]) Q'.val (vals H') ∧ H'.length ≤ H.length + 2 := by
  have hp : 1 ≤ 53 := by norm_num
  set pr := twoProduct c e b with hpr
  have t1 : pr.1.val = rndBits 53 (b.val * e.val) := by
    rw [mul_comm]; rfl
  have t0 : pr.2.val = b.val * e.val - pr.1.val := by
    rw [mul_comm b.val]; exact twoProduct_snd hc he hb
  have o1 : Ok pr.1 := ok_mul _ _
  have o0 : Ok pr.2 := ok_sub _ _
  have s0 := twoSum_snd (a := Q) (b := pr.2) h.repQ o0
  set sm := Q + pr.2 with hsm
  have ss : (twoSum Q pr.2).1 = sm := rfl
  have osm : Ok sm := ok_add _ _
  have hfast := h.fast (p := 53) hp hg hb hE
  have hf : |sm.val| ≤ |pr.1.val| ∨ pr.1.val = 0 := by
    rw [t1]
    have : sm.val = rndBits 53 (Q.val + (b.val * e.val - rndBits 53 (b.val * e.val))) := by
      rw [hsm, add_val, t0, t1]
    rw [this]; exact hfast
  have f0 := fastTwoSum_snd o1 osm hf
  obtain ⟨H1, p1, v1, l1⟩ := push_emit (cap := cap) (h := H) (hh := (twoSum Q pr.2).2) (by omega)
  obtain ⟨H2, p2, v2, l2⟩ := push_emit (cap := cap) (h := H1) (hh := (fastTwoSum pr.1 sm).2) (by omega)
  refine ⟨pr.1 + sm, H2, ?_, ?_, by omega⟩
  · unfold scaleStep
    simp only [presplit_eq, ← hpr]
    rw [show twoSum Q pr.2 = (sm, (twoSum Q pr.2).2) from rfl]
    simp only [p1]
    rw [show fastTwoSum pr.1 sm = (pr.1 + sm, (fastTwoSum pr.1 sm).2) from rfl]
    show ((push cap H1 (fastTwoSum pr.1 sm).2) >>= fun h => pure (pr.1 + sm, h)) = _
    rw [p2]; rfl
  · rw [v2, v1, f0]
    exact h.step hp hg hg1 hb hbk hbl hE (t := pr.2.val) (h1 := (twoSum Q pr.2).2.val) o0 t1 t0
      (by rw [hsm, add_val]) s0

theorem scaleLoop_spec : ∀ (F : List (Dbl K)) {E : List K} {Q : Dbl K} {H : List (Dbl K)},
    ScaleInv 53 g b.val k E Q.val (vals H) → (∀ x ∈ F, Ok x) → Gapped g (E ++ vals F) →
    H.length + 2 * F.length ≤ cap →
    ∃ Q' H', F.foldlM (scaleStep c cap b (split c b).1 (split c b).2) (Q, H) = .ok (Q', H') ∧
      ScaleInv 53 g b.val k (E ++ vals F) Q'.val (vals H') ∧ H'.length ≤ H.length + 2 * F.length := by
  intro F
  induction F with
  | nil =>
    intro E Q H h _ _ _
    exact ⟨Q, H, rfl, by simpa using h, by simp⟩
  | cons e F ih =>
    intro E Q H h hF hE hcap
    simp only [List.length_cons] at hcap
    obtain ⟨Q1, H1, r1, i1, l1⟩ := scaleStep_spec hc hb hg hg1 hbk hbl (cap := cap) h
      (hF e (by simp)) (hE E e.val (vals F) (by simp)) (by omega)
    obtain ⟨Q2, H2, r2, i2, l2⟩ := ih i1 (fun x hx => hF x (by simp [hx])) (by simpa using hE) (by omega)
    refine ⟨Q2, H2, ?_, by simpa using i2, by simp only [List.length_cons]; omega⟩
    rw [List.foldlM_cons, r1]
    exact r2

end

/-- Multiplying an expansion by a number. -/
theorem scale_good {c b : Dbl K} (hc : c.val = 2 ^ 27 + 1) (hb : Ok b) {g : ℤ} (hg : 0 ≤ g) (hg1 : g ≤ 1)
    {e : List (Dbl K)} {n : ℕ} {v : K} (he : Good g e n v) {cap : ℕ} (hcap : 2 * n ≤ cap) :
    ∃ h, scaleExpansion c cap e b = .ok h ∧ Good g h (2 * n) (v * b.val) ∧
      h.length ≤ 2 * e.length ∧ (∀ x, h.getLast? = some x → SignType.sign x.val = SignType.sign (v * b.val)) := by
  obtain ⟨k, hbk, hbl⟩ := hb.strict (by norm_num)
  obtain ⟨e0, F, rfl⟩ := List.exists_cons_of_ne_nil he.ne
  have hlen := he.len
  simp only [List.length_cons] at hlen
  have hp : 1 ≤ 53 := by norm_num
  have o0 : Ok e0 := he.rep _ (by simp)
  have hG0 : Gap g [] e0.val := he.exp [] e0.val (vals F) (by simp)
  -- the first component is a step from zero
  set pr := twoProduct c e0 b with hpr
  have t1 : pr.1.val = rndBits 53 (b.val * e0.val) := by
    rw [mul_comm]; rfl
  have t0 : pr.2.val = b.val * e0.val - pr.1.val := by
    rw [mul_comm b.val]; exact twoProduct_snd hc o0 hb
  have op0 : Ok pr.2 := ok_sub _ _
  have hr0 : rndBits 53 (0 + pr.2.val) = pr.2.val := by rw [zero_add, rnd_rep hp op0]
  have first := (ScaleInv.init 53 g b.val k).step hp hg hg1 hb hbk hbl hG0 (t := pr.2.val)
    (S := pr.2.val) (h1 := 0) op0 t1 t0 hr0.symm (by rw [zero_add, sub_self])
  have hTS : pr.1.val + pr.2.val = b.val * e0.val := by rw [t0]; ring
  rw [hTS, ← t1, ← t0] at first
  have e1 : emit ([] : List K) 0 = [] := by simp [emit]
  rw [e1] at first
  obtain ⟨H1, p1, v1, l1⟩ := push_emit (cap := cap) (h := []) (hh := pr.2) (by simp; omega)
  have v1' : vals H1 = emit [] pr.2.val := by simpa using v1
  rw [← v1'] at first
  simp only [List.length_nil, zero_add] at l1
  have hH1 : H1.length ≤ 1 := l1
  obtain ⟨Q, H, r, inv, l⟩ := scaleLoop_spec hc hb hg hg1 hbk hbl (cap := cap) F first
    (fun x hx => he.rep _ (List.mem_map_of_mem (List.mem_cons_of_mem _ hx))) (by simpa using he.exp)
    (by omega)
  have hrun : scaleExpansion c cap (e0 :: F) b = if Q ≠ 0 ∨ H = [] then
      if H.length < cap then .ok (H ++ [Q]) else .error .ub else .ok H := by
    unfold scaleExpansion
    rw [show split c b = ((split c b).1, (split c b).2) from rfl]
    have : rd (e0 :: F) 0 = .ok e0 := rfl
    simp only [this, bind, Except.bind, presplit_eq, ← hpr]
    rw [show pr = (pr.1, pr.2) from rfl]
    simp only [p1, List.drop_one, List.tail_cons]
    rw [r]
  have hsum : Q.val + (vals H).sum = v * b.val := by
    rw [inv.sum, ← he.sum]; simp [mul_comm]
  rw [hrun]
  by_cases hQ : Q ≠ 0 ∨ H = []
  · rw [if_pos hQ, if_pos (by omega)]
    have hexp : Gapped g (vals (H ++ [Q])) := by
      rw [vals_append]; exact inv.exp.snoc inv.gap
    refine ⟨_, rfl, ⟨by simp, by simp; omega, ?_, hexp, ?_⟩, by simp; omega, ?_⟩
    · intro x hx
      rw [vals_append, List.mem_append] at hx
      rcases hx with hx | hx
      · exact (inv.repH x hx).1
      · simp at hx; rw [hx]; exact inv.repQ
    · rw [vals_append, List.sum_append, ← hsum]; simp [add_comm]
    · intro x hx
      rw [List.getLast?_append, List.getLast?_singleton] at hx
      obtain rfl : Q = x := by simpa using hx
      by_cases h0 : Q.val = 0
      · have hH : H = [] := hQ.resolve_left (fun h => h (eq_zero_iff.mpr h0))
        rw [← hsum, hH, h0]; simp
      · apply sign_of_near
        have := (show Expansion (vals H ++ [Q.val]) by
          rw [vals_append] at hexp; exact hexp.expansion hg).sign h0
        rwa [← hsum, add_sub_cancel_left]
  · push Not at hQ
    rw [if_neg (by push Not; exact hQ)]
    refine ⟨_, rfl, ⟨hQ.2, by omega, fun x hx => (inv.repH x hx).1, inv.exp, ?_⟩,
      by simp only [List.length_cons]; omega, ?_⟩
    · rw [← hsum, hQ.1, zero_val, zero_add]
    · intro x hx
      obtain ⟨l', y, rfl⟩ : ∃ l' y, H = l' ++ [y] := by
        rcases List.eq_nil_or_concat H with h | ⟨l', y, h⟩
        · exact absurd h hQ.2
        · exact ⟨l', y, by rw [h]; simp⟩
      obtain rfl : y = x := by simpa using hx
      have h0 : y.val ≠ 0 := (inv.repH y.val (by simp)).2
      have hexp := inv.exp.expansion hg
      rw [vals_append] at hexp
      apply sign_of_near
      have := (show Expansion (vals l' ++ [y.val]) from hexp).sign h0
      rw [← hsum, hQ.1, zero_val, zero_add, vals_append, List.sum_append]
      simpa using this

end Pred
end Nikfemm
