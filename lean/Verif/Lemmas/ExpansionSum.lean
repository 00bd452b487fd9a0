import Verif.Lemmas.Predicates
import Verif.Lemmas.Tight

/-!
# `fast_expansion_sum_zeroelim`
-/

set_option linter.unusedSectionVars false

namespace Nikfemm
namespace Pred

open Flt

variable {K : Type} [Field K] [LinearOrder K] [IsStrictOrderedRing K] [FloorRing K]

theorem takeE_true {e f : Dbl K} (h : takeE e f = true) : |e.val| ≤ |f.val| := by
  unfold takeE at h
  simp only [beq_iff_eq, decide_eq_decide, lt_val, neg_val] at h
  by_cases h1 : e.val < f.val
  · have h2 := h.mp h1
    rw [abs_of_pos (by linarith : 0 < f.val)]
    exact abs_le.mpr ⟨by linarith, h1.le⟩
  · have h2 : ¬ -e.val < f.val := fun h' => h1 (h.mpr h')
    push Not at h1 h2
    rw [abs_of_nonpos (by linarith : f.val ≤ 0)]
    exact abs_le.mpr ⟨by linarith, by linarith⟩

theorem takeE_false {e f : Dbl K} (h : ¬ takeE e f = true) : |f.val| ≤ |e.val| := by
  unfold takeE at h
  simp only [beq_iff_eq, decide_eq_decide, lt_val, neg_val] at h
  by_cases h1 : e.val < f.val
  · have h2 : ¬ -e.val < f.val := fun h' => h (by tauto)
    push Not at h2
    rw [abs_of_neg (by linarith : e.val < 0)]
    exact abs_le.mpr ⟨by linarith, by linarith⟩
  · have h2 : -e.val < f.val := by by_contra h'; exact h (by tauto)
    push Not at h1
    rw [abs_of_pos (by linarith : 0 < e.val)]
    exact abs_le.mpr ⟨by linarith, by linarith⟩

theorem vals_append (a b : List (Dbl K)) : vals (a ++ b) = vals a ++ vals b := List.map_append

theorem push_spec {cap : ℕ} {h : List (Dbl K)} {hh : Dbl K} (hc : h.length < cap) :
    ∃ h', push cap h hh = .ok h' ∧ vals h' = if hh.val = 0 then vals h else vals h ++ [hh.val] := by
  unfold push
  by_cases h0 : hh = 0
  · rw [if_neg (by simpa using h0), if_pos (eq_zero_iff.mp h0)]; exact ⟨h, rfl, rfl⟩
  · rw [if_pos h0, if_pos hc, if_neg (fun e => h0 (eq_zero_iff.mpr e))]
    exact ⟨_, rfl, by simp⟩

/-- The state of the loops. -/
structure LoopInv (E ge F gf : List (Dbl K)) (s : SumState K) : Prop where
  e : rd (E ++ ge) s.eindex = .ok s.enow
  f : rd (F ++ gf) s.findex = .ok s.fnow
  inv : SumInv 53 (vals E) (vals F) s.eindex s.findex s.Q.val (vals s.h)
  tight : Tight (vals E) → Tight (vals F) →
    TightInv 53 (vals E) (vals F) s.eindex s.findex s.Q.val (vals s.h)

section
variable {E ge F gf : List (Dbl K)} (hge : ge ≠ []) (hgf : gf ≠ [])
  (hE : Expansion (vals E)) (hF : Expansion (vals F)) (rE : ∀ x ∈ vals E, Rep 53 x)
  (rF : ∀ x ∈ vals F, Rep 53 x) {cap : ℕ} (hcap : E.length + F.length ≤ cap)

include hge hgf hE hF rE rF hcap

theorem rd_left {E ge : List (Dbl K)} {i : ℕ} (h : i < E.length) : rd (E ++ ge) i = .ok E[i] := by
  rw [rd_ok (by simp; omega), List.getElem_append_left h]

omit hge hgf hE hF rE rF hcap in
theorem LoopInv.enow {s : SumState K} (h : LoopInv E ge F gf s) (hi : s.eindex < E.length) :
    s.enow = E[s.eindex] := by
  have h1 := h.e
  rw [rd_ok (by simp; omega), List.getElem_append_left hi] at h1
  exact (Except.ok.inj h1).symm

omit hge hgf hE hF rE rF hcap in
theorem LoopInv.fnow {s : SumState K} (h : LoopInv E ge F gf s) (hi : s.findex < F.length) :
    s.fnow = F[s.findex] := by
  have h1 := h.f
  rw [rd_ok (by simp; omega), List.getElem_append_left hi] at h1
  exact (Except.ok.inj h1).symm

omit hge hgf hE rE hcap in
/-- The next component of `e` is not above what is left of `f`. -/
theorem order_left {s : SumState K} (h : LoopInv E ge F gf s)
    (ht : s.findex < F.length → |s.enow.val| ≤ |s.fnow.val|) :
    ∀ y ∈ (vals F).drop s.findex, y ≠ 0 → |s.enow.val| ≤ |y| := by
  intro y hy h0
  by_cases hf : s.findex < F.length
  · have hf' : s.findex < (vals F).length := by simpa using hf
    have hfn : s.fnow.val = (vals F)[s.findex] := by rw [h.fnow hf]; simp
    have hm : (vals F)[s.findex] ∈ (vals F).take (s.findex + 1) := by
      rw [List.take_succ_eq_append_getElem hf']; simp
    rw [List.drop_eq_getElem_cons hf', List.mem_cons] at hy
    refine (ht hf).trans ?_
    rw [hfn]
    rcases hy with rfl | hy
    · exact le_rfl
    · exact hF.sorted hm hy h0
  · rw [List.drop_eq_nil_of_le (by simpa using hf)] at hy
    simp at hy

omit hge hgf hF rF hcap in
theorem order_right {s : SumState K} (h : LoopInv E ge F gf s)
    (ht : s.eindex < E.length → |s.fnow.val| ≤ |s.enow.val|) :
    ∀ y ∈ (vals E).drop s.eindex, y ≠ 0 → |s.fnow.val| ≤ |y| := by
  intro y hy h0
  by_cases hf : s.eindex < E.length
  · have hf' : s.eindex < (vals E).length := by simpa using hf
    have hfn : s.enow.val = (vals E)[s.eindex] := by rw [h.enow hf]; simp
    have hm : (vals E)[s.eindex] ∈ (vals E).take (s.eindex + 1) := by
      rw [List.take_succ_eq_append_getElem hf']; simp
    rw [List.drop_eq_getElem_cons hf', List.mem_cons] at hy
    refine (ht hf).trans ?_
    rw [hfn]
    rcases hy with rfl | hy
    · exact le_rfl
    · exact hE.sorted hm hy h0
  · rw [List.drop_eq_nil_of_le (by simpa using hf)] at hy
    simp at hy

omit hgf in
theorem stepE_spec {s : SumState K} (h : LoopInv E ge F gf s) (hi : s.eindex < E.length)
    (ht : s.findex < F.length → |s.enow.val| ≤ |s.fnow.val|) {r : Dbl K × Dbl K}
    (h1 : r.1.val = rndBits 53 (s.Q.val + s.enow.val))
    (h2 : r.2.val = s.Q.val + s.enow.val - rndBits 53 (s.Q.val + s.enow.val)) :
    ∃ s', stepE cap (E ++ ge) s r = .ok s' ∧ LoopInv E ge F gf s' ∧ s'.eindex = s.eindex + 1 ∧
      s'.findex = s.findex := by
  have hen := h.enow hi
  have hi' : s.eindex < (vals E).length := by simpa using hi
  have hg : (vals E)[s.eindex] = s.enow.val := by rw [hen]; simp
  have hstep := h.inv.stepE (by norm_num) hE hF rE rF hi' (by
    rw [hg]; exact order_left hF rF h ht)
  have hstep' := fun tE tF => TightInv.stepE (by norm_num) tE tF rE rF h.inv (h.tight tE tF) hi' (by
    rw [hg]; exact order_left hF rF h ht)
  rw [hg] at hstep hstep'
  have hlen := h.inv.len
  have hj := h.inv.hj
  simp only [vals, List.length_map] at hlen hj
  obtain ⟨h', p1, p2⟩ := push_spec (cap := cap) (h := s.h) (hh := r.2) (by omega)
  have hpos : 0 < ge.length := List.length_pos_iff.mpr hge
  have hrd : ∃ en, rd (E ++ ge) (s.eindex + 1) = .ok en := ⟨_, rd_ok (by simp; omega)⟩
  obtain ⟨en, hrd⟩ := hrd
  refine ⟨{ s with Q := r.1, enow := en, eindex := s.eindex + 1, h := h' }, ?_, ⟨hrd, h.f, ?_, fun tE tF => ?_⟩, rfl, rfl⟩
  · simp only [Pred.stepE, hrd, p1, ok_bind]; rfl
  · show SumInv 53 _ _ _ _ r.1.val (vals h')
    rw [h1, p2, h2]; exact hstep
  · show TightInv 53 _ _ _ _ r.1.val (vals h')
    rw [h1, p2, h2]; exact hstep' tE tF

omit hge in
theorem stepF_spec {s : SumState K} (h : LoopInv E ge F gf s) (hi : s.findex < F.length)
    (ht : s.eindex < E.length → |s.fnow.val| ≤ |s.enow.val|) {r : Dbl K × Dbl K}
    (h1 : r.1.val = rndBits 53 (s.Q.val + s.fnow.val))
    (h2 : r.2.val = s.Q.val + s.fnow.val - rndBits 53 (s.Q.val + s.fnow.val)) :
    ∃ s', stepF cap (F ++ gf) s r = .ok s' ∧ LoopInv E ge F gf s' ∧ s'.eindex = s.eindex ∧
      s'.findex = s.findex + 1 := by
  have hen := h.fnow hi
  have hi' : s.findex < (vals F).length := by simpa using hi
  have hg : (vals F)[s.findex] = s.fnow.val := by rw [hen]; simp
  have hstep := h.inv.swap.stepE (by norm_num) hF hE rF rE hi' (by
    rw [hg]; exact order_right hE rE h ht)
  have hstep' := fun tE tF => TightInv.stepE (by norm_num) tF tE rF rE h.inv.swap (h.tight tE tF).swap hi'
    (by rw [hg]; exact order_right hE rE h ht)
  rw [hg] at hstep hstep'
  have hlen := h.inv.len
  have hj := h.inv.hi
  simp only [vals, List.length_map] at hlen hj
  obtain ⟨h', p1, p2⟩ := push_spec (cap := cap) (h := s.h) (hh := r.2) (by omega)
  have hpos : 0 < gf.length := List.length_pos_iff.mpr hgf
  have hrd : ∃ en, rd (F ++ gf) (s.findex + 1) = .ok en := ⟨_, rd_ok (by simp; omega)⟩
  obtain ⟨en, hrd⟩ := hrd
  refine ⟨{ s with Q := r.1, fnow := en, findex := s.findex + 1, h := h' }, ?_, ⟨h.e, hrd, ?_, fun tE tF => ?_⟩, rfl, rfl⟩
  · simp only [Pred.stepF, hrd, p1, ok_bind]; rfl
  · show SumInv 53 _ _ _ _ r.1.val (vals h')
    rw [h1, p2, h2]; exact hstep.swap
  · show TightInv 53 _ _ _ _ r.1.val (vals h')
    rw [h1, p2, h2]; exact (hstep' tE tF).swap

omit hge hgf hE hF rF hcap in
theorem LoopInv.okE {s : SumState K} (h : LoopInv E ge F gf s) (hi : s.eindex < E.length) : Ok s.enow := by
  rw [h.enow hi]; exact rE _ (List.mem_map_of_mem (List.getElem_mem hi))

omit hge hgf hE hF rE hcap in
theorem LoopInv.okF {s : SumState K} (h : LoopInv E ge F gf s) (hi : s.findex < F.length) : Ok s.fnow := by
  rw [h.fnow hi]; exact rF _ (List.mem_map_of_mem (List.getElem_mem hi))

theorem sumBoth_spec : ∀ (n : ℕ) (s : SumState K), LoopInv E ge F gf s →
    E.length + F.length ≤ n + s.eindex + s.findex →
    ∃ s', sumBoth cap E.length (E ++ ge) F.length (F ++ gf) n s = .ok s' ∧ LoopInv E ge F gf s' ∧
      (s'.eindex = E.length ∨ s'.findex = F.length) := by
  intro n
  induction n with
  | zero =>
    intro s h hn
    have h1 := h.inv.hi
    have h2 := h.inv.hj
    simp only [vals, List.length_map] at h1 h2
    exact ⟨s, rfl, h, Or.inl (by omega)⟩
  | succ n ih =>
    intro s h hn
    have h1 := h.inv.hi
    have h2 := h.inv.hj
    simp only [vals, List.length_map] at h1 h2
    rw [sumBoth]
    by_cases hc : s.eindex < E.length ∧ s.findex < F.length
    · rw [if_pos hc]
      by_cases ht : takeE s.enow s.fnow = true
      · obtain ⟨s', q1, q2, q3, q4⟩ := stepE_spec hge hE hF rE rF hcap h hc.1
          (fun _ => takeE_true ht) (r := twoSum s.Q s.enow) rfl
          (twoSum_snd h.inv.repQ (h.okE rE hc.1))
        obtain ⟨s'', t1, t2⟩ := ih s' q2 (by omega)
        exact ⟨s'', by rw [if_pos ht, q1, ok_bind]; exact t1, t2⟩
      · obtain ⟨s', q1, q2, q3, q4⟩ := stepF_spec hgf hE hF rE rF hcap h hc.2
          (fun _ => takeE_false ht) (r := twoSum s.Q s.fnow) rfl
          (twoSum_snd h.inv.repQ (h.okF rF hc.2))
        obtain ⟨s'', t1, t2⟩ := ih s' q2 (by omega)
        exact ⟨s'', by rw [if_neg ht, q1, ok_bind]; exact t1, t2⟩
    · rw [if_neg hc]
      exact ⟨s, rfl, h, by omega⟩

omit hgf in
theorem sumRestE_spec : ∀ (n : ℕ) (s : SumState K), LoopInv E ge F gf s →
    E.length ≤ n + s.eindex → (s.eindex = E.length ∨ s.findex = F.length) →
    ∃ s', sumRestE cap E.length (E ++ ge) n s = .ok s' ∧ LoopInv E ge F gf s' ∧
      s'.eindex = E.length := by
  intro n
  induction n with
  | zero =>
    intro s h hn _
    have h1 := h.inv.hi
    simp only [vals, List.length_map] at h1
    exact ⟨s, rfl, h, by omega⟩
  | succ n ih =>
    intro s h hn hor
    have h1 := h.inv.hi
    simp only [vals, List.length_map] at h1
    rw [sumRestE]
    by_cases hc : s.eindex < E.length
    · rw [if_pos hc]
      obtain ⟨s', q1, q2, q3, q4⟩ := stepE_spec hge hE hF rE rF hcap h hc
          (fun _ => by omega) (r := twoSum s.Q s.enow) rfl
          (twoSum_snd h.inv.repQ (h.okE rE hc))
      obtain ⟨s'', t1, t2⟩ := ih s' q2 (by omega) (by omega)
      exact ⟨s'', by rw [q1, ok_bind]; exact t1, t2⟩
    · rw [if_neg hc]
      exact ⟨s, rfl, h, by omega⟩

omit hge in
theorem sumRestF_spec : ∀ (n : ℕ) (s : SumState K), LoopInv E ge F gf s →
    F.length ≤ n + s.findex → s.eindex = E.length →
    ∃ s', sumRestF cap F.length (F ++ gf) n s = .ok s' ∧ LoopInv E ge F gf s' ∧
      s'.eindex = E.length ∧ s'.findex = F.length := by
  intro n
  induction n with
  | zero =>
    intro s h hn he
    have h1 := h.inv.hj
    simp only [vals, List.length_map] at h1
    exact ⟨s, rfl, h, he, by omega⟩
  | succ n ih =>
    intro s h hn hor
    have h1 := h.inv.hj
    simp only [vals, List.length_map] at h1
    rw [sumRestF]
    by_cases hc : s.findex < F.length
    · rw [if_pos hc]
      obtain ⟨s', q1, q2, q3, q4⟩ := stepF_spec hgf hE hF rE rF hcap h hc
          (fun _ => by omega) (r := twoSum s.Q s.fnow) rfl
          (twoSum_snd h.inv.repQ (h.okF rF hc))
      obtain ⟨s'', t1, t2⟩ := ih s' q2 (by omega) (by omega)
      exact ⟨s'', by rw [q1, ok_bind]; exact t1, t2⟩
    · rw [if_neg hc]
      exact ⟨s, rfl, h, hor, by omega⟩

omit hge hgf hE hF rE rF hcap in
/-- The running sum is not above the next component. -/
theorem first_order {s : SumState K} (h : LoopInv E ge F gf s)
    (hQ : s.Q.val ∈ (vals E).take s.eindex ++ (vals F).take s.findex) :
    (s.eindex < E.length → |s.Q.val| ≤ |s.enow.val| ∨ s.enow.val = 0) ∧
    (s.findex < F.length → |s.Q.val| ≤ |s.fnow.val| ∨ s.fnow.val = 0) := by
  constructor
  · intro hi
    by_cases h0 : s.enow.val = 0
    · exact Or.inr h0
    refine Or.inl (h.inv.order _ hQ _ (List.mem_append_left _ ?_) h0)
    rw [h.enow hi, List.drop_eq_getElem_cons (by simpa using hi)]
    simp
  · intro hi
    by_cases h0 : s.fnow.val = 0
    · exact Or.inr h0
    refine Or.inl (h.inv.order _ hQ _ (List.mem_append_right _ ?_) h0)
    rw [h.fnow hi, List.drop_eq_getElem_cons (by simpa using hi)]
    simp

/-- What is known of the sum of two tight expansions: a bound for the sums of first components and the
error of adding it up. -/
def Summed (a b : K) (R : List K) : Prop :=
  Tight R ∧ Within R (max |R.sum| (2 * eps K * (a + b))) ∧
    |sumUp 53 R - R.sum| ≤ eps K * |sumUp 53 R| + 3 * eps K ^ 2 * (a + b)

/-- The sum of two expansions. -/
theorem fastExpansionSum_tight (hEl : E ≠ []) (hFl : F ≠ []) :
    ∃ H x, fastExpansionSum cap E.length (E ++ ge) F.length (F ++ gf) = .ok (H ++ [x]) ∧
      (H ++ [x]).length ≤ E.length + F.length ∧ Expansion (vals (H ++ [x])) ∧
      (∀ y ∈ vals (H ++ [x]), Rep 53 y) ∧ (vals (H ++ [x])).sum = (vals E).sum + (vals F).sum ∧
      SignType.sign x.val = SignType.sign ((vals E).sum + (vals F).sum) ∧
      ∀ a b : K, Tight (vals E) → Tight (vals F) → Within (vals E) a → Within (vals F) b →
        Summed a b (vals (H ++ [x])) := by
  have e0 : 0 < E.length := List.length_pos_iff.mpr hEl
  have f0 : 0 < F.length := List.length_pos_iff.mpr hFl
  have g0 : 0 < ge.length := List.length_pos_iff.mpr hge
  have g1 : 0 < gf.length := List.length_pos_iff.mpr hgf
  obtain ⟨en, hen⟩ : ∃ en, rd (E ++ ge) 1 = .ok en := ⟨_, rd_ok (by simp; omega)⟩
  obtain ⟨fn, hfn⟩ : ∃ fn, rd (F ++ gf) 1 = .ok fn := ⟨_, rd_ok (by simp; omega)⟩
  have he : rd (E ++ ge) 0 = .ok E[0] := by
    rw [rd_ok (by simp; omega), List.getElem_append_left e0]
  have hf : rd (F ++ gf) 0 = .ok F[0] := by
    rw [rd_ok (by simp; omega), List.getElem_append_left f0]
  have hE0 : 0 < (vals E).length := by simpa using e0
  have hF0 : 0 < (vals F).length := by simpa using f0
  have headLe : ∀ {L : List K} (hL : Expansion L) (h0 : 0 < L.length) (y : K), y ∈ L → y ≠ 0 →
      |L[0]| ≤ |y| := by
    intro L hL h0 y hy hy0
    rw [← List.take_append_drop 1 L, List.mem_append] at hy
    rcases hy with hy | hy
    · rw [List.take_one, List.head?_eq_getElem?, List.getElem?_eq_getElem h0] at hy
      simp at hy; rw [hy]
    · refine hL.sorted (n := 1) ?_ hy hy0
      rw [List.take_one, List.head?_eq_getElem?, List.getElem?_eq_getElem h0]; simp
  -- the first component
  obtain ⟨s0, hs0, i0, q0⟩ : ∃ s0 : SumState K, sumFirst (E ++ ge) (F ++ gf) E[0] F[0]
      = .ok s0 ∧ LoopInv E ge F gf s0 ∧
      s0.Q.val ∈ (vals E).take s0.eindex ++ (vals F).take s0.findex := by
    unfold sumFirst
    by_cases ht : takeE E[0] F[0] = true
    · rw [if_pos ht, hen, ok_bind]
      have hinit := SumInv.init (p := 53) (by norm_num) hE rE rF hE0 (by
        intro y hy hy0
        have := headLe hF hF0 y hy hy0
        have := takeE_true ht
        simp only [vals, List.getElem_map] at *
        linarith)
      refine ⟨_, rfl, ⟨hen, hf, ?_, fun _ _ => ?_⟩, ?_⟩
      · simpa using hinit
      · simpa using TightInv.init rE rF hE0
      · simp only
        rw [List.take_one, List.head?_eq_getElem?, List.getElem?_eq_getElem hE0]; simp
    · rw [if_neg ht, hfn, ok_bind]
      have hinit := SumInv.init (p := 53) (by norm_num) hF rF rE hF0 (by
        intro y hy hy0
        have := headLe hE hE0 y hy hy0
        have := takeE_false ht
        simp only [vals, List.getElem_map] at *
        linarith)
      refine ⟨_, rfl, ⟨he, hfn, ?_, fun _ _ => ?_⟩, ?_⟩
      · simpa using hinit.swap
      · simpa using (TightInv.init rF rE hF0).swap
      · simp only
        rw [List.take_one, List.head?_eq_getElem?, List.getElem?_eq_getElem hF0]; simp
  have hord := first_order i0 q0
  have hl1 := i0.inv.hi
  have hl2 := i0.inv.hj
  simp only [vals, List.length_map] at hl1 hl2
  -- the loop over both
  obtain ⟨s1, hs1, i1, o1⟩ : ∃ s1, sumMerge cap E.length (E ++ ge) F.length (F ++ gf) s0 = .ok s1 ∧ LoopInv E ge F gf s1 ∧ (s1.eindex = E.length ∨ s1.findex = F.length) := by
    unfold sumMerge
    by_cases hc : s0.eindex < E.length ∧ s0.findex < F.length
    · rw [if_pos hc]
      unfold sumSecond
      by_cases ht : takeE s0.enow s0.fnow = true
      · obtain ⟨s', a1, a2, a3, a4⟩ := stepE_spec hge hE hF rE rF hcap i0 hc.1
          (fun _ => takeE_true ht) (r := fastTwoSum s0.enow s0.Q)
          (by show rndBits 53 _ = _; rw [add_comm])
          (by
            rw [fastTwoSum_snd (i0.okE rE hc.1) i0.inv.repQ (hord.1 hc.1), add_val, add_comm s0.enow.val])
        obtain ⟨s'', t1, t2⟩ := sumBoth_spec hge hgf hE hF rE rF hcap (E.length + F.length) s' a2 (by omega)
        exact ⟨s'', by rw [if_pos ht, a1, ok_bind]; exact t1, t2⟩
      · obtain ⟨s', a1, a2, a3, a4⟩ := stepF_spec hgf hE hF rE rF hcap i0 hc.2
          (fun _ => takeE_false ht) (r := fastTwoSum s0.fnow s0.Q)
          (by show rndBits 53 _ = _; rw [add_comm])
          (by
            rw [fastTwoSum_snd (i0.okF rF hc.2) i0.inv.repQ (hord.2 hc.2), add_val, add_comm s0.fnow.val])
        obtain ⟨s'', t1, t2⟩ := sumBoth_spec hge hgf hE hF rE rF hcap (E.length + F.length) s' a2 (by omega)
        exact ⟨s'', by rw [if_neg ht, a1, ok_bind]; exact t1, t2⟩
    · rw [if_neg hc]
      exact ⟨s0, rfl, i0, by omega⟩
  obtain ⟨s2, hs2, i2, o2⟩ := sumRestE_spec hge hE hF rE rF hcap E.length s1 i1 (by omega) o1
  obtain ⟨s3, hs3, i3, o3, o4⟩ := sumRestF_spec hgf hE hF rE rF hcap F.length s2 i2 (by omega) o2
  have hsum := i3.inv.sum
  rw [o3, o4, List.take_of_length_le (by simp), List.take_of_length_le (by simp)] at hsum
  have htight : Tight (vals E) → Tight (vals F) →
      TightInv 53 (vals E) (vals F) (vals E).length (vals F).length s3.Q.val (vals s3.h) := by
    intro tE tF
    have := i3.tight tE tF
    rw [o3, o4] at this
    simpa using this
  have hlen := i3.inv.len
  rw [o3, o4] at hlen
  simp only [vals, List.length_map] at hlen
  have hres : fastExpansionSum cap E.length (E ++ ge) F.length (F ++ gf) =
      sumLast cap s3 := by
    unfold fastExpansionSum
    rw [he, ok_bind, hf, ok_bind, hs0, ok_bind, hs1, ok_bind, hs2, ok_bind, hs3, ok_bind]
  rw [hres, sumLast]
  -- the sign of the last component
  have hsign : ∀ (H : List (Dbl K)) (x : Dbl K), Expansion (vals (H ++ [x])) → (x.val = 0 → H = []) →
      SignType.sign x.val = SignType.sign (vals (H ++ [x])).sum := by
    intro H x hx h0
    rw [vals_append, List.sum_append]
    by_cases hx0 : x.val = 0
    · rw [h0 hx0]; simp
    · have := (show Expansion (vals H ++ [x.val]) by rw [vals_append] at hx; exact hx).sign hx0
      apply sign_of_near
      simpa using this
  by_cases hq : s3.Q ≠ 0 ∨ s3.h = []
  · rw [if_pos hq, if_pos (by omega)]
    have hexp : Expansion (vals (s3.h ++ [s3.Q])) := by
      rw [vals_append]; exact i3.inv.exp.snoc i3.inv.belowQ
    have hs : (vals (s3.h ++ [s3.Q])).sum = (vals E).sum + (vals F).sum := by
      rw [hsum, vals_append, List.sum_append]; simp [add_comm]
    refine ⟨s3.h, s3.Q, rfl, by simp; omega, hexp, ?_, hs, ?_, fun a b tE tF wE wF => ?_⟩
    · intro y hy
      rw [vals_append, List.mem_append] at hy
      rcases hy with hy | hy
      · exact (i3.inv.repH y hy).1
      · simp at hy; rw [hy]; exact i3.inv.repQ
    · rw [← hs]
      refine hsign _ _ hexp fun h0 => ?_
      rcases hq with hq | hq
      · exact absurd (eq_zero_iff.mpr h0) hq
      · exact hq
    · exact (htight tE tF).last (by norm_num) wE wF (Or.inl (by rw [vals_append]; rfl))
  · rw [if_neg hq]
    push Not at hq
    obtain ⟨H, x, hHx⟩ : ∃ H x, s3.h = H ++ [x] := by
      rcases List.eq_nil_or_concat s3.h with h | ⟨H, x, h⟩
      · exact absurd h hq.2
      · exact ⟨H, x, by rw [h]; simp⟩
    have hexp := i3.inv.exp
    have hs : (vals s3.h).sum = (vals E).sum + (vals F).sum := by
      rw [hsum, eq_zero_iff.mp hq.1, zero_add]
    rw [hHx] at hexp hs hlen ⊢
    refine ⟨H, x, rfl, by omega, hexp, fun y hy => (i3.inv.repH y (by rw [hHx]; exact hy)).1, hs, ?_,
      fun a b tE tF wE wF => ?_⟩
    · rw [← hs]
      refine hsign _ _ hexp fun h0 => ?_
      exact absurd h0 (i3.inv.repH x.val (by rw [hHx, vals_append]; simp)).2
    · exact (htight tE tF).last (by norm_num) wE wF (Or.inr ⟨by rw [hHx], eq_zero_iff.mp hq.1⟩)

theorem fastExpansionSum_spec (hEl : E ≠ []) (hFl : F ≠ []) :
    ∃ H x, fastExpansionSum cap E.length (E ++ ge) F.length (F ++ gf) = .ok (H ++ [x]) ∧
      (H ++ [x]).length ≤ E.length + F.length ∧ Expansion (vals (H ++ [x])) ∧
      (∀ y ∈ vals (H ++ [x]), Rep 53 y) ∧ (vals (H ++ [x])).sum = (vals E).sum + (vals F).sum ∧
      SignType.sign x.val = SignType.sign ((vals E).sum + (vals F).sum) := by
  obtain ⟨H, x, h1, h2, h3, h4, h5, h6, -⟩ :=
    fastExpansionSum_tight hge hgf hE hF rE rF hcap hEl hFl
  exact ⟨H, x, h1, h2, h3, h4, h5, h6⟩

end

end Pred
end Nikfemm
