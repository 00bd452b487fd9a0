import Verif.Lemmas.ExpansionSum

/-!
# The stages of the orientation test
-/

set_option linter.unusedSectionVars false

namespace Nikfemm
namespace Pred

open Flt

variable {K : Type} [Field K] [LinearOrder K] [IsStrictOrderedRing K] [FloorRing K]

/-! ### The last stage -/

theorem ccwLast_spec {c : Consts K} (hc : Exact c) {past : ℕ → List (Dbl K)} (hp : ∀ i, past i ≠ [])
    {acx acy bcx bcy acxt acyt bcxt bcyt : Dbl K} (h1 : Ok acx) (h2 : Ok acy) (h3 : Ok bcx)
    (h4 : Ok bcy) (h5 : Ok acxt) (h6 : Ok acyt) (h7 : Ok bcxt) (h8 : Ok bcyt) :
    ∃ d, ccwLast c past (diffProducts c.splitter acx bcy acy bcx) acx acy bcx bcy acxt acyt bcxt bcyt
        = .ok d ∧
      SignType.sign d.val = SignType.sign ((acx.val + acxt.val) * (bcy.val + bcyt.val) -
        (acy.val + acyt.val) * (bcx.val + bcxt.val)) := by
  have hs := hc.splitter
  have qB := quad hs h1 h4 h2 h3
  have q1 := quad hs h5 h4 h6 h3
  have q2 := quad hs h1 h8 h2 h7
  have q3 := quad hs h5 h8 h6 h7
  have ne : ∀ {l : List (Dbl K)} {S M : K}, Quad l S M → l ≠ [] := by
    intro l S M q h
    have := q.len
    rw [h] at this; simp at this
  obtain ⟨H1, y1, r1, l1, e1, p1, s1, -⟩ := fastExpansionSum_spec (cap := 8) (hp 0) (hp 1) qB.exp q1.exp
    qB.rep q1.rep (by rw [qB.len, q1.len]) (ne qB) (ne q1)
  rw [qB.len, q1.len] at r1 l1
  obtain ⟨H2, y2, r2, l2, e2, p2, s2, -⟩ := fastExpansionSum_spec (cap := 12) (hp 2) (hp 3) e1 q2.exp
    p1 q2.rep (by rw [q2.len]; omega) (by simp) (ne q2)
  rw [q2.len] at r2 l2
  obtain ⟨H3, y3, r3, l3, e3, p3, s3, g3⟩ := fastExpansionSum_spec (cap := 16) (hp 4) (hp 5) e2 q3.exp
    p2 q3.rep (by rw [q3.len]; omega) (by simp) (ne q3)
  rw [q3.len] at r3
  refine ⟨y3, ?_, ?_⟩
  · unfold ccwLast
    have c1 : fastExpansionSum 8 4 (diffProducts c.splitter acx bcy acy bcx ++ past 0) 4
      (twoTwoDiff (twoProduct c.splitter acxt bcy).1 (twoProduct c.splitter acxt bcy).2
        (twoProduct c.splitter acyt bcx).1 (twoProduct c.splitter acyt bcx).2 ++ past 1) = _ := r1
    have c2 : fastExpansionSum 12 (H1 ++ [y1]).length (H1 ++ [y1] ++ past 2) 4
      (twoTwoDiff (twoProduct c.splitter acx bcyt).1 (twoProduct c.splitter acx bcyt).2
        (twoProduct c.splitter acy bcxt).1 (twoProduct c.splitter acy bcxt).2 ++ past 3) = _ := r2
    have c3 : fastExpansionSum 16 (H2 ++ [y2]).length (H2 ++ [y2] ++ past 4) 4
      (twoTwoDiff (twoProduct c.splitter acxt bcyt).1 (twoProduct c.splitter acxt bcyt).2
        (twoProduct c.splitter acyt bcxt).1 (twoProduct c.splitter acyt bcxt).2 ++ past 5) = _ := r3
    simp only [c1, c2, c3, ok_bind]
    rw [rd_ok (by simp)]
    simp
  · rw [g3, s2, s1, qB.sum, q1.sum, q2.sum, q3.sum]
    congr 1; ring

/-! ### Reading past the end -/

theorem push_error {cap : ℕ} {h : List (Dbl K)} {hh : Dbl K} {e : Fault}
    (H : push cap h hh = .error e) : e = .ub := by
  unfold push at H
  split at H
  · split at H
    · simp at H
    · exact (Except.error.inj H).symm
  · simp at H

theorem stepE_error {cap : ℕ} {l : List (Dbl K)} {s : SumState K} {r : Dbl K × Dbl K} {e : Fault}
    (h : stepE cap l s r = .error e) : e = .ub := by
  unfold stepE at h
  rcases bind_eq_error_iff.mp h with h | ⟨a, -, h⟩
  · exact rd_error h
  rcases bind_eq_error_iff.mp h with h | ⟨a, -, h⟩
  · exact push_error h
  · cases h

theorem stepF_error {cap : ℕ} {l : List (Dbl K)} {s : SumState K} {r : Dbl K × Dbl K} {e : Fault}
    (h : stepF cap l s r = .error e) : e = .ub := by
  unfold stepF at h
  rcases bind_eq_error_iff.mp h with h | ⟨a, -, h⟩
  · exact rd_error h
  rcases bind_eq_error_iff.mp h with h | ⟨a, -, h⟩
  · exact push_error h
  · cases h

theorem stepE_index {cap : ℕ} {l : List (Dbl K)} {s s' : SumState K} {r : Dbl K × Dbl K}
    (h : stepE cap l s r = .ok s') : s'.eindex = s.eindex + 1 ∧ s'.eindex < l.length := by
  unfold stepE at h
  obtain ⟨a, ha, h⟩ := bind_eq_ok_iff.mp h
  obtain ⟨b, -, h⟩ := bind_eq_ok_iff.mp h
  obtain rfl := Except.ok.inj h
  refine ⟨rfl, ?_⟩
  rw [rd_eq_ok_iff] at ha
  exact (List.getElem?_eq_some_iff.mp ha).1

theorem stepF_index {cap : ℕ} {l : List (Dbl K)} {s s' : SumState K} {r : Dbl K × Dbl K}
    (h : stepF cap l s r = .ok s') : s'.eindex = s.eindex := by
  unfold stepF at h
  obtain ⟨a, ha, h⟩ := bind_eq_ok_iff.mp h
  obtain ⟨b, -, h⟩ := bind_eq_ok_iff.mp h
  obtain rfl := Except.ok.inj h
  rfl

/-- A step of the merging loops keeps the index inside the array. -/
theorem choose_inv {cap : ℕ} {e f : List (Dbl K)} {s : SumState K} {b : Bool} {r r' : Dbl K × Dbl K}
    (hs : s.eindex < e.length) :
    Sat (· = .ub) (fun s' => s'.eindex < e.length)
      (if b then stepE cap e s r else stepF cap f s r') := by
  split
  · cases h : stepE cap e s r with
    | ok s' => exact (stepE_index h).2
    | error er => exact stepE_error h
  · cases h : stepF cap f s r' with
    | ok s' => show s'.eindex < _; rw [stepF_index h]; exact hs
    | error er => exact stepF_error h

theorem sumBoth_inv {cap elen flen : ℕ} {e f : List (Dbl K)} : ∀ (n : ℕ) (s : SumState K),
    s.eindex < e.length →
    Sat (· = .ub) (fun s' => s'.eindex < e.length) (sumBoth cap elen e flen f n s) := by
  intro n
  induction n with
  | zero => intro s h; exact h
  | succ n ih =>
    intro s h
    rw [sumBoth]
    split
    · have := choose_inv (cap := cap) (f := f) (b := takeE s.enow s.fnow) (r := twoSum s.Q s.enow)
        (r' := twoSum s.Q s.fnow) h
      split
      · rename_i hb
        rw [hb, if_pos rfl] at this
        exact this.bind fun s' hs' => ih s' hs'
      · rename_i hb
        rw [if_neg hb] at this
        exact this.bind fun s' hs' => ih s' hs'
    · exact h

theorem sumRestE_inv {cap elen : ℕ} {e : List (Dbl K)} : ∀ (n : ℕ) (s : SumState K),
    s.eindex < e.length → elen ≤ n + s.eindex →
    Sat (· = .ub) (fun s' => s'.eindex < e.length ∧ elen ≤ s'.eindex) (sumRestE cap elen e n s) := by
  intro n
  induction n with
  | zero => intro s h hn; exact ⟨h, by omega⟩
  | succ n ih =>
    intro s h hn
    rw [sumRestE]
    split
    · cases hst : stepE cap e s (twoSum s.Q s.enow) with
      | ok s' =>
        have := stepE_index hst
        exact ih s' this.2 (by omega)
      | error er => exact stepE_error hst
    · exact ⟨h, by omega⟩

/-- An array that ends with its last component is read past its end. -/
theorem fastExpansionSum_ub {cap flen : ℕ} {e f : List (Dbl K)} (he : e ≠ []) (hf : f ≠ []) :
    fastExpansionSum cap e.length e flen f = .error .ub := by
  have e0 : 0 < e.length := List.length_pos_iff.mpr he
  have f0 : 0 < f.length := List.length_pos_iff.mpr hf
  have key : Sat (· = .ub) (fun _ => False) (fastExpansionSum cap e.length e flen f) := by
    unfold fastExpansionSum
    rw [rd_ok e0, ok_bind, rd_ok f0, ok_bind]
    have h1 : Sat (· = .ub) (fun s : SumState K => s.eindex < e.length) (sumFirst e f e[0] f[0]) := by
      unfold sumFirst
      split
      · cases h : rd e 1 with
        | ok a =>
          rw [rd_eq_ok_iff] at h
          exact (List.getElem?_eq_some_iff.mp h).1
        | error er => exact rd_error h
      · cases h : rd f 1 with
        | ok a => exact e0
        | error er => exact rd_error h
    refine h1.bind fun s hs => ?_
    have h2 : Sat (· = .ub) (fun s : SumState K => s.eindex < e.length)
        (sumMerge cap e.length e flen f s) := by
      unfold sumMerge
      split
      · unfold sumSecond
        exact (choose_inv hs).bind fun s' hs' => sumBoth_inv _ s' hs'
      · exact hs
    refine h2.bind fun s hs => ?_
    refine (sumRestE_inv e.length s hs (by omega)).bind fun s hs => ?_
    omega
  cases h : fastExpansionSum cap e.length e flen f with
  | ok a => rw [h] at key; exact key.elim
  | error er => rw [h] at key; rw [show er = .ub from key]

theorem ccwLast_ub {c : Consts K} {past : ℕ → List (Dbl K)} (hp : past 0 = [])
    {acx acy bcx bcy acxt acyt bcxt bcyt : Dbl K} :
    ccwLast c past (diffProducts c.splitter acx bcy acy bcx) acx acy bcx bcy acxt acyt bcxt bcyt
      = .error .ub := by
  unfold ccwLast
  have c1 : fastExpansionSum 8 4 (diffProducts c.splitter acx bcy acy bcx ++ past 0) 4
      (twoTwoDiff (twoProduct c.splitter acxt bcy).1 (twoProduct c.splitter acxt bcy).2
        (twoProduct c.splitter acyt bcx).1 (twoProduct c.splitter acyt bcx).2 ++ past 1) =
      .error .ub := by
    rw [hp, List.append_nil]
    exact fastExpansionSum_ub (e := diffProducts c.splitter acx bcy acy bcx)
      (by unfold diffProducts twoTwoDiff; simp) (by unfold twoTwoDiff; simp)
  simp only [c1, error_bind]

/-! ### The filters -/

theorem certain_iff {det eb : Dbl K} (h : certain det eb = true) : eb.val ≤ |det.val| := by
  unfold certain at h
  simp only [Bool.or_eq_true, decide_eq_true_eq, lt_val, neg_val, not_lt] at h
  rcases h with h | h
  · exact h.trans (le_abs_self _)
  · exact h.trans (neg_le_abs _)

theorem absolute_val (a : Dbl K) : (absolute a).val = |a.val| := by
  unfold absolute
  split
  · rename_i h
    rw [lt_val, zero_val, not_lt] at h
    rw [abs_of_nonneg h]
  · rename_i h
    rw [lt_val, zero_val, not_lt, not_le] at h
    rw [abs_of_neg h, neg_val]

theorem sign_rnd (x : K) : SignType.sign (rndBits 53 x) = SignType.sign x := by
  rcases lt_trichotomy x 0 with h | h | h
  · rw [sign_neg h, sign_neg ((rnd_lt_zero (by norm_num)).mpr h)]
  · rw [h, rnd_zero]
  · rw [sign_pos h, sign_pos ((rnd_pos (by norm_num)).mpr h)]

/-- The sign of twice the area of the triangle. -/
def detOf (pa pb pc : Vertex K) : K :=
  (pa.x.val - pc.x.val) * (pb.y.val - pc.y.val) - (pa.y.val - pc.y.val) * (pb.x.val - pc.x.val)

/-- What is left of the differences is zero. -/
def NoTails (pa pb pc : Vertex K) : Prop :=
  (pa.x - pc.x).val = pa.x.val - pc.x.val ∧ (pa.y - pc.y).val = pa.y.val - pc.y.val ∧
  (pb.x - pc.x).val = pb.x.val - pc.x.val ∧ (pb.y - pc.y).val = pb.y.val - pc.y.val

/-- The last stage on three points. -/
def lastOf (c : Consts K) (past : ℕ → List (Dbl K)) (pa pb pc : Vertex K) : Res (Dbl K) :=
  ccwLast c past (diffProducts c.splitter (pa.x - pc.x) (pb.y - pc.y) (pa.y - pc.y) (pb.x - pc.x))
    (pa.x - pc.x) (pa.y - pc.y) (pb.x - pc.x) (pb.y - pc.y) (twoDiffTail pa.x pc.x (pa.x - pc.x))
    (twoDiffTail pa.y pc.y (pa.y - pc.y)) (twoDiffTail pb.x pc.x (pb.x - pc.x))
    (twoDiffTail pb.y pc.y (pb.y - pc.y))

/-- A vertex with representable coordinates. -/
def VOk (p : Vertex K) : Prop := Ok p.x ∧ Ok p.y

/-- Either a filter decides, and then correctly, or the last stage runs. -/
def Decided (pa pb pc : Vertex K) (last r : Res (Dbl K)) : Prop :=
  (∃ d : Dbl K, r = .ok d ∧ SignType.sign d.val = SignType.sign (detOf pa pb pc) ∧
    (d.val ≠ 0 ∨ NoTails pa pb pc)) ∨ (r = last ∧ ¬ NoTails pa pb pc)

theorem adapt_spec {c : Consts K} (hc : Exact c) {past : ℕ → List (Dbl K)} {pa pb pc : Vertex K}
    (ha : VOk pa) (hb : VOk pb) (hcv : VOk pc) {D : Dbl K} (hD0 : 0 < D.val)
    (hD : |D.val - (|((pa.x - pc.x) * (pb.y - pc.y)).val| + |((pa.y - pc.y) * (pb.x - pc.x)).val|)| ≤
      eps K * |D.val|) :
    Decided pa pb pc (lastOf c past pa pb pc) (counterclockwiseadapt c past pa pb pc D) := by
  have he := eps_pos (K := K)
  have he' := eps_small (K := K)
  set acx := pa.x - pc.x with hacx
  set bcx := pb.x - pc.x with hbcx
  set acy := pa.y - pc.y with hacy
  set bcy := pb.y - pc.y with hbcy
  set acxt := twoDiffTail pa.x pc.x acx with hacxt
  set bcxt := twoDiffTail pb.x pc.x bcx with hbcxt
  set acyt := twoDiffTail pa.y pc.y acy with hacyt
  set bcyt := twoDiffTail pb.y pc.y bcy with hbcyt
  have v1 : acxt.val = pa.x.val - pc.x.val - acx.val := twoDiffTail_val ha.1 hcv.1
  have v2 : bcxt.val = pb.x.val - pc.x.val - bcx.val := twoDiffTail_val hb.1 hcv.1
  have v3 : acyt.val = pa.y.val - pc.y.val - acy.val := twoDiffTail_val ha.2 hcv.2
  have v4 : bcyt.val = pb.y.val - pc.y.val - bcy.val := twoDiffTail_val hb.2 hcv.2
  have w1 : |acxt.val| ≤ eps K * |acx.val| := by rw [v1, abs_sub_comm]; exact rel53 _
  have w2 : |bcxt.val| ≤ eps K * |bcx.val| := by rw [v2, abs_sub_comm]; exact rel53 _
  have w3 : |acyt.val| ≤ eps K * |acy.val| := by rw [v3, abs_sub_comm]; exact rel53 _
  have w4 : |bcyt.val| ≤ eps K * |bcy.val| := by rw [v4, abs_sub_comm]; exact rel53 _
  have hdet : detOf pa pb pc = (acx.val + acxt.val) * (bcy.val + bcyt.val) -
      (acy.val + acyt.val) * (bcx.val + bcxt.val) := by
    rw [v1, v2, v3, v4]; unfold detOf; ring
  have hq := quad hc.splitter (ok_sub pa.x pc.x) (ok_sub pb.y pc.y) (ok_sub pa.y pc.y) (ok_sub pb.x pc.x)
  obtain ⟨est, e1, e2, e3⟩ := hq.est
  have hl : |(acx * bcy).val - acx.val * bcy.val| ≤ eps K * |(acx * bcy).val| := rel53 _
  have hr : |(acy * bcx).val - acy.val * bcx.val| ≤ eps K * |(acy * bcx).val| := rel53 _
  have e1' : estimate (twoTwoDiff (twoProduct c.splitter acx bcy).1 (twoProduct c.splitter acx bcy).2
      (twoProduct c.splitter acy bcx).1 (twoProduct c.splitter acy bcx).2) = .ok est := e1
  have hrun : counterclockwiseadapt c past pa pb pc D =
      (if certain est (c.ccwerrboundB * D) then .ok est else
        if acxt = 0 ∧ acyt = 0 ∧ bcxt = 0 ∧ bcyt = 0 then .ok est else
        if certain (est + ((acx * bcyt + bcy * acxt) - (acy * bcxt + bcx * acyt)))
            (c.ccwerrboundC * D + c.resulterrbound * absolute est) then
          .ok (est + ((acx * bcyt + bcy * acxt) - (acy * bcxt + bcx * acyt)))
        else lastOf c past pa pb pc) := by
    unfold counterclockwiseadapt
    simp only [← hacx, ← hbcx, ← hacy, ← hbcy, e1', ok_bind]
    rfl
  have ebpos : 0 < (2 + 12 * eps K) * eps K * D.val := by positivity
  rw [hrun]
  by_cases hB : certain est (c.ccwerrboundB * D) = true
  · rw [if_pos hB]
    have heb := rel53' (c.ccwerrboundB.val * D.val)
    rw [hc.b] at heb
    have hcert := certain_iff hB
    rw [mul_val, hc.b] at hcert
    have hL : |(acx.val + acxt.val) * (bcy.val + bcyt.val) - acx.val * bcy.val| ≤
        (2 * eps K + eps K ^ 2) * |acx.val * bcy.val| :=
      prod_near he.le (by rwa [add_sub_cancel_left]) (by rwa [add_sub_cancel_left])
    have hR : |(acy.val + acyt.val) * (bcx.val + bcxt.val) - acy.val * bcx.val| ≤
        (2 * eps K + eps K ^ 2) * |acy.val * bcx.val| :=
      prod_near he.le (by rwa [add_sub_cancel_left]) (by rwa [add_sub_cancel_left])
    have hs := stageB he he' hL hR hl hr hD hD0 e3 heb hcert
    refine Or.inl ⟨est, rfl, ?_, Or.inl ?_⟩
    · rw [hdet]; exact sign_of_near hs
    · intro h0; rw [h0, abs_zero] at hs; exact absurd hs (not_lt.mpr (abs_nonneg _))
  rw [if_neg hB]
  have hnt : (acxt = 0 ∧ acyt = 0 ∧ bcxt = 0 ∧ bcyt = 0) ↔ NoTails pa pb pc := by
    simp only [eq_zero_iff, v1, v2, v3, v4, NoTails, sub_eq_zero]
    constructor
    · rintro ⟨a, b, c, d⟩; exact ⟨a.symm, b.symm, c.symm, d.symm⟩
    · rintro ⟨a, b, c, d⟩; exact ⟨a.symm, b.symm, c.symm, d.symm⟩
  by_cases hT : acxt = 0 ∧ acyt = 0 ∧ bcxt = 0 ∧ bcyt = 0
  · rw [if_pos hT]
    refine Or.inl ⟨est, rfl, ?_, Or.inr (hnt.mp hT)⟩
    obtain ⟨t1, t2, t3, t4⟩ := hT
    rw [eq_zero_iff] at t1 t2 t3 t4
    rw [e2, hdet, t1, t2, t3, t4, add_zero, add_zero, add_zero, add_zero]
  rw [if_neg hT]
  set det := est + ((acx * bcyt + bcy * acxt) - (acy * bcxt + bcx * acyt)) with hdetdef
  by_cases hC : certain det (c.ccwerrboundC * D + c.resulterrbound * absolute est) = true
  · rw [if_pos hC]
    have hcert := certain_iff hC
    have hlin : ∀ {a b a' b' : Dbl K}, |b'.val| ≤ eps K * |b.val| → |a'.val| ≤ eps K * |a.val| →
        |(a * b' + b * a').val - (a.val * b'.val + b.val * a'.val)| ≤
          (4 * eps K ^ 2 + 2 * eps K ^ 3) * |a.val * b.val| ∧
        |(a * b' + b * a').val| ≤ (1 + eps K) ^ 2 * (2 * eps K) * |a.val * b.val| := by
      intro a b a' b' hb' ha'
      refine linear_side he he' ?_ ?_ (rel53' _) (rel53' _) (rel53' _)
      · rw [abs_mul, abs_mul]
        have := mul_le_mul_of_nonneg_left hb' (abs_nonneg a.val)
        linarith
      · rw [abs_mul, abs_mul]
        have := mul_le_mul_of_nonneg_left ha' (abs_nonneg b.val)
        linarith
    obtain ⟨y1, y1'⟩ := hlin w4 w1
    obtain ⟨y2, y2'⟩ := hlin w2 w3
    have hsec : |acxt.val * bcyt.val - acyt.val * bcxt.val| ≤
        eps K ^ 2 * |acx.val * bcy.val| + eps K ^ 2 * |acy.val * bcx.val| := by
      have t := abs_sub (acxt.val * bcyt.val) (acyt.val * bcxt.val)
      simp only [abs_mul] at t ⊢
      have m1 := mul_le_mul w1 w4 (abs_nonneg _) (by positivity)
      have m2 := mul_le_mul w3 w2 (abs_nonneg _) (by positivity)
      calc _ ≤ _ := t
        _ ≤ _ := add_le_add m1 m2
        _ = _ := by ring
    have heb : (1 - eps K) ^ 2 * ((9 + 64 * eps K) * eps K ^ 2 * D.val +
        (3 + 8 * eps K) * eps K * |est.val|) ≤
        (c.ccwerrboundC * D + c.resulterrbound * absolute est).val := by
      have g1 := ge_of_rel (rel53' (c.ccwerrboundC.val * D.val))
      have g2 := ge_of_rel (rel53' (c.resulterrbound.val * (absolute est).val))
      have g3 := ge_of_rel (rel53' ((c.ccwerrboundC * D).val + (c.resulterrbound * absolute est).val))
      rw [hc.c] at g1
      rw [hc.result, absolute_val] at g2
      have n1 : 0 ≤ (9 + 64 * eps K) * eps K * eps K * D.val := by positivity
      have n2 : 0 ≤ (3 + 8 * eps K) * eps K * |est.val| := by positivity
      have p1 : 0 ≤ (c.ccwerrboundC * D).val := by
        rw [mul_val, hc.c]; exact rnd_ge (by norm_num) (Rep.zero 53) n1
      have p2 : 0 ≤ (c.resulterrbound * absolute est).val := by
        rw [mul_val, hc.result, absolute_val]; exact rnd_ge (by norm_num) (Rep.zero 53) n2
      have p3 : 0 ≤ (c.ccwerrboundC * D + c.resulterrbound * absolute est).val := by
        rw [add_val]; exact rnd_ge (by norm_num) (Rep.zero 53) (by linarith)
      rw [abs_of_nonneg n1] at g1
      rw [abs_of_nonneg n2] at g2
      have q1 : (c.ccwerrboundC * D).val = rndBits 53 ((9 + 64 * eps K) * eps K * eps K * D.val) := by
        rw [mul_val, hc.c]
      have q2 : (c.resulterrbound * absolute est).val =
          rndBits 53 ((3 + 8 * eps K) * eps K * |est.val|) := by
        rw [mul_val, hc.result, absolute_val]
      rw [← q1, abs_of_nonneg p1] at g1
      rw [← q2, abs_of_nonneg p2] at g2
      have q3 : rndBits 53 ((c.ccwerrboundC * D).val + (c.resulterrbound * absolute est).val) =
        (c.ccwerrboundC * D + c.resulterrbound * absolute est).val := rfl
      rw [q3, abs_of_nonneg p3, abs_of_nonneg (add_nonneg p1 p2)] at g3
      have h1e : 0 ≤ 1 - eps K := by linarith
      refine le_trans ?_ g3
      have := mul_le_mul_of_nonneg_left (add_le_add g1 g2) h1e
      calc _ = _ := by ring
        _ ≤ _ := this
    have hs := stageC (t0 := acx.val * bcy.val - acy.val * bcx.val) he he' (abs_nonneg _) (abs_nonneg _)
      (le_of_rel hl) (le_of_rel hr) hD hD0 e3 y1 y1'
      y2 y2' (z := ((acx * bcyt + bcy * acxt) - (acy * bcxt + bcx * acyt)).val) (rel53' _) hsec
      (det := det.val) (rel53 _) heb hcert
    refine Or.inl ⟨det, rfl, ?_, Or.inl ?_⟩
    · rw [hdet]
      refine (sign_of_near hs).trans ?_
      congr 1; ring
    · intro h0; rw [h0, abs_zero] at hs; exact absurd hs (not_lt.mpr (abs_nonneg _))
  · rw [if_neg hC]
    exact Or.inr ⟨rfl, fun h => hT (hnt.mpr h)⟩

theorem ccw_decided {c : Consts K} (hc : Exact c) {past : ℕ → List (Dbl K)} {pa pb pc : Vertex K}
    (ha : VOk pa) (hb : VOk pb) (hcv : VOk pc) :
    (∃ d : Dbl K, counterclockwise c past false pa pb pc = .ok d ∧
      SignType.sign d.val = SignType.sign (detOf pa pb pc) ∧
      (d.val ≠ 0 ∨ NoTails pa pb pc ∨ (pa.x.val - pc.x.val) * (pb.y.val - pc.y.val) = 0)) ∨
    (counterclockwise c past false pa pb pc = lastOf c past pa pb pc ∧ ¬ NoTails pa pb pc) := by
  have he := eps_pos (K := K)
  have he' := eps_small (K := K)
  set L := (pa.x.val - pc.x.val) * (pb.y.val - pc.y.val) with hL
  set R := (pa.y.val - pc.y.val) * (pb.x.val - pc.x.val) with hR
  set dl := (pa.x - pc.x) * (pb.y - pc.y) with hdl
  set dr := (pa.y - pc.y) * (pb.x - pc.x) with hdr
  have sl : SignType.sign dl.val = SignType.sign L := by
    rw [hdl, mul_val, sign_rnd, sign_mul, sub_val, sub_val, sign_rnd, sign_rnd, hL, sign_mul]
  have sr : SignType.sign dr.val = SignType.sign R := by
    rw [hdr, mul_val, sign_rnd, sign_mul, sub_val, sub_val, sign_rnd, sign_rnd, hR, sign_mul]
  have hdet : detOf pa pb pc = L - R := rfl
  have sdet : SignType.sign (dl - dr).val = SignType.sign (dl.val - dr.val) := sign_rnd _
  -- products on different sides of zero
  have simple : SignType.sign (dl.val - dr.val) = SignType.sign (L - R) → L ≠ 0 → R ≠ L →
      ∃ d : Dbl K, (.ok (dl - dr) : Res (Dbl K)) = .ok d ∧
        SignType.sign d.val = SignType.sign (detOf pa pb pc) ∧
        (d.val ≠ 0 ∨ NoTails pa pb pc ∨ L = 0) := by
    intro h _ hne
    refine ⟨dl - dr, rfl, by rw [sdet, h, hdet], Or.inl fun h0 => hne ?_⟩
    rw [h0, sign_zero] at sdet
    rw [h, eq_comm, sign_eq_zero_iff] at sdet
    linarith
  have filter : ∀ D : Dbl K, 0 < D.val → |D.val - (|dl.val| + |dr.val|)| ≤ eps K * |D.val| →
      Decided pa pb pc (lastOf c past pa pb pc)
        (if certain (dl - dr) (c.ccwerrboundA * D) then .ok (dl - dr)
        else counterclockwiseadapt c past pa pb pc D) := by
    intro D hD0 hD
    by_cases hA : certain (dl - dr) (c.ccwerrboundA * D) = true
    · rw [if_pos hA]
      have hcert := certain_iff hA
      have heb := rel53' (c.ccwerrboundA.val * D.val)
      rw [hc.a] at heb
      rw [mul_val, hc.a] at hcert
      have hs := stageA (L := L) (R := R) (l := (pa.x - pc.x).val * (pb.y - pc.y).val)
        (r := (pa.y - pc.y).val * (pb.x - pc.x).val) he he'
        (prod_near he.le (by rw [abs_sub_comm]; exact rel53 _) (by rw [abs_sub_comm]; exact rel53 _))
        (prod_near he.le (by rw [abs_sub_comm]; exact rel53 _) (by rw [abs_sub_comm]; exact rel53 _))
        (rel53 _) (rel53 _) hD hD0 (rel53 (dl.val - dr.val)) heb hcert
      refine Or.inl ⟨dl - dr, rfl, ?_, Or.inl ?_⟩
      · rw [hdet]; exact sign_of_near hs
      · intro h0
        have h0' : rndBits 53 (dl.val - dr.val) = 0 := h0
        rw [h0', abs_zero] at hs
        exact absurd hs (not_lt.mpr (abs_nonneg _))
    · rw [if_neg hA]
      exact adapt_spec hc ha hb hcv hD0 hD
  have wrap : ∀ {r : Res (Dbl K)}, Decided pa pb pc (lastOf c past pa pb pc) r →
      (∃ d : Dbl K, r = .ok d ∧ SignType.sign d.val = SignType.sign (detOf pa pb pc) ∧
      (d.val ≠ 0 ∨ NoTails pa pb pc ∨ L = 0)) ∨
      (r = lastOf c past pa pb pc ∧ ¬ NoTails pa pb pc) := by
    rintro r (⟨d, h1, h2, h3⟩ | h)
    · exact Or.inl ⟨d, h1, h2, by tauto⟩
    · exact Or.inr h
  unfold counterclockwise
  simp only [← hdl, ← hdr, Bool.false_eq_true, if_false]
  by_cases h1 : (0 : Dbl K) < dl
  · rw [if_pos h1]
    have h1' : 0 < dl.val := h1
    have hLpos : 0 < L := by rwa [sign_pos h1', eq_comm, sign_eq_one_iff] at sl
    by_cases h2 : (0 : Dbl K) < dr
    · rw [if_neg (by simpa using h2)]
      have h2' : 0 < dr.val := h2
      refine wrap (filter (dl + dr) ?_ ?_)
      · rw [add_val]; exact (rnd_pos (by norm_num)).mpr (by linarith)
      · rw [abs_of_pos h1', abs_of_pos h2']; exact rel53 _
    · rw [if_pos h2]
      have h2' : dr.val ≤ 0 := not_lt.mp h2
      have hRle : R ≤ 0 := by
        by_contra hR0
        push Not at hR0
        rw [sign_pos hR0, sign_eq_one_iff] at sr
        linarith
      refine Or.inl (simple ?_ hLpos.ne' (by intro h; linarith))
      rw [sign_pos (by linarith), sign_pos (by linarith)]
  · rw [if_neg h1]
    have h1' : dl.val ≤ 0 := not_lt.mp h1
    by_cases h3 : dl < 0
    · rw [if_pos h3]
      have h3' : dl.val < 0 := h3
      have hLneg : L < 0 := by rwa [sign_neg h3', eq_comm, sign_eq_neg_one_iff] at sl
      by_cases h2 : dr < 0
      · rw [if_neg (by simpa using h2)]
        have h2' : dr.val < 0 := h2
        refine wrap (filter (-dl - dr) ?_ ?_)
        · rw [sub_val, neg_val]; exact (rnd_pos (by norm_num)).mpr (by linarith)
        · rw [abs_of_neg h3', abs_of_neg h2', sub_val, neg_val, ← sub_eq_add_neg]; exact rel53 _
      · rw [if_pos h2]
        have h2' : 0 ≤ dr.val := not_lt.mp h2
        have hRge : 0 ≤ R := by
          by_contra hR0
          push Not at hR0
          rw [sign_neg hR0, sign_eq_neg_one_iff] at sr
          linarith
        refine Or.inl (simple ?_ hLneg.ne (by intro h; linarith))
        rw [sign_neg (by linarith), sign_neg (by linarith)]
    · rw [if_neg h3]
      have h0 : dl.val = 0 := le_antisymm h1' (not_lt.mp h3)
      have hL0 : L = 0 := by rwa [h0, sign_zero, eq_comm, sign_eq_zero_iff] at sl
      refine Or.inl ⟨dl - dr, rfl, ?_, Or.inr (Or.inr hL0)⟩
      rw [sdet, hdet, h0, hL0, zero_sub, zero_sub, Left.sign_neg, Left.sign_neg, sr]

theorem lastOf_spec {c : Consts K} (hc : Exact c) {past : ℕ → List (Dbl K)} (hp : ∀ i, past i ≠ [])
    {pa pb pc : Vertex K} (ha : VOk pa) (hb : VOk pb) (hcv : VOk pc) :
    ∃ d, lastOf c past pa pb pc = .ok d ∧ SignType.sign d.val = SignType.sign (detOf pa pb pc) := by
  obtain ⟨d, h1, h2⟩ := ccwLast_spec hc hp (acx := pa.x - pc.x) (acy := pa.y - pc.y)
    (bcx := pb.x - pc.x) (bcy := pb.y - pc.y) (acxt := twoDiffTail pa.x pc.x (pa.x - pc.x))
    (acyt := twoDiffTail pa.y pc.y (pa.y - pc.y)) (bcxt := twoDiffTail pb.x pc.x (pb.x - pc.x))
    (bcyt := twoDiffTail pb.y pc.y (pb.y - pc.y)) (ok_sub _ _) (ok_sub _ _) (ok_sub _ _) (ok_sub _ _)
    (ok_add _ _) (ok_add _ _) (ok_add _ _) (ok_add _ _)
  refine ⟨d, h1, h2.trans ?_⟩
  rw [twoDiffTail_val ha.1 hcv.1, twoDiffTail_val hb.1 hcv.1, twoDiffTail_val ha.2 hcv.2,
    twoDiffTail_val hb.2 hcv.2]
  congr 1
  unfold detOf; ring

end Pred
end Nikfemm
