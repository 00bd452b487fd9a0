import Verif.Lemmas.Ssor
import Verif.Lemmas.Vec

namespace Nikfemm
open Spec Finset

variable {K : Type} [Field K]

/-- Row `r` of the symmetric product. -/
def Csr.mv (A : Csr K) (x : Nat → K) (r : Nat) : K :=
  ∑ j ∈ range r, A.up j r * x j + A.dg r * x r + ∑ j ∈ Ico (r + 1) A.m, A.up r j * x j

theorem Csr.mv_add_smul (A : Csr K) (x p : Nat → K) (a : K) (r : Nat) :
    A.mv (fun i => x i + a * p i) r = A.mv x r + a * A.mv p r := by
  unfold Csr.mv
  have e : ∀ (s : Finset Nat) (c : Nat → K), ∑ j ∈ s, c j * (x j + a * p j) =
      ∑ j ∈ s, c j * x j + a * ∑ j ∈ s, c j * p j := by
    intro s c
    rw [Finset.mul_sum, ← Finset.sum_add_distrib]
    exact Finset.sum_congr rfl fun j _ => by ring
  rw [e, e]; ring

theorem Csr.mv_congr {A : Csr K} {x y : Nat → K} (h : ∀ i, i < A.m → x i = y i) {r : Nat}
    (hr : r < A.m) : A.mv x r = A.mv y r := by
  unfold Csr.mv
  rw [h r hr, Finset.sum_congr rfl (fun j hj => by
    rw [h j (by rw [Finset.mem_range] at hj; omega)] :
      ∀ j ∈ range r, A.up j r * x j = A.up j r * y j),
    Finset.sum_congr rfl (fun j hj => by
    rw [h j (by rw [Finset.mem_Ico] at hj; omega)] :
      ∀ j ∈ Ico (r + 1) A.m, A.up r j * x j = A.up r j * y j)]

/-- `r` is the residual `b - A x`. -/
structure Resid (A : Csr K) (b x r : List K) : Prop where
  x_len : x.length = A.m
  r_len : r.length = A.m
  eq : ∀ i, i < A.m → fn r i = fn b i - A.mv (fn x) i

theorem initialResidual_ok {A : Csr K} (h : CsrWF A) {b x : List K} (hb : b.length = A.m)
    (hx : x.length = A.m) : ∃ r, initialResidual A b x = .ok r ∧ Resid A b x r := by
  obtain ⟨y, e, hl, hy⟩ := multSym_spec h (cv := x) (res := List.replicate b.length 0) hx (by simp [hb])
  unfold initialResidual
  simp only [e, ok_bind, kSub_spec (v := b) (w := y) (res := y) (by omega) (by omega)]
  refine ⟨_, rfl, hx, by simp [hb, hl], fun i hi => ?_⟩
  rw [fn_zipWith (by omega) (by omega), hy i hi]
  rfl

theorem Resid.update {A : Csr K} {b x r p Ap : List K} {a : K} (h : Resid A b x r)
    (hp : p.length = A.m) (hl : Ap.length = A.m)
    (hA : ∀ i, i < A.m → fn Ap i = A.mv (fn p) i) :
    Resid A b (List.zipWith (fun u v => u + a * v) x p)
      (List.zipWith (fun u v => u + -a * v) r Ap) := by
  have h1 := h.x_len
  have h2 := h.r_len
  refine ⟨by simp [h1, hp], by simp [h2, hl], fun i hi => ?_⟩
  rw [fn_zipWith (by omega) (by omega), h.eq i hi, hA i hi,
    Csr.mv_congr (x := fn (List.zipWith (fun u v => u + a * v) x p))
      (y := fun i => fn x i + a * fn p i)
      (fun j hj => fn_zipWith (by omega) (by omega)) hi, Csr.mv_add_smul]
  ring

theorem multSym_mv {A : Csr K} (h : CsrWF A) {p Ap : List K} (hp : p.length = A.m)
    (hl : Ap.length = A.m) : ∃ y, multSym A p Ap = .ok y ∧ y.length = A.m ∧
      ∀ i, i < A.m → fn y i = A.mv (fn p) i := multSym_spec h hp hl

theorem fdiv_sat [DecidableEq K] (a b : K) : Sat (· = .nonfinite) (fun _ => True) (fdiv a b) := by
  unfold fdiv; split
  · rfl
  · trivial

theorem fdiv_cases [DecidableEq K] (a b : K) :
    (b ≠ 0 ∧ fdiv a b = .ok (a / b)) ∨ (b = 0 ∧ fdiv a b = .error .nonfinite) := by
  by_cases hb : b = 0
  · right; subst hb; exact ⟨rfl, fdiv_zero⟩
  · left; exact ⟨hb, fdiv_ok hb⟩

section Solvers
variable [LinearOrder K]

/-- What every solver run guarantees: no memory error; a returned vector has the right length;
after convergence its residual is below the tolerance. -/
abbrev SolveOut (A : Csr K) (b : List K) (maxError : K) (out : Res (List K × Bool)) : Prop :=
  Sat (· = .nonfinite) (fun o => o.1.length = A.m ∧
    (o.2 = true → ∃ r, Resid A b o.1 r ∧ inner A.m (fn r) (fn r) < maxError * maxError)) out

/-- A preconditioner that keeps the vector length and fails only on non-finite values. -/
def PrecondSafe (m : Nat) (P : Precond K) : Prop :=
  ∀ z r : List K, z.length = m → r.length = m →
    (∃ z', P z r = .ok z' ∧ z'.length = m) ∨ P z r = .error .nonfinite

theorem cgLoop_out {A : Csr K} (h : CsrWF A) {b : List K} {maxError : K} :
    ∀ (n : Nat) (x r p Ap : List K) (rTr : K), Resid A b x r → p.length = A.m → Ap.length = A.m →
      SolveOut A b maxError (cgLoop A maxError n x r p Ap rTr)
  | 0, x, r, p, Ap, rTr, hR, hp, hA => ⟨hR.x_len, by simp⟩
  | n + 1, x, r, p, Ap, rTr, hR, hp, hA => by
    have h1 := hR.x_len
    have h2 := hR.r_len
    obtain ⟨y, e, hl, hy⟩ := multSym_mv h hp hA
    unfold cgLoop
    simp only [e, ok_bind, kDot_spec (v := p) (w := y) (by omega)]
    generalize (if |inner p.length (fn p) (fn y)| < dblEps then dblEps
      else inner p.length (fn p) (fn y)) = pAp
    rcases fdiv_cases rTr pAp with ⟨-, hd⟩ | ⟨-, hd⟩
    · rw [hd, ok_bind, kAddScaled_spec (by omega) rfl, ok_bind, kAddScaled_spec (by omega) rfl,
        ok_bind, kSquareSum_spec, ok_bind]
      have hR' := hR.update (a := rTr / pAp) hp hl hy
      have h2' := hR'.r_len
      split
      · rename_i hlt
        exact ⟨hR'.x_len, fun _ => ⟨_, hR', by rw [h2'] at hlt; exact hlt⟩⟩
      · rcases fdiv_cases (inner (List.zipWith (fun u v => u + -(rTr / pAp) * v) r y).length
          (fn (List.zipWith (fun u v => u + -(rTr / pAp) * v) r y))
          (fn (List.zipWith (fun u v => u + -(rTr / pAp) * v) r y))) rTr with ⟨-, hd'⟩ | ⟨-, hd'⟩
        · rw [hd', ok_bind, kAddScaled_spec (by rw [h2']; omega) (by rw [h2']; omega), ok_bind]
          exact cgLoop_out h n _ _ _ _ _ hR' (by simp [h2, hl, hp]) hl
        · rw [hd']; rfl
    · rw [hd]; rfl

theorem cgSolve_out {A : Csr K} (h : CsrWF A) {b x : List K} {maxError : K} (n : Nat)
    (hb : b.length = A.m) (hx : x.length = A.m) :
    SolveOut A b maxError (cgSolve A b x maxError n) := by
  obtain ⟨r, e, hR⟩ := initialResidual_ok h hb hx
  have h2 := hR.r_len
  unfold cgSolve
  rw [e, ok_bind, kCopy_spec (by simp; omega), ok_bind, kSquareSum_spec, ok_bind]
  exact cgLoop_out h n _ _ _ _ _ hR h2 (by simp [hb])

theorem pcgLoop_out {A : Csr K} (h : CsrWF A) {P : Precond K} (hP : PrecondSafe A.m P)
    {b : List K} {maxError : K} :
    ∀ (n : Nat) (x r z p Ap : List K), Resid A b x r → z.length = A.m → p.length = A.m →
      Ap.length = A.m → SolveOut A b maxError (pcgLoop A P maxError n x r z p Ap)
  | 0, x, r, z, p, Ap, hR, hz, hp, hA => ⟨hR.x_len, by simp⟩
  | n + 1, x, r, z, p, Ap, hR, hz, hp, hA => by
    have h1 := hR.x_len
    have h2 := hR.r_len
    obtain ⟨y, e, hl, hy⟩ := multSym_mv h hp hA
    unfold pcgLoop
    simp only [e, ok_bind, kDot_spec (v := p) (w := y) (by omega),
      kDot_spec (v := r) (w := z) (by omega)]
    rcases fdiv_cases (inner r.length (fn r) (fn z)) (inner p.length (fn p) (fn y)) with
      ⟨-, hd⟩ | ⟨-, hd⟩
    · rw [hd, ok_bind]
      generalize (if |inner r.length (fn r) (fn z) / inner p.length (fn p) (fn y)| < dblEps
        then dblEps else inner r.length (fn r) (fn z) / inner p.length (fn p) (fn y)) = a
      rw [kAddScaled_spec (by omega) rfl, ok_bind, kAddScaled_spec (by omega) rfl,
        ok_bind, kSquareSum_spec, ok_bind]
      have hR' := hR.update (a := a) hp hl hy
      generalize List.zipWith (fun u v => u + -a * v) r y = r' at hR' ⊢
      have h2' := hR'.r_len
      split
      · rename_i hlt
        exact ⟨hR'.x_len, fun _ => ⟨_, hR', by rw [h2'] at hlt; exact hlt⟩⟩
      · rcases hP z r' hz h2' with ⟨z', hz', hzl⟩ | hz'
        · rw [hz', ok_bind, kDot_spec (by omega), ok_bind]
          rcases fdiv_cases (inner r'.length (fn r') (fn z')) (inner r.length (fn r) (fn z)) with
            ⟨-, hd'⟩ | ⟨-, hd'⟩
          · rw [hd', ok_bind, kAddScaled_spec (by omega) (by omega), ok_bind]
            exact pcgLoop_out h hP n _ _ _ _ _ hR' hzl (by simp [hzl, hp]) hl
          · rw [hd']; rfl
        · rw [hz']; rfl
    · rw [hd]; rfl

theorem jacobiDiag_sat {A : Csr K} (h : CsrWF A) {b : List K} (hb : b.length = A.m) :
    Sat (· = .nonfinite) (fun P : List K => P.length = A.m) (forUp 0 A.m (fun i P => do
      let d ← rd A.diag i
      let q ← fdiv 1 d
      wr P i q) (List.replicate b.length (0 : K))) := by
  refine Sat.forUp (fun _ (P : List K) => P.length = A.m) (Nat.zero_le _) (by simp [hb]) ?_
  intro i s _ hi hs
  rw [h.rd_dg hi, ok_bind]
  refine Sat.bind (P := fun _ => True) (fdiv_sat _ _) fun q _ => ?_
  exact (Sat.wr (by omega)).mono fun l hl => by rw [hl]; simpa using hs

theorem jacobiSolve_out {A : Csr K} (h : CsrWF A) {b x : List K} {maxError : K} (n : Nat)
    (hb : b.length = A.m) (hx : x.length = A.m) :
    SolveOut A b maxError (jacobiSolve A b x maxError n) := by
  obtain ⟨r, e, hR⟩ := initialResidual_ok h hb hx
  have h2 := hR.r_len
  unfold jacobiSolve
  rw [e, ok_bind]
  refine Sat.bind (jacobiDiag_sat h hb) fun P hP => ?_
  rw [kMul_spec (by omega) (by simp; omega), ok_bind, kCopy_spec (by simp; omega), ok_bind,
    kSquareSum_spec, ok_bind]
  refine pcgLoop_out h ?_ n _ _ _ _ _ hR (by simp; omega) (by simp; omega) (by simp [hb])
  intro z r hz hr
  left
  exact ⟨_, kMul_spec (by omega) (by omega), by simp; omega⟩

theorem multSSOR_sat {A : Csr K} (h : CsrWF A) (hm0 : 0 < A.m) (hm : A.m < 2 ^ 32) {omega : K}
    {cv res : List K} (hcv : cv.length = A.m) (hres : res.length = A.m) :
    Sat (· = .nonfinite) (fun z : List K => z.length = A.m) (multSSOR A res cv omega) := by
  unfold multSSOR
  refine Sat.bind (Sat.forUp (fun _ (s : List K) => s.length = A.m) (Nat.zero_le _) hres ?_) ?_
  · intro i s _ hi hs
    rw [rd_fn (by omega), ok_bind]
    exact (Sat.wr (by omega)).mono fun l hl => by rw [hl]; simpa using hs
  intro s hs
  refine Sat.bind (Sat.forUp (fun _ (s : List K) => s.length = A.m) (Nat.zero_le _) hs ?_) ?_
  · intro i s _ hi hs
    unfold ssorForwardRow
    rw [rd_fn (by omega), ok_bind, h.rd_dg hi, ok_bind]
    refine Sat.bind (fdiv_sat _ _) fun q _ => ?_
    rw [wr_ok (by omega), ok_bind, h.rd_rp hi.le, ok_bind, h.rd_rp (i := i + 1) hi, ok_bind]
    obtain ⟨s', e', hl', -⟩ := ssorForward_inner h (omega := omega) (res := s.set i q)
      (by simp [hs]) hi
    rw [e']; exact hl'
  intro s hs
  refine Sat.bind (Sat.forUp (fun _ (s : List K) => s.length = A.m) (Nat.zero_le _) hs ?_) ?_
  · intro i s _ hi hs
    rw [rd_fn (by omega), ok_bind, h.rd_dg hi, ok_bind]
    exact (Sat.wr (by omega)).mono fun l hl => by rw [hl]; simpa using hs
  intro s hs
  rw [wrap32_pred hm0 hm]
  refine Sat.forDown (fun _ (s : List K) => s.length = A.m) _ _ hs ?_
  intro i s hi hs
  unfold ssorBackwardRow
  obtain ⟨s', e', hl', -⟩ := ssorBackward_inner h (omega := omega) hs hi
  rw [h.rd_rp hi.le, ok_bind, h.rd_rp (i := i + 1) hi, ok_bind, e', ok_bind, rd_fn (by omega),
    ok_bind, h.rd_dg hi, ok_bind]
  refine Sat.bind (fdiv_sat _ _) fun q _ => ?_
  exact (Sat.wr (by omega)).mono fun l hl => by rw [hl]; simpa using hl'

theorem ssorLoop_out {A : Csr K} (h : CsrWF A) (hm0 : 0 < A.m) (hm : A.m < 2 ^ 32) {omega : K}
    {b : List K} {maxError : K} :
    ∀ (n : Nat) (x r z p Ap : List K) (rTz : K), Resid A b x r → z.length = A.m →
      p.length = A.m → Ap.length = A.m →
      SolveOut A b maxError (ssorLoop A omega maxError n x r z p Ap rTz)
  | 0, x, r, z, p, Ap, _, hR, hz, hp, hA => ⟨hR.x_len, by simp⟩
  | n + 1, x, r, z, p, Ap, rTz, hR, hz, hp, hA => by
    have h1 := hR.x_len
    have h2 := hR.r_len
    obtain ⟨y, e, hl, hy⟩ := multSym_mv h hp hA
    unfold ssorLoop
    simp only [e, ok_bind, kDot_spec (v := p) (w := y) (by omega)]
    refine Sat.bind (fdiv_sat _ _) fun q _ => ?_
    generalize (if |q| < dblEps then dblEps else q) = a
    rw [kAddScaled_spec (by omega) rfl, ok_bind, kAddScaled_spec (by omega) rfl,
      ok_bind, kSquareSum_spec, ok_bind]
    have hR' := hR.update (a := a) hp hl hy
    generalize List.zipWith (fun u v => u + -a * v) r y = r' at hR' ⊢
    have h2' := hR'.r_len
    split
    · rename_i hlt
      exact ⟨hR'.x_len, fun _ => ⟨_, hR', by rw [h2'] at hlt; exact hlt⟩⟩
    · refine Sat.bind (multSSOR_sat h hm0 hm h2' hz) fun z' hz' => ?_
      rw [kDot_spec (by omega), ok_bind]
      refine Sat.bind (fdiv_sat _ _) fun q' _ => ?_
      rw [kAddScaled_spec (by omega) (by omega), ok_bind]
      exact ssorLoop_out h hm0 hm n _ _ _ _ _ _ hR' hz' (by simp [hz', hp]) hl

theorem ssorSolve_out {A : Csr K} (h : CsrWF A) (hm0 : 0 < A.m) (hm : A.m < 2 ^ 32)
    {b x : List K} {omega maxError : K} (n : Nat) (hb : b.length = A.m) (hx : x.length = A.m) :
    SolveOut A b maxError (ssorSolve A b x omega maxError n) := by
  obtain ⟨r, e, hR⟩ := initialResidual_ok h hb hx
  have h2 := hR.r_len
  unfold ssorSolve
  rw [e, ok_bind]
  refine Sat.bind (multSSOR_sat h hm0 hm h2 (by simp [hb])) fun z hz => ?_
  rw [kCopy_spec (by simp; omega), ok_bind, kSquareSum_spec, ok_bind, kDot_spec (by omega), ok_bind]
  split
  · rename_i hlt
    exact ⟨hx, fun _ => ⟨_, hR, by rw [h2] at hlt; exact hlt⟩⟩
  · exact ssorLoop_out h hm0 hm n _ _ _ _ _ _ hR hz hz (by simp [hb])

end Solvers

end Nikfemm
