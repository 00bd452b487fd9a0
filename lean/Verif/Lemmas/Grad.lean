import Verif.Lemmas.Conduction
import Verif.Lemmas.NonLinear
import Verif.Lemmas.Sums

set_option linter.unusedSectionVars false

namespace Nikfemm
open Spec Finset

variable {K P : Type} [Field K] [LinearOrder K] [IsStrictOrderedRing K]

/-- A loop that runs up to iteration `k` and fails there. -/
theorem loopN_fails {σ : Type} (I : Nat → σ → Prop) {body : Nat → σ → Res σ} {e : Fault} :
    ∀ (cnt lo k : Nat) (s : σ), lo ≤ k → k < lo + cnt → I lo s →
      (∀ i s, lo ≤ i → i < k → I i s → ∃ s', body i s = .ok s' ∧ I (i + 1) s') →
      (∀ s, I k s → body k s = .error e) → loopN body cnt lo s = .error e := by
  intro cnt
  induction cnt with
  | zero => intro lo k s h1 h2; omega
  | succ cnt ih =>
    intro lo k s h1 h2 h0 hs hf
    unfold loopN
    by_cases hk : lo = k
    · subst hk; rw [hf s h0]
    · obtain ⟨s', q, h'⟩ := hs lo s (le_refl _) (by omega) h0
      rw [q]
      exact ih (lo + 1) k s' (by omega) (by omega) h' (fun i s a b => hs i s (by omega) b) hf

theorem forUp_fails {σ : Type} (I : Nat → σ → Prop) {body : Nat → σ → Res σ} {e : Fault}
    {lo hi k : Nat} {s : σ} (h1 : lo ≤ k) (h2 : k < hi) (h0 : I lo s)
    (hs : ∀ i s, lo ≤ i → i < k → I i s → ∃ s', body i s = .ok s' ∧ I (i + 1) s')
    (hf : ∀ s, I k s → body k s = .error e) : forUp lo hi body s = .error e :=
  loopN_fails I (hi - lo) lo k s h1 (by omega) h0 hs hf

/-- Gradients on a non-degenerate triangle are unique. -/
theorem gradient_unique {D : MeshData K} {e : Elem} (h : D.area2 e ≠ 0) {V : Nat → K}
    {g g' : Vec K} (hg : D.IsGradient e V g) (hg' : D.IsGradient e V g') : g = g' := by
  obtain ⟨a1, a2⟩ := hg
  obtain ⟨b1, b2⟩ := hg'
  have hx : D.area2 e * (g.x - g'.x) = 0 := by
    unfold MeshData.area2
    linear_combination (-((D.pt e.v2).y - (D.pt e.v0).y)) * (a1 - b1) +
      ((D.pt e.v1).y - (D.pt e.v0).y) * (a2 - b2)
  have hy : D.area2 e * (g.y - g'.y) = 0 := by
    unfold MeshData.area2
    linear_combination (((D.pt e.v2).x - (D.pt e.v0).x)) * (a1 - b1) -
      ((D.pt e.v1).x - (D.pt e.v0).x) * (a2 - b2)
  have e1 := (mul_eq_zero.mp hx).resolve_left h
  have e2 := (mul_eq_zero.mp hy).resolve_left h
  cases g; cases g'
  simp only [Vec.mk.injEq]
  exact ⟨by linear_combination e1, by linear_combination e2⟩

/-- The gradient as a formula. -/
def MeshData.gradOf (D : MeshData K) (V : Nat → K) (t : Nat) : Vec K :=
  let e := D.tri t
  let a1 := (D.pt e.v1).x - (D.pt e.v0).x
  let b1 := (D.pt e.v1).y - (D.pt e.v0).y
  let c1 := V e.v1 - V e.v0
  let a2 := (D.pt e.v2).x - (D.pt e.v0).x
  let b2 := (D.pt e.v2).y - (D.pt e.v0).y
  let c2 := V e.v2 - V e.v0
  ⟨-(b1 * c2 - b2 * c1) / (a1 * b2 - b1 * a2), -(a2 * c1 - a1 * c2) / (a1 * b2 - b1 * a2)⟩

theorem gradOf_isGradient {D : MeshData K} {V : Nat → K} {t : Nat} (h : D.area2 (D.tri t) ≠ 0) :
    D.IsGradient (D.tri t) V (D.gradOf V t) := by
  unfold MeshData.area2 at h
  have key : ∀ a1 b1 c1 a2 b2 c2 : K, a1 * b2 - b1 * a2 ≠ 0 →
      c1 = -(b1 * c2 - b2 * c1) / (a1 * b2 - b1 * a2) * a1 +
        -(a2 * c1 - a1 * c2) / (a1 * b2 - b1 * a2) * b1 ∧
      c2 = -(b1 * c2 - b2 * c1) / (a1 * b2 - b1 * a2) * a2 +
        -(a2 * c1 - a1 * c2) / (a1 * b2 - b1 * a2) * b2 := by
    intro a1 b1 c1 a2 b2 c2 hd
    have e : ∀ x y u v : K, x / (a1 * b2 - b1 * a2) * u + y / (a1 * b2 - b1 * a2) * v =
        (x * u + y * v) / (a1 * b2 - b1 * a2) := by intro x y u v; ring
    rw [e, e, eq_div_iff hd, eq_div_iff hd]
    constructor <;> ring
  exact key _ _ _ _ _ _ h

theorem slopes_ok {D : MeshData K} {v : List K} {t : Nat} (ht : t < D.tris.length)
    (hp : ∀ a ∈ (D.tri t).verts, a < D.pts.length) (hv : ∀ a ∈ (D.tri t).verts, a < v.length)
    (h : D.area2 (D.tri t) ≠ 0) :
    D.slopes v t = .ok ((D.gradOf (fn v) t).x, (D.gradOf (fn v) t).y) := by
  unfold MeshData.slopes
  rw [MeshData.rd_tri ht]
  simp only [Elem.verts, List.mem_cons, List.not_mem_nil, or_false, forall_eq_or_imp,
    forall_eq] at hp hv
  simp only [ok_bind]
  rw [MeshData.rd_pt hp.1, MeshData.rd_pt hp.2.1, MeshData.rd_pt hp.2.2, rd_fn hv.1,
    rd_fn hv.2.1, rd_fn hv.2.2]
  simp only [ok_bind, elemSlopes]
  have h' := h
  unfold MeshData.area2 at h'
  rw [fdiv_ok h', fdiv_ok h']
  rfl

theorem slopes_degenerate {D : MeshData K} {v : List K} {t : Nat} (ht : t < D.tris.length)
    (hp : ∀ a ∈ (D.tri t).verts, a < D.pts.length) (hv : ∀ a ∈ (D.tri t).verts, a < v.length)
    (h : D.area2 (D.tri t) = 0) : D.slopes v t = .error .nonfinite := by
  unfold MeshData.slopes
  rw [MeshData.rd_tri ht]
  simp only [Elem.verts, List.mem_cons, List.not_mem_nil, or_false, forall_eq_or_imp,
    forall_eq] at hp hv
  simp only [ok_bind]
  rw [MeshData.rd_pt hp.1, MeshData.rd_pt hp.2.1, MeshData.rd_pt hp.2.2, rd_fn hv.1,
    rd_fn hv.2.1, rd_fn hv.2.2]
  simp only [ok_bind, elemSlopes]
  have h' := h
  unfold MeshData.area2 at h'
  rw [h', fdiv_zero]
  rfl

theorem computeGrad_ok {D : MeshData K} (hsol : D.Solid)
    (hp : ∀ e ∈ D.tris, ∀ a ∈ e.verts, a < D.pts.length) {v : List K}
    (hl : D.pts.length ≤ v.length) :
    D.computeGrad v = .ok ((List.range D.tris.length).map (D.gradOf (fn v))) := by
  unfold MeshData.computeGrad
  refine fill_loop (by simp) (fun i hi => ?_)
  have hm := MeshData.tri_mem hi
  rw [slopes_ok hi (hp _ hm) (fun a ha => lt_of_lt_of_le (hp _ hm a ha) hl) (hsol _ hm)]
  rfl

theorem computeCurl_ok {D : MeshData K} (hsol : D.Solid)
    (hp : ∀ e ∈ D.tris, ∀ a ∈ e.verts, a < D.pts.length) {v : List K}
    (hl : D.pts.length ≤ v.length) :
    D.computeCurl v = .ok ((List.range D.tris.length).map
      (fun t => ⟨-(D.gradOf (fn v) t).y, (D.gradOf (fn v) t).x⟩)) := by
  unfold MeshData.computeCurl
  refine fill_loop (by simp) (fun i hi => ?_)
  have hm := MeshData.tri_mem hi
  rw [slopes_ok hi (hp _ hm) (fun a ha => lt_of_lt_of_le (hp _ hm a ha) hl) (hsol _ hm)]
  rfl

theorem localElem_no_ub {D : MeshData K} {e : Elem} {i : Nat} (hi : i ∈ e.verts)
    (hv : ∀ v ∈ e.verts, v < D.pts.length) :
    Sat (· ≠ .ub) (fun _ => True) (localElem D e i) := by
  have hov : ∃ p, otherVerts e i = .ok p ∧ p.1 ∈ e.verts ∧ p.2 ∈ e.verts := by
    unfold otherVerts
    simp only [Elem.verts, List.mem_cons, List.not_mem_nil, or_false] at hi
    split_ifs with h1 h2 h3
    · exact ⟨_, rfl, by simp [Elem.verts]⟩
    · exact ⟨_, rfl, by simp [Elem.verts]⟩
    · exact ⟨_, rfl, by simp [Elem.verts]⟩
    · tauto
  obtain ⟨⟨a, b⟩, q, ha, hb⟩ := hov
  unfold localElem
  rw [q]
  simp only [ok_bind]
  rw [doubleOrientedArea_ok (hv _ hi) (hv _ ha) (hv _ hb)]
  simp only [ok_bind]
  have hf : ∀ x y : K, Sat (· ≠ .ub) (fun _ => True) (fdiv x y) := by
    intro x y; unfold fdiv; split
    · exact Sat.error (by simp)
    · exact Sat.ok trivial
  obtain ⟨h1, h2⟩ : (if D.area2 ⟨i, a, b⟩ < 0 then ((b, a) : Nat × Nat) else (a, b)).1 <
      D.pts.length ∧ (if D.area2 ⟨i, a, b⟩ < 0 then ((b, a) : Nat × Nat) else (a, b)).2 <
      D.pts.length := by
    split
    · exact ⟨hv _ hb, hv _ ha⟩
    · exact ⟨hv _ ha, hv _ hb⟩
  generalize (if D.area2 ⟨i, a, b⟩ < 0 then ((b, a) : Nat × Nat) else (a, b)) = w at h1 h2
  rw [doubleOrientedArea_ok (hv _ hi) h1 h2, MeshData.rd_pt (hv _ hi), MeshData.rd_pt h1,
    MeshData.rd_pt h2]
  simp only [ok_bind]
  refine Sat.bind (hf _ _) fun _ _ => ?_
  refine Sat.bind (hf _ _) fun _ _ => ?_
  refine Sat.bind (hf _ _) fun _ _ => ?_
  refine Sat.bind (hf _ _) fun _ _ => ?_
  refine Sat.bind (hf _ _) fun _ _ => ?_
  refine Sat.bind (hf _ _) fun _ _ => ?_
  exact Sat.ok trivial

theorem stampElem_no_ub {α : Type} [Zero α] {D : MeshData K} {e : Elem} {i : Nat}
    (hi : i ∈ e.verts) (hv : ∀ v ∈ e.verts, v < D.pts.length) (upd : K → α → α) (A : Coo α) :
    Sat (· ≠ .ub) (fun _ => True) (do
      let g ← localElem D e i
      stampElem upd i g A) := by
  refine Sat.bind (localElem_no_ub hi hv) fun g _ => ?_
  have hu : ∀ (v : Nat) (f : α → α) (B : Coo α),
      Sat (· ≠ .ub) (fun _ => True) (addUpper i v f B) := by
    intro v f B
    unfold addUpper Coo.modify
    split
    · refine Sat.bind (P := fun _ => True) ?_ fun _ _ => Sat.ok trivial
      unfold Coo.touch
      split
      · exact Sat.error (by simp)
      · dsimp only
        split <;> exact Sat.ok trivial
    · exact Sat.ok trivial
  unfold stampElem
  refine Sat.bind (hu _ _ _) fun _ _ => ?_
  refine Sat.bind (hu _ _ _) fun _ _ => ?_
  exact hu _ _ _

/-- Exactly one gradient, independently of the order of the corners. -/
theorem isGradient_perm {D D' : MeshData K} (hpts : D'.pts = D.pts) {e e' : Elem}
    (hp : e'.verts.Perm e.verts) {V : Nat → K} {g : Vec K} (h : D.IsGradient e V g) :
    D'.IsGradient e' V g := by
  obtain ⟨h1, h2⟩ := h
  have hpt : D'.pt = D.pt := by funext v; unfold MeshData.pt; rw [hpts]
  have key : ∀ a ∈ e.verts, ∀ b ∈ e.verts, V a - V b =
      g.x * ((D.pt a).x - (D.pt b).x) + g.y * ((D.pt a).y - (D.pt b).y) := by
    have hz : ∀ a ∈ e.verts, V a - V e.v0 =
        g.x * ((D.pt a).x - (D.pt e.v0).x) + g.y * ((D.pt a).y - (D.pt e.v0).y) := by
      intro a ha
      simp only [Elem.verts, List.mem_cons, List.not_mem_nil, or_false] at ha
      rcases ha with rfl | rfl | rfl
      · ring
      · exact h1
      · exact h2
    intro a ha b hb
    linear_combination hz a ha - hz b hb
  have m : ∀ a, a ∈ e'.verts → a ∈ e.verts := fun a ha => hp.subset ha
  unfold MeshData.IsGradient
  rw [hpt]
  exact ⟨key _ (m _ (by simp [Elem.verts])) _ (m _ (by simp [Elem.verts])),
    key _ (m _ (by simp [Elem.verts])) _ (m _ (by simp [Elem.verts]))⟩

end Nikfemm
