import Verif.Lemmas.Winding
import Verif.Lemmas.Parts
import Verif.Props.InsertVertex

/-!
# C119: triangles never overlap, and leave no gaps
-/

namespace Nikfemm
variable {K : Type} [Field K] [LinearOrder K] [IsStrictOrderedRing K] {pos : Nat → Vec K} {m : TMesh K}
  {live : Nat → Prop} {v n1 n2 : Nat} {ss : Option Nat} {place : Located × TEdge} {T : Finset Nat}

section
variable (hT : ∀ t, live t ↔ t ∈ T) (S : m.Sound live) (C : m.Ccw live pos) (D : m.Delaunay live pos)
  (hv : ¬ m.HasCorner live v) (hn1 : ¬ live n1) (hn2 : ¬ live n2) (h10 : n1 ≠ 0) (h20 : n2 ≠ 0) (h12 : n1 ≠ n2)
  (hp : m.Place live pos v ss place)
include hT S C D hv hn1 hn2 h10 h20 h12 hp

/-- Inserting a vertex does not change how often the triangles wind around any point. -/
theorem insertAt_winding {T' : Finset Nat} (hT' : ∀ t, m.Grown live n1 n2 place t ↔ t ∈ T') {k : Nat}
    {m' : TMesh K} {e' : TEdge} (h : m.insertAt pos v n1 n2 ss k place = some (.inserted m' e')) (p : Vec K) :
    m'.winding T' pos p = m.winding T pos p := by
  obtain ⟨_, _, ⟨⟩, -, -, -, -, -, h6⟩ := insertAt_result hT S C D hv hn1 hn2 h10 h20 h12 hp hT' h
  have hF : ∀ a b : Nat, crossing p (pos a) (pos b) = - crossing p (pos b) (pos a) := fun a b => crossing_anti _ _ _
  rw [winding_total, winding_total, h6.total _ hF]
  clear h h6
  obtain ⟨loc, h⟩ := place
  cases loc with
  | onVertex => exact hp.elim
  | outside => exact hp.elim
  | inTriangle =>
    have hg : m.Grown live n1 n2 (.inTriangle, h) = fun t => live t ∨ t = n1 ∨ t = n2 := by
      funext t; simp [TMesh.Grown]
    rw [hg] at hT'
    exact three_total S hp.1 hn1 hn2 h10 h20 h12 hF hT hT'
  | onEdge =>
    obtain ⟨hh, -, r, r0, r1, hx, hy⟩ := hp
    have hg : m.Grown live n1 n2 (.onEdge, h) = fun t => live t ∨ t = n1 ∨ (t = n2 ∧ m.nb h ≠ space) := by
      funext t; simp [TMesh.Grown]
    rw [hg] at hT'
    exact edge_total S hh hn1 hn2 h10 h20 h12 (C.apex_ne S hh) hF (crossing_split r0 r1 hx hy) hT hT'

/-- The same for the triangles with one attribute: inserting a vertex moves no point from one region to another. -/
theorem insertAt_part (R : m.Regional live) {T' : Finset Nat} (hT' : ∀ t, m.Grown live n1 n2 place t ↔ t ∈ T') {k : Nat}
    {m' : TMesh K} {e' : TEdge} (h : m.insertAt pos v n1 n2 ss k place = some (.inserted m' e')) (a : K) (p : Vec K) :
    m'.winding (T'.filter fun t => m'.attr t = a) pos p = m.winding (T.filter fun t => m.attr t = a) pos p := by
  obtain ⟨_, _, ⟨⟩, -, -, -, -, -, h6⟩ := insertAt_result hT S C D hv hn1 hn2 h10 h20 h12 hp hT' h
  have hF : ∀ a b : Nat, crossing p (pos a) (pos b) = - crossing p (pos b) (pos a) := fun a b => crossing_anti _ _ _
  have hN1 : n1 ∉ T := fun hc => hn1 ((hT _).2 hc)
  have hN2 : n2 ∉ T := fun hc => hn2 ((hT _).2 hc)
  have hl : ∀ t ∈ T.filter (fun t => m.attr t = a), live t := fun t ht => (hT t).2 (Finset.mem_filter.1 ht).1
  have key : (m.splitAt v n1 n2 ss place).Regional (m.Grown live n1 n2 place) →
      (m.splitAt v n1 n2 ss place).total (fun a b => crossing p (pos a) (pos b))
        (T'.filter fun t => (m.splitAt v n1 n2 ss place).attr t = a) =
        m.total (fun a b => crossing p (pos a) (pos b)) (T.filter fun t => m.attr t = a) →
      m'.winding (T'.filter fun t => m'.attr t = a) pos p = m.winding (T.filter fun t => m.attr t = a) pos p := by
    intro r e
    have e1 : (T'.filter fun t => m'.attr t = a) = T'.filter fun t => (m.splitAt v n1 n2 ss place).attr t = a :=
      Finset.filter_congr fun t ht => by rw [(h6.regional r).2 t ((hT' t).2 ht)]
    rw [winding_total, winding_total, e1, h6.part r a _ hF]
    exact e
  clear h h6
  obtain ⟨loc, h⟩ := place
  cases loc with
  | onVertex => exact hp.elim
  | outside => exact hp.elim
  | inTriangle =>
    have hh : live h.1 := hp.1
    have hg : m.Grown live n1 n2 (.inTriangle, h) = fun t => live t ∨ t = n1 ∨ t = n2 := by
      funext t; simp [TMesh.Grown]
    rw [hg] at hT' key
    have hv3 : v ≠ m.org h ∧ v ≠ m.dest h ∧ v ≠ m.apex h :=
      ⟨fun e => hv ⟨lnext h, hh, e.symm⟩, fun e => hv ⟨lprev h, hh, e.symm⟩, fun e => hv ⟨h, hh, e.symm⟩⟩
    obtain ⟨a1, a2, a3, a4⟩ := splitThree_regional S hh hn1 hn2 h10 h20 h12 hv3 R
    refine key a4 (three_total_on S hh hn1 hn2 h10 h20 h12 hF hl fun t => ?_)
    rw [Finset.mem_filter, Finset.mem_filter, Finset.mem_filter, ← hT', ← hT, ← hT]
    constructor
    · rintro ⟨ht | rfl | rfl, ha⟩
      · exact .inl ⟨ht, by rw [← a3 t ht]; exact ha⟩
      · exact .inr ⟨⟨hh, by rw [← a1]; exact ha⟩, .inl rfl⟩
      · exact .inr ⟨⟨hh, by rw [← a2]; exact ha⟩, .inr rfl⟩
    · rintro (⟨ht, ha⟩ | ⟨⟨-, ha⟩, rfl | rfl⟩)
      · exact ⟨.inl ht, (a3 t ht).trans ha⟩
      · exact ⟨.inr (.inl rfl), a1.trans ha⟩
      · exact ⟨.inr (.inr rfl), a2.trans ha⟩
  | onEdge =>
    obtain ⟨hh, hss, r, r0, r1, hx, hy⟩ := hp
    have hg : m.Grown live n1 n2 (.onEdge, h) = fun t => live t ∨ t = n1 ∨ (t = n2 ∧ m.nb h ≠ space) := by
      funext t; simp [TMesh.Grown]
    rw [hg] at hT' key
    have hv3 : v ≠ m.org h ∧ v ≠ m.dest h ∧ v ≠ m.apex h :=
      ⟨fun e => hv ⟨lnext h, hh, e.symm⟩, fun e => hv ⟨lprev h, hh, e.symm⟩, fun e => hv ⟨h, hh, e.symm⟩⟩
    have hv' : m.nb h ≠ space → v ≠ m.apex (m.nb h) := fun hs e => hv ⟨_, S.nb_live hh hs, e.symm⟩
    obtain ⟨a1, a2, a3, a4⟩ := splitEdge_regional S hh (C.apex_ne S hh) hn1 hn2 h10 h20 h12 hss hv3 hv' R
    refine key a4 (edge_total_on S hh hn1 hn2 h10 h20 h12 (C.apex_ne S hh) hF (crossing_split r0 r1 hx hy) hl fun t => ?_)
    rw [Finset.mem_filter, Finset.mem_filter, Finset.mem_filter, Finset.mem_filter, ← hT', ← hT, ← hT, ← hT]
    constructor
    · rintro ⟨ht | rfl | ⟨rfl, hs⟩, ha⟩
      · exact .inl ⟨ht, by rw [← a3 t ht]; exact ha⟩
      · exact .inr (.inl ⟨⟨hh, by rw [← a1]; exact ha⟩, rfl⟩)
      · exact .inr (.inr ⟨⟨S.nb_live hh hs, by rw [← a2 hs]; exact ha⟩, rfl⟩)
    · rintro (⟨ht, ha⟩ | ⟨⟨-, ha⟩, rfl⟩ | ⟨⟨ht, ha⟩, rfl⟩)
      · exact ⟨.inl ht, (a3 t ht).trans ha⟩
      · exact ⟨.inr (.inl rfl), a1.trans ha⟩
      · have hs : m.nb h ≠ space := by
          intro hs
          rw [hs] at ht
          exact S.out ht
        exact ⟨.inr (.inr ⟨rfl, hs⟩), (a2 hs).trans ha⟩

/-- If no two triangles overlap then none do after a vertex is inserted. -/
theorem insertAt_apart (A : m.Apart live pos) {k : Nat} {m' : TMesh K} {e' : TEdge}
    (h : m.insertAt pos v n1 n2 ss k place = some (.inserted m' e')) :
    m'.Apart (m.Grown live n1 n2 place) pos := by
  obtain ⟨T', hT'⟩ := grown_finset (m := m) (n1 := n1) (n2 := n2) (place := place) hT
  obtain ⟨_, _, ⟨⟩, -, C', -⟩ := insertAt_delaunay hT S C D hv hn1 hn2 h10 h20 h12 hp h
  exact winding_apart hT hT' C C' (insertAt_winding hT S C D hv hn1 hn2 h10 h20 h12 hp hT' h) A

/-- What is inside of a triangle is still within one after a vertex is inserted, and nothing else is inside of one. -/
theorem insertAt_covers {k : Nat} {m' : TMesh K} {e' : TEdge}
    (h : m.insertAt pos v n1 n2 ss k place = some (.inserted m' e')) (p : Vec K) :
    (∀ t, live t → m.Inside pos t p → ∃ t', m.Grown live n1 n2 place t' ∧ m'.Within pos t' p) ∧
    (∀ t, m.Grown live n1 n2 place t → m'.Inside pos t p → ∃ t', live t' ∧ m.Within pos t' p) := by
  obtain ⟨T', hT'⟩ := grown_finset (m := m) (n1 := n1) (n2 := n2) (place := place) hT
  obtain ⟨_, _, ⟨⟩, -, C', -⟩ := insertAt_delaunay hT S C D hv hn1 hn2 h10 h20 h12 hp h
  have w := insertAt_winding hT S C D hv hn1 hn2 h10 h20 h12 hp hT' h
  exact ⟨fun t ht hi => winding_cover hT hT' C C' w ht hi, fun t ht hi =>
    winding_cover hT' hT C' C (fun p => (w p).symm) ht hi⟩

end

/-- The same for one flip: it changes no winding number, whatever the shapes of the triangles. -/
theorem flip_winding {e : TEdge} (hT : ∀ t, live t ↔ t ∈ T) (S : m.Sound live) (he : live e.1) (hs : m.nb e ≠ space)
    (p : Vec K) : (m.flip e).winding T pos p = m.winding T pos p := by
  rw [winding_total, winding_total]
  exact flip_total S he hs hT fun a b => crossing_anti _ _ _

/-- A flip that makes no clockwise triangle makes no two triangles overlap. -/
theorem flip_apart {e : TEdge} (hT : ∀ t, live t ↔ t ∈ T) (S : m.Sound live) (C : m.Ccw live pos) (he : live e.1)
    (hs : m.nb e ≠ space) (C' : (m.flip e).Ccw live pos) (A : m.Apart live pos) : (m.flip e).Apart live pos :=
  winding_apart hT hT C C' (flip_winding hT S he hs) A

/-! ## A kite -/

theorem kite5_apart (p : Vec ℚ) : squareTri.Apart (fun t => t = 1 ∨ t = 2) (kite5 p) := by
  have key : ∀ q, ¬ (squareTri.Inside (kite5 p) 1 q ∧ squareTri.Inside (kite5 p) 2 q) := by
    rintro q ⟨⟨h1, -⟩, h2, -⟩
    have h1 : 0 < ccw (⟨0, 1⟩ : Vec ℚ) ⟨0, -1⟩ q := h1
    have h2 : 0 < ccw (⟨0, -1⟩ : Vec ℚ) ⟨0, 1⟩ q := h2
    rw [ccw_swap] at h2
    linarith
  rintro t t' (rfl | rfl) (rfl | rfl) hne q ⟨a, b⟩
  · exact hne rfl
  · exact key q ⟨a, b⟩
  · exact key q ⟨b, a⟩
  · exact hne rfl

/-- A vertex inside a triangle next to the diagonal, which is flipped. -/
example : ∃ (m : TMesh ℚ) (live : Nat → Prop) (T : Finset Nat) (place : Located × TEdge) (v n1 n2 : Nat)
    (pos : Nat → Vec ℚ), (∀ t, live t ↔ t ∈ T) ∧ m.Sound live ∧ m.Ccw live pos ∧ m.Delaunay live pos ∧
    ¬ m.HasCorner live v ∧ ¬ live n1 ∧ ¬ live n2 ∧ n1 ≠ 0 ∧ n2 ≠ 0 ∧ n1 ≠ n2 ∧
    m.Place live pos v none place ∧ m.Apart live pos ∧ (∃ p, m.Inside pos 1 p) ∧
    (∃ m' e', m.insertAt pos v n1 n2 none 5 place = some (.inserted m' e')) := by
  have hp : squareTri.Place (fun t => t = 1 ∨ t = 2) (kite5 ⟨1 / 10, 0⟩) 5 none (.inTriangle, (1, 0)) :=
    ⟨.inl rfl, rfl, by unfold CcwPts; decide +kernel, by unfold CcwPts; decide +kernel,
      by unfold CcwPts; decide +kernel⟩
  refine ⟨squareTri, fun t => t = 1 ∨ t = 2, {1, 2}, (.inTriangle, (1, 0)), 5, 3, 4, kite5 ⟨1 / 10, 0⟩,
    by simp, squareTri_sound, kite5_ccw _, kite5_delaunay _, squareTri_corner, by decide, by decide, by decide,
    by decide, by decide, hp, kite5_apart _, ⟨⟨1, 0⟩, ?_, ?_, ?_⟩, ?_⟩
  · unfold CcwPts; decide +kernel
  · unfold CcwPts; decide +kernel
  · unfold CcwPts; decide +kernel
  · exact insertAt_ends (T := {1, 2}) (by simp) squareTri_sound (kite5_ccw _) (kite5_delaunay _) squareTri_corner
      (by decide) (by decide) (by decide) (by decide) (by decide) hp (by decide)

/-- The diagonal of the square can be flipped. -/
example : ∃ (m : TMesh ℚ) (live : Nat → Prop) (T : Finset Nat) (e : TEdge) (pos : Nat → Vec ℚ),
    (∀ t, live t ↔ t ∈ T) ∧ m.Sound live ∧ m.Ccw live pos ∧ live e.1 ∧ m.nb e ≠ space ∧
    (m.flip e).Ccw live pos ∧ m.Apart live pos := by
  refine ⟨squareTri, fun t => t = 1 ∨ t = 2, {1, 2}, (1, 0), kite5 ⟨0, 0⟩, by simp, squareTri_sound, kite5_ccw _,
    .inl rfl, by decide, ?_, kite5_apart _⟩
  rintro ⟨t, o⟩ (h | h) <;> simp only at h <;> subst h <;> fin_cases o <;>
    (show CcwPts _ _ _; unfold CcwPts; decide +kernel)

end Nikfemm
