import Verif.Lemmas.StartRing
import Mathlib.Data.Finset.Prod
import Mathlib.Data.Fintype.Card

/-!
# The walk of `preciselocate`
-/

set_option linter.unusedSectionVars false

namespace Nikfemm
variable {K : Type} [Field K] [LinearOrder K] [IsStrictOrderedRing K] {m : TMesh K} {live : Nat → Prop}
  {pos : Nat → Vec K} {p : Vec K} {stop : Bool}

theorem orient_eq (a b c : Vec K) : orient a b c = ccw a b c := by unfold orient ccw; ring

/-- What one round does. -/
theorem walkStep_cases (e : TEdge) :
    (m.walkStep pos p stop e = .inl (.onVertex, lprev e) ∧ (pos (m.apex e)).x = p.x ∧ (pos (m.apex e)).y = p.y) ∨
    (¬ ((pos (m.apex e)).x = p.x ∧ (pos (m.apex e)).y = p.y) ∧
      ((ccw (pos (m.org e)) (pos (m.apex e)) p ≤ 0 ∧ ccw (pos (m.apex e)) (pos (m.dest e)) p ≤ 0 ∧
        ((m.walkStep pos p stop e = .inl (.onEdge, lprev e) ∧ ccw (pos (m.org e)) (pos (m.apex e)) p = 0) ∨
          (m.walkStep pos p stop e = .inl (.onEdge, lnext e) ∧ ccw (pos (m.apex e)) (pos (m.dest e)) p = 0) ∨
          (m.walkStep pos p stop e = .inl (.inTriangle, e) ∧ ccw (pos (m.org e)) (pos (m.apex e)) p ≠ 0 ∧
            ccw (pos (m.apex e)) (pos (m.dest e)) p ≠ 0))) ∨
      ∃ b : TEdge, (b = lprev e ∧ 0 < ccw (pos (m.org e)) (pos (m.apex e)) p ∨
          b = lnext e ∧ 0 < ccw (pos (m.apex e)) (pos (m.dest e)) p) ∧
        ((m.walkStep pos p stop e = .inl (.outside, b) ∧
            ((m.checksegments = true ∧ stop = true ∧ (m.sg b).1 ≠ 0) ∨ (m.nb b).1 = 0)) ∨
          (m.walkStep pos p stop e = .inr (m.nb b) ∧ (m.nb b).1 ≠ 0 ∧
            ¬ (m.checksegments = true ∧ stop = true ∧ (m.sg b).1 ≠ 0))))) := by
  by_cases hv : (pos (m.apex e)).x = p.x ∧ (pos (m.apex e)).y = p.y
  · refine .inl ⟨?_, hv⟩
    unfold TMesh.walkStep
    exact if_pos hv
  refine .inr ⟨hv, ?_⟩
  unfold TMesh.walkStep
  simp only [orient_eq]
  rw [if_neg hv]
  by_cases hin : ¬ ccw (pos (m.org e)) (pos (m.apex e)) p > 0 ∧ ¬ ccw (pos (m.apex e)) (pos (m.dest e)) p > 0
  · refine .inl ⟨not_lt.1 hin.1, not_lt.1 hin.2, ?_⟩
    rw [if_pos hin]
    by_cases h1 : ccw (pos (m.org e)) (pos (m.apex e)) p = 0
    · rw [if_pos h1]; exact .inl ⟨rfl, h1⟩
    rw [if_neg h1]
    by_cases h2 : ccw (pos (m.apex e)) (pos (m.dest e)) p = 0
    · rw [if_pos h2]; exact .inr (.inl ⟨rfl, h2⟩)
    rw [if_neg h2]
    exact .inr (.inr ⟨rfl, h1, h2⟩)
  refine .inr ?_
  rw [if_neg hin]
  have fin : ∀ b : TEdge, (b = lprev e ∧ 0 < ccw (pos (m.org e)) (pos (m.apex e)) p ∨
          b = lnext e ∧ 0 < ccw (pos (m.apex e)) (pos (m.dest e)) p) → ∀ w : (Located × TEdge) ⊕ TEdge,
      w = (if (m.checksegments && stop && decide ((m.sg b).1 ≠ 0)) = true then .inl (.outside, b)
        else if (m.nb b).1 = 0 then .inl (.outside, b) else .inr (m.nb b)) →
      ∃ b : TEdge, (b = lprev e ∧ 0 < ccw (pos (m.org e)) (pos (m.apex e)) p ∨
          b = lnext e ∧ 0 < ccw (pos (m.apex e)) (pos (m.dest e)) p) ∧
        ((w = .inl (.outside, b) ∧
            ((m.checksegments = true ∧ stop = true ∧ (m.sg b).1 ≠ 0) ∨ (m.nb b).1 = 0)) ∨
          (w = .inr (m.nb b) ∧ (m.nb b).1 ≠ 0 ∧
            ¬ (m.checksegments = true ∧ stop = true ∧ (m.sg b).1 ≠ 0))) := by
    intro b hb w hw
    refine ⟨b, hb, ?_⟩
    have conv : (m.checksegments && stop && decide ((m.sg b).1 ≠ 0)) = true ↔
        (m.checksegments = true ∧ stop = true ∧ (m.sg b).1 ≠ 0) := by
      simp [Bool.and_eq_true, and_assoc]
    by_cases h1 : (m.checksegments && stop && decide ((m.sg b).1 ≠ 0)) = true
    · rw [if_pos h1] at hw
      exact .inl ⟨hw, .inl (conv.1 h1)⟩
    rw [if_neg h1] at hw
    by_cases h2 : (m.nb b).1 = 0
    · rw [if_pos h2] at hw
      exact .inl ⟨hw, .inr h2⟩
    rw [if_neg h2] at hw
    exact .inr ⟨hw, h2, fun h' => h1 (conv.2 h')⟩
  by_cases hl : (if ccw (pos (m.org e)) (pos (m.apex e)) p > 0 then
        if ccw (pos (m.apex e)) (pos (m.dest e)) p > 0 then
          decide (((pos (m.apex e)).x - p.x) * ((pos (m.dest e)).x - (pos (m.org e)).x) +
            ((pos (m.apex e)).y - p.y) * ((pos (m.dest e)).y - (pos (m.org e)).y) > 0)
        else true
      else false) = true
  · refine fin (lprev e) (.inl ⟨rfl, ?_⟩) _ ?_
    · by_contra hc
      rw [if_neg hc] at hl
      exact absurd hl (by simp)
    · rw [if_pos hl]
  · refine fin (lnext e) (.inr ⟨rfl, ?_⟩) _ ?_
    · by_contra hc
      have h1 : ccw (pos (m.org e)) (pos (m.apex e)) p > 0 := by
        by_contra h1
        exact hin ⟨h1, hc⟩
      rw [if_pos h1, if_neg hc] at hl
      exact hl rfl
    · rw [if_neg hl]

/-- A crossed edge leads to a triangle that has the point on the inner side of the edge. -/
theorem walk_left (S : m.Sound live) {e b : TEdge} (he : live e.1)
    (hb : b = lprev e ∧ 0 < ccw (pos (m.org e)) (pos (m.apex e)) p ∨
      b = lnext e ∧ 0 < ccw (pos (m.apex e)) (pos (m.dest e)) p) :
    live b.1 ∧ 0 < ccw (pos (m.dest b)) (pos (m.org b)) p ∧
      (m.nb b ≠ space → live (m.nb b).1 ∧ 0 < ccw (pos (m.org (m.nb b))) (pos (m.dest (m.nb b))) p) := by
  have h1 : live b.1 ∧ 0 < ccw (pos (m.dest b)) (pos (m.org b)) p := by
    rcases hb with ⟨rfl, h⟩ | ⟨rfl, h⟩
    · rw [org_lprev, dest_lprev]; exact ⟨he, h⟩
    · rw [org_lnext, dest_lnext]; exact ⟨he, h⟩
  refine ⟨h1.1, h1.2, fun hs => ?_⟩
  rw [(S.nb_ends h1.1 hs).1, (S.nb_ends h1.1 hs).2]
  exact ⟨S.nb_live h1.1 hs, h1.2⟩

/-- A point on the line through two corners, strictly on the inner sides of the other edges, lies between. -/
theorem between_of {a b c : Vec K} (hA : 0 < ccw a b c) (h0 : ccw a b p = 0) (h1 : 0 < ccw b c p)
    (h2 : 0 < ccw c a p) : ∃ r : K, 0 < r ∧ r < 1 ∧ p.x = a.x + r * (b.x - a.x) ∧ p.y = a.y + r * (b.y - a.y) := by
  have hs := ccw_sum a b c p
  refine ⟨ccw c a p / ccw a b c, div_pos h2 hA, (div_lt_one hA).2 (by linarith), ?_, ?_⟩
  · have hx : ccw a b c * p.x = ccw b c p * a.x + ccw c a p * b.x + ccw a b p * c.x := by unfold ccw; ring
    rw [h0] at hx hs
    field_simp
    have : ccw b c p = ccw a b c - ccw c a p := by linarith
    rw [this] at hx
    linarith
  · have hy : ccw a b c * p.y = ccw b c p * a.y + ccw c a p * b.y + ccw a b p * c.y := by unfold ccw; ring
    rw [h0] at hy hs
    field_simp
    have : ccw b c p = ccw a b c - ccw c a p := by linarith
    rw [this] at hy
    linarith

/-- Two lines through a corner meet only there. -/
theorem corner_of {a b c : Vec K} (hA : 0 < ccw a b c) (h1 : ccw b c p = 0) (h2 : ccw c a p = 0) :
    c.x = p.x ∧ c.y = p.y := by
  have hs := ccw_sum a b c p
  have hx : ccw a b c * p.x = ccw b c p * a.x + ccw c a p * b.x + ccw a b p * c.x := by unfold ccw; ring
  have hy : ccw a b c * p.y = ccw b c p * a.y + ccw c a p * b.y + ccw a b p * c.y := by unfold ccw; ring
  have h3 : ccw a b p = ccw a b c := by linarith
  rw [h1, h2, h3] at hx hy
  constructor
  · have : ccw a b c * (c.x - p.x) = 0 := by linarith
    have := (mul_eq_zero.1 this).resolve_left hA.ne'
    linarith
  · have : ccw a b c * (c.y - p.y) = 0 := by linarith
    have := (mul_eq_zero.1 this).resolve_left hA.ne'
    linarith

theorem preciselocate_mono {r : Located × TEdge} : ∀ {n k : Nat} {e : TEdge}, n ≤ k →
    m.preciselocate pos p stop n e = some r → m.preciselocate pos p stop k e = some r := by
  intro n
  induction n with
  | zero => intro k e _ h; exact absurd h (by simp [TMesh.preciselocate])
  | succ n ih =>
    intro k e hk h
    obtain ⟨j, rfl⟩ : ∃ j, k = j + 1 := ⟨k - 1, by omega⟩
    unfold TMesh.preciselocate at h ⊢
    cases hst : m.walkStep pos p stop e with
    | inl q => rw [hst] at h; exact h
    | inr q =>
      rw [hst] at h
      exact ih (by omega) h

/-! ## The walk ends -/

/-- A point of a circle beyond the edge that is crossed lies beyond the edge over which the walk came. -/
theorem beyond_first {o a b c q : Vec K} (h : 0 < ccw a b c) (hb : circlePow o a b = 0) (hc : circlePow o a c = 0)
    (hq : circlePow o a q = 0) (h1 : 0 < ccw a c q) : 0 < ccw a b q := by
  by_contra hn
  have e1 : ccw b c a = ccw a b c := by unfold ccw; ring
  have e2 : ccw c q a = ccw a c q := by unfold ccw; ring
  have e3 : ccw q b a = - ccw a b q := by unfold ccw; ring
  have hs := ccw_sum b c q a
  have := circlePow_inside (o := o) (a := b) (b := c) (c := q) (v := a)
    ((circlePow_base hb c).trans hc) ((circlePow_base hb q).trans hq) (by linarith) (by linarith) (by linarith)
    (.inr (.inr ⟨by linarith, by linarith⟩)) (by intro h0; linarith)
  rw [circlePow_base hb, circlePow_self] at this
  exact lt_irrefl _ this

theorem beyond_second {o a b c q : Vec K} (h : 0 < ccw a b c) (hb : circlePow o a b = 0) (hc : circlePow o a c = 0)
    (hq : circlePow o a q = 0) (h1 : 0 < ccw c b q) : 0 < ccw a b q := by
  by_contra hn
  have e1 : ccw c a b = ccw a b c := by unfold ccw; ring
  have e2 : ccw q c b = ccw c b q := by unfold ccw; ring
  have e3 : ccw a q b = - ccw a b q := by unfold ccw; ring
  have hs := ccw_sum a q c b
  have := circlePow_inside (o := o) (a := a) (b := q) (c := c) (v := b)
    hq hc (by linarith) (by linarith) (by linarith)
    (.inl ⟨by linarith, by linarith⟩) (by intro h0; linarith)
  rw [hb] at this
  exact lt_irrefl _ this

/-- The circle of each triangle. -/
theorem circles_exist (C : m.Ccw live pos) : ∃ c : Nat → Vec K, ∀ x y : TEdge, live x.1 → y.1 = x.1 →
    circlePow (c x.1) (pos (m.apex x)) (pos (m.apex y)) = 0 := by
  classical
  have : ∀ t, ∃ o : Vec K, live t → ∀ x y : TEdge, x.1 = t → y.1 = t →
      circlePow o (pos (m.apex x)) (pos (m.apex y)) = 0 := by
    intro t
    by_cases ht : live t
    · obtain ⟨o, ho⟩ := circum (h := (t, 0)) C ht
      exact ⟨o, fun _ => ho⟩
    · exact ⟨⟨0, 0⟩, fun h => absurd h ht⟩
  choose c hc using this
  exact ⟨c, fun x y hx hy => hc x.1 hx x y rfl hy⟩

section
variable (S : m.Sound live) (C : m.Ccw live pos) {c : Nat → Vec K}
  (hc : ∀ x y : TEdge, live x.1 → y.1 = x.1 → circlePow (c x.1) (pos (m.apex x)) (pos (m.apex y)) = 0)
include S C hc

/-- The circles on both sides of an edge. -/
theorem circles_cross {b : TEdge} (hb : live b.1) (hs : m.nb b ≠ space) (hg : m.sg b = noSub)
    (hd : m.LocallyDelaunay pos b) (hp : ccw (pos (m.org b)) (pos (m.dest b)) p < 0) :
    circlePow (c (m.nb b).1) (pos (m.apex (m.nb b))) p < circlePow (c b.1) (pos (m.apex b)) p ∨
      ∀ w, circlePow (c (m.nb b).1) (pos (m.apex (m.nb b))) w = circlePow (c b.1) (pos (m.apex b)) w := by
  have hn := S.nb_live hb hs
  have far : ccw (pos (m.org b)) (pos (m.dest b)) (pos (m.apex (m.nb b))) < 0 := by
    have := C (m.nb b) hn
    rw [(S.nb_ends hb hs).1, (S.nb_ends hb hs).2] at this
    have h' : 0 < ccw (pos (m.dest b)) (pos (m.org b)) (pos (m.apex (m.nb b))) := this
    rw [ccw_swap]; linarith
  have pw : 0 ≤ circlePow (c b.1) (pos (m.org b)) (pos (m.apex (m.nb b))) :=
    circum_beyond C hb (fun x y hx hy => by have := hc x y (hx ▸ hb) (hy.trans hx.symm); rwa [hx] at this)
      (x := b) (y := lnext b) rfl rfl hd hs hg
  have b1 : ∀ w, circlePow (c b.1) (pos (m.apex b)) w = circlePow (c b.1) (pos (m.org b)) w :=
    circlePow_base (hc (lnext b) b hb rfl)
  have dn : m.apex (lprev (m.nb b)) = m.org b := (S.nb_ends hb hs).2
  have on : m.apex (lnext (m.nb b)) = m.dest b := (S.nb_ends hb hs).1
  have b2 : ∀ w, circlePow (c (m.nb b).1) (pos (m.apex (m.nb b))) w =
      circlePow (c (m.nb b).1) (pos (m.org b)) w := by
    have := hc (lprev (m.nb b)) (m.nb b) hn rfl
    rw [dn] at this
    exact circlePow_base this
  have z1 : circlePow (c b.1) (pos (m.org b)) (pos (m.dest b)) = 0 := hc (lnext b) (lprev b) hb rfl
  have z2 : circlePow (c (m.nb b).1) (pos (m.org b)) (pos (m.dest b)) = 0 := by
    have := hc (lprev (m.nb b)) (lnext (m.nb b)) hn rfl
    rwa [dn, on] at this
  have z3 : circlePow (c (m.nb b).1) (pos (m.org b)) (pos (m.apex (m.nb b))) = 0 := by
    have := hc (lprev (m.nb b)) (m.nb b) hn rfl
    rwa [dn] at this
  have key : ∀ w, ccw (pos (m.org b)) (pos (m.dest b)) (pos (m.apex (m.nb b))) *
      (circlePow (c b.1) (pos (m.org b)) w - circlePow (c (m.nb b).1) (pos (m.org b)) w) =
      ccw (pos (m.org b)) (pos (m.dest b)) w * circlePow (c b.1) (pos (m.org b)) (pos (m.apex (m.nb b))) := by
    intro w
    have h1 := circlePow_diff (c b.1) (c (m.nb b).1) (pos (m.org b)) (pos (m.dest b)) (pos (m.apex (m.nb b))) w
    rw [z1, z2, z3, ccw_anti _ w] at h1
    linarith
  rcases pw.eq_or_lt with h0 | h0
  · refine .inr fun w => ?_
    have := key w
    rw [← h0, mul_zero] at this
    have := (mul_eq_zero.1 this).resolve_left far.ne
    rw [b1, b2]; linarith
  · refine .inl ?_
    rw [b1, b2]
    have h1 := key p
    have h2 : ccw (pos (m.org b)) (pos (m.dest b)) p *
        circlePow (c b.1) (pos (m.org b)) (pos (m.apex (m.nb b))) < 0 := mul_neg_of_neg_of_pos hp h0
    rw [← h1] at h2
    have := (pos_iff_pos_of_mul_pos (a := - ccw (pos (m.org b)) (pos (m.dest b)) (pos (m.apex (m.nb b))))
      (b := circlePow (c b.1) (pos (m.org b)) p - circlePow (c (m.nb b).1) (pos (m.org b)) p) (by linarith)).1
      (by linarith)
    linarith

/-- How far the walk is: the power of the point with respect to the circle of the triangle, and among triangles
with the same circle the number of corners on the circle in front. -/
def walkStage (m : TMesh K) (pos : Nat → Vec K) (p : Vec K) (c : Nat → Vec K) (T : Finset Nat) (e : TEdge) : K × Nat :=
  (circlePow (c e.1) (pos (m.apex e)) p,
    ((T ×ˢ Finset.univ).filter fun x : TEdge => circlePow (c e.1) (pos (m.apex e)) (pos (m.apex x)) = 0 ∧
      0 < ccw (pos (m.org e)) (pos (m.dest e)) (pos (m.apex x))).card)

def WalkLt (x y : K × Nat) : Prop := x.1 < y.1 ∨ x.1 = y.1 ∧ x.2 < y.2

omit S C hc in
theorem WalkLt.irrefl (x : K × Nat) : ¬ WalkLt x x := by
  rintro (h | h)
  · exact lt_irrefl _ h
  · exact lt_irrefl _ h.2

omit S C hc in
theorem WalkLt.trans {x y z : K × Nat} (h1 : WalkLt x y) (h2 : WalkLt y z) : WalkLt x z := by
  rcases h1 with h1 | h1 <;> rcases h2 with h2 | h2
  · exact .inl (h1.trans h2)
  · exact .inl (h2.1 ▸ h1)
  · exact .inl (h1.1 ▸ h2)
  · exact .inr ⟨h1.1.trans h2.1, h1.2.trans h2.2⟩

theorem walkStage_next {T : Finset Nat} (hT : ∀ t, live t ↔ t ∈ T) {e b : TEdge} (he : live e.1)
    (hb : b = lprev e ∧ 0 < ccw (pos (m.org e)) (pos (m.apex e)) p ∨
      b = lnext e ∧ 0 < ccw (pos (m.apex e)) (pos (m.dest e)) p)
    (hs : m.nb b ≠ space) (hg : m.sg b = noSub) (hd : m.LocallyDelaunay pos b) :
    WalkLt (walkStage m pos p c T (m.nb b)) (walkStage m pos p c T e) := by
  obtain ⟨hl, hp, -⟩ := walk_left S he hb
  have heb : e.1 = b.1 := by rcases hb with ⟨rfl, -⟩ | ⟨rfl, -⟩ <;> rfl
  have be : ∀ w, circlePow (c b.1) (pos (m.apex b)) w = circlePow (c e.1) (pos (m.apex e)) w := by
    intro w
    rw [← heb]
    exact circlePow_base (hc e b he heb.symm) w
  have hp' : ccw (pos (m.org b)) (pos (m.dest b)) p < 0 := by rw [ccw_swap]; linarith
  rcases circles_cross S C hc hl hs hg hd hp' with h | h
  · rw [be] at h; exact .inl h
  · have h' : ∀ w, circlePow (c (m.nb b).1) (pos (m.apex (m.nb b))) w = circlePow (c e.1) (pos (m.apex e)) w :=
      fun w => (h w).trans (be w)
    refine .inr ⟨h' p, Finset.card_lt_card ?_⟩
    have tri : 0 < ccw (pos (m.org e)) (pos (m.dest e)) (pos (m.apex e)) := C e he
    have fr : ∀ q, circlePow (c e.1) (pos (m.apex e)) q = 0 →
        0 < ccw (pos (m.org (m.nb b))) (pos (m.dest (m.nb b))) q → 0 < ccw (pos (m.org e)) (pos (m.dest e)) q := by
      intro q hq h1
      have zb : circlePow (c e.1) (pos (m.org e)) (pos (m.dest e)) = 0 := hc (lnext e) (lprev e) he rfl
      have zc : circlePow (c e.1) (pos (m.org e)) (pos (m.apex e)) = 0 := hc (lnext e) e he rfl
      have zq : circlePow (c e.1) (pos (m.org e)) q = 0 := by rw [← circlePow_base zc]; exact hq
      rw [(S.nb_ends hl hs).1, (S.nb_ends hl hs).2] at h1
      rcases hb with ⟨rfl, -⟩ | ⟨rfl, -⟩
      · rw [org_lprev, dest_lprev] at h1
        exact beyond_first tri zb zc zq h1
      · rw [org_lnext, dest_lnext] at h1
        exact beyond_second tri zb zc zq h1
    rw [Finset.ssubset_iff_of_subset]
    · refine ⟨e, ?_, ?_⟩
      · simp only [Finset.mem_filter, Finset.mem_product, Finset.mem_univ, and_true]
        exact ⟨(hT _).1 he, circlePow_self _ _, tri⟩
      · simp only [Finset.mem_filter, not_and]
        intro _ _
        rw [(S.nb_ends hl hs).1, (S.nb_ends hl hs).2]
        rcases hb with ⟨rfl, -⟩ | ⟨rfl, -⟩
        · rw [org_lprev, dest_lprev]
          have : ccw (pos (m.org e)) (pos (m.apex e)) (pos (m.apex e)) = 0 := by unfold ccw; ring
          rw [this]; exact lt_irrefl _
        · rw [org_lnext, dest_lnext]
          have : ccw (pos (m.apex e)) (pos (m.dest e)) (pos (m.apex e)) = 0 := by unfold ccw; ring
          rw [this]; exact lt_irrefl _
    · intro x hx
      simp only [Finset.mem_filter] at hx ⊢
      refine ⟨hx.1, ?_, fr _ ?_ hx.2.2⟩
      · rw [← h']; exact hx.2.1
      · rw [← h']; exact hx.2.1

end

/-- The walk ends. -/
theorem preciselocate_some {T : Finset Nat} (hT : ∀ t, live t ↔ t ∈ T) (S : m.Sound live) (C : m.Ccw live pos)
    (D : m.Delaunay live pos) (hstop : stop = true ∨ ∀ x : TEdge, live x.1 → m.sg x = noSub) {e : TEdge}
    (he : live e.1) {n : Nat} (hn : 3 * T.card ≤ n) :
    ∃ r, m.preciselocate pos p stop n e = some r := by
  classical
  obtain ⟨c, hc⟩ := circles_exist C
  let rank : TEdge → Nat := fun e =>
    ((T ×ˢ Finset.univ).filter fun x : TEdge => WalkLt (walkStage m pos p c T x) (walkStage m pos p c T e)).card
  have main : ∀ k e, live e.1 → rank e < k → ∃ r, m.preciselocate pos p stop k e = some r := by
    intro k
    induction k with
    | zero => intro e _ h; exact absurd h (by omega)
    | succ k ih =>
      intro e he hr
      unfold TMesh.preciselocate
      cases hst : m.walkStep pos p stop e with
      | inl q => exact ⟨q, rfl⟩
      | inr q =>
        show ∃ r, m.preciselocate pos p stop k q = some r
        have hcs := walkStep_cases (m := m) (pos := pos) (p := p) (stop := stop) e
        rw [hst] at hcs
        simp only [reduceCtorEq, false_and, false_or, or_false, and_false, Sum.inr.injEq] at hcs
        obtain ⟨-, b, hb, rfl, h0, hns⟩ := hcs
        obtain ⟨hl, -, hnx⟩ := walk_left S he hb
        have hs : m.nb b ≠ space := fun h' => h0 (by rw [h']; rfl)
        have hg : m.sg b = noSub := by
          rcases hstop with rfl | h
          · by_contra hg
            apply hns
            refine ⟨?_, rfl, ?_⟩
            · by_contra h1
              exact hg (S.chk (by simpa using h1) b hl)
            · rcases S.seg b hl with h' | h'
              · exact absurd h' hg
              · exact h'.1
          · exact h b hl
        have hB := walkStage_next (p := p) S C hc hT he hb hs hg (D b hl)
        refine ih _ (hnx hs).1 (lt_of_lt_of_le (Finset.card_lt_card ?_) (Nat.lt_succ_iff.1 hr))
        rw [Finset.ssubset_iff_of_subset]
        · refine ⟨m.nb b, ?_, ?_⟩
          · simp only [Finset.mem_filter, Finset.mem_product, Finset.mem_univ, and_true]
            exact ⟨(hT _).1 (hnx hs).1, hB⟩
          · simp only [Finset.mem_filter, not_and]
            exact fun _ => WalkLt.irrefl _
        · intro x hx
          simp only [Finset.mem_filter] at hx ⊢
          exact ⟨hx.1, hx.2.trans hB⟩
  refine main n e he (lt_of_lt_of_le ?_ hn)
  have : (T ×ˢ (Finset.univ : Finset (Fin 3))).card = 3 * T.card := by
    rw [Finset.card_product, Finset.card_univ, Fintype.card_fin, mul_comm]
  rw [← this]
  refine Finset.card_lt_card ?_
  rw [Finset.ssubset_iff_of_subset (Finset.filter_subset _ _)]
  refine ⟨e, ?_, ?_⟩
  · simp only [Finset.mem_product, Finset.mem_univ, and_true]
    exact (hT _).1 he
  · simp only [Finset.mem_filter, not_and]
    exact fun _ => WalkLt.irrefl _

end Nikfemm
