import Verif.Model.Fixup
import Verif.Spec.Fixup
import Verif.Lemmas.Rim
import Verif.Lemmas.Circling
import Verif.Props.DelaunayFlip

/-!
# `delaunayfixup`: lemmas
-/

set_option linter.unusedSectionVars false
set_option linter.unusedSimpArgs false

namespace Nikfemm
variable {K : Type} [Field K] [LinearOrder K] [IsStrictOrderedRing K]

theorem off_iff_cornerAt {m : TMesh K} {v t : Nat} : m.Off v t ↔ ¬ m.CornerAt v t := by
  unfold TMesh.Off TMesh.CornerAt; push Not; rfl

/-- What a call does: nothing, or a flip and two calls. -/
theorem fixup_cases {pos : Nat → Vec K} {left : Bool} {m : TMesh K} {live : Nat → Prop} (S : m.Sound live) {fix : TEdge}
    (h : live fix.1) : ((m.nb (lnext fix) = space ∨ m.sg (lnext fix) ≠ noSub ∨
      (if left then orient (pos (m.org fix)) (pos (m.dest fix)) (pos (m.apex (m.nb (lnext fix)))) ≤ 0
        else orient (pos (m.apex (m.nb (lnext fix)))) (pos (m.apex fix)) (pos (m.org fix)) ≤ 0) ∨
      (0 < orient (pos (m.apex fix)) (pos (m.dest fix)) (pos (m.apex (m.nb (lnext fix)))) ∧
        incircle (pos (m.dest fix)) (pos (m.apex (m.nb (lnext fix)))) (pos (m.apex fix)) (pos (m.org fix)) ≤ 0)) ∧
      ∀ n, m.delaunayfixup pos left (n + 1) fix = some (m, fix)) ∨
    ((m.nb (lnext fix) ≠ space ∧ m.sg (lnext fix) = noSub ∧ m.org fix ≠ m.apex (m.nb (lnext fix)) ∧
      (if left then 0 < orient (pos (m.org fix)) (pos (m.dest fix)) (pos (m.apex (m.nb (lnext fix))))
        else 0 < orient (pos (m.apex (m.nb (lnext fix)))) (pos (m.apex fix)) (pos (m.org fix))) ∧
      (0 < orient (pos (m.apex fix)) (pos (m.dest fix)) (pos (m.apex (m.nb (lnext fix)))) →
        0 < incircle (pos (m.dest fix)) (pos (m.apex (m.nb (lnext fix)))) (pos (m.apex fix)) (pos (m.org fix)))) ∧
      ∀ n, m.delaunayfixup pos left (n + 1) fix =
        ((m.flip (lnext fix)).delaunayfixup pos left n (lprev fix)).bind fun r =>
          (r.1.delaunayfixup pos left n (m.nb (lnext fix))).map fun r' => (r'.1, r.2)) := by
  have e1 : m.apex (lnext fix) = m.org fix := rfl
  have e2 : m.org (lnext fix) = m.dest fix := org_lnext fix
  have e3 : m.dest (lnext fix) = m.apex fix := dest_lnext fix
  by_cases c1 : (m.nb (lnext fix)).1 = 0
  · refine .inl ⟨.inl ?_, fun n => by rw [TMesh.delaunayfixup]; simp only [c1, if_true]⟩
    rcases S.mate (lnext fix) h with h0 | h0
    · exact h0
    · rw [c1] at h0
      exact absurd h0.1 S.out
  by_cases c2 : (m.sg (lnext fix)).1 ≠ 0
  · exact .inl ⟨.inr (.inl fun h0 => c2 (by rw [h0]; rfl)), fun n => by
      rw [TMesh.delaunayfixup]; simp only [c1, if_false, if_pos c2]⟩
  by_cases c3 : (if left then orient (pos (m.org fix)) (pos (m.dest fix)) (pos (m.apex (m.nb (lnext fix)))) ≤ 0
      else orient (pos (m.apex (m.nb (lnext fix)))) (pos (m.apex fix)) (pos (m.org fix)) ≤ 0)
  · exact .inl ⟨.inr (.inr (.inl c3)), fun n => by
      rw [TMesh.delaunayfixup]; simp only [c1, if_false, if_neg c2, e1, e2, e3]
      rw [if_pos c3]⟩
  by_cases c4 : 0 < orient (pos (m.apex fix)) (pos (m.dest fix)) (pos (m.apex (m.nb (lnext fix)))) ∧
      incircle (pos (m.dest fix)) (pos (m.apex (m.nb (lnext fix)))) (pos (m.apex fix)) (pos (m.org fix)) ≤ 0
  · exact .inl ⟨.inr (.inr (.inr c4)), fun n => by
      rw [TMesh.delaunayfixup]; simp only [c1, if_false, if_neg c2, e1, e2, e3]
      rw [if_neg c3, if_pos c4]⟩
  have c3' : if left then 0 < orient (pos (m.org fix)) (pos (m.dest fix)) (pos (m.apex (m.nb (lnext fix))))
        else 0 < orient (pos (m.apex (m.nb (lnext fix)))) (pos (m.apex fix)) (pos (m.org fix)) := by
    cases left <;> simpa using c3
  refine .inr ⟨⟨fun h0 => c1 (by rw [h0]; rfl), (S.sg_zero (x := lnext fix) h).resolve_right c2, ?_, c3', fun h0 => ?_⟩,
    fun n => ?_⟩
  · intro hv
    rw [← hv] at c3'
    cases left <;> simp [orient] at c3' <;> linarith
  · push Not at c4
    exact c4 h0
  · rw [TMesh.delaunayfixup]; simp only [c1, if_false, if_neg c2, e1, e2, e3]
    rw [if_neg c3, if_neg c4]

section
variable {m : TMesh K} {live : Nat → Prop} {fix : TEdge} (S : m.Sound live) (h : live fix.1)
  (hs : m.nb (lnext fix) ≠ space) (hseg : m.sg (lnext fix) = noSub) (hf : m.org fix ≠ m.apex (m.nb (lnext fix)))
include S h hs hseg hf

/-- The triangle beyond the edge does not have the vertex. -/
theorem fixup_off : m.Off (m.org fix) (m.nb (lnext fix)).1 := by
  obtain ⟨a1, a2, a3⟩ := S.apex_ne fix h
  obtain ⟨n1, n2⟩ := S.nb_ends (x := lnext fix) h hs
  rw [off_iff (m.nb (lnext fix)), n1, n2, org_lnext, dest_lnext]
  exact ⟨a3, a1.symm, hf.symm⟩

/-- The handles after the flip. -/
theorem fixup_handles : (m.flip (lnext fix)).org (lprev fix) = m.org fix ∧
    (m.flip (lnext fix)).dest (lprev fix) = m.dest fix ∧
    (m.flip (lnext fix)).org (m.nb (lnext fix)) = m.org fix := by
  obtain ⟨-, -, -, ⟨A1, A2, A3⟩, B1, B2, B3⟩ := flip_view S (e := lnext fix) h hs hseg hf
  rw [lprev_lnext] at A1 A2 A3
  refine ⟨?_, ?_, ?_⟩
  · rw [org_lprev, A3]; rfl
  · rw [dest_lprev, A1, org_lnext]
  · rw [← lprev_lnext (m.nb (lnext fix)), org_lprev, B3]; rfl

theorem fixup_count {T : Finset Nat} (hT : ∀ t, live t ↔ t ∈ T) :
    offCount T (m.flip (lnext fix)) (m.org fix) + 1 ≤ offCount T m (m.org fix) := by
  classical
  obtain ⟨F1, -, -, ⟨-, -, A3⟩, -, -, B3⟩ := flip_view S (e := lnext fix) h hs hseg hf
  have hlt := S.nb_live (x := lnext fix) h hs
  have hsub : T.filter (fun t => (m.flip (lnext fix)).Off (m.org fix) t) ⊆
      (T.filter fun t => m.Off (m.org fix) t).erase (m.nb (lnext fix)).1 := by
    intro t ht
    rw [Finset.mem_filter] at ht
    have t1 : t ≠ (lnext fix).1 := by rintro rfl; exact ht.2 (lprev (lnext fix)).2 A3
    have t2 : t ≠ (m.nb (lnext fix)).1 := by rintro rfl; exact ht.2 (lnext (m.nb (lnext fix))).2 B3
    rw [Finset.mem_erase, Finset.mem_filter]
    refine ⟨t2, ht.1, fun q => ?_⟩
    rw [← (F1 (t, q) t1 t2).1]
    exact ht.2 q
  have hmem : (m.nb (lnext fix)).1 ∈ T.filter fun t => m.Off (m.org fix) t :=
    Finset.mem_filter.2 ⟨(hT _).1 hlt, fixup_off S h hs hseg hf⟩
  have h1 := Finset.card_le_card hsub
  have h2 := Finset.card_erase_add_one hmem
  show (T.filter fun t => (m.flip (lnext fix)).Off (m.org fix) t).card + 1 ≤ (T.filter fun t => m.Off (m.org fix) t).card
  omega

/-- Another edge opposite to the vertex stays locally Delaunay if no triangle is clockwise. -/
theorem fixup_ld {pos : Nat → Vec K} (C : m.Ccw live pos) (C' : (m.flip (lnext fix)).Ccw live pos) {x : TEdge}
    (hx : live x.1) (x1 : x.1 ≠ fix.1) (hv : m.org x = m.org fix) (L : m.LocallyDelaunay pos (lnext x)) :
    (m.flip (lnext fix)).LocallyDelaunay pos (lnext x) := by
  have S' := flip_sound S (e := lnext fix) h hs hseg hf
  have hoff := fixup_off S h hs hseg hf
  obtain ⟨F1, F2, F3, ⟨A1, A2, A3⟩, B1, B2, B3⟩ := flip_view S (e := lnext fix) h hs hseg hf
  have x2 : x.1 ≠ (m.nb (lnext fix)).1 := by
    intro hq
    have := (off_iff x).1 (hq ▸ hoff)
    exact this.1 hv
  rw [ld_iff C' (e := lnext x) hx]
  intro g1 g2
  have w2 := (F1 (lnext x) x1 x2)
  rw [F2 (lnext x) hx x1 x2] at g1
  by_cases hm : (m.nb (lnext x)).1 = (lnext fix).1 ∨ (m.nb (lnext x)).1 = (m.nb (lnext fix)).1
  · exfalso
    have hzs : m.nb (lnext x) ≠ space := by
      intro h0
      rw [h0] at hm
      rcases hm with hm | hm
      · exact S.out (show live (space).1 from hm ▸ h)
      · exact S.out (show live (space).1 from hm ▸ S.nb_live (x := lnext fix) h hs)
    obtain ⟨z1, z2⟩ := S.nb_ends (x := lnext x) hx hzs
    have zz := S.nb_nb (x := lnext x) hx hzs
    have ff := S.nb_nb (x := lnext fix) h hs
    rw [dest_lnext] at z1
    rw [org_lnext] at z2
    obtain ⟨a1, a2, a3⟩ := S.apex_ne x hx
    rw [hv] at a1 a3
    have cx := C.area (e := lnext x) hx
    rw [org_lnext, dest_lnext, apex_lnext, hv] at cx
    obtain ⟨n1, n2⟩ := S.nb_ends (x := lnext fix) h hs
    rcases hm with hm | hm
    · rcases edge_cases fix.2 (x := m.nb (lnext x)) hm with h' | h' | h'
      · have h' : m.nb (lnext x) = fix := h'
        rw [h'] at z1
        exact a3 z1.symm
      · have h' : m.nb (lnext x) = lnext fix := h'
        rw [h'] at zz
        exact x2 (congrArg Prod.fst zz).symm
      · have h' : m.nb (lnext x) = lprev fix := h'
        rw [h', dest_lprev] at z2
        exact a1 z2
    · rcases edge_cases (m.nb (lnext fix)).2 (x := m.nb (lnext x)) hm with h' | h' | h'
      · have h' : m.nb (lnext x) = m.nb (lnext fix) := h'
        rw [h', ff] at zz
        exact x1 (congrArg Prod.fst zz).symm
      · have h' : m.nb (lnext x) = lnext (m.nb (lnext fix)) := h'
        rw [h', org_lnext, n2] at z1
        rw [h', dest_lnext] at z2
        have c := C'.area (e := lprev (lnext fix)) h
        rw [A1, A2, A3, z1, z2, ccw_swap] at c
        have e : m.apex (lnext fix) = m.org fix := rfl
        rw [e] at c
        linarith
      · have h' : m.nb (lnext x) = lprev (m.nb (lnext fix)) := h'
        rw [h', org_lprev] at z1
        rw [h', dest_lprev, n1] at z2
        have c := C'.area (e := lnext (m.nb (lnext fix))) (S.nb_live (x := lnext fix) h hs)
        rw [B1, B2, B3, z1, z2, ccw_swap] at c
        have e : m.apex (lnext fix) = m.org fix := rfl
        rw [e] at c
        linarith
  · push Not at hm
    have w := F3 (lnext x) hx x1 x2 hm.1 hm.2
    rw [w] at g2 ⊢
    rw [w2.1, w2.2.1, w2.2.2, (F1 (m.nb (lnext x)) hm.1 hm.2).1]
    exact (ld_iff C (e := lnext x) hx).1 L g1 g2

end

/-- What a call leaves behind, for the vertex `v`. -/
structure FixPost (live : Nat → Prop) (T : Finset Nat) (pos : Nat → Vec K) (v : Nat) (m : TMesh K) (fix : TEdge)
    (m' : TMesh K) (fix' : TEdge) : Prop where
  sound : m'.Sound live
  keeps : ∀ m0, Keeps live T pos m0 m → Keeps live T pos m0 m'
  attr : m'.attr = m.attr
  tri : fix'.1 = fix.1
  org : m'.org fix' = v
  dest : m'.dest fix' = m.dest fix
  other : ∀ t, t ≠ fix.1 → ¬ m.Off v t → ∀ o, m'.apex (t, o) = m.apex (t, o)
  off : ∀ t, m'.Off v t → m.Off v t

theorem not_off {m : TMesh K} {v : Nat} {x : TEdge} (h : m.org x = v) : ¬ m.Off v x.1 :=
  fun h0 => ((off_iff x).1 h0).1 h

theorem apex_same {m m' : TMesh K} {x : TEdge} (h : ∀ o, m'.apex (x.1, o) = m.apex (x.1, o)) :
    m'.org x = m.org x ∧ m'.dest x = m.dest x ∧ m'.apex x = m.apex x := ⟨h _, h _, h _⟩

section
variable {pos : Nat → Vec K} {left : Bool} {live : Nat → Prop} {T : Finset Nat} (hT : ∀ t, live t ↔ t ∈ T)
include hT

theorem fixPost_step {m : TMesh K} {fix : TEdge} (S : m.Sound live) (h : live fix.1)
    (hs : m.nb (lnext fix) ≠ space) (hseg : m.sg (lnext fix) = noSub) (hf : m.org fix ≠ m.apex (m.nb (lnext fix)))
    {m1 m2 : TMesh K} {fix1 fix2 : TEdge}
    (P1 : FixPost live T pos (m.org fix) (m.flip (lnext fix)) (lprev fix) m1 fix1) :
    m1.org (m.nb (lnext fix)) = m.org fix ∧
    (FixPost live T pos (m.org fix) m1 (m.nb (lnext fix)) m2 fix2 → FixPost live T pos (m.org fix) m fix m2 fix1) := by
  have hne := S.nb_ne (x := lnext fix) h
  have hoff := fixup_off S h hs hseg hf
  obtain ⟨k1, k2, k3⟩ := fixup_handles S h hs hseg hf
  obtain ⟨F1, -, -, ⟨-, -, A3⟩, -, -, B3⟩ := flip_view S (e := lnext fix) h hs hseg hf
  have o1 := (apex_same (x := m.nb (lnext fix)) (P1.other _ hne (not_off k3))).1
  refine ⟨o1.trans k3, fun P2 => ?_⟩
  have n1 : fix1.1 ≠ (m.nb (lnext fix)).1 := by rw [P1.tri]; exact hne.symm
  have q := apex_same (x := fix1) (P2.other _ n1 (not_off P1.org))
  refine ⟨P2.sound, fun m0 k => P2.keeps m0 (P1.keeps m0 (k.flip' hT S (e := lnext fix) h hs hseg hf)), ?_, P1.tri,
    q.1.trans P1.org, (q.2.1.trans P1.dest).trans k2, fun t t1 t2 => ?_, fun t ht => ?_⟩
  · rw [P2.attr, P1.attr]
    exact (flip_outside S (e := lnext fix) h hs hseg hf).2.2.2.1
  · have t3 : t ≠ (m.nb (lnext fix)).1 := fun h0 => t2 (h0 ▸ hoff)
    have g0 : ∀ o, (m.flip (lnext fix)).apex (t, o) = m.apex (t, o) := fun o => (F1 (t, o) t1 t3).1
    have g1 : ¬ (m.flip (lnext fix)).Off (m.org fix) t := by
      intro h0; apply t2; intro o; rw [← g0]; exact h0 o
    have g2 := P1.other t t1 g1
    have g3 : ¬ m1.Off (m.org fix) t := fun h0 => g1 (P1.off t h0)
    intro o
    rw [P2.other t t3 g3, g2, g0]
  · have g := P1.off t (P2.off t ht)
    have t1 : t ≠ fix.1 := by rintro rfl; exact g (lprev (lnext fix)).2 A3
    have t2 : t ≠ (m.nb (lnext fix)).1 := by rintro rfl; exact g (lnext (m.nb (lnext fix))).2 B3
    intro o
    rw [← (F1 (t, o) t1 t2).1]
    exact g o

theorem FixPost.count {v : Nat} {m m' : TMesh K} {fix fix' : TEdge} (P : FixPost live T pos v m fix m' fix') :
    offCount T m' v ≤ offCount T m v := by
  classical
  refine Finset.card_le_card fun t ht => ?_
  rw [Finset.mem_filter] at ht ⊢
  exact ⟨ht.1, P.off t ht.2⟩

/-- The calls keep what they should and end. -/
theorem fixup_post : ∀ (n : Nat) (m : TMesh K) (fix : TEdge), m.Sound live → live fix.1 →
    (∀ r, m.delaunayfixup pos left n fix = some r → FixPost live T pos (m.org fix) m fix r.1 r.2) ∧
    (offCount T m (m.org fix) < n → ∃ r, m.delaunayfixup pos left n fix = some r) := by
  intro n
  induction n with
  | zero => exact fun m fix _ _ => ⟨fun r h => by simp [TMesh.delaunayfixup] at h, fun h => absurd h (Nat.not_lt_zero _)⟩
  | succ n ih =>
    intro m fix S h
    rcases fixup_cases (pos := pos) (left := left) S h with ⟨-, he⟩ | ⟨⟨hs, hseg, hf, -⟩, he⟩
    · rw [he]
      refine ⟨fun r hr => ?_, fun _ => ⟨_, rfl⟩⟩
      simp only [Option.some.injEq] at hr
      subst hr
      exact ⟨S, fun _ k => k, rfl, rfl, rfl, rfl, fun _ _ _ _ => rfl, fun _ h => h⟩
    · rw [he]
      obtain ⟨k1, k2, k3⟩ := fixup_handles S h hs hseg hf
      have S' := flip_sound S (e := lnext fix) h hs hseg hf
      have hl := S.nb_live (x := lnext fix) h hs
      obtain ⟨i1, i2⟩ := ih (m.flip (lnext fix)) (lprev fix) S' h
      rw [k1] at i1 i2
      constructor
      · intro r hr
        obtain ⟨r1, h1, hr⟩ := Option.bind_eq_some_iff.1 hr
        obtain ⟨r2, h2, rfl⟩ := Option.map_eq_some_iff.1 hr
        have P1 := i1 r1 h1
        obtain ⟨o1, -⟩ := fixPost_step hT S h hs hseg hf P1 (m2 := m) (fix2 := fix)
        have P2 := (ih r1.1 (m.nb (lnext fix)) P1.sound hl).1 r2 h2
        rw [o1] at P2
        exact (fixPost_step hT S h hs hseg hf P1).2 P2
      · intro hc
        have hc1 := fixup_count S h hs hseg hf hT
        obtain ⟨r1, h1⟩ := i2 (by omega)
        have P1 := i1 r1 h1
        obtain ⟨o1, -⟩ := fixPost_step hT S h hs hseg hf P1 (m2 := m) (fix2 := fix)
        have hc2 := P1.count hT
        obtain ⟨r2, h2⟩ := (ih r1.1 (m.nb (lnext fix)) P1.sound hl).2 (by rw [o1]; omega)
        exact ⟨(r2.1, r1.2), by rw [h1, Option.bind_some, h2]; rfl⟩

end

/-- Without clockwise triangles, a call does nothing exactly if the edge is locally Delaunay. -/
theorem fixup_ccw_cases {pos : Nat → Vec K} {left : Bool} {m : TMesh K} {live : Nat → Prop} (S : m.Sound live)
    (C : m.Ccw live pos) {fix : TEdge} (h : live fix.1) :
    (m.LocallyDelaunay pos (lnext fix) ∧ ∀ n, m.delaunayfixup pos left (n + 1) fix = some (m, fix)) ∨
    (¬ m.LocallyDelaunay pos (lnext fix) ∧ ∀ n, m.delaunayfixup pos left (n + 1) fix =
        ((m.flip (lnext fix)).delaunayfixup pos left n (lprev fix)).bind fun r =>
          (r.1.delaunayfixup pos left n (m.nb (lnext fix))).map fun r' => (r'.1, r.2)) := by
  have ho : ∀ a b c : Vec K, orient a b c = ccw a b c := fun a b c => by unfold orient ccw; ring
  have hi : incircle (pos (m.dest fix)) (pos (m.apex (m.nb (lnext fix)))) (pos (m.apex fix)) (pos (m.org fix)) =
      incircle (pos (m.org (lnext fix))) (pos (m.dest (lnext fix))) (pos (m.apex (lnext fix)))
        (pos (m.apex (m.nb (lnext fix)))) := by
    rw [org_lnext, dest_lnext, apex_lnext]; unfold incircle; ring
  rcases fixup_cases (pos := pos) (left := left) S h with ⟨hc, he⟩ | ⟨⟨hs, hseg, hf, -, hin⟩, he⟩
  · refine .inl ⟨?_, he⟩
    by_contra hd
    obtain ⟨h1, h2, h3, h4, h5, h6⟩ := ld_convex S C (e := lnext fix) h hd
    rcases hc with hc | hc | hc | hc
    · exact h1 hc
    · exact hc h2
    · rw [apex_lnext, org_lnext] at h5
      rw [apex_lnext, dest_lnext] at h6
      rw [ho, ho] at hc
      cases left
      · simp only [Bool.false_eq_true, if_false] at hc
        have : ccw (pos (m.apex (m.nb (lnext fix)))) (pos (m.apex fix)) (pos (m.org fix)) =
          ccw (pos (m.apex fix)) (pos (m.org fix)) (pos (m.apex (m.nb (lnext fix)))) := by unfold ccw; ring
        linarith
      · simp only [if_true] at hc
        linarith
    · rw [hi] at hc
      linarith [hc.2]
  · refine .inr ⟨?_, he⟩
    rw [ld_iff C (e := lnext fix) h]
    intro hL
    have hL := hL hseg hs
    rw [← hi] at hL
    have hp := C.area (S.nb_live (x := lnext fix) h hs)
    rw [(S.nb_ends (x := lnext fix) h hs).1, (S.nb_ends (x := lnext fix) h hs).2, org_lnext, dest_lnext] at hp
    rw [ho] at hin
    linarith [hin hp]

/-- Without clockwise triangles none arises, and the edges opposite to the vertex become locally Delaunay. -/
theorem fixup_ccw {pos : Nat → Vec K} {left : Bool} {live : Nat → Prop} {T : Finset Nat} (hT : ∀ t, live t ↔ t ∈ T) :
    ∀ (n : Nat) (m : TMesh K) (fix : TEdge), m.Sound live → m.Ccw live pos → live fix.1 →
    ∀ r, m.delaunayfixup pos left n fix = some r → r.1.Ccw live pos ∧
      r.1.lifted T pos ≤ m.lifted T pos ∧ (r.1 = m ∨ r.1.lifted T pos < m.lifted T pos) ∧
      ∀ x : TEdge, live x.1 → r.1.org x = m.org fix →
        (x.1 = fix.1 ∨ m.Off (m.org fix) x.1 ∨ m.LocallyDelaunay pos (lnext x)) →
        r.1.LocallyDelaunay pos (lnext x) := by
  intro n
  induction n with
  | zero => exact fun m fix _ _ _ r h => by simp [TMesh.delaunayfixup] at h
  | succ n ih =>
    intro m fix S C h r hr
    rcases fixup_ccw_cases (left := left) S C h with ⟨hd, he⟩ | ⟨hd, he⟩
    · rw [he] at hr
      simp only [Option.some.injEq] at hr
      subst hr
      refine ⟨C, le_rfl, .inl rfl, fun x hx hv hc => ?_⟩
      rcases hc with hc | hc | hc
      · obtain ⟨a1, a2, a3⟩ := S.apex_ne fix h
        rcases edge_cases fix.2 (x := x) hc with h' | h' | h'
        · have h' : x = fix := h'
          rw [h']; exact hd
        · have h' : x = lnext fix := h'
          rw [h', org_lnext] at hv
          exact absurd hv.symm a1
        · have h' : x = lprev fix := h'
          rw [h', org_lprev] at hv
          exact absurd hv a3
      · exact absurd hc (not_off hv)
      · exact hc
    · rw [he] at hr
      obtain ⟨r1, h1, hr⟩ := Option.bind_eq_some_iff.1 hr
      obtain ⟨r2, h2, rfl⟩ := Option.map_eq_some_iff.1 hr
      obtain ⟨hs, hseg, hf, -⟩ := ld_convex S C (e := lnext fix) h hd
      have hf : m.org fix ≠ m.apex (m.nb (lnext fix)) := hf
      obtain ⟨S', C', -⟩ := delaunay_flip S C (e := lnext fix) h hd
      have hlow := delaunay_flip_lowers hT S C (e := lnext fix) h hd
      have hl := S.nb_live (x := lnext fix) h hs
      obtain ⟨k1, k2, k3⟩ := fixup_handles S h hs hseg hf
      have P1 := (fixup_post (pos := pos) (left := left) hT n _ (lprev fix) S' h).1 r1 h1
      obtain ⟨C1, l1, -, D1⟩ := ih _ (lprev fix) S' C' h r1 h1
      rw [k1] at P1 D1
      obtain ⟨o1, -⟩ := fixPost_step hT S h hs hseg hf P1 (m2 := m) (fix2 := fix)
      have P2 := (fixup_post (pos := pos) (left := left) hT n _ (m.nb (lnext fix)) P1.sound hl).1 r2 h2
      obtain ⟨C2, l2, -, D2⟩ := ih _ (m.nb (lnext fix)) P1.sound C1 hl r2 h2
      rw [o1] at P2 D2
      have lt : r2.1.lifted T pos < m.lifted T pos := lt_of_le_of_lt (l2.trans l1) hlow
      refine ⟨C2, lt.le, .inr lt, fun x hx hv hc => D2 x hx hv ?_⟩
      by_cases x2 : x.1 = (m.nb (lnext fix)).1
      · exact .inl x2
      by_cases f1 : r1.1.Off (m.org fix) x.1
      · exact .inr (.inl f1)
      have v1 : r1.1.org x = m.org fix := by
        rw [← (apex_same (x := x) (P2.other _ x2 f1)).1]; exact hv
      refine .inr (.inr (D1 x hx v1 ?_))
      by_cases x1 : x.1 = fix.1
      · exact .inl x1
      by_cases f0 : (m.flip (lnext fix)).Off (m.org fix) x.1
      · exact .inr (.inl f0)
      have v0 : (m.flip (lnext fix)).org x = m.org fix := by
        rw [← (apex_same (x := x) (P1.other _ x1 f0)).1]; exact v1
      obtain ⟨F1, -⟩ := flip_view S (e := lnext fix) h hs hseg hf
      have vm : m.org x = m.org fix := by rw [← (F1 x x1 x2).2.1]; exact v0
      rcases hc with hc | hc | hc
      · exact absurd hc x1
      · exact absurd hc (not_off vm)
      · exact .inr (.inr (fixup_ld S h hs hseg hf C C' hx x1 vm hc))

/-- The triangle at the edge that was tested is counterclockwise after a flip. -/
theorem fixup_turn {pos : Nat → Vec K} {live : Nat → Prop} {T : Finset Nat} (hT : ∀ t, live t ↔ t ∈ T) (left : Bool) :
    ∀ (n : Nat) (m : TMesh K) (fix : TEdge), m.Sound live → live fix.1 →
    ∀ r, m.delaunayfixup pos left n fix = some r → r = (m, fix) ∨
      if left then 0 < ccw (pos (r.1.org r.2)) (pos (r.1.dest r.2)) (pos (r.1.apex r.2))
      else ∃ x : TEdge, live x.1 ∧ r.1.org x = m.org fix ∧ r.1.apex x = m.apex fix ∧
        0 < ccw (pos (r.1.org x)) (pos (r.1.dest x)) (pos (r.1.apex x)) := by
  have ho : ∀ a b c : Vec K, orient a b c = ccw a b c := fun a b c => by unfold orient ccw; ring
  intro n
  induction n with
  | zero => exact fun m fix _ _ r h => by simp [TMesh.delaunayfixup] at h
  | succ n ih =>
    intro m fix S h r hr
    rcases fixup_cases (pos := pos) (left := left) S h with ⟨-, he⟩ | ⟨⟨hs, hseg, hf, ht, -⟩, he⟩
    · rw [he] at hr
      simp only [Option.some.injEq] at hr
      exact .inl hr.symm
    · rw [he] at hr
      obtain ⟨r1, h1, hr⟩ := Option.bind_eq_some_iff.1 hr
      obtain ⟨r2, h2, rfl⟩ := Option.map_eq_some_iff.1 hr
      have S' := flip_sound S (e := lnext fix) h hs hseg hf
      have hl := S.nb_live (x := lnext fix) h hs
      have hne := S.nb_ne (x := lnext fix) h
      obtain ⟨k1, k2, k3⟩ := fixup_handles S h hs hseg hf
      have P1 := (fixup_post (pos := pos) (left := left) hT n _ (lprev fix) S' h).1 r1 h1
      rw [k1] at P1
      obtain ⟨o1, -⟩ := fixPost_step hT S h hs hseg hf P1 (m2 := m) (fix2 := fix)
      have P2 := (fixup_post (pos := pos) (left := left) hT n _ (m.nb (lnext fix)) P1.sound hl).1 r2 h2
      rw [o1] at P2
      have n1 : r1.2.1 ≠ (m.nb (lnext fix)).1 := by rw [P1.tri]; exact hne.symm
      obtain ⟨-, -, -, ⟨A1, A2, A3⟩, B1, B2, B3⟩ := flip_view S (e := lnext fix) h hs hseg hf
      rw [lprev_lnext] at A1 A2 A3
      rw [ho, ho] at ht
      have e : m.apex (lnext fix) = m.org fix := rfl
      right
      cases left
      · simp only [Bool.false_eq_true, if_false] at ht ⊢
        have q := apex_same (x := m.nb (lnext fix)) (P1.other _ hne (not_off k3))
        have f1 : (m.flip (lnext fix)).apex (m.nb (lnext fix)) = m.apex fix := by
          conv_lhs => rw [← lprev_lnext (m.nb (lnext fix)), apex_lprev]
          rw [B2, dest_lnext]
        rcases ih r1.1 (m.nb (lnext fix)) P1.sound hl r2 h2 with hh | hh
        · refine ⟨m.nb (lnext fix), hl, ?_⟩
          rw [hh]
          dsimp only
          have f2 : (m.flip (lnext fix)).dest (m.nb (lnext fix)) = m.apex (m.nb (lnext fix)) := by
            conv_lhs => rw [← lprev_lnext (m.nb (lnext fix)), dest_lprev]
            rw [B1]
          rw [q.1, q.2.1, q.2.2, k3, f1, f2]
          refine ⟨rfl, rfl, ?_⟩
          have : ccw (pos (m.org fix)) (pos (m.apex (m.nb (lnext fix)))) (pos (m.apex fix)) =
            ccw (pos (m.apex (m.nb (lnext fix)))) (pos (m.apex fix)) (pos (m.org fix)) := by unfold ccw; ring
          rw [this]
          exact ht
        · simp only [Bool.false_eq_true, if_false] at hh
          obtain ⟨x, hx, x1, x2, x3⟩ := hh
          exact ⟨x, hx, x1.trans o1, x2.trans (q.2.2.trans f1), x3⟩
      · simp only [if_true] at ht ⊢
        have q := apex_same (x := r1.2) (P2.other _ n1 (not_off P1.org))
        rw [q.1, q.2.1, q.2.2]
        rcases ih _ (lprev fix) S' h r1 h1 with hh | hh
        · rw [hh]
          dsimp only
          rw [k1, k2, apex_lprev, A2]
          exact ht
        · simpa only [if_true] using hh

end Nikfemm
