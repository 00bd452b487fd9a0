import Verif.Lemmas.Flip

/-!
# Lemmas about splitting triangles and edges
-/

set_option linter.unusedSectionVars false

namespace Nikfemm
variable {K : Type} [Zero K]

/-- Consistency is a matter of the triangles in use. -/
theorem TMesh.Sound.congr {m m' : TMesh K} {live : Nat → Prop} (S : m.Sound live)
    (hnb : ∀ x : TEdge, live x.1 ∨ x = space → m'.nb x = m.nb x)
    (hap : ∀ x : TEdge, live x.1 → m'.apex x = m.apex x)
    (hsg : ∀ x : TEdge, live x.1 → m'.sg x = m.sg x) (hst : m'.st = m.st) (hso : m'.sorg = m.sorg)
    (hc : m'.checksegments = m.checksegments) : m'.Sound live := by
  have horg : ∀ x : TEdge, live x.1 → m'.org x = m.org x := fun x hx => hap (lnext x) hx
  have hdest : ∀ x : TEdge, live x.1 → m'.dest x = m.dest x := fun x hx => hap (lprev x) hx
  refine ⟨S.out, ?_, ?_, ?_, ?_, ?_⟩
  · intro e he
    rw [hnb e (.inl he)]
    rcases S.mate e he with h | ⟨h1, h2, h3, h4⟩
    · exact .inl h
    · right
      rw [hnb _ (.inl h1), horg _ h1, hdest _ h1, horg e he, hdest e he]
      exact ⟨h1, h2, h3, h4⟩
  · intro e he
    rw [horg e he, hdest e he]
    exact S.corners e he
  · rintro ⟨e, he, hs⟩
    rw [hnb e (.inl he)] at hs
    obtain ⟨h1, h2⟩ := S.hull ⟨e, he, hs⟩
    rw [hnb space (.inr rfl)]
    exact ⟨h1, (hnb _ (.inl h1)).trans h2⟩
  · intro e he
    rw [hsg e he, hst, hso, hnb e (.inl he), horg e he, hdest e he]
    rcases S.seg e he with h | ⟨h1, h2, h3, h4, h5, h6⟩
    · exact .inl h
    · refine .inr ⟨h1, h2, h3, h4, ?_, h6⟩
      intro hs
      rw [hsg _ (S.nb_live he hs)]
      exact h5 hs
  · intro h e he
    rw [hsg e he]
    exact S.chk (hc ▸ h) e he

theorem maketriangle_sound {m : TMesh K} {live : Nat → Prop} (S : m.Sound live) {n : Nat} (hn : ¬ live n)
    (h0 : n ≠ 0) : (m.maketriangle n).Sound live := by
  have hne : ∀ x : TEdge, live x.1 → x.1 ≠ n := by
    intro x hx h; exact hn (h ▸ hx)
  refine S.congr ?_ ?_ ?_ rfl rfl rfl
  · rintro x (hx | rfl)
    · exact if_neg (hne x hx)
    · exact if_neg h0.symm
  · intro x hx; exact if_neg (hne x hx)
  · intro x hx; exact if_neg (hne x hx)

/-- Subsegments change hands. -/
theorem handSub_sg (m : TMesh K) {a b : TEdge} (hb : m.sg b = noSub) (hab : a ≠ b)
    (ha : m.sg a = noSub ∨ (m.sg a).1 ≠ 0) :
    (m.handSub a b).sg = Function.update (Function.update m.sg a noSub) b (m.sg a) := by
  unfold TMesh.handSub
  split
  · next h =>
    rcases ha with h' | h'
    · funext x
      by_cases h1 : x = b
      · subst h1; rw [Function.update_self, hb, h']
      rw [Function.update_of_ne h1]
      by_cases h2 : x = a
      · subst h2; rw [Function.update_self, h']
      rw [Function.update_of_ne h2]
    · exact absurd h h'
  · rfl

theorem handSub_st (m : TMesh K) (a b : TEdge) :
    (m.handSub a b).st = if (m.sg a).1 = 0 then m.st else Function.update m.st (m.sg a) b := by
  unfold TMesh.handSub
  split <;> rfl

theorem handSub_rest (m : TMesh K) (a b : TEdge) :
    (m.handSub a b).nb = m.nb ∧ (m.handSub a b).apex = m.apex ∧ (m.handSub a b).sorg = m.sorg ∧
    (m.handSub a b).attr = m.attr ∧ (m.handSub a b).checksegments = m.checksegments := by
  unfold TMesh.handSub
  split <;> exact ⟨rfl, rfl, rfl, rfl, rfl⟩

theorem handSub_congr {m m' : TMesh K} (h1 : m.sg = m'.sg) (h2 : m.st = m'.st) (a b : TEdge) :
    (m.handSub a b).sg = (m'.handSub a b).sg ∧ (m.handSub a b).st = (m'.handSub a b).st := by
  unfold TMesh.handSub TMesh.tsdissolve TMesh.tsbond
  rw [h1]
  split
  · exact ⟨h1, h2⟩
  · dsimp only
    rw [h2]
    exact ⟨rfl, rfl⟩

/-! ## A vertex inside of a triangle -/

/-- The bonds when a triangle is split. -/
def threeBonds (m : TMesh K) (h : TEdge) (n1 n2 : Nat) : List (TEdge × TEdge) :=
  [((n1, 0), m.nb (lnext h)), ((n2, 0), m.nb (lprev h)), ((n1, 1), (n2, 2)), (lnext h, (n1, 2)),
    (lprev h, (n2, 1))]

/-- The movement when a triangle is split. -/
def threeMap (h : TEdge) (n1 n2 : Nat) (x : TEdge) : TEdge :=
  if x = lnext h then (n1, 0) else if x = lprev h then (n2, 0) else x

section
variable {m : TMesh K} {h : TEdge} {v n1 n2 : Nat}

theorem splitThree_nb : (m.splitThree h v n1 n2).nb =
    bonds ((m.maketriangle n1).maketriangle n2).nb (threeBonds m h n1 n2) := by
  unfold TMesh.splitThree
  dsimp only [TMesh.setorg, TMesh.setdest, TMesh.setapex, TMesh.setattr, TMesh.bond]
  split
  · simp only [handSub_rest]; rfl
  · rfl

theorem splitThree_apex : (m.splitThree h v n1 n2).apex =
    ((((((((m.maketriangle n1).maketriangle n2).setorg (n1, 0) (m.dest h)).setdest (n1, 0) (m.apex h)).setapex
      (n1, 0) v).setorg (n2, 0) (m.apex h)).setdest (n2, 0) (m.org h)).setapex (n2, 0) v |>.setapex h v).apex := by
  unfold TMesh.splitThree
  dsimp only [TMesh.setorg, TMesh.setdest, TMesh.setapex, TMesh.setattr, TMesh.bond]
  split
  · simp only [handSub_rest]
  · rfl

theorem splitThree_sg : (m.splitThree h v n1 n2).sg =
    if m.checksegments then
      ((((m.maketriangle n1).maketriangle n2).handSub (lnext h) (n1, 0)).handSub (lprev h) (n2, 0)).sg
    else ((m.maketriangle n1).maketriangle n2).sg := by
  unfold TMesh.splitThree
  dsimp only [TMesh.setorg, TMesh.setdest, TMesh.setapex, TMesh.setattr, TMesh.bond, TMesh.maketriangle]
  cases m.checksegments
  · rfl
  · simp only [if_true]
    refine (handSub_congr ?_ ?_ _ _).1
    · exact (handSub_congr (K := K) (by rfl) (by rfl) _ _).1
    · exact (handSub_congr (K := K) (by rfl) (by rfl) _ _).2

theorem splitThree_st : (m.splitThree h v n1 n2).st =
    if m.checksegments then
      ((((m.maketriangle n1).maketriangle n2).handSub (lnext h) (n1, 0)).handSub (lprev h) (n2, 0)).st
    else m.st := by
  unfold TMesh.splitThree
  dsimp only [TMesh.setorg, TMesh.setdest, TMesh.setapex, TMesh.setattr, TMesh.bond, TMesh.maketriangle]
  cases m.checksegments
  · rfl
  · simp only [if_true]
    refine (handSub_congr ?_ ?_ _ _).2
    · exact (handSub_congr (K := K) (by rfl) (by rfl) _ _).1
    · exact (handSub_congr (K := K) (by rfl) (by rfl) _ _).2

theorem splitThree_rest : (m.splitThree h v n1 n2).sorg = m.sorg ∧
    (m.splitThree h v n1 n2).checksegments = m.checksegments ∧
    (m.splitThree h v n1 n2).attr =
      ((((m.maketriangle n1).maketriangle n2).setattr n1 (m.attr h.1)).setattr n2 (m.attr h.1)).attr := by
  unfold TMesh.splitThree
  dsimp only [TMesh.setorg, TMesh.setdest, TMesh.setapex, TMesh.setattr, TMesh.bond]
  split
  · simp only [handSub_rest]; exact ⟨rfl, rfl, trivial⟩
  · exact ⟨rfl, rfl, rfl⟩

/-- The corners afterwards. -/
theorem splitThree_corners (h1 : h.1 ≠ n1) (h2 : h.1 ≠ n2) (h12 : n1 ≠ n2) :
    ((m.splitThree h v n1 n2).apex (n1, 0) = v ∧ (m.splitThree h v n1 n2).apex (n1, 1) = m.dest h ∧
      (m.splitThree h v n1 n2).apex (n1, 2) = m.apex h) ∧
    ((m.splitThree h v n1 n2).apex (n2, 0) = v ∧ (m.splitThree h v n1 n2).apex (n2, 1) = m.apex h ∧
      (m.splitThree h v n1 n2).apex (n2, 2) = m.org h) ∧
    (m.splitThree h v n1 n2).apex h = v ∧
    (∀ x : TEdge, x.1 ≠ n1 → x.1 ≠ n2 → x ≠ h → (m.splitThree h v n1 n2).apex x = m.apex x) := by
  obtain ⟨t, o⟩ := h
  simp only at h1 h2
  rw [splitThree_apex]
  dsimp only [TMesh.setorg, TMesh.setdest, TMesh.setapex, TMesh.maketriangle, lnext, lprev]
  have e1 : (0 : Fin 3) + 1 = 1 := rfl
  have e2 : (0 : Fin 3) + 2 = 2 := rfl
  rw [e1, e2]
  refine ⟨⟨?_, ?_, ?_⟩, ⟨?_, ?_, ?_⟩, ?_, ?_⟩
  · simp [Function.update, Prod.ext_iff, h1.symm, h12]
  · simp [Function.update, Prod.ext_iff, h1.symm, h12]
  · simp [Function.update, Prod.ext_iff, h1.symm, h12]
  · simp [Function.update, Prod.ext_iff, h2.symm]
  · simp [Function.update, Prod.ext_iff, h2.symm]
  · simp [Function.update, Prod.ext_iff, h2.symm]
  · simp [Function.update]
  · rintro ⟨a, b⟩ k1 k2 k3
    simp only at k1 k2
    simp [Function.update, k1, k2, k3]

theorem threeMap_vals (h : TEdge) (n1 n2 : Nat) :
    threeMap h n1 n2 (lnext h) = (n1, 0) ∧ threeMap h n1 n2 (lprev h) = (n2, 0) :=
  ⟨if_pos rfl, by unfold threeMap; rw [if_neg (lnext_ne_lprev h).symm, if_pos rfl]⟩

theorem threeMap_same {x : TEdge} (h1 : x ≠ lnext h) (h2 : x ≠ lprev h) : threeMap h n1 n2 x = x := by
  unfold threeMap
  rw [if_neg h1, if_neg h2]

variable {live : Nat → Prop} (S : m.Sound live) (hh : live h.1) (hn1 : ¬ live n1) (hn2 : ¬ live n2)
  (h10 : n1 ≠ 0) (h20 : n2 ≠ 0) (h12 : n1 ≠ n2)
include S hh hn1 hn2 h10 h20 h12

theorem three_start : ((m.maketriangle n1).maketriangle n2).Sound live :=
  maketriangle_sound (maketriangle_sound S hn1 h10) hn2 h20

omit S hh h10 h20 h12 in
theorem three_old {x : TEdge} (hx : live x.1) :
    ((m.maketriangle n1).maketriangle n2).nb x = m.nb x ∧
    ((m.maketriangle n1).maketriangle n2).sg x = m.sg x := by
  have k1 : x.1 ≠ n1 := fun h => hn1 (h ▸ hx)
  have k2 : x.1 ≠ n2 := fun h => hn2 (h ▸ hx)
  simp [TMesh.maketriangle, k1, k2]

theorem three_apart : Apart (threeBonds m h n1 n2) := by
  have t1 : h.1 ≠ n1 := fun e => hn1 (e ▸ hh)
  have t2 : h.1 ≠ n2 := fun e => hn2 (e ▸ hh)
  have cB : (m.nb (lnext h)).1 ≠ h.1 := S.nb_ne (x := lnext h) hh
  have cC : (m.nb (lprev h)).1 ≠ h.1 := S.nb_ne (x := lprev h) hh
  have out : ∀ x : TEdge, live x.1 → (m.nb x).1 ≠ n1 ∧ (m.nb x).1 ≠ n2 := by
    intro x hx
    rcases S.mate x hx with hs | hs
    · rw [hs]; exact ⟨h10.symm, h20.symm⟩
    · exact ⟨fun e => hn1 (e ▸ hs.1), fun e => hn2 (e ▸ hs.1)⟩
  have oB := out (lnext h) hh
  have oC := out (lprev h) hh
  have inj : m.nb (lnext h) = m.nb (lprev h) → m.nb (lnext h) = space := by
    intro e
    by_contra hne
    exact lnext_ne_lprev h (S.nb_inj (x := lnext h) (y := lprev h) hh hh e hne)
  have d12 : ((n1, 1) : TEdge) ≠ (n1, 2) := by simp
  refine ⟨?_, ?_⟩
  · unfold threeBonds
    simp only [List.pairwise_cons, List.mem_cons, List.not_mem_nil, or_false, forall_eq_or_imp, forall_eq,
      List.Pairwise.nil, and_true, false_imp_iff, implies_true]
    refine ⟨⟨⟨ne_of_tri h12, ne_of_tri oC.1.symm, ne_of_tri oB.2, inj⟩,
      ⟨by simp, ne_of_tri h12, ne_of_tri oB.1, fun e => absurd e (ne_of_tri oB.2)⟩,
      ⟨ne_of_tri t1.symm, by simp, ne_of_tri cB, fun e => absurd e (ne_of_tri oB.1)⟩,
      ⟨ne_of_tri t1.symm, ne_of_tri h12, ne_of_tri cB, fun e => absurd e (ne_of_tri oB.2)⟩⟩,
      ⟨⟨ne_of_tri h12.symm, by simp, ne_of_tri oC.1, fun e => absurd e (ne_of_tri oC.2)⟩,
      ⟨ne_of_tri t2.symm, ne_of_tri h12.symm, ne_of_tri cC, fun e => absurd e (ne_of_tri oC.1)⟩,
      ⟨ne_of_tri t2.symm, by simp, ne_of_tri cC, fun e => absurd e (ne_of_tri oC.2)⟩⟩,
      ⟨⟨ne_of_tri t1.symm, by simp, ne_of_tri t2.symm, fun e => absurd e (ne_of_tri h12.symm)⟩,
      ⟨ne_of_tri t1.symm, ne_of_tri h12, ne_of_tri t2.symm, fun e => absurd e (by simp)⟩⟩,
      ⟨lnext_ne_lprev h, ne_of_tri t2, ne_of_tri t1.symm, fun e => absurd e (ne_of_tri h12)⟩⟩
  · intro p hp
    simp only [threeBonds, List.mem_cons, List.not_mem_nil, or_false] at hp
    rcases hp with rfl | rfl | rfl | rfl | rfl
    · exact ⟨ne_of_tri h10, ne_of_tri oB.1.symm⟩
    · exact ⟨ne_of_tri h20, ne_of_tri oC.2.symm⟩
    · exact ⟨ne_of_tri h10, ne_of_tri h12⟩
    · exact ⟨S.ne_space (x := lnext h) hh, ne_of_tri t1⟩
    · exact ⟨S.ne_space (x := lprev h) hh, ne_of_tri t2⟩

theorem three_moves : Moves ((m.maketriangle n1).maketriangle n2) live
    [(lnext h, (n1, 0)), (lprev h, (n2, 0))] (threeBonds m h n1 n2) (threeMap h n1 n2)
    fun x => live x.1 where
  apart := three_apart S hh hn1 hn2 h10 h20 h12
  given := by
    obtain ⟨v1, v2⟩ := threeMap_vals h n1 n2
    intro p hp
    simp only [List.mem_cons, List.not_mem_nil, or_false] at hp
    rcases hp with rfl | rfl
    · refine ⟨hh, ?_, v1⟩
      rw [(three_old hn1 hn2 (x := lnext h) hh).1]
      simp [threeBonds]
    · refine ⟨hh, ?_, v2⟩
      rw [(three_old hn1 hn2 (x := lprev h) hh).1]
      simp [threeBonds]
  casing := by
    have S' := three_start S hh hn1 hn2 h10 h20 h12
    have cB := S'.nb_ne (x := lnext h) hh
    have cC := S'.nb_ne (x := lprev h) hh
    intro p hp q hq
    simp only [List.mem_cons, List.not_mem_nil, or_false] at hp hq
    rcases hp with rfl | rfl <;> rcases hq with rfl | rfl
    · exact ne_of_tri cB
    · exact ne_of_tri cB
    · exact ne_of_tri cC
    · exact ne_of_tri cC
  same := by
    intro x hx
    simp only [List.mem_cons, List.not_mem_nil, or_false, forall_eq_or_imp, forall_eq] at hx
    exact threeMap_same hx.1 hx.2
  was := fun x hx => hx
  free := by
    intro x hx hL p hp
    have k1 : x.1 ≠ n1 := fun h => hn1 (h ▸ hx)
    have k2 : x.1 ≠ n2 := fun h => hn2 (h ▸ hx)
    simp only [List.mem_cons, List.not_mem_nil, or_false, forall_eq_or_imp, forall_eq] at hL
    simp only [threeBonds, List.mem_cons, List.not_mem_nil, or_false] at hp
    rcases hp with rfl | rfl | rfl | rfl | rfl
    · refine ⟨ne_of_tri k1, fun _ => ⟨(lnext h, (n1, 0)), by simp, ?_⟩⟩
      rw [(three_old hn1 hn2 (x := lnext h) hh).1]
    · refine ⟨ne_of_tri k2, fun _ => ⟨(lprev h, (n2, 0)), by simp, ?_⟩⟩
      rw [(three_old hn1 hn2 (x := lprev h) hh).1]
    · exact ⟨ne_of_tri k1, fun e => absurd e (ne_of_tri k2)⟩
    · exact ⟨hL.1, fun e => absurd e (ne_of_tri k1)⟩
    · exact ⟨hL.2, fun e => absurd e (ne_of_tri k2)⟩

/-- The subsegments afterwards. -/
theorem three_subs :
    (∀ x : TEdge, live x.1 → (m.splitThree h v n1 n2).sg (threeMap h n1 n2 x) = m.sg x) ∧
    ((m.splitThree h v n1 n2).sg (lnext h) = noSub ∧ (m.splitThree h v n1 n2).sg (lprev h) = noSub ∧
      (∀ o, o ≠ 0 → (m.splitThree h v n1 n2).sg (n1, o) = noSub) ∧
      (∀ o, o ≠ 0 → (m.splitThree h v n1 n2).sg (n2, o) = noSub)) ∧
    (∀ x : TEdge, live x.1 → m.sg x ≠ noSub →
      (m.splitThree h v n1 n2).st (m.sg x) = threeMap h n1 n2 x) ∧
    (∀ s : TSub, m.st s = space → (m.splitThree h v n1 n2).st s = space) := by
  have S' := three_start S hh hn1 hn2 h10 h20 h12
  have t1 : h.1 ≠ n1 := fun e => hn1 (e ▸ hh)
  have t2 : h.1 ≠ n2 := fun e => hn2 (e ▸ hh)
  obtain ⟨v1, v2⟩ := threeMap_vals h n1 n2
  set m1 := (m.maketriangle n1).maketriangle n2 with hm1
  have old : ∀ {x : TEdge}, live x.1 → m1.sg x = m.sg x := fun hx => (three_old hn1 hn2 hx).2
  have new1 : ∀ o, m1.sg (n1, o) = noSub := by
    intro o; simp [hm1, TMesh.maketriangle]
  have new2 : ∀ o, m1.sg (n2, o) = noSub := by
    intro o; simp [hm1, TMesh.maketriangle]
  have zB := S.sg_zero (x := lnext h) hh
  have zC := S.sg_zero (x := lprev h) hh
  have st1 : m1.st = m.st := rfl
  rw [splitThree_sg, splitThree_st, ← hm1]
  cases hc : m.checksegments
  · simp only [Bool.false_eq_true, if_false]
    have h0 := S.chk hc
    refine ⟨?_, ⟨?_, ?_, fun o _ => new1 o, fun o _ => new2 o⟩, ?_, fun s hs => hs⟩
    · intro x hx
      unfold threeMap
      split
      · rw [new1, h0 x hx]
      · split
        · rw [new2, h0 x hx]
        · exact old hx
    · rw [old (x := lnext h) hh]; exact h0 _ hh
    · rw [old (x := lprev h) hh]; exact h0 _ hh
    · intro x hx hs; exact absurd (h0 x hx) hs
  · simp only [if_true]
    have a1 : m1.sg (lnext h) = m.sg (lnext h) := old hh
    have a2 : m1.sg (lprev h) = m.sg (lprev h) := old hh
    have g1 := handSub_sg m1 (a := lnext h) (b := (n1, 0)) (new1 0) (ne_of_tri t1) (a1 ▸ zB)
    have b2 : (m1.handSub (lnext h) (n1, 0)).sg (lprev h) = m.sg (lprev h) := by
      rw [g1, Function.update_of_ne (ne_of_tri t1), Function.update_of_ne (lnext_ne_lprev h).symm, a2]
    have b3 : (m1.handSub (lnext h) (n1, 0)).sg (n2, 0) = noSub := by
      rw [g1, Function.update_of_ne (ne_of_tri h12.symm), Function.update_of_ne (ne_of_tri t2.symm), new2]
    have g2 := handSub_sg (m1.handSub (lnext h) (n1, 0)) (a := lprev h) (b := (n2, 0)) b3 (ne_of_tri t2)
      (b2 ▸ zC)
    have s1 := handSub_st m1 (lnext h) (n1, 0)
    have s2 := handSub_st (m1.handSub (lnext h) (n1, 0)) (lprev h) (n2, 0)
    rw [b2] at g2 s2
    rw [a1] at g1 s1
    rw [g1] at g2
    rw [s1, st1] at s2
    rw [g2, s2]
    refine ⟨?_, ⟨?_, ?_, ?_, ?_⟩, ?_, ?_⟩
    · intro x hx
      have k1 : x.1 ≠ n1 := fun h => hn1 (h ▸ hx)
      have k2 : x.1 ≠ n2 := fun h => hn2 (h ▸ hx)
      by_cases e1 : x = lnext h
      · subst e1
        rw [v1, Function.update_of_ne (ne_of_tri h12), Function.update_of_ne (ne_of_tri t1.symm),
          Function.update_self]
      by_cases e2 : x = lprev h
      · subst e2
        rw [v2, Function.update_self]
      rw [threeMap_same e1 e2, Function.update_of_ne (ne_of_tri k2), Function.update_of_ne e2,
        Function.update_of_ne (ne_of_tri k1), Function.update_of_ne e1, old hx]
    · rw [Function.update_of_ne (ne_of_tri t2), Function.update_of_ne (lnext_ne_lprev h),
        Function.update_of_ne (ne_of_tri t1), Function.update_self]
    · rw [Function.update_of_ne (ne_of_tri t2), Function.update_self]
    · intro o ho
      rw [Function.update_of_ne (ne_of_tri h12), Function.update_of_ne (ne_of_tri t1.symm),
        Function.update_of_ne (by simpa using ho), Function.update_of_ne (ne_of_tri t1.symm), new1]
    · intro o ho
      rw [Function.update_of_ne (by simpa using ho), Function.update_of_ne (ne_of_tri t2.symm),
        Function.update_of_ne (ne_of_tri h12.symm), Function.update_of_ne (ne_of_tri t2.symm), new2]
    · intro x hx hs
      have hz : (m.sg x).1 ≠ 0 := by
        rcases S.sg_zero hx with h' | h'
        · exact absurd h' hs
        · exact h'
      by_cases e1 : x = lnext h
      · subst e1
        rw [v1]
        have hne : m.sg (lnext h) ≠ m.sg (lprev h) := fun e =>
          lnext_ne_lprev h (S.sg_inj (x := lnext h) (y := lprev h) hh hh e hs)
        simp only [if_neg hz]
        split
        · rw [Function.update_self]
        · rw [Function.update_of_ne hne, Function.update_self]
      by_cases e2 : x = lprev h
      · subst e2
        rw [v2, if_neg hz, Function.update_self]
      rw [threeMap_same e1 e2]
      have n1' : m.sg x ≠ m.sg (lnext h) := fun e => e1 (S.sg_inj hx hh e hs)
      have n2' : m.sg x ≠ m.sg (lprev h) := fun e => e2 (S.sg_inj hx hh e hs)
      have fin : m.st (m.sg x) = x := by
        rcases S.seg x hx with h' | h'
        · exact absurd h' hs
        · exact h'.2.1
      split
      · split
        · exact fin
        · rw [Function.update_of_ne n1', fin]
      · rw [Function.update_of_ne n2']
        split
        · exact fin
        · rw [Function.update_of_ne n1', fin]
    · intro s hss
      have no : ∀ y : TEdge, live y.1 → (m.sg y).1 ≠ 0 → s ≠ m.sg y := by
        rintro y hy hz rfl
        rcases S.seg y hy with h' | h'
        · rw [h'] at hz; exact hz rfl
        · rw [h'.2.1] at hss; exact S.ne_space hy hss
      split
      · split
        · exact hss
        · next hz => rw [Function.update_of_ne (no (lnext h) hh hz), hss]
      · next hz2 =>
        rw [Function.update_of_ne (no (lprev h) hh hz2)]
        split
        · exact hss
        · next hz => rw [Function.update_of_ne (no (lnext h) hh hz), hss]

theorem three_nb {x : TEdge} : (m.splitThree h v n1 n2).nb x =
    bonds ((m.maketriangle n1).maketriangle n2).nb (threeBonds m h n1 n2) x := by rw [splitThree_nb]

theorem three_live {x : TEdge} (hx : live x.1) :
    live (threeMap h n1 n2 x).1 ∨ (threeMap h n1 n2 x).1 = n1 ∨ (threeMap h n1 n2 x).1 = n2 := by
  unfold threeMap
  split
  · exact .inr (.inl rfl)
  · split
    · exact .inr (.inr rfl)
    · exact .inl hx

/-- The ends of the edges afterwards. -/
theorem three_ends {x : TEdge} (hx : live x.1) :
    (m.splitThree h v n1 n2).org (threeMap h n1 n2 x) = m.org x ∧
    (m.splitThree h v n1 n2).dest (threeMap h n1 n2 x) = m.dest x := by
  have t1 : h.1 ≠ n1 := fun e => hn1 (e ▸ hh)
  have t2 : h.1 ≠ n2 := fun e => hn2 (e ▸ hh)
  obtain ⟨⟨a1, a2, a3⟩, ⟨b1, b2, b3⟩, c1, c2⟩ := splitThree_corners (m := m) (v := v) t1 t2 h12
  obtain ⟨v1, v2⟩ := threeMap_vals h n1 n2
  have k1 : x.1 ≠ n1 := fun h => hn1 (h ▸ hx)
  have k2 : x.1 ≠ n2 := fun h => hn2 (h ▸ hx)
  by_cases e1 : x = lnext h
  · subst e1
    rw [v1, org_lnext, dest_lnext]
    exact ⟨a2, a3⟩
  by_cases e2 : x = lprev h
  · subst e2
    rw [v2, org_lprev, dest_lprev]
    exact ⟨b2, b3⟩
  rw [threeMap_same e1 e2]
  refine ⟨c2 (lnext x) k1 k2 ?_, c2 (lprev x) k1 k2 ?_⟩
  · rintro rfl; exact e2 (lprev_lnext x).symm
  · rintro rfl; exact e1 (lnext_lprev x).symm

theorem three_moved (hv : v ≠ m.org h ∧ v ≠ m.dest h ∧ v ≠ m.apex h) :
    Moved m (m.splitThree h v n1 n2) live (fun t => live t ∨ t = n1 ∨ t = n2) (threeMap h n1 n2)
      fun x => live x.1 := by
  have S' := three_start S hh hn1 hn2 h10 h20 h12
  have t1 : h.1 ≠ n1 := fun e => hn1 (e ▸ hh)
  have t2 : h.1 ≠ n2 := fun e => hn2 (e ▸ hh)
  have hM := three_moves S hh hn1 hn2 h10 h20 h12
  obtain ⟨s1, ⟨f1, f2, f3, f4⟩, s2, s3⟩ := three_subs (v := v) S hh hn1 hn2 h10 h20 h12
  obtain ⟨r1, r2, -⟩ := splitThree_rest (m := m) (h := h) (v := v) (n1 := n1) (n2 := n2)
  obtain ⟨⟨a1, a2, a3⟩, ⟨b1, b2, b3⟩, c1, c2⟩ := splitThree_corners (m := m) (v := v) t1 t2 h12
  obtain ⟨v1, v2⟩ := threeMap_vals h n1 n2
  have hnb : (m.splitThree h v n1 n2).nb =
    bonds ((m.maketriangle n1).maketriangle n2).nb (threeBonds m h n1 n2) := splitThree_nb
  have p3 := bonds_mem hM.apart ((m.maketriangle n1).maketriangle n2).nb
    (p := ((n1, 1), (n2, 2))) (by simp [threeBonds])
  have p4 := bonds_mem hM.apart ((m.maketriangle n1).maketriangle n2).nb
    (p := (lnext h, (n1, 2))) (by simp [threeBonds])
  have p5 := bonds_mem hM.apart ((m.maketriangle n1).maketriangle n2).nb
    (p := (lprev h, (n2, 1))) (by simp [threeBonds])
  rw [← hnb] at p3 p4 p5
  have z1 : ∀ o : Fin 3, ((n1, o) : TEdge) ≠ space := fun o => ne_of_tri h10
  have z2 : ∀ o : Fin 3, ((n2, o) : TEdge) ≠ space := fun o => ne_of_tri h20
  have q3 := p3.2 (z2 2)
  have q4 := p4.2 (z1 2)
  have q5 := p5.2 (z2 1)
  replace p3 := p3.1
  replace p4 := p4.1
  replace p5 := p5.1
  simp only at p3 p4 p5 q3 q4 q5
  -- the ends of the new edges
  have oB : (m.splitThree h v n1 n2).org (lnext h) = m.dest h := by
    rw [org_lnext]; exact c2 (lprev h) t1 t2 (lprev_ne h)
  have dB : (m.splitThree h v n1 n2).dest (lnext h) = v := by rw [dest_lnext]; exact c1
  have oC : (m.splitThree h v n1 n2).org (lprev h) = v := by rw [org_lprev]; exact c1
  have dC : (m.splitThree h v n1 n2).dest (lprev h) = m.org h := by
    rw [dest_lprev]; exact c2 (lnext h) t1 t2 (lnext_ne h)
  have o11 : (m.splitThree h v n1 n2).org (n1, 1) = m.apex h := a3
  have d11 : (m.splitThree h v n1 n2).dest (n1, 1) = v := a1
  have o12' : (m.splitThree h v n1 n2).org (n1, 2) = v := a1
  have d12' : (m.splitThree h v n1 n2).dest (n1, 2) = m.dest h := a2
  have o21' : (m.splitThree h v n1 n2).org (n2, 1) = m.org h := b3
  have d21' : (m.splitThree h v n1 n2).dest (n2, 1) = v := b1
  have o22' : (m.splitThree h v n1 n2).org (n2, 2) = v := b1
  have d22' : (m.splitThree h v n1 n2).dest (n2, 2) = m.apex h := b2
  have old : ∀ {x : TEdge}, live x.1 → ((m.maketriangle n1).maketriangle n2).nb x = m.nb x :=
    fun hx => (three_old hn1 hn2 hx).1
  have out0 : ¬ (live 0 ∨ 0 = n1 ∨ 0 = n2) := by
    rintro (h | h | h)
    exacts [S.out h, h10 h.symm, h20 h.symm]
  have nbk : ∀ x : TEdge, live x.1 → (m.splitThree h v n1 n2).nb (threeMap h n1 n2 x) =
      if m.nb x = space then space else threeMap h n1 n2 (m.nb x) := by
    intro x hx
    rw [hnb, hM.nb S' hx, old hx]
  have cls : ∀ x' : TEdge, (live x'.1 ∨ x'.1 = n1 ∨ x'.1 = n2) → (∃ x : TEdge, live x.1 ∧ threeMap h n1 n2 x = x') ∨
      x' = lnext h ∨ x' = lprev h ∨ x' = (n1, 1) ∨ x' = (n1, 2) ∨ x' = (n2, 1) ∨ x' = (n2, 2) := by
    rintro ⟨t, o⟩ (hx | hx | hx)
    · by_cases e1 : ((t, o) : TEdge) = lnext h
      · exact .inr (.inl e1)
      by_cases e2 : ((t, o) : TEdge) = lprev h
      · exact .inr (.inr (.inl e2))
      exact .inl ⟨_, hx, threeMap_same e1 e2⟩
    · simp only at hx
      subst hx
      fin_cases o
      · exact .inl ⟨lnext h, hh, v1⟩
      · simp
      · simp
    · simp only at hx
      subst hx
      fin_cases o
      · exact .inl ⟨lprev h, hh, v2⟩
      · simp
      · simp
  refine ⟨out0, fun _ hx => hx, fun x hx => three_live S hh hn1 hn2 h10 h20 h12 hx,
    fun x hx hs => S.nb_live hx hs, fun x hx => (three_ends S hh hn1 hn2 h10 h20 h12 hx).1,
    fun x hx => (three_ends S hh hn1 hn2 h10 h20 h12 hx).2, nbk, s1, s2, ?_, ?_, r2, ?_, ?_⟩
  · intro x _ _
    rw [r1]
    exact ⟨rfl, rfl⟩
  · intro x hx hs hxs
    rcases S.seg x hx with h' | h'
    · exact absurd h' hs
    · exact s3 _ (h'.2.2.2.2.2 hxs)
  · rw [hnb]
    refine bonds_hull (live' := fun t => live t ∨ t = n1 ∨ t = n2) S' hM.apart (fun _ h => Or.inl h) ?_ ?_ ?_
    · intro p hp _
      simp only [threeBonds, List.mem_cons, List.not_mem_nil, or_false] at hp
      rcases hp with rfl | rfl | rfl | rfl | rfl
      exacts [.inr (.inl rfl), .inr (.inr rfl), .inr (.inl rfl), .inl hh, .inl hh]
    · intro x hx hxs ht
      rw [old hx] at hxs
      obtain ⟨p, hp, h'⟩ := ht
      have k1 : x.1 ≠ n1 := fun h => hn1 (h ▸ hx)
      have k2 : x.1 ≠ n2 := fun h => hn2 (h ▸ hx)
      have cas : ∀ y : TEdge, live y.1 → x = m.nb y → False := by
        rintro y hy rfl
        rw [S.nb_nb hy (S.ne_space hx)] at hxs
        exact S.ne_space hy hxs
      simp only [threeBonds, List.mem_cons, List.not_mem_nil, or_false] at hp
      rcases hp with rfl | rfl | rfl | rfl | rfl <;> rcases h' with h' | h'
      · exact absurd h' (ne_of_tri k1)
      · exact (cas (lnext h) hh h').elim
      · exact absurd h' (ne_of_tri k2)
      · exact (cas (lprev h) hh h').elim
      · exact absurd h' (ne_of_tri k1)
      · exact absurd h' (ne_of_tri k2)
      · simp only at h'
        subst h'
        exact ⟨_, by simp [threeBonds]; left; rfl, hxs⟩
      · exact absurd h' (ne_of_tri k1)
      · simp only at h'
        subst h'
        exact ⟨_, by simp [threeBonds]; right; left; rfl, hxs⟩
      · exact absurd h' (ne_of_tri k2)
    · intro x hx hxs
      rw [← hnb] at hxs
      right
      rcases cls x hx with ⟨y, hy, rfl⟩ | rfl | rfl | rfl | rfl | rfl | rfl
      · rw [nbk y hy] at hxs
        split at hxs
        · next h' => exact ⟨y, hy, by rw [old hy]; exact h'⟩
        · next h' =>
          have := three_live S hh hn1 hn2 h10 h20 h12 (S.nb_live hy h')
          rw [hxs] at this
          exact absurd this out0
      · rw [p4] at hxs; exact absurd hxs (z1 _)
      · rw [p5] at hxs; exact absurd hxs (z2 _)
      · rw [p3] at hxs; exact absurd hxs (z2 _)
      · rw [q4] at hxs; exact absurd hxs (S.ne_space (x := lnext h) hh)
      · rw [q5] at hxs; exact absurd hxs (S.ne_space (x := lprev h) hh)
      · rw [q3] at hxs; exact absurd hxs (z1 _)
  · intro x hx
    rcases cls x hx with h' | rfl | rfl | rfl | rfl | rfl | rfl
    · exact .inl h'
    · refine .inr ⟨.inr ?_, ?_, .inl f1, fun _ => f1⟩
      · rw [p4, q4, oB, dB, o12', d12']; exact ⟨.inr (.inl rfl), rfl, rfl, rfl⟩
      · rw [oB, dB]; exact hv.2.1.symm
    · refine .inr ⟨.inr ?_, ?_, .inl f2, fun _ => f2⟩
      · rw [p5, q5, oC, dC, o21', d21']; exact ⟨.inr (.inr rfl), rfl, rfl, rfl⟩
      · rw [oC, dC]; exact hv.1
    · have := f3 1 (by simp)
      refine .inr ⟨.inr ?_, ?_, .inl this, fun _ => this⟩
      · rw [p3, q3, o11, d11, o22', d22']; exact ⟨.inr (.inr rfl), rfl, rfl, rfl⟩
      · rw [o11, d11]; exact hv.2.2.symm
    · have := f3 2 (by simp)
      refine .inr ⟨.inr ?_, ?_, .inl this, fun _ => this⟩
      · rw [q4, p4, oB, dB, o12', d12']; exact ⟨.inl hh, rfl, rfl, rfl⟩
      · rw [o12', d12']; exact hv.2.1
    · have := f4 1 (by simp)
      refine .inr ⟨.inr ?_, ?_, .inl this, fun _ => this⟩
      · rw [q5, p5, oC, dC, o21', d21']; exact ⟨.inl hh, rfl, rfl, rfl⟩
      · rw [o21', d21']; exact hv.1.symm
    · have := f4 2 (by simp)
      refine .inr ⟨.inr ?_, ?_, .inl this, fun _ => this⟩
      · rw [q3, p3, o11, d11, o22', d22']; exact ⟨.inr (.inl rfl), rfl, rfl, rfl⟩
      · rw [o22', d22']; exact hv.2.2

end

end Nikfemm
