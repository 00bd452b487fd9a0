import Verif.Lemmas.Drawing

/-!
# `getCurrentEpsilon` and `addRefiningPoints`
-/

namespace Nikfemm
open Spec

namespace Drawing
variable {K P : Type} [Field K] [LinearOrder K]

/-- The distance from point `i` to segment `s`, as far as `getCurrentEpsilon` looks at it. -/
def PairDist (sq : K → K) (D : Drawing K P) (i : Nat) (s : Nat × Nat) (d : K) : Prop :=
  s.1 ≠ i ∧ s.2 ≠ i ∧ ∃ p a b, D.points[i]? = some p ∧ D.points[s.1]? = some a ∧
    D.points[s.2]? = some b ∧ pointSegmentDistance sq p a b = .ok d

/-- `m` is the minimum of the start value and the distances of the pairs in `S`. -/
def IsMin (sq : K → K) (D : Drawing K P) (S : Nat → Nat × Nat → Prop) (M m : K) : Prop :=
  m ≤ M ∧ (∀ i s d, S i s → PairDist sq D i s d → m ≤ d) ∧
    (m = M ∨ ∃ i s, S i s ∧ PairDist sq D i s m)

theorem IsMin.congr {sq : K → K} {D : Drawing K P} {S S' : Nat → Nat × Nat → Prop} {M m : K}
    (h : IsMin sq D S M m) (hS : ∀ i s, S i s ↔ S' i s) : IsMin sq D S' M m := by
  have : S = S' := by funext i s; exact propext (hS i s)
  rw [← this]; exact h

theorem IsMin.step {sq : K → K} {D : Drawing K P} {S : Nat → Nat × Nat → Prop} {M m m' : K}
    (h : IsMin sq D S M m) {i : Nat} {s : Nat × Nat}
    (hm : (m' = m ∧ ∀ d, PairDist sq D i s d → m ≤ d) ∨ (PairDist sq D i s m' ∧ m' < m))
    (huniq : ∀ d d', PairDist sq D i s d → PairDist sq D i s d' → d = d') :
    IsMin sq D (fun j t => S j t ∨ (j = i ∧ t = s)) M m' := by
  obtain ⟨h1, h2, h3⟩ := h
  rcases hm with ⟨rfl, hd⟩ | ⟨hd, hlt⟩
  · refine ⟨h1, ?_, ?_⟩
    · rintro j t d (hS | ⟨rfl, rfl⟩) hp
      · exact h2 j t d hS hp
      · exact hd d hp
    · rcases h3 with h3 | ⟨j, t, hS, hp⟩
      · exact Or.inl h3
      · exact Or.inr ⟨j, t, Or.inl hS, hp⟩
  · refine ⟨hlt.le.trans h1, ?_, Or.inr ⟨i, s, Or.inr ⟨rfl, rfl⟩, hd⟩⟩
    rintro j t d (hS | ⟨rfl, rfl⟩) hp
    · exact hlt.le.trans (h2 j t d hS hp)
    · exact (huniq _ _ hd hp).le

theorem pairDist_unique {sq : K → K} {D : Drawing K P} {i : Nat} {s : Nat × Nat} {d d' : K}
    (h : PairDist sq D i s d) (h' : PairDist sq D i s d') : d = d' := by
  obtain ⟨-, -, p, a, b, hp, ha, hb, hd⟩ := h
  obtain ⟨-, -, p', a', b', hp', ha', hb', hd'⟩ := h'
  rw [hp] at hp'; rw [ha] at ha'; rw [hb] at hb'
  cases hp'; cases ha'; cases hb'
  rw [hd] at hd'; cases hd'; rfl

theorem epsStep_spec (sq : K → K) {D : Drawing K P} (hD : WellFormed D) {i : Nat}
    (hi : i < D.points.length) {S : Nat → Nat × Nat → Prop} {M m : K} (h : IsMin sq D S M m) :
    ∃ m', epsStep sq D i m = .ok m' ∧
      IsMin sq D (fun j t => S j t ∨ (j = i ∧ t ∈ D.segments)) M m' := by
  unfold epsStep
  rw [rd_ok hi, ok_bind]
  refine Exists.elim (forEach_inv (body := fun s m =>
    if s.1 = i ∨ s.2 = i then .ok m
    else do
      let a ← rd D.points s.1
      let b ← rd D.points s.2
      match pointSegmentDistance sq D.points[i] a b with
      | .ok d => if d < m then .ok d else .ok m
      | .error _ => .ok m)
    (fun pre m => IsMin sq D (fun j t => S j t ∨ (j = i ∧ t ∈ pre)) M m) D.segments [] m
    (h.congr (by simp)) ?_) ?_
  rotate_left
  · rintro m' ⟨e, h'⟩
    exact ⟨m', e, by simpa using h'⟩
  · intro pre s post m he _ hm
    have hs : s ∈ D.segments := by rw [List.nil_append] at he; rw [he]; simp
    obtain ⟨h1, h2⟩ := hD.refs s hs
    have conv : ∀ m', IsMin sq D (fun j t => (S j t ∨ (j = i ∧ t ∈ pre)) ∨ (j = i ∧ t = s)) M m' →
        IsMin sq D (fun j t => S j t ∨ (j = i ∧ t ∈ pre ++ [s])) M m' := by
      intro m' hm'
      refine hm'.congr ?_
      intro j t
      simp only [List.mem_append, List.mem_singleton]
      tauto
    by_cases hsi : s.1 = i ∨ s.2 = i
    · refine ⟨m, if_pos hsi, conv m (hm.step (Or.inl ⟨rfl, ?_⟩) fun _ _ => pairDist_unique)⟩
      rintro d ⟨ha, hb, -⟩
      exact absurd hsi (by tauto)
    · rw [if_neg hsi, rd_ok h1, ok_bind, rd_ok h2, ok_bind]
      have hpd : ∀ d, PairDist sq D i s d ↔
          pointSegmentDistance sq D.points[i] D.points[s.1] D.points[s.2] = .ok d := by
        intro d
        push Not at hsi
        constructor
        · rintro ⟨-, -, p, a, b, hp, ha, hb, hd⟩
          rw [List.getElem?_eq_getElem hi] at hp
          rw [List.getElem?_eq_getElem h1] at ha
          rw [List.getElem?_eq_getElem h2] at hb
          cases hp; cases ha; cases hb
          exact hd
        · intro hd
          exact ⟨hsi.1, hsi.2, _, _, _, List.getElem?_eq_getElem hi, List.getElem?_eq_getElem h1,
            List.getElem?_eq_getElem h2, hd⟩
      cases hc : pointSegmentDistance sq D.points[i] D.points[s.1] D.points[s.2] with
      | error e =>
        refine ⟨m, rfl, conv m (hm.step (Or.inl ⟨rfl, ?_⟩) fun _ _ => pairDist_unique)⟩
        intro d hd
        rw [hpd, hc] at hd; cases hd
      | ok d =>
        by_cases hlt : d < m
        · exact ⟨d, if_pos hlt, conv d (hm.step (Or.inr ⟨(hpd d).mpr hc, hlt⟩)
            fun _ _ => pairDist_unique)⟩
        · refine ⟨m, if_neg hlt, conv m (hm.step (Or.inl ⟨rfl, ?_⟩) fun _ _ => pairDist_unique)⟩
          intro d' hd'
          rw [hpd, hc] at hd'; cases hd'
          exact not_lt.mp hlt

/-- `getCurrentEpsilon` never fails on a well-formed drawing and is the smallest distance. -/
theorem getCurrentEpsilon_spec (sq : K → K) {D : Drawing K P} (hD : WellFormed D) :
    ∃ m, D.getCurrentEpsilon sq = .ok m ∧
      IsMin sq D (fun _ t => t ∈ D.segments) ((2 - 1 / 2 ^ 52) * 2 ^ 1023) m := by
  refine Exists.elim (forUp_inv (body := epsStep sq D)
    (fun n m => IsMin sq D (fun j t => j < n ∧ t ∈ D.segments) ((2 - 1 / 2 ^ 52) * 2 ^ 1023) m)
    (Nat.zero_le D.points.length) (s := (2 - 1 / 2 ^ 52) * 2 ^ 1023)
    ⟨le_refl _, by simp, Or.inl rfl⟩ ?_) ?_
  rotate_left
  · rintro m ⟨e, h⟩
    refine ⟨m, e, h.1, ?_, ?_⟩
    · intro i s d hs hp
      refine h.2.1 i s d ⟨?_, hs⟩ hp
      obtain ⟨-, -, p, a, b, hp, -⟩ := hp
      exact getElem?_lt hp
    · rcases h.2.2 with h | ⟨i, s, hs, hp⟩
      · exact Or.inl h
      · exact Or.inr ⟨i, s, hs.2, hp⟩
  · intro n m _ hn hm
    obtain ⟨m', e, h⟩ := epsStep_spec sq hD hn hm
    refine ⟨m', e, h.congr ?_⟩
    intro j t
    constructor
    · rintro (⟨h1, h2⟩ | ⟨rfl, h2⟩)
      · exact ⟨by omega, h2⟩
      · exact ⟨by omega, h2⟩
    · rintro ⟨h1, h2⟩
      rcases Nat.lt_or_ge j n with h | h
      · exact Or.inl ⟨h, h2⟩
      · exact Or.inr ⟨by omega, h2⟩

/-! ## Corner angles -/

variable [IsStrictOrderedRing K]

/-- Two segments with a common point index: the angle is found. -/
theorem cornerAngle_ok (lm : Libm K) {D : Drawing K P} {s t : Nat × Nat} {i : Nat}
    (hs : s.1 < D.points.length ∧ s.2 < D.points.length)
    (ht : t.1 < D.points.length ∧ t.2 < D.points.length)
    (hsi : s.1 = i ∨ s.2 = i) (hti : t.1 = i ∨ t.2 = i) : ∃ x, cornerAngle lm D s t = .ok x := by
  unfold cornerAngle
  rw [rd_ok hs.1, ok_bind, rd_ok hs.2, ok_bind, rd_ok ht.1, ok_bind, rd_ok ht.2, ok_bind]
  split_ifs with h1 h2 h3 h4
  · exact ⟨_, rfl⟩
  · exact ⟨_, rfl⟩
  · exact ⟨_, rfl⟩
  · exact ⟨_, rfl⟩
  · exfalso
    rcases hsi with rfl | rfl <;> rcases hti with h | h
    · exact h1 (by simp only [h]; exact eqv_refl _)
    · exact h2 (by simp only [h]; exact eqv_refl _)
    · exact h3 (by simp only [h]; exact eqv_refl _)
    · exact h4 (by simp only [h]; exact eqv_refl _)

theorem sharpWith_ok (lm : Libm K) {D : Drawing K P} {s : Nat × Nat} {i : Nat}
    (hs : (s.1 < D.points.length ∧ s.2 < D.points.length) ∧ (s.1 = i ∨ s.2 = i)) :
    ∀ (l : List (Nat × Nat)), (∀ t ∈ l, (t.1 < D.points.length ∧ t.2 < D.points.length) ∧
      (t.1 = i ∨ t.2 = i)) → ∃ r, sharpWith lm D s l = .ok r
  | [], _ => ⟨false, rfl⟩
  | t :: l, h => by
    obtain ⟨r, hr⟩ := sharpWith_ok lm hs l (fun t ht => h t (by simp [ht]))
    obtain ⟨x, hx⟩ := cornerAngle_ok lm hs.1 (h t (by simp)).1 hs.2 (h t (by simp)).2
    unfold sharpWith
    rw [hx, ok_bind]
    split_ifs
    · exact ⟨true, rfl⟩
    · exact ⟨r, hr⟩

theorem sharpCorner_ok (lm : Libm K) {D : Drawing K P} {i : Nat} :
    ∀ (l : List (Nat × Nat)), (∀ t ∈ l, (t.1 < D.points.length ∧ t.2 < D.points.length) ∧
      (t.1 = i ∨ t.2 = i)) → ∃ r, sharpCorner lm D l = .ok r
  | [], _ => ⟨false, rfl⟩
  | s :: l, h => by
    obtain ⟨r, hr⟩ := sharpCorner_ok lm l (fun t ht => h t (by simp [ht]))
    obtain ⟨x, hx⟩ := sharpWith_ok lm (h s (by simp)) l (fun t ht => h t (by simp [ht]))
    unfold sharpCorner
    rw [hx, ok_bind]
    cases x
    · exact ⟨r, hr⟩
    · exact ⟨true, rfl⟩

omit [IsStrictOrderedRing K] in
theorem tooClose_ok (lm : Libm K) {D : Drawing K P} (p : Vec K) (bound : K) :
    ∀ (l : List (Nat × Nat)), (∀ t ∈ l, t.1 < D.points.length ∧ t.2 < D.points.length) →
      ∃ r, tooClose lm D p bound l = .ok r ∧ (r = false → ∀ t ∈ l, ∀ a b d,
        D.points[t.1]? = some a → D.points[t.2]? = some b →
        pointSegmentDistance lm.sqrt p a b = .ok d → bound ≤ d)
  | [], _ => ⟨false, rfl, by simp⟩
  | t :: l, h => by
    obtain ⟨r, hr, hd⟩ := tooClose_ok lm p bound l (fun t ht => h t (by simp [ht]))
    obtain ⟨h1, h2⟩ := h t (by simp)
    unfold tooClose
    rw [rd_ok h1, ok_bind, rd_ok h2, ok_bind]
    have ext : r = false → (∀ d, pointSegmentDistance lm.sqrt p D.points[t.1] D.points[t.2] = .ok d →
        bound ≤ d) → ∀ u ∈ t :: l, ∀ a b d,
        D.points[u.1]? = some a → D.points[u.2]? = some b →
        pointSegmentDistance lm.sqrt p a b = .ok d → bound ≤ d := by
      intro hrf hh u hu a b d ha hb hdd
      rcases List.mem_cons.mp hu with rfl | hu
      · rw [List.getElem?_eq_getElem h1] at ha; rw [List.getElem?_eq_getElem h2] at hb
        cases ha; cases hb
        exact hh d hdd
      · exact hd hrf u hu a b d ha hb hdd
    cases hc : pointSegmentDistance lm.sqrt p D.points[t.1] D.points[t.2] with
    | error e =>
      refine ⟨r, hr, fun hrf => ext hrf ?_⟩
      rw [hc]; rintro d ⟨⟩
    | ok d =>
      by_cases hlt : d < bound
      · refine ⟨true, by simp [hlt], by simp⟩
      · refine ⟨r, by simpa [hlt] using hr, fun hrf => ext hrf ?_⟩
        rw [hc]; rintro d' ⟨⟩; exact not_lt.mp hlt

/-! ## The loops -/

/-- A point added by the refinement of `D`. -/
structure Added (lm : Libm K) (D : Drawing K P) (eps : K) (q : Vec K) : Prop where
  inside : ∃ Q ∈ D.polygons, Q.contains q = true
  corner : ∃ i c, D.points[i]? = some c ∧ (∃ angle, q = ⟨c.x + (eps / 100) * lm.cos angle,
    c.y + (eps / 100) * lm.sin angle⟩) ∧
    ∀ t ∈ D.segments, t.1 = i ∨ t.2 = i → ∀ a b d, D.points[t.1]? = some a →
      D.points[t.2]? = some b → pointSegmentDistance lm.sqrt q a b = .ok d → (eps / 100) / 2 ≤ d

/-- The state during refinement: `D` with at most `n` added points. -/
def Refined (lm : Libm K) (D : Drawing K P) (eps : K) (n : Nat) (D' : Drawing K P) : Prop :=
  ∃ new : List (Vec K), D' = { D with points := D.points ++ new } ∧ new.length ≤ n ∧
    ∀ q ∈ new, Added lm D eps q

omit [IsStrictOrderedRing K] in
theorem refineCandidate_ok (lm : Libm K) {D : Drawing K P} (hD : WellFormed D) {i : Nat}
    (hi : i < D.points.length) (eps : K) (j n : Nat) {D' : Drawing K P}
    (h : Refined lm D eps n D') :
    ∃ D'', refineCandidate lm i eps (D.segments.filter (fun s => s.1 = i ∨ s.2 = i)) j D' = .ok D'' ∧
      Refined lm D eps (n + 1) D'' := by
  obtain ⟨new, rfl, hlen, hnew⟩ := h
  have hi' : i < (D.points ++ new).length := by rw [List.length_append]; omega
  unfold refineCandidate
  dsimp only
  rw [rd_ok hi', ok_bind, List.getElem_append_left hi]
  set p : Vec K := ⟨D.points[i].x + eps / 100 * lm.cos (j * lm.pi / 9),
    D.points[i].y + eps / 100 * lm.sin (j * lm.pi / 9)⟩ with hp
  obtain ⟨r, hr, hd⟩ := tooClose_ok lm (D := { D with points := D.points ++ new }) p (eps / 100 / 2)
    (D.segments.filter (fun s => s.1 = i ∨ s.2 = i)) (by
      intro t ht
      have := hD.refs t (List.mem_of_mem_filter ht)
      simp only [List.length_append]; omega)
  rw [hr, ok_bind]
  by_cases hc : (!r && D.polygons.any (fun Q => Q.contains p)) = true
  · rw [if_pos hc]
    rw [Bool.and_eq_true, Bool.not_eq_true', List.any_eq_true] at hc
    obtain ⟨hrf, Q, hQ, hin⟩ := hc
    refine ⟨_, rfl, new ++ [p], by simp [drawPoint], by simp; omega, ?_⟩
    intro q hq
    rw [List.mem_append, List.mem_singleton] at hq
    rcases hq with hq | rfl
    · exact hnew q hq
    · refine ⟨⟨Q, hQ, hin⟩, i, D.points[i], List.getElem?_eq_getElem hi, ⟨_, rfl⟩, ?_⟩
      intro t ht hti a b d ha hb hdd
      refine hd hrf t (by simp [ht, hti]) a b d ?_ ?_ hdd
      · rw [List.getElem?_append_left (getElem?_lt ha)]; exact ha
      · rw [List.getElem?_append_left (getElem?_lt hb)]; exact hb
  · rw [if_neg hc]
    exact ⟨_, rfl, new, rfl, by omega, hnew⟩

theorem refineAt_ok (lm : Libm K) {D : Drawing K P} (hD : WellFormed D) {i : Nat}
    (hi : i < D.points.length) (eps : K) (n : Nat) {D' : Drawing K P}
    (h : Refined lm D eps n D') :
    ∃ D'', refineAt lm eps i D' = .ok D'' ∧ Refined lm D eps (n + 18) D'' := by
  unfold refineAt
  have hseg : D'.segments = D.segments := by obtain ⟨_, rfl, -⟩ := h; rfl
  have hlen : D.points.length ≤ D'.points.length := by
    obtain ⟨_, rfl, -⟩ := h; simp
  rw [hseg]
  obtain ⟨r, hr⟩ := sharpCorner_ok lm (D := D') (i := i)
    (D.segments.filter (fun s => s.1 = i ∨ s.2 = i)) (by
      intro t ht
      rw [List.mem_filter] at ht
      have := hD.refs t ht.1
      exact ⟨⟨by omega, by omega⟩, by simpa using ht.2⟩)
  dsimp only
  rw [hr, ok_bind]
  cases r with
  | false =>
    refine ⟨D', rfl, ?_⟩
    obtain ⟨new, h1, h2, h3⟩ := h
    exact ⟨new, h1, by omega, h3⟩
  | true =>
    exact forUp_inv (fun j D'' => Refined lm D eps (n + j) D'') (Nat.zero_le 18) h
      (fun j s _ _ hs => refineCandidate_ok lm hD hi eps j (n + j) hs)

/-- `addRefiningPoints` never fails on a well-formed drawing. -/
theorem addRefiningPoints_spec (lm : Libm K) {D : Drawing K P} (hD : WellFormed D) :
    ∃ eps D', D.getCurrentEpsilon lm.sqrt = .ok eps ∧ D.addRefiningPoints lm = .ok D' ∧
      Refined lm D eps (18 * D.points.length) D' := by
  obtain ⟨eps, he, -⟩ := getCurrentEpsilon_spec lm.sqrt hD
  unfold addRefiningPoints
  rw [he, ok_bind]
  obtain ⟨D', e, h⟩ := forUp_inv (fun i D' => Refined lm D eps (18 * i) D')
    (Nat.zero_le D.points.length) (s := D) ⟨[], by simp, by simp, by simp⟩
    (fun i s _ hi hs => refineAt_ok lm hD hi eps (18 * i) hs)
  exact ⟨eps, D', rfl, e, h⟩

theorem refine_step (lm : Libm K) {D : Drawing K P} (hD : WellFormed D) :
    Step WellFormed D (lift D (D.addRefiningPoints lm) fun D => (D, none)) := by
  obtain ⟨eps, D', -, e, new, rfl, -, -⟩ := addRefiningPoints_spec lm hD
  rw [e]
  refine ⟨⟨?_, hD.simple, hD.materials⟩, ⟨List.prefix_append _ _, List.prefix_rfl, List.prefix_rfl,
    List.prefix_rfl, List.prefix_rfl⟩, Or.inl rfl⟩
  intro s hs
  have := hD.refs s hs
  simp only [lift, List.length_append]
  omega

end Drawing
end Nikfemm
