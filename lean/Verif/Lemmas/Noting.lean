import Verif.Lemmas.Undo
import Verif.Spec.Refine

/-!
# What the loop notes while a vertex is inserted
-/

set_option linter.unusedSectionVars false

namespace Nikfemm
variable {K : Type} [Field K] [LinearOrder K] [IsStrictOrderedRing K] {pos : Nat → Vec K}

theorem Circling.watch_mono {b : Quality.Behavior K} {v first : Nat} {r : (TMesh K × TEdge) × Notes} :
    ∀ {n k : Nat} {s : Circling K} {l : Notes}, n ≤ k →
    Circling.watch b pos v first n s l = some r → Circling.watch b pos v first k s l = some r := by
  intro n
  induction n with
  | zero => intro k s l _ h; exact absurd h (by simp [Circling.watch])
  | succ n ih =>
    intro k s l hk h
    obtain ⟨j, rfl⟩ : ∃ j, k = j + 1 := ⟨k - 1, by omega⟩
    unfold Circling.watch at h ⊢
    cases hst : s.step pos v first with
    | inl q => rw [hst] at h; exact h
    | inr q =>
      rw [hst] at h
      exact ih (by omega) h

theorem inLens_comm (b : Quality.Behavior K) (o d p : Quality.Vtx K) :
    Quality.inLens b o d p = Quality.inLens b d o p := by
  unfold Quality.inLens
  have e1 : (o.x - p.x) * (d.x - p.x) + (o.y - p.y) * (d.y - p.y) =
      (d.x - p.x) * (o.x - p.x) + (d.y - p.y) * (o.y - p.y) := by ring
  have e2 : (2 * b.goodangle - 1) * (2 * b.goodangle - 1) *
      ((o.x - p.x) * (o.x - p.x) + (o.y - p.y) * (o.y - p.y)) *
      ((d.x - p.x) * (d.x - p.x) + (d.y - p.y) * (d.y - p.y)) = (2 * b.goodangle - 1) * (2 * b.goodangle - 1) *
      ((d.x - p.x) * (d.x - p.x) + (d.y - p.y) * (d.y - p.y)) *
      ((o.x - p.x) * (o.x - p.x) + (o.y - p.y) * (o.y - p.y)) := by ring
  dsimp only
  rw [e1, e2]

/-- What holds during the loop: `m` is the mesh before the insertion, `m1` the one after the split, `mm` the
present one. -/
structure Watched (live live' : Nat → Prop) (T' : Finset Nat) (b : Quality.Behavior K) (pos : Nat → Vec K) (v : Nat)
    (m m1 mm : TMesh K) (l : Notes) : Prop where
  undo : ∀ m' : TMesh K, Agree live' (m.Used live) m' mm → m'.HullOk live' →
    Agree live' (m.Used live) (l.flips.foldl (fun m e => m.unflip e) m') m1 ∧
    (l.flips.foldl (fun m e => m.unflip e) m').HullOk live' ∧
    (l.flips.foldl (fun m e => m.unflip e) m').attr = m'.attr
  off : ∀ x : TEdge, live' x.1 → mm.Off v x.1 → live x.1 ∧ mm.apex x = m.apex x ∧ mm.sg x = m.sg x
  side : ∀ x : TEdge, live' x.1 → mm.Off v x.1 → m1.Off v x.1 ∧
    (mm.nb x = m.nb x ∨ mm.nb x ≠ space ∧ mm.apex (mm.nb x) = v)
  keeps : Keeps live' T' pos m1 mm
  enc : ∀ s ∈ l.encroached, ∃ x : TEdge, live' x.1 ∧ mm.apex x = v ∧ mm.sg x = s ∧ s.1 ≠ 0 ∧
    (m.Unencroached b pos live →
      Quality.inLens b (vtxAt pos (mm.org x)) (vtxAt pos (mm.dest x)) (vtxAt pos v) = true)

section
variable {live live' : Nat → Prop} {T' : Finset Nat} {b : Quality.Behavior K} {v : Nat} {m m1 mm : TMesh K} {l : Notes}

theorem Watched.flip (hT' : ∀ t, live' t ↔ t ∈ T') (W : Watched live live' T' b pos v m m1 mm l) {e : TEdge}
    (S : mm.Sound live') (he : live' e.1) (hs : mm.nb e ≠ space) (hseg : mm.sg e = noSub)
    (hf : mm.apex e ≠ mm.apex (mm.nb e)) (hv : mm.apex e = v) :
    Watched live live' T' b pos v m m1 ((mm.flip e).averageAttr (mm.nb e).1 e.1) { l with flips := e :: l.flips } := by
  obtain ⟨F1, F2, F3, ⟨A1, A2, A3⟩, B1, B2, B3⟩ := flip_view S he hs hseg hf
  rw [hv] at A3 B3
  have away : ∀ x : TEdge, ((mm.flip e).averageAttr (mm.nb e).1 e.1).Off v x.1 →
      x.1 ≠ e.1 ∧ x.1 ≠ (mm.nb e).1 ∧ mm.Off v x.1 := by
    intro x ho
    have t1 : x.1 ≠ e.1 := by
      intro hc
      exact ho (lprev e).2 (by rw [hc]; exact A3)
    have t2 : x.1 ≠ (mm.nb e).1 := by
      intro hc
      exact ho (lnext (mm.nb e)).2 (by rw [hc]; exact B3)
    refine ⟨t1, t2, fun o => ?_⟩
    rw [← (F1 (x.1, o) t1 t2).1]
    exact ho o
  refine ⟨?_, ?_, ?_, W.keeps.flip hT' S he hs hseg hf, ?_⟩
  · intro m' A H
    have A0 : Agree live' (m.Used live) m' (mm.flip e) := ⟨A.nb, A.apex, A.sg, A.st, A.sorg, A.chk⟩
    obtain ⟨A', H'⟩ := unflip_hull S he hs hseg hf A0 H
    obtain ⟨w1, w2, w3⟩ := W.undo _ A' H'
    exact ⟨w1, w2, w3.trans (unflip_rest m' e).2.1⟩
  · intro x hx ho
    obtain ⟨t1, t2, ho'⟩ := away x ho
    obtain ⟨w1, w2, w3⟩ := W.off x hx ho'
    exact ⟨w1, (F1 x t1 t2).1.trans w2, (F2 x hx t1 t2).trans w3⟩
  · intro x hx ho
    obtain ⟨t1, t2, ho'⟩ := away x ho
    refine ⟨(W.side x hx ho').1, ?_⟩
    show (mm.flip e).nb x = m.nb x ∨ (mm.flip e).nb x ≠ space ∧ (mm.flip e).apex ((mm.flip e).nb x) = v
    obtain ⟨o1, o2, o3, -⟩ := flip_outside S he hs hseg hf
    obtain ⟨-, p2, p3, p4, p5, p6⟩ := o1 x hx t1 t2
    have ends : ∀ o : TEdge, o.1 = x.1 → mm.apex o ≠ v := fun o h => by
      have := ho' o.2
      rwa [← h] at this
    by_cases q1 : (mm.nb x).1 = e.1
    · exfalso
      have hxs : mm.nb x ≠ space := fun hc => S.out (by rw [← show (mm.nb x).1 = 0 from by rw [hc]; rfl, q1]; exact he)
      obtain ⟨e1, e2⟩ := S.nb_ends hx hxs
      rcases edge_cases e.2 q1 with h | h | h
      · have h : mm.nb x = e := h
        have := S.nb_nb hx hxs
        rw [h] at this
        exact t2 (congrArg Prod.fst this).symm
      · have h : mm.nb x = lnext e := h
        rw [h, dest_lnext, hv] at e2
        exact ends (lnext x) rfl e2.symm
      · have h : mm.nb x = lprev e := h
        rw [h, org_lprev, hv] at e1
        exact ends (lprev x) rfl e1.symm
    · by_cases q2 : (mm.nb x).1 = (mm.nb e).1
      · right
        rcases edge_cases (mm.nb e).2 q2 with h | h | h
        · have h : mm.nb x = mm.nb e := h
          exact absurd (congrArg Prod.fst (S.nb_inj hx he h (by rw [h]; exact hs))) t1
        · rw [p5 h]; exact ⟨S.ne_space he, A3⟩
        · rw [p6 h]; exact ⟨S.ne_space (S.nb_live he hs), B3⟩
      · rw [F3 x hx t1 t2 q1 q2]
        rcases (W.side x hx ho').2 with h | h
        · exact .inl h
        · exact .inr ⟨h.1, (F1 _ q1 q2).1.trans h.2⟩
  · intro s hs'
    obtain ⟨x, x1, x2, x3, x4, x5⟩ := W.enc s hs'
    have t1 : x.1 ≠ e.1 := by
      intro hc
      have : x = e := apex_inj S he hc (x2.trans hv.symm)
      rw [this, hseg] at x3
      rw [← x3] at x4
      exact x4 rfl
    have t2 : x.1 ≠ (mm.nb e).1 := by
      intro hc
      have hl := S.nb_live he hs
      obtain ⟨e1, e2⟩ := S.nb_ends he hs
      rcases edge_cases (mm.nb e).2 hc with h | h | h
      · rw [h] at x2
        exact hf (hv.trans x2.symm)
      · have h : x = lnext (mm.nb e) := h
        rw [h] at x2
        have : mm.org (mm.nb e) = v := x2
        rw [e1, ← hv] at this
        exact (S.apex_ne e he).2.1 this
      · have h : x = lprev (mm.nb e) := h
        rw [h] at x2
        have : mm.dest (mm.nb e) = v := x2
        rw [e2, ← hv] at this
        exact (S.apex_ne e he).2.2 this.symm
    obtain ⟨g1, g2, g3⟩ := F1 x t1 t2
    refine ⟨x, x1, g1.trans x2, (F2 x x1 t1 t2).trans x3, x4, fun hc => ?_⟩
    show Quality.inLens b (vtxAt pos ((mm.flip e).org x)) (vtxAt pos ((mm.flip e).dest x)) _ = true
    rw [g2, g3]
    exact x5 hc

theorem Watched.note (W : Watched live live' T' b pos v m m1 mm l) {e : TEdge} {enc : List TSub}
    {tst : List (TEdge × Nat × Nat × Nat)} (S : mm.Sound live') (he : live' e.1) (hv : mm.apex e = v)
    (hc : enc = l.encroached ∨ enc = mm.sg e :: l.encroached ∧ (mm.sg e).1 ≠ 0 ∧
      mm.encroaches b pos (mm.sg e) = true) :
    Watched live live' T' b pos v m m1 mm { l with encroached := enc, tested := tst } := by
  refine ⟨W.undo, W.off, W.side, W.keeps, ?_⟩
  intro s hs
  rcases hc with rfl | ⟨rfl, h0, hen⟩
  · exact W.enc s hs
  rcases List.mem_cons.1 hs with rfl | hs
  swap
  · exact W.enc s hs
  refine ⟨e, he, hv, rfl, h0, fun hU => ?_⟩
  have hne : mm.sg e ≠ noSub := fun h => h0 (congrArg Prod.fst h)
  rcases S.seg e he with h' | ⟨-, h2, h3, h4, h5, h6⟩
  · exact absurd h' hne
  unfold TMesh.encroaches Quality.checkseg4encroach at hen
  rw [h3, h4] at hen
  have side : Quality.sideIn b (vtxAt pos (mm.dest e)) (vtxAt pos (mm.org e)) (mm.sideApex pos (mm.sg e)) = true ∨
      Quality.sideIn b (vtxAt pos (mm.dest e)) (vtxAt pos (mm.org e)) (mm.sideApex pos (ssym (mm.sg e))) = true := by
    by_contra hc
    rw [not_or, Bool.not_eq_true, Bool.not_eq_true] at hc
    simp [hc.1, hc.2] at hen
  rcases side with hl | hr
  · unfold TMesh.sideApex at hl
    rw [h2, if_neg (show ¬ e.1 = 0 from fun hc => S.out (hc ▸ he))] at hl
    rw [inLens_comm, ← hv]
    exact hl
  · by_cases hsp : mm.nb e = space
    · rw [TMesh.sideApex, h6 hsp, if_pos (show space.1 = 0 from rfl)] at hr
      exact absurd hr (by simp [Quality.sideIn])
    have hl := S.nb_live he hsp
    obtain ⟨e1, e2⟩ := S.nb_ends he hsp
    have hst : mm.st (ssym (mm.sg e)) = mm.nb e := by
      rw [← h5 hsp]
      rcases S.seg _ hl with h' | h'
      · rw [h5 hsp] at h'
        exact absurd (congrArg Prod.fst h') h0
      · exact h'.2.1
    rw [TMesh.sideApex, hst, if_neg (show ¬ (mm.nb e).1 = 0 from fun hc => S.out (hc ▸ hl))] at hr
    have hr : Quality.inLens b (vtxAt pos (mm.dest e)) (vtxAt pos (mm.org e)) (vtxAt pos (mm.apex (mm.nb e))) = true := hr
    by_cases hav : mm.apex (mm.nb e) = v
    · rw [inLens_comm, ← hav]
      exact hr
    exfalso
    have hoff : mm.Off v (mm.nb e).1 := by
      intro o ho
      rcases edge_cases (mm.nb e).2 (x := ((mm.nb e).1, o)) rfl with h | h | h
      · rw [h] at ho
        exact hav ho
      · rw [h] at ho
        have : mm.org (mm.nb e) = v := ho
        rw [e1, ← hv] at this
        exact (S.apex_ne e he).2.1 this
      · rw [h] at ho
        have : mm.dest (mm.nb e) = v := ho
        rw [e2, ← hv] at this
        exact (S.apex_ne e he).2.2 this.symm
    obtain ⟨w1, w2, w3⟩ := W.off (mm.nb e) hl hoff
    have w4 : mm.org (mm.nb e) = m.org (mm.nb e) := (W.off (lnext (mm.nb e)) hl hoff).2.1
    have w5 : mm.dest (mm.nb e) = m.dest (mm.nb e) := (W.off (lprev (mm.nb e)) hl hoff).2.1
    refine hU (mm.nb e) w1 ⟨?_, ?_⟩
    · rw [← w3, h5 hsp]
      exact fun h => h0 (congrArg Prod.fst h)
    · rw [← w4, ← w5, ← w2, e1, e2]
      exact hr

end

section
variable {m : TMesh K} {live : Nat → Prop} {v n1 n2 : Nat} {ss : Option Nat} {place : Located × TEdge}
  {T T' : Finset Nat}

/-- The last entry of the stack. -/
def entryAt : Located × TEdge → Entry
  | (.inTriangle, e) => .three e
  | (_, e) => .edge e

theorem insertNoting_split (b : Quality.Behavior K) (hp : m.Place live pos v ss place) (k : Nat) :
    m.insertNoting b pos v n1 n2 ss k place =
      (Circling.watch b pos v ((m.splitAt v n1 n2 ss place).org (startAt place)) k
        { m := m.splitAt v n1 n2 ss place, horiz := startAt place,
          right := (m.splitAt v n1 n2 ss place).org (startAt place),
          left := (m.splitAt v n1 n2 ss place).dest (startAt place) } ⟨[], [], []⟩).map
        fun r => (r.1, entryAt place, r.2) := by
  obtain ⟨loc, e⟩ := place
  cases loc with
  | inTriangle => rfl
  | onVertex => exact hp.elim
  | outside => exact hp.elim
  | onEdge =>
    show (if _ then _ else _) = _
    rw [if_neg]
    · rfl
    · cases ss with
      | some k => simp
      | none =>
        have : m.sg e = noSub := hp.2.1
        simp [this, noSub]

section
variable (S : m.Sound live) (C : m.Ccw live pos) (hv : ¬ m.HasCorner live v) (hn1 : ¬ live n1) (hn2 : ¬ live n2)
  (h10 : n1 ≠ 0) (h20 : n2 ≠ 0) (h12 : n1 ≠ n2) (hp : m.Place live pos v ss place)
include S C hv hn1 hn2 h10 h20 h12 hp

/-- The split leaves the triangles without the new vertex as they were. -/
theorem splitAt_off {x : TEdge} (hx : m.Grown live n1 n2 place x.1) (ho : (m.splitAt v n1 n2 ss place).Off v x.1) :
    live x.1 ∧ (m.splitAt v n1 n2 ss place).apex x = m.apex x ∧ (m.splitAt v n1 n2 ss place).sg x = m.sg x := by
  obtain ⟨loc, h⟩ := place
  cases loc with
  | onVertex => exact hp.elim
  | outside => exact hp.elim
  | inTriangle =>
    have hh : live h.1 := hp.1
    have hv3 : v ≠ m.org h ∧ v ≠ m.dest h ∧ v ≠ m.apex h :=
      ⟨fun e => hv ⟨lnext h, hh, e.symm⟩, fun e => hv ⟨lprev h, hh, e.symm⟩, fun e => hv ⟨h, hh, e.symm⟩⟩
    have M := three_moved S hh hn1 hn2 h10 h20 h12 hv3
    obtain ⟨c1, c2, c3, c4⟩ := splitThree_triangles (v := v) S hh hn1 hn2 h10 h20 h12
    unfold TMesh.corners at c1 c2 c3 c4
    simp only [Prod.mk.injEq] at c1 c2 c3 c4
    have q1 : x.1 ≠ h.1 := fun e => ho h.2 (by rw [e]; exact c1.2.2)
    have hl : live x.1 := by
      rcases hx with hx | hx | hx
      · exact hx
      · exact absurd (by rw [hx]; exact c2.2.2) (ho 0)
      · exact absurd (by rw [hx.1]; exact c3.2.2) (ho 0)
    refine ⟨hl, (c4 x hl q1).2.2, ?_⟩
    have := M.sg x hl
    rwa [threeMap_same (fun e => q1 (by rw [e]; rfl)) (fun e => q1 (by rw [e]; rfl))] at this
  | onEdge =>
    obtain ⟨hh, hss, -⟩ := hp
    have hv3 : v ≠ m.org h ∧ v ≠ m.dest h ∧ v ≠ m.apex h :=
      ⟨fun e => hv ⟨lnext h, hh, e.symm⟩, fun e => hv ⟨lprev h, hh, e.symm⟩, fun e => hv ⟨h, hh, e.symm⟩⟩
    have hf := C.apex_ne S hh
    obtain ⟨c1, c2, c3, c4⟩ := splitEdge_triangles (v := v) (ss := ss) S hh hf hn1 hn2 h10 h20 h12
    unfold TMesh.corners at c1 c2 c3 c4
    simp only [Prod.mk.injEq] at c1 c2 c3 c4
    have q1 : x.1 ≠ h.1 := fun e => ho (lnext h).2 (by rw [e]; exact c1.1)
    have q2 : m.nb h ≠ space → x.1 ≠ (m.nb h).1 := fun hs e => ho (lprev (m.nb h)).2 (by rw [e]; exact (c3 hs).1.2.1)
    have hl : live x.1 := by
      rcases hx with hx | hx | hx
      · exact hx
      · exact absurd (by rw [hx]; exact c2.2.2) (ho 0)
      · have hs : m.nb h ≠ space := by simpa using hx.2
        exact absurd (by rw [hx.1]; exact (c3 hs).2.2.2) (ho 0)
    have q2' : x.1 ≠ (m.nb h).1 := by
      by_cases hs : m.nb h = space
      · rw [hs]
        exact fun e => S.out (by rw [show (0 : Nat) = x.1 from e.symm]; exact hl)
      · exact q2 hs
    refine ⟨hl, (c4 x hl q1 q2').2.2, ?_⟩
    by_cases hs : m.nb h = space
    · have M := one_moved (n2 := n2) S hh hs hn1 h10 hss hv3
      have := M.sg x ⟨hl, fun e => q1 (by rw [e])⟩
      rwa [oneMap_same (fun e => q1 (by rw [e]; rfl))] at this
    · have hv' : v ≠ m.apex (m.nb h) := fun e => hv ⟨_, S.nb_live hh hs, e.symm⟩
      have M := two_moved S hh hs (hf hs) hn1 hn2 h10 h20 h12 hss ⟨hv3.1, hv3.2.1, hv3.2.2, hv'⟩
      have := M.sg x ⟨hl, fun e => q1 (by rw [e]), fun e => q2' (by rw [e])⟩
      rwa [twoMap_same (fun e => q1 (by rw [e]; rfl)) (fun e => q2' (by rw [e]; rfl))] at this

/-- The neighbours of the triangles without the new vertex are the old ones or have the new vertex. -/
theorem splitAt_nb {x : TEdge} (hx : m.Grown live n1 n2 place x.1) (ho : (m.splitAt v n1 n2 ss place).Off v x.1) :
    (m.splitAt v n1 n2 ss place).nb x = m.nb x ∨ (m.splitAt v n1 n2 ss place).nb x ≠ space ∧
      (m.splitAt v n1 n2 ss place).apex ((m.splitAt v n1 n2 ss place).nb x) = v := by
  have z1 : ((n1, 0) : TEdge) ≠ space := fun e => h10 (congrArg Prod.fst e)
  have z2 : ((n2, 0) : TEdge) ≠ space := fun e => h20 (congrArg Prod.fst e)
  have hl := (splitAt_off S C hv hn1 hn2 h10 h20 h12 hp hx ho).1
  obtain ⟨loc, h⟩ := place
  cases loc with
  | onVertex => exact hp.elim
  | outside => exact hp.elim
  | inTriangle =>
    have hh : live h.1 := hp.1
    have hv3 : v ≠ m.org h ∧ v ≠ m.dest h ∧ v ≠ m.apex h :=
      ⟨fun e => hv ⟨lnext h, hh, e.symm⟩, fun e => hv ⟨lprev h, hh, e.symm⟩, fun e => hv ⟨h, hh, e.symm⟩⟩
    have M := three_moved S hh hn1 hn2 h10 h20 h12 hv3
    obtain ⟨c1, c2, c3, c4⟩ := splitThree_triangles (v := v) S hh hn1 hn2 h10 h20 h12
    unfold TMesh.corners at c1 c2 c3 c4
    simp only [Prod.mk.injEq] at c1 c2 c3 c4
    have q1 : x.1 ≠ h.1 := fun e => ho h.2 (by rw [e]; exact c1.2.2)
    have := M.nb x hl
    rw [threeMap_same (fun e => q1 (by rw [e]; rfl)) (fun e => q1 (by rw [e]; rfl))] at this
    show (m.splitThree h v n1 n2).nb x = _ ∨ (m.splitThree h v n1 n2).nb x ≠ space ∧
      (m.splitThree h v n1 n2).apex ((m.splitThree h v n1 n2).nb x) = v
    rw [this]
    by_cases hs : m.nb x = space
    · rw [if_pos hs, hs]; exact .inl rfl
    rw [if_neg hs]
    unfold threeMap
    split
    · exact .inr ⟨z1, c2.2.2⟩
    split
    · exact .inr ⟨z2, c3.2.2⟩
    exact .inl rfl
  | onEdge =>
    obtain ⟨hh, hss, -⟩ := hp
    have hv3 : v ≠ m.org h ∧ v ≠ m.dest h ∧ v ≠ m.apex h :=
      ⟨fun e => hv ⟨lnext h, hh, e.symm⟩, fun e => hv ⟨lprev h, hh, e.symm⟩, fun e => hv ⟨h, hh, e.symm⟩⟩
    have hf := C.apex_ne S hh
    obtain ⟨c1, c2, c3, c4⟩ := splitEdge_triangles (v := v) (ss := ss) S hh hf hn1 hn2 h10 h20 h12
    unfold TMesh.corners at c1 c2 c3 c4
    simp only [Prod.mk.injEq] at c1 c2 c3 c4
    have q1 : x.1 ≠ h.1 := fun e => ho (lnext h).2 (by rw [e]; exact c1.1)
    have q2 : m.nb h ≠ space → x.1 ≠ (m.nb h).1 := fun hs e => ho (lprev (m.nb h)).2 (by rw [e]; exact (c3 hs).1.2.1)
    show (m.splitEdge h v n1 n2 ss).nb x = _ ∨ (m.splitEdge h v n1 n2 ss).nb x ≠ space ∧
      (m.splitEdge h v n1 n2 ss).apex ((m.splitEdge h v n1 n2 ss).nb x) = v
    by_cases hs : m.nb h = space
    · have M := one_moved (n2 := n2) S hh hs hn1 h10 hss hv3
      have := M.nb x ⟨hl, fun e => q1 (by rw [e])⟩
      rw [oneMap_same (fun e => q1 (by rw [e]; rfl))] at this
      rw [this]
      by_cases hs' : m.nb x = space
      · rw [if_pos hs', hs']; exact .inl rfl
      rw [if_neg hs']
      unfold oneMap
      split
      · exact .inr ⟨z1, c2.2.2⟩
      exact .inl rfl
    · have hv' : v ≠ m.apex (m.nb h) := fun e => hv ⟨_, S.nb_live hh hs, e.symm⟩
      have M := two_moved S hh hs (hf hs) hn1 hn2 h10 h20 h12 hss ⟨hv3.1, hv3.2.1, hv3.2.2, hv'⟩
      have := M.nb x ⟨hl, fun e => q1 (by rw [e]), fun e => q2 hs (by rw [e])⟩
      rw [twoMap_same (fun e => q1 (by rw [e]; rfl)) (fun e => q2 hs (by rw [e]; rfl))] at this
      rw [this]
      by_cases hs' : m.nb x = space
      · rw [if_pos hs', hs']; exact .inl rfl
      rw [if_neg hs']
      unfold twoMap
      split
      · exact .inr ⟨z1, c2.2.2⟩
      split
      · exact .inr ⟨z2, (c3 hs).2.2.2⟩
      exact .inl rfl

/-- No subsegment ends at the new vertex if none was split. -/
theorem splitAt_free (hss : ss = none) {x : TEdge} (hx : m.Grown live n1 n2 place x.1)
    (hg : (m.splitAt v n1 n2 ss place).sg x ≠ noSub) :
    (m.splitAt v n1 n2 ss place).org x ≠ v ∧ (m.splitAt v n1 n2 ss place).dest x ≠ v := by
  subst hss
  have new : ∀ y : TEdge, live y.1 → m.org y ≠ v ∧ m.dest y ≠ v := fun y hy =>
    ⟨fun e => hv ⟨lnext y, hy, e⟩, fun e => hv ⟨lprev y, hy, e⟩⟩
  obtain ⟨loc, h⟩ := place
  cases loc with
  | onVertex => exact hp.elim
  | outside => exact hp.elim
  | inTriangle =>
    have hh : live h.1 := hp.1
    have hv3 : v ≠ m.org h ∧ v ≠ m.dest h ∧ v ≠ m.apex h :=
      ⟨fun e => hv ⟨lnext h, hh, e.symm⟩, fun e => hv ⟨lprev h, hh, e.symm⟩, fun e => hv ⟨h, hh, e.symm⟩⟩
    have M := three_moved S hh hn1 hn2 h10 h20 h12 hv3
    obtain ⟨-, ⟨f1, f2, f3, f4⟩, -, -⟩ := three_subs (v := v) S hh hn1 hn2 h10 h20 h12
    by_cases hk : ∃ y : TEdge, live y.1 ∧ threeMap h n1 n2 y = x
    · obtain ⟨y, hy, rfl⟩ := hk
      show (m.splitThree h v n1 n2).org _ ≠ v ∧ (m.splitThree h v n1 n2).dest _ ≠ v
      rw [M.org y hy, M.dest y hy]
      exact new y hy
    · exfalso
      apply hg
      have hx' : live x.1 ∨ x.1 = n1 ∨ x.1 = n2 := by simpa [TMesh.Grown] using hx
      rcases three_inner S hh hn1 hn2 h10 h20 h12 hx' (fun y hy hc => hk ⟨y, hy, hc⟩) with rfl | rfl | rfl | rfl | rfl | rfl
      exacts [f1, f2, f3 1 (by decide), f3 2 (by decide), f4 1 (by decide), f4 2 (by decide)]
  | onEdge =>
    obtain ⟨hh, hss, -⟩ := hp
    have hv3 : v ≠ m.org h ∧ v ≠ m.dest h ∧ v ≠ m.apex h :=
      ⟨fun e => hv ⟨lnext h, hh, e.symm⟩, fun e => hv ⟨lprev h, hh, e.symm⟩, fun e => hv ⟨h, hh, e.symm⟩⟩
    have hf := C.apex_ne S hh
    show (m.splitEdge h v n1 n2 none).org _ ≠ v ∧ (m.splitEdge h v n1 n2 none).dest _ ≠ v
    have hg : (m.splitEdge h v n1 n2 none).sg x ≠ noSub := hg
    by_cases hs : m.nb h = space
    · have M := one_moved (n2 := n2) S hh hs hn1 h10 hss hv3
      obtain ⟨-, ⟨f1, f2⟩, g | ⟨k, g, -⟩⟩ := one_subs (v := v) (n2 := n2) S hh hs hn1 h10 hss
      swap
      · cases g
      by_cases hk : ∃ y : TEdge, (live y.1 ∧ y ≠ h) ∧ oneMap h n1 y = x
      · obtain ⟨y, hy, rfl⟩ := hk
        rw [M.org y hy, M.dest y hy]
        exact new y hy.1
      · exfalso
        apply hg
        have hx' : live x.1 ∨ x.1 = n1 := by simpa [TMesh.Grown, hs] using hx
        rcases one_inner S hh hs hn1 h10 hx' (fun y hy hc => hk ⟨y, hy, hc⟩) with rfl | rfl | rfl | rfl
        exacts [g.2.1, f1, g.2.2, f2]
    · have hv' : v ≠ m.apex (m.nb h) := fun e => hv ⟨_, S.nb_live hh hs, e.symm⟩
      have M := two_moved S hh hs (hf hs) hn1 hn2 h10 h20 h12 hss ⟨hv3.1, hv3.2.1, hv3.2.2, hv'⟩
      obtain ⟨-, ⟨f1, f2, f3, f4⟩, g | ⟨k, g, -⟩⟩ := two_subs (v := v) S hh hs (hf hs) hn1 hn2 h10 h20 h12 hss
      swap
      · cases g
      by_cases hk : ∃ y : TEdge, (live y.1 ∧ y ≠ h ∧ y ≠ m.nb h) ∧ twoMap m h n1 n2 y = x
      · obtain ⟨y, hy, rfl⟩ := hk
        rw [M.org y hy, M.dest y hy]
        exact new y hy.1
      · exfalso
        apply hg
        have hx' : live x.1 ∨ x.1 = n1 ∨ x.1 = n2 := by simpa [TMesh.Grown, hs] using hx
        rcases two_inner S hh hs (hf hs) hn1 hn2 h10 h20 h12 hx' (fun y hy hc => hk ⟨y, hy, hc⟩) with
          rfl | rfl | rfl | rfl | rfl | rfl | rfl | rfl
        exacts [g.2.1, g.2.2.1, f1, f2, g.2.2.2.1, f3, f4, g.2.2.2.2]

/-- Taking back the split. -/
theorem undoAt_back (hss : ss = none) {m' : TMesh K}
    (A : Agree (m.Grown live n1 n2 place) (m.Used live) m' (m.splitAt v n1 n2 ss place)) {flips : List TEdge}
    {m0 : TMesh K} (h0 : flips.foldl (fun m e => m.unflip e) m0 = m') :
    Agree live (m.Used live) (m0.undovertex (entryAt place) flips) m ∧
    (m0.undovertex (entryAt place) flips).attr = m'.attr ∧
    (m.Fenced live → m'.HullOk (m.Grown live n1 n2 place) →
      (m0.undovertex (entryAt place) flips).HullOk live) := by
  subst hss
  obtain ⟨loc, h⟩ := place
  cases loc with
  | onVertex => exact hp.elim
  | outside => exact hp.elim
  | inTriangle =>
    have hh : live h.1 := hp.1
    have hv3 : v ≠ m.org h ∧ v ≠ m.dest h ∧ v ≠ m.apex h :=
      ⟨fun e => hv ⟨lnext h, hh, e.symm⟩, fun e => hv ⟨lprev h, hh, e.symm⟩, fun e => hv ⟨h, hh, e.symm⟩⟩
    have hg : m.Grown live n1 n2 (.inTriangle, h) = fun t => live t ∨ t = n1 ∨ t = n2 := by
      funext t; simp [TMesh.Grown]
    rw [hg] at A ⊢
    obtain ⟨a1, a2, a3⟩ := undoThree_back S hh hn1 hn2 h10 h20 h12 hv3 A
    show Agree live _ (TMesh.undoThree (flips.foldl (fun m e => m.unflip e) m0) h) m ∧
      (TMesh.undoThree (flips.foldl (fun m e => m.unflip e) m0) h).attr = _ ∧
      (_ → _ → (TMesh.undoThree (flips.foldl (fun m e => m.unflip e) m0) h).HullOk live)
    rw [h0]
    exact ⟨a1, a2, fun _ => a3⟩
  | onEdge =>
    obtain ⟨hh, hss, -⟩ := hp
    have hv3 : v ≠ m.org h ∧ v ≠ m.dest h ∧ v ≠ m.apex h :=
      ⟨fun e => hv ⟨lnext h, hh, e.symm⟩, fun e => hv ⟨lprev h, hh, e.symm⟩, fun e => hv ⟨h, hh, e.symm⟩⟩
    have hf := C.apex_ne S hh
    show Agree live _ (TMesh.undoEdge (flips.foldl (fun m e => m.unflip e) m0) h) m ∧
      (TMesh.undoEdge (flips.foldl (fun m e => m.unflip e) m0) h).attr = _ ∧
      (_ → _ → (TMesh.undoEdge (flips.foldl (fun m e => m.unflip e) m0) h).HullOk live)
    rw [h0]
    by_cases hs : m.nb h = space
    · have hg : m.Grown live n1 n2 (.onEdge, h) = fun t => live t ∨ t = n1 := by
        funext t; simp [TMesh.Grown, hs]
      rw [hg] at A ⊢
      obtain ⟨a1, a2⟩ := undoEdge_one S hh hs hn1 h10 hss hv3 A
      exact ⟨a1, a2, fun hF => absurd hss (hF h hh hs)⟩
    · have hv' : v ≠ m.apex (m.nb h) := fun e => hv ⟨_, S.nb_live hh hs, e.symm⟩
      have hg : m.Grown live n1 n2 (.onEdge, h) = fun t => live t ∨ t = n1 ∨ t = n2 := by
        funext t; simp [TMesh.Grown, hs]
      rw [hg] at A ⊢
      obtain ⟨a1, a2, a3⟩ := undoEdge_two S hh hs (hf hs) hn1 hn2 h10 h20 h12 hss ⟨hv3.1, hv3.2.1, hv3.2.2, hv'⟩ A
      exact ⟨a1, a2, fun _ => a3⟩

/-- The insertion with its notes. -/
theorem insertNoting_core (b : Quality.Behavior K) (hT : ∀ t, live t ↔ t ∈ T)
    (hT' : ∀ t, m.Grown live n1 n2 place t ↔ t ∈ T') (D : m.Delaunay live pos) :
    ∃ (r : TMesh K × TEdge) (l : Notes) (L : List TEdge),
      (∀ k, 2 * T.card + 1 ≤ k → m.insertNoting b pos v n1 n2 ss k place = some (r, entryAt place, l)) ∧
      r.1.Sound (m.Grown live n1 n2 place) ∧
      (∀ x : TEdge, m.Grown live n1 n2 place x.1 → (r.1.apex x = v ↔ x ∈ L)) ∧
      (∀ x ∈ L, m.Grown live n1 n2 place x.1) ∧ L.Nodup ∧
      l.tested = (L.map r.1.noted).reverse ∧ (∀ x ∈ L, r.1.Dealt b pos x l) ∧
      Watched live (m.Grown live n1 n2 place) T' b pos v m (m.splitAt v n1 n2 ss place) r.1 l := by
  obtain ⟨ys, o, R, h⟩ := insertAt_ring hT hT' S C D hv hn1 hn2 h10 h20 h12 hp
  obtain ⟨r, l, L, o', h1, h2, -, -, -, h6, h7, h8⟩ :=
    Circling.watch_ring (first := (m.splitAt v n1 n2 ss place).org (startAt place)) b hT'
      (Q := Watched live (m.Grown live n1 n2 place) T' b pos v m (m.splitAt v n1 n2 ss place))
      (fun m' e l S' he hs hg hf hv' W => W.flip hT' S' he hs hg hf hv')
      (fun m' e l enc tst S' he hv' hc W => W.note S' he hv' hc) (2 * T.card + 1)
      { m := m.splitAt v n1 n2 ss place, horiz := startAt place,
        right := (m.splitAt v n1 n2 ss place).org (startAt place),
        left := (m.splitAt v n1 n2 ss place).dest (startAt place) } ⟨[], [], []⟩ [] ys o R (by simp) rfl rfl (by simp)
      ⟨fun m' A H => ⟨A, H, rfl⟩, fun x hx ho => splitAt_off S C hv hn1 hn2 h10 h20 h12 hp hx ho,
        fun x hx ho => ⟨ho, splitAt_nb S C hv hn1 hn2 h10 h20 h12 hp hx ho⟩, Keeps.refl _,
        by simp⟩ rfl (by simp) h
  refine ⟨r, l, L, ?_, h2.sound, h2.star, h2.sub, h2.nodup, h7, h8, h6⟩
  intro k hk
  rw [insertNoting_split b hp, Circling.watch_mono hk h1]
  rfl

end

end

end Nikfemm
