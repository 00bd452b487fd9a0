import Verif.Lemmas.Ring
import Verif.Lemmas.Split
import Verif.Model.Refine

/-!
# The loop around a new vertex
-/

set_option linter.unusedSectionVars false

namespace Nikfemm
variable {K : Type} [Field K] [LinearOrder K] [IsStrictOrderedRing K]

/-- Attributes do not matter. -/
theorem Ring.average {m : TMesh K} {live : Nat → Prop} {pos : Nat → Vec K} {v : Nat} {L : List TEdge}
    {o : TEdge → Vec K} (R : Ring m live pos v L o) (a b : Nat) :
    Ring (m.averageAttr a b) live pos v L o :=
  ⟨R.sound.congr (m' := m.averageAttr a b) (fun _ _ => rfl) (fun _ _ => rfl) (fun _ _ => rfl) rfl rfl rfl,
    R.ccw, R.sub, R.star, R.apart, R.chain, R.thru, R.inside, R.beyond, R.join, R.outer⟩

/-- The number of triangles without the corner `v`. -/
noncomputable def offCount (T : Finset Nat) (m : TMesh K) (v : Nat) : Nat := by
  classical
  exact (T.filter fun t => m.Off v t).card

theorem offCount_le (T : Finset Nat) (m : TMesh K) (v : Nat) : offCount T m v ≤ T.card := by
  classical
  exact Finset.card_filter_le _ _

section
variable {m : TMesh K} {live : Nat → Prop} {pos : Nat → Vec K} {v : Nat} {L : List TEdge}
  {o : TEdge → Vec K} {e : TEdge} (R : Ring m live pos v L o) (he : e ∈ L)
  (hd : ¬ m.LocallyDelaunay pos e)
include R he hd

/-- A flip brings one more triangle to `v`. -/
theorem Ring.flip_count {T : Finset Nat} (hT : ∀ t, live t ↔ t ∈ T) :
    offCount T (m.flip e) v + 1 ≤ offCount T m v := by
  classical
  have hl := R.sub e he
  obtain ⟨hs, hseg, hf, -⟩ := ld_convex R.sound R.ccw hl hd
  obtain ⟨F1, -, -, ⟨-, -, A3⟩, -, -, B3⟩ := flip_view R.sound hl hs hseg hf
  rw [R.apex he] at A3 B3
  have hlt := R.sound.nb_live hl hs
  have hsub : T.filter (fun t => (m.flip e).Off v t) ⊆ (T.filter fun t => m.Off v t).erase (m.nb e).1 := by
    intro t ht
    rw [Finset.mem_filter] at ht
    have t1 : t ≠ e.1 := by rintro rfl; exact ht.2 (lprev e).2 A3
    have t2 : t ≠ (m.nb e).1 := by rintro rfl; exact ht.2 (lnext (m.nb e)).2 B3
    rw [Finset.mem_erase, Finset.mem_filter]
    refine ⟨t2, ht.1, fun q => ?_⟩
    rw [← (F1 (t, q) t1 t2).1]
    exact ht.2 q
  have hmem : (m.nb e).1 ∈ T.filter fun t => m.Off v t :=
    Finset.mem_filter.2 ⟨(hT _).1 hlt, R.top_off he hd⟩
  have h1 := Finset.card_le_card hsub
  have h2 := Finset.card_erase_add_one hmem
  show (T.filter fun t => (m.flip e).Off v t).card + 1 ≤ (T.filter fun t => m.Off v t).card
  omega

/-- The other edges opposite to `v` stay locally Delaunay. -/
theorem Ring.flip_keeps {x : TEdge} (hx : x ∈ L) (hxe : x ≠ e) (h : m.LocallyDelaunay pos x) :
    (m.flip e).LocallyDelaunay pos x ∧ (m.flip e).org x = m.org x := by
  have hl := R.sub e he
  have hxl := R.sub x hx
  obtain ⟨hs, hseg, hf, -⟩ := ld_convex R.sound R.ccw hl hd
  obtain ⟨F1, F2, F3, -⟩ := flip_view R.sound hl hs hseg hf
  have hlt := R.sound.nb_live hl hs
  obtain ⟨q1, q2⟩ := R.other he hd hx hxe
  have w : (m.nb x).1 ≠ e.1 ∧ (m.nb x).1 ≠ (m.nb e).1 := by
    by_cases h0 : m.nb x = space
    · rw [h0]
      exact ⟨fun hc => R.sound.out (by rw [show (0 : Nat) = e.1 from hc]; exact hl),
        fun hc => R.sound.out (by rw [show (0 : Nat) = (m.nb e).1 from hc]; exact hlt)⟩
    · exact R.other_nb he hd hx hxe h0
  refine ⟨?_, (F1 x q1 q2).2.1⟩
  unfold TMesh.LocallyDelaunay at *
  rw [F3 x hxl q1 q2 w.1 w.2, F2 x hxl q1 q2, (F1 x q1 q2).1, (F1 x q1 q2).2.1, (F1 x q1 q2).2.2,
    (F1 _ w.1 w.2).1]
  exact h

end

section
variable {m : TMesh K} {live : Nat → Prop} {pos : Nat → Vec K} {v : Nat}
  {o : TEdge → Vec K} {e : TEdge}

/-- The triangles at `v` have different first corners. -/
theorem Ring.head_ne {hd y : TEdge} {tl : List TEdge} (R : Ring m live pos v (hd :: tl) o) (hy : y ∈ tl) :
    m.org y ≠ m.org hd := by
  intro h
  have P := (List.pairwise_cons.1 R.apart).1 y hy
  have h1 := R.own_cone (x := y) (List.mem_cons_of_mem _ hy)
  rw [h] at h1
  refine P _ ⟨R.own_cone (x := hd) (by simp), ?_⟩
  rw [h]
  exact h1

/-- After the last triangle comes the first. -/
theorem Ring.closes {zs : List TEdge} (R : Ring m live pos v (zs ++ [e]) o) {hd : TEdge}
    (hh : (zs ++ [e]).head? = some hd) (hs : m.nb (lnext e) ≠ space) : m.dest e = m.org hd := by
  have heL : e ∈ zs ++ [e] := by simp
  obtain ⟨w1, w2, -⟩ := R.next heL hs
  obtain ⟨l1, l2, hL⟩ := List.append_of_mem w1
  rcases List.eq_nil_or_concat l1 with rfl | ⟨l1', p, rfl⟩
  · rw [hL] at hh
    simp only [List.nil_append, List.head?_cons, Option.some.injEq] at hh
    rw [← hh]
    exact w2.symm
  · exfalso
    have hL' : zs ++ [e] = l1' ++ p :: lnext (m.nb (lnext e)) :: l2 := by rw [hL]; simp
    have ch := R.chain
    rw [hL', List.isChain_append_cons_cons] at ch
    obtain ⟨f1, f2⟩ := ch.2.1
    have hp : p ∈ zs ++ [e] := by rw [hL']; simp
    have hn : m.nb (lnext p) = m.nb (lnext e) := by
      rw [← lprev_lnext (m.nb (lnext p)), f2, lprev_lnext]
    have hpe : lnext p = lnext e := R.sound.nb_inj (x := lnext p) (R.sub p hp) (R.sub e heL) hn f1
    have hpe : p = e := by rw [← lprev_lnext p, hpe, lprev_lnext]
    have nd := R.nodup
    rw [hL', List.nodup_append] at nd
    have nd' := (List.nodup_cons.1 nd.2.1).1
    apply nd'
    have : (zs ++ [e]).getLast? = some e := by simp
    rw [hL'] at this
    have h2 : (l1' ++ p :: lnext (m.nb (lnext e)) :: l2).getLast? = (lnext (m.nb (lnext e)) :: l2).getLast? := by
      rw [List.getLast?_append_of_ne_nil _ (by simp), List.getLast?_cons_cons]
    rw [h2] at this
    rw [hpe]
    exact List.mem_of_getLast? this

end

/-- What `testtriangle` is given for a handle. -/
def TMesh.noted (m : TMesh K) (x : TEdge) : TEdge × Nat × Nat × Nat := (x, m.org x, m.dest x, m.apex x)

/-- If the apex is in the lens of the subsegment, this has been noticed. -/
def TMesh.Dealt (m : TMesh K) (b : Quality.Behavior K) (pos : Nat → Vec K) (x : TEdge) (l : Notes) : Prop :=
  (m.sg x).1 ≠ 0 → Quality.inLens b (vtxAt pos (m.dest x)) (vtxAt pos (m.org x)) (vtxAt pos (m.apex x)) = true →
    m.sg x ∈ l.encroached

/-- `checkseg4encroach` looks at this side. -/
theorem encroaches_own {m : TMesh K} {live : Nat → Prop} (S : m.Sound live) {pos : Nat → Vec K}
    {b : Quality.Behavior K} {x : TEdge} (hx : live x.1) (h0 : (m.sg x).1 ≠ 0)
    (h : Quality.inLens b (vtxAt pos (m.dest x)) (vtxAt pos (m.org x)) (vtxAt pos (m.apex x)) = true) :
    m.encroaches b pos (m.sg x) = true := by
  rcases S.seg x hx with h' | ⟨-, h2, h3, h4, -, -⟩
  · rw [h'] at h0; exact absurd rfl h0
  have hz : ¬ x.1 = 0 := fun hc => S.out (hc ▸ hx)
  have hl : m.sideApex pos (m.sg x) = some (vtxAt pos (m.apex x)) := by
    unfold TMesh.sideApex
    rw [h2, if_neg hz]
  unfold TMesh.encroaches Quality.checkseg4encroach
  rw [hl, h3, h4]
  simp [Quality.sideIn, h]

theorem Circling.watch_fst (b : Quality.Behavior K) (pos : Nat → Vec K) (v first : Nat) :
    ∀ (n : Nat) (s : Circling K) (l : Notes),
      Circling.run pos v first n s = (Circling.watch b pos v first n s l).map Prod.fst := by
  intro n
  induction n with
  | zero => intro s l; rfl
  | succ n ih =>
    intro s l
    unfold Circling.run Circling.watch
    cases s.step pos v first with
    | inl q => rfl
    | inr q => exact ih q _

/-- The loop ends, and then all edges opposite to `v` are locally Delaunay; their triangles have been tested and
their subsegments checked. -/
theorem Circling.watch_ring {live : Nat → Prop} {pos : Nat → Vec K} {v first : Nat} {T : Finset Nat}
    (b : Quality.Behavior K) (hT : ∀ t, live t ↔ t ∈ T) {Q : TMesh K → Notes → Prop}
    (hQ : ∀ (m : TMesh K) (e : TEdge) (l : Notes), m.Sound live → live e.1 → m.nb e ≠ space → m.sg e = noSub →
      m.apex e ≠ m.apex (m.nb e) → m.apex e = v → Q m l →
      Q ((m.flip e).averageAttr (m.nb e).1 e.1) { l with flips := e :: l.flips })
    (hA : ∀ (m : TMesh K) (e : TEdge) (l : Notes) (enc : List TSub) (tst : List (TEdge × Nat × Nat × Nat)),
      m.Sound live → live e.1 → m.apex e = v → (enc = l.encroached ∨ enc = m.sg e :: l.encroached ∧
        (m.sg e).1 ≠ 0 ∧ m.encroaches b pos (m.sg e) = true) → Q m l →
      Q m { l with encroached := enc, tested := tst }) :
    ∀ (n : Nat) (s : Circling K) (l : Notes) (zs ys : List TEdge) (o : TEdge → Vec K),
      Ring s.m live pos v (zs ++ s.horiz :: ys) o → (∀ x ∈ zs, s.m.LocallyDelaunay pos x) →
      s.right = s.m.org s.horiz → s.left = s.m.dest s.horiz →
      (∀ x, (zs ++ s.horiz :: ys).head? = some x → s.m.org x = first) → Q s.m l →
      l.tested = (zs.map s.m.noted).reverse →
      (∀ x ∈ zs, s.m.Dealt b pos x l) →
      2 * offCount T s.m v + ys.length + 1 ≤ n →
      ∃ (r : TMesh K × TEdge) (l' : Notes) (L' : List TEdge) (o' : TEdge → Vec K),
        Circling.watch b pos v first n s l = some (r, l') ∧ Ring r.1 live pos v L' o' ∧
        (∀ x ∈ L', r.1.LocallyDelaunay pos x) ∧ live r.2.1 ∧ r.1.org r.2 = v ∧ Q r.1 l' ∧
        l'.tested = (L'.map r.1.noted).reverse ∧ (∀ x ∈ L', r.1.Dealt b pos x l') := by
  intro n
  induction n with
  | zero => intro s l zs ys o _ _ _ _ _ _ _ _ hn; omega
  | succ n ih =>
    intro s l zs ys o R hz hr hl hfirst hq htst hdl hn
    have heL : s.horiz ∈ zs ++ s.horiz :: ys := by simp
    have hlive := R.sub _ heL
    have hap := R.apex heL
    have hflip := doflip_iff (v := v) R.sound R.ccw hlive hr hl hap
    unfold Circling.watch Circling.step
    by_cases hd : s.m.LocallyDelaunay pos s.horiz
    · have hno : ¬ s.doflip pos v = true := fun h => hflip.1 h hd
      rw [if_neg hno]
      obtain ⟨l1, hl1, e1, e2, e3⟩ : ∃ l1, s.note b pos v l = l1 ∧ Q s.m l1 ∧
          l1.tested = ((zs ++ [s.horiz]).map s.m.noted).reverse ∧ ∀ x ∈ zs ++ [s.horiz], s.m.Dealt b pos x l1 := by
        refine ⟨_, rfl, ?_, ?_, ?_⟩
        · unfold Circling.note
          rw [if_neg hno]
          refine hA _ _ _ _ _ R.sound hlive hap ?_ hq
          split
          · next h =>
            simp only [Bool.and_eq_true, decide_eq_true_eq] at h
            exact .inr ⟨rfl, h.1.2, h.2⟩
          · exact .inl rfl
        · unfold Circling.note
          rw [if_neg hno, htst]
          simp [TMesh.noted]
        · have hsub : ∀ t ∈ l.encroached, t ∈ (s.note b pos v l).encroached := by
            intro t ht
            unfold Circling.note
            rw [if_neg hno]
            dsimp only
            split
            · exact List.mem_cons_of_mem _ ht
            · exact ht
          intro x hx
          rcases List.mem_append.1 hx with hx | hx
          · exact fun h0 h1 => hsub _ (hdl x hx h0 h1)
          · rw [List.mem_singleton] at hx
            subst hx
            intro h0 h1
            have hen := encroaches_own R.sound hlive h0 h1
            have hck : s.m.checksegments = true := by
              by_contra hc
              rw [R.sound.chk (by simpa using hc) _ hlive] at h0
              exact h0 rfl
            unfold Circling.note
            rw [if_neg hno]
            dsimp only
            rw [if_pos (by simp [hck, h0, hen])]
            exact List.mem_cons_self
      have hz' : ∀ x ∈ zs ++ [s.horiz], s.m.LocallyDelaunay pos x := by
        intro x hx
        rcases List.mem_append.1 hx with hx | hx
        · exact hz x hx
        · rw [List.mem_singleton] at hx; rw [hx]; exact hd
      cases ys with
      | nil =>
        have stop : s.left = first ∨ (s.m.nb (lnext s.horiz)).1 = 0 := by
          by_cases hs : s.m.nb (lnext s.horiz) = space
          · right; rw [hs]; rfl
          · left
            obtain ⟨h0, hh⟩ : ∃ h0, (zs ++ [s.horiz]).head? = some h0 := by
              cases zs with
              | nil => exact ⟨_, rfl⟩
              | cons a l => exact ⟨_, rfl⟩
            rw [hl, R.closes hh hs]
            exact hfirst h0 hh
        simp only [if_pos stop]
        refine ⟨_, _, zs ++ [s.horiz], o, rfl, R, hz', hlive, ?_, hl1 ▸ e1, hl1 ▸ e2, hl1 ▸ e3⟩
        show s.m.org (lnext (lnext s.horiz)) = v
        rw [lnext_lnext, org_lprev, hap]
      | cons y ys' =>
        have hf : s.m.Follows s.horiz y := by
          have := R.chain
          rw [List.isChain_append_cons_cons] at this
          exact this.2.1
        have hnl := R.sound.nb_live (x := lnext s.horiz) hlive hf.1
        have hyL : y ∈ zs ++ s.horiz :: y :: ys' := by simp
        have hyo : s.m.org y = s.m.dest s.horiz := by
          have := (R.next heL hf.1).2.1
          rwa [hf.2] at this
        have go : ¬ (s.left = first ∨ (s.m.nb (lnext s.horiz)).1 = 0) := by
          rintro (h | h)
          · cases zs with
            | nil =>
              have h1 := hfirst s.horiz rfl
              exact R.head_ne (y := y) (hd := s.horiz) (by simp) (by rw [hyo, ← hl, h, h1])
            | cons a l =>
              have h1 := hfirst a rfl
              have R' : Ring s.m live pos v (a :: (l ++ s.horiz :: y :: ys')) o := R
              exact R'.head_ne (y := y) (by simp) (by rw [hyo, ← hl, h, h1])
          · rw [h] at hnl; exact R.sound.out hnl
        simp only [if_neg go]
        have e0 : zs ++ s.horiz :: y :: ys' = (zs ++ [s.horiz]) ++ y :: ys' := by simp
        have hy : lnext (s.m.nb (lnext s.horiz)) = y := hf.2
        refine ih ⟨s.m, lnext (s.m.nb (lnext s.horiz)), s.left, s.m.dest (lnext (s.m.nb (lnext s.horiz)))⟩ _
          (zs ++ [s.horiz]) ys' o ?_ hz' ?_ rfl ?_ (hl1 ▸ e1) (hl1 ▸ e2) (hl1 ▸ e3) ?_
        · simp only [hy]; rw [← e0]; exact R
        · simp only [hy]; rw [hyo, hl]
        · simp only [hy]; rw [← e0]; exact hfirst
        · simp only [List.length_cons] at hn ⊢
          omega
    · have hyes : s.doflip pos v = true := hflip.2 hd
      rw [if_pos hyes]
      obtain ⟨hs, hseg, hf, -⟩ := ld_convex R.sound R.ccw hlive hd
      obtain ⟨F1, F2, -, ⟨A1, A2, A3⟩, B1, B2, B3⟩ := flip_view R.sound hlive hs hseg hf
      have hm : s.m.rotate s.horiz s.right s.left v (s.m.apex (s.m.nb s.horiz)) = s.m.flip s.horiz := by
        unfold TMesh.flip
        rw [hr, hl, hap]
      obtain ⟨o', R'⟩ := R.flip hd
      have nd := R.nodup
      rw [List.nodup_append] at nd
      have ezs : ∀ x ∈ zs, x ≠ s.horiz := fun x hx => nd.2.2 x hx s.horiz (by simp)
      have hkeep : ∀ x ∈ zs, (s.m.flip s.horiz).noted x = s.m.noted x ∧ (s.m.flip s.horiz).sg x = s.m.sg x := by
        intro x hx
        obtain ⟨q1, q2⟩ := R.other heL hd (List.mem_append_left _ hx) (ezs x hx)
        obtain ⟨g1, g2, g3⟩ := F1 x q1 q2
        exact ⟨by unfold TMesh.noted; rw [g1, g2, g3], F2 x (R.sub x (List.mem_append_left _ hx)) q1 q2⟩
      have hnote : s.note b pos v l = { l with flips := s.horiz :: l.flips } := by
        unfold Circling.note
        rw [if_pos hyes]
      rw [hnote]
      simp only [hm]
      refine ih ⟨(s.m.flip s.horiz).averageAttr (s.m.nb s.horiz).1 s.horiz.1, lprev s.horiz, s.right,
        s.m.apex (s.m.nb s.horiz)⟩ _ zs (lnext (s.m.nb s.horiz) :: ys) o' (R'.average _ _) ?_ ?_ ?_ ?_ ?_ ?_ ?_ ?_
      · intro x hx
        exact (R.flip_keeps heL hd (List.mem_append_left _ hx) (ezs x hx) (hz x hx)).1
      · show s.right = (s.m.flip s.horiz).org (lprev s.horiz)
        rw [A1, hr]
      · show _ = (s.m.flip s.horiz).dest (lprev s.horiz)
        rw [A2]
      · intro x hx
        show (s.m.flip s.horiz).org x = first
        cases zs with
        | nil =>
          simp only [List.nil_append, List.head?_cons, Option.some.injEq] at hx
          rw [← hx, A1]
          exact hfirst s.horiz rfl
        | cons a l =>
          simp only [List.cons_append, List.head?_cons, Option.some.injEq] at hx
          rw [← hx, (R.flip_keeps heL hd (x := a) (by simp) (ezs a (by simp)) (hz a (by simp))).2]
          exact hfirst a rfl
      · exact hQ _ _ _ R.sound hlive hs hseg hf hap hq
      · show l.tested = _
        rw [htst]
        congr 1
        refine List.map_congr_left fun x hx => ?_
        exact (hkeep x hx).1.symm
      · intro x hx
        obtain ⟨g1, g2⟩ := hkeep x hx
        unfold TMesh.noted at g1
        simp only [Prod.mk.injEq, true_and] at g1
        have := hdl x hx
        unfold TMesh.Dealt at this ⊢
        rw [← g1.1, ← g1.2.1, ← g1.2.2, ← g2] at this
        exact this
      · have := R.flip_count heL hd hT
        show 2 * offCount T (s.m.flip s.horiz) v + _ + 1 ≤ n
        simp only [List.length_cons]
        omega

/-- The loop ends, and then all edges opposite to `v` are locally Delaunay. -/
theorem Circling.run_ring {live : Nat → Prop} {pos : Nat → Vec K} {v first : Nat} {T : Finset Nat}
    (hT : ∀ t, live t ↔ t ∈ T) {Q : TMesh K → Prop}
    (hQ : ∀ (m : TMesh K) (e : TEdge), m.Sound live → live e.1 → m.nb e ≠ space → m.sg e = noSub →
      m.apex e ≠ m.apex (m.nb e) → Q m → Q ((m.flip e).averageAttr (m.nb e).1 e.1)) :
    ∀ (n : Nat) (s : Circling K) (zs ys : List TEdge) (o : TEdge → Vec K),
      Ring s.m live pos v (zs ++ s.horiz :: ys) o → (∀ x ∈ zs, s.m.LocallyDelaunay pos x) →
      s.right = s.m.org s.horiz → s.left = s.m.dest s.horiz →
      (∀ x, (zs ++ s.horiz :: ys).head? = some x → s.m.org x = first) → Q s.m →
      2 * offCount T s.m v + ys.length + 1 ≤ n →
      ∃ (r : TMesh K × TEdge) (L' : List TEdge) (o' : TEdge → Vec K),
        Circling.run pos v first n s = some r ∧ Ring r.1 live pos v L' o' ∧
        (∀ x ∈ L', r.1.LocallyDelaunay pos x) ∧ live r.2.1 ∧ r.1.org r.2 = v ∧ Q r.1 := by
  intro n s zs ys o R hz hr hl hfirst hq hn
  let b : Quality.Behavior K := ⟨false, 0, false, 0, 0, false, 0⟩
  obtain ⟨r, l', L', o', h1, h2, h3, h4, h5, h6, -⟩ := Circling.watch_ring b hT (Q := fun m _ => Q m)
    (fun m e l S he hs hg hf _ hq => hQ m e S he hs hg hf hq) (fun m e l enc tst _ _ _ _ hq => hq)
    n s ⟨[], zs.map s.m.sg, (zs.map s.m.noted).reverse⟩ zs ys o R hz hr hl hfirst hq rfl
    (fun x hx _ _ => List.mem_map_of_mem hx) hn
  exact ⟨r, L', o', by rw [Circling.watch_fst b _ _ _ _ _ _, h1]; rfl, h2, h3, h4, h5, h6⟩

end Nikfemm
