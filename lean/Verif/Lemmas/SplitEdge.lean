import Verif.Lemmas.Split

/-!
# Lemmas about splitting an edge
-/

set_option linter.unusedSectionVars false

namespace Nikfemm
variable {K : Type} [Zero K]

/-! ## Subsegments that change hands -/

/-- Subsegments handed over one after the other. -/
def TMesh.handSubs (m : TMesh K) (L : List (TEdge × TEdge)) : TMesh K :=
  L.foldl (fun m p => m.handSub p.1 p.2) m

/-- The edges of the list differ, the receiving ones have no subsegment. -/
structure Handing (m : TMesh K) (L : List (TEdge × TEdge)) : Prop where
  pair : L.Pairwise fun p q => p.1 ≠ q.1 ∧ p.1 ≠ q.2 ∧ p.2 ≠ q.1 ∧ p.2 ≠ q.2
  self : ∀ p ∈ L, p.1 ≠ p.2
  free : ∀ p ∈ L, m.sg p.2 = noSub
  zero : ∀ p ∈ L, m.sg p.1 = noSub ∨ (m.sg p.1).1 ≠ 0
  inj : L.Pairwise fun p q => (m.sg p.1).1 ≠ 0 → m.sg p.1 ≠ m.sg q.1

theorem Handing.tail {m : TMesh K} {p : TEdge × TEdge} {L : List (TEdge × TEdge)} (H : Handing m (p :: L)) :
    Handing (m.handSub p.1 p.2) L ∧ (m.handSub p.1 p.2).sg =
      Function.update (Function.update m.sg p.1 noSub) p.2 (m.sg p.1) := by
  obtain ⟨a1, a2⟩ := List.pairwise_cons.1 H.pair
  obtain ⟨b1, b2⟩ := List.pairwise_cons.1 H.inj
  have hs := handSub_sg m (a := p.1) (b := p.2) (H.free p (List.mem_cons_self ..))
    (H.self p (List.mem_cons_self ..)) (H.zero p (List.mem_cons_self ..))
  have e1 : ∀ q ∈ L, (m.handSub p.1 p.2).sg q.1 = m.sg q.1 := by
    intro q hq
    rw [hs, Function.update_of_ne (a1 q hq).2.2.1.symm, Function.update_of_ne (a1 q hq).1.symm]
  have e2 : ∀ q ∈ L, (m.handSub p.1 p.2).sg q.2 = m.sg q.2 := by
    intro q hq
    rw [hs, Function.update_of_ne (a1 q hq).2.2.2.symm, Function.update_of_ne (a1 q hq).2.1.symm]
  refine ⟨⟨a2, fun q hq => H.self q (List.mem_cons_of_mem _ hq), ?_, ?_, ?_⟩, hs⟩
  · intro q hq
    rw [e2 q hq]; exact H.free q (List.mem_cons_of_mem _ hq)
  · intro q hq
    rw [e1 q hq]; exact H.zero q (List.mem_cons_of_mem _ hq)
  · refine b2.imp_of_mem ?_
    intro q r hq hr h
    rw [e1 q hq, e1 r hr]; exact h

theorem handSubs_rest (m : TMesh K) (L : List (TEdge × TEdge)) :
    (m.handSubs L).nb = m.nb ∧ (m.handSubs L).apex = m.apex ∧ (m.handSubs L).sorg = m.sorg ∧
    (m.handSubs L).attr = m.attr ∧ (m.handSubs L).checksegments = m.checksegments := by
  induction L generalizing m with
  | nil => exact ⟨rfl, rfl, rfl, rfl, rfl⟩
  | cons p L ih =>
    obtain ⟨a, b, c, d, e⟩ := ih (m.handSub p.1 p.2)
    obtain ⟨a', b', c', d', e'⟩ := handSub_rest m p.1 p.2
    exact ⟨a.trans a', b.trans b', c.trans c', d.trans d', e.trans e'⟩

theorem handSubs_sg_other {m : TMesh K} {L : List (TEdge × TEdge)} (H : Handing m L) {x : TEdge}
    (hx : ∀ p ∈ L, x ≠ p.1 ∧ x ≠ p.2) : (m.handSubs L).sg x = m.sg x := by
  induction L generalizing m with
  | nil => rfl
  | cons p L ih =>
    obtain ⟨H', hs⟩ := H.tail
    show ((m.handSub p.1 p.2).handSubs L).sg x = _
    rw [ih H' fun q hq => hx q (List.mem_cons_of_mem _ hq), hs,
      Function.update_of_ne (hx p (List.mem_cons_self ..)).2,
      Function.update_of_ne (hx p (List.mem_cons_self ..)).1]

theorem handSubs_sg {m : TMesh K} {L : List (TEdge × TEdge)} (H : Handing m L) {p : TEdge × TEdge}
    (hp : p ∈ L) : (m.handSubs L).sg p.2 = m.sg p.1 ∧ (m.handSubs L).sg p.1 = noSub := by
  induction L generalizing m with
  | nil => simp at hp
  | cons q L ih =>
    obtain ⟨H', hs⟩ := H.tail
    obtain ⟨a1, a2⟩ := List.pairwise_cons.1 H.pair
    show ((m.handSub q.1 q.2).handSubs L).sg p.2 = _ ∧ ((m.handSub q.1 q.2).handSubs L).sg p.1 = _
    rcases List.mem_cons.1 hp with rfl | hp
    · rw [handSubs_sg_other H' fun r hr => ⟨(a1 r hr).2.2.1, (a1 r hr).2.2.2⟩,
        handSubs_sg_other H' fun r hr => ⟨(a1 r hr).1, (a1 r hr).2.1⟩, hs, Function.update_self,
        Function.update_of_ne (H.self p (List.mem_cons_self ..)), Function.update_self]
      exact ⟨rfl, rfl⟩
    · obtain ⟨i1, i2⟩ := ih H' hp
      refine ⟨i1.trans ?_, i2⟩
      rw [hs, Function.update_of_ne (a1 p hp).2.2.1.symm, Function.update_of_ne (a1 p hp).1.symm]

theorem handSubs_st_other {m : TMesh K} {L : List (TEdge × TEdge)} (H : Handing m L) {s : TSub}
    (hs : ∀ p ∈ L, (m.sg p.1).1 ≠ 0 → s ≠ m.sg p.1) : (m.handSubs L).st s = m.st s := by
  induction L generalizing m with
  | nil => rfl
  | cons p L ih =>
    obtain ⟨H', hsg⟩ := H.tail
    obtain ⟨a1, a2⟩ := List.pairwise_cons.1 H.pair
    show ((m.handSub p.1 p.2).handSubs L).st s = _
    rw [ih H', handSub_st]
    · split
      · rfl
      · next h => rw [Function.update_of_ne (hs p (List.mem_cons_self ..) h)]
    · intro q hq
      rw [hsg, Function.update_of_ne (a1 q hq).2.2.1.symm, Function.update_of_ne (a1 q hq).1.symm]
      exact hs q (List.mem_cons_of_mem _ hq)

theorem handSubs_st {m : TMesh K} {L : List (TEdge × TEdge)} (H : Handing m L) {p : TEdge × TEdge}
    (hp : p ∈ L) (h0 : (m.sg p.1).1 ≠ 0) : (m.handSubs L).st (m.sg p.1) = p.2 := by
  induction L generalizing m with
  | nil => simp at hp
  | cons q L ih =>
    obtain ⟨H', hsg⟩ := H.tail
    obtain ⟨a1, a2⟩ := List.pairwise_cons.1 H.pair
    obtain ⟨b1, b2⟩ := List.pairwise_cons.1 H.inj
    have e1 : ∀ r ∈ L, (m.handSub q.1 q.2).sg r.1 = m.sg r.1 := by
      intro r hr
      rw [hsg, Function.update_of_ne (a1 r hr).2.2.1.symm, Function.update_of_ne (a1 r hr).1.symm]
    show ((m.handSub q.1 q.2).handSubs L).st (m.sg p.1) = _
    rcases List.mem_cons.1 hp with rfl | hp
    · rw [handSubs_st_other H', handSub_st, if_neg h0, Function.update_self]
      intro r hr _
      rw [e1 r hr]; exact b1 r hr h0
    · rw [← e1 p hp]
      exact ih H' hp (by rw [e1 p hp]; exact h0)

/-! ## A new subsegment -/

theorem insertsubseg_eq {m : TMesh K} {e : TEdge} {k : Nat} (h : m.sg e = noSub) (hn : m.nb e ≠ e) :
    (m.insertsubseg e k).nb = m.nb ∧ (m.insertsubseg e k).apex = m.apex ∧
    (m.insertsubseg e k).attr = m.attr ∧ (m.insertsubseg e k).checksegments = m.checksegments ∧
    ((m.insertsubseg e k).sg e = (k, 0) ∧ (m.insertsubseg e k).sg (m.nb e) = (k, 1) ∧
      ∀ x, x ≠ e → x ≠ m.nb e → (m.insertsubseg e k).sg x = m.sg x) ∧
    ((m.insertsubseg e k).st (k, 0) = e ∧ (m.insertsubseg e k).st (k, 1) = m.nb e ∧
      ∀ s : TSub, s.1 ≠ k → (m.insertsubseg e k).st s = m.st s) ∧
    ((m.insertsubseg e k).sorg (k, 0) = m.dest e ∧ (m.insertsubseg e k).sorg (k, 1) = m.org e ∧
      ∀ s : TSub, s.1 ≠ k → (m.insertsubseg e k).sorg s = m.sorg s) := by
  have h0 : (m.sg e).1 = 0 := by rw [h]; rfl
  have e1 : ssym (k, 0) = (k, 1) := rfl
  unfold TMesh.insertsubseg
  rw [if_pos h0, e1]
  refine ⟨rfl, rfl, rfl, rfl, ⟨?_, ?_, ?_⟩, ⟨?_, ?_, ?_⟩, ⟨?_, ?_, ?_⟩⟩
  · simp [TMesh.tsbond, Function.update, hn.symm]
  · simp [TMesh.tsbond]
  · intro x h1 h2
    simp [TMesh.tsbond, TMesh.setsdest, TMesh.setsorg, TMesh.makesubseg, h1, h2]
  · simp [TMesh.tsbond]
  · simp [TMesh.tsbond]
  · rintro ⟨a, b⟩ h1
    simp only at h1
    simp [TMesh.tsbond, TMesh.setsdest, TMesh.setsorg, TMesh.makesubseg, h1]
  · simp [TMesh.tsbond, TMesh.setsdest, TMesh.setsorg, TMesh.makesubseg, e1]
  · simp [TMesh.tsbond, TMesh.setsdest, TMesh.setsorg, TMesh.makesubseg, e1]
  · rintro ⟨a, b⟩ h1
    simp only at h1
    simp [TMesh.tsbond, TMesh.setsdest, TMesh.setsorg, TMesh.makesubseg, h1, e1]

/-! ## Subsegments move with their edges -/

/-- What is needed about subsegments when edges are moved. -/
theorem hand_subs {m m1 mc : TMesh K} {live : Nat → Prop} (S : m.Sound live) {L : List (TEdge × TEdge)}
    {f : TEdge → TEdge} (hold : ∀ x : TEdge, live x.1 → m1.sg x = m.sg x)
    (hnew : ∀ x : TEdge, x ≠ space → ¬ live x.1 → (∃ p ∈ L, x.1 = p.2.1) → m1.sg x = noSub)
    (hst : m1.st = m.st)
    (hL : ∀ p ∈ L, live p.1.1 ∧ ¬ live p.2.1 ∧ p.2 ≠ space)
    (hp : L.Pairwise fun p q => p.1 ≠ q.1 ∧ p.2 ≠ q.2)
    (hf : ∀ p ∈ L, f p.1 = p.2) (hs : ∀ x, (∀ p ∈ L, x ≠ p.1) → f x = x)
    (hsg : mc.sg = if m.checksegments then (m1.handSubs L).sg else m1.sg)
    (hsc : mc.st = if m.checksegments then (m1.handSubs L).st else m1.st) :
    (∀ x : TEdge, live x.1 → mc.sg (f x) = m.sg x) ∧ (∀ p ∈ L, mc.sg p.1 = noSub) ∧
    (∀ x : TEdge, ¬ live x.1 → (∀ p ∈ L, x ≠ p.2) → mc.sg x = m1.sg x) ∧
    (∀ x : TEdge, live x.1 → m.sg x ≠ noSub → mc.st (m.sg x) = f x) ∧
    (∀ s : TSub, m.st s = space → mc.st s = space) := by
  have H : Handing m1 L := by
    refine ⟨?_, ?_, ?_, ?_, ?_⟩
    · refine hp.imp_of_mem ?_
      intro p q h1 h2 h
      refine ⟨h.1, ?_, ?_, h.2⟩
      · intro e; exact (hL q h2).2.1 (e ▸ (hL p h1).1)
      · intro e; exact (hL p h1).2.1 (e ▸ (hL q h2).1)
    · intro p h e; exact (hL p h).2.1 (e ▸ (hL p h).1)
    · intro p h; exact hnew p.2 (hL p h).2.2 (hL p h).2.1 ⟨p, h, rfl⟩
    · intro p h
      rw [hold _ (hL p h).1]
      exact S.sg_zero (hL p h).1
    · refine hp.imp_of_mem ?_
      intro p q h1 h2 h h0 e
      rw [hold _ (hL p h1).1] at h0 e
      rw [hold _ (hL q h2).1] at e
      refine h.1 (S.sg_inj (hL p h1).1 (hL q h2).1 e ?_)
      intro e'
      rw [e'] at h0
      exact h0 rfl
  rw [hsg, hsc]
  cases hc : m.checksegments
  · simp only [Bool.false_eq_true, if_false]
    have h0 := S.chk hc
    refine ⟨?_, ?_, fun _ _ _ => trivial, ?_, fun s h => by rw [hst, h]⟩
    · intro x hx
      by_cases hLx : ∃ p ∈ L, x = p.1
      · obtain ⟨p, h, rfl⟩ := hLx
        rw [hf p h, H.free p h, h0 _ hx]
      · rw [hs x fun p h e => hLx ⟨p, h, e⟩, hold x hx]
    · intro p h
      rw [hold _ (hL p h).1, h0 _ (hL p h).1]
    · intro x hx h; exact absurd (h0 x hx) h
  · simp only [if_true]
    have zero : ∀ x : TEdge, live x.1 → m.sg x ≠ noSub → (m.sg x).1 ≠ 0 := by
      intro x hx h
      rcases S.sg_zero hx with h' | h'
      · exact absurd h' h
      · exact h'
    refine ⟨?_, ?_, ?_, ?_, ?_⟩
    · intro x hx
      by_cases hLx : ∃ p ∈ L, x = p.1
      · obtain ⟨p, h, rfl⟩ := hLx
        rw [hf p h, (handSubs_sg H h).1, hold _ hx]
      · have hn : ∀ p ∈ L, x ≠ p.1 := fun p h e => hLx ⟨p, h, e⟩
        rw [hs x hn, handSubs_sg_other H, hold x hx]
        intro p h
        refine ⟨hn p h, ?_⟩
        rintro rfl
        exact (hL p h).2.1 hx
    · intro p h; exact (handSubs_sg H h).2
    · intro x hx h
      refine handSubs_sg_other H fun p hp' => ⟨?_, h p hp'⟩
      rintro rfl
      exact hx (hL p hp').1
    · intro x hx h
      by_cases hLx : ∃ p ∈ L, x = p.1
      · obtain ⟨p, hp', rfl⟩ := hLx
        have := handSubs_st H hp' (by rw [hold _ hx]; exact zero _ hx h)
        rw [hold _ hx] at this
        rw [this, hf p hp']
      · have hn : ∀ p ∈ L, x ≠ p.1 := fun p h e => hLx ⟨p, h, e⟩
        rw [hs x hn, handSubs_st_other H, hst]
        · rcases S.seg x hx with h' | h'
          · exact absurd h' h
          · exact h'.2.1
        · intro p hp' _ e
          rw [hold _ (hL p hp').1] at e
          exact hn p hp' (S.sg_inj hx (hL p hp').1 e h)
    · intro s h
      rw [handSubs_st_other H, hst, h]
      rintro p hp' h0 rfl
      rw [hold _ (hL p hp').1] at h h0
      rcases S.seg _ (hL p hp').1 with h' | h'
      · rw [h'] at h0; exact h0 rfl
      · rw [h'.2.1] at h; exact S.ne_space (hL p hp').1 h

/-- What is known about the subsegment at an edge. -/
def SegAt (m : TMesh K) (e t : TEdge) (s : TSub) (a b : Nat) : Prop :=
  s.1 ≠ 0 ∧ m.sg e = s ∧ m.st s = e ∧ m.sorg s = b ∧ m.sorg (ssym s) = a ∧ m.st (ssym s) = t ∧
    (t ≠ space → m.sg t = ssym s)

theorem ssym_fst (s : TSub) : (ssym s).1 = s.1 := rfl

theorem ssym_inj {s t : TSub} (h : ssym s = ssym t) : s = t := by
  rw [← ssym_ssym s, h, ssym_ssym]

theorem ssym_ne (s : TSub) : ssym s ≠ s := by
  obtain ⟨a, b⟩ := s
  unfold ssym
  fin_cases b <;> simp

/-- Splitting a subsegment. -/
theorem seg_subs {m mc : TMesh K} {live : Nat → Prop} (S : m.Sound live) {h : TEdge} (hh : live h.1)
    {f : TEdge → TEdge} {v k : Nat} {e t2 : TEdge}
    (ha : ∀ x : TEdge, live x.1 → mc.sg (f x) = m.sg x)
    (hd : ∀ x : TEdge, live x.1 → m.sg x ≠ noSub → mc.st (m.sg x) = f x)
    (h5 : ∀ s : TSub, m.st s = space → mc.st s = space) (fh : f h = h)
    (ft : m.nb h ≠ space → f (m.nb h) = m.nb h) (so : mc.sorg = m.sorg)
    (hne : ∀ x : TEdge, live x.1 → f x ≠ e ∧ f x ≠ t2) (he : mc.sg e = noSub) (hnb : mc.nb e = t2)
    (ht2 : t2 ≠ e) (hde : mc.dest e = v) (hs : m.sg h ≠ noSub) (k0 : k ≠ 0)
    (kf : ∀ x : TEdge, live x.1 → (m.sg x).1 ≠ k) :
    (∀ x : TEdge, live x.1 → x ≠ h → x ≠ m.nb h →
      ((mc.setsdest (m.sg h) v).insertsubseg e k).sg (f x) = m.sg x ∧
      (m.sg x ≠ noSub → ((mc.setsdest (m.sg h) v).insertsubseg e k).st (m.sg x) = f x ∧
        ((mc.setsdest (m.sg h) v).insertsubseg e k).sorg (m.sg x) = m.sorg (m.sg x) ∧
        ((mc.setsdest (m.sg h) v).insertsubseg e k).sorg (ssym (m.sg x)) = m.sorg (ssym (m.sg x)) ∧
        (m.nb x = space → ((mc.setsdest (m.sg h) v).insertsubseg e k).st (ssym (m.sg x)) = space))) ∧
    (∀ x, x ≠ e → x ≠ t2 → ((mc.setsdest (m.sg h) v).insertsubseg e k).sg x = mc.sg x) ∧
    SegAt ((mc.setsdest (m.sg h) v).insertsubseg e k) h (m.nb h) (m.sg h) v (m.dest h) ∧
    SegAt ((mc.setsdest (m.sg h) v).insertsubseg e k) e t2 (k, 0) (mc.org e) v := by
  obtain ⟨-, -, -, -, ⟨g1, g2, g3⟩, ⟨i1, i2, i3⟩, ⟨j1, j2, j3⟩⟩ :=
    insertsubseg_eq (m := mc.setsdest (m.sg h) v) (e := e) (k := k) he (by
      show mc.nb e ≠ e
      rw [hnb]; exact ht2)
  have e1 : (mc.setsdest (m.sg h) v).nb e = t2 := hnb
  have e2 : (mc.setsdest (m.sg h) v).st = mc.st := rfl
  have e3 : (mc.setsdest (m.sg h) v).sg = mc.sg := rfl
  have e4 : (mc.setsdest (m.sg h) v).dest e = v := hde
  have e5 : (mc.setsdest (m.sg h) v).org e = mc.org e := rfl
  have e6 : (mc.setsdest (m.sg h) v).sorg = Function.update m.sorg (ssym (m.sg h)) v := by
    show Function.update mc.sorg _ _ = _
    rw [so]
  have e7 : ssym (k, 0) = (k, 1) := rfl
  rw [e1] at g2 g3 i2
  rw [e2] at i3
  rw [e3] at g3
  rw [e4] at j1
  rw [e5] at j2
  rw [e6] at j3
  rcases S.seg h hh with h' | ⟨s1, s2, s3, s4, s5, s6⟩
  · exact absurd h' hs
  refine ⟨?_, g3, ⟨s1, ?_, ?_, ?_, ?_, ?_, ?_⟩, ⟨k0, g1, i1, j1, ?_, ?_, ?_⟩⟩
  · intro x hx x1 x2
    refine ⟨by rw [g3 _ (hne x hx).1 (hne x hx).2, ha x hx], fun hxs => ⟨?_, ?_, ?_, ?_⟩⟩
    · rw [i3 _ (kf x hx), hd x hx hxs]
    · rw [j3 _ (kf x hx), Function.update_of_ne]
      intro eq
      by_cases hsp : m.nb h = space
      · rcases S.seg x hx with h' | h'
        · exact absurd h' hxs
        · have := h'.2.1
          rw [eq, s6 hsp] at this
          exact S.ne_space hx this.symm
      · exact x2 (S.sg_inj hx (S.nb_live hh hsp) (eq.trans (s5 hsp).symm) hxs)
    · rw [j3 _ (by rw [ssym_fst]; exact kf x hx), Function.update_of_ne]
      intro eq
      exact x1 (S.sg_inj hx hh (ssym_inj eq) hxs)
    · intro hsp
      rw [i3 _ (by rw [ssym_fst]; exact kf x hx)]
      rcases S.seg x hx with h' | h'
      · exact absurd h' hxs
      · exact h5 _ (h'.2.2.2.2.2 hsp)
  · have := hne h hh
    rw [fh] at this
    rw [g3 h this.1 this.2]
    have := ha h hh
    rwa [fh] at this
  · rw [i3 _ (kf h hh), hd h hh hs, fh]
  · rw [j3 _ (kf h hh), Function.update_of_ne (ssym_ne _).symm, s3]
  · rw [j3 _ (by rw [ssym_fst]; exact kf h hh), Function.update_self]
  · rw [i3 _ (by rw [ssym_fst]; exact kf h hh)]
    by_cases hsp : m.nb h = space
    · rw [h5 _ (s6 hsp), hsp]
    · rw [← s5 hsp, hd _ (S.nb_live hh hsp) (by rw [s5 hsp]; intro e'; rw [Prod.ext_iff] at e'; exact s1 e'.1),
        ft hsp]
  · intro hsp
    have hl := S.nb_live hh hsp
    have := hne _ hl
    rw [ft hsp] at this
    rw [g3 _ this.1 this.2]
    have := ha _ hl
    rw [ft hsp] at this
    rw [this, s5 hsp]
  · rw [e7, j2]
  · rw [e7, i2]
  · intro _; rw [g2, e7]

/-! ## A vertex on an edge between two triangles -/

/-- The bonds when an edge between two triangles is split. -/
def twoBonds (m : TMesh K) (h : TEdge) (n1 n2 : Nat) : List (TEdge × TEdge) :=
  [((n1, 0), m.nb (lprev h)), ((n1, 2), lprev h), ((n2, 0), m.nb (lnext (m.nb h))),
    ((n2, 1), lnext (m.nb h)), ((n2, 2), (n1, 1))]

/-- The edges that are moved. -/
def twoMoves (m : TMesh K) (h : TEdge) (n1 n2 : Nat) : List (TEdge × TEdge) :=
  [(lprev h, (n1, 0)), (lnext (m.nb h), (n2, 0))]

/-- The movement. -/
def twoMap (m : TMesh K) (h : TEdge) (n1 n2 : Nat) (x : TEdge) : TEdge :=
  if x = lprev h then (n1, 0) else if x = lnext (m.nb h) then (n2, 0) else x

theorem splitEdge_some (m : TMesh K) (h : TEdge) (v n1 n2 k : Nat) :
    m.splitEdge h v n1 n2 (some k) =
      ((m.splitEdge h v n1 n2 none).setsdest (m.sg h) v).insertsubseg (n1, 1) k := rfl

section
variable {m : TMesh K} {h : TEdge} {v n1 n2 : Nat}

theorem two_nb (hm : (m.nb h).1 ≠ 0) : (m.splitEdge h v n1 n2 none).nb =
    bonds ((m.maketriangle n2).maketriangle n1).nb (twoBonds m h n1 n2) := by
  unfold TMesh.splitEdge
  dsimp only [TMesh.setorg, TMesh.setdest, TMesh.setapex, TMesh.setattr, TMesh.bond]
  simp only [decide_eq_true hm, if_true]
  split
  · simp only [handSub_rest]; rfl
  · rfl

theorem two_apex (hm : (m.nb h).1 ≠ 0) : (m.splitEdge h v n1 n2 none).apex =
    (((((((((m.maketriangle n2).maketriangle n1).setorg (n1, 0) (m.apex h)).setdest (n1, 0) (m.org h)).setapex
      (n1, 0) v).setorg h v).setorg (n2, 0) (m.org h)).setdest (n2, 0) (m.dest (lnext (m.nb h)))).setapex
      (n2, 0) v |>.setorg (lnext (m.nb h)) v).apex := by
  unfold TMesh.splitEdge
  dsimp only [TMesh.setorg, TMesh.setdest, TMesh.setapex, TMesh.setattr, TMesh.bond]
  simp only [decide_eq_true hm, if_true]
  split
  · simp only [handSub_rest]
  · rfl

theorem two_sg (hm : (m.nb h).1 ≠ 0) : (m.splitEdge h v n1 n2 none).sg =
    if m.checksegments then (((m.maketriangle n2).maketriangle n1).handSubs (twoMoves m h n1 n2)).sg
    else ((m.maketriangle n2).maketriangle n1).sg := by
  unfold TMesh.splitEdge
  dsimp only [TMesh.setorg, TMesh.setdest, TMesh.setapex, TMesh.setattr, TMesh.bond]
  simp only [decide_eq_true hm, if_true]
  split
  swap
  · next hc => rw [if_neg (show ¬ m.checksegments = true from hc)]
  · next hc =>
    rw [if_pos (show m.checksegments = true from hc)]
    simp only [TMesh.handSubs, twoMoves, List.foldl]
    refine (handSub_congr ?_ ?_ _ _).1
    · exact (handSub_congr (K := K) (by rfl) (by rfl) _ _).1
    · exact (handSub_congr (K := K) (by rfl) (by rfl) _ _).2

theorem two_st (hm : (m.nb h).1 ≠ 0) : (m.splitEdge h v n1 n2 none).st =
    if m.checksegments then (((m.maketriangle n2).maketriangle n1).handSubs (twoMoves m h n1 n2)).st
    else ((m.maketriangle n2).maketriangle n1).st := by
  unfold TMesh.splitEdge
  dsimp only [TMesh.setorg, TMesh.setdest, TMesh.setapex, TMesh.setattr, TMesh.bond]
  simp only [decide_eq_true hm, if_true]
  split
  swap
  · next hc => rw [if_neg (show ¬ m.checksegments = true from hc)]
  · next hc =>
    rw [if_pos (show m.checksegments = true from hc)]
    simp only [TMesh.handSubs, twoMoves, List.foldl]
    refine (handSub_congr ?_ ?_ _ _).2
    · exact (handSub_congr (K := K) (by rfl) (by rfl) _ _).1
    · exact (handSub_congr (K := K) (by rfl) (by rfl) _ _).2

theorem two_rest (hm : (m.nb h).1 ≠ 0) : (m.splitEdge h v n1 n2 none).sorg = m.sorg ∧
    (m.splitEdge h v n1 n2 none).checksegments = m.checksegments ∧
    (m.splitEdge h v n1 n2 none).attr =
      ((((m.maketriangle n2).maketriangle n1).setattr n1 (((m.maketriangle n2).maketriangle n1).attr h.1)).setattr n2
        ((((m.maketriangle n2).maketriangle n1).setattr n1
          (((m.maketriangle n2).maketriangle n1).attr h.1)).attr (m.nb h).1)).attr := by
  unfold TMesh.splitEdge
  dsimp only [TMesh.setorg, TMesh.setdest, TMesh.setapex, TMesh.setattr, TMesh.bond]
  simp only [decide_eq_true hm, if_true]
  split
  · simp only [handSub_rest]; exact ⟨rfl, rfl, rfl⟩
  · exact ⟨rfl, rfl, rfl⟩

/-- The corners afterwards. -/
theorem two_corners (hm : (m.nb h).1 ≠ 0) (h1 : h.1 ≠ n1) (h2 : h.1 ≠ n2) (k1 : (m.nb h).1 ≠ n1)
    (k2 : (m.nb h).1 ≠ n2) (hk : (m.nb h).1 ≠ h.1) (h12 : n1 ≠ n2) :
    ((m.splitEdge h v n1 n2 none).apex (n1, 0) = v ∧ (m.splitEdge h v n1 n2 none).apex (n1, 1) = m.apex h ∧
      (m.splitEdge h v n1 n2 none).apex (n1, 2) = m.org h) ∧
    ((m.splitEdge h v n1 n2 none).apex (n2, 0) = v ∧ (m.splitEdge h v n1 n2 none).apex (n2, 1) = m.org h ∧
      (m.splitEdge h v n1 n2 none).apex (n2, 2) = m.apex (m.nb h)) ∧
    (m.splitEdge h v n1 n2 none).apex (lnext h) = v ∧ (m.splitEdge h v n1 n2 none).apex (lprev (m.nb h)) = v ∧
    (∀ x : TEdge, x.1 ≠ n1 → x.1 ≠ n2 → x ≠ lnext h → x ≠ lprev (m.nb h) →
      (m.splitEdge h v n1 n2 none).apex x = m.apex x) := by
  rw [two_apex hm, dest_lnext]
  generalize m.nb h = g at *
  obtain ⟨t, o⟩ := h
  obtain ⟨t', o'⟩ := g
  simp only at h1 h2 k1 k2 hk
  dsimp only [TMesh.setorg, TMesh.setdest, TMesh.setapex, TMesh.maketriangle, lnext, lprev]
  have e1 : (0 : Fin 3) + 1 = 1 := rfl
  have e2 : (0 : Fin 3) + 2 = 2 := rfl
  rw [e1, e2, o12]
  refine ⟨⟨?_, ?_, ?_⟩, ⟨?_, ?_, ?_⟩, ?_, ?_, ?_⟩
  · simp [Function.update, Prod.ext_iff, h1.symm, k1.symm, h12]
  · simp [Function.update, Prod.ext_iff, h1.symm, k1.symm, h12]
  · simp [Function.update, Prod.ext_iff, h1.symm, k1.symm, h12]
  · simp [Function.update, Prod.ext_iff, h2.symm, k2.symm, h12]
  · simp [Function.update, Prod.ext_iff, h2.symm, k2.symm, h12]
  · simp [Function.update, Prod.ext_iff, h2.symm, k2.symm, h12]
  · simp [Function.update, Prod.ext_iff, h1, h2, hk.symm]
  · simp [Function.update, Prod.ext_iff]
  · rintro ⟨a, b⟩ k1 k2 k3 k4
    simp only at k1 k2
    simp [Function.update, k1, k2, k3, k4]

theorem twoMap_vals (hk : (m.nb h).1 ≠ h.1) (n1 n2 : Nat) :
    twoMap m h n1 n2 (lprev h) = (n1, 0) ∧ twoMap m h n1 n2 (lnext (m.nb h)) = (n2, 0) :=
  ⟨if_pos rfl, by unfold twoMap; rw [if_neg (ne_of_tri (x := lnext (m.nb h)) (y := lprev h) hk), if_pos rfl]⟩

theorem twoMap_same {x : TEdge} (h1 : x ≠ lprev h) (h2 : x ≠ lnext (m.nb h)) :
    twoMap m h n1 n2 x = x := by
  unfold twoMap
  rw [if_neg h1, if_neg h2]

theorem insertsubseg_rest (m : TMesh K) (e : TEdge) (k : Nat) :
    (m.insertsubseg e k).nb = m.nb ∧ (m.insertsubseg e k).apex = m.apex ∧
    (m.insertsubseg e k).attr = m.attr ∧ (m.insertsubseg e k).checksegments = m.checksegments := by
  unfold TMesh.insertsubseg
  split <;> exact ⟨rfl, rfl, rfl, rfl⟩

/-- Splitting the subsegment changes nothing else. -/
theorem splitEdge_seg (m : TMesh K) (h : TEdge) (v n1 n2 : Nat) (ss : Option Nat) :
    (m.splitEdge h v n1 n2 ss).nb = (m.splitEdge h v n1 n2 none).nb ∧
    (m.splitEdge h v n1 n2 ss).apex = (m.splitEdge h v n1 n2 none).apex ∧
    (m.splitEdge h v n1 n2 ss).attr = (m.splitEdge h v n1 n2 none).attr ∧
    (m.splitEdge h v n1 n2 ss).checksegments = (m.splitEdge h v n1 n2 none).checksegments := by
  cases ss with
  | none => exact ⟨rfl, rfl, rfl, rfl⟩
  | some k =>
    rw [splitEdge_some]
    exact insertsubseg_rest _ _ _

variable {live : Nat → Prop} (S : m.Sound live) (hh : live h.1) (hs : m.nb h ≠ space)
  (hf : m.apex h ≠ m.apex (m.nb h)) (hn1 : ¬ live n1) (hn2 : ¬ live n2) (h10 : n1 ≠ 0) (h20 : n2 ≠ 0)
  (h12 : n1 ≠ n2)
include S hh hs hf hn1 hn2 h10 h20 h12

/-- The triangles and their neighbours differ. -/
theorem two_facts : h.1 ≠ n1 ∧ h.1 ≠ n2 ∧ (m.nb h).1 ≠ n1 ∧ (m.nb h).1 ≠ n2 ∧ (m.nb h).1 ≠ h.1 ∧
    (m.nb h).1 ≠ 0 ∧
    ((m.nb (lprev h)).1 ≠ n1 ∧ (m.nb (lprev h)).1 ≠ n2 ∧ (m.nb (lprev h)).1 ≠ h.1 ∧
      (m.nb (lprev h)).1 ≠ (m.nb h).1) ∧
    ((m.nb (lnext (m.nb h))).1 ≠ n1 ∧ (m.nb (lnext (m.nb h))).1 ≠ n2 ∧ (m.nb (lnext (m.nb h))).1 ≠ h.1 ∧
      (m.nb (lnext (m.nb h))).1 ≠ (m.nb h).1) := by
  have hl := S.nb_live hh hs
  have out : ∀ x : TEdge, live x.1 → (m.nb x).1 ≠ n1 ∧ (m.nb x).1 ≠ n2 := by
    intro x hx
    rcases S.mate x hx with hs | hs
    · rw [hs]; exact ⟨h10.symm, h20.symm⟩
    · exact ⟨fun e => hn1 (e ▸ hs.1), fun e => hn2 (e ▸ hs.1)⟩
  have oC := out (lprev h) hh
  have oD := out (lnext (m.nb h)) hl
  have cC := S.casing hh hs hf (x := lprev h) (by simp)
  have cD := S.casing hh hs hf (x := lnext (m.nb h)) (by simp)
  exact ⟨fun e => hn1 (e ▸ hh), fun e => hn2 (e ▸ hh), fun e => hn1 (e ▸ hl), fun e => hn2 (e ▸ hl),
    S.nb_ne hh, fun e => S.out (e ▸ hl), ⟨oC.1, oC.2, cC.1, cC.2⟩, ⟨oD.1, oD.2, cD.1, cD.2⟩⟩

theorem two_start : ((m.maketriangle n2).maketriangle n1).Sound live :=
  maketriangle_sound (maketriangle_sound S hn2 h20) hn1 h10

theorem two_apart : Apart (twoBonds m h n1 n2) := by
  obtain ⟨t1, t2, u1, u2, q0, -, ⟨c1, c2, c3, c4⟩, ⟨d1, d2, d3, d4⟩⟩ :=
    two_facts S hh hs hf hn1 hn2 h10 h20 h12
  have inj : m.nb (lprev h) = m.nb (lnext (m.nb h)) → m.nb (lprev h) = space := by
    intro e
    by_contra hne
    have := S.nb_inj (x := lprev h) (y := lnext (m.nb h)) hh (S.nb_live hh hs) e hne
    exact ne_of_tri (x := lprev h) (y := lnext (m.nb h)) q0.symm this
  refine ⟨?_, ?_⟩
  · unfold twoBonds
    simp only [List.pairwise_cons, List.mem_cons, List.not_mem_nil, or_false, forall_eq_or_imp, forall_eq,
      List.Pairwise.nil, and_true, false_imp_iff, implies_true]
    refine ⟨⟨⟨by simp, ne_of_tri t1.symm, ne_of_tri c1, fun e => absurd e (ne_of_tri c3)⟩,
      ⟨ne_of_tri h12, ne_of_tri d1.symm, ne_of_tri c2, inj⟩,
      ⟨ne_of_tri h12, ne_of_tri u1.symm, ne_of_tri c2, fun e => absurd e (ne_of_tri c4)⟩,
      ⟨ne_of_tri h12, by simp, ne_of_tri c2, fun e => absurd e (ne_of_tri c1)⟩⟩,
      ⟨⟨ne_of_tri h12, ne_of_tri d1.symm, ne_of_tri t2, fun e => absurd e (ne_of_tri d3.symm)⟩,
      ⟨ne_of_tri h12, ne_of_tri u1.symm, ne_of_tri t2, fun e => absurd e (ne_of_tri q0.symm)⟩,
      ⟨ne_of_tri h12, by simp, ne_of_tri t2, fun e => absurd e (ne_of_tri t1)⟩⟩,
      ⟨⟨by simp, ne_of_tri u2.symm, ne_of_tri d2, fun e => absurd e (ne_of_tri d4)⟩,
      ⟨by simp, ne_of_tri h12.symm, ne_of_tri d2, fun e => absurd e (ne_of_tri d1)⟩⟩,
      ⟨by simp, ne_of_tri h12.symm, ne_of_tri u2, fun e => absurd e (ne_of_tri u1)⟩⟩
  · intro p hp
    simp only [twoBonds, List.mem_cons, List.not_mem_nil, or_false] at hp
    rcases hp with rfl | rfl | rfl | rfl | rfl
    · exact ⟨ne_of_tri h10, ne_of_tri c1.symm⟩
    · exact ⟨ne_of_tri h10, ne_of_tri t1.symm⟩
    · exact ⟨ne_of_tri h20, ne_of_tri d2.symm⟩
    · exact ⟨ne_of_tri h20, ne_of_tri u2.symm⟩
    · exact ⟨ne_of_tri h20, ne_of_tri h12.symm⟩

theorem two_moves : Moves ((m.maketriangle n2).maketriangle n1) live (twoMoves m h n1 n2)
    (twoBonds m h n1 n2) (twoMap m h n1 n2) fun x => live x.1 ∧ x ≠ h ∧ x ≠ m.nb h where
  apart := two_apart S hh hs hf hn1 hn2 h10 h20 h12
  given := by
    obtain ⟨t1, t2, u1, u2, q0, -, -, -⟩ := two_facts S hh hs hf hn1 hn2 h10 h20 h12
    obtain ⟨v1, v2⟩ := twoMap_vals q0 n1 n2
    have hl := S.nb_live hh hs
    intro p hp
    simp only [twoMoves, List.mem_cons, List.not_mem_nil, or_false] at hp
    rcases hp with rfl | rfl
    · refine ⟨hh, ?_, v1⟩
      rw [(three_old hn2 hn1 (x := lprev h) hh).1]
      simp [twoBonds]
    · refine ⟨hl, ?_, v2⟩
      rw [(three_old hn2 hn1 (x := lnext (m.nb h)) hl).1]
      simp [twoBonds]
  casing := by
    obtain ⟨t1, t2, u1, u2, q0, -, ⟨c1, c2, c3, c4⟩, ⟨d1, d2, d3, d4⟩⟩ :=
      two_facts S hh hs hf hn1 hn2 h10 h20 h12
    have hl := S.nb_live hh hs
    intro p hp q hq
    simp only [twoMoves, List.mem_cons, List.not_mem_nil, or_false] at hp hq
    rcases hp with rfl | rfl <;> rcases hq with rfl | rfl
    · rw [(three_old hn2 hn1 (x := lprev h) hh).1]; exact ne_of_tri c3
    · rw [(three_old hn2 hn1 (x := lprev h) hh).1]; exact ne_of_tri c4
    · rw [(three_old hn2 hn1 (x := lnext (m.nb h)) hl).1]; exact ne_of_tri d3
    · rw [(three_old hn2 hn1 (x := lnext (m.nb h)) hl).1]; exact ne_of_tri d4
  same := by
    intro x hx
    simp only [twoMoves, List.mem_cons, List.not_mem_nil, or_false, forall_eq_or_imp, forall_eq] at hx
    exact twoMap_same hx.1 hx.2
  was := fun x hx => hx.1
  free := by
    rintro x ⟨hx, -, -⟩ hL p hp
    have hl := S.nb_live hh hs
    have k1 : x.1 ≠ n1 := fun h => hn1 (h ▸ hx)
    have k2 : x.1 ≠ n2 := fun h => hn2 (h ▸ hx)
    simp only [twoMoves, List.mem_cons, List.not_mem_nil, or_false, forall_eq_or_imp, forall_eq] at hL
    simp only [twoBonds, List.mem_cons, List.not_mem_nil, or_false] at hp
    rcases hp with rfl | rfl | rfl | rfl | rfl
    · refine ⟨ne_of_tri k1, fun _ => ⟨(lprev h, (n1, 0)), by simp [twoMoves], ?_⟩⟩
      rw [(three_old hn2 hn1 (x := lprev h) hh).1]
    · exact ⟨ne_of_tri k1, fun e => absurd e hL.1⟩
    · refine ⟨ne_of_tri k2, fun _ => ⟨(lnext (m.nb h), (n2, 0)), by simp [twoMoves], ?_⟩⟩
      rw [(three_old hn2 hn1 (x := lnext (m.nb h)) hl).1]
    · exact ⟨ne_of_tri k2, fun e => absurd e hL.2⟩
    · exact ⟨ne_of_tri k2, fun e => absurd e (ne_of_tri k1)⟩

/-- The bonds of the new edges. -/
theorem two_links (ss : Option Nat) :
    (m.splitEdge h v n1 n2 ss).nb (n1, 2) = lprev h ∧ (m.splitEdge h v n1 n2 ss).nb (lprev h) = (n1, 2) ∧
    (m.splitEdge h v n1 n2 ss).nb (n2, 1) = lnext (m.nb h) ∧
    (m.splitEdge h v n1 n2 ss).nb (lnext (m.nb h)) = (n2, 1) ∧
    (m.splitEdge h v n1 n2 ss).nb (n2, 2) = (n1, 1) ∧ (m.splitEdge h v n1 n2 ss).nb (n1, 1) = (n2, 2) ∧
    (m.splitEdge h v n1 n2 ss).nb h = m.nb h ∧ (m.splitEdge h v n1 n2 ss).nb (m.nb h) = h := by
  obtain ⟨t1, t2, u1, u2, q0, hm, ⟨c1, c2, c3, c4⟩, ⟨d1, d2, d3, d4⟩⟩ :=
    two_facts S hh hs hf hn1 hn2 h10 h20 h12
  have hl := S.nb_live hh hs
  have A := two_apart S hh hs hf hn1 hn2 h10 h20 h12
  rw [(splitEdge_seg m h v n1 n2 ss).1, two_nb hm]
  set nb1 := ((m.maketriangle n2).maketriangle n1).nb with hnb1
  have p2 := bonds_mem A nb1 (p := ((n1, 2), lprev h)) (by simp [twoBonds])
  have p4 := bonds_mem A nb1 (p := ((n2, 1), lnext (m.nb h))) (by simp [twoBonds])
  have p5 := bonds_mem A nb1 (p := ((n2, 2), (n1, 1))) (by simp [twoBonds])
  have free : ∀ x : TEdge, (x = h ∨ x = m.nb h) → ¬ touched (twoBonds m h n1 n2) x := by
    rintro x hx ⟨p, hp, h'⟩
    have x1 : x.1 ≠ n1 := by rcases hx with rfl | rfl <;> assumption
    have x2 : x.1 ≠ n2 := by rcases hx with rfl | rfl <;> assumption
    have x3 : x ≠ m.nb (lprev h) := by
      rcases hx with rfl | rfl
      · exact ne_of_tri c3.symm
      · exact ne_of_tri c4.symm
    have x4 : x ≠ m.nb (lnext (m.nb h)) := by
      rcases hx with rfl | rfl
      · exact ne_of_tri d3.symm
      · exact ne_of_tri d4.symm
    have x5 : x ≠ lprev h := by
      rcases hx with rfl | rfl
      · exact (lprev_ne _).symm
      · exact ne_of_tri (x := m.nb h) (y := lprev h) q0
    have x6 : x ≠ lnext (m.nb h) := by
      rcases hx with rfl | rfl
      · exact ne_of_tri (x := x) (y := lnext (m.nb x)) q0.symm
      · exact (lnext_ne _).symm
    simp only [twoBonds, List.mem_cons, List.not_mem_nil, or_false] at hp
    rcases hp with rfl | rfl | rfl | rfl | rfl <;> rcases h' with h' | h'
    exacts [ne_of_tri x1 h', x3 h', ne_of_tri x1 h', x5 h', ne_of_tri x2 h', x4 h', ne_of_tri x2 h', x6 h',
      ne_of_tri x2 h', ne_of_tri x1 h']
  refine ⟨p2.1, p2.2 (S.ne_space (x := lprev h) hh), p4.1, p4.2 (S.ne_space (x := lnext (m.nb h)) hl), p5.1,
    p5.2 (ne_of_tri h10), ?_, ?_⟩
  · rw [bonds_other _ _ (free h (.inl rfl)), hnb1, (three_old hn2 hn1 hh).1]
  · rw [bonds_other _ _ (free _ (.inr rfl)), hnb1, (three_old hn2 hn1 hl).1, S.nb_nb hh hs]

/-- The subsegments afterwards. -/
theorem two_subs {ss : Option Nat} (hss : m.NewSub live h ss) :
    (∀ x : TEdge, live x.1 → x ≠ h → x ≠ m.nb h →
      (m.splitEdge h v n1 n2 ss).sg (twoMap m h n1 n2 x) = m.sg x ∧
      (m.sg x ≠ noSub → (m.splitEdge h v n1 n2 ss).st (m.sg x) = twoMap m h n1 n2 x ∧
        (m.splitEdge h v n1 n2 ss).sorg (m.sg x) = m.sorg (m.sg x) ∧
        (m.splitEdge h v n1 n2 ss).sorg (ssym (m.sg x)) = m.sorg (ssym (m.sg x)) ∧
        (m.nb x = space → (m.splitEdge h v n1 n2 ss).st (ssym (m.sg x)) = space))) ∧
    ((m.splitEdge h v n1 n2 ss).sg (lprev h) = noSub ∧ (m.splitEdge h v n1 n2 ss).sg (lnext (m.nb h)) = noSub ∧
      (m.splitEdge h v n1 n2 ss).sg (n1, 2) = noSub ∧ (m.splitEdge h v n1 n2 ss).sg (n2, 1) = noSub) ∧
    ((ss = none ∧ (m.splitEdge h v n1 n2 ss).sg h = noSub ∧ (m.splitEdge h v n1 n2 ss).sg (m.nb h) = noSub ∧
        (m.splitEdge h v n1 n2 ss).sg (n1, 1) = noSub ∧ (m.splitEdge h v n1 n2 ss).sg (n2, 2) = noSub) ∨
      ∃ k, ss = some k ∧ SegAt (m.splitEdge h v n1 n2 ss) h (m.nb h) (m.sg h) v (m.dest h) ∧
        SegAt (m.splitEdge h v n1 n2 ss) (n1, 1) (n2, 2) (k, 0) (m.org h) v) := by
  obtain ⟨t1, t2, u1, u2, q0, hm, ⟨c1, c2, c3, c4⟩, ⟨d1, d2, d3, d4⟩⟩ :=
    two_facts S hh hs hf hn1 hn2 h10 h20 h12
  obtain ⟨v1, v2⟩ := twoMap_vals q0 n1 n2
  have hl := S.nb_live hh hs
  obtain ⟨a, b, c, d, e⟩ := hand_subs (mc := m.splitEdge h v n1 n2 none) (L := twoMoves m h n1 n2)
    (f := twoMap m h n1 n2) S (fun x hx => (three_old hn2 hn1 hx).2) (by
      rintro x - - ⟨p, hp, hx⟩
      simp only [twoMoves, List.mem_cons, List.not_mem_nil, or_false] at hp
      rcases hp with rfl | rfl <;> simp only at hx <;> simp [TMesh.maketriangle, hx]) rfl (by
      intro p hp
      simp only [twoMoves, List.mem_cons, List.not_mem_nil, or_false] at hp
      rcases hp with rfl | rfl
      · exact ⟨hh, hn1, ne_of_tri h10⟩
      · exact ⟨hl, hn2, ne_of_tri h20⟩) (by
      simp only [twoMoves, List.pairwise_cons, List.mem_cons, List.not_mem_nil, or_false, forall_eq,
        List.Pairwise.nil, and_true, false_imp_iff, implies_true]
      exact ⟨ne_of_tri (x := lprev h) (y := lnext (m.nb h)) q0.symm, ne_of_tri h12⟩) (by
      intro p hp
      simp only [twoMoves, List.mem_cons, List.not_mem_nil, or_false] at hp
      rcases hp with rfl | rfl
      · exact v1
      · exact v2) (by
      intro x hx
      simp only [twoMoves, List.mem_cons, List.not_mem_nil, or_false, forall_eq_or_imp, forall_eq] at hx
      exact twoMap_same hx.1 hx.2) (two_sg hm) (two_st hm)
  have fresh : ∀ (t : Nat) (o : Fin 3), (t = n1 ∨ t = n2) → o ≠ 0 →
      (m.splitEdge h v n1 n2 none).sg (t, o) = noSub := by
    intro t o ht ho
    rw [c (t, o) (by rcases ht with rfl | rfl <;> assumption)]
    · rcases ht with rfl | rfl <;> simp [TMesh.maketriangle]
    · intro p hp
      simp only [twoMoves, List.mem_cons, List.not_mem_nil, or_false] at hp
      rcases hp with rfl | rfl
      · intro e; exact ho (congrArg Prod.snd e)
      · intro e; exact ho (congrArg Prod.snd e)
  have fh : twoMap m h n1 n2 h = h := twoMap_same (lprev_ne h).symm (ne_of_tri (y := lnext (m.nb h)) q0.symm)
  have ft : twoMap m h n1 n2 (m.nb h) = m.nb h :=
    twoMap_same (ne_of_tri (y := lprev h) q0) (lnext_ne _).symm
  have bC := b (lprev h, (n1, 0)) (by simp [twoMoves])
  have bD := b (lnext (m.nb h), (n2, 0)) (by simp [twoMoves])
  obtain ⟨r1, r2, -⟩ := two_rest (v := v) (n1 := n1) (n2 := n2) hm
  cases ss with
  | none =>
    refine ⟨?_, ⟨bC, bD, fresh n1 2 (.inl rfl) (by simp), fresh n2 1 (.inr rfl) (by simp)⟩, .inl ⟨rfl, ?_, ?_,
      fresh n1 1 (.inl rfl) (by simp), fresh n2 2 (.inr rfl) (by simp)⟩⟩
    · intro x hx _ _
      refine ⟨a x hx, fun hxs => ⟨d x hx hxs, by rw [r1], by rw [r1], ?_⟩⟩
      intro hsp
      rcases S.seg x hx with h' | h'
      · exact absurd h' hxs
      · exact e _ (h'.2.2.2.2.2 hsp)
    · have := a h hh
      rw [fh] at this
      rw [this]; exact hss
    · have := a _ hl
      rw [ft] at this
      rw [this, ← S.sg_nb hh hs]; exact hss
  | some k =>
    obtain ⟨s1, k0, kf⟩ := hss
    obtain ⟨⟨w1, w2, w3⟩, -, -⟩ := two_corners (v := v) hm t1 t2 u1 u2 q0 h12
    have l6 := (two_links (v := v) S hh hs hf hn1 hn2 h10 h20 h12 none).2.2.2.2.2.1
    obtain ⟨g1, g2, g3, g4⟩ := seg_subs (mc := m.splitEdge h v n1 n2 none) (f := twoMap m h n1 n2) (v := v)
      (k := k) (e := (n1, 1)) (t2 := (n2, 2)) S hh a d e fh (fun _ => ft) r1 (by
        intro x hx
        have k1 : x.1 ≠ n1 := fun h => hn1 (h ▸ hx)
        have k2 : x.1 ≠ n2 := fun h => hn2 (h ▸ hx)
        unfold twoMap
        split
        · exact ⟨by simp, ne_of_tri h12⟩
        · split
          · exact ⟨ne_of_tri h12.symm, by simp⟩
          · exact ⟨ne_of_tri k1, ne_of_tri k2⟩) (fresh n1 1 (.inl rfl) (by simp)) l6 (ne_of_tri h12.symm) w1
      s1 k0 kf
    rw [splitEdge_some]
    refine ⟨g1, ⟨?_, ?_, ?_, ?_⟩, .inr ⟨k, rfl, g3, ?_⟩⟩
    · rw [g2 (lprev h) (ne_of_tri t1) (ne_of_tri t2)]; exact bC
    · rw [g2 (lnext (m.nb h)) (ne_of_tri u1) (ne_of_tri u2)]; exact bD
    · rw [g2 _ (by simp) (ne_of_tri h12)]; exact fresh n1 2 (.inl rfl) (by simp)
    · rw [g2 _ (ne_of_tri h12.symm) (by simp)]; exact fresh n2 1 (.inr rfl) (by simp)
    · have : (m.splitEdge h v n1 n2 none).org (n1, 1) = m.org h := w3
      rwa [this] at g4

/-- The ends of the moved edges. -/
theorem two_ends (ss : Option Nat) {x : TEdge} (hx : live x.1) (x1 : x ≠ h) (x2 : x ≠ m.nb h) :
    (m.splitEdge h v n1 n2 ss).org (twoMap m h n1 n2 x) = m.org x ∧
    (m.splitEdge h v n1 n2 ss).dest (twoMap m h n1 n2 x) = m.dest x := by
  obtain ⟨t1, t2, u1, u2, q0, hm, -, -⟩ := two_facts S hh hs hf hn1 hn2 h10 h20 h12
  obtain ⟨v1, v2⟩ := twoMap_vals q0 n1 n2
  obtain ⟨⟨w1, w2, w3⟩, ⟨y1, y2, y3⟩, z1, z2, z3⟩ := two_corners (v := v) hm t1 t2 u1 u2 q0 h12
  unfold TMesh.org TMesh.dest
  rw [(splitEdge_seg m h v n1 n2 ss).2.1]
  have k1 : x.1 ≠ n1 := fun h => hn1 (h ▸ hx)
  have k2 : x.1 ≠ n2 := fun h => hn2 (h ▸ hx)
  obtain ⟨b1, b2⟩ := S.nb_ends hh hs
  by_cases e1 : x = lprev h
  · subst e1
    rw [v1, lnext_lprev, lprev_lprev]
    exact ⟨w2, w3⟩
  by_cases e2 : x = lnext (m.nb h)
  · subst e2
    rw [v2, lnext_lnext, lprev_lnext]
    exact ⟨y2.trans b2.symm, y3⟩
  rw [twoMap_same e1 e2]
  have inj1 : ∀ y z : TEdge, lnext y = lnext z → y = z := by
    intro y z h'; rw [← lprev_lnext y, h', lprev_lnext]
  have inj2 : ∀ y z : TEdge, lprev y = lprev z → y = z := by
    intro y z h'; rw [← lnext_lprev y, h', lnext_lprev]
  refine ⟨z3 (lnext x) k1 k2 (fun h' => x1 (inj1 _ _ h')) ?_, z3 (lprev x) k1 k2 ?_ (fun h' => x2 (inj2 _ _ h'))⟩
  · intro h'
    apply e2
    rw [← lprev_lnext x, h', lprev_lprev]
  · intro h'
    apply e1
    rw [← lnext_lprev x, h', lnext_lnext]

theorem two_live {x : TEdge} (hx : live x.1) :
    live (twoMap m h n1 n2 x).1 ∨ (twoMap m h n1 n2 x).1 = n1 ∨ (twoMap m h n1 n2 x).1 = n2 := by
  unfold twoMap
  split
  · exact .inr (.inl rfl)
  · split
    · exact .inr (.inr rfl)
    · exact .inl hx

omit [Zero K] S hh hs hf hn1 hn2 h10 h20 h12 in
/-- A subsegment that is in order. -/
theorem SegAt.ok {m' : TMesh K} {e t : TEdge} {s : TSub} {a b : Nat} (H : SegAt m' e t s a b)
    (ho : m'.org e = a) (hd : m'.dest e = b) (hn : m'.nb e = t) :
    (m'.sg e).1 ≠ 0 ∧ m'.st (m'.sg e) = e ∧ m'.sorg (m'.sg e) = m'.dest e ∧
      m'.sorg (ssym (m'.sg e)) = m'.org e ∧ (m'.nb e ≠ space → m'.sg (m'.nb e) = ssym (m'.sg e)) ∧
      (m'.nb e = space → m'.st (ssym (m'.sg e)) = space) := by
  obtain ⟨h1, h2, h3, h4, h5, h6, h7⟩ := H
  rw [h2, hn, ho, hd]
  exact ⟨h1, h3, h4, h5, h7, fun h => h6.trans h⟩

omit [Zero K] S hh hs hf hn1 hn2 h10 h20 h12 in
/-- The other side of a subsegment that is in order. -/
theorem SegAt.swap {m' : TMesh K} {e t : TEdge} {s : TSub} {a b : Nat} (H : SegAt m' e t s a b)
    (ht : t ≠ space) : SegAt m' t e (ssym s) b a := by
  obtain ⟨h1, h2, h3, h4, h5, h6, h7⟩ := H
  refine ⟨h1, h7 ht, h6, h5, ?_, ?_, ?_⟩
  · rw [ssym_ssym, h4]
  · rw [ssym_ssym, h3]
  · intro _; rw [ssym_ssym, h2]

theorem two_moved {ss : Option Nat} (hss : m.NewSub live h ss)
    (hv : v ≠ m.org h ∧ v ≠ m.dest h ∧ v ≠ m.apex h ∧ v ≠ m.apex (m.nb h)) :
    Moved m (m.splitEdge h v n1 n2 ss) live (fun t => live t ∨ t = n1 ∨ t = n2) (twoMap m h n1 n2)
      fun x => live x.1 ∧ x ≠ h ∧ x ≠ m.nb h := by
  obtain ⟨t1, t2, u1, u2, q0, hm, ⟨c1, c2, c3, c4⟩, ⟨d1, d2, d3, d4⟩⟩ :=
    two_facts S hh hs hf hn1 hn2 h10 h20 h12
  have hl := S.nb_live hh hs
  have S' := two_start S hh hs hf hn1 hn2 h10 h20 h12
  have hM := two_moves S hh hs hf hn1 hn2 h10 h20 h12
  obtain ⟨v1, v2⟩ := twoMap_vals q0 n1 n2
  obtain ⟨⟨w1, w2, w3⟩, ⟨y1, y2, y3⟩, z1, z2, z3⟩ := two_corners (v := v) hm t1 t2 u1 u2 q0 h12
  obtain ⟨l1, l2, l3, l4, l5, l6, l7, l8⟩ := two_links (v := v) S hh hs hf hn1 hn2 h10 h20 h12 ss
  obtain ⟨g1, ⟨g2, g3, g4, g5⟩, g6⟩ := two_subs (v := v) S hh hs hf hn1 hn2 h10 h20 h12 hss
  obtain ⟨b1, b2⟩ := S.nb_ends hh hs
  obtain ⟨a1, a2, a3⟩ := S.apex_ne h hh
  obtain ⟨a4, a5, a6⟩ := S.apex_ne (m.nb h) hl
  rw [b1, b2] at a4
  rw [b2] at a5
  rw [b1] at a6
  have hnb : (m.splitEdge h v n1 n2 ss).nb =
      bonds ((m.maketriangle n2).maketriangle n1).nb (twoBonds m h n1 n2) := by
    rw [(splitEdge_seg m h v n1 n2 ss).1, two_nb hm]
  have hap := (splitEdge_seg m h v n1 n2 ss).2.1
  have hchk : (m.splitEdge h v n1 n2 ss).checksegments = m.checksegments := by
    rw [(splitEdge_seg m h v n1 n2 ss).2.2.2, (two_rest hm).2.1]
  rw [← hap] at w1 w2 w3 y1 y2 y3 z1 z2 z3
  -- the ends of the new edges
  have oh : (m.splitEdge h v n1 n2 ss).org h = v := z1
  have dh : (m.splitEdge h v n1 n2 ss).dest h = m.dest h :=
    z3 (lprev h) t1 t2 (lnext_ne_lprev h).symm (ne_of_tri (x := lprev h) (y := lprev (m.nb h)) q0.symm)
  have ot : (m.splitEdge h v n1 n2 ss).org (m.nb h) = m.dest h :=
    (z3 (lnext (m.nb h)) u1 u2 (ne_of_tri (x := lnext (m.nb h)) (y := lnext h) q0) (lnext_ne_lprev _)).trans b1
  have dt : (m.splitEdge h v n1 n2 ss).dest (m.nb h) = v := z2
  have oC : (m.splitEdge h v n1 n2 ss).org (lprev h) = m.apex h := by
    rw [org_lprev]; exact z3 h t1 t2 (lnext_ne h).symm (ne_of_tri (y := lprev (m.nb h)) q0.symm)
  have dC : (m.splitEdge h v n1 n2 ss).dest (lprev h) = v := by rw [dest_lprev, oh]
  have oD : (m.splitEdge h v n1 n2 ss).org (lnext (m.nb h)) = v := by rw [org_lnext, dt]
  have dD : (m.splitEdge h v n1 n2 ss).dest (lnext (m.nb h)) = m.apex (m.nb h) := by
    rw [dest_lnext]; exact z3 (m.nb h) u1 u2 (ne_of_tri (y := lnext h) q0) (lprev_ne _).symm
  have o11 : (m.splitEdge h v n1 n2 ss).org (n1, 1) = m.org h := w3
  have d11 : (m.splitEdge h v n1 n2 ss).dest (n1, 1) = v := w1
  have o12' : (m.splitEdge h v n1 n2 ss).org (n1, 2) = v := w1
  have d12' : (m.splitEdge h v n1 n2 ss).dest (n1, 2) = m.apex h := w2
  have o21' : (m.splitEdge h v n1 n2 ss).org (n2, 1) = m.apex (m.nb h) := y3
  have d21' : (m.splitEdge h v n1 n2 ss).dest (n2, 1) = v := y1
  have o22' : (m.splitEdge h v n1 n2 ss).org (n2, 2) = v := y1
  have d22' : (m.splitEdge h v n1 n2 ss).dest (n2, 2) = m.org h := y2
  have old : ∀ {x : TEdge}, live x.1 → ((m.maketriangle n2).maketriangle n1).nb x = m.nb x :=
    fun hx => (three_old hn2 hn1 hx).1
  have out0 : ¬ (live 0 ∨ 0 = n1 ∨ 0 = n2) := by
    rintro (h | h | h)
    exacts [S.out h, h10 h.symm, h20 h.symm]
  have cls : ∀ x' : TEdge, (live x'.1 ∨ x'.1 = n1 ∨ x'.1 = n2) →
      (∃ x : TEdge, (live x.1 ∧ x ≠ h ∧ x ≠ m.nb h) ∧ twoMap m h n1 n2 x = x') ∨
      x' = h ∨ x' = m.nb h ∨ x' = lprev h ∨ x' = lnext (m.nb h) ∨ x' = (n1, 1) ∨ x' = (n1, 2) ∨
        x' = (n2, 1) ∨ x' = (n2, 2) := by
    rintro ⟨t, o⟩ (hx | hx | hx)
    · by_cases e1 : ((t, o) : TEdge) = lprev h
      · simp [e1]
      by_cases e2 : ((t, o) : TEdge) = lnext (m.nb h)
      · simp [e2]
      by_cases e3 : ((t, o) : TEdge) = h
      · simp [e3]
      by_cases e4 : ((t, o) : TEdge) = m.nb h
      · simp [e4]
      exact .inl ⟨_, ⟨hx, e3, e4⟩, twoMap_same e1 e2⟩
    · simp only at hx
      subst hx
      fin_cases o
      · exact .inl ⟨lprev h, ⟨hh, lprev_ne h, ne_of_tri (x := lprev h) q0.symm⟩, v1⟩
      · simp
      · simp
    · simp only at hx
      subst hx
      fin_cases o
      · exact .inl ⟨lnext (m.nb h), ⟨hl, ne_of_tri (x := lnext (m.nb h)) q0, lnext_ne _⟩, v2⟩
      · simp
      · simp
  refine ⟨out0, fun _ hx => hx.1, fun x hx => two_live S hh hs hf hn1 hn2 h10 h20 h12 hx.1, ?_,
    fun x hx => (two_ends S hh hs hf hn1 hn2 h10 h20 h12 ss hx.1 hx.2.1 hx.2.2).1,
    fun x hx => (two_ends S hh hs hf hn1 hn2 h10 h20 h12 ss hx.1 hx.2.1 hx.2.2).2, ?_,
    fun x hx => (g1 x hx.1 hx.2.1 hx.2.2).1, fun x hx hxs => ((g1 x hx.1 hx.2.1 hx.2.2).2 hxs).1,
    fun x hx hxs => ⟨((g1 x hx.1 hx.2.1 hx.2.2).2 hxs).2.1, ((g1 x hx.1 hx.2.1 hx.2.2).2 hxs).2.2.1⟩,
    fun x hx hxs => ((g1 x hx.1 hx.2.1 hx.2.2).2 hxs).2.2.2, hchk, ?_, ?_⟩
  · rintro x ⟨hx, x1, x2⟩ hxs
    refine ⟨S.nb_live hx hxs, ?_, ?_⟩
    · intro h'
      apply x2
      rw [← h', S.nb_nb hx hxs]
    · intro h'
      exact x1 (S.nb_inj hx hh h' hxs)
  · intro x hx
    rw [hnb, hM.nb S' hx, old hx.1]
  · rw [hnb]
    refine bonds_hull (live' := fun t => live t ∨ t = n1 ∨ t = n2) S' hM.apart (fun _ h => Or.inl h) ?_ ?_ ?_
    · intro p hp _
      simp only [twoBonds, List.mem_cons, List.not_mem_nil, or_false] at hp
      rcases hp with rfl | rfl | rfl | rfl | rfl
      exacts [.inr (.inl rfl), .inr (.inl rfl), .inr (.inr rfl), .inr (.inr rfl), .inr (.inr rfl)]
    · intro x hx hxs ht
      rw [old hx] at hxs
      obtain ⟨p, hp, h'⟩ := ht
      have k1 : x.1 ≠ n1 := fun h => hn1 (h ▸ hx)
      have k2 : x.1 ≠ n2 := fun h => hn2 (h ▸ hx)
      have cas : ∀ y : TEdge, live y.1 → x = m.nb y → False := by
        rintro y hy rfl
        rw [S.nb_nb hy (S.ne_space hx)] at hxs
        exact S.ne_space hy hxs
      simp only [twoBonds, List.mem_cons, List.not_mem_nil, or_false] at hp
      rcases hp with rfl | rfl | rfl | rfl | rfl <;> rcases h' with h' | h'
      · exact absurd h' (ne_of_tri k1)
      · exact (cas (lprev h) hh h').elim
      · exact absurd h' (ne_of_tri k1)
      · subst h'
        exact ⟨((n1, 0), m.nb (lprev h)), by simp [twoBonds], hxs⟩
      · exact absurd h' (ne_of_tri k2)
      · exact (cas (lnext (m.nb h)) hl h').elim
      · exact absurd h' (ne_of_tri k2)
      · subst h'
        exact ⟨((n2, 0), m.nb (lnext (m.nb h))), by simp [twoBonds], hxs⟩
      · exact absurd h' (ne_of_tri k2)
      · exact absurd h' (ne_of_tri k1)
    · intro x' hx' hxs
      rw [← hnb] at hxs
      rcases cls x' hx' with ⟨x, hk, rfl⟩ | h' | h' | h' | h' | h' | h' | h' | h'
      · rw [hnb, hM.nb S' hk, old hk.1] at hxs
        split at hxs
        · next h' => exact .inr ⟨x, hk.1, by rw [old hk.1]; exact h'⟩
        · next h' =>
          exfalso
          have hll := two_live S hh hs hf hn1 hn2 h10 h20 h12 (S.nb_live hk.1 h')
          rw [hxs] at hll
          exact out0 hll
      all_goals
        exfalso
        subst h'
      · rw [l7] at hxs; exact hs hxs
      · rw [l8] at hxs; exact S.ne_space hh hxs
      · rw [l2] at hxs; exact h10 (congrArg Prod.fst hxs)
      · rw [l4] at hxs; exact h20 (congrArg Prod.fst hxs)
      · rw [l6] at hxs; exact h20 (congrArg Prod.fst hxs)
      · rw [l1] at hxs; exact S.ne_space (x := lprev h) hh hxs
      · rw [l3] at hxs; exact S.ne_space (x := lnext (m.nb h)) hl hxs
      · rw [l5] at hxs; exact h10 (congrArg Prod.fst hxs)
  · intro x' hx'
    rcases cls x' hx' with h' | h' | h' | h' | h' | h' | h' | h' | h'
    · exact .inl h'
    all_goals
      right
      subst h'
    · refine ⟨.inr ?_, by rw [oh, dh]; exact hv.2.1, ?_, ?_⟩
      · rw [l7, l8, oh, dh, ot, dt]; exact ⟨.inl hl, rfl, rfl, rfl⟩
      · rcases g6 with ⟨-, g, -⟩ | ⟨k, -, g, -⟩
        · exact .inl g
        · exact .inr (g.ok oh dh l7)
      · intro hc
        rcases g6 with ⟨-, g, -⟩ | ⟨k, -, g, -⟩
        · exact g
        · have := S.chk (hchk ▸ hc) _ hh
          exact absurd this (by intro e; exact g.1 (congrArg Prod.fst e))
    · refine ⟨.inr ?_, by rw [ot, dt]; exact hv.2.1.symm, ?_, ?_⟩
      · rw [l8, l7, oh, dh, ot, dt]; exact ⟨.inl hh, rfl, rfl, rfl⟩
      · rcases g6 with ⟨-, -, g, -⟩ | ⟨k, -, g, -⟩
        · exact .inl g
        · exact .inr ((g.swap hs).ok ot dt l8)
      · intro hc
        rcases g6 with ⟨-, -, g, -⟩ | ⟨k, -, g, -⟩
        · exact g
        · have := S.chk (hchk ▸ hc) h hh
          exact absurd this (by intro e; exact g.1 (congrArg Prod.fst e))
    · refine ⟨.inr ?_, by rw [oC, dC]; exact hv.2.2.1.symm, .inl g2, fun _ => g2⟩
      rw [l2, l1, oC, dC, o12', d12']; exact ⟨.inr (.inl rfl), rfl, rfl, rfl⟩
    · refine ⟨.inr ?_, by rw [oD, dD]; exact hv.2.2.2, .inl g3, fun _ => g3⟩
      rw [l4, l3, oD, dD, o21', d21']; exact ⟨.inr (.inr rfl), rfl, rfl, rfl⟩
    · refine ⟨.inr ?_, by rw [o11, d11]; exact hv.1.symm, ?_, ?_⟩
      · rw [l6, l5, o11, d11, o22', d22']; exact ⟨.inr (.inr rfl), rfl, rfl, rfl⟩
      · rcases g6 with ⟨-, -, -, g, -⟩ | ⟨k, -, -, g⟩
        · exact .inl g
        · exact .inr (g.ok o11 d11 l6)
      · intro hc
        rcases g6 with ⟨-, -, -, g, -⟩ | ⟨k, -, g, -⟩
        · exact g
        · have := S.chk (hchk ▸ hc) h hh
          exact absurd this (by intro e; exact g.1 (congrArg Prod.fst e))
    · refine ⟨.inr ?_, by rw [o12', d12']; exact hv.2.2.1, .inl g4, fun _ => g4⟩
      rw [l1, l2, oC, dC, o12', d12']; exact ⟨.inl hh, rfl, rfl, rfl⟩
    · refine ⟨.inr ?_, by rw [o21', d21']; exact hv.2.2.2.symm, .inl g5, fun _ => g5⟩
      rw [l3, l4, oD, dD, o21', d21']; exact ⟨.inl hl, rfl, rfl, rfl⟩
    · refine ⟨.inr ?_, by rw [o22', d22']; exact hv.1, ?_, ?_⟩
      · rw [l5, l6, o11, d11, o22', d22']; exact ⟨.inr (.inl rfl), rfl, rfl, rfl⟩
      · rcases g6 with ⟨-, -, -, -, g⟩ | ⟨k, -, -, g⟩
        · exact .inl g
        · exact .inr ((g.swap (ne_of_tri h20)).ok o22' d22' l5)
      · intro hc
        rcases g6 with ⟨-, -, -, -, g⟩ | ⟨k, -, g, -⟩
        · exact g
        · have := S.chk (hchk ▸ hc) h hh
          exact absurd this (by intro e; exact g.1 (congrArg Prod.fst e))

end

/-! ## A vertex on an outer edge -/

/-- The bonds when an outer edge is split. -/
def oneBonds (m : TMesh K) (h : TEdge) (n1 : Nat) : List (TEdge × TEdge) :=
  [((n1, 0), m.nb (lprev h)), ((n1, 2), lprev h)]

/-- The movement. -/
def oneMap (h : TEdge) (n1 : Nat) (x : TEdge) : TEdge := if x = lprev h then (n1, 0) else x

section
variable {m : TMesh K} {h : TEdge} {v n1 n2 : Nat}

theorem one_nb (hm : (m.nb h).1 = 0) : (m.splitEdge h v n1 n2 none).nb =
    bonds (m.maketriangle n1).nb (oneBonds m h n1) := by
  unfold TMesh.splitEdge
  dsimp only [TMesh.setorg, TMesh.setdest, TMesh.setapex, TMesh.setattr, TMesh.bond]
  simp only [hm, ne_eq, not_true_eq_false, decide_false, Bool.false_eq_true, if_false]
  split
  · simp only [handSub_rest]; rfl
  · rfl

theorem one_apex (hm : (m.nb h).1 = 0) : (m.splitEdge h v n1 n2 none).apex =
    (((((m.maketriangle n1).setorg (n1, 0) (m.apex h)).setdest (n1, 0) (m.org h)).setapex
      (n1, 0) v).setorg h v).apex := by
  unfold TMesh.splitEdge
  dsimp only [TMesh.setorg, TMesh.setdest, TMesh.setapex, TMesh.setattr, TMesh.bond]
  simp only [hm, ne_eq, not_true_eq_false, decide_false, Bool.false_eq_true, if_false]
  split
  · simp only [handSub_rest]
  · rfl

theorem one_sg (hm : (m.nb h).1 = 0) : (m.splitEdge h v n1 n2 none).sg =
    if m.checksegments then ((m.maketriangle n1).handSubs [(lprev h, (n1, 0))]).sg
    else (m.maketriangle n1).sg := by
  unfold TMesh.splitEdge
  dsimp only [TMesh.setorg, TMesh.setdest, TMesh.setapex, TMesh.setattr, TMesh.bond]
  simp only [hm, ne_eq, not_true_eq_false, decide_false, Bool.false_eq_true, if_false]
  split
  swap
  · next hc => rw [if_neg (show ¬ m.checksegments = true from hc)]
  · next hc =>
    rw [if_pos (show m.checksegments = true from hc)]
    simp only [TMesh.handSubs, List.foldl]
    exact (handSub_congr (K := K) (by rfl) (by rfl) _ _).1

theorem one_st (hm : (m.nb h).1 = 0) : (m.splitEdge h v n1 n2 none).st =
    if m.checksegments then ((m.maketriangle n1).handSubs [(lprev h, (n1, 0))]).st
    else (m.maketriangle n1).st := by
  unfold TMesh.splitEdge
  dsimp only [TMesh.setorg, TMesh.setdest, TMesh.setapex, TMesh.setattr, TMesh.bond]
  simp only [hm, ne_eq, not_true_eq_false, decide_false, Bool.false_eq_true, if_false]
  split
  swap
  · next hc => rw [if_neg (show ¬ m.checksegments = true from hc)]
  · next hc =>
    rw [if_pos (show m.checksegments = true from hc)]
    simp only [TMesh.handSubs, List.foldl]
    exact (handSub_congr (K := K) (by rfl) (by rfl) _ _).2

theorem one_rest (hm : (m.nb h).1 = 0) : (m.splitEdge h v n1 n2 none).sorg = m.sorg ∧
    (m.splitEdge h v n1 n2 none).checksegments = m.checksegments ∧
    (m.splitEdge h v n1 n2 none).attr =
      ((m.maketriangle n1).setattr n1 ((m.maketriangle n1).attr h.1)).attr := by
  unfold TMesh.splitEdge
  dsimp only [TMesh.setorg, TMesh.setdest, TMesh.setapex, TMesh.setattr, TMesh.bond]
  simp only [hm, ne_eq, not_true_eq_false, decide_false, Bool.false_eq_true, if_false]
  split
  · simp only [handSub_rest]; exact ⟨rfl, rfl, rfl⟩
  · exact ⟨rfl, rfl, rfl⟩

/-- The corners afterwards. -/
theorem one_corners (hm : (m.nb h).1 = 0) (h1 : h.1 ≠ n1) :
    ((m.splitEdge h v n1 n2 none).apex (n1, 0) = v ∧ (m.splitEdge h v n1 n2 none).apex (n1, 1) = m.apex h ∧
      (m.splitEdge h v n1 n2 none).apex (n1, 2) = m.org h) ∧
    (m.splitEdge h v n1 n2 none).apex (lnext h) = v ∧
    (∀ x : TEdge, x.1 ≠ n1 → x ≠ lnext h → (m.splitEdge h v n1 n2 none).apex x = m.apex x) := by
  rw [one_apex hm]
  obtain ⟨t, o⟩ := h
  simp only at h1
  dsimp only [TMesh.setorg, TMesh.setdest, TMesh.setapex, TMesh.maketriangle, lnext, lprev]
  have e1 : (0 : Fin 3) + 1 = 1 := rfl
  have e2 : (0 : Fin 3) + 2 = 2 := rfl
  rw [e1, e2]
  refine ⟨⟨?_, ?_, ?_⟩, ?_, ?_⟩
  · simp [Function.update, Prod.ext_iff, h1.symm]
  · simp [Function.update, Prod.ext_iff, h1.symm]
  · simp [Function.update, Prod.ext_iff, h1.symm]
  · simp [Function.update, Prod.ext_iff]
  · rintro ⟨a, b⟩ k1 k3
    simp only at k1
    simp [Function.update, k1, k3]

theorem oneMap_val (h : TEdge) (n1 : Nat) : oneMap h n1 (lprev h) = (n1, 0) := if_pos rfl

theorem oneMap_same {x : TEdge} (h1 : x ≠ lprev h) : oneMap h n1 x = x := if_neg h1

variable {live : Nat → Prop} (S : m.Sound live) (hh : live h.1) (hs : m.nb h = space)
  (hn1 : ¬ live n1) (h10 : n1 ≠ 0)
include S hh hs hn1 h10

omit S hh hs h10 in
theorem one_old {x : TEdge} (hx : live x.1) :
    (m.maketriangle n1).nb x = m.nb x ∧ (m.maketriangle n1).sg x = m.sg x := by
  have k1 : x.1 ≠ n1 := fun h => hn1 (h ▸ hx)
  simp [TMesh.maketriangle, k1]

theorem one_facts : h.1 ≠ n1 ∧ (m.nb h).1 = 0 ∧ (m.nb (lprev h)).1 ≠ n1 ∧ (m.nb (lprev h)).1 ≠ h.1 := by
  have : (m.nb (lprev h)).1 ≠ n1 := by
    rcases S.mate (lprev h) hh with hs | hs
    · rw [hs]; exact h10.symm
    · exact fun e => hn1 (e ▸ hs.1)
  exact ⟨fun e => hn1 (e ▸ hh), by rw [hs]; rfl, this, S.nb_ne (x := lprev h) hh⟩

theorem one_apart : Apart (oneBonds m h n1) := by
  obtain ⟨t1, -, c1, c3⟩ := one_facts S hh hs hn1 h10
  refine ⟨?_, ?_⟩
  · unfold oneBonds
    simp only [List.pairwise_cons, List.mem_cons, List.not_mem_nil, or_false, forall_eq,
      List.Pairwise.nil, and_true, false_imp_iff, implies_true]
    exact ⟨by simp, ne_of_tri t1.symm, ne_of_tri c1, fun e => absurd e (ne_of_tri c3)⟩
  · intro p hp
    simp only [oneBonds, List.mem_cons, List.not_mem_nil, or_false] at hp
    rcases hp with rfl | rfl
    · exact ⟨ne_of_tri h10, ne_of_tri c1.symm⟩
    · exact ⟨ne_of_tri h10, ne_of_tri t1.symm⟩

theorem one_moves : Moves (m.maketriangle n1) live [(lprev h, (n1, 0))] (oneBonds m h n1) (oneMap h n1)
    fun x => live x.1 ∧ x ≠ h where
  apart := one_apart S hh hs hn1 h10
  given := by
    intro p hp
    simp only [List.mem_cons, List.not_mem_nil, or_false] at hp
    subst hp
    refine ⟨hh, ?_, oneMap_val h n1⟩
    rw [(one_old hn1 (x := lprev h) hh).1]
    simp [oneBonds]
  casing := by
    obtain ⟨t1, -, c1, c3⟩ := one_facts S hh hs hn1 h10
    intro p hp q hq
    simp only [List.mem_cons, List.not_mem_nil, or_false] at hp hq
    subst hp hq
    rw [(one_old hn1 (x := lprev h) hh).1]; exact ne_of_tri c3
  same := by
    intro x hx
    simp only [List.mem_cons, List.not_mem_nil, or_false, forall_eq] at hx
    exact oneMap_same hx
  was := fun x hx => hx.1
  free := by
    rintro x ⟨hx, -⟩ hL p hp
    have k1 : x.1 ≠ n1 := fun h => hn1 (h ▸ hx)
    simp only [List.mem_cons, List.not_mem_nil, or_false, forall_eq] at hL
    simp only [oneBonds, List.mem_cons, List.not_mem_nil, or_false] at hp
    rcases hp with rfl | rfl
    · refine ⟨ne_of_tri k1, fun _ => ⟨(lprev h, (n1, 0)), by simp, ?_⟩⟩
      rw [(one_old hn1 (x := lprev h) hh).1]
    · exact ⟨ne_of_tri k1, fun e => absurd e hL⟩

/-- The bonds of the new edges. -/
theorem one_links (ss : Option Nat) :
    (m.splitEdge h v n1 n2 ss).nb (n1, 2) = lprev h ∧ (m.splitEdge h v n1 n2 ss).nb (lprev h) = (n1, 2) ∧
    (m.splitEdge h v n1 n2 ss).nb (n1, 1) = space ∧ (m.splitEdge h v n1 n2 ss).nb h = space := by
  obtain ⟨t1, hm, c1, c3⟩ := one_facts S hh hs hn1 h10
  have A := one_apart S hh hs hn1 h10
  rw [(splitEdge_seg m h v n1 n2 ss).1, one_nb hm]
  have p2 := bonds_mem A (m.maketriangle n1).nb (p := ((n1, 2), lprev h)) (by simp [oneBonds])
  refine ⟨p2.1, p2.2 (S.ne_space (x := lprev h) hh), ?_, ?_⟩
  · rw [bonds_other]
    · simp [TMesh.maketriangle]
    · rintro ⟨p, hp, h'⟩
      simp only [oneBonds, List.mem_cons, List.not_mem_nil, or_false] at hp
      rcases hp with rfl | rfl <;> rcases h' with h' | h'
      exacts [by simp at h', ne_of_tri c1.symm h', by simp at h', ne_of_tri t1.symm h']
  · rw [bonds_other, (one_old hn1 hh).1, hs]
    rintro ⟨p, hp, h'⟩
    simp only [oneBonds, List.mem_cons, List.not_mem_nil, or_false] at hp
    rcases hp with rfl | rfl <;> rcases h' with h' | h'
    exacts [ne_of_tri t1 h', ne_of_tri c3.symm h', ne_of_tri t1 h', lprev_ne h h'.symm]

/-- The subsegments afterwards. -/
theorem one_subs {ss : Option Nat} (hss : m.NewSub live h ss) :
    (∀ x : TEdge, live x.1 → x ≠ h →
      (m.splitEdge h v n1 n2 ss).sg (oneMap h n1 x) = m.sg x ∧
      (m.sg x ≠ noSub → (m.splitEdge h v n1 n2 ss).st (m.sg x) = oneMap h n1 x ∧
        (m.splitEdge h v n1 n2 ss).sorg (m.sg x) = m.sorg (m.sg x) ∧
        (m.splitEdge h v n1 n2 ss).sorg (ssym (m.sg x)) = m.sorg (ssym (m.sg x)) ∧
        (m.nb x = space → (m.splitEdge h v n1 n2 ss).st (ssym (m.sg x)) = space))) ∧
    ((m.splitEdge h v n1 n2 ss).sg (lprev h) = noSub ∧ (m.splitEdge h v n1 n2 ss).sg (n1, 2) = noSub) ∧
    ((ss = none ∧ (m.splitEdge h v n1 n2 ss).sg h = noSub ∧ (m.splitEdge h v n1 n2 ss).sg (n1, 1) = noSub) ∨
      ∃ k, ss = some k ∧ SegAt (m.splitEdge h v n1 n2 ss) h space (m.sg h) v (m.dest h) ∧
        SegAt (m.splitEdge h v n1 n2 ss) (n1, 1) space (k, 0) (m.org h) v) := by
  obtain ⟨t1, hm, c1, c3⟩ := one_facts S hh hs hn1 h10
  have v1 := oneMap_val h n1
  obtain ⟨a, b, c, d, e⟩ := hand_subs (mc := m.splitEdge h v n1 n2 none) (L := [(lprev h, (n1, 0))])
    (f := oneMap h n1) S (fun x hx => (one_old hn1 hx).2) (by
      rintro x - - ⟨p, hp, hx⟩
      simp only [List.mem_cons, List.not_mem_nil, or_false] at hp
      subst hp
      simp only at hx
      simp [TMesh.maketriangle, hx]) rfl (by
      intro p hp
      simp only [List.mem_cons, List.not_mem_nil, or_false] at hp
      subst hp
      exact ⟨hh, hn1, ne_of_tri h10⟩) (by simp) (by
      intro p hp
      simp only [List.mem_cons, List.not_mem_nil, or_false] at hp
      subst hp
      exact v1) (by
      intro x hx
      simp only [List.mem_cons, List.not_mem_nil, or_false, forall_eq] at hx
      exact oneMap_same hx) (one_sg hm) (one_st hm)
  have fresh : ∀ o : Fin 3, o ≠ 0 → (m.splitEdge h v n1 n2 none).sg (n1, o) = noSub := by
    intro o ho
    rw [c (n1, o) hn1]
    · simp [TMesh.maketriangle]
    · intro p hp
      simp only [List.mem_cons, List.not_mem_nil, or_false] at hp
      subst hp
      intro e; exact ho (congrArg Prod.snd e)
  have fh : oneMap h n1 h = h := oneMap_same (lprev_ne h).symm
  have bC := b (lprev h, (n1, 0)) (by simp)
  obtain ⟨r1, r2, -⟩ := one_rest (v := v) (n1 := n1) (n2 := n2) hm
  cases ss with
  | none =>
    refine ⟨?_, ⟨bC, fresh 2 (by simp)⟩, .inl ⟨rfl, ?_, fresh 1 (by simp)⟩⟩
    · intro x hx _
      refine ⟨a x hx, fun hxs => ⟨d x hx hxs, by rw [r1], by rw [r1], ?_⟩⟩
      intro hsp
      rcases S.seg x hx with h' | h'
      · exact absurd h' hxs
      · exact e _ (h'.2.2.2.2.2 hsp)
    · have := a h hh
      rw [fh] at this
      rw [this]; exact hss
  | some k =>
    obtain ⟨s1, k0, kf⟩ := hss
    obtain ⟨⟨w1, w2, w3⟩, -, -⟩ := one_corners (v := v) (n2 := n2) hm t1
    have l6 := (one_links (v := v) (n2 := n2) S hh hs hn1 h10 none).2.2.1
    obtain ⟨g1, g2, g3, g4⟩ := seg_subs (mc := m.splitEdge h v n1 n2 none) (f := oneMap h n1) (v := v)
      (k := k) (e := (n1, 1)) (t2 := space) S hh a d e fh (fun h' => absurd hs h') r1 (by
        intro x hx
        have k1 : x.1 ≠ n1 := fun h => hn1 (h ▸ hx)
        unfold oneMap
        split
        · exact ⟨by simp, ne_of_tri h10⟩
        · exact ⟨ne_of_tri k1, S.ne_space hx⟩) (fresh 1 (by simp)) l6 (ne_of_tri h10.symm) w1 s1 k0 kf
    rw [splitEdge_some]
    refine ⟨fun x hx x1 => g1 x hx x1 (by rw [hs]; exact S.ne_space hx), ⟨?_, ?_⟩, .inr ⟨k, rfl, ?_, ?_⟩⟩
    · rw [g2 (lprev h) (ne_of_tri t1) (S.ne_space (x := lprev h) hh)]; exact bC
    · rw [g2 _ (by simp) (ne_of_tri h10)]; exact fresh 2 (by simp)
    · rwa [hs] at g3
    · have : (m.splitEdge h v n1 n2 none).org (n1, 1) = m.org h := w3
      rwa [this] at g4

/-- The ends of the moved edges. -/
theorem one_ends (ss : Option Nat) {x : TEdge} (hx : live x.1) (x1 : x ≠ h) :
    (m.splitEdge h v n1 n2 ss).org (oneMap h n1 x) = m.org x ∧
    (m.splitEdge h v n1 n2 ss).dest (oneMap h n1 x) = m.dest x := by
  obtain ⟨t1, hm, -, -⟩ := one_facts S hh hs hn1 h10
  obtain ⟨⟨w1, w2, w3⟩, z1, z3⟩ := one_corners (v := v) (n2 := n2) hm t1
  unfold TMesh.org TMesh.dest
  rw [(splitEdge_seg m h v n1 n2 ss).2.1]
  have k1 : x.1 ≠ n1 := fun h => hn1 (h ▸ hx)
  by_cases e1 : x = lprev h
  · subst e1
    rw [oneMap_val, lnext_lprev, lprev_lprev]
    exact ⟨w2, w3⟩
  rw [oneMap_same e1]
  refine ⟨z3 (lnext x) k1 ?_, z3 (lprev x) k1 ?_⟩
  · intro h'
    apply x1
    rw [← lprev_lnext x, h', lprev_lnext]
  · intro h'
    apply e1
    rw [← lnext_lprev x, h', lnext_lnext]

theorem one_live {x : TEdge} (hx : live x.1) : live (oneMap h n1 x).1 ∨ (oneMap h n1 x).1 = n1 := by
  unfold oneMap
  split
  · exact .inr rfl
  · exact .inl hx

theorem one_moved {ss : Option Nat} (hss : m.NewSub live h ss)
    (hv : v ≠ m.org h ∧ v ≠ m.dest h ∧ v ≠ m.apex h) :
    Moved m (m.splitEdge h v n1 n2 ss) live (fun t => live t ∨ t = n1) (oneMap h n1)
      fun x => live x.1 ∧ x ≠ h := by
  obtain ⟨t1, hm, c1, c3⟩ := one_facts S hh hs hn1 h10
  have S' : (m.maketriangle n1).Sound live := maketriangle_sound S hn1 h10
  have hM := one_moves S hh hs hn1 h10
  have v1 := oneMap_val h n1
  obtain ⟨⟨w1, w2, w3⟩, z1, z3⟩ := one_corners (v := v) (n2 := n2) hm t1
  obtain ⟨l1, l2, l6, l7⟩ := one_links (v := v) (n2 := n2) S hh hs hn1 h10 ss
  obtain ⟨g1, ⟨g2, g4⟩, g6⟩ := one_subs (v := v) (n2 := n2) S hh hs hn1 h10 hss
  obtain ⟨a1, a2, a3⟩ := S.apex_ne h hh
  have hnb : (m.splitEdge h v n1 n2 ss).nb = bonds (m.maketriangle n1).nb (oneBonds m h n1) := by
    rw [(splitEdge_seg m h v n1 n2 ss).1, one_nb hm]
  have hap := (splitEdge_seg m h v n1 n2 ss).2.1
  have hchk : (m.splitEdge h v n1 n2 ss).checksegments = m.checksegments := by
    rw [(splitEdge_seg m h v n1 n2 ss).2.2.2, (one_rest hm).2.1]
  rw [← hap] at w1 w2 w3 z1 z3
  have oh : (m.splitEdge h v n1 n2 ss).org h = v := z1
  have dh : (m.splitEdge h v n1 n2 ss).dest h = m.dest h := z3 (lprev h) t1 (lnext_ne_lprev h).symm
  have oC : (m.splitEdge h v n1 n2 ss).org (lprev h) = m.apex h := by
    rw [org_lprev]; exact z3 h t1 (lnext_ne h).symm
  have dC : (m.splitEdge h v n1 n2 ss).dest (lprev h) = v := by rw [dest_lprev, oh]
  have o11 : (m.splitEdge h v n1 n2 ss).org (n1, 1) = m.org h := w3
  have d11 : (m.splitEdge h v n1 n2 ss).dest (n1, 1) = v := w1
  have o12' : (m.splitEdge h v n1 n2 ss).org (n1, 2) = v := w1
  have d12' : (m.splitEdge h v n1 n2 ss).dest (n1, 2) = m.apex h := w2
  have old : ∀ {x : TEdge}, live x.1 → (m.maketriangle n1).nb x = m.nb x := fun hx => (one_old hn1 hx).1
  have out0 : ¬ (live 0 ∨ 0 = n1) := by
    rintro (h | h)
    exacts [S.out h, h10 h.symm]
  have cls : ∀ x' : TEdge, (live x'.1 ∨ x'.1 = n1) →
      (∃ x : TEdge, (live x.1 ∧ x ≠ h) ∧ oneMap h n1 x = x') ∨
      x' = h ∨ x' = lprev h ∨ x' = (n1, 1) ∨ x' = (n1, 2) := by
    rintro ⟨t, o⟩ (hx | hx)
    · by_cases e1 : ((t, o) : TEdge) = lprev h
      · simp [e1]
      by_cases e3 : ((t, o) : TEdge) = h
      · simp [e3]
      exact .inl ⟨_, ⟨hx, e3⟩, oneMap_same e1⟩
    · simp only at hx
      subst hx
      fin_cases o
      · exact .inl ⟨lprev h, ⟨hh, lprev_ne h⟩, v1⟩
      · simp
      · simp
  refine ⟨out0, fun _ hx => hx.1, fun x hx => one_live S hh hs hn1 h10 hx.1, ?_,
    fun x hx => (one_ends S hh hs hn1 h10 ss hx.1 hx.2).1,
    fun x hx => (one_ends S hh hs hn1 h10 ss hx.1 hx.2).2, ?_,
    fun x hx => (g1 x hx.1 hx.2).1, fun x hx hxs => ((g1 x hx.1 hx.2).2 hxs).1,
    fun x hx hxs => ⟨((g1 x hx.1 hx.2).2 hxs).2.1, ((g1 x hx.1 hx.2).2 hxs).2.2.1⟩,
    fun x hx hxs => ((g1 x hx.1 hx.2).2 hxs).2.2.2, hchk, ?_, ?_⟩
  · rintro x ⟨hx, x1⟩ hxs
    refine ⟨S.nb_live hx hxs, ?_⟩
    intro h'
    have := S.nb_nb hx hxs
    rw [h', hs] at this
    exact S.ne_space hx this.symm
  · intro x hx
    rw [hnb, hM.nb S' hx, old hx.1]
  · rw [hnb]
    refine bonds_hull (live' := fun t => live t ∨ t = n1) S' hM.apart (fun _ h => Or.inl h) ?_ ?_ ?_
    · intro p hp _
      simp only [oneBonds, List.mem_cons, List.not_mem_nil, or_false] at hp
      rcases hp with rfl | rfl
      exacts [.inr rfl, .inr rfl]
    · intro x hx hxs ht
      rw [old hx] at hxs
      obtain ⟨p, hp, h'⟩ := ht
      have k1 : x.1 ≠ n1 := fun h => hn1 (h ▸ hx)
      have cas : ∀ y : TEdge, live y.1 → x = m.nb y → False := by
        rintro y hy rfl
        rw [S.nb_nb hy (S.ne_space hx)] at hxs
        exact S.ne_space hy hxs
      simp only [oneBonds, List.mem_cons, List.not_mem_nil, or_false] at hp
      rcases hp with rfl | rfl <;> rcases h' with h' | h'
      · exact absurd h' (ne_of_tri k1)
      · exact (cas (lprev h) hh h').elim
      · exact absurd h' (ne_of_tri k1)
      · subst h'
        exact ⟨((n1, 0), m.nb (lprev h)), by simp [oneBonds], hxs⟩
    · intro x' _ _
      exact .inr ⟨h, hh, by rw [old hh]; exact hs⟩
  · intro x' hx'
    have bad : ∀ k, ss = some k → SegAt (m.splitEdge h v n1 n2 ss) h space (m.sg h) v (m.dest h) →
        (m.splitEdge h v n1 n2 ss).checksegments = false → False := by
      intro k _ g hc
      have := S.chk (hchk ▸ hc) h hh
      exact g.1 (congrArg Prod.fst this)
    rcases cls x' hx' with h' | h' | h' | h' | h'
    · exact .inl h'
    all_goals
      right
    · rw [h']
      refine ⟨.inl l7, by rw [oh, dh]; exact hv.2.1, ?_, ?_⟩
      · rcases g6 with ⟨-, g, -⟩ | ⟨k, -, g, -⟩
        · exact .inl g
        · exact .inr (g.ok oh dh l7)
      · intro hc
        rcases g6 with ⟨-, g, -⟩ | ⟨k, hk, g, -⟩
        · exact g
        · exact (bad k hk g hc).elim
    · rw [h']
      refine ⟨.inr ?_, by rw [oC, dC]; exact hv.2.2.symm, .inl g2, fun _ => g2⟩
      rw [l2, l1, oC, dC, o12', d12']; exact ⟨.inr rfl, rfl, rfl, rfl⟩
    · rw [h']
      refine ⟨.inl l6, by rw [o11, d11]; exact hv.1.symm, ?_, ?_⟩
      · rcases g6 with ⟨-, -, g⟩ | ⟨k, -, -, g⟩
        · exact .inl g
        · exact .inr (g.ok o11 d11 l6)
      · intro hc
        rcases g6 with ⟨-, -, g⟩ | ⟨k, hk, g, -⟩
        · exact g
        · exact (bad k hk g hc).elim
    · rw [h']
      refine ⟨.inr ?_, by rw [o12', d12']; exact hv.2.2, .inl g4, fun _ => g4⟩
      rw [l1, l2, oC, dC, o12', d12']; exact ⟨.inl hh, rfl, rfl, rfl⟩

end

end Nikfemm
