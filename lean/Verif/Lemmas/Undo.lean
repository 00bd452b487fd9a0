import Verif.Lemmas.InsertAt
import Verif.Props.Split

/-!
# Lemmas about taking an insertion back
-/

set_option linter.unusedSectionVars false

namespace Nikfemm
variable {K : Type} [Field K] [LinearOrder K] [IsStrictOrderedRing K]

/-- Two meshes agree on the given triangles and subsegments; nothing is said about attributes. -/
structure Agree (live : Nat → Prop) (U : TSub → Prop) (m' m : TMesh K) : Prop where
  nb : ∀ x : TEdge, live x.1 → m'.nb x = m.nb x
  apex : ∀ x : TEdge, live x.1 → m'.apex x = m.apex x
  sg : ∀ x : TEdge, live x.1 → m'.sg x = m.sg x
  st : ∀ s : TSub, U s → m'.st s = m.st s
  sorg : m'.sorg = m.sorg
  chk : m'.checksegments = m.checksegments

section
variable {live : Nat → Prop} {U : TSub → Prop} {m m' m'' : TMesh K}

theorem Agree.refl (m : TMesh K) : Agree live U m m :=
  ⟨fun _ _ => rfl, fun _ _ => rfl, fun _ _ => rfl, fun _ _ => rfl, rfl, rfl⟩

theorem Agree.trans (A : Agree live U m'' m') (B : Agree live U m' m) : Agree live U m'' m :=
  ⟨fun x h => (A.nb x h).trans (B.nb x h), fun x h => (A.apex x h).trans (B.apex x h),
    fun x h => (A.sg x h).trans (B.sg x h), fun s h => (A.st s h).trans (B.st s h), A.sorg.trans B.sorg,
    A.chk.trans B.chk⟩

theorem Agree.org (A : Agree live U m' m) {x : TEdge} (h : live x.1) : m'.org x = m.org x := A.apex (lnext x) h

theorem Agree.dest (A : Agree live U m' m) {x : TEdge} (h : live x.1) : m'.dest x = m.dest x := A.apex (lprev x) h

theorem Agree.bond (A : Agree live U m' m) (a b : TEdge) : Agree live U (m'.bond a b) (m.bond a b) := by
  refine ⟨?_, A.apex, A.sg, A.st, A.sorg, A.chk⟩
  intro x hx
  simp only [TMesh.bond, Function.update_apply]
  split_ifs <;> first | rfl | exact A.nb x hx

theorem Agree.tsbond (A : Agree live U m' m) (e : TEdge) (s : TSub) : Agree live U (m'.tsbond e s) (m.tsbond e s) := by
  refine ⟨A.nb, A.apex, ?_, ?_, A.sorg, A.chk⟩
  · intro x hx
    simp only [TMesh.tsbond, Function.update_apply]
    split_ifs <;> first | rfl | exact A.sg x hx
  · intro t ht
    simp only [TMesh.tsbond, Function.update_apply]
    split_ifs <;> first | rfl | exact A.st t ht

theorem Agree.tsdissolve (A : Agree live U m' m) (e : TEdge) : Agree live U (m'.tsdissolve e) (m.tsdissolve e) := by
  refine ⟨A.nb, A.apex, ?_, A.st, A.sorg, A.chk⟩
  intro x hx
  simp only [TMesh.tsdissolve, Function.update_apply]
  split_ifs <;> first | rfl | exact A.sg x hx

theorem Agree.reattach (A : Agree live U m' m) (e : TEdge) (s : TSub) :
    Agree live U (m'.reattach e s) (m.reattach e s) := by
  unfold TMesh.reattach
  split
  · exact A.tsdissolve e
  · exact A.tsbond e s

theorem Agree.setapex (A : Agree live U m' m) (e : TEdge) (v : Nat) :
    Agree live U (m'.setapex e v) (m.setapex e v) := by
  refine ⟨A.nb, ?_, A.sg, A.st, A.sorg, A.chk⟩
  intro x hx
  simp only [TMesh.setapex, Function.update_apply]
  split_ifs <;> first | rfl | exact A.apex x hx

theorem Agree.setorg (A : Agree live U m' m) (e : TEdge) (v : Nat) : Agree live U (m'.setorg e v) (m.setorg e v) :=
  A.setapex (lnext e) v

theorem Agree.setdest (A : Agree live U m' m) (e : TEdge) (v : Nat) : Agree live U (m'.setdest e v) (m.setdest e v) :=
  A.setapex (lprev e) v

/-- `unflip` does the same to both. -/
theorem Agree.unflip (A : Agree live U m' m) {e : TEdge} (he : live e.1) (hl : live (m.nb e).1) :
    Agree live U (m'.unflip e) (m.unflip e) := by
  have a0 := A.nb e he
  have n1 := A.nb (lprev (m.nb e)) hl
  have n2 := A.nb (lnext (m.nb e)) hl
  have n3 := A.nb (lnext e) he
  have n4 := A.nb (lprev e) he
  have s1 := A.sg (lprev (m.nb e)) hl
  have s2 := A.sg (lnext (m.nb e)) hl
  have s3 := A.sg (lnext e) he
  have s4 := A.sg (lprev e) he
  have c1 := A.org he
  have c2 := A.dest he
  have c3 := A.apex e he
  have c4 := A.apex (m.nb e) hl
  have B : Agree live U
      ((((m'.bond (lprev (m.nb e)) (m.nb (lnext (m.nb e)))).bond (lnext e) (m.nb (lprev (m.nb e)))).bond (lprev e)
        (m.nb (lnext e))).bond (lnext (m.nb e)) (m.nb (lprev e)))
      ((((m.bond (lprev (m.nb e)) (m.nb (lnext (m.nb e)))).bond (lnext e) (m.nb (lprev (m.nb e)))).bond (lprev e)
        (m.nb (lnext e))).bond (lnext (m.nb e)) (m.nb (lprev e))) :=
    (((A.bond _ _).bond _ _).bond _ _).bond _ _
  unfold TMesh.unflip
  dsimp only
  rw [a0, n1, n2, n3, n4, c1, c2, c3, c4]
  refine (((((Agree.setorg ?_ _ _).setdest _ _).setapex _ _).setorg _ _).setdest _ _).setapex _ _
  have key : ∀ p' p : TMesh K, Agree live U p' p → p'.sg = m'.sg → p.sg = m.sg → Agree live U
      (if p'.checksegments then (((p'.reattach (lnext e) (p'.sg (lprev (m.nb e)))).reattach (lprev e)
        (p'.sg (lnext e))).reattach (lnext (m.nb e)) (p'.sg (lprev e))).reattach (lprev (m.nb e))
        (p'.sg (lnext (m.nb e))) else p')
      (if p.checksegments then (((p.reattach (lnext e) (p.sg (lprev (m.nb e)))).reattach (lprev e)
        (p.sg (lnext e))).reattach (lnext (m.nb e)) (p.sg (lprev e))).reattach (lprev (m.nb e))
        (p.sg (lnext (m.nb e))) else p) := by
    intro p' p B h1 h2
    rw [B.chk, h1, h2, s1, s2, s3, s4]
    split
    · exact (((B.reattach _ _).reattach _ _).reattach _ _).reattach _ _
    · exact B
  exact key _ _ B rfl rfl

/-- Edges get back their neighbours and subsegments. -/
def TMesh.putBack (m0 m : TMesh K) (A : List TEdge) : TMesh K :=
  A.foldl (fun m a => (m.bond a (m0.nb a)).tsbond a (m0.sg a)) m

theorem putBack_spec {m0 : TMesh K} (S : m0.Sound live) : ∀ (A : List TEdge) (m : TMesh K), (∀ a ∈ A, live a.1) →
    (∀ x : TEdge, live x.1 → m.nb x = m0.nb x ∨ x ∈ A ∨ m0.nb x ∈ A → (m0.putBack m A).nb x = m0.nb x) ∧
    (m0.putBack m A).apex = m.apex ∧
    (∀ x : TEdge, live x.1 → m.sg x = m0.sg x ∨ x ∈ A → (m0.putBack m A).sg x = m0.sg x) ∧
    (∀ s : TSub, s.1 ≠ 0 → m.st s = m0.st s ∨ (∃ a ∈ A, s = m0.sg a) → (m0.putBack m A).st s = m0.st s) ∧
    (m0.putBack m A).sorg = m.sorg ∧ (m0.putBack m A).checksegments = m.checksegments ∧
    (m0.putBack m A).attr = m.attr := by
  intro A
  induction A with
  | nil =>
    intro m _
    refine ⟨?_, rfl, ?_, ?_, rfl, rfl, rfl⟩
    · rintro x - (h | h | h)
      exacts [h, absurd h (by simp), absurd h (by simp)]
    · rintro x - (h | h)
      exacts [h, absurd h (by simp)]
    · rintro s - (h | ⟨a, h, -⟩)
      exacts [h, absurd h (by simp)]
  | cons a A ih =>
    intro m hA
    have ha := hA a (by simp)
    set m1 := (m.bond a (m0.nb a)).tsbond a (m0.sg a) with hm1
    obtain ⟨i1, i2, i3, i4, i5, i6, i7⟩ := ih m1 (fun b hb => hA b (by simp [hb]))
    refine ⟨?_, i2, ?_, ?_, i5, i6, i7⟩
    · intro x hx h
      refine i1 x hx ?_
      have v : m1.nb x = if x = m0.nb a then a else if x = a then m0.nb a else m.nb x := by
        simp only [hm1, TMesh.bond, TMesh.tsbond, Function.update_apply]
      by_cases e1 : x = m0.nb a
      · left
        rw [v, if_pos e1, e1]
        exact (S.nb_nb ha (by rw [← e1]; exact S.ne_space hx)).symm
      by_cases e2 : x = a
      · left
        rw [v, if_neg e1, if_pos e2, e2]
      have e3 : m0.nb x ≠ a := by
        intro hc
        apply e1
        rw [← hc]
        exact (S.nb_nb hx (by rw [hc]; exact S.ne_space ha)).symm
      rw [v, if_neg e1, if_neg e2]
      rcases h with h | h | h
      · exact .inl h
      · exact .inr (.inl ((List.mem_cons.1 h).resolve_left e2))
      · exact .inr (.inr ((List.mem_cons.1 h).resolve_left e3))
    · intro x hx h
      refine i3 x hx ?_
      have v : m1.sg x = if x = a then m0.sg a else m.sg x := by
        simp only [hm1, TMesh.bond, TMesh.tsbond, Function.update_apply]
      by_cases e2 : x = a
      · left; rw [v, if_pos e2, e2]
      rw [v, if_neg e2]
      rcases h with h | h
      · exact .inl h
      · exact .inr ((List.mem_cons.1 h).resolve_left e2)
    · intro s hs h
      refine i4 s hs ?_
      have v : m1.st s = if s = m0.sg a then a else m.st s := by
        simp only [hm1, TMesh.bond, TMesh.tsbond, Function.update_apply]
      by_cases e2 : s = m0.sg a
      · left
        rw [v, if_pos e2]
        rcases S.seg a ha with h' | h'
        · rw [e2, h'] at hs; exact absurd rfl hs
        · rw [e2, h'.2.1]
      rw [v, if_neg e2]
      rcases h with h | ⟨b, hb, h⟩
      · exact .inl h
      · rcases List.mem_cons.1 hb with rfl | hb
        · exact absurd h e2
        · exact .inr ⟨b, hb, h⟩

end

/-- The subsegments at the triangles, with both of their sides. -/
def TMesh.Used (m : TMesh K) (live : Nat → Prop) (s : TSub) : Prop :=
  ∃ x : TEdge, live x.1 ∧ m.sg x ≠ noSub ∧ (s = m.sg x ∨ s = ssym (m.sg x))

section
variable {m m' : TMesh K} {live live' : Nat → Prop} {h : TEdge} {v n1 n2 : Nat}

theorem TMesh.Used.ne (S : m.Sound live) {s : TSub} (hs : m.Used live s) : s.1 ≠ 0 := by
  obtain ⟨x, hx, h0, h⟩ := hs
  have : (m.sg x).1 ≠ 0 := by
    rcases S.seg x hx with h' | h'
    · exact absurd h' h0
    · exact h'.1
  rcases h with rfl | rfl
  · exact this
  · exact this

/-- Where the subsegments are known after a change. -/
theorem Moved.used {f : TEdge → TEdge} {kept : TEdge → Prop} {m1 : TMesh K} (S : m.Sound live)
    (M : Moved m m1 live live' f kept) (hk : ∀ x : TEdge, live x.1 → m.sg x ≠ noSub → kept x) {A : List TEdge}
    (hf : ∀ x, x ∉ A → f x = x) {s : TSub} (hs : m.Used live s) :
    m1.st s = m.st s ∨ ∃ a ∈ A, s = m.sg a := by
  have own : ∀ x : TEdge, live x.1 → m.sg x ≠ noSub → m1.st (m.sg x) = m.st (m.sg x) ∨ ∃ a ∈ A, m.sg x = m.sg a := by
    intro x hx h0
    by_cases ha : x ∈ A
    · exact .inr ⟨x, ha, rfl⟩
    · left
      rw [M.st x (hk x hx h0) h0, hf x ha]
      rcases S.seg x hx with h' | h'
      · exact absurd h' h0
      · exact h'.2.1.symm
  obtain ⟨x, hx, h0, h | h⟩ := hs
  · rw [h]; exact own x hx h0
  · rw [h]
    rcases S.seg x hx with h' | ⟨z, -, -, -, h5, h6⟩
    · exact absurd h' h0
    by_cases hsp : m.nb x = space
    · left
      rw [h6 hsp, M.stout x (hk x hx h0) h0 hsp]
    · rw [← h5 hsp]
      refine own _ (S.nb_live hx hsp) ?_
      rw [h5 hsp]
      intro hc
      exact z (congrArg Prod.fst hc)

end

/-- If there is an outer edge, outer space knows one. -/
def TMesh.HullOk (m : TMesh K) (live : Nat → Prop) : Prop :=
  (∃ e : TEdge, live e.1 ∧ m.nb e = space) → live (m.nb space).1 ∧ m.nb (m.nb space) = space

section
variable {m m' : TMesh K} {live live' : Nat → Prop} {h : TEdge} {v n1 n2 : Nat}

/-- A mesh that agrees with a consistent one is consistent. -/
theorem Agree.sound (S : m.Sound live) (A : Agree live (m.Used live) m' m) (H : m'.HullOk live) : m'.Sound live where
  out := S.out
  mate := by
    intro x hx
    rw [A.nb x hx]
    rcases S.mate x hx with h | ⟨h1, h2, h3, h4⟩
    · exact .inl h
    · exact .inr ⟨h1, (A.nb _ h1).trans h2, by rw [A.org h1, A.dest hx, h3], by rw [A.org hx, A.dest h1, h4]⟩
  corners := by
    intro x hx
    rw [A.org hx, A.dest hx]
    exact S.corners x hx
  hull := H
  seg := by
    intro x hx
    rw [A.sg x hx]
    by_cases h0 : m.sg x = noSub
    · exact .inl h0
    rcases S.seg x hx with h | ⟨h1, h2, h3, h4, h5, h6⟩
    · exact .inl h
    · refine .inr ⟨h1, ?_, ?_, ?_, ?_, ?_⟩
      · rw [A.st _ ⟨x, hx, h0, .inl rfl⟩, h2]
      · rw [A.sorg, A.dest hx, h3]
      · rw [A.sorg, A.org hx, h4]
      · rw [A.nb x hx]
        intro hs
        rw [A.sg _ (S.nb_live hx hs), h5 hs]
      · rw [A.nb x hx]
        intro hs
        rw [A.st _ ⟨x, hx, h0, .inr rfl⟩, h6 hs]
  chk := by
    rw [A.chk]
    intro h x hx
    rw [A.sg x hx]
    exact S.chk h x hx

/-- What outer space knows after edges got back their neighbours. -/
theorem putBack_space {m0 : TMesh K} (S : m0.Sound live) : ∀ (A : List TEdge) (m : TMesh K), (∀ a ∈ A, live a.1) →
    (∃ a ∈ A, m0.nb a = space ∧ (m0.putBack m A).nb space = a) ∨
    ((∀ a ∈ A, m0.nb a ≠ space) ∧ (m0.putBack m A).nb space = m.nb space) := by
  intro A
  induction A with
  | nil => intro m _; exact .inr ⟨by simp, rfl⟩
  | cons a A ih =>
    intro m hA
    have ha := hA a (by simp)
    set m1 := (m.bond a (m0.nb a)).tsbond a (m0.sg a) with hm1
    have v : m1.nb space = if space = m0.nb a then a else m.nb space := by
      simp only [hm1, TMesh.bond, TMesh.tsbond, Function.update_apply]
      rw [if_neg (S.ne_space ha).symm]
    rcases ih m1 (fun b hb => hA b (by simp [hb])) with ⟨b, h1, h2, h3⟩ | ⟨h1, h2⟩
    · exact .inl ⟨b, by simp [h1], h2, h3⟩
    · by_cases h0 : m0.nb a = space
      · refine .inl ⟨a, by simp, h0, ?_⟩
        show (m0.putBack m1 A).nb space = a
        rw [h2, v, if_pos h0.symm]
      · refine .inr ⟨?_, ?_⟩
        · intro b hb
          rcases List.mem_cons.1 hb with rfl | hb
          · exact h0
          · exact h1 b hb
        · show (m0.putBack m1 A).nb space = _
          rw [h2, v, if_neg (Ne.symm h0)]

/-- When the new triangles are taken away, outer space knows an outer edge of the others. -/
theorem undo_hull {f : TEdge → TEdge} {kept : TEdge → Prop} {m1 mm r : TMesh K} {A : List TEdge} (S : m.Sound live)
    (M : Moved m m1 live live' f kept) (hA : ∀ a ∈ A, live a.1) (hfix : ∀ x, x ∉ A → f x = x)
    (hk : ∀ x : TEdge, live x.1 → m.nb x = space → kept x)
    (ho : ∀ y : TEdge, live' y.1 → m1.nb y = space → ∃ x, kept x ∧ f x = y)
    (hm : ∀ x : TEdge, live' x.1 → m'.nb x = m1.nb x) (hmm : mm.nb = m'.nb) (H : m'.HullOk live')
    (hr : r.nb space = (m.putBack mm A).nb space) (hrr : ∀ x : TEdge, live x.1 → r.nb x = m.nb x) :
    r.HullOk live := by
  rintro ⟨x, hx, hxs⟩
  rw [hrr x hx] at hxs
  rcases putBack_space S A mm hA with ⟨a, h1, h2, h3⟩ | ⟨h1, h2⟩
  · rw [hr, h3]
    exact ⟨hA a h1, (hrr a (hA a h1)).trans h2⟩
  · have hxA : x ∉ A := fun hc => h1 x hc hxs
    have n1 := M.nb x (hk x hx hxs)
    have n2 := M.now x (hk x hx hxs)
    rw [hfix x hxA] at n1 n2
    rw [if_pos hxs] at n1
    obtain ⟨y1, y2⟩ := H ⟨x, n2, (hm x n2).trans n1⟩
    rw [hr, h2, hmm]
    rw [hm _ y1] at y2
    obtain ⟨z, z1, z2⟩ := ho _ y1 y2
    have z3 : m.nb z = space := by
      by_contra hc
      have := M.nb z z1
      rw [z2, y2, if_neg hc] at this
      have h4 := M.now _ (M.closed z z1 hc)
      rw [← this] at h4
      exact M.out h4
    have hzA : z ∉ A := fun hc => h1 z hc z3
    rw [hfix z hzA] at z2
    rw [← z2]
    exact ⟨M.was z z1, (hrr z (M.was z z1)).trans z3⟩

/-- Taking back a flip does this too. -/
theorem unflip_hull {U : TSub → Prop} {e : TEdge} (S : m.Sound live) (he : live e.1) (hs : m.nb e ≠ space)
    (hseg : m.sg e = noSub) (hf : m.apex e ≠ m.apex (m.nb e)) (A : Agree live U m' (m.flip e)) (H : m'.HullOk live) :
    Agree live U (m'.unflip e) m ∧ (m'.unflip e).HullOk live := by
  have hl := S.nb_live he hs
  have hap := rot_apart S he hs hf
  have hown := own_apart S he hs hf
  have hnb : (m.flip e).nb = bonds m.nb (rotBonds m e) := rotate_nb ..
  have e1 : (m.flip e).nb e = m.nb e := (flip_outside S he hs hseg hf).2.1
  have A' : Agree live U (m'.unflip e) m := by
    refine (A.unflip he (by rw [e1]; exact hl)).trans ?_
    obtain ⟨q, hq, -⟩ := unflip_flip S he hs hseg hf
    rw [hq]
    refine ⟨?_, fun _ _ => rfl, fun _ _ => rfl, fun _ _ => rfl, rfl, rfl⟩
    intro x hx
    exact Function.update_of_ne (S.ne_space hx) _ _
  refine ⟨A', ?_⟩
  have bA : (m.flip e).nb (lprev (m.nb e)) = m.nb (lnext e) := by
    rw [hnb]; exact (bonds_mem hap m.nb (p := (lprev (m.nb e), m.nb (lnext e))) (by simp [rotBonds])).1
  have bB : (m.flip e).nb (lnext e) = m.nb (lprev e) := by
    rw [hnb]; exact (bonds_mem hap m.nb (p := (lnext e, m.nb (lprev e))) (by simp [rotBonds])).1
  have bC : (m.flip e).nb (lprev e) = m.nb (lnext (m.nb e)) := by
    rw [hnb]; exact (bonds_mem hap m.nb (p := (lprev e, m.nb (lnext (m.nb e)))) (by simp [rotBonds])).1
  have bD : (m.flip e).nb (lnext (m.nb e)) = m.nb (lprev (m.nb e)) := by
    rw [hnb]
    exact (bonds_mem hap m.nb (p := (lnext (m.nb e), m.nb (lprev (m.nb e)))) (by simp [rotBonds])).1
  rintro ⟨x, hx, hxs⟩
  rw [A'.nb x hx] at hxs
  set P := [(lprev (m.nb e), m.nb (lprev (m.nb e))), (lnext e, m.nb (lnext e)), (lprev e, m.nb (lprev e)),
      (lnext (m.nb e), m.nb (lnext (m.nb e)))] with hP
  have hu : (m'.unflip e).nb = bonds m'.nb P := by
    rw [unflip_nb, A.nb e he, e1, A.nb (lprev (m.nb e)) hl, A.nb (lnext e) he, A.nb (lprev e) he,
      A.nb (lnext (m.nb e)) hl, bA, bB, bC, bD]
  have own : ∀ p ∈ P, p.2 = m.nb p.1 ∧ live p.1.1 := by
    intro p hp
    simp only [hP, List.mem_cons, List.not_mem_nil, or_false] at hp
    rcases hp with rfl | rfl | rfl | rfl
    exacts [⟨rfl, hl⟩, ⟨rfl, he⟩, ⟨rfl, he⟩, ⟨rfl, hl⟩]
  rcases bonds_space hown m'.nb with ⟨p, h1, h2, h3⟩ | ⟨h1, h2⟩
  · obtain ⟨o1, o2⟩ := own p h1
    have : (m'.unflip e).nb space = p.1 := by rw [hu, h3]
    rw [this]
    exact ⟨o2, (A'.nb _ o2).trans (by rw [← o1, h2])⟩
  · have hsp : (m'.unflip e).nb space = m'.nb space := by rw [hu, h2]
    -- the four casings are no outer space
    have cas : ∀ p ∈ rotBonds m e, p.2 ≠ space ∧ (∃ q ∈ P, p.1 = q.1) ∧ ∃ q ∈ P, p.2 = q.2 := by
      intro p hp
      simp only [rotBonds, List.mem_cons, List.not_mem_nil, or_false] at hp
      have g : ∀ q ∈ P, q.2 ≠ space := h1
      simp only [hP, List.mem_cons, List.not_mem_nil, or_false, forall_eq_or_imp, forall_eq] at g
      rcases hp with rfl | rfl | rfl | rfl <;>
        simp [hP, g.1, g.2.1, g.2.2.1, g.2.2.2]
    have unt : ∀ y : TEdge, live y.1 → ((m.flip e).nb y = space ∨ m.nb y = space) →
        ¬ touched (rotBonds m e) y := by
      rintro y hy hys ⟨p, hp, hpy⟩
      obtain ⟨c1, ⟨q, hq, c2⟩, ⟨q', hq', c3⟩⟩ := cas p hp
      obtain ⟨o1, o2⟩ := own q hq
      obtain ⟨o1', o2'⟩ := own q' hq'
      obtain ⟨g1, g2⟩ := bonds_mem hap m.nb hp
      have l1 : live p.1.1 := c2 ▸ o2
      rcases hpy with rfl | rfl
      · rcases hys with h | h
        · rw [hnb, g1] at h; exact c1 h
        · rw [c2, ← o1] at h; exact h1 q hq h
      · rcases hys with h | h
        · rw [hnb, g2 c1] at h; exact S.ne_space l1 h
        · rw [c3, o1', S.nb_nb o2' (o1' ▸ h1 q' hq')] at h
          exact S.ne_space o2' h
    have hxf : m'.nb x = space := by
      rw [A.nb x hx, hnb, bonds_other _ _ (unt x hx (.inr hxs)), hxs]
    obtain ⟨y1, y2⟩ := H ⟨x, hx, hxf⟩
    rw [A.nb _ y1] at y2
    have y3 := unt _ y1 (.inl y2)
    rw [hnb, bonds_other _ _ y3] at y2
    rw [hsp]
    exact ⟨y1, (A'.nb _ y1).trans y2⟩

end

section
variable {m m' : TMesh K} {live live' : Nat → Prop} {h : TEdge} {v n1 n2 : Nat}

/-- Three triangles become one again. -/
theorem undoThree_back (S : m.Sound live) (hh : live h.1) (hn1 : ¬ live n1) (hn2 : ¬ live n2) (h10 : n1 ≠ 0)
    (h20 : n2 ≠ 0) (h12 : n1 ≠ n2) (hv : v ≠ m.org h ∧ v ≠ m.dest h ∧ v ≠ m.apex h)
    (A : Agree (fun t => live t ∨ t = n1 ∨ t = n2) (m.Used live) m' (m.splitThree h v n1 n2)) :
    Agree live (m.Used live) (m'.undoThree h) m ∧ (m'.undoThree h).attr = m'.attr ∧
    (m'.HullOk (fun t => live t ∨ t = n1 ∨ t = n2) → (m'.undoThree h).HullOk live) := by
  have t1 : h.1 ≠ n1 := fun e => hn1 (e ▸ hh)
  have t2 : h.1 ≠ n2 := fun e => hn2 (e ▸ hh)
  have M := three_moved S hh hn1 hn2 h10 h20 h12 hv
  obtain ⟨⟨-, c1, c2⟩, -, -⟩ := splitThree_casing S hh hn1 hn2 h10 h20 h12 hv
  obtain ⟨l1, l2, l3, l4, l5, l6⟩ := three_links (v := v) S hh hn1 hn2 h10 h20 h12
  obtain ⟨⟨-, -, a3⟩, -, -, k⟩ := splitThree_corners (m := m) (v := v) t1 t2 h12
  have r1 : m'.nb (lnext h) = (n1, 2) := (A.nb (lnext h) (.inl hh)).trans l1
  have r2 : m'.nb (lprev h) = (n2, 1) := (A.nb (lprev h) (.inl hh)).trans l6
  have r3 : m'.nb (n1, 0) = m.nb (lnext h) := (A.nb _ (.inr (.inl rfl))).trans c1.nb
  have r4 : m'.nb (n2, 0) = m.nb (lprev h) := (A.nb _ (.inr (.inr rfl))).trans c2.nb
  have r5 : m'.sg (n1, 0) = m.sg (lnext h) := (A.sg _ (.inr (.inl rfl))).trans c1.sg
  have r6 : m'.sg (n2, 0) = m.sg (lprev h) := (A.sg _ (.inr (.inr rfl))).trans c2.sg
  have r7 : m'.dest (n1, 0) = m.apex h := (A.dest (x := (n1, 0)) (.inr (.inl rfl))).trans a3
  have eq : m'.undoThree h = m.putBack (m'.setapex h (m.apex h)) [lnext h, lprev h] := by
    unfold TMesh.undoThree
    dsimp only
    rw [r1, r2]
    have e1 : lnext ((n1, 2) : TEdge) = (n1, 0) := rfl
    have e2 : lprev ((n2, 1) : TEdge) = (n2, 0) := rfl
    rw [e1, e2, r3, r4, r7]
    have e3 : ((m'.setapex h (m.apex h)).bond (lnext h) (m.nb (lnext h))).sg (n1, 0) = m.sg (lnext h) := r5
    rw [e3]
    have e4 : ((((m'.setapex h (m.apex h)).bond (lnext h) (m.nb (lnext h))).tsbond (lnext h) (m.sg (lnext h))).bond
        (lnext (lnext h)) (m.nb (lprev h))).sg (n2, 0) = m.sg (lprev h) := by
      show Function.update m'.sg (lnext h) (m.sg (lnext h)) (n2, 0) = _
      rw [Function.update_of_ne (ne_of_tri t2.symm), r6]
    rw [e4, lnext_lnext]
    rfl
  obtain ⟨p1, p2, p3, p4, p5, p6, p7⟩ := putBack_spec S [lnext h, lprev h] (m'.setapex h (m.apex h)) (by
    intro a ha
    simp only [List.mem_cons, List.not_mem_nil, or_false] at ha
    rcases ha with rfl | rfl <;> exact hh)
  have hfix : ∀ x : TEdge, x ∉ [lnext h, lprev h] → threeMap h n1 n2 x = x := by
    intro x hx
    simp only [List.mem_cons, List.not_mem_nil, or_false, not_or] at hx
    exact threeMap_same hx.1 hx.2
  have back : Agree live (m.Used live) (m.putBack (m'.setapex h (m.apex h)) [lnext h, lprev h]) m := ?_
  · rw [eq]
    refine ⟨back, p7, fun H => ?_⟩
    refine undo_hull (A := [lnext h, lprev h]) (mm := m'.setapex h (m.apex h)) S M ?_ hfix (fun x hx _ => hx) ?_ A.nb rfl H
      rfl back.nb
    · intro a ha
      simp only [List.mem_cons, List.not_mem_nil, or_false] at ha
      rcases ha with rfl | rfl <;> exact hh
    · have z : ∀ (n : Nat) (o : Fin 3), n ≠ 0 → ((n, o) : TEdge) ≠ space := fun n o h0 hc => h0 (congrArg Prod.fst hc)
      obtain ⟨w1, w2⟩ := threeMap_vals h n1 n2
      rintro ⟨t, o⟩ ht hy
      rcases ht with ht | rfl | rfl
      · by_cases e1 : (t, o) = lnext h
        · rw [e1, l1] at hy; exact absurd hy (z _ _ h10)
        by_cases e2 : (t, o) = lprev h
        · rw [e2, l6] at hy; exact absurd hy (z _ _ h20)
        exact ⟨_, ht, threeMap_same e1 e2⟩
      · fin_cases o
        · exact ⟨lnext h, hh, w1⟩
        · exact absurd (l3.symm.trans hy) (z _ _ h20)
        · exact absurd (l2.symm.trans hy) (S.ne_space (x := lnext h) hh)
      · fin_cases o
        · exact ⟨lprev h, hh, w2⟩
        · exact absurd (l5.symm.trans hy) (S.ne_space (x := lprev h) hh)
        · exact absurd (l4.symm.trans hy) (z _ _ h10)
  refine ⟨?_, ?_, ?_, ?_, ?_, ?_⟩
  · intro x hx
    refine p1 x hx ?_
    by_cases h1 : x ∈ [lnext h, lprev h]
    · exact .inr (.inl h1)
    by_cases h2 : m.nb x ∈ [lnext h, lprev h]
    · exact .inr (.inr h2)
    left
    show m'.nb x = _
    rw [A.nb x (.inl hx)]
    have := M.nb x hx
    rw [hfix x h1, hfix _ h2] at this
    rw [this]
    split
    · next h0 => exact h0.symm
    · rfl
  · intro x hx
    rw [p2]
    show Function.update m'.apex h (m.apex h) x = _
    by_cases e : x = h
    · rw [e, Function.update_self]
    · rw [Function.update_of_ne e, A.apex x (.inl hx)]
      exact k x (fun e => hn1 (e ▸ hx)) (fun e => hn2 (e ▸ hx)) e
  · intro x hx
    refine p3 x hx ?_
    by_cases h1 : x ∈ [lnext h, lprev h]
    · exact .inr h1
    left
    show m'.sg x = _
    rw [A.sg x (.inl hx)]
    have := M.sg x hx
    rwa [hfix x h1] at this
  · intro s hs
    refine p4 s (hs.ne S) ?_
    show m'.st s = _ ∨ _
    rw [A.st s hs]
    exact M.used S (fun x hx _ => hx) hfix hs
  · rw [p5]
    exact A.sorg.trans splitThree_rest.1
  · rw [p6]
    exact A.chk.trans splitThree_rest.2.1

/-- Two triangles become one again. -/
theorem undoEdge_one (S : m.Sound live) (hh : live h.1) (hs : m.nb h = space) (hn1 : ¬ live n1) (h10 : n1 ≠ 0)
    (hg : m.sg h = noSub) (hv : v ≠ m.org h ∧ v ≠ m.dest h ∧ v ≠ m.apex h)
    (A : Agree (fun t => live t ∨ t = n1) (m.Used live) m' (m.splitEdge h v n1 n2 none)) :
    Agree live (m.Used live) (m'.undoEdge h) m ∧ (m'.undoEdge h).attr = m'.attr := by
  have t1 : h.1 ≠ n1 := fun e => hn1 (e ▸ hh)
  have hss : m.NewSub live h none := hg
  have M := one_moved (n2 := n2) S hh hs hn1 h10 hss hv
  obtain ⟨-, hm, q1, q2⟩ := one_facts S hh hs hn1 h10
  obtain ⟨-, l2, -, l4⟩ := one_links (v := v) (n2 := n2) S hh hs hn1 h10 none
  obtain ⟨⟨-, -, w3⟩, -, k⟩ := one_corners (v := v) (n2 := n2) hm t1
  have v1 := oneMap_val h n1
  have kp : live (lprev h).1 ∧ lprev h ≠ h := ⟨hh, lprev_ne h⟩
  have r1 : m'.nb (lprev h) = (n1, 2) := (A.nb (lprev h) (.inl hh)).trans l2
  have hfix : ∀ x : TEdge, x ∉ [lprev h] → oneMap h n1 x = x := by
    intro x hx
    simp only [List.mem_cons, List.not_mem_nil, or_false] at hx
    exact oneMap_same hx
  have r3 : m'.nb (n1, 0) = m.nb (lprev h) := by
    rw [A.nb _ (.inr rfl), ← v1, M.nb _ kp]
    split
    · next h0 => exact h0.symm
    · exact hfix _ (by simp only [List.mem_singleton]; exact ne_of_tri q2)
  have r5 : m'.sg (n1, 0) = m.sg (lprev h) := by
    rw [A.sg _ (.inr rfl), ← v1, M.sg _ kp]
  have r7 : m'.dest (n1, 0) = m.org h := (A.dest (x := (n1, 0)) (.inr rfl)).trans w3
  have r8 : m'.nb h = space := (A.nb _ (.inl hh)).trans l4
  have eq : m'.undoEdge h = m.putBack (m'.setorg h (m.org h)) [lprev h] := by
    unfold TMesh.undoEdge
    dsimp only
    rw [r1]
    have e1 : lnext ((n1, 2) : TEdge) = (n1, 0) := rfl
    rw [e1, r3, r7]
    have e3 : ((m'.setorg h (m.org h)).bond (lprev h) (m.nb (lprev h))).sg (n1, 0) = m.sg (lprev h) := r5
    rw [e3, if_pos]
    · rfl
    · show (Function.update (Function.update m'.nb (lprev h) (m.nb (lprev h))) (m.nb (lprev h)) (lprev h) h).1 = 0
      rw [Function.update_of_ne (ne_of_tri q2.symm), Function.update_of_ne (lprev_ne h).symm, r8]
      rfl
  obtain ⟨p1, p2, p3, p4, p5, p6, p7⟩ := putBack_spec S [lprev h] (m'.setorg h (m.org h)) (by
    intro a ha
    simp only [List.mem_cons, List.not_mem_nil, or_false] at ha
    subst ha; exact hh)
  rw [eq]
  refine ⟨⟨?_, ?_, ?_, ?_, ?_, ?_⟩, p7⟩
  · intro x hx
    refine p1 x hx ?_
    by_cases h1 : x ∈ [lprev h]
    · exact .inr (.inl h1)
    by_cases h2 : m.nb x ∈ [lprev h]
    · exact .inr (.inr h2)
    left
    show m'.nb x = _
    rw [A.nb x (.inl hx)]
    by_cases e : x = h
    · rw [e, l4, hs]
    have := M.nb x ⟨hx, e⟩
    rw [hfix x h1, hfix _ h2] at this
    rw [this]
    split
    · next h0 => exact h0.symm
    · rfl
  · intro x hx
    rw [p2]
    show Function.update m'.apex (lnext h) (m.org h) x = _
    by_cases e : x = lnext h
    · rw [e, Function.update_self]; rfl
    · rw [Function.update_of_ne e, A.apex x (.inl hx)]
      exact k x (fun e => hn1 (e ▸ hx)) e
  · intro x hx
    refine p3 x hx ?_
    by_cases h1 : x ∈ [lprev h]
    · exact .inr h1
    left
    show m'.sg x = _
    rw [A.sg x (.inl hx)]
    by_cases e : x = h
    · obtain ⟨-, -, g | ⟨k, g, -⟩⟩ := one_subs (v := v) (n2 := n2) S hh hs hn1 h10 hss
      · rw [e, g.2.1, hg]
      · cases g
    have := M.sg x ⟨hx, e⟩
    rwa [hfix x h1] at this
  · intro s hus
    refine p4 s (hus.ne S) ?_
    show m'.st s = _ ∨ _
    rw [A.st s hus]
    refine M.used S (fun x hx h0 => ⟨hx, ?_⟩) hfix hus
    rintro rfl
    exact h0 hg
  · rw [p5]
    exact A.sorg.trans (one_rest hm).1
  · rw [p6]
    exact A.chk.trans M.chk

/-- Four triangles become two again. -/
theorem undoEdge_two (S : m.Sound live) (hh : live h.1) (hs : m.nb h ≠ space) (hf : m.apex h ≠ m.apex (m.nb h))
    (hn1 : ¬ live n1) (hn2 : ¬ live n2) (h10 : n1 ≠ 0) (h20 : n2 ≠ 0) (h12 : n1 ≠ n2) (hg : m.sg h = noSub)
    (hv : v ≠ m.org h ∧ v ≠ m.dest h ∧ v ≠ m.apex h ∧ v ≠ m.apex (m.nb h))
    (A : Agree (fun t => live t ∨ t = n1 ∨ t = n2) (m.Used live) m' (m.splitEdge h v n1 n2 none)) :
    Agree live (m.Used live) (m'.undoEdge h) m ∧ (m'.undoEdge h).attr = m'.attr ∧
    (m'.HullOk (fun t => live t ∨ t = n1 ∨ t = n2) → (m'.undoEdge h).HullOk live) := by
  obtain ⟨t1, t2, u1, u2, q0, hm, ⟨c1, c2, c3, c4⟩, ⟨d1, d2, d3, d4⟩⟩ :=
    two_facts S hh hs hf hn1 hn2 h10 h20 h12
  have hl := S.nb_live hh hs
  have hss : m.NewSub live h none := hg
  have M := two_moved S hh hs hf hn1 hn2 h10 h20 h12 hss hv
  obtain ⟨l1, l2, l3, l4, l5, l6, l7, l8⟩ := two_links (v := v) S hh hs hf hn1 hn2 h10 h20 h12 none
  obtain ⟨⟨-, -, w3⟩, -, -, -, k⟩ := two_corners (v := v) hm t1 t2 u1 u2 q0 h12
  obtain ⟨v1, v2⟩ := twoMap_vals q0 n1 n2
  have hgn : m.sg (m.nb h) = noSub := by
    rcases S.seg (m.nb h) hl with h' | h'
    · exact h'
    · exfalso
      have h5 := h'.2.2.2.2.1 (by rw [S.nb_nb hh hs]; exact S.ne_space hh)
      rw [S.nb_nb hh hs, hg] at h5
      exact h'.1 (congrArg Prod.fst h5).symm
  have kp1 : live (lprev h).1 ∧ lprev h ≠ h ∧ lprev h ≠ m.nb h := ⟨hh, lprev_ne h, ne_of_tri q0.symm⟩
  have kp2 : live (lnext (m.nb h)).1 ∧ lnext (m.nb h) ≠ h ∧ lnext (m.nb h) ≠ m.nb h :=
    ⟨hl, ne_of_tri q0, lnext_ne _⟩
  have hfix : ∀ x : TEdge, x ∉ [lprev h, lnext (m.nb h)] → twoMap m h n1 n2 x = x := by
    intro x hx
    simp only [List.mem_cons, List.not_mem_nil, or_false, not_or] at hx
    exact twoMap_same hx.1 hx.2
  -- the edges put back are not neighbours of each other
  have hcl : ∀ a ∈ [lprev h, lnext (m.nb h)], m.nb a ∉ [lprev h, lnext (m.nb h)] := by
    have x1 : m.nb (lprev h) ≠ lnext (m.nb h) := by
      intro hc
      obtain ⟨e1, e2⟩ := S.nb_ends (x := lprev h) hh (by rw [hc]; exact S.ne_space (x := lnext (m.nb h)) hl)
      rw [hc, dest_lnext, org_lprev] at e2
      exact hf e2.symm
    intro a ha
    simp only [List.mem_cons, List.not_mem_nil, or_false] at ha
    simp only [List.mem_cons, List.not_mem_nil, or_false, not_or]
    rcases ha with rfl | rfl
    · exact ⟨ne_of_tri (S.nb_ne (x := lprev h) hh), x1⟩
    · refine ⟨?_, ne_of_tri (S.nb_ne (x := lnext (m.nb h)) hl)⟩
      intro hc
      apply x1
      rw [← hc]
      exact S.nb_nb (x := lnext (m.nb h)) hl (by rw [hc]; exact S.ne_space (x := lprev h) hh)
  have r1 : m'.nb (lprev h) = (n1, 2) := (A.nb (lprev h) (.inl hh)).trans l2
  have r2 : m'.nb (lnext (m.nb h)) = (n2, 1) := (A.nb (lnext (m.nb h)) (.inl hl)).trans l4
  have r3 : m'.nb (n1, 0) = m.nb (lprev h) := by
    rw [A.nb _ (.inr (.inl rfl)), ← v1, M.nb _ kp1]
    split
    · next h0 => exact h0.symm
    · exact hfix _ (hcl _ (by simp))
  have r4 : m'.nb (n2, 0) = m.nb (lnext (m.nb h)) := by
    rw [A.nb _ (.inr (.inr rfl)), ← v2, M.nb _ kp2]
    split
    · next h0 => exact h0.symm
    · exact hfix _ (hcl _ (by simp))
  have r5 : m'.sg (n1, 0) = m.sg (lprev h) := by
    rw [A.sg _ (.inr (.inl rfl)), ← v1, M.sg _ kp1]
  have r6 : m'.sg (n2, 0) = m.sg (lnext (m.nb h)) := by
    rw [A.sg _ (.inr (.inr rfl)), ← v2, M.sg _ kp2]
  have r7 : m'.dest (n1, 0) = m.org h := (A.dest (x := (n1, 0)) (.inr (.inl rfl))).trans w3
  have r8 : m'.nb h = m.nb h := (A.nb _ (.inl hh)).trans l7
  have out : ∀ x : TEdge, live x.1 → (m.nb x).1 ≠ n2 := by
    intro x hx
    rcases S.mate x hx with hs | hs
    · rw [hs]; exact h20.symm
    · exact fun e => hn2 (e ▸ hs.1)
  have eq : m'.undoEdge h = m.putBack ((m'.setorg h (m.org h)).setorg (lnext (m.nb h)) (m.org h))
      [lprev h, lnext (m.nb h)] := by
    unfold TMesh.undoEdge
    dsimp only
    rw [r1]
    have e1 : lnext ((n1, 2) : TEdge) = (n1, 0) := rfl
    rw [e1, r3, r7]
    have e3 : ((m'.setorg h (m.org h)).bond (lprev h) (m.nb (lprev h))).sg (n1, 0) = m.sg (lprev h) := r5
    rw [e3]
    set m2 := ((m'.setorg h (m.org h)).bond (lprev h) (m.nb (lprev h))).tsbond (lprev h) (m.sg (lprev h)) with hm2
    have nb2 : ∀ x : TEdge, x ≠ lprev h → x ≠ m.nb (lprev h) → m2.nb x = m'.nb x := by
      intro x h1 h2
      show Function.update (Function.update m'.nb (lprev h) (m.nb (lprev h))) (m.nb (lprev h)) (lprev h) x = _
      rw [Function.update_of_ne h2, Function.update_of_ne h1]
    have e4 : m2.nb h = m.nb h := by
      rw [nb2 h (lprev_ne h).symm (ne_of_tri (S.nb_ne (x := lprev h) hh).symm), r8]
    have e5 : m2.nb (lnext (m.nb h)) = (n2, 1) := by
      rw [nb2 (lnext (m.nb h)) (ne_of_tri q0) ?_, r2]
      intro hc
      exact hcl (lprev h) (by simp) (by rw [← hc]; simp)
    have e6 : lprev ((n2, 1) : TEdge) = (n2, 0) := rfl
    have e7 : m2.nb (n2, 0) = m.nb (lnext (m.nb h)) := by
      rw [nb2 _ (ne_of_tri t2.symm) (ne_of_tri (out (lprev h) hh).symm), r4]
    rw [e4, if_neg hm, e5, e6, e7]
    have e8 : ((m2.setorg (lnext (m.nb h)) (m.org h)).bond (lnext (m.nb h)) (m.nb (lnext (m.nb h)))).sg (n2, 0) =
        m.sg (lnext (m.nb h)) := by
      show Function.update m'.sg (lprev h) (m.sg (lprev h)) (n2, 0) = _
      rw [Function.update_of_ne (ne_of_tri t2.symm), r6]
    rw [e8]
    rfl
  obtain ⟨p1, p2, p3, p4, p5, p6, p7⟩ := putBack_spec S [lprev h, lnext (m.nb h)]
    ((m'.setorg h (m.org h)).setorg (lnext (m.nb h)) (m.org h)) (by
    intro a ha
    simp only [List.mem_cons, List.not_mem_nil, or_false] at ha
    rcases ha with rfl | rfl
    · exact hh
    · exact hl)
  have back : Agree live (m.Used live) (m.putBack ((m'.setorg h (m.org h)).setorg (lnext (m.nb h)) (m.org h))
      [lprev h, lnext (m.nb h)]) m := ?_
  · rw [eq]
    refine ⟨back, p7, fun H => ?_⟩
    refine undo_hull (A := [lprev h, lnext (m.nb h)])
      (mm := (m'.setorg h (m.org h)).setorg (lnext (m.nb h)) (m.org h)) S M ?_ hfix ?_ ?_ A.nb rfl H rfl back.nb
    · intro a ha
      simp only [List.mem_cons, List.not_mem_nil, or_false] at ha
      rcases ha with rfl | rfl
      · exact hh
      · exact hl
    · intro x hx hxs
      refine ⟨hx, ?_, ?_⟩
      · rintro rfl; exact hs hxs
      · rintro rfl; rw [S.nb_nb hh hs] at hxs; exact S.ne_space hh hxs
    · have z : ∀ (n : Nat) (o : Fin 3), n ≠ 0 → ((n, o) : TEdge) ≠ space := fun n o h0 hc => h0 (congrArg Prod.fst hc)
      rintro ⟨t, o⟩ ht hy
      rcases ht with ht | rfl | rfl
      · by_cases e1 : (t, o) = lprev h
        · rw [e1, l2] at hy; exact absurd hy (z _ _ h10)
        by_cases e2 : (t, o) = lnext (m.nb h)
        · rw [e2, l4] at hy; exact absurd hy (z _ _ h20)
        refine ⟨_, ⟨ht, ?_, ?_⟩, twoMap_same e1 e2⟩
        · intro hc; rw [hc, l7] at hy; exact hs hy
        · intro hc; rw [hc, l8] at hy; exact S.ne_space hh hy
      · fin_cases o
        · exact ⟨_, kp1, v1⟩
        · exact absurd (l6.symm.trans hy) (z _ _ h20)
        · exact absurd (l1.symm.trans hy) (S.ne_space (x := lprev h) hh)
      · fin_cases o
        · exact ⟨_, kp2, v2⟩
        · exact absurd (l3.symm.trans hy) (S.ne_space (x := lnext (m.nb h)) hl)
        · exact absurd (l5.symm.trans hy) (z _ _ h10)
  refine ⟨?_, ?_, ?_, ?_, ?_, ?_⟩
  · intro x hx
    refine p1 x hx ?_
    by_cases h1 : x ∈ [lprev h, lnext (m.nb h)]
    · exact .inr (.inl h1)
    by_cases h2 : m.nb x ∈ [lprev h, lnext (m.nb h)]
    · exact .inr (.inr h2)
    left
    show m'.nb x = _
    rw [A.nb x (.inl hx)]
    by_cases e : x = h
    · rw [e, l7]
    by_cases e' : x = m.nb h
    · rw [e', l8, S.nb_nb hh hs]
    have := M.nb x ⟨hx, e, e'⟩
    rw [hfix x h1, hfix _ h2] at this
    rw [this]
    split
    · next h0 => exact h0.symm
    · rfl
  · intro x hx
    rw [p2]
    show Function.update (Function.update m'.apex (lnext h) (m.org h)) (lnext (lnext (m.nb h))) (m.org h) x = _
    rw [lnext_lnext]
    by_cases e' : x = lprev (m.nb h)
    · rw [e', Function.update_self]; exact ((S.nb_ends hh hs).2).symm
    rw [Function.update_of_ne e']
    by_cases e : x = lnext h
    · rw [e, Function.update_self]; rfl
    · rw [Function.update_of_ne e, A.apex x (.inl hx)]
      exact k x (fun e => hn1 (e ▸ hx)) (fun e => hn2 (e ▸ hx)) e e'
  · intro x hx
    refine p3 x hx ?_
    by_cases h1 : x ∈ [lprev h, lnext (m.nb h)]
    · exact .inr h1
    left
    show m'.sg x = _
    rw [A.sg x (.inl hx)]
    obtain ⟨-, -, g | ⟨k, g, -⟩⟩ := two_subs (v := v) S hh hs hf hn1 hn2 h10 h20 h12 hss
    · by_cases e : x = h
      · rw [e, g.2.1, hg]
      by_cases e' : x = m.nb h
      · rw [e', g.2.2.1, hgn]
      have := M.sg x ⟨hx, e, e'⟩
      rwa [hfix x h1] at this
    · cases g
  · intro s hus
    refine p4 s (hus.ne S) ?_
    show m'.st s = _ ∨ _
    rw [A.st s hus]
    refine M.used S (fun x hx h0 => ⟨hx, ?_, ?_⟩) hfix hus
    · rintro rfl
      exact h0 hg
    · rintro rfl
      exact h0 hgn
  · rw [p5]
    exact A.sorg.trans (two_rest hm).1
  · rw [p6]
    exact A.chk.trans M.chk

end

end Nikfemm
