import Verif.Lemmas.Rim

/-!
# The recursion of `triangulatepolygon`
-/

set_option linter.unusedSectionVars false

namespace Nikfemm
variable {K : Type} [Field K] [LinearOrder K] [IsStrictOrderedRing K]

/-- The triangles with the numbers from `i` to `j - 1`. -/
def seg (h : Nat → TEdge) (i j : Nat) : List (Nat × TEdge) := (List.range' i (j - i)).map fun s => (s, h s)

theorem seg_cons (h : Nat → TEdge) {i j : Nat} (hij : i < j) : seg h i j = (i, h i) :: seg h (i + 1) j := by
  unfold seg
  rw [show j - i = (j - (i + 1)) + 1 by omega, List.range'_succ, List.map_cons]

theorem seg_append (h : Nat → TEdge) {i b j : Nat} (h1 : i ≤ b) (h2 : b ≤ j) : seg h i j = seg h i b ++ seg h b j := by
  unfold seg
  rw [← List.map_append]
  congr 1
  have := List.range'_append_1 (s := i) (m := b - i) (n := j - b)
  rw [show i + (b - i) = b by omega] at this
  rw [this]
  congr 1
  omega

theorem seg_self (h : Nat → TEdge) (i : Nat) : seg h i i = [] := by
  unfold seg; simp

theorem seg_one (h : Nat → TEdge) (i : Nat) : seg h i (i + 1) = [(i, h i)] := by
  rw [seg_cons h (Nat.lt_succ_self i), seg_self]

theorem mem_seg {h : Nat → TEdge} {i j : Nat} {p : Nat × TEdge} : p ∈ seg h i j ↔ ∃ s, i ≤ s ∧ s < j ∧ p = (s, h s) := by
  unfold seg
  simp only [List.mem_map, List.mem_range'_1]
  constructor
  · rintro ⟨s, hs, rfl⟩; exact ⟨s, hs.1, by omega, rfl⟩
  · rintro ⟨s, h1, h2, rfl⟩; exact ⟨s, ⟨h1, by omega⟩, rfl⟩

theorem chain_at {α : Type} {r : α → α → Prop} {A B : List α} {p q : α} (h : (A ++ p :: q :: B).IsChain r) : r p q := by
  rw [List.isChain_append, List.isChain_cons_cons] at h
  exact h.2.1.1

theorem seg_chain {r : Nat × TEdge → Nat × TEdge → Prop} {h : Nat → TEdge} {i j : Nat}
    (hr : ∀ s, i ≤ s → s + 1 < j → r (s, h s) (s + 1, h (s + 1))) : (seg h i j).IsChain r := by
  obtain ⟨n, hn⟩ : ∃ n, n = j - i := ⟨_, rfl⟩
  induction n generalizing i with
  | zero =>
    have : seg h i j = [] := by unfold seg; rw [← hn]; rfl
    rw [this]; simp
  | succ n ih =>
    rw [seg_cons h (by omega)]
    by_cases hl : i + 1 < j
    · have := ih (i := i + 1) (fun s h1 h2 => hr s (by omega) h2) (by omega)
      rw [seg_cons h hl] at this ⊢
      rw [List.isChain_cons_cons]
      exact ⟨hr i le_rfl hl, this⟩
    · have : seg h (i + 1) j = [] := by unfold seg; rw [show j - (i + 1) = 0 by omega]; rfl
      rw [this]; simp

/-- The loop finds the vertex whose circle through the base has no other vertex inside. -/
theorem seekBest_spec {m : TMesh K} {pos : Nat → Vec K} {v : Vec K} {Y : Nat → Nat} {k : Nat} {h : Nat → TEdge}
    (L : Umbrella v (fun s => pos (Y s)) k) {i j : Nat} (hj : j < i + k)
    (hop : ∀ s, i ≤ s → s + 1 < j → m.onext (h s) = h (s + 1)) (hd : ∀ s, i ≤ s → s < j → m.dest (h s) = Y s) :
    ∀ n t b, t + n + 1 = j → i < b → b ≤ t →
      (∀ s, i < s → s ≤ t → incircle (pos (Y j)) (pos (Y i)) (pos (Y b)) (pos (Y s)) ≤ 0) →
      ∃ b', i < b' ∧ b' < j ∧ m.seekBest pos (Y j) (Y i) n (t + 1 - i) (h t) (h b, b - i) = (h b', b' - i) ∧
        ∀ s, i < s → s < j → incircle (pos (Y j)) (pos (Y i)) (pos (Y b')) (pos (Y s)) ≤ 0 := by
  intro n
  induction n with
  | zero =>
    intro t b ht h1 h2 h3
    exact ⟨b, h1, by omega, rfl, fun s hs1 hs2 => h3 s hs1 (by omega)⟩
  | succ n ih =>
    intro t b ht h1 h2 h3
    have e1 := hop t (by omega) (by omega)
    have e2 := hd b (by omega) (by omega)
    have e3 := hd (t + 1) (by omega) (by omega)
    unfold TMesh.seekBest
    simp only [e1, e2, e3]
    split
    · next hin =>
      rw [show t + 1 - i + 1 = t + 1 + 1 - i by omega]
      refine ih (t + 1) (t + 1) (by omega) (by omega) le_rfl ?_
      intro s hs1 hs2
      by_cases hs : s = t + 1
      · subst hs
        apply le_of_eq
        unfold incircle; ring
      · exact L.better (c := t + 1) hj ⟨h1, by omega⟩ ⟨by omega, by omega⟩ ⟨hs1, by omega⟩ (h3 s hs1 (by omega)) hin
    · next hin =>
      rw [show t + 1 - i + 1 = t + 1 + 1 - i by omega]
      refine ih (t + 1) b (by omega) h1 (by omega) ?_
      intro s hs1 hs2
      by_cases hs : s = t + 1
      · subst hs
        exact not_lt.1 hin
      · exact h3 s hs1 (by omega)

section
variable {m0 : TMesh K} {live : Nat → Prop} {T : Finset Nat} {pos : Nat → Vec K} {v : Nat} {Y : Nat → Nat} {k : Nat}
  {d : TEdge} {h : Nat → TEdge} (hT : ∀ t, live t ↔ t ∈ T) (L : Umbrella (pos v) (fun s => pos (Y s)) k)
include hT L

set_option maxHeartbeats 1000000 in
/-- Filling the polygon with the base from `Y j` to `Y i`. -/
theorem polygon_run : ∀ n i j, 1 ≤ i → i + 2 ≤ j → j ≤ k → j - i ≤ n →
    (j + 1 = i + k ∨ ∃ q, j < q ∧ q < i + k ∧ ∀ s, incircle (pos (Y i)) (pos (Y j)) (pos (Y q)) (pos (Y s)) ≤ 0) →
    ∀ (m : TMesh K) (pre post : List (Nat × TEdge)) (l : Tested), pre ≠ [] →
    Rim m0 live T pos v Y k d m (pre ++ (seg h i j ++ post)) l →
    (∃ z, (post ++ [(k, d)]).head? = some (j, z)) →
    (∃ m' l' b g1 g2, TMesh.triangulatepolygon pos n m (h i) (h (j - 1)) (j - i + 1) false l = some (m', l') ∧
      i < b ∧ b < j ∧ (∀ s, incircle (pos (Y i)) (pos (Y b)) (pos (Y j)) (pos (Y s)) ≤ 0) ∧
      0 < ccw (pos (Y i)) (pos (Y b)) (pos (Y j)) ∧
      Rim m0 live T pos v Y k d m' (pre ++ (i, g1) :: (b, g2) :: post) l') ∧
    (∃ m' l' g, TMesh.triangulatepolygon pos n m (h i) (h (j - 1)) (j - i + 1) true l = some (m', l') ∧
      Rim m0 live T pos v Y k d m' (pre ++ (i, g) :: post) l') := by
  intro n
  induction n with
  | zero => intro i j h1 h2 h3 h4; omega
  | succ n ih =>
    intro i j h1 h2 h3 h4 inv m pre post l hpre R hpost
    obtain ⟨z, hz⟩ := hpost
    obtain ⟨tl, htl⟩ : ∃ tl, post ++ [(k, d)] = (j, z) :: tl := by
      cases hh : post ++ [(k, d)] with
      | nil => rw [hh] at hz; simp at hz
      | cons a tl => rw [hh] at hz; simp at hz; exact ⟨tl, by rw [hz]⟩
    have hL3 := L.three
    have ch := R.chain
    have hop : ∀ s, i ≤ s → s + 1 < j → RimNext pos Y m (s, h s) (s + 1, h (s + 1)) := by
      intro s hs1 hs2
      rw [seg_append h hs1 (by omega : s ≤ j), seg_cons h (by omega : s < j), seg_cons h hs2] at ch
      refine chain_at (A := pre ++ seg h i s) (B := seg h (s + 1 + 1) j ++ (post ++ [(k, d)])) ?_
      simpa [List.append_assoc] using ch
    have hea : ∀ s, i ≤ s → s < j → live (h s).1 ∧ m.dest (h s) = Y s := by
      intro s hs1 hs2
      obtain ⟨q1, -, q2, -⟩ := R.each (s, h s) (by
        simp only [List.mem_append]
        exact .inr (.inl (mem_seg.2 ⟨s, hs1, hs2, rfl⟩)))
      exact ⟨q1, q2⟩
    have hlast : m.apex (h (j - 1)) = Y j := by
      have : RimNext pos Y m (j - 1, h (j - 1)) (j, z) := by
        rw [seg_append h (by omega : i ≤ j - 1) (by omega : j - 1 ≤ j), seg_cons h (by omega : j - 1 < j),
          show j - 1 + 1 = j by omega, seg_self] at ch
        refine chain_at (A := pre ++ seg h i (j - 1)) (B := tl) ?_
        simpa [List.append_assoc, htl] using ch
      exact this.1
    obtain ⟨b, b1, b2, hseek, best⟩ := seekBest_spec (m := m) L (i := i) (j := j) (h := h) (by omega)
      (fun s hs1 hs2 => (hop s hs1 hs2).2.1) (fun s hs1 hs2 => (hea s hs1 hs2).2) (j - i + 1 - 3) (i + 1) (i + 1) (by clear inv; omega)
      (by omega) le_rfl (by
        intro s hs1 hs2
        have : s = i + 1 := by omega
        subst this
        apply le_of_eq
        unfold incircle; ring)
    rw [show i + 1 + 1 - i = 2 by omega, show i + 1 - i = 1 by omega] at hseek
    obtain ⟨empty, cc⟩ := L.choice (i := i) (j := j) (b := b) (by omega) ⟨b1, b2⟩ best inv
    clear inv
    -- the polygon on the right
    have right : ∃ m1 l1 g1, (if 1 < b - i then TMesh.triangulatepolygon pos n m (h i) (m.oprev (h b)) (b - i + 1) true l
        else some (m, l)) = some (m1, l1) ∧ Rim m0 live T pos v Y k d m1 (pre ++ (i, g1) :: (seg h b j ++ post)) l1 := by
      by_cases hb : 1 < b - i
      · rw [if_pos hb]
        have e1 : m.oprev (h b) = h (b - 1) := by
          have := (hop (b - 1) (by omega) (by omega)).2.1
          simp only [show b - 1 + 1 = b by omega] at this
          unfold TMesh.oprev
          rw [← this, R.sound.nb_nb (x := lprev (h (b - 1))) (hea (b - 1) (by omega) (by omega)).1
            (by rw [this]; exact R.sound.ne_space (hea b (by omega) (by omega)).1), lnext_lprev]
        rw [e1]
        have R' := R
        rw [seg_append h (by omega : i ≤ b) (by omega : b ≤ j), List.append_assoc] at R'
        obtain ⟨m1, l1, g, r1, r2⟩ := (ih i b h1 (by omega) (by omega) (by omega)
          (.inr ⟨j, b2, by omega, empty⟩) m pre (seg h b j ++ post) l hpre R'
          ⟨h b, by rw [seg_cons h b2]; rfl⟩).2
        exact ⟨m1, l1, g, r1, r2⟩
      · rw [if_neg hb]
        have hb' : b = i + 1 := by omega
        have R' := R
        rw [seg_append h (by omega : i ≤ b) (by omega : b ≤ j), hb', seg_one, List.append_assoc] at R'
        exact ⟨m, l, h i, rfl, by rw [hb']; exact R'⟩
    obtain ⟨m1, l1, g1, e1, R1⟩ := right
    have nb1 : m1.nb (lprev g1) = h b := by
      have ch1 := R1.chain
      rw [seg_cons h b2] at ch1
      have : RimNext pos Y m1 (i, g1) (b, h b) := by
        refine chain_at (A := pre) (B := seg h (b + 1) j ++ (post ++ [(k, d)])) ?_
        simpa [List.append_assoc] using ch1
      exact this.2.1
    have lg1 : live g1.1 := (R1.each (i, g1) (by simp)).1
    have lhb : live (h b).1 := (hea b (by omega) (by omega)).1
    -- the polygon on the left
    have left : ∃ m2 l2 g2, (if b - i < j - i + 1 - 2 then
          (TMesh.triangulatepolygon pos n m1 (h b) (h (j - 1)) (j - i + 1 - (b - i)) true l1).map
            fun r => (r.1, r.1.nb (m1.nb (h b)), r.2)
        else some (m1, h b, l1)) = some (m2, g2, l2) ∧
        Rim m0 live T pos v Y k d m2 (pre ++ (i, g1) :: (b, g2) :: post) l2 := by
      by_cases hb : b - i < j - i + 1 - 2
      · rw [if_pos hb, show j - i + 1 - (b - i) = j - b + 1 by omega]
        have R' := R1
        rw [show pre ++ (i, g1) :: (seg h b j ++ post) = (pre ++ [(i, g1)]) ++ (seg h b j ++ post) by simp] at R'
        obtain ⟨m2, l2, g2, r1, r2⟩ := (ih b j (by omega) (by omega) h3 (by omega)
          (.inr ⟨i + k, by omega, by omega, fun s => by
            have p : pos (Y (i + k)) = pos (Y i) := L.period i
            rw [p]
            have e : incircle (pos (Y b)) (pos (Y j)) (pos (Y i)) (pos (Y s)) =
              incircle (pos (Y i)) (pos (Y b)) (pos (Y j)) (pos (Y s)) := by unfold incircle; ring
            rw [e]; exact empty s⟩) m1 (pre ++ [(i, g1)]) post l1 (by simp) R' ⟨z, hz⟩).2
        rw [show pre ++ [(i, g1)] ++ (b, g2) :: post = pre ++ (i, g1) :: (b, g2) :: post by simp] at r2
        have nb2 : m2.nb (lprev g1) = g2 := by
          have ch1 := r2.chain
          have : RimNext pos Y m2 (i, g1) (b, g2) := by
            refine chain_at (A := pre) (B := post ++ [(k, d)]) ?_
            simpa [List.append_assoc] using ch1
          exact this.2.1
        refine ⟨m2, l2, g2, ?_, r2⟩
        rw [r1, Option.map_some]
        have : m1.nb (h b) = lprev g1 := by
          rw [← nb1, R1.sound.nb_nb (x := lprev g1) lg1 (by rw [nb1]; exact R1.sound.ne_space lhb)]
        rw [this, nb2]
      · rw [if_neg hb]
        have hb' : j = b + 1 := by omega
        have R' := R1
        rw [hb', seg_one] at R'
        exact ⟨m1, l1, h b, rfl, R'⟩
    obtain ⟨m2, l2, g2, e2, R2⟩ := left
    have run : ∀ fl, TMesh.triangulatepolygon pos (n + 1) m (h i) (h (j - 1)) (j - i + 1) fl l =
        some (if fl then
          ((m2.flip g2, (((m2.flip g2).nb g2), (m2.flip g2).org ((m2.flip g2).nb g2), (m2.flip g2).dest ((m2.flip g2).nb g2),
            (m2.flip g2).apex ((m2.flip g2).nb g2)) :: l2)) else (m2, l2)) := by
      intro fl
      unfold TMesh.triangulatepolygon
      simp only [hlast, (hea i le_rfl (by omega)).2,
        show m.onext (h i) = h (i + 1) from (hop i le_rfl (by omega)).2.1, hseek, e1, Option.bind_some, e2, Option.map_some]
    refine ⟨⟨m2, l2, b, g1, g2, run false, b1, b2, empty, cc, R2⟩, ?_⟩
    obtain ⟨q1, q2, q3⟩ := R2.flip hT hpre ⟨z, hz⟩ (fun h => L.ne (a := i) (b := j) (by omega) (by omega) (congrArg pos h)) cc empty
    refine ⟨_, _, lprev g2, run true, ?_⟩
    unfold TMesh.corners at q2
    simp only [Prod.mk.injEq] at q2
    rw [q1, q2.1, q2.2.1, q2.2.2]
    exact q3

end

end Nikfemm
