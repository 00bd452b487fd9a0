import Verif.Spec.DivideConquer
import Verif.Lemmas.Flip
import Mathlib.Data.Finset.Image
import Mathlib.Data.Finset.Insert
import Mathlib.Data.Fintype.Pigeonhole
import Mathlib.Logic.Function.Iterate
import Mathlib.Tactic

/-!
# Lemmas about ghost triangles
-/

set_option linter.unusedSectionVars false

namespace Nikfemm
variable {K : Type}

namespace Ghosts

theorem lnext_fst (e : TEdge) : (lnext e).1 = e.1 := rfl
theorem lprev_fst (e : TEdge) : (lprev e).1 = e.1 := rfl

theorem lnext_lprev' (e : TEdge) : lnext (lprev e) = e := by
  obtain ⟨t, i⟩ := e; simp only [lnext, lprev, Prod.mk.injEq, true_and]; revert i; decide
theorem lprev_lnext' (e : TEdge) : lprev (lnext e) = e := by
  obtain ⟨t, i⟩ := e; simp only [lnext, lprev, Prod.mk.injEq, true_and]; revert i; decide
theorem lnext_lnext' (e : TEdge) : lnext (lnext e) = lprev e := by
  obtain ⟨t, i⟩ := e; simp only [lnext, lprev, Prod.mk.injEq, true_and]; revert i; decide
theorem lprev_lprev' (e : TEdge) : lprev (lprev e) = lnext e := by
  obtain ⟨t, i⟩ := e; simp only [lnext, lprev, Prod.mk.injEq, true_and]; revert i; decide

/-- two edges of a triangle: the same, or one follows the other -/
theorem same_tri {x y : TEdge} (h : x.1 = y.1) : x = y ∨ x = lnext y ∨ x = lprev y := by
  obtain ⟨t, i⟩ := x; obtain ⟨t', j⟩ := y
  simp only at h; subst h
  fin_cases i <;> fin_cases j <;> simp [lnext, lprev]

variable {m : TMesh K} {all : Finset Nat}

theorem org_lnext (m : TMesh K) (e : TEdge) : m.org (lnext e) = m.dest e := by
  simp [TMesh.org, TMesh.dest, lnext_lnext']
theorem dest_lnext (m : TMesh K) (e : TEdge) : m.dest (lnext e) = m.apex e := by
  simp [TMesh.dest, lprev_lnext']
theorem org_lprev (m : TMesh K) (e : TEdge) : m.org (lprev e) = m.apex e := by
  simp [TMesh.org, lnext_lprev']
theorem dest_lprev (m : TMesh K) (e : TEdge) : m.dest (lprev e) = m.org e := by
  simp [TMesh.dest, TMesh.org, lprev_lprev']

/-- A ghost triangle has one edge that ends at `NULL`. -/
theorem ghost_unique (C : m.Closed all) {d d' : TEdge} (hd : d.1 ∈ all) (h : m.dest d = 0)
    (h' : m.dest d' = 0) (e : d.1 = d'.1) : d = d' := by
  have c1 := C.corners d hd
  have c2 := C.corners (lnext d) hd
  rw [org_lnext, dest_lnext, h] at c2
  rw [h] at c1
  rcases same_tri e.symm with rfl | rfl | rfl
  · rfl
  · rw [dest_lnext] at h'; exact absurd h'.symm c2
  · rw [dest_lprev] at h'; exact absurd h' c1

theorem org_ne (C : m.Closed all) {d : TEdge} (hd : d.1 ∈ all) (h : m.dest d = 0) : m.org d ≠ 0 := by
  have := C.corners d hd; rwa [h] at this

theorem apex_ne (C : m.Closed all) {d : TEdge} (hd : d.1 ∈ all) (h : m.dest d = 0) : m.apex d ≠ 0 := by
  have := C.corners (lnext d) hd; rw [org_lnext, dest_lnext, h] at this; exact this.symm

/-- the next ghost triangle -/
def around (m : TMesh K) (d : TEdge) : TEdge := m.nb (lnext d)

theorem around_mem (C : m.Closed all) {d : TEdge} (hd : d.1 ∈ all) (h : m.dest d = 0) :
    (around m d).1 ∈ all ∧ m.dest (around m d) = 0 := by
  have := C.mate (lnext d) hd
  refine ⟨this.1, ?_⟩
  rw [around, this.2.2.2, org_lnext, h]

theorem around_inj (C : m.Closed all) {d d' : TEdge} (hd : d.1 ∈ all) (hd' : d'.1 ∈ all)
    (e : around m d = around m d') : d = d' := by
  have h1 := (C.mate (lnext d) hd).2.1
  have h2 := (C.mate (lnext d') hd').2.1
  simp only [around] at e
  rw [e, h2] at h1
  have := congrArg lprev h1
  rw [lprev_lnext', lprev_lnext'] at this
  exact this.symm

theorem iter_mem (C : m.Closed all) {d : TEdge} (hd : d.1 ∈ all) (h : m.dest d = 0) (k : Nat) :
    ((around m)^[k] d).1 ∈ all ∧ m.dest ((around m)^[k] d) = 0 := by
  induction k with
  | zero => exact ⟨hd, h⟩
  | succ k ih => rw [Function.iterate_succ_apply']; exact around_mem C ih.1 ih.2

theorem iter_cancel (C : m.Closed all) {d : TEdge} (hd : d.1 ∈ all) (h : m.dest d = 0) {i j : Nat}
    (e : (around m)^[i] d = (around m)^[i + j] d) : d = (around m)^[j] d := by
  induction i with
  | zero => simpa using e
  | succ i ih =>
    apply ih
    rw [show i + 1 + j = (i + j) + 1 by omega, Function.iterate_succ_apply', Function.iterate_succ_apply'] at e
    exact around_inj C (iter_mem C hd h i).1 (iter_mem C hd h _).1 e

/-- The round trip around `NULL`. -/
theorem round_trip (C : m.Closed all) {d : TEdge} (hd : d.1 ∈ all) (h : m.dest d = 0) :
    ∃ n, 0 < n ∧ n ≤ all.card ∧ (around m)^[n] d = d ∧ ∀ k, 0 < k → k < n → (around m)^[k] d ≠ d := by
  classical
  have ex : ∃ n, 0 < n ∧ n ≤ all.card ∧ (around m)^[n] d = d := by
    have hp : ∃ x ∈ Finset.range (all.card + 1), ∃ y ∈ Finset.range (all.card + 1), x ≠ y ∧
        ((around m)^[x] d).1 = ((around m)^[y] d).1 := by
      apply Finset.exists_ne_map_eq_of_card_lt_of_maps_to (t := all)
      · simp
      · intro k _; exact (iter_mem C hd h k).1
    obtain ⟨x, hx, y, hy, hne, hxy⟩ := hp
    simp only [Finset.mem_range] at hx hy
    have heq : (around m)^[x] d = (around m)^[y] d :=
      ghost_unique C (iter_mem C hd h x).1 (iter_mem C hd h x).2 (iter_mem C hd h y).2 hxy
    rcases Nat.lt_or_gt_of_ne hne with hl | hl
    · refine ⟨y - x, by omega, by omega, ?_⟩
      have := iter_cancel C hd h (i := x) (j := y - x) (by rw [heq]; congr 2; omega)
      exact this.symm
    · refine ⟨x - y, by omega, by omega, ?_⟩
      have := iter_cancel C hd h (i := y) (j := x - y) (by rw [← heq]; congr 2; omega)
      exact this.symm
  refine ⟨Nat.find ex, (Nat.find_spec ex).1, (Nat.find_spec ex).2.1, (Nat.find_spec ex).2.2, ?_⟩
  intro k hk hkn he
  exact Nat.find_min ex hkn ⟨hk, by have := (Nat.find_spec ex).2.1; omega, he⟩

/-- On the round trip no ghost triangle is met twice. -/
theorem trip_inj (C : m.Closed all) {d : TEdge} (hd : d.1 ∈ all) (h : m.dest d = 0) {n : Nat}
    (hn : ∀ k, 0 < k → k < n → (around m)^[k] d ≠ d) {i j : Nat} (hi : i < n) (hj : j < n)
    (e : ((around m)^[i] d).1 = ((around m)^[j] d).1) : i = j := by
  have heq : (around m)^[i] d = (around m)^[j] d :=
    ghost_unique C (iter_mem C hd h i).1 (iter_mem C hd h i).2 (iter_mem C hd h j).2 e
  by_contra hne
  rcases Nat.lt_or_gt_of_ne hne with hl | hl
  · refine hn (j - i) (by omega) (by omega) ?_
    exact (iter_cancel C hd h (i := i) (j := j - i) (by rw [heq]; congr 2; omega)).symm
  · refine hn (i - j) (by omega) (by omega) ?_
    exact (iter_cancel C hd h (i := j) (j := i - j) (by rw [← heq]; congr 2; omega)).symm

/-- What holds after `k` rounds of `removeghosts`. -/
structure Inv (m : TMesh K) (all : Finset Nat) (start : TEdge) (k : Nat) (s : Removal K) : Prop where
  edge : s.dissolveedge = (around m)^[k] start
  freed : s.freed = ((List.range k).map fun i => ((around m)^[i] start).1).reverse
  size : s.hullsize = k
  nb : ∀ x : TEdge, x.1 ∈ all → x.1 ∉ s.freed →
    s.m.nb x = m.nb x ∧ (∀ i < k, m.nb x ≠ lprev ((around m)^[i] start)) ∨
    s.m.nb x = space ∧ ∃ i < k, m.nb x = lprev ((around m)^[i] start)
  apex : s.m.apex = m.apex
  sg : s.m.sg = m.sg
  st : s.m.st = m.st
  sorg : s.m.sorg = m.sorg
  attr : s.m.attr = m.attr
  check : s.m.checksegments = m.checksegments
  /-- outer space still knows the edge of the hull, as long as no ghost triangle lies at a ghost triangle -/
  hull : (∀ i < k, ¬ m.Ghost (m.nb (lprev ((around m)^[i] start))).1) → s.m.nb space = m.nb (lprev start)
  /-- outer space knows no edge once two ghost triangles at each other were removed -/
  flat : ∀ i j, i < j → j < k → m.nb (lprev ((around m)^[j] start)) = lprev ((around m)^[i] start) →
    s.m.nb space = space

theorem mem_freed {start : TEdge} {k : Nat} {s : Removal K} (I : Inv m all start k s) (t : Nat) :
    t ∈ s.freed ↔ ∃ i < k, ((around m)^[i] start).1 = t := by
  rw [I.freed]; simp

theorem inv_start {start : TEdge} (C : m.Closed all) :
    Inv m all start 0 { m := { m with nb := Function.update m.nb space (m.nb (lprev start)) }
                        freed := [], hullsize := 0, dissolveedge := start } := by
  refine ⟨rfl, rfl, rfl, ?_, rfl, rfl, rfl, rfl, rfl, rfl, ?_, by intro i j _ hj; omega⟩
  · intro x hx _
    refine Or.inl ⟨?_, by simp⟩
    have : x ≠ space := by rintro rfl; exact C.out hx
    simp [Function.update_of_ne this]
  · intro _; simp

/-- The edge of the hull at a ghost triangle: its ends are vertices. -/
theorem base_ends (C : m.Closed all) {d : TEdge} (hd : d.1 ∈ all) (h : m.dest d = 0) :
    m.org (lprev d) ≠ 0 ∧ m.dest (lprev d) ≠ 0 := by
  rw [org_lprev, dest_lprev]; exact ⟨apex_ne C hd h, org_ne C hd h⟩

/-- An edge of a ghost triangle between vertices is its edge of the hull. -/
theorem base_unique {d x : TEdge} (h : m.dest d = 0)
    (ho : m.org x ≠ 0) (he : m.dest x ≠ 0) (e : x.1 = d.1) : x = lprev d := by
  rcases same_tri e with rfl | rfl | rfl
  · exact absurd h he
  · rw [org_lnext] at ho; exact absurd h ho
  · rfl

theorem lprev_inj {x y : TEdge} (h : lprev x = lprev y) : x = y := by
  have := congrArg lnext h; rwa [lnext_lprev', lnext_lprev'] at this

theorem inv_step {start : TEdge} (C : m.Closed all) (hs : start.1 ∈ all) (h0 : m.dest start = 0) {n : Nat}
    (hn : ∀ k, 0 < k → k < n → (around m)^[k] start ≠ start) {k : Nat} (hk : k < n) {s : Removal K}
    (I : Inv m all start k s) : ∃ s', s.step = some s' ∧ Inv m all start (k + 1) s' := by
  have D := iter_mem C hs h0 k
  set d := (around m)^[k] start with hd
  have hdf : d.1 ∉ s.freed := by
    rw [mem_freed I]; rintro ⟨i, hi, he⟩
    have := trip_inj C hs h0 hn (by omega : i < n) hk he; omega
  have hb := base_ends C D.1 D.2
  have hm := C.mate (lprev d) D.1
  -- the neighbour at the edge of the hull
  set e := s.m.nb (lprev d) with he
  have hcase := I.nb (lprev d) D.1 hdf
  have hes : (e = m.nb (lprev d) ∧ e.1 ∈ all ∧ e.1 ∉ s.freed) ∨
      (e = space ∧ ∃ i < k, m.nb (lprev d) = lprev ((around m)^[i] start)) := by
    rcases hcase with ⟨h1, h2⟩ | ⟨h1, h2⟩
    · left
      refine ⟨h1, by rw [he, h1]; exact hm.1, ?_⟩
      rw [mem_freed I]; rintro ⟨i, hi, hie⟩
      apply h2 i hi
      have Di := iter_mem C hs h0 i
      rw [he, h1] at hie
      exact base_unique Di.2 (by rw [hm.2.2.1]; exact hb.2) (by rw [hm.2.2.2]; exact hb.1) hie.symm
    · right; exact ⟨h1, h2⟩
  have hef : e.1 ∉ s.freed := by
    rcases hes with h | h
    · exact h.2.2
    · rw [h.1, mem_freed I]; rintro ⟨i, hi, hie⟩
      have := (iter_mem C hs h0 i).1
      rw [hie] at this; exact C.out this
  have step : s.step = some
      { m := s.m.dissolve e, freed := d.1 :: s.freed, hullsize := s.hullsize + 1,
        dissolveedge := (s.m.dissolve e).nb (lnext d) } := by
    simp only [Removal.step, I.edge, ← hd]
    rw [if_neg hdf, ← he, if_neg hef]; rfl
  refine ⟨_, step, ?_⟩
  have nend : e ≠ lnext d := by
    rintro hh
    rcases hes with h | h
    · have := congrArg m.org h.1
      rw [hh, org_lnext, D.2, hm.2.2.1] at this
      exact hb.2 this.symm
    · have h3 := congrArg Prod.fst hh
      rw [h.1] at h3
      have h4 : d.1 = 0 := by rw [← lnext_fst d, ← h3]; rfl
      rw [h4] at D; exact C.out D.1
  have hnext : (s.m.dissolve e).nb (lnext d) = (around m)^[k + 1] start := by
    rw [Function.iterate_succ_apply', ← hd, around]
    simp only [TMesh.dissolve]
    rw [Function.update_of_ne nend.symm]
    rcases I.nb (lnext d) D.1 hdf with ⟨h1, _⟩ | ⟨_, i, hi, h1⟩
    · exact h1
    · exfalso
      have Di := iter_mem C hs h0 i
      have hmm := (C.mate (lnext d) D.1).2.2.2
      rw [h1, org_lnext, D.2] at hmm
      exact (base_ends C Di.1 Di.2).2 hmm
  refine ⟨hnext, ?_, by simp [I.size], ?_, I.apex, I.sg, I.st, I.sorg, I.attr, I.check, ?_, ?_⟩
  · simp only [I.freed, List.range_succ, List.map_append, List.reverse_append]; simp [hd]
  · intro x hx hxf
    simp only [List.mem_cons, not_or] at hxf
    have hxs : x ≠ space := by rintro rfl; exact C.out hx
    by_cases hxe : x = e
    · right
      have he2 : e = m.nb (lprev d) := by
        rcases hes with h | h
        · exact h.1
        · exact absurd (hxe.trans h.1) hxs
      refine ⟨by simp [TMesh.dissolve, hxe], k, by omega, ?_⟩
      rw [hxe, he2, hm.2.1]
    · have h1 : (s.m.dissolve e).nb x = s.m.nb x := by simp [TMesh.dissolve, Function.update_of_ne hxe]
      simp only [h1]
      rcases I.nb x hx hxf.2 with ⟨h2, h3⟩ | ⟨h2, i, hi, h3⟩
      · left
        refine ⟨h2, ?_⟩
        intro i hi hxi
        rcases Nat.lt_succ_iff_lt_or_eq.mp hi with hl | rfl
        · exact h3 i hl hxi
        · -- then the neighbour of the hull edge of `d` is `x`
          have hx2 := (C.mate x hx).2.1
          rw [hxi] at hx2
          rcases hes with h | ⟨_, j, hj, h⟩
          · exact hxe (by rw [h.1, ← hx2])
          · apply hxf.2
            rw [mem_freed I]
            refine ⟨j, hj, ?_⟩
            rw [← hx2, h]; rfl
      · right; exact ⟨h2, i, by omega, h3⟩
  · intro hg
    have h1 := I.hull (fun i hi => hg i (by omega))
    have hes' : e ≠ space := by
      rcases hes with h | ⟨_, i, hi, h⟩
      · rintro h2; rw [h2] at h; exact C.out h.2.1
      · exfalso
        apply hg k (by omega)
        rw [← hd, h]
        have Di := iter_mem C hs h0 i
        exact ⟨_, Di.2⟩
    simp only [TMesh.dissolve]
    rw [Function.update_of_ne hes'.symm, h1]
  · intro i j hij hj hp
    simp only [TMesh.dissolve]
    by_cases hse : space = e
    · rw [← hse, Function.update_self]
    · rw [Function.update_of_ne hse]
      rcases Nat.lt_succ_iff_lt_or_eq.mp hj with hl | rfl
      · exact I.flat i j hij hl hp
      · exfalso
        rcases hes with h | h
        · apply h.2.2
          rw [mem_freed I]
          refine ⟨i, hij, ?_⟩
          rw [h.1, hp]; rfl
        · exact hse h.1.symm

/-- The rounds from the `k`-th on. -/
theorem run_from {start : TEdge} (C : m.Closed all) (hs : start.1 ∈ all) (h0 : m.dest start = 0) {n : Nat}
    (hn : ∀ k, 0 < k → k < n → (around m)^[k] start ≠ start) (hr : (around m)^[n] start = start) :
    ∀ (f k : Nat) (s : Removal K), Inv m all start k s → k < n → n ≤ k + f →
      ∃ s', Removal.run start f s = some s' ∧ Inv m all start n s' := by
  intro f
  induction f with
  | zero => intro k s _ h1 h2; omega
  | succ f ih =>
    intro k s I hk hf
    obtain ⟨s', h1, I'⟩ := inv_step C hs h0 hn hk I
    simp only [Removal.run, h1]
    by_cases hkn : k + 1 = n
    · subst hkn
      refine ⟨s', ?_, I'⟩
      rw [if_pos (by rw [I'.edge, hr])]
    · rw [if_neg (by rw [I'.edge]; exact hn (k + 1) (by omega) (by omega))]
      exact ih (k + 1) s' I' (by omega) (by omega)

theorem removeghosts_run {start : TEdge} (C : m.Closed all) (hs : start.1 ∈ all) (h0 : m.dest start = 0) :
    ∃ n s, 0 < n ∧ n ≤ all.card ∧ (around m)^[n] start = start ∧
      (∀ k, 0 < k → k < n → (around m)^[k] start ≠ start) ∧
      (∀ f, n ≤ f → m.removeghosts start f = some s) ∧ Inv m all start n s := by
  obtain ⟨n, hn0, hc, hr, hn⟩ := round_trip C hs h0
  have key := fun f hf => run_from C hs h0 hn hr f 0 _ (inv_start C) hn0 (by simpa using hf)
  obtain ⟨s, h1, I⟩ := key n le_rfl
  refine ⟨n, s, hn0, hc, hr, hn, ?_, I⟩
  have mono : ∀ (f g : Nat) (x y : Removal K), f ≤ g → Removal.run start f x = some y →
      Removal.run start g x = some y := by
    intro f
    induction f with
    | zero => intro g x y _ h; simp [Removal.run] at h
    | succ f ih =>
      intro g x y hg h
      obtain ⟨g, rfl⟩ : ∃ g', g = g' + 1 := ⟨g - 1, by omega⟩
      simp only [Removal.run] at h ⊢
      cases hx : x.step with
      | none => rw [hx] at h; simp at h
      | some x' =>
        rw [hx] at h
        simp only at h ⊢
        by_cases he : x'.dissolveedge = start
        · rw [if_pos he] at h ⊢; exact h
        · rw [if_neg he] at h ⊢; exact ih g x' y (by omega) h
  intro f hf
  exact mono n f _ _ hf h1

/-- A ghost triangle as a handle. -/
theorem ghost_handle {t : Nat} (h : m.Ghost t) : ∃ d : TEdge, d.1 = t ∧ m.dest d = 0 := by
  obtain ⟨i, hi⟩ := h
  exact ⟨lnext (t, i), rfl, by rw [dest_lnext]; exact hi⟩

theorem handle_ghost {d : TEdge} (h : m.dest d = 0) : m.Ghost d.1 := ⟨_, h⟩

theorem not_ghost {t : Nat} (h : ¬ m.Ghost t) {e : TEdge} (he : e.1 = t) :
    m.org e ≠ 0 ∧ m.dest e ≠ 0 ∧ m.apex e ≠ 0 := by
  subst he
  exact ⟨fun h1 => h ⟨_, h1⟩, fun h1 => h ⟨_, h1⟩, fun h1 => h ⟨_, h1⟩⟩

theorem freed_iff {start : TEdge} (C : m.Closed all) (F : m.OneFence all) (hs : start.1 ∈ all)
    (h0 : m.dest start = 0) {n : Nat} (hn : 0 < n) (hr : (around m)^[n] start = start) {s : Removal K}
    (I : Inv m all start n s) (t : Nat) : t ∈ s.freed ↔ t ∈ all ∧ m.Ghost t := by
  rw [mem_freed I]
  constructor
  · rintro ⟨i, _, rfl⟩
    have := iter_mem C hs h0 i
    exact ⟨this.1, handle_ghost this.2⟩
  · rintro ⟨ht, hg⟩
    obtain ⟨d, rfl, hd⟩ := ghost_handle hg
    obtain ⟨k, hk⟩ := F start d hs ht h0 hd
    refine ⟨k % n, Nat.mod_lt _ hn, ?_⟩
    have hp : Function.IsPeriodicPt (around m) n start := hr
    rw [hp.iterate_mod_apply k]
    exact congrArg Prod.fst hk

/-- The neighbours when all ghost triangles are removed. -/
theorem nb_end {start : TEdge} (C : m.Closed all) (F : m.OneFence all) (hs : start.1 ∈ all)
    (h0 : m.dest start = 0) {n : Nat} (hn : 0 < n) (hr : (around m)^[n] start = start) {s : Removal K}
    (I : Inv m all start n s) {e : TEdge} (he : e.1 ∈ all) (hg : ¬ m.Ghost e.1) :
    (m.Ghost (m.nb e).1 → s.m.nb e = space) ∧ (¬ m.Ghost (m.nb e).1 → s.m.nb e = m.nb e) := by
  have hf : e.1 ∉ s.freed := by rw [freed_iff C F hs h0 hn hr I]; exact fun h => hg h.2
  have hm := C.mate e he
  have ne := not_ghost hg rfl
  constructor
  · intro hG
    rcases I.nb e he hf with ⟨_, h2⟩ | ⟨h1, _⟩
    · exfalso
      have : (m.nb e).1 ∈ s.freed := (freed_iff C F hs h0 hn hr I _).2 ⟨hm.1, hG⟩
      obtain ⟨i, hi, hi'⟩ := (mem_freed I _).1 this
      have Di := iter_mem C hs h0 i
      exact h2 i hi (base_unique Di.2 (by rw [hm.2.2.1]; exact ne.2.1) (by rw [hm.2.2.2]; exact ne.1) hi'.symm)
    · exact h1
  · intro hG
    rcases I.nb e he hf with ⟨h1, _⟩ | ⟨_, i, _, h2⟩
    · exact h1
    · exfalso
      apply hG; rw [h2]
      show m.Ghost ((around m)^[i] start).1
      exact handle_ghost (iter_mem C hs h0 i).2

/-- A fence from a list of ghost triangles. -/
theorem fence_of (start : TEdge) (n : Nat) (hr : (around m)^[n] start = start)
    (h : ∀ d : TEdge, d.1 ∈ all → m.dest d = 0 → ∃ i < n, (around m)^[i] start = d) : m.OneFence all := by
  intro d d' hd hd' h1 h2
  obtain ⟨i, hi, rfl⟩ := h d hd h1
  obtain ⟨j, hj, rfl⟩ := h d' hd' h2
  refine ⟨n - i + j, ?_⟩
  show (around m)^[n - i + j] _ = _
  rw [← Function.iterate_add_apply, show n - i + j + i = j + n by omega, Function.iterate_add_apply, hr]

/-! ### Two and three vertices -/

section
variable [Zero K]

/-- The triangulation of two vertices, triangle by triangle. -/
theorem two_table (m : TMesh K) (v0 v1 t1 t2 : Nat) (h12 : t1 ≠ t2) :
    let h := m.twoVertices v0 v1 t1 t2
    h.farleft = (t2, 1) ∧ h.farright = (t2, 2) ∧
    h.m.nb (t1, 0) = (t2, 0) ∧ h.m.nb (t1, 1) = (t2, 2) ∧ h.m.nb (t1, 2) = (t2, 1) ∧
    h.m.nb (t2, 0) = (t1, 0) ∧ h.m.nb (t2, 1) = (t1, 2) ∧ h.m.nb (t2, 2) = (t1, 1) ∧
    h.m.apex (t1, 0) = 0 ∧ h.m.apex (t1, 1) = v0 ∧ h.m.apex (t1, 2) = v1 ∧
    h.m.apex (t2, 0) = 0 ∧ h.m.apex (t2, 1) = v1 ∧ h.m.apex (t2, 2) = v0 ∧
    (∀ e : TEdge, e.1 ≠ t1 → e.1 ≠ t2 → h.m.nb e = m.nb e ∧ h.m.apex e = m.apex e ∧ h.m.sg e = m.sg e) ∧
    (∀ i, h.m.sg (t1, i) = noSub ∧ h.m.sg (t2, i) = noSub) := by
  have h21 := h12.symm
  refine ⟨?_, ?_, ?_, ?_, ?_, ?_, ?_, ?_, ?_, ?_, ?_, ?_, ?_, ?_, ?_, ?_⟩
  all_goals try
    simp [TMesh.twoVertices, TMesh.bond, TMesh.setorg, TMesh.setdest, TMesh.maketriangle, lnext, lprev,
      Function.update_apply, Prod.ext_iff, h12, h21]
  intro t i h1 h2
  simp [h1, h2]

theorem line_table (m : TMesh K) (v0 v1 v2 n0 n1 n2 n3 : Nat) (h01 : n0 ≠ n1) (h02 : n0 ≠ n2) (h03 : n0 ≠ n3)
    (h12 : n1 ≠ n2) (h13 : n1 ≠ n3) (h23 : n2 ≠ n3) :
    let h := ((((m.maketriangle n0).maketriangle n1).maketriangle n2).maketriangle n3).threeInLine v0 v1 v2
      (n0, 0) (n1, 0) (n2, 0) (n3, 0)
    h.farleft = (n1, 1) ∧ h.farright = (n2, 2) ∧
    h.m.nb (n0, 0) = (n1, 0) ∧ h.m.nb (n0, 1) = (n3, 2) ∧ h.m.nb (n0, 2) = (n1, 1) ∧
    h.m.nb (n1, 0) = (n0, 0) ∧ h.m.nb (n1, 1) = (n0, 2) ∧ h.m.nb (n1, 2) = (n2, 1) ∧
    h.m.nb (n2, 0) = (n3, 0) ∧ h.m.nb (n2, 1) = (n1, 2) ∧ h.m.nb (n2, 2) = (n3, 1) ∧
    h.m.nb (n3, 0) = (n2, 0) ∧ h.m.nb (n3, 1) = (n2, 2) ∧ h.m.nb (n3, 2) = (n0, 1) ∧
    h.m.apex (n0, 0) = 0 ∧ h.m.apex (n0, 1) = v0 ∧ h.m.apex (n0, 2) = v1 ∧
    h.m.apex (n1, 0) = 0 ∧ h.m.apex (n1, 1) = v1 ∧ h.m.apex (n1, 2) = v0 ∧
    h.m.apex (n2, 0) = 0 ∧ h.m.apex (n2, 1) = v2 ∧ h.m.apex (n2, 2) = v1 ∧
    h.m.apex (n3, 0) = 0 ∧ h.m.apex (n3, 1) = v1 ∧ h.m.apex (n3, 2) = v2 ∧
    (∀ e : TEdge, e.1 ≠ n0 → e.1 ≠ n1 → e.1 ≠ n2 → e.1 ≠ n3 →
      h.m.nb e = m.nb e ∧ h.m.apex e = m.apex e ∧ h.m.sg e = m.sg e) ∧
    (∀ i, h.m.sg (n0, i) = noSub ∧ h.m.sg (n1, i) = noSub ∧ h.m.sg (n2, i) = noSub ∧ h.m.sg (n3, i) = noSub) := by
  have h10 := h01.symm
  have h20 := h02.symm
  have h30 := h03.symm
  have h21 := h12.symm
  have h31 := h13.symm
  have h32 := h23.symm
  refine ⟨?_, ?_, ?_, ?_, ?_, ?_, ?_, ?_, ?_, ?_, ?_, ?_, ?_, ?_, ?_, ?_, ?_, ?_, ?_, ?_, ?_, ?_, ?_, ?_, ?_, ?_, ?_, ?_⟩
  all_goals try
    simp [TMesh.threeInLine, TMesh.bond, TMesh.setorg, TMesh.setdest, TMesh.setapex, TMesh.maketriangle, lnext, lprev,
      Function.update_apply, Prod.ext_iff, h01, h02, h03, h12, h13, h23, h10, h20, h30, h21, h31, h32]
  intro t i h1 h2 h3 h4
  simp [h1, h2, h3, h4]

theorem ccw_table (m : TMesh K) (v0 v1 v2 n0 n1 n2 n3 : Nat) (h01 : n0 ≠ n1) (h02 : n0 ≠ n2) (h03 : n0 ≠ n3)
    (h12 : n1 ≠ n2) (h13 : n1 ≠ n3) (h23 : n2 ≠ n3) :
    let h := ((((m.maketriangle n0).maketriangle n1).maketriangle n2).maketriangle n3).threeCorners v0 v1 v2 true
      (n0, 0) (n1, 0) (n2, 0) (n3, 0)
    h.farleft = (n1, 1) ∧ h.farright = (n2, 2) ∧
    h.m.nb (n0, 0) = (n1, 0) ∧ h.m.nb (n0, 1) = (n2, 0) ∧ h.m.nb (n0, 2) = (n3, 0) ∧
    h.m.nb (n1, 0) = (n0, 0) ∧ h.m.nb (n1, 1) = (n3, 2) ∧ h.m.nb (n1, 2) = (n2, 1) ∧
    h.m.nb (n2, 0) = (n0, 1) ∧ h.m.nb (n2, 1) = (n1, 2) ∧ h.m.nb (n2, 2) = (n3, 1) ∧
    h.m.nb (n3, 0) = (n0, 2) ∧ h.m.nb (n3, 1) = (n2, 2) ∧ h.m.nb (n3, 2) = (n1, 1) ∧
    h.m.apex (n0, 0) = v2 ∧ h.m.apex (n0, 1) = v0 ∧ h.m.apex (n0, 2) = v1 ∧
    h.m.apex (n1, 0) = 0 ∧ h.m.apex (n1, 1) = v1 ∧ h.m.apex (n1, 2) = v0 ∧
    h.m.apex (n2, 0) = 0 ∧ h.m.apex (n2, 1) = v2 ∧ h.m.apex (n2, 2) = v1 ∧
    h.m.apex (n3, 0) = 0 ∧ h.m.apex (n3, 1) = v0 ∧ h.m.apex (n3, 2) = v2 ∧
    (∀ e : TEdge, e.1 ≠ n0 → e.1 ≠ n1 → e.1 ≠ n2 → e.1 ≠ n3 →
      h.m.nb e = m.nb e ∧ h.m.apex e = m.apex e ∧ h.m.sg e = m.sg e) ∧
    (∀ i, h.m.sg (n0, i) = noSub ∧ h.m.sg (n1, i) = noSub ∧ h.m.sg (n2, i) = noSub ∧ h.m.sg (n3, i) = noSub) := by
  have h10 := h01.symm
  have h20 := h02.symm
  have h30 := h03.symm
  have h21 := h12.symm
  have h31 := h13.symm
  have h32 := h23.symm
  refine ⟨?_, ?_, ?_, ?_, ?_, ?_, ?_, ?_, ?_, ?_, ?_, ?_, ?_, ?_, ?_, ?_, ?_, ?_, ?_, ?_, ?_, ?_, ?_, ?_, ?_, ?_, ?_, ?_⟩
  all_goals try
    simp [TMesh.threeCorners, TMesh.bond, TMesh.setorg, TMesh.setdest, TMesh.setapex, TMesh.maketriangle, lnext, lprev,
      Function.update_apply, Prod.ext_iff, h01, h02, h03, h12, h13, h23, h10, h20, h30, h21, h31, h32]
  intro t i h1 h2 h3 h4
  simp [h1, h2, h3, h4]

theorem cw_table (m : TMesh K) (v0 v1 v2 n0 n1 n2 n3 : Nat) (h01 : n0 ≠ n1) (h02 : n0 ≠ n2) (h03 : n0 ≠ n3)
    (h12 : n1 ≠ n2) (h13 : n1 ≠ n3) (h23 : n2 ≠ n3) :
    let h := ((((m.maketriangle n0).maketriangle n1).maketriangle n2).maketriangle n3).threeCorners v0 v1 v2 false
      (n0, 0) (n1, 0) (n2, 0) (n3, 0)
    h.farleft = (n1, 1) ∧ h.farright = (n1, 2) ∧
    h.m.nb (n0, 0) = (n1, 0) ∧ h.m.nb (n0, 1) = (n2, 0) ∧ h.m.nb (n0, 2) = (n3, 0) ∧
    h.m.nb (n1, 0) = (n0, 0) ∧ h.m.nb (n1, 1) = (n3, 2) ∧ h.m.nb (n1, 2) = (n2, 1) ∧
    h.m.nb (n2, 0) = (n0, 1) ∧ h.m.nb (n2, 1) = (n1, 2) ∧ h.m.nb (n2, 2) = (n3, 1) ∧
    h.m.nb (n3, 0) = (n0, 2) ∧ h.m.nb (n3, 1) = (n2, 2) ∧ h.m.nb (n3, 2) = (n1, 1) ∧
    h.m.apex (n0, 0) = v1 ∧ h.m.apex (n0, 1) = v0 ∧ h.m.apex (n0, 2) = v2 ∧
    h.m.apex (n1, 0) = 0 ∧ h.m.apex (n1, 1) = v2 ∧ h.m.apex (n1, 2) = v0 ∧
    h.m.apex (n2, 0) = 0 ∧ h.m.apex (n2, 1) = v1 ∧ h.m.apex (n2, 2) = v2 ∧
    h.m.apex (n3, 0) = 0 ∧ h.m.apex (n3, 1) = v0 ∧ h.m.apex (n3, 2) = v1 ∧
    (∀ e : TEdge, e.1 ≠ n0 → e.1 ≠ n1 → e.1 ≠ n2 → e.1 ≠ n3 →
      h.m.nb e = m.nb e ∧ h.m.apex e = m.apex e ∧ h.m.sg e = m.sg e) ∧
    (∀ i, h.m.sg (n0, i) = noSub ∧ h.m.sg (n1, i) = noSub ∧ h.m.sg (n2, i) = noSub ∧ h.m.sg (n3, i) = noSub) := by
  have h10 := h01.symm
  have h20 := h02.symm
  have h30 := h03.symm
  have h21 := h12.symm
  have h31 := h13.symm
  have h32 := h23.symm
  refine ⟨?_, ?_, ?_, ?_, ?_, ?_, ?_, ?_, ?_, ?_, ?_, ?_, ?_, ?_, ?_, ?_, ?_, ?_, ?_, ?_, ?_, ?_, ?_, ?_, ?_, ?_, ?_, ?_⟩
  all_goals try
    simp [TMesh.threeCorners, TMesh.bond, TMesh.setorg, TMesh.setdest, TMesh.setapex, TMesh.maketriangle, lnext, lprev,
      Function.update_apply, Prod.ext_iff, h01, h02, h03, h12, h13, h23, h10, h20, h30, h21, h31, h32]
  intro t i h1 h2 h3 h4
  simp [h1, h2, h3, h4]

end

section
variable [Zero K]

/-- Three vertices: case `line` of `divconqrecurse`. -/
theorem line_ok (m : TMesh K) {v0 v1 v2 n0 n1 n2 n3 : Nat} (h01 : n0 ≠ n1) (h02 : n0 ≠ n2) (h03 : n0 ≠ n3)
    (h12 : n1 ≠ n2) (h13 : n1 ≠ n3) (h23 : n2 ≠ n3) (hn0 : n0 ≠ 0) (hn1 : n1 ≠ 0) (hn2 : n2 ≠ 0) (hn3 : n3 ≠ 0)
    (hv0 : v0 ≠ 0) (hv1 : v1 ≠ 0) (hv2 : v2 ≠ 0) (hv01 : v0 ≠ v1) (hv02 : v0 ≠ v2) (hv12 : v1 ≠ v2) :
    let h := ((((m.maketriangle n0).maketriangle n1).maketriangle n2).maketriangle n3).threeInLine v0 v1 v2
      (n0, 0) (n1, 0) (n2, 0) (n3, 0)
    h.Ok {n0, n1, n2, n3} v0 v2 ∧
    (∀ e : TEdge, e.1 ≠ n0 → e.1 ≠ n1 → e.1 ≠ n2 → e.1 ≠ n3 →
      h.m.nb e = m.nb e ∧ h.m.apex e = m.apex e ∧ h.m.sg e = m.sg e) ∧
    (∀ t ∈ ({n0, n1, n2, n3} : Finset Nat), h.m.Ghost t) ∧
    (∀ a b, a ≠ 0 → b ≠ 0 →
      ((∃ e : TEdge, e.1 ∈ ({n0, n1, n2, n3} : Finset Nat) ∧ h.m.org e = a ∧ h.m.dest e = b) ↔
        (a = v0 ∧ b = v1) ∨ (a = v1 ∧ b = v0) ∨ (a = v1 ∧ b = v2) ∨ (a = v2 ∧ b = v1))) := by
  intro h
  obtain ⟨fl, fr, a00, a01, a02, a10, a11, a12, a20, a21, a22, a30, a31, a32, p00, p01, p02, p10, p11, p12, p20, p21, p22, p30, p31, p32, rest, bare⟩ :=
    line_table m v0 v1 v2 n0 n1 n2 n3 h01 h02 h03 h12 h13 h23
  change h.farleft = _ at fl
  change h.farright = _ at fr
  change h.m.nb _ = _ at a00 a01 a02 a10 a11 a12 a20 a21 a22 a30 a31 a32
  change h.m.apex _ = _ at p00 p01 p02 p10 p11 p12 p20 p21 p22 p30 p31 p32
  have tri : ∀ e : TEdge, e.1 ∈ ({n0, n1, n2, n3} : Finset Nat) →
      e = (n0, 0) ∨ e = (n0, 1) ∨ e = (n0, 2) ∨ e = (n1, 0) ∨ e = (n1, 1) ∨ e = (n1, 2) ∨ e = (n2, 0) ∨ e = (n2, 1) ∨ e = (n2, 2) ∨ e = (n3, 0) ∨ e = (n3, 1) ∨ e = (n3, 2) := by
    rintro ⟨t, i⟩ ht
    simp only [Finset.mem_insert, Finset.mem_singleton] at ht
    have hi : i = 0 ∨ i = 1 ∨ i = 2 := by omega
    rcases ht with rfl | rfl | rfl | rfl <;> rcases hi with rfl | rfl | rfl <;> simp
  have C : h.m.Closed {n0, n1, n2, n3} := by
    refine ⟨by simp [hn0.symm, hn1.symm, hn2.symm, hn3.symm], ?_, ?_, ?_⟩
    · intro e he
      rcases tri e he with rfl | rfl | rfl | rfl | rfl | rfl | rfl | rfl | rfl | rfl | rfl | rfl <;>
        simp [TMesh.org, TMesh.dest, lnext, lprev, a00, a01, a02, a10, a11, a12, a20, a21, a22, a30, a31, a32, p00, p01, p02, p10, p11, p12, p20, p21, p22, p30, p31, p32]
    · intro e he
      rcases tri e he with rfl | rfl | rfl | rfl | rfl | rfl | rfl | rfl | rfl | rfl | rfl | rfl <;>
        simp [TMesh.org, TMesh.dest, lnext, lprev, p00, p01, p02, p10, p11, p12, p20, p21, p22, p30, p31, p32, hv0, hv1, hv2, hv01, hv02, hv12, hv01.symm, hv02.symm, hv12.symm, hv0.symm, hv1.symm, hv2.symm]
    · rintro ⟨t, i⟩ he
      simp only [Finset.mem_insert, Finset.mem_singleton] at he
      rcases he with rfl | rfl | rfl | rfl
      · exact (bare i).1
      · exact (bare i).2.1
      · exact (bare i).2.2.1
      · exact (bare i).2.2.2
  refine ⟨⟨C, ?_, ?_, ?_⟩, rest, ?_⟩
  · refine fence_of (n1, 1) 4 ?_ ?_
    · simp [around, lnext, a00, a01, a02, a10, a11, a12, a20, a21, a22, a30, a31, a32]
    · intro d hd h0
      rcases tri d hd with rfl | rfl | rfl | rfl | rfl | rfl | rfl | rfl | rfl | rfl | rfl | rfl <;>
        simp [TMesh.dest, lprev, p00, p01, p02, p10, p11, p12, p20, p21, p22, p30, p31, p32, hv0, hv1, hv2, hv01, hv02, hv12, hv01.symm, hv02.symm, hv12.symm, hv0.symm, hv1.symm, hv2.symm] at h0
      · exact ⟨3, by omega, by simp [around, lnext, a00, a01, a02, a10, a11, a12, a20, a21, a22, a30, a31, a32]⟩
      · exact ⟨0, by omega, by simp [around, lnext, a00, a01, a02, a10, a11, a12, a20, a21, a22, a30, a31, a32]⟩
      · exact ⟨1, by omega, by simp [around, lnext, a00, a01, a02, a10, a11, a12, a20, a21, a22, a30, a31, a32]⟩
      · exact ⟨2, by omega, by simp [around, lnext, a00, a01, a02, a10, a11, a12, a20, a21, a22, a30, a31, a32]⟩
  · simp [fl, TMesh.org, TMesh.dest, lnext, lprev, p00, p01, p02, p10, p11, p12, p20, p21, p22, p30, p31, p32]
  · simp [fr, TMesh.org, TMesh.dest, lnext, lprev, p00, p01, p02, p10, p11, p12, p20, p21, p22, p30, p31, p32]
  refine ⟨?_, ?_⟩
  · intro t ht
    simp only [Finset.mem_insert, Finset.mem_singleton] at ht
    rcases ht with rfl | rfl | rfl | rfl
    · exact ⟨0, p00⟩
    · exact ⟨0, p10⟩
    · exact ⟨0, p20⟩
    · exact ⟨0, p30⟩
  · intro a b ha hb
    constructor
    · rintro ⟨e, he, rfl, rfl⟩
      rcases tri e he with rfl | rfl | rfl | rfl | rfl | rfl | rfl | rfl | rfl | rfl | rfl | rfl <;>
        simp [TMesh.org, TMesh.dest, lnext, lprev, p00, p01, p02, p10, p11, p12, p20, p21, p22, p30, p31, p32] at ha hb ⊢
    · rintro (⟨rfl, rfl⟩ | ⟨rfl, rfl⟩ | ⟨rfl, rfl⟩ | ⟨rfl, rfl⟩)
      · exact ⟨(n0, 0), by simp, by simp [TMesh.org, lnext, p01], by simp [TMesh.dest, lprev, p02]⟩
      · exact ⟨(n1, 0), by simp, by simp [TMesh.org, lnext, p11], by simp [TMesh.dest, lprev, p12]⟩
      · exact ⟨(n3, 0), by simp, by simp [TMesh.org, lnext, p31], by simp [TMesh.dest, lprev, p32]⟩
      · exact ⟨(n2, 0), by simp, by simp [TMesh.org, lnext, p21], by simp [TMesh.dest, lprev, p22]⟩

/-- Three vertices: case `ccw` of `divconqrecurse`. -/
theorem ccw_ok (m : TMesh K) {v0 v1 v2 n0 n1 n2 n3 : Nat} (h01 : n0 ≠ n1) (h02 : n0 ≠ n2) (h03 : n0 ≠ n3)
    (h12 : n1 ≠ n2) (h13 : n1 ≠ n3) (h23 : n2 ≠ n3) (hn0 : n0 ≠ 0) (hn1 : n1 ≠ 0) (hn2 : n2 ≠ 0) (hn3 : n3 ≠ 0)
    (hv0 : v0 ≠ 0) (hv1 : v1 ≠ 0) (hv2 : v2 ≠ 0) (hv01 : v0 ≠ v1) (hv02 : v0 ≠ v2) (hv12 : v1 ≠ v2) :
    let h := ((((m.maketriangle n0).maketriangle n1).maketriangle n2).maketriangle n3).threeCorners v0 v1 v2 true
      (n0, 0) (n1, 0) (n2, 0) (n3, 0)
    h.Ok {n0, n1, n2, n3} v0 v2 ∧
    (∀ e : TEdge, e.1 ≠ n0 → e.1 ≠ n1 → e.1 ≠ n2 → e.1 ≠ n3 →
      h.m.nb e = m.nb e ∧ h.m.apex e = m.apex e ∧ h.m.sg e = m.sg e) ∧
    h.m.Solid {n0, n1, n2, n3} ∧ (∀ t ∈ ({n0, n1, n2, n3} : Finset Nat), h.m.Ghost t ↔ t ≠ n0) ∧
    h.m.corners (n0, 0) = (v0, v1, v2) := by
  intro h
  obtain ⟨fl, fr, a00, a01, a02, a10, a11, a12, a20, a21, a22, a30, a31, a32, p00, p01, p02, p10, p11, p12, p20, p21, p22, p30, p31, p32, rest, bare⟩ :=
    ccw_table m v0 v1 v2 n0 n1 n2 n3 h01 h02 h03 h12 h13 h23
  change h.farleft = _ at fl
  change h.farright = _ at fr
  change h.m.nb _ = _ at a00 a01 a02 a10 a11 a12 a20 a21 a22 a30 a31 a32
  change h.m.apex _ = _ at p00 p01 p02 p10 p11 p12 p20 p21 p22 p30 p31 p32
  have tri : ∀ e : TEdge, e.1 ∈ ({n0, n1, n2, n3} : Finset Nat) →
      e = (n0, 0) ∨ e = (n0, 1) ∨ e = (n0, 2) ∨ e = (n1, 0) ∨ e = (n1, 1) ∨ e = (n1, 2) ∨ e = (n2, 0) ∨ e = (n2, 1) ∨ e = (n2, 2) ∨ e = (n3, 0) ∨ e = (n3, 1) ∨ e = (n3, 2) := by
    rintro ⟨t, i⟩ ht
    simp only [Finset.mem_insert, Finset.mem_singleton] at ht
    have hi : i = 0 ∨ i = 1 ∨ i = 2 := by omega
    rcases ht with rfl | rfl | rfl | rfl <;> rcases hi with rfl | rfl | rfl <;> simp
  have C : h.m.Closed {n0, n1, n2, n3} := by
    refine ⟨by simp [hn0.symm, hn1.symm, hn2.symm, hn3.symm], ?_, ?_, ?_⟩
    · intro e he
      rcases tri e he with rfl | rfl | rfl | rfl | rfl | rfl | rfl | rfl | rfl | rfl | rfl | rfl <;>
        simp [TMesh.org, TMesh.dest, lnext, lprev, a00, a01, a02, a10, a11, a12, a20, a21, a22, a30, a31, a32, p00, p01, p02, p10, p11, p12, p20, p21, p22, p30, p31, p32]
    · intro e he
      rcases tri e he with rfl | rfl | rfl | rfl | rfl | rfl | rfl | rfl | rfl | rfl | rfl | rfl <;>
        simp [TMesh.org, TMesh.dest, lnext, lprev, p00, p01, p02, p10, p11, p12, p20, p21, p22, p30, p31, p32, hv0, hv1, hv2, hv01, hv02, hv12, hv01.symm, hv02.symm, hv12.symm, hv0.symm, hv1.symm, hv2.symm]
    · rintro ⟨t, i⟩ he
      simp only [Finset.mem_insert, Finset.mem_singleton] at he
      rcases he with rfl | rfl | rfl | rfl
      · exact (bare i).1
      · exact (bare i).2.1
      · exact (bare i).2.2.1
      · exact (bare i).2.2.2
  refine ⟨⟨C, ?_, ?_, ?_⟩, rest, ?_⟩
  · refine fence_of (n1, 1) 3 ?_ ?_
    · simp [around, lnext, a00, a01, a02, a10, a11, a12, a20, a21, a22, a30, a31, a32]
    · intro d hd h0
      rcases tri d hd with rfl | rfl | rfl | rfl | rfl | rfl | rfl | rfl | rfl | rfl | rfl | rfl <;>
        simp [TMesh.dest, lprev, p00, p01, p02, p10, p11, p12, p20, p21, p22, p30, p31, p32, hv0, hv1, hv2, hv01, hv02, hv12, hv01.symm, hv02.symm, hv12.symm, hv0.symm, hv1.symm, hv2.symm] at h0
      · exact ⟨0, by omega, by simp [around, lnext, a00, a01, a02, a10, a11, a12, a20, a21, a22, a30, a31, a32]⟩
      · exact ⟨1, by omega, by simp [around, lnext, a00, a01, a02, a10, a11, a12, a20, a21, a22, a30, a31, a32]⟩
      · exact ⟨2, by omega, by simp [around, lnext, a00, a01, a02, a10, a11, a12, a20, a21, a22, a30, a31, a32]⟩
  · simp [fl, TMesh.org, TMesh.dest, lnext, lprev, p00, p01, p02, p10, p11, p12, p20, p21, p22, p30, p31, p32]
  · simp [fr, TMesh.org, TMesh.dest, lnext, lprev, p00, p01, p02, p10, p11, p12, p20, p21, p22, p30, p31, p32]
  have gh : ∀ t ∈ ({n0, n1, n2, n3} : Finset Nat), h.m.Ghost t ↔ t ≠ n0 := by
    intro t ht
    simp only [Finset.mem_insert, Finset.mem_singleton] at ht
    constructor
    · rintro ⟨i, hi⟩ rfl
      have h3 : i = 0 ∨ i = 1 ∨ i = 2 := by omega
      rcases h3 with rfl | rfl | rfl <;> simp [p00, p01, p02, p10, p11, p12, p20, p21, p22, p30, p31, p32, hv0, hv1, hv2, hv01, hv02, hv12, hv01.symm, hv02.symm, hv12.symm, hv0.symm, hv1.symm, hv2.symm] at hi
    · intro hne
      rcases ht with rfl | rfl | rfl | rfl
      · exact absurd rfl hne
      · exact ⟨0, p10⟩
      · exact ⟨0, p20⟩
      · exact ⟨0, p30⟩
  refine ⟨?_, gh, ?_⟩
  · intro d hd h0
    rw [gh _ (C.mate (lprev d) hd).1]
    rcases tri d hd with rfl | rfl | rfl | rfl | rfl | rfl | rfl | rfl | rfl | rfl | rfl | rfl <;>
      simp [TMesh.dest, lprev, p00, p01, p02, p10, p11, p12, p20, p21, p22, p30, p31, p32, hv0, hv1, hv2, hv01, hv02, hv12, hv01.symm, hv02.symm, hv12.symm, hv0.symm, hv1.symm, hv2.symm] at h0 <;>
      simp [lprev, a00, a01, a02, a10, a11, a12, a20, a21, a22, a30, a31, a32]
  · simp [TMesh.corners, TMesh.org, TMesh.dest, lnext, lprev, p00, p01, p02, p10, p11, p12, p20, p21, p22, p30, p31, p32]

/-- Three vertices: case `cw` of `divconqrecurse`. -/
theorem cw_ok (m : TMesh K) {v0 v1 v2 n0 n1 n2 n3 : Nat} (h01 : n0 ≠ n1) (h02 : n0 ≠ n2) (h03 : n0 ≠ n3)
    (h12 : n1 ≠ n2) (h13 : n1 ≠ n3) (h23 : n2 ≠ n3) (hn0 : n0 ≠ 0) (hn1 : n1 ≠ 0) (hn2 : n2 ≠ 0) (hn3 : n3 ≠ 0)
    (hv0 : v0 ≠ 0) (hv1 : v1 ≠ 0) (hv2 : v2 ≠ 0) (hv01 : v0 ≠ v1) (hv02 : v0 ≠ v2) (hv12 : v1 ≠ v2) :
    let h := ((((m.maketriangle n0).maketriangle n1).maketriangle n2).maketriangle n3).threeCorners v0 v1 v2 false
      (n0, 0) (n1, 0) (n2, 0) (n3, 0)
    h.Ok {n0, n1, n2, n3} v0 v2 ∧
    (∀ e : TEdge, e.1 ≠ n0 → e.1 ≠ n1 → e.1 ≠ n2 → e.1 ≠ n3 →
      h.m.nb e = m.nb e ∧ h.m.apex e = m.apex e ∧ h.m.sg e = m.sg e) ∧
    h.m.Solid {n0, n1, n2, n3} ∧ (∀ t ∈ ({n0, n1, n2, n3} : Finset Nat), h.m.Ghost t ↔ t ≠ n0) ∧
    h.m.corners (n0, 0) = (v0, v2, v1) := by
  intro h
  obtain ⟨fl, fr, a00, a01, a02, a10, a11, a12, a20, a21, a22, a30, a31, a32, p00, p01, p02, p10, p11, p12, p20, p21, p22, p30, p31, p32, rest, bare⟩ :=
    cw_table m v0 v1 v2 n0 n1 n2 n3 h01 h02 h03 h12 h13 h23
  change h.farleft = _ at fl
  change h.farright = _ at fr
  change h.m.nb _ = _ at a00 a01 a02 a10 a11 a12 a20 a21 a22 a30 a31 a32
  change h.m.apex _ = _ at p00 p01 p02 p10 p11 p12 p20 p21 p22 p30 p31 p32
  have tri : ∀ e : TEdge, e.1 ∈ ({n0, n1, n2, n3} : Finset Nat) →
      e = (n0, 0) ∨ e = (n0, 1) ∨ e = (n0, 2) ∨ e = (n1, 0) ∨ e = (n1, 1) ∨ e = (n1, 2) ∨ e = (n2, 0) ∨ e = (n2, 1) ∨ e = (n2, 2) ∨ e = (n3, 0) ∨ e = (n3, 1) ∨ e = (n3, 2) := by
    rintro ⟨t, i⟩ ht
    simp only [Finset.mem_insert, Finset.mem_singleton] at ht
    have hi : i = 0 ∨ i = 1 ∨ i = 2 := by omega
    rcases ht with rfl | rfl | rfl | rfl <;> rcases hi with rfl | rfl | rfl <;> simp
  have C : h.m.Closed {n0, n1, n2, n3} := by
    refine ⟨by simp [hn0.symm, hn1.symm, hn2.symm, hn3.symm], ?_, ?_, ?_⟩
    · intro e he
      rcases tri e he with rfl | rfl | rfl | rfl | rfl | rfl | rfl | rfl | rfl | rfl | rfl | rfl <;>
        simp [TMesh.org, TMesh.dest, lnext, lprev, a00, a01, a02, a10, a11, a12, a20, a21, a22, a30, a31, a32, p00, p01, p02, p10, p11, p12, p20, p21, p22, p30, p31, p32]
    · intro e he
      rcases tri e he with rfl | rfl | rfl | rfl | rfl | rfl | rfl | rfl | rfl | rfl | rfl | rfl <;>
        simp [TMesh.org, TMesh.dest, lnext, lprev, p00, p01, p02, p10, p11, p12, p20, p21, p22, p30, p31, p32, hv0, hv1, hv2, hv01, hv02, hv12, hv01.symm, hv02.symm, hv12.symm, hv0.symm, hv1.symm, hv2.symm]
    · rintro ⟨t, i⟩ he
      simp only [Finset.mem_insert, Finset.mem_singleton] at he
      rcases he with rfl | rfl | rfl | rfl
      · exact (bare i).1
      · exact (bare i).2.1
      · exact (bare i).2.2.1
      · exact (bare i).2.2.2
  refine ⟨⟨C, ?_, ?_, ?_⟩, rest, ?_⟩
  · refine fence_of (n1, 1) 3 ?_ ?_
    · simp [around, lnext, a00, a01, a02, a10, a11, a12, a20, a21, a22, a30, a31, a32]
    · intro d hd h0
      rcases tri d hd with rfl | rfl | rfl | rfl | rfl | rfl | rfl | rfl | rfl | rfl | rfl | rfl <;>
        simp [TMesh.dest, lprev, p00, p01, p02, p10, p11, p12, p20, p21, p22, p30, p31, p32, hv0, hv1, hv2, hv01, hv02, hv12, hv01.symm, hv02.symm, hv12.symm, hv0.symm, hv1.symm, hv2.symm] at h0
      · exact ⟨0, by omega, by simp [around, lnext, a00, a01, a02, a10, a11, a12, a20, a21, a22, a30, a31, a32]⟩
      · exact ⟨1, by omega, by simp [around, lnext, a00, a01, a02, a10, a11, a12, a20, a21, a22, a30, a31, a32]⟩
      · exact ⟨2, by omega, by simp [around, lnext, a00, a01, a02, a10, a11, a12, a20, a21, a22, a30, a31, a32]⟩
  · simp [fl, TMesh.org, TMesh.dest, lnext, lprev, p00, p01, p02, p10, p11, p12, p20, p21, p22, p30, p31, p32]
  · simp [fr, TMesh.org, TMesh.dest, lnext, lprev, p00, p01, p02, p10, p11, p12, p20, p21, p22, p30, p31, p32]
  have gh : ∀ t ∈ ({n0, n1, n2, n3} : Finset Nat), h.m.Ghost t ↔ t ≠ n0 := by
    intro t ht
    simp only [Finset.mem_insert, Finset.mem_singleton] at ht
    constructor
    · rintro ⟨i, hi⟩ rfl
      have h3 : i = 0 ∨ i = 1 ∨ i = 2 := by omega
      rcases h3 with rfl | rfl | rfl <;> simp [p00, p01, p02, p10, p11, p12, p20, p21, p22, p30, p31, p32, hv0, hv1, hv2, hv01, hv02, hv12, hv01.symm, hv02.symm, hv12.symm, hv0.symm, hv1.symm, hv2.symm] at hi
    · intro hne
      rcases ht with rfl | rfl | rfl | rfl
      · exact absurd rfl hne
      · exact ⟨0, p10⟩
      · exact ⟨0, p20⟩
      · exact ⟨0, p30⟩
  refine ⟨?_, gh, ?_⟩
  · intro d hd h0
    rw [gh _ (C.mate (lprev d) hd).1]
    rcases tri d hd with rfl | rfl | rfl | rfl | rfl | rfl | rfl | rfl | rfl | rfl | rfl | rfl <;>
      simp [TMesh.dest, lprev, p00, p01, p02, p10, p11, p12, p20, p21, p22, p30, p31, p32, hv0, hv1, hv2, hv01, hv02, hv12, hv01.symm, hv02.symm, hv12.symm, hv0.symm, hv1.symm, hv2.symm] at h0 <;>
      simp [lprev, a00, a01, a02, a10, a11, a12, a20, a21, a22, a30, a31, a32]
  · simp [TMesh.corners, TMesh.org, TMesh.dest, lnext, lprev, p00, p01, p02, p10, p11, p12, p20, p21, p22, p30, p31, p32]

end

end Ghosts
end Nikfemm
