import Verif.Spec.Carve
import Mathlib.Data.List.Nodup
import Mathlib.Data.Finset.Card
import Mathlib.Data.Finset.Range
import Mathlib.Tactic.IntervalCases

/-!
# Lemmas for C81: spreading over a triangulation
-/

namespace Nikfemm
open Spec

variable {T : Topo} {hull : List (Nat × Nat)}

theorem isEnd_iff {v : Nat} {e : Nat × Nat} (he : e.2 < 3) :
    IsEnd T v e ↔ v = T.org e ∨ v = T.dest e := by
  obtain ⟨t, j⟩ := e
  unfold IsEnd Topo.org Topo.dest
  simp only at he ⊢
  constructor
  · rintro ⟨k, hk, hne, rfl⟩
    interval_cases j <;> interval_cases k <;> simp at hne ⊢
  · rintro (rfl | rfl)
    · exact ⟨_, Nat.mod_lt _ (by decide), by omega, rfl⟩
    · exact ⟨_, Nat.mod_lt _ (by decide), by omega, rfl⟩

theorem sameRegion_lt (hT : TopoOK T hull) {t u : Nat} (ht : t < T.size) (h : SameRegion T t u) :
    u < T.size := by
  induction h with
  | refl => exact ht
  | tail _ h _ =>
    obtain ⟨h1, k, j, hk, e, -⟩ := h
    exact (hT.adj _ _ _ _ h1 hk e).1

theorem open_symm (hT : TopoOK T hull) {t u : Nat} (h : Open T t u) : Open T u t := by
  obtain ⟨h1, k, j, hk, e, hs⟩ := h
  obtain ⟨hu, hj, -, e', hs'⟩ := hT.adj _ _ _ _ h1 hk e
  exact ⟨hu, j, k, hj, e', by rw [hs', hs]⟩

theorem sameRegion_symm (hT : TopoOK T hull) {t u : Nat} (h : SameRegion T t u) : SameRegion T u t := by
  induction h with
  | refl => exact Relation.ReflTransGen.refl
  | tail _ h ih => exact Relation.ReflTransGen.head (open_symm hT h) ih

theorem pool_length {l : List Nat} {n : Nat} (hn : l.Nodup) (h : ∀ t ∈ l, t < n) : l.length ≤ n := by
  have : l.toFinset ⊆ Finset.range n := by
    intro t ht
    exact Finset.mem_range.mpr (h t (List.mem_toFinset.mp ht))
  have := Finset.card_le_card this
  rwa [List.toFinset_card_of_nodup hn, Finset.card_range] at this

theorem mem_prefix {l : List Nat} {i t : Nat} (h : l[i]? = some t) : t ∈ l :=
  List.mem_of_getElem? h

/-! ## The outer triangles -/

/-- The edge has been examined from the side of the dying triangle. -/
def EdgeDone (T : Topo) (st : Virus) (t k : Nat) : Prop :=
  ∀ u j, T.sym t k = some (u, j) → (T.sub t k = false → u ∈ st.pool) ∧
    (u ∉ st.pool → st.marked (T.org (u, j)) = true ∧ st.marked (T.dest (u, j)) = true)

/-- State of the spread: `cur` is being treated and its first `done` edges have been examined. -/
structure PInv (T : Topo) (hull : List (Nat × Nat)) (cur : Option Nat) (pos done : Nat) (st : Virus) :
    Prop where
  nodup : st.pool.Nodup
  posLe : pos ≤ st.pool.length
  lt : ∀ t ∈ st.pool, t < T.size
  inf : ∀ t, st.infected t = true ↔ t ∈ st.pool ∧ some t ≠ cur
  reach : ∀ t ∈ st.pool, Outside T t
  sub : ∀ t k, t < T.size → k < 3 → st.sub t k = T.sub t k ∨
    (t ∈ st.pool ∧ ∃ u j, T.sym t k = some (u, j) ∧ u ∈ st.pool)
  closed : ∀ (i : Nat) t, i < pos → st.pool[i]? = some t → ∀ k < 3, EdgeDone T st t k
  part : ∀ t, cur = some t → st.pool[pos]? = some t ∧ ∀ k < done, EdgeDone T st t k
  marks : ∀ v, st.marked v = true → ∃ e : Nat × Nat, e.1 < T.size ∧ e.2 < 3 ∧ T.sub e.1 e.2 = true ∧
    IsEnd T v e ∧ (T.sym e.1 e.2 = none ∨ ∃ u j, T.sym e.1 e.2 = some (u, j) ∧ u ∈ st.pool)
  hullMarks : ∀ e ∈ hull, e.1 ∉ st.pool → st.marked (T.org e) = true ∧ st.marked (T.dest e) = true
  hullOpen : ∀ e ∈ hull, T.sub e.1 e.2 = false → e.1 ∈ st.pool

theorem mark_marked (st : Virus) (v w x : Nat) :
    (st.mark v w).marked x = true ↔ x = v ∨ x = w ∨ st.marked x = true := by
  simp only [Virus.mark, Function.update_apply]
  split_ifs <;> simp_all

theorem catch_infected (st : Virus) (t x : Nat) :
    (st.catch t).infected x = true ↔ x = t ∨ st.infected x = true := by
  simp only [Virus.catch, Function.update_apply]
  split_ifs <;> simp_all

theorem EdgeDone.grow {st st' : Virus} {t k : Nat} (h : EdgeDone T st t k)
    (hp : ∀ x ∈ st.pool, x ∈ st'.pool) (hm : ∀ v, st.marked v = true → st'.marked v = true) :
    EdgeDone T st' t k := by
  intro u j e
  obtain ⟨h1, h2⟩ := h u j e
  refine ⟨fun hs => hp _ (h1 hs), fun hu => ?_⟩
  obtain ⟨a, b⟩ := h2 (fun hc => hu (hp _ hc))
  exact ⟨hm _ a, hm _ b⟩

/-- A newly infected triangle. -/
theorem PInv.catch {cur : Option Nat} {pos done : Nat} {st : Virus} (h : PInv T hull cur pos done st)
    {u : Nat} (hu : u < T.size) (hn : u ∉ st.pool) (hr : Outside T u) (hc : some u ≠ cur) :
    PInv T hull cur pos done (st.catch u) where
  nodup := by
    show (st.pool ++ [u]).Nodup
    rw [List.nodup_append]
    refine ⟨h.nodup, by simp, ?_⟩
    intro a ha b hb e
    obtain rfl : b = u := by simpa using hb
    exact hn (e ▸ ha)
  lt := by
    intro t ht
    rcases List.mem_append.mp ht with ht | ht
    · exact h.lt t ht
    · obtain rfl : t = u := by simpa using ht
      exact hu
  posLe := by
    have := h.posLe
    simp only [Virus.catch, List.length_append]; omega
  inf := by
    intro t
    rw [catch_infected, h.inf]
    show _ ↔ t ∈ st.pool ++ [u] ∧ _
    simp only [List.mem_append, List.mem_singleton]
    constructor
    · rintro (rfl | h1)
      · exact ⟨Or.inr rfl, hc⟩
      · exact ⟨Or.inl h1.1, h1.2⟩
    · rintro ⟨h1 | h1, h2⟩
      · exact Or.inr ⟨h1, h2⟩
      · exact Or.inl h1
  reach := by
    intro t ht
    rcases List.mem_append.mp ht with ht | ht
    · exact h.reach t ht
    · obtain rfl : t = u := by simpa using ht
      exact hr
  sub := by
    intro t k ht hk
    rcases h.sub t k ht hk with e | ⟨a, x, j, e, b⟩
    · exact Or.inl e
    · exact Or.inr ⟨List.mem_append_left _ a, x, j, e, List.mem_append_left _ b⟩
  closed := by
    intro i t hi ht k hk
    have hlt : i < st.pool.length := lt_of_lt_of_le hi h.posLe
    have ht' : st.pool[i]? = some t := by
      rw [← ht]; exact (List.getElem?_append_left hlt).symm
    exact (h.closed i t hi ht' k hk).grow (fun x hx => List.mem_append_left _ hx) (fun v hv => hv)
  part := by
    intro t ht
    obtain ⟨a, b⟩ := h.part t ht
    refine ⟨?_, fun k hk => (b k hk).grow (fun x hx => List.mem_append_left _ hx) (fun v hv => hv)⟩
    obtain ⟨hlt, -⟩ := List.getElem?_eq_some_iff.mp a
    exact (List.getElem?_append_left hlt).trans a
  marks := by
    intro v hv
    obtain ⟨e, a, b, c, d, f⟩ := h.marks v hv
    exact ⟨e, a, b, c, d, f.imp id (fun ⟨x, j, e, g⟩ => ⟨x, j, e, List.mem_append_left _ g⟩)⟩
  hullMarks := fun e he hne => h.hullMarks e he (fun hc => hne (List.mem_append_left _ hc))
  hullOpen := fun e he hs => List.mem_append_left _ (h.hullOpen e he hs)

/-- Marking the ends of a subsegment. -/
theorem PInv.mark {cur : Option Nat} {pos done : Nat} {st : Virus} (h : PInv T hull cur pos done st)
    {e : Nat × Nat} (h1 : e.1 < T.size) (h2 : e.2 < 3) (hs : T.sub e.1 e.2 = true)
    (hn : T.sym e.1 e.2 = none ∨ ∃ u j, T.sym e.1 e.2 = some (u, j) ∧ u ∈ st.pool) :
    PInv T hull cur pos done (st.mark (T.org e) (T.dest e)) where
  nodup := h.nodup
  posLe := h.posLe
  lt := h.lt
  inf := h.inf
  reach := h.reach
  sub := h.sub
  closed := fun i t hi ht k hk => (h.closed i t hi ht k hk).grow (fun _ hx => hx)
    (fun v hv => (mark_marked ..).mpr (Or.inr (Or.inr hv)))
  part := fun t ht => ⟨(h.part t ht).1, fun k hk => ((h.part t ht).2 k hk).grow (fun _ hx => hx)
    (fun v hv => (mark_marked ..).mpr (Or.inr (Or.inr hv)))⟩
  marks := by
    intro v hv
    rcases (mark_marked ..).mp hv with rfl | rfl | hv
    · exact ⟨e, h1, h2, hs, (isEnd_iff h2).mpr (Or.inl rfl), hn⟩
    · exact ⟨e, h1, h2, hs, (isEnd_iff h2).mpr (Or.inr rfl), hn⟩
    · exact h.marks v hv
  hullMarks := fun e he hne =>
    ⟨(mark_marked ..).mpr (Or.inr (Or.inr (h.hullMarks e he hne).1)),
      (mark_marked ..).mpr (Or.inr (Or.inr (h.hullMarks e he hne).2))⟩
  hullOpen := h.hullOpen

/-- Removing a subsegment between two infected triangles. -/
theorem PInv.drop {cur : Option Nat} {pos done : Nat} {st : Virus} (h : PInv T hull cur pos done st)
    {u j t k : Nat} (hu : u ∈ st.pool) (e : T.sym u j = some (t, k)) (ht : t ∈ st.pool) :
    PInv T hull cur pos done
      { st with sub := Function.update st.sub u (Function.update (st.sub u) j false) } where
  nodup := h.nodup
  posLe := h.posLe
  lt := h.lt
  inf := h.inf
  reach := h.reach
  sub := by
    intro x l hx hl
    by_cases hc : x = u ∧ l = j
    · obtain ⟨rfl, rfl⟩ := hc
      exact Or.inr ⟨hu, t, k, e, ht⟩
    · have : (Function.update st.sub u (Function.update (st.sub u) j false)) x l = st.sub x l := by
        by_cases hxu : x = u
        · subst hxu
          rw [Function.update_self, Function.update_of_ne (fun hlj => hc ⟨rfl, hlj⟩)]
        · rw [Function.update_of_ne hxu]
      simp only [this]
      exact h.sub x l hx hl
  closed := h.closed
  part := h.part
  marks := h.marks
  hullMarks := h.hullMarks
  hullOpen := h.hullOpen

theorem plagueEdge_inv (hT : TopoOK T hull) {l : List (Nat × Nat)} {t pos k : Nat} {st : Virus}
    (h : PInv T l (some t) pos k st) (hk : k < 3) :
    PInv T l (some t) pos (k + 1) (plagueEdge T t st k) := by
  obtain ⟨hpos, hdone⟩ := h.part t rfl
  have htp : t ∈ st.pool := mem_prefix hpos
  have ht : t < T.size := h.lt t htp
  have finish : ∀ st', PInv T l (some t) pos k st' → EdgeDone T st' t k →
      PInv T l (some t) pos (k + 1) st' := by
    intro st' h' hd
    refine { h' with part := ?_ }
    intro t' e
    obtain rfl : t = t' := by simpa using e
    refine ⟨(h'.part t rfl).1, fun k' hk' => ?_⟩
    rcases Nat.lt_succ_iff_lt_or_eq.mp hk' with hlt | rfl
    · exact (h'.part t rfl).2 k' hlt
    · exact hd
  unfold plagueEdge
  cases e : T.sym t k with
  | none =>
    apply finish _ h
    intro u j e'
    rw [e] at e'; cases e'
  | some p =>
    obtain ⟨u, j⟩ := p
    obtain ⟨hu, hj, hut, e', hsub⟩ := hT.adj t k u j ht hk e
    have hinf : st.infected u = true ↔ u ∈ st.pool := by
      rw [h.inf]
      constructor
      · exact fun x => x.1
      · exact fun x => ⟨x, fun hc => hut (by simpa using hc)⟩
    have doneOf : ∀ st' : Virus, u ∈ st'.pool → EdgeDone T st' t k := by
      intro st' hm u' j' e2
      rw [e] at e2
      obtain ⟨rfl, rfl⟩ : u = u' ∧ j = j' := by simpa using e2
      exact ⟨fun _ => hm, fun hc => absurd hm hc⟩
    simp only
    by_cases hi : st.infected u = true
    · have hm := hinf.mp hi
      rw [if_pos hi]
      split_ifs
      · exact finish _ (h.drop hm e' htp) (doneOf _ hm)
      · exact finish _ h (doneOf _ hm)
    · have hm : u ∉ st.pool := fun hc => hi (hinf.mpr hc)
      rw [if_neg hi]
      have hs : st.sub t k = T.sub t k := by
        rcases h.sub t k ht hk with hs | ⟨-, u', j', e2, hu'⟩
        · exact hs
        · rw [e] at e2
          obtain ⟨rfl, rfl⟩ : u = u' ∧ j = j' := by simpa using e2
          exact absurd hu' hm
      rw [hs]
      by_cases hts : T.sub t k = false
      · rw [if_pos hts]
        have hr : Outside T u := by
          obtain ⟨x, m, hx, hm', hn, hso, hreach⟩ := h.reach t htp
          exact ⟨x, m, hx, hm', hn, hso, hreach.tail ⟨ht, k, j, hk, e, hts⟩⟩
        exact finish _ (h.catch hu hm hr (fun hc => hut (by simpa using hc)))
          (doneOf _ (by simp [Virus.catch]))
      · rw [if_neg hts]
        have hts' : T.sub t k = true := by simpa using hts
        refine finish _ (h.mark (e := (u, j)) hu hj (by rw [hsub, hts']) (Or.inr ⟨t, k, e', htp⟩)) ?_
        intro u' j' e2
        rw [e] at e2
        obtain ⟨rfl, rfl⟩ : u = u' ∧ j = j' := by simpa using e2
        exact ⟨fun hc => absurd hc hts, fun _ => ⟨(mark_marked ..).mpr (Or.inl rfl),
          (mark_marked ..).mpr (Or.inr (Or.inl rfl))⟩⟩

theorem plagueTri_inv (hT : TopoOK T hull) {l : List (Nat × Nat)} {t pos : Nat} {st : Virus}
    (h : PInv T l none pos 0 st) (ht : st.pool[pos]? = some t) :
    PInv T l none (pos + 1) 0 (plagueTri T st t) := by
  have htp : t ∈ st.pool := mem_prefix ht
  have h0 : PInv T l (some t) pos 0 { st with infected := Function.update st.infected t false } := by
    refine { h with inf := ?_, part := ?_ }
    · intro x
      simp only [Function.update_apply]
      by_cases hx : x = t
      · subst hx; simp
      · rw [if_neg hx, h.inf]; simp [hx]
    · intro t' e
      obtain rfl : t = t' := by simpa using e
      exact ⟨ht, fun k hk => absurd hk (Nat.not_lt_zero _)⟩
  have h3 := plagueEdge_inv hT (plagueEdge_inv hT (plagueEdge_inv hT h0 (by omega)) (by omega)) (by omega)
  unfold plagueTri
  simp only [List.foldl_cons, List.foldl_nil]
  generalize plagueEdge T t (plagueEdge T t (plagueEdge T t _ 0) 1) 2 = st' at h3 ⊢
  obtain ⟨hp, hd⟩ := h3.part t rfl
  have hlt : pos < st'.pool.length := (List.getElem?_eq_some_iff.mp hp).1
  refine { h3 with inf := ?_, part := ?_, closed := ?_, posLe := hlt }
  · intro x
    simp only [Function.update_apply]
    by_cases hx : x = t
    · subst hx; simpa using mem_prefix hp
    · rw [if_neg hx, h3.inf]; simp [hx]
  · intro i t' hi e k hk
    rcases Nat.lt_succ_iff_lt_or_eq.mp hi with hlt | rfl
    · exact h3.closed i t' hlt e k hk
    · have : some t = some t' := hp.symm.trans e
      obtain rfl : t = t' := by simpa using this
      exact hd k (by omega)
  · intro t' e; cases e

theorem spread_inv (hT : TopoOK T hull) {l : List (Nat × Nat)} :
    ∀ (fuel pos : Nat) (st : Virus), PInv T l none pos 0 st → T.size ≤ fuel + pos →
      ∃ st', spread T fuel pos st = some st' ∧ PInv T l none st'.pool.length 0 st' := by
  intro fuel
  induction fuel with
  | zero =>
    intro pos st h hf
    rw [spread]
    have hle := pool_length h.nodup h.lt
    have : st.pool[pos]? = none := List.getElem?_eq_none (by omega)
    rw [this]
    obtain rfl : pos = st.pool.length := le_antisymm h.posLe (by omega)
    exact ⟨st, rfl, h⟩
  | succ fuel ih =>
    intro pos st h hf
    rw [spread]
    cases e : st.pool[pos]? with
    | none =>
      obtain rfl : pos = st.pool.length := le_antisymm h.posLe (List.getElem?_eq_none_iff.mp e)
      exact ⟨st, rfl, h⟩
    | some t =>
      exact ih (pos + 1) _ (plagueTri_inv hT h e) (by omega)

/-- One more edge of the hull. -/
theorem PInv.addHull {l : List (Nat × Nat)} {st : Virus} (h : PInv T l none 0 0 st) {e : Nat × Nat}
    (hm : e.1 ∉ st.pool → st.marked (T.org e) = true ∧ st.marked (T.dest e) = true)
    (ho : T.sub e.1 e.2 = false → e.1 ∈ st.pool) : PInv T (l ++ [e]) none 0 0 st := by
  refine { h with hullMarks := ?_, hullOpen := ?_ }
  · intro e' he
    rcases List.mem_append.mp he with he | he
    · exact h.hullMarks e' he
    · obtain rfl : e' = e := by simpa using he
      exact hm
  · intro e' he
    rcases List.mem_append.mp he with he | he
    · exact h.hullOpen e' he
    · obtain rfl : e' = e := by simpa using he
      exact ho

theorem hullFold_inv (m : List (Nat × Nat)) : ∀ (l : List (Nat × Nat)) (st : Virus),
    (∀ e ∈ m, e.1 < T.size ∧ e.2 < 3 ∧ T.sym e.1 e.2 = none) →
    PInv T l none 0 0 st → st.sub = T.sub →
    PInv T (l ++ m) none 0 0 (m.foldl (hullStep T) st) ∧ (m.foldl (hullStep T) st).sub = T.sub := by
  induction m with
  | nil => intro l st _ h hs; simpa using ⟨h, hs⟩
  | cons e m ih =>
    intro l st hm h hs
    obtain ⟨h1, h2, h3⟩ := hm e (by simp)
    have key : PInv T (l ++ [e]) none 0 0 (hullStep T st e) ∧ (hullStep T st e).sub = T.sub := by
      unfold hullStep
      by_cases hi : st.infected e.1 = true
      · rw [if_pos hi]
        have hp := ((h.inf _).mp hi).1
        exact ⟨h.addHull (fun hc => absurd hp hc) (fun _ => hp), hs⟩
      · rw [if_neg hi, hs]
        have hp : e.1 ∉ st.pool := fun hc => hi ((h.inf _).mpr ⟨hc, by simp⟩)
        by_cases hse : T.sub e.1 e.2 = false
        · rw [if_pos hse]
          have hc := h.catch h1 hp ⟨e.1, e.2, h1, h2, h3, hse, Relation.ReflTransGen.refl⟩ (by simp)
          have hmem : e.1 ∈ (st.catch e.1).pool := by simp [Virus.catch]
          exact ⟨hc.addHull (fun hc' => absurd hmem hc') (fun _ => hmem), hs⟩
        · rw [if_neg hse]
          have hc := h.mark h1 h2 (by simpa using hse) (Or.inl h3)
          exact ⟨hc.addHull (fun _ => ⟨(mark_marked ..).mpr (Or.inl rfl),
            (mark_marked ..).mpr (Or.inr (Or.inl rfl))⟩) (fun hc' => absurd hc' hse), hs⟩
    have := ih (l ++ [e]) _ (fun e' he' => hm e' (List.mem_cons_of_mem _ he')) key.1 key.2
    simpa using this

theorem infectHull_inv (hT : TopoOK T hull) : PInv T hull none 0 0 (infectHull T hull) := by
  have h0 : PInv T [] none 0 0 ⟨fun _ => false, T.sub, fun _ => false, []⟩ :=
    ⟨by simp, by simp, by simp, by simp, by simp, fun _ _ _ _ => Or.inl rfl, by simp, by simp, by simp,
      by simp, by simp⟩
  have := (hullFold_inv (T := T) hull [] _ (fun e he => (hT.hull e).mp he) h0 rfl).1
  simpa [infectHull] using this

/-- What the outer spread ends with. -/
structure Done (T : Topo) (st : Virus) : Prop where
  nodup : st.pool.Nodup
  lt : ∀ t ∈ st.pool, t < T.size
  mem : ∀ t, t ∈ st.pool ↔ Outside T t
  inf : ∀ t, st.infected t = true ↔ t ∈ st.pool
  sub : ∀ t k, t < T.size → k < 3 → t ∉ st.pool → st.sub t k = T.sub t k
  bound : ∀ e, BoundaryEdge T e → st.marked (T.org e) = true ∧ st.marked (T.dest e) = true
  marks : ∀ v, st.marked v = true → ∃ e : Nat × Nat, e.1 < T.size ∧ e.2 < 3 ∧ T.sub e.1 e.2 = true ∧
    IsEnd T v e ∧ (T.sym e.1 e.2 = none ∨ ∃ u j, T.sym e.1 e.2 = some (u, j) ∧ Outside T u)

theorem done_of_inv (hT : TopoOK T hull) {st : Virus} (h : PInv T hull none st.pool.length 0 st) :
    Done T st := by
  have hed : ∀ t ∈ st.pool, ∀ k < 3, EdgeDone T st t k := by
    intro t ht k hk
    obtain ⟨i, hi, e⟩ := List.getElem_of_mem ht
    exact h.closed i t hi (by rw [List.getElem?_eq_getElem hi, e]) k hk
  have hmem : ∀ t, t ∈ st.pool ↔ Outside T t := by
    intro t
    refine ⟨h.reach t, ?_⟩
    rintro ⟨u, k, hu, hk, hn, hs, hr⟩
    have hu' : u ∈ st.pool := h.hullOpen (u, k) ((hT.hull (u, k)).mpr ⟨hu, hk, hn⟩) hs
    induction hr with
    | refl => exact hu'
    | tail _ h1 ih =>
      obtain ⟨-, k', j, hk', e, hs'⟩ := h1
      exact (hed _ ih k' hk' _ j e).1 hs'
  refine ⟨h.nodup, h.lt, hmem, ?_, ?_, ?_, ?_⟩
  · intro t; rw [h.inf]; simp
  · intro t k ht hk hn
    exact (h.sub t k ht hk).resolve_right (fun hc => hn hc.1)
  · rintro e ⟨h1, h2, ho, h3 | ⟨u, j, e1, hu⟩⟩
    · exact h.hullMarks e ((hT.hull e).mpr ⟨h1, h2, h3⟩) (fun hc => ho ((hmem _).mp hc))
    · obtain ⟨hu1, hj, -, e2, -⟩ := hT.adj _ _ _ _ h1 h2 e1
      exact (hed u ((hmem u).mpr hu) j hj _ _ e2).2 (fun hc => ho ((hmem _).mp hc))
  · intro v hv
    obtain ⟨e, a, b, c, d, f⟩ := h.marks v hv
    exact ⟨e, a, b, c, d, f.imp id (fun ⟨u, j, e, g⟩ => ⟨u, j, e, (hmem u).mp g⟩)⟩

theorem outer_done (hT : TopoOK T hull) : ∃ st, outer T hull = some st ∧ Done T st := by
  unfold outer
  have h := infectHull_inv hT
  by_cases hp : (infectHull T hull).pool = []
  · rw [if_pos hp]
    refine ⟨_, rfl, done_of_inv hT ?_⟩
    rw [hp]; exact h
  · rw [if_neg hp]
    obtain ⟨st, e, h'⟩ := spread_inv hT T.size 0 _ h (by omega)
    exact ⟨st, e, done_of_inv hT h'⟩

/-! ## Disconnecting the outer triangles -/

/-- State while disconnecting: `P` are the triangles treated, `D` all that die. -/
structure DInv (T : Topo) (D : Nat → Prop) (P : Nat → Nat → Prop) (sym : Nat → Nat → Option (Nat × Nat)) :
    Prop where
  same : ∀ s k, sym s k = T.sym s k ∨ (sym s k = none ∧ ∃ t l, D t ∧ T.sym s k = some (t, l))
  keep : ∀ s k t l, D s → T.sym s k = some (t, l) → ¬ D t → sym s k = T.sym s k
  cut : ∀ s k t l, s < T.size → k < 3 → ¬ D s → P t l → T.sym s k = some (t, l) → sym s k = none

theorem dissolveEdge_inv (hT : TopoOK T hull) {D : Nat → Prop} {P : Nat → Nat → Prop}
    {sym : Nat → Nat → Option (Nat × Nat)} (h : DInv T D P sym) {t k : Nat} (ht : t < T.size) (hk : k < 3)
    (hD : D t) : DInv T D (fun a b => P a b ∨ (a = t ∧ b = k)) (match sym t k with
      | none => sym
      | some (u, j) => Function.update sym u (Function.update (sym u) j none)) := by
  cases e : sym t k with
  | none =>
    refine ⟨h.same, h.keep, ?_⟩
    rintro s m t' l hs hm hns (hp | ⟨rfl, rfl⟩) e'
    · exact h.cut s m t' l hs hm hns hp e'
    · obtain ⟨-, -, -, e2, -⟩ := hT.adj s m _ _ hs hm e'
      have := h.keep _ _ _ _ hD e2 hns
      rw [e, e2] at this; cases this
  | some p =>
    obtain ⟨u, j⟩ := p
    have eT : T.sym t k = some (u, j) := by
      rcases h.same t k with h1 | ⟨h1, -⟩
      · rw [← h1, e]
      · rw [e] at h1; cases h1
    obtain ⟨hu, hj, -, e2, -⟩ := hT.adj t k u j ht hk eT
    have look : ∀ s m, (Function.update sym u (Function.update (sym u) j none)) s m =
        if s = u ∧ m = j then none else sym s m := by
      intro s m
      by_cases hs : s = u
      · subst hs
        rw [Function.update_self]
        by_cases hm : m = j
        · subst hm; simp
        · rw [Function.update_of_ne hm]; simp [hm]
      · rw [Function.update_of_ne hs]; simp [hs]
    refine ⟨?_, ?_, ?_⟩
    · intro s m
      simp only [look]
      split_ifs with hc
      · obtain ⟨rfl, rfl⟩ := hc
        exact Or.inr ⟨rfl, t, k, hD, e2⟩
      · exact h.same s m
    · intro s m t' l hs e' hn
      simp only [look]
      split_ifs with hc
      · obtain ⟨rfl, rfl⟩ := hc
        rw [e2] at e'
        obtain ⟨rfl, rfl⟩ : t = t' ∧ k = l := by simpa using e'
        exact absurd hD hn
      · exact h.keep s m t' l hs e' hn
    · rintro s m t' l hs hm hns hp e'
      simp only [look]
      split_ifs with hc
      · rfl
      · rcases hp with hp | ⟨rfl, rfl⟩
        · exact h.cut s m t' l hs hm hns hp e'
        · obtain ⟨-, -, -, e3, -⟩ := hT.adj s m _ _ hs hm e'
          rw [eT] at e3
          obtain ⟨rfl, rfl⟩ : u = s ∧ j = m := by simpa using e3
          exact absurd ⟨rfl, rfl⟩ hc

theorem dissolveFold_inv (hT : TopoOK T hull) {D : Nat → Prop} (l : List Nat) :
    ∀ (Q : Nat → Prop) (sym : Nat → Nat → Option (Nat × Nat)),
      DInv T D (fun a b => Q a ∧ b < 3) sym → (∀ t ∈ l, t < T.size ∧ D t) →
      DInv T D (fun a b => (Q a ∨ a ∈ l) ∧ b < 3) (l.foldl dissolveTri sym) := by
  induction l with
  | nil => intro Q sym h _; simpa using h
  | cons t l ih =>
    intro Q sym h hl
    obtain ⟨ht, hD⟩ := hl t (by simp)
    have h1 := dissolveEdge_inv hT h ht (k := 0) (by omega) hD
    have h2 := dissolveEdge_inv hT h1 ht (k := 1) (by omega) hD
    have h3 := dissolveEdge_inv hT h2 ht (k := 2) (by omega) hD
    have h4 := ih (fun a => Q a ∨ a = t) (dissolveTri sym t)
      ⟨h3.same, h3.keep, fun s k t' m hs hk hn hp e => h3.cut s k t' m hs hk hn (by
        obtain ⟨hq | rfl, hm⟩ := hp
        · exact Or.inl (Or.inl (Or.inl ⟨hq, hm⟩))
        · have : m = 0 ∨ m = 1 ∨ m = 2 := by omega
          rcases this with rfl | rfl | rfl
          · exact Or.inl (Or.inl (Or.inr ⟨rfl, rfl⟩))
          · exact Or.inl (Or.inr ⟨rfl, rfl⟩)
          · exact Or.inr ⟨rfl, rfl⟩) e⟩
      (fun t' ht' => hl t' (List.mem_cons_of_mem _ ht'))
    refine ⟨h4.same, h4.keep, fun s k t' m hs hk hn hp e => h4.cut s k t' m hs hk hn ⟨?_, hp.2⟩ e⟩
    rcases hp.1 with hq | hq
    · exact Or.inl (Or.inl hq)
    · rcases List.mem_cons.mp hq with rfl | hq
      · exact Or.inl (Or.inr rfl)
      · exact Or.inr hq

/-- A triangle that stays loses exactly the neighbours that die. -/
theorem dissolve_spec (hT : TopoOK T hull) {st : Virus} (h : Done T st) {s k : Nat} (hs : s < T.size)
    (hk : k < 3) (ho : ¬ Outside T s) :
    (∀ u j, T.sym s k = some (u, j) → Outside T u → st.pool.foldl dissolveTri T.sym s k = none) ∧
    (∀ u j, T.sym s k = some (u, j) → ¬ Outside T u →
      st.pool.foldl dissolveTri T.sym s k = some (u, j)) ∧
    (T.sym s k = none → st.pool.foldl dissolveTri T.sym s k = none) := by
  have hd := dissolveFold_inv hT (D := Outside T) st.pool (fun _ => False) T.sym
    ⟨fun _ _ => Or.inl rfl, fun _ _ _ _ _ _ _ => rfl, fun _ _ _ _ _ _ _ hp => hp.1.elim⟩
    (fun t ht => ⟨h.lt t ht, (h.mem t).mp ht⟩)
  refine ⟨?_, ?_, ?_⟩
  · intro u j e hu
    obtain ⟨-, hj, -⟩ := hT.adj s k u j hs hk e
    exact hd.cut s k u j hs hk ho ⟨Or.inr ((h.mem u).mpr hu), hj⟩ e
  · intro u j e hu
    rcases hd.same s k with h1 | ⟨-, t, l, ht, e'⟩
    · rw [h1, e]
    · rw [e] at e'
      obtain ⟨rfl, rfl⟩ : u = t ∧ j = l := by simpa using e'
      exact absurd ht hu
  · intro e
    rcases hd.same s k with h1 | ⟨h1, -⟩
    · rw [h1, e]
    · exact h1

/-! ## The regions -/

variable {K : Type}

/-- State of the spread of a region. -/
structure RInv (T : Topo) (dead : Nat → Bool) (start : Nat) (a : K) (attr : Nat → K) (cur : Option Nat)
    (pos done : Nat) (st : RegionState K) : Prop where
  nodup : st.pool.Nodup
  posLe : pos ≤ st.pool.length
  reach : ∀ t ∈ st.pool, SameRegion T start t
  start : start ∈ st.pool
  inf : ∀ t, st.infected t = true ↔ dead t = true ∨ (t ∈ st.pool ∧ some t ≠ cur)
  closed : ∀ (i : Nat) t, i < pos → st.pool[i]? = some t → ∀ k < 3, ∀ u j, T.sym t k = some (u, j) →
    T.sub t k = false → u ∈ st.pool
  part : ∀ t, cur = some t → st.pool[pos]? = some t ∧ ∀ k < done, ∀ u j, T.sym t k = some (u, j) →
    T.sub t k = false → u ∈ st.pool
  set : ∀ (i : Nat) t, i < pos → st.pool[i]? = some t → st.attr t = a
  cset : ∀ t, cur = some t → st.attr t = a
  other : ∀ t, t ∉ st.pool → st.attr t = attr t

theorem outside_region (hT : TopoOK T hull) {t u : Nat} (h : SameRegion T t u) :
    Outside T t ↔ Outside T u := by
  constructor
  · rintro ⟨x, k, hx, hk, hn, hs, hr⟩
    exact ⟨x, k, hx, hk, hn, hs, hr.trans h⟩
  · rintro ⟨x, k, hx, hk, hn, hs, hr⟩
    exact ⟨x, k, hx, hk, hn, hs, hr.trans (sameRegion_symm hT h)⟩

theorem regionEdge_inv (hT : TopoOK T hull) {vs : Virus} (hd : Done T vs) {start : Nat}
    (hs : start < T.size) (ho : ¬ Outside T start) {a : K} {attr : Nat → K} {t pos k : Nat}
    {st : RegionState K} (h : RInv T vs.infected start a attr (some t) pos k st) (hk : k < 3) :
    RInv T vs.infected start a attr (some t) pos (k + 1)
      (regionEdge (vs.pool.foldl dissolveTri T.sym) vs.sub t st k) := by
  obtain ⟨hpos, hdone⟩ := h.part t rfl
  have htp : t ∈ st.pool := mem_prefix hpos
  have hr := h.reach t htp
  have ht : t < T.size := sameRegion_lt hT hs hr
  have hto : ¬ Outside T t := fun hc => ho ((outside_region hT hr).mpr hc)
  have hsub : vs.sub t k = T.sub t k := hd.sub t k ht hk (fun hc => hto ((hd.mem t).mp hc))
  obtain ⟨d1, d2, d3⟩ := dissolve_spec hT hd ht hk hto
  have finish : (∀ u j, T.sym t k = some (u, j) → T.sub t k = false → u ∈ st.pool) →
      RInv T vs.infected start a attr (some t) pos (k + 1) st := by
    intro hc
    refine { h with part := ?_ }
    intro t' e
    obtain rfl : t = t' := by simpa using e
    refine ⟨hpos, fun k' hk' => ?_⟩
    rcases Nat.lt_succ_iff_lt_or_eq.mp hk' with hlt | rfl
    · exact hdone k' hlt
    · exact hc
  unfold regionEdge
  rw [hsub]
  cases e : T.sym t k with
  | none =>
    rw [d3 e]
    exact finish (fun u j e' => by rw [e] at e'; cases e')
  | some p =>
    obtain ⟨u, j⟩ := p
    obtain ⟨hu, hj, hut, e', hsub'⟩ := hT.adj t k u j ht hk e
    by_cases huo : Outside T u
    · rw [d1 u j e huo]
      refine finish (fun u' j' e2 hs' => ?_)
      rw [e] at e2
      obtain ⟨rfl, rfl⟩ : u = u' ∧ j = j' := by simpa using e2
      exact absurd ((outside_region hT (Relation.ReflTransGen.single
        (⟨ht, k, j, hk, e, hs'⟩ : Open T t u))).mpr huo) hto
    · rw [d2 u j e huo]
      simp only
      have hdead : vs.infected u ≠ true := fun hc => huo ((hd.mem u).mp ((hd.inf u).mp hc))
      have hinf : st.infected u = true ↔ u ∈ st.pool := by
        rw [h.inf]
        constructor
        · rintro (hc | hc)
          · exact absurd hc hdead
          · exact hc.1
        · exact fun hc => Or.inr ⟨hc, fun hc' => hut (by simpa using hc')⟩
      by_cases hts : T.sub t k = false
      · by_cases hi : st.infected u = true
        · rw [if_neg (by simp [hi])]
          refine finish (fun u' j' e2 _ => ?_)
          rw [e] at e2
          obtain ⟨rfl, rfl⟩ : u = u' ∧ j = j' := by simpa using e2
          exact hinf.mp hi
        · rw [if_pos ⟨by simpa using hi, hts⟩]
          have hm : u ∉ st.pool := fun hc => hi (hinf.mpr hc)
          have grow : ∀ (i : Nat) t', st.pool[i]? = some t' → (st.pool ++ [u])[i]? = some t' := by
            intro i t' e3
            obtain ⟨hlt, -⟩ := List.getElem?_eq_some_iff.mp e3
            exact (List.getElem?_append_left hlt).trans e3
          have shrink : ∀ (i : Nat) t', i < pos → (st.pool ++ [u])[i]? = some t' → st.pool[i]? = some t' := by
            intro i t' hi' e3
            rw [← e3]; exact (List.getElem?_append_left (lt_of_lt_of_le hi' h.posLe)).symm
          constructor
          case nodup =>
            show (st.pool ++ [u]).Nodup
            rw [List.nodup_append]
            refine ⟨h.nodup, by simp, ?_⟩
            intro x hx y hy exy
            obtain rfl : y = u := by simpa using hy
            exact hm (exy ▸ hx)
          case posLe =>
            have := h.posLe
            simp only [List.length_append]; omega
          case reach =>
            intro x hx
            rcases List.mem_append.mp hx with hx | hx
            · exact h.reach x hx
            · obtain rfl : x = u := by simpa using hx
              exact hr.tail ⟨ht, k, j, hk, e, hts⟩
          case start => exact List.mem_append_left _ h.start
          case inf =>
            intro x
            simp only [Function.update_apply, List.mem_append, List.mem_singleton]
            by_cases hx : x = u
            · subst hx
              simp [hut]
            · rw [if_neg hx, h.inf]
              simp [hx]
          case closed =>
            intro i t' hi' e3 k' hk' u' j' e4 hs'
            exact List.mem_append_left _ (h.closed i t' hi' (shrink i t' hi' e3) k' hk' u' j' e4 hs')
          case part =>
            intro t' e3
            obtain rfl : t = t' := by simpa using e3
            refine ⟨grow _ _ hpos, fun k' hk' u' j' e4 hs' => ?_⟩
            rcases Nat.lt_succ_iff_lt_or_eq.mp hk' with hlt | rfl
            · exact List.mem_append_left _ (hdone k' hlt u' j' e4 hs')
            · rw [e] at e4
              obtain ⟨rfl, rfl⟩ : u = u' ∧ j = j' := by simpa using e4
              simp
          case set => exact fun i t' hi' e3 => h.set i t' hi' (shrink i t' hi' e3)
          case cset => exact h.cset
          case other => exact fun t' ht' => h.other t' (fun hc => ht' (List.mem_append_left _ hc))
      · rw [if_neg (fun hc => hts hc.2)]
        exact finish (fun u' j' _ hs' => absurd hs' hts)

theorem regionTri_inv (hT : TopoOK T hull) {vs : Virus} (hd : Done T vs) {start : Nat}
    (hs : start < T.size) (ho : ¬ Outside T start) {a : K} {attr : Nat → K} {t pos : Nat}
    {st : RegionState K} (h : RInv T vs.infected start a attr none pos 0 st) (ht : st.pool[pos]? = some t) :
    RInv T vs.infected start a attr none (pos + 1) 0
      (regionTri (vs.pool.foldl dissolveTri T.sym) vs.sub a st t) := by
  have htp : t ∈ st.pool := mem_prefix ht
  have hdead : vs.infected t ≠ true := fun hc =>
    ho ((outside_region hT (h.reach t htp)).mpr ((hd.mem t).mp ((hd.inf t).mp hc)))
  have h0 : RInv T vs.infected start a attr (some t) pos 0
      { st with infected := Function.update st.infected t false, attr := Function.update st.attr t a } := by
    constructor
    case nodup => exact h.nodup
    case posLe => exact h.posLe
    case reach => exact h.reach
    case start => exact h.start
    case inf =>
      intro x
      simp only [Function.update_apply]
      by_cases hx : x = t
      · subst hx; simp [hdead]
      · rw [if_neg hx, h.inf]; simp [hx]
    case closed => exact h.closed
    case part =>
      intro t' e
      obtain rfl : t = t' := by simpa using e
      exact ⟨ht, fun k hk => absurd hk (Nat.not_lt_zero _)⟩
    case set =>
      intro i t' hi e
      simp only [Function.update_apply]
      split_ifs with hc
      · rfl
      · exact h.set i t' hi e
    case cset =>
      intro t' e
      obtain rfl : t = t' := by simpa using e
      simp
    case other =>
      intro t' hn
      simp only [Function.update_apply]
      split_ifs with hc
      · subst hc; exact absurd htp hn
      · exact h.other t' hn
  have h3 := regionEdge_inv hT hd hs ho (regionEdge_inv hT hd hs ho
    (regionEdge_inv hT hd hs ho h0 (by omega)) (by omega)) (by omega)
  unfold regionTri
  simp only [List.foldl_cons, List.foldl_nil]
  generalize regionEdge _ _ t (regionEdge _ _ t (regionEdge _ _ t _ 0) 1) 2 = st' at h3 ⊢
  obtain ⟨hp, hdn⟩ := h3.part t rfl
  have hlt : pos < st'.pool.length := (List.getElem?_eq_some_iff.mp hp).1
  constructor
  case nodup => exact h3.nodup
  case posLe => exact hlt
  case reach => exact h3.reach
  case start => exact h3.start
  case inf =>
    intro x
    simp only [Function.update_apply]
    by_cases hx : x = t
    · subst hx; simp [mem_prefix hp]
    · rw [if_neg hx, h3.inf]; simp [hx]
  case closed =>
    intro i t' hi e k hk
    rcases Nat.lt_succ_iff_lt_or_eq.mp hi with hlt | rfl
    · exact h3.closed i t' hlt e k hk
    · have : some t = some t' := hp.symm.trans e
      obtain rfl : t = t' := by simpa using this
      exact hdn k (by omega)
  case part => intro t' e; cases e
  case set =>
    intro i t' hi e
    rcases Nat.lt_succ_iff_lt_or_eq.mp hi with hlt | rfl
    · exact h3.set i t' hlt e
    · have : some t = some t' := hp.symm.trans e
      obtain rfl : t = t' := by simpa using this
      exact h3.cset t rfl
  case cset => intro t' e; cases e
  case other => exact h3.other

theorem regionSpread_inv (hT : TopoOK T hull) {vs : Virus} (hd : Done T vs) {start : Nat}
    (hs : start < T.size) (ho : ¬ Outside T start) {a : K} {attr : Nat → K} :
    ∀ (fuel pos : Nat) (st : RegionState K), RInv T vs.infected start a attr none pos 0 st →
      T.size ≤ fuel + pos → ∃ st',
        regionSpread (vs.pool.foldl dissolveTri T.sym) vs.sub a fuel pos st = some st' ∧
          RInv T vs.infected start a attr none st'.pool.length 0 st' := by
  intro fuel
  induction fuel with
  | zero =>
    intro pos st h hf
    rw [regionSpread]
    have hle := pool_length h.nodup (fun t ht => sameRegion_lt hT hs (h.reach t ht))
    have : st.pool[pos]? = none := List.getElem?_eq_none (by omega)
    rw [this]
    obtain rfl : pos = st.pool.length := le_antisymm h.posLe (by omega)
    exact ⟨st, rfl, h⟩
  | succ fuel ih =>
    intro pos st h hf
    rw [regionSpread]
    cases e : st.pool[pos]? with
    | none =>
      obtain rfl : pos = st.pool.length := le_antisymm h.posLe (List.getElem?_eq_none_iff.mp e)
      exact ⟨st, rfl, h⟩
    | some t =>
      exact ih (pos + 1) _ (regionTri_inv hT hd hs ho h e) (by omega)

theorem foldl_uninfect (l : List Nat) : ∀ (f : Nat → Bool) (x : Nat),
    (l.foldl (fun f t => Function.update f t false) f) x = if x ∈ l then false else f x := by
  induction l with
  | nil => intro f x; simp
  | cons t l ih =>
    intro f x
    rw [List.foldl_cons, ih]
    by_cases hx : x ∈ l
    · simp [hx]
    · by_cases hxt : x = t
      · subst hxt; simp [hx]
      · simp [hx, hxt]

/-- A label gives its attribute to its region and to nothing else. -/
theorem regionPlague_spec (hT : TopoOK T hull) {vs : Virus} (hd : Done T vs) {start : Nat}
    (hs : start < T.size) (ho : ¬ Outside T start) (a : K) (attr : Nat → K) :
    ∃ attr', regionPlague T.size (vs.pool.foldl dissolveTri T.sym) vs.sub start a vs.infected attr
        = some (vs.infected, attr') ∧
      (∀ t, SameRegion T start t → attr' t = a) ∧ (∀ t, ¬ SameRegion T start t → attr' t = attr t) := by
  have h0 : RInv T vs.infected start a attr none 0 0
      ⟨Function.update vs.infected start true, attr, [start]⟩ := by
    constructor
    case nodup => simp
    case posLe => simp
    case reach => intro t ht; obtain rfl : t = start := by simpa using ht
                  exact Relation.ReflTransGen.refl
    case start => simp
    case inf =>
      intro t
      simp only [Function.update_apply]
      split_ifs with hc <;> simp [hc]
    case closed => simp
    case part => intro t e; cases e
    case set => simp
    case cset => intro t e; cases e
    case other => intro t _; rfl
  obtain ⟨st, e, h⟩ := regionSpread_inv hT hd hs ho T.size 0 _ h0 (by omega)
  have hmem : ∀ t, t ∈ st.pool ↔ SameRegion T start t := by
    intro t
    refine ⟨h.reach t, fun hr => ?_⟩
    induction hr with
    | refl => exact h.start
    | tail _ h1 ih =>
      obtain ⟨-, k, j, hk, e', hs'⟩ := h1
      obtain ⟨i, hi, ei⟩ := List.getElem_of_mem ih
      exact h.closed i _ hi (by rw [List.getElem?_eq_getElem hi, ei]) k hk _ j e' hs'
  refine ⟨st.attr, ?_, ?_, ?_⟩
  · unfold regionPlague
    rw [e]
    show some _ = some _
    congr 2
    funext x
    rw [foldl_uninfect]
    split_ifs with hx
    · have hr := (hmem x).mp hx
      have : vs.infected x ≠ true := fun hc =>
        ho ((outside_region hT hr).mpr ((hd.mem x).mp ((hd.inf x).mp hc)))
      simpa using this.symm
    · have := h.inf x
      rw [Bool.eq_iff_iff, this]
      simp [hx]
  · intro t hr
    obtain ⟨i, hi, ei⟩ := List.getElem_of_mem ((hmem t).mpr hr)
    exact h.set i t hi (by rw [List.getElem?_eq_getElem hi, ei])
  · intro t hr
    exact h.other t (fun hc => hr ((hmem t).mp hc))

end Nikfemm
