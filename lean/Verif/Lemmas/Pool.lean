import Verif.Spec.Pool
import Mathlib.Data.List.Perm.Basic
import Mathlib.Data.List.Nodup
import Mathlib.Data.List.Range

/-!
# Lemmas about memory pools
-/

set_option linter.unusedSectionVars false

namespace Nikfemm

/-- The item that is handed out as the `k`-th new one. -/
def Pool.nth (p : Pool) (k : Nat) : Addr :=
  if k < p.firstBlock then (0, k) else ((k - p.firstBlock) / p.perBlock + 1, (k - p.firstBlock) % p.perBlock)

/-- Where `nextitem` stands after `k` new items. -/
def Pool.after (p : Pool) : Nat → Addr
  | 0 => (0, 0)
  | k + 1 => ((p.nth k).1, (p.nth k).2 + 1)

/-- All items ever handed out since the last restart. -/
def Pool.handed (p : Pool) : List Addr := (List.range p.maxitems).map p.nth

theorem nth_inj {p : Pool} (hp : 0 < p.perBlock) {i j : Nat} (h : p.nth i = p.nth j) : i = j := by
  unfold Pool.nth at h
  split at h <;> split at h
  · simpa using h
  · simp at h
  · simp at h
  · rename_i h1 h2
    simp only [Prod.mk.injEq, Nat.add_right_cancel_iff] at h
    have e1 := Nat.div_add_mod (i - p.firstBlock) p.perBlock
    have e2 := Nat.div_add_mod (j - p.firstBlock) p.perBlock
    rw [h.1, h.2] at e1
    omega

theorem nth_room {p : Pool} (hp : 0 < p.perBlock) (k : Nat) : (p.nth k).2 < p.room (p.nth k).1 := by
  unfold Pool.nth Pool.room
  split
  · simpa
  · simpa using Nat.mod_lt _ hp

/-- The next item is in the same block if there is room, and otherwise the first one of the next block. -/
theorem nth_succ {p : Pool} (hp : 0 < p.perBlock) (k : Nat) :
    p.nth (k + 1) = if (p.nth k).2 + 1 < p.room (p.nth k).1 then ((p.nth k).1, (p.nth k).2 + 1)
      else ((p.nth k).1 + 1, 0) := by
  unfold Pool.nth Pool.room
  by_cases h : k < p.firstBlock
  · rw [if_pos h]
    by_cases h2 : k + 1 < p.firstBlock
    · simp [h2]
    · have : k + 1 - p.firstBlock = 0 := by omega
      simp [h2, this]
  · have h2 : ¬ k + 1 < p.firstBlock := by omega
    rw [if_neg h, if_neg h2]
    have e : k + 1 - p.firstBlock = (k - p.firstBlock) + 1 := by omega
    rw [e]
    set m := k - p.firstBlock with hm
    have hlt := Nat.mod_lt m hp
    have e1 := Nat.div_add_mod m p.perBlock
    simp only [Nat.add_eq_zero_iff, one_ne_zero, and_false, ↓reduceIte]
    split
    · rename_i h3
      have := (Nat.div_mod_unique hp (a := m + 1) (c := m % p.perBlock + 1) (d := m / p.perBlock)).2
        ⟨by omega, h3⟩
      rw [this.1, this.2]
    · rename_i h3
      have hd : p.perBlock * (m / p.perBlock + 1) = p.perBlock * (m / p.perBlock) + p.perBlock := by ring
      have := (Nat.div_mod_unique hp (a := m + 1) (c := 0) (d := m / p.perBlock + 1)).2
        ⟨by omega, hp⟩
      rw [this.1, this.2]

/-- What holds for a pool with the items `L` in use. -/
structure PoolInv (p : Pool) (L : List Addr) : Prop where
  first : 0 < p.firstBlock
  per : 0 < p.perBlock
  next : p.nextitem = p.after p.maxitems
  now : p.nowblock = p.nextitem.1
  unalloc : p.nextitem.2 + p.unallocated = p.room p.nowblock
  blocks : p.nowblock < p.blocks
  items : p.items = L.length
  perm : (L ++ p.dead).Perm p.handed

theorem init_inv {n first : Nat} (hn : 0 < n) : PoolInv (poolInit n first) [] := by
  refine ⟨?_, hn, rfl, rfl, ?_, by simp [poolInit, poolRestart], rfl, by simp [poolInit, poolRestart, Pool.handed]⟩
  · simp only [poolInit, poolRestart]; split <;> omega
  · simp [poolInit, poolRestart, Pool.room]

theorem restart_inv {p : Pool} {L : List Addr} (h : PoolInv p L) : PoolInv (poolRestart p) [] := by
  refine ⟨h.first, h.per, rfl, rfl, by simp [poolRestart, Pool.room], ?_, rfl,
    by simp [poolRestart, Pool.handed]⟩
  have := h.blocks
  show 0 < p.blocks
  omega

theorem dealloc_inv {p : Pool} {L : List Addr} {a : Addr} (h : PoolInv p L) (ha : a ∈ L) :
    PoolInv (poolDealloc p a) (L.erase a) := by
  refine ⟨h.first, h.per, h.next, h.now, h.unalloc, h.blocks, ?_, ?_⟩
  · show p.items - 1 = _
    have := List.length_pos_of_mem ha
    rw [h.items, List.length_erase_of_mem ha]; omega
  · show (L.erase a ++ a :: p.dead).Perm p.handed
    exact (List.perm_middle.trans ((List.perm_cons_erase ha).symm.append_right p.dead)).trans h.perm

theorem nth_congr {p q : Pool} (hf : q.firstBlock = p.firstBlock) (hp : q.perBlock = p.perBlock) :
    q.nth = p.nth := by funext k; simp [Pool.nth, hf, hp]

theorem after_congr {p q : Pool} (hf : q.firstBlock = p.firstBlock) (hp : q.perBlock = p.perBlock) :
    q.after = p.after := by funext k; cases k <;> simp [Pool.after, nth_congr hf hp]

theorem handed_succ {p q : Pool} (hf : q.firstBlock = p.firstBlock) (hp : q.perBlock = p.perBlock)
    (hm : q.maxitems = p.maxitems + 1) : q.handed = p.handed ++ [p.nth p.maxitems] := by
  simp [Pool.handed, nth_congr hf hp, hm, List.range_succ]

/-- A pool without dead items hands out the next new one. -/
theorem alloc_fresh {p : Pool} {L : List Addr} (h : PoolInv p L) (hd : p.dead = []) :
    (poolAlloc p).1 = p.nth p.maxitems ∧ (poolAlloc p).2.maxitems = p.maxitems + 1 ∧
    (poolAlloc p).2.dead = [] ∧ PoolInv (poolAlloc p).2 ((poolAlloc p).1 :: L) := by
  have hper := h.per
  have key : ∀ q : Pool, q.firstBlock = p.firstBlock → q.perBlock = p.perBlock → q.dead = [] →
      q.maxitems = p.maxitems → q.items = p.items → q.nextitem = p.nth p.maxitems →
      q.nowblock = q.nextitem.1 → q.nextitem.2 + q.unallocated = q.room q.nowblock →
      0 < q.unallocated → q.nowblock < q.blocks →
      (takeNext q).1 = p.nth p.maxitems ∧ (takeNext q).2.maxitems = p.maxitems + 1 ∧
      (takeNext q).2.dead = [] ∧ PoolInv (takeNext q).2 ((takeNext q).1 :: L) := by
    intro q hf hp hdq hm hi hn hnow hun hpos hbl
    refine ⟨hn, by simp [takeNext, hm], hdq, ?_⟩
    refine ⟨by simp only [takeNext, hf]; exact h.first, by simp only [takeNext, hp]; exact hper, ?_, hnow,
      ?_, hbl, ?_, ?_⟩
    · show (q.nextitem.1, q.nextitem.2 + 1) = _
      rw [after_congr (p := p) (q := (takeNext q).2) hf hp]
      simp only [takeNext, hm, Pool.after, hn]
    · show q.nextitem.2 + 1 + (q.unallocated - 1) = q.room q.nowblock
      omega
    · show q.items + 1 = _
      rw [hi, h.items]; simp
    · rw [handed_succ (p := p) (q := (takeNext q).2) hf hp (by simp [takeNext, hm])]
      have hperm := h.perm
      rw [hd, List.append_nil] at hperm
      show (q.nextitem :: L ++ q.dead).Perm _
      rw [hdq, List.append_nil, hn]
      exact (List.perm_append_singleton _ _).symm.trans (hperm.append_right _)
  have hnx := h.next
  unfold poolAlloc
  rw [hd]
  show _ ∧ _
  by_cases hu : p.unallocated = 0
  · simp only [hu, ↓reduceIte]
    refine key (nextBlock p) rfl rfl hd rfl rfl ?_ rfl ?_ hper ?_
    · show (p.nowblock + 1, 0) = _
      have hun := h.unalloc
      rw [hu, h.now, hnx] at hun
      rw [h.now, hnx]
      cases hk : p.maxitems with
      | zero =>
        rw [hk] at hun
        have := h.first
        simp only [Pool.after, Pool.room] at hun
        simp at hun; omega
      | succ k =>
        rw [hk] at hun
        simp only [Pool.after] at hun ⊢
        rw [nth_succ hper, if_neg (by omega)]
    · simp [nextBlock, Pool.room]
    · have := h.blocks
      simp only [nextBlock]; split <;> omega
  · simp only [hu, ↓reduceIte]
    refine key p rfl rfl hd rfl rfl ?_ h.now h.unalloc (by omega) h.blocks
    have hun := h.unalloc
    rw [h.now, hnx] at hun
    rw [hnx]
    cases hk : p.maxitems with
    | zero => simp [Pool.after, Pool.nth, h.first]
    | succ k =>
      rw [hk] at hun
      simp only [Pool.after] at hun ⊢
      rw [nth_succ hper, if_pos (by omega)]

/-- Otherwise it hands out the item freed last. -/
theorem alloc_reuse {p : Pool} {L : List Addr} {a : Addr} {d : List Addr} (h : PoolInv p L)
    (hd : p.dead = a :: d) : (poolAlloc p).1 = a ∧ (poolAlloc p).2.dead = d ∧
    (poolAlloc p).2.maxitems = p.maxitems ∧ PoolInv (poolAlloc p).2 ((poolAlloc p).1 :: L) := by
  unfold poolAlloc
  rw [hd]
  refine ⟨rfl, rfl, rfl, h.first, h.per, h.next, h.now, h.unalloc, h.blocks, ?_, ?_⟩
  · show p.items + 1 = _
    rw [h.items]; simp
  · have hperm := h.perm
    rw [hd] at hperm
    exact List.perm_middle.symm.trans hperm

theorem alloc_inv {p : Pool} {L : List Addr} (h : PoolInv p L) :
    PoolInv (poolAlloc p).2 ((poolAlloc p).1 :: L) := by
  cases hd : p.dead with
  | nil => exact (alloc_fresh h hd).2.2.2
  | cons a d => exact (alloc_reuse h hd).2.2.2

theorem poolRun_inv {p : Pool} {L : List Addr} (h : PoolRun p L) : PoolInv p L := by
  induction h with
  | init hn => exact init_inv hn
  | alloc _ ih => exact alloc_inv ih
  | dealloc _ ha ih => exact dealloc_inv ih ha
  | restart _ ih => exact restart_inv ih

theorem handed_nodup {p : Pool} (hp : 0 < p.perBlock) : p.handed.Nodup :=
  List.nodup_range.map (fun _ _ h => nth_inj hp h)

theorem inv_nodup {p : Pool} {L : List Addr} (h : PoolInv p L) : (L ++ p.dead).Nodup :=
  h.perm.nodup_iff.2 (handed_nodup h.per)

/-! ## The walk -/

/-- The state of the walk after `k` items. -/
def Pool.walkAt (p : Pool) (k : Nat) : Walk :=
  ⟨(p.after k).1, p.after k, p.room (p.after k).1 - (p.after k).2⟩

theorem after_room {p : Pool} (hp : 0 < p.perBlock) (k : Nat) : (p.after k).2 ≤ p.room (p.after k).1 := by
  cases k with
  | zero => exact Nat.zero_le _
  | succ k => exact nth_room hp k

theorem after_inj {p : Pool} (hp : 0 < p.perBlock) {i j : Nat} (h : p.after i = p.after j) : i = j := by
  cases i <;> cases j
  · rfl
  · simp [Pool.after] at h
  · simp [Pool.after] at h
  · simp only [Pool.after, Prod.mk.injEq, Nat.add_right_cancel_iff] at h
    rw [nth_inj hp (Prod.ext h.1 h.2)]

theorem nth_mono {p : Pool} (hp : 0 < p.perBlock) {i j : Nat} (h : i ≤ j) : (p.nth i).1 ≤ (p.nth j).1 := by
  induction j with
  | zero => rw [Nat.le_zero.1 h]
  | succ j ih =>
    rcases Nat.lt_or_ge j i with h2 | h2
    · rw [show i = j + 1 by omega]
    · refine (ih h2).trans ?_
      rw [nth_succ hp]; split <;> simp

theorem traverse_end {p : Pool} {L : List Addr} (h : PoolInv p L) :
    traverse p (p.walkAt p.maxitems) = .ok (none, p.walkAt p.maxitems) := by
  unfold traverse
  rw [if_pos (by rw [h.next]; rfl)]

theorem traverse_step {p : Pool} {L : List Addr} (h : PoolInv p L) {k : Nat} (hk : k < p.maxitems) :
    traverse p (p.walkAt k) = .ok (some (p.nth k), p.walkAt (k + 1)) := by
  have hper := h.per
  unfold traverse
  rw [if_neg]
  swap
  · intro h2
    have : p.after k = p.after p.maxitems := by rw [← h.next]; exact h2
    have := after_inj hper this
    omega
  have hr := nth_room hper k
  have fin : p.walkAt (k + 1) = ⟨(p.nth k).1, ((p.nth k).1, (p.nth k).2 + 1),
      p.room (p.nth k).1 - ((p.nth k).2 + 1)⟩ := rfl
  cases k with
  | zero =>
    have h0 : p.nth 0 = (0, 0) := by simp [Pool.nth, h.first]
    rw [fin, h0]
    have : (p.walkAt 0).left ≠ 0 := by
      have := h.first
      simp only [Pool.walkAt, Pool.after, Pool.room]; simp; omega
    rw [if_neg this]
    rfl
  | succ k =>
    have hs := nth_succ hper k
    have hw : p.walkAt (k + 1) = ⟨(p.nth k).1, ((p.nth k).1, (p.nth k).2 + 1),
      p.room (p.nth k).1 - ((p.nth k).2 + 1)⟩ := rfl
    rw [fin, hw]
    by_cases hlt : (p.nth k).2 + 1 < p.room (p.nth k).1
    · rw [if_pos hlt] at hs
      have hne : ¬ p.room (p.nth k).1 - ((p.nth k).2 + 1) = 0 := by omega
      simp only [hne, ↓reduceIte, ok_bind]
      rw [hs]
      simp [Nat.sub_sub]
    · rw [if_neg hlt] at hs
      have hz : p.room (p.nth k).1 - ((p.nth k).2 + 1) = 0 := by omega
      simp only [hz, ↓reduceIte]
      have hb : (p.nth k).1 + 1 < p.blocks := by
        have h1 := h.blocks
        rw [h.now, h.next] at h1
        obtain ⟨m, hm⟩ : ∃ m, p.maxitems = m + 1 := ⟨p.maxitems - 1, by omega⟩
        rw [hm] at h1
        have h2 := nth_mono hper (show k + 1 ≤ m by omega)
        rw [hs] at h2
        simp only [Pool.after] at h1
        omega
      unfold walkBlock
      rw [if_pos hb, ok_bind, hs]
      simp [Pool.room]

theorem walkAt_zero {p : Pool} : p.walkAt 0 = traversalInit p := by
  simp [Pool.walkAt, traversalInit, Pool.after, Pool.room]

theorem handed_drop {p : Pool} {k : Nat} (hk : k < p.maxitems) :
    p.handed.drop k = p.nth k :: p.handed.drop (k + 1) := by
  have hl : p.handed.length = p.maxitems := by simp [Pool.handed]
  rw [List.drop_eq_getElem_cons (by omega)]
  congr 1
  simp [Pool.handed]

/-- The loop over the living items of a pool is a loop over the list of items handed out. -/
theorem loopLive_from {σ : Type} {p : Pool} {L : List Addr} (h : PoolInv p L) {alive : σ → Addr → Bool}
    {body : Addr → σ → Res σ} (hst : ∀ a s s', body a s = .ok s' → alive s' = alive s) :
    ∀ (fuel k : Nat) (s : σ), k ≤ p.maxitems → p.maxitems - k ≤ fuel →
      loopLive p alive body fuel (p.walkAt k) s =
        (forEach body ((p.handed.drop k).filter (alive s)) s).map some := by
  have hl : p.handed.length = p.maxitems := by simp [Pool.handed]
  have hend : ∀ (fuel k : Nat) (s : σ), k = p.maxitems → loopLive p alive body fuel (p.walkAt k) s =
        (forEach body ((p.handed.drop k).filter (alive s)) s).map some := by
    intro fuel k s hk
    subst hk
    unfold loopLive
    rw [traverse_end h]
    rw [← hl, List.drop_length]
    simp [forEach, Except.map]
  intro fuel
  induction fuel with
  | zero =>
    intro k s hk hf
    exact hend 0 k s (by omega)
  | succ fuel ih =>
    intro k s hk hf
    rcases Nat.lt_or_ge k p.maxitems with hlt | hge
    swap
    · exact hend _ k s (by omega)
    unfold loopLive
    rw [traverse_step h hlt, handed_drop hlt]
    simp only
    by_cases hal : alive s (p.nth k) = true
    · rw [if_pos hal, List.filter_cons_of_pos hal]
      simp only [forEach]
      cases hb : body (p.nth k) s with
      | error e => rfl
      | ok s' =>
        simp only
        rw [ih (k + 1) s' (by omega) (by omega), hst _ _ _ hb]
    · rw [if_neg hal, List.filter_cons_of_neg hal]
      exact ih (k + 1) s (by omega) (by omega)

theorem loopLive_eq {σ : Type} {p : Pool} {L : List Addr} (h : PoolInv p L) {alive : σ → Addr → Bool}
    {body : Addr → σ → Res σ} (hst : ∀ a s s', body a s = .ok s' → alive s' = alive s) {fuel : Nat}
    (hf : p.maxitems ≤ fuel) (s : σ) :
    loopLive p alive body fuel (traversalInit p) s =
      (forEach body (p.handed.filter (alive s)) s).map some := by
  rw [← walkAt_zero, loopLive_from h hst fuel 0 s (Nat.zero_le _) (by omega)]
  rfl

end Nikfemm
