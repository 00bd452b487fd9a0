import Verif.Spec.PyRefs
import Mathlib.Algebra.BigOperators.Group.List.Basic
import Mathlib.Tactic.Ring
import Mathlib.Tactic.Linarith

/-! # Lemmas about reference counts -/

namespace Nikfemm

open Spec

theorem stored_append (h k : PyHeap) (i : Nat) : stored (h ++ k) i = stored h i + stored k i := by
  simp [stored]

theorem stored_set {h : PyHeap} {l : Nat} {o o' : PyObj} (e : h[l]? = some o) (i : Nat) :
    stored (h.set l o') i + o.slots.count (some i) = stored h i + o'.slots.count (some i) := by
  induction h generalizing l with
  | nil => simp at e
  | cons a h ih =>
    cases l with
    | zero =>
      simp at e; subst e
      simp [stored]; omega
    | succ l =>
      simp at e
      have := ih e
      simp [stored] at this ⊢
      omega

theorem stored_out {h : PyHeap} {own : Nat → Nat} (hc : Counts h own) {i : Nat} (hi : h.length ≤ i) :
    stored h i = 0 := by
  refine List.sum_eq_zero ?_
  simp only [List.mem_map]
  rintro n ⟨o, ho, rfl⟩
  refine List.count_eq_zero.mpr fun hm => ?_
  have := hc.range o ho i hm
  omega

theorem mem_set_cases {α : Type} {l : List α} {i : Nat} {a x : α} (h : x ∈ l.set i a) :
    x ∈ l ∨ x = a := List.mem_or_eq_of_mem_set h

/-- The kind of an object. -/
def kindAt (h : PyHeap) (i : Nat) : Option ObjKind := (h.map (·.kind))[i]?

theorem kindAt_eq {h : PyHeap} {i : Nat} {o : PyObj} (e : h[i]? = some o) : kindAt h i = some o.kind := by
  simp [kindAt, e]

/-! ## Single operations -/

theorem alloc_counts {h : PyHeap} {own : Nat → Nat} (hc : Counts h own) (k : ObjKind) (n : Nat) :
    Counts (pyAlloc k (List.replicate n none) h).2 (Function.update own h.length 1) := by
  have hst : ∀ i, stored (h ++ [⟨1, k, List.replicate n none⟩]) i = stored h i := by
    intro i
    rw [stored_append]
    simp [stored, List.count_replicate]
  refine ⟨?_, ?_⟩
  · intro i o e
    simp only [pyAlloc] at e ⊢
    rw [hst]
    rcases Nat.lt_trichotomy i h.length with hi | hi | hi
    · rw [List.getElem?_append_left hi] at e
      rw [Function.update_of_ne (by omega)]
      exact hc.count i o e
    · subst hi
      simp at e; subst e
      simp [stored_out hc (le_refl _)]
    · rw [List.getElem?_eq_none (by simp; omega)] at e; cases e
  · intro o ho i hi
    simp only [pyAlloc, List.mem_append, List.mem_singleton] at ho
    rcases ho with ho | rfl
    · have := hc.range o ho i hi
      simp [pyAlloc]; omega
    · simp at hi

theorem incref_counts {h : PyHeap} {own : Nat → Nat} (hc : Counts h own) {i : Nat} (hi : i < h.length)
    (hown : 0 < own i) :
    ∃ h', pyIncref i h = .ok h' ∧ Counts h' (Function.update own i (own i + 1)) ∧
      h'.map (·.kind) = h.map (·.kind) ∧ h'.map (·.slots) = h.map (·.slots) ∧
      (∀ j, j ≠ i → h'[j]? = h[j]?) ∧
      (∀ (j : Nat) (o : PyObj), h[j]? = some o → ∃ o', h'[j]? = some o' ∧ o.rc ≤ o'.rc ∧ o'.slots = o.slots) := by
  obtain ⟨o, e⟩ : ∃ o, h[i]? = some o := ⟨h[i], by simp [hi]⟩
  have hrc := hc.count i o e
  have hst : ∀ j, stored (h.set i { o with rc := o.rc + 1 }) j = stored h j := by
    intro j
    have := stored_set (o' := { o with rc := o.rc + 1 }) e j
    simpa using this
  have hk : ∀ {β : Type} (f : PyObj → β), f { o with rc := o.rc + 1 } = f o →
      (h.set i { o with rc := o.rc + 1 }).map f = h.map f := by
    intro β f hf
    rw [List.map_set, hf]
    apply List.ext_getElem?
    intro j
    rw [List.getElem?_set]
    split
    · subst j
      simp [hi, e]
      have : h[i] = o := by simpa [hi] using e
      rw [this]
    · rfl
  refine ⟨_, by simp [pyIncref, rd_eq_ok_iff.mpr e, ok_bind]; omega, ⟨?_, ?_⟩, hk _ rfl, hk _ rfl, ?_, ?_⟩
  · intro j o' e'
    rw [hst]
    by_cases hj : j = i
    · subst hj
      rw [List.getElem?_set_self hi] at e'
      simp at e'; subst e'
      simp; omega
    · rw [List.getElem?_set_ne (Ne.symm hj)] at e'
      rw [Function.update_of_ne hj]
      exact hc.count j o' e'
  · intro o' ho' j hj
    rw [List.length_set]
    rcases mem_set_cases ho' with h' | h'
    · exact hc.range o' h' j hj
    · subst h'
      exact hc.range o (List.mem_of_getElem? e) j hj
  · intro j hj
    rw [List.getElem?_set_ne (Ne.symm hj)]
  · intro j o' e'
    by_cases hj : j = i
    · subst hj
      rw [e] at e'; cases e'
      exact ⟨_, List.getElem?_set_self hi, by simp, rfl⟩
    · exact ⟨o', by rw [List.getElem?_set_ne (Ne.symm hj)]; exact e', le_refl _, rfl⟩

/-- References owned after taking one more to each object of a list. -/
theorem increfs_counts (ids : List Nat) : ∀ {h : PyHeap} {own : Nat → Nat}, Counts h own →
    (∀ i ∈ ids, i < h.length ∧ 0 < own i) →
    ∃ h', forEach pyIncref ids h = .ok h' ∧ Counts h' (fun i => own i + ids.count i) ∧
      h'.map (·.kind) = h.map (·.kind) ∧ h'.map (·.slots) = h.map (·.slots) ∧
      (∀ j, j ∉ ids → h'[j]? = h[j]?) ∧
      (∀ (j : Nat) (o : PyObj), h[j]? = some o → ∃ o', h'[j]? = some o' ∧ o.rc ≤ o'.rc ∧ o'.slots = o.slots) := by
  induction ids with
  | nil => intro h own hc _; exact ⟨h, rfl, by simpa using hc, rfl, rfl, fun _ _ => rfl,
      fun j o e => ⟨o, e, le_refl _, rfl⟩⟩
  | cons a ids ih =>
    intro h own hc hids
    obtain ⟨h1, e1, c1, k1, s1, same1, mono1⟩ := incref_counts hc (hids a (by simp)).1 (hids a (by simp)).2
    have hl : h1.length = h.length := by simpa using congrArg List.length k1
    obtain ⟨h2, e2, c2, k2, s2, same2, mono2⟩ := ih c1 (by
      intro i hi
      refine ⟨by rw [hl]; exact (hids i (by simp [hi])).1, ?_⟩
      by_cases hia : i = a
      · subst hia; simp
      · rw [Function.update_of_ne hia]; exact (hids i (by simp [hi])).2)
    refine ⟨h2, by simp [forEach, e1, e2], ?_, k2.trans k1, s2.trans s1, ?_, ?_⟩
    · convert c2 using 2 with i
      by_cases hia : i = a
      · subst hia; simp; omega
      · rw [Function.update_of_ne hia, List.count_cons_of_ne (Ne.symm hia)]
    · intro j hj
      simp at hj
      rw [same2 j hj.2, same1 j hj.1]
    · intro j o e
      obtain ⟨o1, e1', r1, t1⟩ := mono1 j o e
      obtain ⟨o2, e2', r2, t2⟩ := mono2 j o1 e1'
      exact ⟨o2, e2', r1.trans r2, t2.trans t1⟩

theorem pack_counts {ids : List Nat} {h : PyHeap} {own : Nat → Nat} (hc : Counts h own)
    (hids : ∀ i ∈ ids, i < h.length ∧ 0 < own i) :
    ∃ h', pyPack ids h = .ok (h.length, h') ∧ Counts h' (Function.update own h.length 1) ∧
      h'.map (·.kind) = h.map (·.kind) ++ [.tuple] ∧
      (∀ j < h.length, j ∉ ids → h'[j]? = h[j]?) ∧
      (∀ (j : Nat) (o : PyObj), h[j]? = some o → ∃ o', h'[j]? = some o' ∧ o.rc ≤ o'.rc ∧ o'.slots = o.slots) ∧
      h'[h.length]? = some ⟨1, .tuple, ids.map some⟩ := by
  obtain ⟨h1, e1, c1, k1, s1, same1, mono1⟩ := increfs_counts ids hc hids
  have hl : h1.length = h.length := by simpa using congrArg List.length k1
  have hst1 : ∀ i, stored h1 i = stored h i := by
    intro i
    have : ∀ g : PyHeap, stored g i = ((g.map (·.slots)).map fun s => s.count (some i)).sum := by
      intro g; simp [stored, Function.comp_def]
    rw [this, this, s1]
  have hcount : ∀ i : Nat, (ids.map some).count (some i) = ids.count i := by
    intro i
    simp [List.count, List.countP_map, Function.comp_def]
  refine ⟨h1 ++ [⟨1, .tuple, ids.map some⟩], by simp [pyPack, e1, ok_bind, pyAlloc, hl], ⟨?_, ?_⟩, by simp [k1],
    ?_, ?_, ?_⟩
  · intro i o e
    rw [stored_append]
    simp only [stored, List.map_cons, List.map_nil, List.sum_singleton, hcount]
    rcases Nat.lt_trichotomy i h1.length with hi | hi | hi
    · rw [List.getElem?_append_left hi] at e
      have := c1.count i o e
      rw [Function.update_of_ne (by omega)]
      simp only [stored] at this
      omega
    · subst hi
      simp at e; subst e
      have h0 := stored_out c1 (le_refl _)
      simp only [stored] at h0
      rw [h0, hl]
      have : ids.count h.length = 0 := List.count_eq_zero.mpr fun hm => by
        have := (hids _ hm).1; omega
      simp [this]
    · rw [List.getElem?_eq_none (by simp; omega)] at e; cases e
  · intro o ho i hi
    simp only [List.mem_append, List.mem_singleton] at ho
    simp only [List.length_append, List.length_singleton]
    rcases ho with ho | rfl
    · have := c1.range o ho i hi; omega
    · simp at hi
      have := (hids i hi).1; omega
  · intro j hj hjn
    rw [List.getElem?_append_left (by omega), same1 j hjn]
  · intro j o e
    obtain ⟨o', e', r⟩ := mono1 j o e
    have hj : j < h.length := by
      by_contra hcon
      rw [List.getElem?_eq_none (by omega)] at e; cases e
    exact ⟨o', by rw [List.getElem?_append_left (by omega)]; exact e', r⟩
  · rw [← hl]; simp

theorem setItem_counts {h : PyHeap} {own : Nat → Nat} (hc : Counts h own) {l k v : Nat} {o : PyObj}
    (e : h[l]? = some o) (hrc : 0 < o.rc) (hk : o.slots[k]? = some none) (hv : v < h.length)
    (hown : 0 < own v) :
    pySetItem l k v h = .ok (h.set l { o with slots := o.slots.set k (some v) }) ∧
      Counts (h.set l { o with slots := o.slots.set k (some v) }) (Function.update own v (own v - 1)) := by
  have hl : l < h.length := by
    by_contra hcon
    rw [List.getElem?_eq_none (by omega)] at e; cases e
  have hkl : k < o.slots.length := by
    by_contra hcon
    rw [List.getElem?_eq_none (by omega)] at hk; cases hk
  have hslot : o.slots[k] = none := by simpa [hkl] using hk
  refine ⟨by simp [pySetItem, rd_eq_ok_iff.mpr e, ok_bind, hk]; omega, ?_, ?_⟩
  · intro i o' e'
    have hst := stored_set (o' := { o with slots := o.slots.set k (some v) }) e i
    simp only [List.count_set hkl, hslot] at hst
    have hrc' : ∃ o'', h[i]? = some o'' ∧ o''.rc = o'.rc := by
      by_cases hi : i = l
      · subst hi
        rw [List.getElem?_set_self hl] at e'
        simp at e'; subst e'
        exact ⟨o, e, rfl⟩
      · rw [List.getElem?_set_ne (Ne.symm hi)] at e'
        exact ⟨o', e', rfl⟩
    obtain ⟨o'', e'', hr⟩ := hrc'
    have := hc.count i o'' e''
    by_cases hi : i = v
    · subst hi
      simp at hst ⊢
      omega
    · have hne : (some v == some i) = false := by simp; exact fun h => hi h.symm
      rw [Function.update_of_ne hi]
      simp [hne] at hst
      have hvi : ¬ v = i := fun h => hi h.symm
      omega
  · intro o' ho' i hi
    rw [List.length_set]
    rcases mem_set_cases ho' with h' | h'
    · exact hc.range o' h' i hi
    · subst h'
      rcases mem_set_cases hi with h'' | h''
      · exact hc.range o (List.mem_of_getElem? e) i h''
      · cases h''; exact hv

/-! ## Building lists -/

/-- `h'` comes from `h` by adding objects of the kinds `ks` and by filling the list `l`: code owns one
more reference to every new number, and to no other new object. -/
structure Grown (l : Nat) (ks : List ObjKind) (h : PyHeap) (own : Nat → Nat) (h' : PyHeap)
    (own' : Nat → Nat) : Prop where
  counts : Counts h' own'
  kinds : h'.map (·.kind) = h.map (·.kind) ++ ks
  same : ∀ i < h.length, i ≠ l → h'[i]? = h[i]?
  old : ∀ i < h.length, own' i = own i
  new : ∀ i, h.length ≤ i → i < h'.length → own' i = if kindAt h' i = some .number then 1 else 0
  pos : ∀ (i : Nat) (o : PyObj), h.length ≤ i → h'[i]? = some o → 0 < o.rc

/-- The list `l` of `h`, filled further; from `c` on it is as it was. -/
def Filled (l c : Nat) (h h' : PyHeap) : Prop :=
  ∃ o o' : PyObj, h[l]? = some o ∧ h'[l]? = some o' ∧ 0 < o.rc ∧ o'.rc = o.rc ∧
    o'.slots.length = o.slots.length ∧ ∀ k, c ≤ k → o'.slots[k]? = o.slots[k]?

theorem lt_of_getElem? {α : Type} {l : List α} {i : Nat} {a : α} (e : l[i]? = some a) : i < l.length := by
  by_contra hcon
  rw [List.getElem?_eq_none (by omega)] at e; cases e

theorem Grown.length {l : Nat} {ks : List ObjKind} {h h' : PyHeap} {own own' : Nat → Nat}
    (g : Grown l ks h own h' own') : h'.length = h.length + ks.length := by
  simpa using congrArg List.length g.kinds

theorem Grown.kindAt_old {l : Nat} {ks : List ObjKind} {h h' : PyHeap} {own own' : Nat → Nat}
    (g : Grown l ks h own h' own') {i : Nat} (hi : i < h.length) : kindAt h' i = kindAt h i := by
  rw [kindAt, g.kinds, List.getElem?_append_left (by simpa using hi)]
  rfl

theorem Grown.refl {l : Nat} {h : PyHeap} {own : Nat → Nat} (hc : Counts h own) : Grown l [] h own h own :=
  ⟨hc, by simp, fun _ _ _ => rfl, fun _ _ => rfl, fun i h1 h2 => by omega, fun i o h1 e => by
    have := lt_of_getElem? e; omega⟩

theorem Grown.trans {l : Nat} {ks ks' : List ObjKind} {h h' h'' : PyHeap} {own own' own'' : Nat → Nat}
    (hl : l < h.length) (g : Grown l ks h own h' own') (g' : Grown l ks' h' own' h'' own'') :
    Grown l (ks ++ ks') h own h'' own'' := by
  have e1 := g.length
  refine ⟨g'.counts, by rw [g'.kinds, g.kinds, List.append_assoc], ?_, ?_, ?_, ?_⟩
  · intro i hi hil
    rw [g'.same i (by omega) hil, g.same i hi hil]
  · intro i hi
    rw [g'.old i (by omega), g.old i hi]
  · intro i h1 h2
    rcases Nat.lt_or_ge i h'.length with hi | hi
    · rw [g'.old i hi, g.new i h1 hi, g'.kindAt_old hi]
    · exact g'.new i hi h2
  · intro i o h1 e
    rcases Nat.lt_or_ge i h'.length with hi | hi
    · rw [g'.same i hi (by omega)] at e
      exact g.pos i o h1 e
    · exact g'.pos i o hi e

theorem Filled.trans {l c c' : Nat} {h h' h'' : PyHeap} (hcc : c ≤ c') (f : Filled l c h h') (f' : Filled l c' h' h'') :
    Filled l c' h h'' := by
  obtain ⟨o, o', e, e', p, r, len, s⟩ := f
  obtain ⟨q, q', d, d', p2, r2, len2, s2⟩ := f'
  rw [e'] at d; cases d
  exact ⟨o, q', e, d', p, r2.trans r, len2.trans len, fun k hk => (s2 k hk).trans (s k (by omega))⟩

theorem numbers_spec (m : Nat) : ∀ {h : PyHeap} {own : Nat → Nat}, Counts h own →
    pyNumbers m h = (List.range' h.length m, h ++ List.replicate m ⟨1, .number, []⟩) ∧
    Counts (h ++ List.replicate m ⟨1, .number, []⟩)
      (fun i => if i < h.length then own i else 1) := by
  induction m with
  | zero =>
    intro h own hc
    refine ⟨by simp [pyNumbers], ?_, ?_⟩
    · intro i o e
      simp only [List.replicate_zero, List.append_nil] at e ⊢
      rw [if_pos (lt_of_getElem? e)]
      exact hc.count i o e
    · simpa using hc.range
  | succ m ih =>
    intro h own hc
    have c1 := alloc_counts hc .number 0
    obtain ⟨e2, c2⟩ := ih c1
    have hh : (pyAlloc .number (List.replicate 0 none) h).2 ++ List.replicate m ⟨1, .number, []⟩
        = h ++ List.replicate (m + 1) ⟨1, .number, []⟩ := by
      simp [pyAlloc, List.replicate_succ]
    have hlen : (pyAlloc .number (List.replicate 0 none) h).2.length = h.length + 1 := by simp [pyAlloc]
    rw [hh] at e2 c2
    rw [hlen] at e2 c2
    refine ⟨?_, ?_⟩
    · have e3 : pyNumbers m (pyAlloc .number [] h).2 = _ := e2
      simp only [pyNumbers, e3, List.range'_succ]
      simp [pyAlloc]
    · convert c2 using 2 with i
      rcases Nat.lt_trichotomy i h.length with hi | hi | hi
      · rw [if_pos hi, if_pos (by omega), Function.update_of_ne (by omega)]
      · subst hi; simp
      · rw [if_neg (by omega), if_neg (by omega)]

/-- The kinds of the objects of a row. -/
def rowKinds (m : Nat) : List ObjKind := List.replicate m .number ++ [.tuple]

theorem row_spec {m l k : Nat} {h : PyHeap} {own : Nat → Nat} (hc : Counts h own) {o : PyObj}
    (e : h[l]? = some o) (hrc : 0 < o.rc) (hk : o.slots[k]? = some none) :
    ∃ h' own', pyRow m l k h = .ok h' ∧ Grown l (rowKinds m) h own h' own' ∧
      Filled l (k + 1) h h' := by
  have hl := lt_of_getElem? e
  obtain ⟨e1, c1⟩ := numbers_spec m hc
  set h1 := h ++ List.replicate m (⟨1, .number, []⟩ : PyObj) with hh1
  have len1 : h1.length = h.length + m := by simp [hh1]
  obtain ⟨h2, e2, c2, k2, same2, mono2, t2⟩ := pack_counts (ids := List.range' h.length m) c1 (by
    intro i hi
    rw [List.mem_range'_1] at hi
    exact ⟨by omega, by rw [if_neg (by omega)]; omega⟩)
  have len2 : h2.length = h.length + m + 1 := by
    have := congrArg List.length k2
    simp at this; omega
  have hnot : ∀ i < h.length, i ∉ List.range' h.length m := by
    intro i hi hm
    rw [List.mem_range'_1] at hm; omega
  have el2 : h2[l]? = some o := by
    rw [same2 l (by omega) (hnot l hl), hh1, List.getElem?_append_left hl, e]
  obtain ⟨e3, c3⟩ := setItem_counts c2 (v := h1.length) el2 hrc hk (by omega) (by simp)
  have kinds3 : (h2.set l { o with slots := o.slots.set k (some h1.length) }).map (·.kind)
      = h.map (·.kind) ++ rowKinds m := by
    have hset : (h2.set l { o with slots := o.slots.set k (some h1.length) }).map (·.kind)
        = h2.map (·.kind) := by
      rw [List.map_set]
      apply List.ext_getElem?
      intro j
      rw [List.getElem?_set]
      split
      · subst j
        have hl2 : l < h2.length := by omega
        have hg : h2[l] = o := by simpa [hl2] using el2
        simp [hl2, hg]
      · rfl
    rw [hset, k2, hh1]
    simp [rowKinds]
  refine ⟨_, _, ?_, ⟨c3, kinds3, ?_, ?_, ?_, ?_⟩, ?_⟩
  · simp only [pyRow, e1, e2, ok_bind]
    exact e3
  · intro i hi hil
    rw [List.getElem?_set_ne (Ne.symm hil), same2 i (by omega) (hnot i hi), hh1, List.getElem?_append_left hi]
  · intro i hi
    rw [Function.update_of_ne (by omega), Function.update_of_ne (by omega), if_pos hi]
  · intro i h1' h2'
    rw [List.length_set, len2] at h2'
    rw [kindAt, kinds3, List.getElem?_append_right (by simpa using h1'), rowKinds]
    simp only [List.length_map]
    rcases Nat.lt_or_ge i (h.length + m) with hi | hi
    · rw [Function.update_of_ne (by omega), Function.update_of_ne (by omega), if_neg (by omega),
        List.getElem?_append_left (by simp; omega)]
      simp [List.getElem?_replicate, show i - h.length < m by omega]
    · have : i = h1.length := by omega
      subst this
      simp [len1]
  · intro i o' h1' e'
    rw [List.getElem?_set_ne (by omega)] at e'
    rcases Nat.lt_or_ge i h1.length with hi | hi
    · obtain ⟨o1, ho1⟩ : ∃ o1, h1[i]? = some o1 := ⟨h1[i], by simp [hi]⟩
      obtain ⟨o2, ho2, r, -⟩ := mono2 i o1 ho1
      rw [ho2] at e'; cases e'
      rw [hh1, List.getElem?_append_right h1', List.getElem?_replicate] at ho1
      split at ho1
      · cases ho1; simp at r; omega
      · cases ho1
    · have : i = h1.length := by have := lt_of_getElem? e'; omega
      subst this
      rw [t2] at e'; cases e'; simp
  · refine ⟨o, _, e, List.getElem?_set_self (by omega), hrc, rfl, by simp, fun j hj => ?_⟩
    rw [List.getElem?_set_ne (by omega)]

/-- The kinds of `n` rows. -/
def rowsKinds (m n : Nat) : List ObjKind := (List.replicate n (rowKinds m)).flatten

theorem rowsKinds_succ (m n : Nat) : rowsKinds m (n + 1) = rowsKinds m n ++ rowKinds m := by
  simp [rowsKinds, List.replicate_succ', List.flatten_append]

theorem rowsKinds_add (m a b : Nat) : rowsKinds m (a + b) = rowsKinds m a ++ rowsKinds m b := by
  rw [rowsKinds, List.replicate_add, List.flatten_append, rowsKinds, rowsKinds]

theorem fill_pyRows {m l c n : Nat} {h : PyHeap} {own : Nat → Nat} (hc : Counts h own) {o : PyObj}
    (e : h[l]? = some o) (hrc : 0 < o.rc) (hk : ∀ j < n, o.slots[j + c]? = some none) :
    ∃ h' own', forUp 0 n (fun j h => pyRow m l (j + c) h) h = .ok h' ∧
      Grown l (rowsKinds m n) h own h' own' ∧ Filled l (n + c) h h' := by
  have hl := lt_of_getElem? e
  obtain ⟨h', eq, own', g, f⟩ := forUp_inv
    (fun j s => ∃ own', Grown l (rowsKinds m j) h own s own' ∧ Filled l (j + c) h s)
    (body := fun j h => pyRow m l (j + c) h) (s := h) (Nat.zero_le n)
    ⟨own, by simpa [rowsKinds] using Grown.refl hc, o, o, e, e, hrc, rfl, rfl, fun _ _ => rfl⟩
    (by
      rintro j s - hj ⟨own1, g1, f1⟩
      obtain ⟨q, q', d, d', p, r, len, sl⟩ := f1
      rw [e] at d; cases d
      obtain ⟨s', own2, e2, g2, f2⟩ := row_spec (m := m) g1.counts d' (by omega)
        (k := j + c) (by rw [sl _ (le_refl _)]; exact hk j hj)
      refine ⟨s', e2, own2, ?_, ?_⟩
      · rw [rowsKinds_succ]; exact g1.trans hl g2
      · have : Filled l (j + c + 1) h s' := Filled.trans (by omega) ⟨o, q', e, d', p, r, len, sl⟩ f2
        rwa [show j + c + 1 = j + 1 + c by omega] at this)
  exact ⟨h', own', eq, g, f⟩

theorem offset_succ {ns : List Nat} {i n : Nat} (e : ns[i]? = some n) :
    pyOffset ns (i + 1) = pyOffset ns i + n := by
  simp [pyOffset, List.take_add_one, e]

theorem offset_le (ns : List Nat) (i : Nat) : pyOffset ns i ≤ ns.sum := by
  have : (ns.take i ++ ns.drop i).sum = ns.sum := by rw [List.take_append_drop]
  rw [List.sum_append] at this
  rw [pyOffset]; omega

theorem rows_spec {m l : Nat} {ns : List Nat} {h : PyHeap} {own : Nat → Nat} (hc : Counts h own) {o : PyObj}
    (e : h[l]? = some o) (hrc : 0 < o.rc) (hk : ∀ j < ns.sum, o.slots[j]? = some none) :
    ∃ h' own', pyRows m l ns h = .ok h' ∧ Grown l (rowsKinds m ns.sum) h own h' own' := by
  have hl := lt_of_getElem? e
  obtain ⟨h', eq, own', g, f⟩ := forUp_inv
    (fun i s => ∃ own', Grown l (rowsKinds m (pyOffset ns i)) h own s own' ∧ Filled l (pyOffset ns i) h s)
    (body := fun i h => do
      let n ← rd ns i
      forUp 0 n (fun j h => pyRow m l (j + pyOffset ns i) h) h) (s := h) (Nat.zero_le ns.length)
    ⟨own, by simpa [rowsKinds, pyOffset] using Grown.refl hc, o, o, e, e, hrc, rfl, rfl, fun _ _ => rfl⟩
    (by
      rintro i s - hi ⟨own1, g1, f1⟩
      obtain ⟨n, hn⟩ : ∃ n, ns[i]? = some n := ⟨ns[i], by simp [hi]⟩
      have hoff := offset_succ hn
      have hle := offset_le ns (i + 1)
      obtain ⟨q, q', d, d', p, r, len, sl⟩ := f1
      rw [e] at d; cases d
      obtain ⟨s', own2, e2, g2, f2⟩ := fill_pyRows (m := m) (n := n) g1.counts d' (by omega)
        (c := pyOffset ns i) (by intro j hj; rw [sl _ (by omega)]; exact hk _ (by omega))
      refine ⟨s', by rw [rd_eq_ok_iff.mpr hn, ok_bind]; exact e2, own2, ?_, ?_⟩
      · rw [hoff, rowsKinds_add]; exact g1.trans hl g2
      · have : Filled l (n + pyOffset ns i) h s' :=
          Filled.trans (by omega) ⟨o, q', e, d', p, r, len, sl⟩ f2
        rwa [show n + pyOffset ns i = pyOffset ns (i + 1) by omega] at this)
  have : pyOffset ns ns.length = ns.sum := by simp [pyOffset]
  rw [this] at g
  exact ⟨h', own', eq, g⟩

/-- Kinds of the objects of one layer's triangles. -/
def layerKinds (n : Nat) : List ObjKind := .list :: rowsKinds 3 n

theorem layer_spec {tri i n : Nat} {h : PyHeap} {own : Nat → Nat} (hc : Counts h own) {o : PyObj}
    (e : h[tri]? = some o) (hrc : 0 < o.rc) (hk : o.slots[i]? = some none) :
    ∃ h' own', pyLayerTriangles tri i n h = .ok h' ∧ Grown tri (layerKinds n) h own h' own' ∧
      Filled tri (i + 1) h h' := by
  have hl := lt_of_getElem? e
  have c1 := alloc_counts hc .list n
  set h1 := (pyAlloc .list (List.replicate n none) h).2 with hh1
  have len1 : h1.length = h.length + 1 := by simp [hh1, pyAlloc]
  have emy : h1[h.length]? = some ⟨1, .list, List.replicate n none⟩ := by simp [hh1, pyAlloc]
  obtain ⟨h2, own2, e2, g2, f2⟩ := fill_pyRows (m := 3) (c := 0) (n := n) c1 emy (by simp)
    (by intro j hj; simp [hj])
  have len2 := g2.length
  have el2 : h2[tri]? = some o := by
    rw [g2.same tri (by omega) (by omega), hh1, pyAlloc, List.getElem?_append_left hl, e]
  obtain ⟨q, q', d, d', p, r, len, sl⟩ := f2
  rw [emy] at d; cases d
  have ownmy : own2 h.length = 1 := by rw [g2.old _ (by omega)]; simp
  obtain ⟨e3, c3⟩ := setItem_counts g2.counts (v := h.length) el2 hrc hk (by omega) (by omega)
  have kinds3 : (h2.set tri { o with slots := o.slots.set i (some h.length) }).map (·.kind)
      = h.map (·.kind) ++ layerKinds n := by
    have hset : (h2.set tri { o with slots := o.slots.set i (some h.length) }).map (·.kind)
        = h2.map (·.kind) := by
      rw [List.map_set]
      apply List.ext_getElem?
      intro j
      rw [List.getElem?_set]
      split
      · subst j
        have hl2 : tri < h2.length := by omega
        have hg : h2[tri] = o := by simpa [hl2] using el2
        simp [hl2, hg]
      · rfl
    rw [hset, g2.kinds, hh1]
    simp [layerKinds, pyAlloc]
  have hkind : kindAt (h2.set tri { o with slots := o.slots.set i (some h.length) }) = kindAt h2 := by
    funext j
    have hset : (h2.set tri { o with slots := o.slots.set i (some h.length) }).map (·.kind)
        = h2.map (·.kind) := by
      rw [kinds3, g2.kinds, hh1]
      simp [layerKinds, pyAlloc]
    rw [kindAt, hset, kindAt]
  refine ⟨_, _, ?_, ⟨c3, kinds3, ?_, ?_, ?_, ?_⟩, ?_⟩
  · simp only [pyLayerTriangles]
    have e2' : forUp 0 n (fun j h_1 => pyRow 3 (pyAlloc .list (List.replicate n none) h).1 j h_1)
        (pyAlloc .list (List.replicate n none) h).2 = .ok h2 := e2
    rw [e2', ok_bind]
    exact e3
  · intro j hj hjt
    rw [List.getElem?_set_ne (Ne.symm hjt), g2.same j (by omega) (by omega), hh1, pyAlloc,
      List.getElem?_append_left hj]
  · intro j hj
    rw [Function.update_of_ne (by omega), g2.old j (by omega), Function.update_of_ne (by omega)]
  · intro j h1' h2'
    rw [List.length_set] at h2'
    rw [hkind]
    rcases Nat.eq_or_lt_of_le h1' with hj | hj
    · subst hj
      rw [kindAt_eq d']
      have hk' : q'.kind = .list := by
        have := g2.kindAt_old (i := h.length) (by omega)
        rw [kindAt_eq d', kindAt_eq emy] at this
        simpa using this
      simp [hk', ownmy]
    · rw [Function.update_of_ne (by omega)]
      exact g2.new j (by omega) h2'
  · intro j o' h1' e'
    rw [List.getElem?_set_ne (by omega)] at e'
    rcases Nat.eq_or_lt_of_le h1' with hj | hj
    · subst hj
      rw [d'] at e'; cases e'
      simp at r; omega
    · exact g2.pos j o' (by omega) e'
  · refine ⟨o, _, e, List.getElem?_set_self (by omega), hrc, rfl, by simp, fun j hj => ?_⟩
    rw [List.getElem?_set_ne (by omega)]

/-- Kinds of the objects of several layers' triangles. -/
def layersKinds (ns : List Nat) : List ObjKind := ns.flatMap layerKinds

theorem layers_spec {tri : Nat} {ns : List Nat} {h : PyHeap} {own : Nat → Nat} (hc : Counts h own) {o : PyObj}
    (e : h[tri]? = some o) (hrc : 0 < o.rc) (hk : ∀ j < ns.length, o.slots[j]? = some none) :
    ∃ h' own', forUp 0 ns.length (fun i h => do
        let n ← rd ns i
        pyLayerTriangles tri i n h) h = .ok h' ∧ Grown tri (layersKinds ns) h own h' own' := by
  have hl := lt_of_getElem? e
  obtain ⟨h', eq, own', g, f⟩ := forUp_inv
    (fun i s => ∃ own', Grown tri (layersKinds (ns.take i)) h own s own' ∧ Filled tri i h s)
    (body := fun i h => do
      let n ← rd ns i
      pyLayerTriangles tri i n h) (s := h) (Nat.zero_le ns.length)
    ⟨own, by simpa [layersKinds] using Grown.refl hc, o, o, e, e, hrc, rfl, rfl, fun _ _ => rfl⟩
    (by
      rintro i s - hi ⟨own1, g1, f1⟩
      obtain ⟨n, hn⟩ : ∃ n, ns[i]? = some n := ⟨ns[i], by simp [hi]⟩
      obtain ⟨q, q', d, d', p, r, len, sl⟩ := f1
      rw [e] at d; cases d
      obtain ⟨s', own2, e2, g2, f2⟩ := layer_spec (n := n) g1.counts d' (by omega)
        (i := i) (by rw [sl _ (le_refl _)]; exact hk i hi)
      refine ⟨s', by rw [rd_eq_ok_iff.mpr hn, ok_bind]; exact e2, own2, ?_, ?_⟩
      · have : layersKinds (ns.take (i + 1)) = layersKinds (ns.take i) ++ layerKinds n := by
          simp [layersKinds, List.take_add_one, hn]
        rw [this]; exact g1.trans hl g2
      · exact Filled.trans (by omega) ⟨o, q', e, d', p, r, len, sl⟩ f2)
  rw [List.take_length] at g
  exact ⟨h', own', eq, g⟩

/-- `h'` comes from `h` by adding objects of the kinds `ks`: nothing else has changed, and code owns one
more reference to every new number and to the new objects `tops`. -/
structure Built (tops : List Nat) (ks : List ObjKind) (h : PyHeap) (own : Nat → Nat) (h' : PyHeap)
    (own' : Nat → Nat) : Prop where
  counts : Counts h' own'
  kinds : h'.map (·.kind) = h.map (·.kind) ++ ks
  same : ∀ i < h.length, h'[i]? = h[i]?
  old : ∀ i < h.length, own' i = own i
  new : ∀ i, h.length ≤ i → i < h'.length →
    own' i = if i ∈ tops ∨ kindAt h' i = some .number then 1 else 0
  pos : ∀ (i : Nat) (o : PyObj), h.length ≤ i → h'[i]? = some o → 0 < o.rc
  tops : ∀ t ∈ tops, h.length ≤ t ∧ t < h'.length

theorem Built.length {tops : List Nat} {ks : List ObjKind} {h h' : PyHeap} {own own' : Nat → Nat}
    (b : Built tops ks h own h' own') : h'.length = h.length + ks.length := by
  simpa using congrArg List.length b.kinds

theorem Built.refl {h : PyHeap} {own : Nat → Nat} (hc : Counts h own) : Built [] [] h own h own :=
  ⟨hc, by simp, fun _ _ => rfl, fun _ _ => rfl, fun i h1 h2 => by omega, fun i o h1 e => by
    have := lt_of_getElem? e; omega, by simp⟩

theorem Built.alloc {tops : List Nat} {ks : List ObjKind} {h h' : PyHeap} {own own' : Nat → Nat}
    (b : Built tops ks h own h' own') {k : ObjKind} (hk : k ≠ .number) (n : Nat) :
    Built (tops ++ [h'.length]) (ks ++ [k]) h own (pyAlloc k (List.replicate n none) h').2
      (Function.update own' h'.length 1) := by
  have hle := b.length
  have kinds' : (pyAlloc k (List.replicate n none) h').2.map (·.kind) = h'.map (·.kind) ++ [k] := by
    simp [pyAlloc]
  refine ⟨alloc_counts b.counts k n, by rw [kinds', b.kinds, List.append_assoc], ?_, ?_, ?_, ?_, ?_⟩
  · intro i hi
    rw [pyAlloc, List.getElem?_append_left (by omega), b.same i hi]
  · intro i hi
    rw [Function.update_of_ne (by omega), b.old i hi]
  · intro i h1 h2
    simp only [pyAlloc, List.length_append, List.length_singleton] at h2
    rcases Nat.lt_or_ge i h'.length with hi | hi
    · have hkk : kindAt (pyAlloc k (List.replicate n none) h').2 i = kindAt h' i := by
        rw [kindAt, kinds', List.getElem?_append_left (by simpa using hi)]; rfl
      rw [Function.update_of_ne (by omega), b.new i h1 hi, hkk]
      simp [show i ≠ h'.length by omega]
    · have : i = h'.length := by omega
      subst this
      simp
  · intro i o h1 e
    rw [pyAlloc] at e
    rcases Nat.lt_or_ge i h'.length with hi | hi
    · rw [List.getElem?_append_left hi] at e
      exact b.pos i o h1 e
    · have : i = h'.length := by have := lt_of_getElem? e; simp at this; omega
      subst this
      simp at e; subst e; simp
  · intro t ht
    simp only [List.mem_append, List.mem_singleton] at ht
    simp only [pyAlloc, List.length_append, List.length_singleton]
    rcases ht with ht | rfl
    · have := b.tops t ht; omega
    · omega

theorem Built.grow {tops : List Nat} {ks ks' : List ObjKind} {h h' h'' : PyHeap} {own own' own'' : Nat → Nat}
    (b : Built tops ks h own h' own') {l : Nat} (hl : l ∈ tops) (g : Grown l ks' h' own' h'' own'') :
    Built tops (ks ++ ks') h own h'' own'' := by
  have hle := b.length
  have hle' := g.length
  obtain ⟨l1, l2⟩ := b.tops l hl
  refine ⟨g.counts, by rw [g.kinds, b.kinds, List.append_assoc], ?_, ?_, ?_, ?_, ?_⟩
  · intro i hi
    rw [g.same i (by omega) (by omega), b.same i hi]
  · intro i hi
    rw [g.old i (by omega), b.old i hi]
  · intro i h1 h2
    rcases Nat.lt_or_ge i h'.length with hi | hi
    · rw [g.old i hi, b.new i h1 hi, g.kindAt_old hi]
    · rw [g.new i hi h2]
      have : i ∉ tops := fun hm => by have := (b.tops i hm).2; omega
      simp [this]
  · intro i o h1 e
    rcases Nat.lt_or_ge i h'.length with hi | hi
    · by_cases hil : i = l
      · subst hil
        have h3 := g.counts.count i o e
        rw [g.old i hi, b.new i h1 hi, if_pos (Or.inl hl)] at h3
        omega
      · rw [g.same i hi hil] at e
        exact b.pos i o h1 e
    · exact g.pos i o hi e
  · intro t ht
    have := b.tops t ht; omega

theorem Built.pack {tops : List Nat} {ks : List ObjKind} {h h' : PyHeap} {own own' : Nat → Nat}
    (b : Built tops ks h own h' own') {ids : List Nat} (hids : ∀ i ∈ ids, i ∈ tops) :
    ∃ h'' own'', pyPack ids h' = .ok (h'.length, h'') ∧
      Built (tops ++ [h'.length]) (ks ++ [.tuple]) h own h'' own'' ∧
      h''[h'.length]? = some ⟨1, .tuple, ids.map some⟩ := by
  have hle := b.length
  obtain ⟨h2, e2, c2, k2, same2, mono2, t2⟩ := pack_counts (ids := ids) b.counts (by
    intro i hi
    have ht := b.tops i (hids i hi)
    refine ⟨ht.2, ?_⟩
    rw [b.new i ht.1 ht.2, if_pos (Or.inl (hids i hi))]
    omega)
  have len2 : h2.length = h'.length + 1 := by
    have := congrArg List.length k2
    simpa using this
  refine ⟨h2, _, e2, ⟨c2, by rw [k2, b.kinds, List.append_assoc], ?_, ?_, ?_, ?_, ?_⟩, t2⟩
  · intro i hi
    rw [same2 i (by omega) (fun hm => by have := (b.tops i (hids i hm)).1; omega), b.same i hi]
  · intro i hi
    rw [Function.update_of_ne (by omega), b.old i hi]
  · intro i h1 h2'
    rcases Nat.lt_or_ge i h'.length with hi | hi
    · have hkk : kindAt h2 i = kindAt h' i := by
        rw [kindAt, k2, List.getElem?_append_left (by simpa using hi)]; rfl
      rw [Function.update_of_ne (by omega), b.new i h1 hi, hkk]
      simp [show i ≠ h'.length by omega]
    · have : i = h'.length := by omega
      subst this
      simp
  · intro i o h1 e
    rcases Nat.lt_or_ge i h'.length with hi | hi
    · obtain ⟨o1, ho1⟩ : ∃ o1, h'[i]? = some o1 := ⟨h'[i], by simp [hi]⟩
      obtain ⟨o2, ho2, r, -⟩ := mono2 i o1 ho1
      rw [ho2] at e; cases e
      have := b.pos i o1 h1 ho1
      omega
    · have : i = h'.length := by have := lt_of_getElem? e; omega
      subst this
      rw [t2] at e; cases e; simp
  · intro t ht
    simp only [List.mem_append, List.mem_singleton] at ht
    rcases ht with ht | rfl
    · have := b.tops t ht; omega
    · omega

/-! ## Releasing -/

theorem decref_counts {h : PyHeap} {own : Nat → Nat} (hc : Counts h own) {i : Nat} {o : PyObj}
    (e : h[i]? = some o) (hown : 0 < own i) :
    Counts (h.set i { o with rc := o.rc - 1 }) (Function.update own i (own i - 1)) := by
  have hi := lt_of_getElem? e
  have hrc := hc.count i o e
  have hst : ∀ j, stored (h.set i { o with rc := o.rc - 1 }) j = stored h j := by
    intro j
    have := stored_set (o' := { o with rc := o.rc - 1 }) e j
    simpa using this
  refine ⟨?_, ?_⟩
  · intro j o' e'
    rw [hst]
    by_cases hj : j = i
    · subst hj
      rw [List.getElem?_set_self hi] at e'
      simp at e'; subst e'
      simp; omega
    · rw [List.getElem?_set_ne (Ne.symm hj)] at e'
      rw [Function.update_of_ne hj]
      exact hc.count j o' e'
  · intro o' ho' j hj
    rw [List.length_set]
    rcases mem_set_cases ho' with h' | h'
    · exact hc.range o' h' j hj
    · subst h'
      exact hc.range o (List.mem_of_getElem? e) j hj

theorem map_kind_set {h : PyHeap} {i : Nat} {o o' : PyObj} (e : h[i]? = some o) (hk : o'.kind = o.kind) :
    (h.set i o').map (·.kind) = h.map (·.kind) := by
  have hi := lt_of_getElem? e
  rw [List.map_set]
  apply List.ext_getElem?
  intro j
  rw [List.getElem?_set]
  split
  · subst j
    have hg : h[i] = o := by simpa [hi] using e
    simp [hi, hg, hk]
  · rfl

/-- Releasing references to objects of which code keeps more. -/
theorem decrefs_counts (ids : List Nat) : ∀ {h : PyHeap} {own : Nat → Nat} {n : Nat}, Counts h own →
    (∀ i ∈ ids, i < h.length ∧ ids.count i < own i) → ids.length ≤ n →
    ∃ h', pyDecref n ids h = .ok h' ∧ Counts h' (fun i => own i - ids.count i) ∧
      h'.map (·.kind) = h.map (·.kind) ∧ (∀ j, j ∉ ids → h'[j]? = h[j]?) ∧
      (∀ (j : Nat) (o' : PyObj), j ∈ ids → h'[j]? = some o' → 0 < o'.rc) := by
  induction ids with
  | nil =>
    intro h own n hc _ _
    exact ⟨h, by cases n <;> rfl, by simpa using hc, rfl, fun _ _ => rfl, by simp⟩
  | cons a ids ih =>
    intro h own n hc hids hn
    obtain ⟨ha, hown⟩ := hids a (by simp)
    obtain ⟨n, rfl⟩ : ∃ m, n = m + 1 := ⟨n - 1, by simp at hn; omega⟩
    obtain ⟨o, e⟩ : ∃ o, h[a]? = some o := ⟨h[a], by simp [ha]⟩
    have hrc := hc.count a o e
    simp only [List.count_cons_self] at hown
    have c1 := decref_counts hc e (by omega)
    obtain ⟨h2, e2, c2, k2, same2, pos2⟩ := ih (n := n) c1 (by
      intro i hi
      refine ⟨by rw [List.length_set]; exact (hids i (by simp [hi])).1, ?_⟩
      have := (hids i (by simp [hi])).2
      by_cases hia : i = a
      · subst hia; simp; omega
      · rw [Function.update_of_ne hia]
        rw [List.count_cons_of_ne (Ne.symm hia)] at this
        exact this) (by simp at hn; omega)
    have hcount : (fun i => Function.update own a (own a - 1) i - ids.count i)
        = fun i => own i - (a :: ids).count i := by
      funext i
      by_cases hia : i = a
      · subst hia; simp; omega
      · rw [Function.update_of_ne hia, List.count_cons_of_ne (Ne.symm hia)]
    rw [hcount] at c2
    refine ⟨h2, ?_, c2, k2.trans (map_kind_set e rfl), ?_, ?_⟩
    · simp only [pyDecref, rd_eq_ok_iff.mpr e, ok_bind]
      rw [if_neg (by omega), if_neg (by omega)]
      exact e2
    · intro j hj
      simp at hj
      rw [same2 j hj.2, List.getElem?_set_ne (Ne.symm hj.1)]
    · intro j o' hj e'
      have h3 := c2.count j o' e'
      have := (hids j hj).2
      omega

theorem sum_slots_ge {h : PyHeap} {r : Nat} {o : PyObj} (e : h[r]? = some o) :
    o.slots.length ≤ (h.map fun o => o.slots.length).sum := by
  induction h generalizing r with
  | nil => simp at e
  | cons a h ih =>
    cases r with
    | zero => simp at e; subst e; simp
    | succ r => simp at e; have := ih e; simp at this ⊢; omega

/-- Releasing the last reference to a tuple while code keeps references to what is in it. -/
theorem release_counts {h : PyHeap} {own : Nat → Nat} (hc : Counts h own) {r : Nat} {ids : List Nat}
    (e : h[r]? = some ⟨1, .tuple, ids.map some⟩) (hr : own r = 1) (hids : ∀ i ∈ ids, i ≠ r ∧ 0 < own i) :
    ∃ h', pyRelease r h = .ok h' ∧ Counts h' (Function.update own r 0) ∧
      h'.map (·.kind) = h.map (·.kind) ∧ (∀ j, j ≠ r → j ∉ ids → h'[j]? = h[j]?) ∧
      h'[r]? = some ⟨0, .tuple, []⟩ ∧
      (∀ (j : Nat) (o' : PyObj), j ∈ ids → h'[j]? = some o' → 0 < o'.rc) := by
  have hi := lt_of_getElem? e
  have hcount : ∀ i : Nat, (ids.map some).count (some i) = ids.count i := by
    intro i
    simp [List.count, List.countP_map, Function.comp_def]
  have c1 : Counts (h.set r ⟨0, .tuple, []⟩) (fun i => Function.update own r 0 i + ids.count i) := by
    refine ⟨?_, ?_⟩
    · intro j o' e'
      have hst := stored_set (o' := ⟨0, .tuple, []⟩) e j
      simp only [hcount, List.count_nil] at hst
      by_cases hj : j = r
      · subst hj
        rw [List.getElem?_set_self hi] at e'
        simp at e'; subst e'
        have h3 := hc.count j _ e
        simp at h3
        have : ids.count j = 0 := List.count_eq_zero.mpr fun hm => (hids j hm).1 rfl
        simp [this]; omega
      · rw [List.getElem?_set_ne (Ne.symm hj)] at e'
        have h3 := hc.count j o' e'
        simp only [Function.update_of_ne hj]
        omega
    · intro o' ho' j hj
      rw [List.length_set]
      rcases mem_set_cases ho' with h' | h'
      · exact hc.range o' h' j hj
      · subst h'; simp at hj
  have hsum := sum_slots_ge e
  simp at hsum
  obtain ⟨h2, e2, c2, k2, same2, pos2⟩ := decrefs_counts ids (n := (h.map fun o => o.slots.length).sum) c1 (by
    intro i hm
    obtain ⟨h1, h2⟩ := hids i hm
    refine ⟨?_, by simp only [Function.update_of_ne h1]; omega⟩
    rw [List.length_set]
    exact hc.range _ (List.mem_of_getElem? e) i (by simpa using hm)) hsum
  have hown : (fun i => (Function.update own r 0 i + ids.count i) - ids.count i) = Function.update own r 0 := by
    funext i; omega
  rw [hown] at c2
  have hrn : r ∉ ids := fun hm => (hids r hm).1 rfl
  refine ⟨h2, ?_, c2, k2.trans (map_kind_set e rfl), ?_, ?_, pos2⟩
  · simp only [pyRelease, Nat.add_comm 1, pyDecref, rd_eq_ok_iff.mpr e, ok_bind]
    simp only [Nat.one_ne_zero, if_false, if_true, List.append_nil]
    have : (ids.map some).filterMap id = ids := by simp [List.filterMap_map]
    rw [this]
    exact e2
  · intro j hj hjn
    rw [same2 j hjn, List.getElem?_set_ne (Ne.symm hj)]
  · rw [same2 r hrn, List.getElem?_set_self hi]

/-- Releasing never runs out of steps. -/
theorem decref_fault : ∀ (n : Nat) (ids : List Nat) (h : PyHeap),
    ids.length + (h.map fun o => o.slots.length).sum ≤ n → pyDecref n ids h ≠ .error .throw := by
  intro n
  induction n with
  | zero =>
    intro ids h hn
    cases ids with
    | nil => simp [pyDecref]
    | cons a ids => simp at hn
  | succ n ih =>
    intro ids h hn
    cases ids with
    | nil => simp [pyDecref]
    | cons i ids =>
      have key : ∀ (o o' : PyObj), h[i]? = some o → ((h.set i o').map fun o => o.slots.length).sum + o.slots.length
          = (h.map fun o => o.slots.length).sum + o'.slots.length := by
        intro o o' e
        clear hn ih
        induction h generalizing i with
        | nil => simp at e
        | cons a h ih =>
          cases i with
          | zero => simp at e; subst e; simp; omega
          | succ i => simp at e; have := ih i e; simp at this ⊢; omega
      simp only [pyDecref]
      cases e : h[i]? with
      | none => simp [rd, e, error_bind]
      | some o =>
        rw [rd_eq_ok_iff.mpr e, ok_bind]
        simp only [List.length_cons] at hn
        split
        · simp
        · split
          · refine ih _ _ ?_
            have h1 := key o ⟨0, o.kind, []⟩ e
            have h2 : (o.slots.filterMap id).length ≤ o.slots.length := List.length_filterMap_le _ _
            simp only [List.length_nil, List.length_append] at h1 ⊢
            omega
          · refine ih _ _ ?_
            have h1 := key o { o with rc := o.rc - 1 } e
            simp only at h1
            omega

end Nikfemm
