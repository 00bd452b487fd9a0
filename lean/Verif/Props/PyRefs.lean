import Verif.Lemmas.PyRefs

/-!
# References lost by `generate_system` and `solve` (C83)

Every reference that the two methods obtain with `PyLong_FromUnsignedLong`, `PyFloat_FromDouble`,
`PyList_New` and `PyObject_CallObject` and hand to `PyTuple_Pack` is never given back.  When the
Python program drops the result, only the outermost tuple goes away.
-/

namespace Nikfemm

open Spec

/-! ## Counting kinds -/

theorem count_rowKinds (m : Nat) (k : ObjKind) :
    (rowKinds m).count k = (if k = .number then m else 0) + (if k = .tuple then 1 else 0) := by
  cases k <;> simp [rowKinds, List.count_replicate, List.count_append]

theorem count_rowsKinds (m n : Nat) (k : ObjKind) :
    (rowsKinds m n).count k = n * (rowKinds m).count k := by
  induction n with
  | zero => simp [rowsKinds]
  | succ n ih => rw [rowsKinds_succ, List.count_append, ih]; ring

theorem count_layersKinds (ns : List Nat) (k : ObjKind) :
    (layersKinds ns).count k = ns.sum * (rowKinds 3).count k + (if k = .list then ns.length else 0) := by
  induction ns with
  | nil => simp [layersKinds]
  | cons n ns ih =>
    have : layersKinds (n :: ns) = (.list :: rowsKinds 3 n) ++ layersKinds ns := by
      simp [layersKinds, layerKinds]
    rw [this, List.count_append, List.count_cons, count_rowsKinds, ih]
    cases k <;> simp [List.sum_cons] <;> ring

/-! ## What the methods build -/

/-- The state when a method returns the tuple `r`: `a`, `b`, `c` are in the tuple. -/
structure Returned (c : PyBuild) (h : PyHeap) (own : Nat → Nat) (r : Nat) (h' : PyHeap)
    (own' : Nat → Nat) (ids : List Nat) : Prop where
  counts : Counts h' own'
  same : ∀ i < h.length, h'[i]? = h[i]? ∧ own' i = own i
  result : h'[r]? = some ⟨1, .tuple, ids.map some⟩
  last : h'.length = r + 1
  fresh : h.length ≤ r
  parts : ∀ i ∈ ids, h.length ≤ i ∧ i < r
  new : ∀ i, h.length ≤ i → i < h'.length →
    own' i = if i = r ∨ i ∈ ids ∨ kindAt h' i = some .number then 1 else 0
  pos : ∀ (i : Nat) (o : PyObj), h.length ≤ i → h'[i]? = some o → 0 < o.rc
  kinds : ∃ ks, h'.map (·.kind) = h.map (·.kind) ++ ks ++ [.tuple] ∧ ∀ k, ks.count k = made c k

theorem Built.returned {tops : List Nat} {ks : List ObjKind} {h h' : PyHeap} {own own' : Nat → Nat}
    (b : Built tops ks h own h' own') {ids : List Nat} (hids : ∀ i, i ∈ ids ↔ i ∈ tops) {c : PyBuild}
    (hks : ∀ k, ks.count k = made c k) :
    ∃ h'' own'', pyPack ids h' = .ok (h'.length, h'') ∧ Returned c h own h'.length h'' own'' ids := by
  obtain ⟨h2, own2, e2, b2, t2⟩ := b.pack (ids := ids) (fun i hi => (hids i).mp hi)
  have len1 := b.length
  have len2 := b2.length
  simp at len2
  refine ⟨h2, own2, e2, b2.counts, fun i hi => ⟨b2.same i hi, b2.old i hi⟩, t2, by omega, by omega,
    fun i hi => ?_, fun i h1 h2' => ?_, b2.pos, ks, by rw [b2.kinds, List.append_assoc], hks⟩
  · have := b.tops i ((hids i).mp hi); omega
  · rw [b2.new i h1 h2']
    simp only [List.mem_append, List.mem_singleton, hids]
    congr 1
    simp only [eq_iff_iff]
    tauto

theorem generate_built (p t : List Nat) {h : PyHeap} {own : Nat → Nat} (hc : Counts h own) :
    ∃ r h' own' ids, pyGenerateRefs p t h = .ok (r, h') ∧ ids.length = 3 ∧
      Returned (.generate p t) h own r h' own' ids := by
  have b1 := (Built.refl hc).alloc (k := .system) (by decide) 0
  have b2 := b1.alloc (k := .list) (by decide) t.length
  set h1 := (pyAlloc .system (List.replicate 0 none) h).2 with hh1
  set h2 := (pyAlloc .list (List.replicate t.length none) h1).2 with hh2
  have e2 : h2[h1.length]? = some ⟨1, .list, List.replicate t.length none⟩ := by simp [hh2, pyAlloc]
  obtain ⟨h3, own3, e3, g3⟩ := layers_spec (ns := t) b2.counts e2 (by simp)
    (by intro j hj; simp [hj])
  have b3 := b2.grow (l := h1.length) (by simp) g3
  have b4 := b3.alloc (k := .list) (by decide) p.sum
  set h4 := (pyAlloc .list (List.replicate p.sum none) h3).2 with hh4
  have e4 : h4[h3.length]? = some ⟨1, .list, List.replicate p.sum none⟩ := by simp [hh4, pyAlloc]
  obtain ⟨h5, own5, e5, g5⟩ := rows_spec (m := 2) (ns := p) b4.counts e4 (by simp)
    (by intro j hj; simp [hj])
  have b5 := b4.grow (l := h3.length) (by simp) g5
  obtain ⟨h6, own6, e6, R⟩ := b5.returned (ids := [h.length, h1.length, h3.length]) (c := .generate p t)
    (by intro i; simp) (by
      intro k
      simp only [List.nil_append, List.count_append, List.count_singleton, count_layersKinds, count_rowsKinds,
        count_rowKinds]
      cases k <;> simp [made] <;> ring)
  refine ⟨_, h6, own6, _, ?_, by simp, R⟩
  simp only [pyGenerateRefs]
  have e3' : forUp 0 t.length (fun i h_1 => do
      let n ← rd t i
      pyLayerTriangles (pyAlloc .list (List.replicate t.length none) (pyAlloc .system [] h).2).1 i n h_1)
      (pyAlloc .list (List.replicate t.length none) (pyAlloc .system [] h).2).2 = .ok h3 := e3
  rw [e3', ok_bind]
  have e5' : pyRows 2 (pyAlloc .list (List.replicate p.sum none) h3).1 p
      (pyAlloc .list (List.replicate p.sum none) h3).2 = .ok h5 := e5
  rw [e5', ok_bind]
  exact e6

theorem solve_built (p t : List Nat) (nP : Nat) {h : PyHeap} {own : Nat → Nat} (hc : Counts h own) :
    ∃ r h' own' ids, pySolveRefs p t p.sum nP h = .ok (r, h') ∧ ids.length = 3 ∧
      Returned (.solve p t nP) h own r h' own' ids := by
  have b1 := (Built.refl hc).alloc (k := .list) (by decide) p.sum
  set h1 := (pyAlloc .list (List.replicate p.sum none) h).2 with hh1
  have e1 : h1[h.length]? = some ⟨1, .list, List.replicate p.sum none⟩ := by simp [hh1, pyAlloc]
  obtain ⟨h2, own2, e2, g2⟩ := rows_spec (m := 4) (ns := p) b1.counts e1 (by simp)
    (by intro j hj; simp [hj])
  have b2 := b1.grow (l := h.length) (by simp) g2
  have b3 := b2.alloc (k := .list) (by decide) nP
  set h3 := (pyAlloc .list (List.replicate nP none) h2).2 with hh3
  have e3 : h3[h2.length]? = some ⟨1, .list, List.replicate nP none⟩ := by simp [hh3, pyAlloc]
  obtain ⟨h4, own4, e4, g4, -⟩ := fill_pyRows (m := 2) (c := 0) (n := nP) b3.counts e3 (by simp)
    (by intro j hj; simp [hj])
  have b4 := b3.grow (l := h2.length) (by simp) g4
  have b5 := b4.alloc (k := .list) (by decide) t.sum
  set h5 := (pyAlloc .list (List.replicate t.sum none) h4).2 with hh5
  have e5 : h5[h4.length]? = some ⟨1, .list, List.replicate t.sum none⟩ := by simp [hh5, pyAlloc]
  obtain ⟨h6, own6, e6, g6⟩ := rows_spec (m := 4) (ns := t) b5.counts e5 (by simp)
    (by intro j hj; simp [hj])
  have b6 := b5.grow (l := h4.length) (by simp) g6
  obtain ⟨h7, own7, e7, R⟩ := b6.returned (ids := [h.length, h4.length, h2.length]) (c := .solve p t nP)
    (by intro i; simp; tauto) (by
      intro k
      simp only [List.nil_append, List.count_append, List.count_singleton, count_rowsKinds, count_rowKinds]
      cases k <;> simp [made] <;> ring)
  refine ⟨_, h7, own7, _, ?_, by simp, R⟩
  simp only [pySolveRefs]
  have e2' : pyRows 4 (pyAlloc .list (List.replicate p.sum none) h).1 p
      (pyAlloc .list (List.replicate p.sum none) h).2 = .ok h2 := e2
  rw [e2', ok_bind]
  have e4' : forUp 0 nP (fun i h => pyRow 2 (pyAlloc .list (List.replicate nP none) h2).1 i h)
      (pyAlloc .list (List.replicate nP none) h2).2 = .ok h4 := e4
  rw [e4', ok_bind]
  have e6' : pyRows 4 (pyAlloc .list (List.replicate t.sum none) h4).1 t
      (pyAlloc .list (List.replicate t.sum none) h4).2 = .ok h6 := e6
  rw [e6', ok_bind]
  exact e7

/-! ## C83 -/

/-- Releasing an object ends properly or touches a deallocated object; the bound on the number of steps
in the model never matters. -/
theorem pyRelease_fault (i : Nat) (h : PyHeap) : pyRelease i h ≠ .error .throw :=
  decref_fault _ _ _ (by simp)

/-- **The references that `generate_system` and `solve` own when they return.**  The counts are right
with respect to the stored references and the references `own'`.  A method that has returned can own
only the reference it returned, to `r`; but there is one more to each of the three objects in the
result and to every number that was made. -/
theorem build_refs (c : PyBuild) {h : PyHeap} {own : Nat → Nat} (hc : Counts h own) :
    ∃ (r : Nat) (h' : PyHeap) (own' : Nat → Nat) (ids : List Nat), pyBuild h c = .ok (r, h') ∧
      Counts h' own' ∧ h'[r]? = some ⟨1, .tuple, ids.map some⟩ ∧ ids.length = 3 ∧
      (∀ i < h.length, h'[i]? = h[i]? ∧ own' i = own i) ∧
      (∀ (i : Nat) (o : PyObj), h.length ≤ i → h'[i]? = some o →
        0 < o.rc ∧ own' i = if i = r ∨ i ∈ ids ∨ o.kind = .number then 1 else 0) := by
  obtain ⟨r, h', own', ids, e, l, R⟩ : ∃ (r : Nat) (h' : PyHeap) (own' : Nat → Nat) (ids : List Nat), pyBuild h c = .ok (r, h') ∧ ids.length = 3 ∧
      Returned c h own r h' own' ids := by
    cases c with
    | generate p t => exact generate_built p t hc
    | solve p t nP => exact solve_built p t nP hc
  refine ⟨r, h', own', ids, e, R.counts, R.result, l, R.same, fun i o hi ho => ⟨R.pos i o hi ho, ?_⟩⟩
  rw [R.new i hi (lt_of_getElem? ho), kindAt_eq ho]
  simp

/-- **Dropping the result frees one tuple.**  After a call and the release of its result the earlier
objects are as before, and every new object but the outermost tuple is still allocated although nothing
refers to it any more. -/
theorem call_leaks (c : PyBuild) {h : PyHeap} {own : Nat → Nat} (hc : Counts h own) :
    ∃ h' own', pyCallDrop h c = .ok h' ∧ Counts h' own' ∧
      (∀ i < h.length, h'[i]? = h[i]? ∧ own' i = own i) ∧
      (∀ i, h.length ≤ i → i + 1 < h'.length → Live h' i ∧ ¬ Reach h' (· < h.length) i) ∧
      (∀ k, liveOf k h' = liveOf k h + made c k) := by
  obtain ⟨r, h1, own1, ids, e1, l1, R⟩ : ∃ (r : Nat) (h' : PyHeap) (own' : Nat → Nat) (ids : List Nat), pyBuild h c = .ok (r, h') ∧ ids.length = 3 ∧
      Returned c h own r h' own' ids := by
    cases c with
    | generate p t => exact generate_built p t hc
    | solve p t nP => exact solve_built p t nP hc
  have hlast := R.last
  have hfresh := R.fresh
  obtain ⟨h2, e2, c2, k2, same2, dead2, pos2⟩ := release_counts R.counts R.result
    (by rw [R.new r hfresh (by omega)]; simp) (by
      intro i hi
      have := R.parts i hi
      refine ⟨by omega, ?_⟩
      rw [R.new i this.1 (by omega), if_pos (Or.inr (Or.inl hi))]
      omega)
  have len2 : h2.length = h1.length := by simpa using congrArg List.length k2
  have hsame : ∀ i < h.length, h2[i]? = h[i]? := by
    intro i hi
    rw [same2 i (by omega) (fun hm => by have := (R.parts i hm).1; omega), (R.same i hi).1]
  have hlive : ∀ i, h.length ≤ i → i < r → Live h2 i := by
    intro i h1' h2'
    obtain ⟨o, ho⟩ : ∃ o, h2[i]? = some o := ⟨h2[i]'(by omega), by simp⟩
    refine ⟨o, ho, ?_⟩
    by_cases hm : i ∈ ids
    · exact pos2 i o hm ho
    · rw [same2 i (by omega) hm] at ho
      exact R.pos i o h1' ho
  refine ⟨h2, _, ?_, c2, fun i hi => ⟨hsame i hi, ?_⟩, fun i h1' h2' => ⟨hlive i h1' (by omega), ?_⟩, fun k => ?_⟩
  · simp only [pyCallDrop, e1, ok_bind]; exact e2
  · rw [Function.update_of_ne (by omega), (R.same i hi).2]
  · intro hreach
    have : ∀ j, Reach h2 (· < h.length) j → j < h.length := by
      intro j hj
      induction hj with
      | root j hj => exact hj
      | step i j o _ ho hs ih =>
        rw [hsame i ih] at ho
        exact hc.range o (List.mem_of_getElem? ho) j hs
    have := this i hreach
    omega
  · obtain ⟨ks, hks, hcount⟩ := R.kinds
    rw [← k2] at hks
    have hlen := congrArg List.length hks
    simp at hlen
    have hsplit : h2 = h ++ (h2.drop h.length).take ks.length ++ h2.drop r := by
      have h3 : h2.take h.length = h := by
        apply List.ext_getElem?
        intro i
        rcases Nat.lt_or_ge i h.length with hi | hi
        · rw [List.getElem?_take_of_lt hi, hsame i hi]
        · rw [List.getElem?_eq_none (by simp; omega), List.getElem?_eq_none hi]
      have h4 : h2.drop r = (h2.drop h.length).drop ks.length := by
        rw [List.drop_drop]; congr 1; omega
      conv_lhs => rw [← List.take_append_drop h.length h2, h3, ← List.take_append_drop ks.length (h2.drop h.length)]
      rw [h4, List.append_assoc]
    have hdead : h2.drop r = [⟨0, .tuple, []⟩] := by
      have hr : r < h2.length := by omega
      rw [List.drop_eq_getElem_cons hr, List.drop_eq_nil_of_le (by omega)]
      have : h2[r] = ⟨0, .tuple, []⟩ := by simpa [hr] using dead2
      rw [this]
    have hmid : ((h2.drop h.length).take ks.length).countP (fun o => decide (0 < o.rc ∧ o.kind = k))
        = ks.count k := by
      have hmap : ((h2.drop h.length).take ks.length).map (·.kind) = ks := by
        rw [List.map_take, List.map_drop, hks]
        simp
      have hall : ∀ o ∈ (h2.drop h.length).take ks.length, 0 < o.rc := by
        intro o ho
        obtain ⟨j, hj⟩ := List.mem_iff_getElem?.mp ho
        have hjl := lt_of_getElem? hj
        simp at hjl
        rw [List.getElem?_take_of_lt (by omega), List.getElem?_drop] at hj
        obtain ⟨o', ho', hpos⟩ := hlive (h.length + j) (by omega) (by omega)
        rw [ho'] at hj; cases hj
        exact hpos
      conv_rhs => rw [← hmap]
      rw [List.count, List.countP_map]
      apply List.countP_congr
      intro o ho
      simp [hall o ho]
    have hl : liveOf k h2 = liveOf k h
        + ((h2.drop h.length).take ks.length).countP (fun o => decide (0 < o.rc ∧ o.kind = k))
        + (h2.drop r).countP (fun o => decide (0 < o.rc ∧ o.kind = k)) := by
      unfold liveOf
      conv_lhs => rw [hsplit]
      rw [List.countP_append, List.countP_append]
    rw [hl, hmid, hdead, hcount]
    simp

/-- **A program that calls the methods again and again keeps every object**, also one whole system of
equations for every `generate_system`, even if it drops all results. -/
theorem calls_leak (cs : List PyBuild) : ∀ {h : PyHeap} {own : Nat → Nat}, Counts h own →
    ∃ h' own', pyCalls cs h = .ok h' ∧ Counts h' own' ∧ (∀ i < h.length, h'[i]? = h[i]?) ∧
      ∀ k, liveOf k h' = liveOf k h + (cs.map fun c => made c k).sum := by
  induction cs with
  | nil => intro h own hc; exact ⟨h, own, rfl, hc, fun _ _ => rfl, by simp⟩
  | cons c cs ih =>
    intro h own hc
    obtain ⟨h1, own1, e1, c1, s1, -, l1⟩ := call_leaks c hc
    obtain ⟨h2, own2, e2, c2, s2, l2⟩ := ih c1
    have hle : h.length ≤ h1.length := by
      by_contra hcon
      have h3 := (s1 h1.length (by omega)).1
      simp at h3
      omega
    refine ⟨h2, own2, ?_, c2, fun i hi => by rw [s2 i (by omega), (s1 i hi).1], fun k => ?_⟩
    · simp only [pyCalls, List.foldlM_cons, e1, ok_bind]
      exact e2
    · rw [l2, l1]; simp; omega

/-- One layer with three points and one triangle: after `generate_system` and dropping the result 17 of
the 18 objects remain, among them the system. -/
example : (pyCallDrop [] (.generate [3] [1])).toOption.map
    (fun h => (h.length, liveCount h, liveOf .system h)) = some (18, 17, 1) := by decide +kernel

/-- The same call twice and a `solve`, starting with an object that the program owns. -/
example : (pyCalls [.generate [3] [1], .solve [3] [1] 1, .generate [3] [1]] [⟨1, .number, []⟩]).toOption.map
    (fun h => (h.length, liveCount h, liveOf .system h)) = some (64, 61, 2) := by decide +kernel

/-- The premise holds for a heap with a list that holds a number. -/
example : Counts [⟨1, .number, []⟩, ⟨2, .list, [some 0, none]⟩] (fun i => if i = 1 then 2 else 0) := by
  refine ⟨?_, ?_⟩
  · intro i o e
    match i, e with
    | 0, e => simp at e; subst e; decide
    | 1, e => simp at e; subst e; decide
    | (n + 2), e => simp at e
  · intro o ho i hi
    simp at ho
    rcases ho with rfl | rfl
    · simp at hi
    · simp at hi; subst hi; decide

end Nikfemm
