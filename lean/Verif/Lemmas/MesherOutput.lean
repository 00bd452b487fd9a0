import Verif.Lemmas.Pool

/-!
# Lemmas about what the mesher writes
-/

set_option linter.unusedSectionVars false

namespace Nikfemm
variable {R K A : Type}

/-! ## Pools with contents -/

/-- What holds for a pool with contents of which the items `L` are in use. -/
structure StoreInv (alive : R → Bool) (h : Store R) (L : List Addr) : Prop where
  pool : PoolInv h.pool L
  used : ∀ a ∈ L, alive (h.val a) = true
  dead : ∀ a ∈ h.pool.dead, alive (h.val a) = false

theorem new_inv {alive : R → Bool} {h : Store R} {L : List Addr} (H : StoreInv alive h L) {r : R}
    (hr : alive r = true) : StoreInv alive (h.new r).2 ((h.new r).1 :: L) := by
  have hinv := alloc_inv H.pool
  have hnd := inv_nodup hinv
  refine ⟨hinv, ?_, ?_⟩
  · intro a ha
    show alive (Function.update h.val (poolAlloc h.pool).1 r a) = true
    by_cases he : a = (poolAlloc h.pool).1
    · rw [he, Function.update_self]; exact hr
    · rw [Function.update_of_ne he]
      rcases List.mem_cons.1 ha with h1 | h1
      · exact absurd h1 he
      · exact H.used a h1
  · intro a ha
    show alive (Function.update h.val (poolAlloc h.pool).1 r a) = false
    have ha' : a ∈ (poolAlloc h.pool).2.dead := ha
    have he : a ≠ (poolAlloc h.pool).1 := by
      rintro rfl
      have := (List.nodup_append.1 hnd).2.2 _ (List.mem_cons_self ..) _ ha'
      exact this rfl
    rw [Function.update_of_ne he]
    refine H.dead a ?_
    cases hd : h.pool.dead with
    | nil => rw [(alloc_fresh H.pool hd).2.2.1] at ha'; exact absurd ha' (List.not_mem_nil)
    | cons b d =>
      rw [(alloc_reuse H.pool hd).2.1] at ha'
      exact List.mem_cons_of_mem _ ha'

theorem set_inv {alive : R → Bool} {h : Store R} {L : List Addr} (H : StoreInv alive h L) {a : Addr} {r : R}
    (ha : a ∈ L) (hr : alive r = true) : StoreInv alive (h.set a r) L := by
  refine ⟨H.pool, ?_, ?_⟩
  · intro b hb
    show alive (Function.update h.val a r b) = true
    by_cases he : b = a
    · rw [he, Function.update_self]; exact hr
    · rw [Function.update_of_ne he]; exact H.used b hb
  · intro b hb
    show alive (Function.update h.val a r b) = false
    have he : b ≠ a := by
      rintro rfl
      exact (List.nodup_append.1 (inv_nodup H.pool)).2.2 _ ha _ hb rfl
    rw [Function.update_of_ne he]; exact H.dead b hb

theorem free_inv {alive : R → Bool} {h : Store R} {L : List Addr} (H : StoreInv alive h L) {a : Addr} {r : R}
    (ha : a ∈ L) (hr : alive r = false) :
    StoreInv alive ⟨poolDealloc h.pool a, Function.update h.val a r⟩ (L.erase a) := by
  have hnd := inv_nodup H.pool
  have hL : L.Nodup := (List.nodup_append.1 hnd).1
  refine ⟨dealloc_inv H.pool ha, ?_, ?_⟩
  · intro b hb
    show alive (Function.update h.val a r b) = true
    have := (hL.mem_erase_iff).1 hb
    rw [Function.update_of_ne this.1]; exact H.used b this.2
  · intro b hb
    show alive (Function.update h.val a r b) = false
    by_cases he : b = a
    · rw [he, Function.update_self]; exact hr
    · rw [Function.update_of_ne he]
      rcases List.mem_cons.1 hb with h1 | h1
      · exact absurd h1 he
      · exact H.dead b h1

/-- Along any history the invariant is kept, blocks keep their sizes and the items handed out only grow. -/
theorem steps_inv {alive : R → Bool} {free : Store R → Addr → Store R → Prop}
    (hfree : ∀ h a h', free h a h' → ∃ r, alive r = false ∧
      h' = ⟨poolDealloc h.pool a, Function.update h.val a r⟩)
    {h₀ h : Store R} {L₀ L : List Addr} (run : StoreSteps alive free h₀ L₀ h L) (H : StoreInv alive h₀ L₀) :
    StoreInv alive h L ∧ h.pool.firstBlock = h₀.pool.firstBlock ∧ h.pool.perBlock = h₀.pool.perBlock ∧
    h₀.pool.maxitems ≤ h.pool.maxitems := by
  induction run with
  | refl => exact ⟨H, rfl, rfl, le_rfl⟩
  | new run hr ih =>
    rename_i g M r
    obtain ⟨i1, i2, i3, i4⟩ := ih
    have hsz : (poolAlloc g.pool).2.firstBlock = g.pool.firstBlock ∧
        (poolAlloc g.pool).2.perBlock = g.pool.perBlock := by
      unfold poolAlloc
      split
      · exact ⟨rfl, rfl⟩
      · split <;> exact ⟨rfl, rfl⟩
    have hmx : g.pool.maxitems ≤ (poolAlloc g.pool).2.maxitems := by
      unfold poolAlloc
      split
      · exact le_rfl
      · split <;> simp [takeNext, nextBlock]
    exact ⟨new_inv i1 hr, hsz.1.trans i2, hsz.2.trans i3, i4.trans hmx⟩
  | change run ha hr ih => exact ⟨set_inv ih.1 ha hr, ih.2⟩
  | free run ha hf ih =>
    obtain ⟨r, hr, rfl⟩ := hfree _ _ _ hf
    exact ⟨free_inv ih.1 ha hr, ih.2⟩

theorem storeInit_inv {alive : R → Bool} {n first : Nat} (hn : 0 < n) (val : Addr → R) :
    StoreInv alive ⟨poolInit n first, val⟩ [] := by
  refine ⟨init_inv hn, by simp, ?_⟩
  intro a ha
  simp [poolInit, poolRestart] at ha

theorem vertexFree (h : Store (VRec K)) (a : Addr) (h' : Store (VRec K))
    (hf : ∃ junk, h' = vertexDealloc junk h a) :
    ∃ r : VRec K, r.alive = false ∧ h' = ⟨poolDealloc h.pool a, Function.update h.val a r⟩ := by
  obtain ⟨junk, rfl⟩ := hf
  exact ⟨_, rfl, rfl⟩

theorem triangleFree (h : Store (TRec A)) (a : Addr) (h' : Store (TRec A))
    (hf : ∃ junk, h' = triangleDealloc junk h a) :
    ∃ r : TRec A, r.alive = false ∧ h' = ⟨poolDealloc h.pool a, Function.update h.val a r⟩ := by
  obtain ⟨junk, rfl⟩ := hf
  exact ⟨_, rfl, rfl⟩

theorem vertexRun_inv {h : Store (VRec K)} {L : List Addr} (run : VertexRun h L) :
    StoreInv VRec.alive h L := by
  obtain ⟨n, first, val, hn, st⟩ := run
  exact (steps_inv vertexFree st (storeInit_inv hn val)).1

theorem triangleRun_inv {h : Store (TRec A)} {L : List Addr} (run : TriangleRun h L) :
    StoreInv TRec.alive h L := by
  obtain ⟨n, first, val, hn, st⟩ := run
  exact (steps_inv triangleFree st (storeInit_inv hn val)).1

/-- The living items in the order in which their places were first handed out. -/
def Store.living (alive : R → Bool) (h : Store R) : List Addr := h.pool.handed.filter fun a => alive (h.val a)

theorem living_perm {alive : R → Bool} {h : Store R} {L : List Addr} (H : StoreInv alive h L) :
    (h.living alive).Perm L := by
  have h1 := H.pool.perm.symm.filter (fun a => alive (h.val a))
  rw [List.filter_append] at h1
  have h2 : L.filter (fun a => alive (h.val a)) = L := List.filter_eq_self.2 H.used
  have h3 : h.pool.dead.filter (fun a => alive (h.val a)) = [] := by
    rw [List.filter_eq_nil_iff]
    intro a ha; simp [H.dead a ha]
  rw [h2, h3, List.append_nil] at h1
  exact h1

theorem living_nodup {alive : R → Bool} {h : Store R} {L : List Addr} (H : StoreInv alive h L) :
    (h.living alive).Nodup := (handed_nodup H.pool.per).filter _

theorem forEach_collect : ∀ (l s : List Addr),
    forEach (fun a (s : List Addr) => (.ok (s ++ [a]) : Res (List Addr))) l s = .ok (s ++ l)
  | [], s => by simp [forEach]
  | a :: l, s => by simp [forEach, forEach_collect l]

theorem vertexSteps_trans {g₀ g₁ g₂ : Store (VRec K)} {M₀ M₁ M₂ : List Addr} (s1 : VertexSteps g₀ M₀ g₁ M₁)
    (s2 : VertexSteps g₁ M₁ g₂ M₂) : VertexSteps g₀ M₀ g₂ M₂ := by
  induction s2 with
  | refl => exact s1
  | new run hr ih => exact .new ih hr
  | change run ha hr ih => exact .change ih ha hr
  | free run ha hf ih => exact .free ih ha hf

/-! ## Nodes -/

theorem set_behind {α : Type} (P : List α) (r : Nat) (z a : α) :
    (P ++ List.replicate (r + 1) z).set P.length a = (P ++ [a]) ++ List.replicate r z := by
  rw [List.set_append_right _ _ le_rfl]
  simp [List.replicate_succ]

theorem wr_behind {α : Type} (P : List α) {n : Nat} (hn : n = P.length) (r : Nat) (z a : α) :
    wr (P ++ List.replicate (r + 1) z) n a = .ok ((P ++ [a]) ++ List.replicate r z) := by
  subst hn
  rw [wr_ok (by simp), set_behind]

theorem writeNode_alive (a : Addr) (s s' : NodeOut K) (h : writeNode a s = .ok s') :
    (fun b => (s'.val b).alive) = fun b => (s.val b).alive := by
  unfold writeNode at h
  obtain ⟨l1, _, h⟩ := bind_eq_ok_iff.1 h
  obtain ⟨l2, _, h⟩ := bind_eq_ok_iff.1 h
  obtain ⟨l3, _, h⟩ := bind_eq_ok_iff.1 h
  cases h
  funext b
  show VRec.alive (Function.update s.val a _ b) = _
  by_cases he : b = a
  · rw [he, Function.update_self]; rfl
  · rw [Function.update_of_ne he]

/-- Numbering the vertices of a list. -/
def numbered (val : Addr → VRec K) (n : Nat) (l : List Addr) (a : Addr) : VRec K :=
  if a ∈ l then { val a with mark := ((n + l.idxOf a : Nat) : Int) } else val a

theorem numbered_cons {val : Addr → VRec K} {n : Nat} {a : Addr} {l : List Addr} (ha : a ∉ l) :
    numbered (Function.update val a { val a with mark := (n : Int) }) (n + 1) l = numbered val n (a :: l) := by
  funext b
  unfold numbered
  by_cases he : b = a
  · subst he
    simp [ha]
  · rw [Function.update_of_ne he]
    have : (a :: l).idxOf b = l.idxOf b + 1 := List.idxOf_cons_ne _ (Ne.symm he)
    simp only [List.mem_cons, he, false_or, this]
    split
    · congr 2; omega
    · rfl

/-- The coordinates of vertices one after the other. -/
def coords (val : Addr → VRec K) (l : List Addr) : List (Option K) :=
  l.flatMap fun a => [some (val a).x, some (val a).y]

theorem coords_congr {val val' : Addr → VRec K} {l : List Addr} (h : ∀ a ∈ l, val' a = val a) :
    coords val' l = coords val l := by
  unfold coords
  induction l with
  | nil => rfl
  | cons a l ih =>
    simp only [List.flatMap_cons]
    rw [h a (List.mem_cons_self ..), ih (fun b hb => h b (List.mem_cons_of_mem _ hb))]

theorem writeNode_ok {a : Addr} {P : List (Option K)} {M : List (Option Int)} {rp rm n : Nat}
    {val : Addr → VRec K} (hP : P.length = 2 * n) (hM : M.length = n) :
    writeNode a ⟨P ++ List.replicate (rp + 2) none, M ++ List.replicate (rm + 1) none, 2 * n, n, val⟩ =
      .ok ⟨(P ++ [some (val a).x, some (val a).y]) ++ List.replicate rp none,
        (M ++ [some (val a).mark]) ++ List.replicate rm none, 2 * (n + 1), n + 1,
        Function.update val a { val a with mark := (n : Int) }⟩ := by
  unfold writeNode
  simp only
  rw [wr_behind P hP.symm (rp + 1), ok_bind, wr_behind _ (by simp [hP]) rp, ok_bind,
    wr_behind M hM.symm rm, ok_bind]
  simp [Nat.mul_add]

theorem writeNodes_loop : ∀ (l : List Addr) (P : List (Option K)) (M : List (Option Int)) (rp rm n : Nat)
    (val : Addr → VRec K), P.length = 2 * n → M.length = n → l.Nodup →
    forEach writeNode l ⟨P ++ List.replicate (rp + 2 * l.length) none,
      M ++ List.replicate (rm + l.length) none, 2 * n, n, val⟩ =
    .ok ⟨(P ++ coords val l) ++ List.replicate rp none,
      (M ++ l.map fun a => some (val a).mark) ++ List.replicate rm none, 2 * (n + l.length), n + l.length,
      numbered val n l⟩
  | [], P, M, rp, rm, n, val, _, _, _ => by
    simp only [forEach, List.length_nil, Nat.mul_zero, Nat.add_zero, coords, List.flatMap_nil,
      List.append_nil, List.map_nil]
    congr 2
  | a :: l, P, M, rp, rm, n, val, hP, hM, hnd => by
    obtain ⟨ha, hl⟩ := List.nodup_cons.1 hnd
    have hne : ∀ b ∈ l, Function.update val a { val a with mark := (n : Int) } b = val b := by
      intro b hb
      have he : b ≠ a := fun he => ha (he ▸ hb)
      exact Function.update_of_ne he ..
    have h1 := writeNode_ok (a := a) (rp := rp + 2 * l.length) (rm := rm + l.length) (val := val) hP hM
    have h2 := writeNodes_loop l (P ++ [some (val a).x, some (val a).y]) (M ++ [some (val a).mark]) rp rm
      (n + 1) (Function.update val a { val a with mark := (n : Int) }) (by simp [hP]; omega)
      (by simp [hM]) hl
    simp only [forEach, List.length_cons]
    rw [show rp + 2 * (l.length + 1) = rp + 2 * l.length + 2 by ring,
      show rm + (l.length + 1) = rm + l.length + 1 by ring, h1]
    simp only
    rw [h2, numbered_cons ha, coords_congr hne]
    have h3 : (l.map fun b => some (Function.update val a { val a with mark := (n : Int) } b).mark) =
        l.map fun b => some (val b).mark := by
      apply List.map_congr_left
      intro b hb
      rw [hne b hb]
    rw [h3]
    simp only [coords, List.flatMap_cons, List.map_cons, List.append_assoc, List.cons_append,
      List.nil_append, show n + 1 + l.length = n + (l.length + 1) by ring]

/-- A loop that does not fail has room for all vertices. -/
theorem writeNode_index {a : Addr} {s s' : NodeOut K} (h : writeNode a s = .ok s') :
    s'.plist.length = s.plist.length ∧ s'.coordindex = s.coordindex + 2 ∧
    s.coordindex + 2 ≤ s.plist.length := by
  unfold writeNode at h
  obtain ⟨l1, h1, h⟩ := bind_eq_ok_iff.1 h
  obtain ⟨l2, h2, h⟩ := bind_eq_ok_iff.1 h
  obtain ⟨l3, h3, h⟩ := bind_eq_ok_iff.1 h
  cases h
  obtain ⟨g1, rfl⟩ := wr_eq_ok_iff.1 h1
  obtain ⟨g2, rfl⟩ := wr_eq_ok_iff.1 h2
  simp only [List.length_set] at g2 ⊢
  exact ⟨trivial, trivial, by omega⟩

theorem writeNode_fault {a : Addr} {s : NodeOut K} {e : Fault} (h : writeNode a s = .error e) : e = .ub := by
  have hw : ∀ {α : Type} (l : List α) (i : Nat) (x : α) (e : Fault), wr l i x = .error e → e = .ub := by
    intro α l i x e h
    unfold wr at h
    split at h
    · cases h
    · cases h; rfl
  unfold writeNode at h
  rcases bind_eq_error_iff.1 h with h1 | ⟨l1, h1, h⟩
  · exact hw _ _ _ _ h1
  rcases bind_eq_error_iff.1 h with h2 | ⟨l2, h2, h⟩
  · exact hw _ _ _ _ h2
  rcases bind_eq_error_iff.1 h with h3 | ⟨l3, h3, h⟩
  · exact hw _ _ _ _ h3
  cases h

theorem writeNodes_short : ∀ (l : List Addr) (s : NodeOut K), s.plist.length < s.coordindex + 2 * l.length →
    s.coordindex ≤ s.plist.length → forEach writeNode l s = .error .ub
  | [], s, h, h2 => by simp at h; omega
  | a :: l, s, h, h2 => by
    unfold forEach
    cases hb : writeNode a s with
    | error e => simp only [writeNode_fault hb]
    | ok s' =>
      obtain ⟨e1, e2, e3⟩ := writeNode_index hb
      simp only
      apply writeNodes_short l s'
      · rw [e1, e2]; simp only [List.length_cons] at h; omega
      · rw [e1, e2]; exact e3

/-! ## Triangles -/

/-- The corners of triangles one after the other. -/
def cornerMarks (mark : Addr → Int) (t : Addr → TRec A) (l : List Addr) : List (Option Int) :=
  l.flatMap fun a => [some (mark (t a).org), some (mark (t a).dest), some (mark (t a).apex)]

theorem writeElements_loop (mark : Addr → Int) (t : Addr → TRec A) : ∀ (l : List Addr)
    (P : List (Option Int)) (M : List (Option A)) (rp rm n : Nat), P.length = 3 * n → M.length = n →
    forEach (writeElement mark t) l ⟨P ++ List.replicate (rp + 3 * l.length) none,
      M ++ List.replicate (rm + l.length) none, 3 * n, n⟩ =
    .ok ⟨(P ++ cornerMarks mark t l) ++ List.replicate rp none,
      (M ++ l.map fun a => some (t a).attr) ++ List.replicate rm none, 3 * (n + l.length), n + l.length⟩
  | [], P, M, rp, rm, n, _, _ => by
    simp only [forEach, List.length_nil, Nat.mul_zero, Nat.add_zero, cornerMarks, List.flatMap_nil,
      List.append_nil, List.map_nil]
  | a :: l, P, M, rp, rm, n, hP, hM => by
    have h1 : writeElement mark t a ⟨P ++ List.replicate (rp + 3 * l.length + 3) none,
        M ++ List.replicate (rm + l.length + 1) none, 3 * n, n⟩ =
      .ok ⟨(P ++ [some (mark (t a).org), some (mark (t a).dest), some (mark (t a).apex)]) ++
          List.replicate (rp + 3 * l.length) none,
        (M ++ [some (t a).attr]) ++ List.replicate (rm + l.length) none, 3 * (n + 1), n + 1⟩ := by
      unfold writeElement
      simp only
      rw [wr_behind P hP.symm (rp + 3 * l.length + 2), ok_bind,
        wr_behind _ (by simp [hP]) (rp + 3 * l.length + 1), ok_bind,
        wr_behind _ (by simp [hP]) (rp + 3 * l.length), ok_bind,
        wr_behind M hM.symm (rm + l.length), ok_bind]
      simp [Nat.mul_add]
    have h2 := writeElements_loop mark t l
      (P ++ [some (mark (t a).org), some (mark (t a).dest), some (mark (t a).apex)])
      (M ++ [some (t a).attr]) rp rm (n + 1) (by simp [hP]; omega) (by simp [hM])
    simp only [forEach, List.length_cons]
    rw [show rp + 3 * (l.length + 1) = rp + 3 * l.length + 3 by ring,
      show rm + (l.length + 1) = rm + l.length + 1 by ring, h1]
    simp only
    rw [h2]
    simp only [cornerMarks, List.flatMap_cons, List.map_cons, List.append_assoc, List.cons_append,
      List.nil_append, show n + 1 + l.length = n + (l.length + 1) by ring]

/-! ## Reading the arrays -/

theorem coords_get (val : Addr → VRec K) : ∀ (l : List Addr) (i : Nat),
    (coords val l)[2 * i]? = (l[i]?).map (fun a => some (val a).x) ∧
    (coords val l)[2 * i + 1]? = (l[i]?).map (fun a => some (val a).y)
  | [], i => by simp [coords]
  | a :: l, 0 => by simp [coords]
  | a :: l, i + 1 => by
    have ih := coords_get val l i
    have e : coords val (a :: l) = some (val a).x :: some (val a).y :: coords val l := by simp [coords]
    rw [e, show 2 * (i + 1) = 2 * i + 1 + 1 by ring, List.getElem?_cons_succ, List.getElem?_cons_succ,
      show 2 * i + 1 + 1 + 1 = (2 * i + 1) + 1 + 1 by ring, List.getElem?_cons_succ,
      List.getElem?_cons_succ, List.getElem?_cons_succ]
    exact ih

theorem cornerMarks_get (mark : Addr → Int) (t : Addr → TRec A) : ∀ (l : List Addr) (i : Nat),
    (cornerMarks mark t l)[3 * i]? = (l[i]?).map (fun a => some (mark (t a).org)) ∧
    (cornerMarks mark t l)[3 * i + 1]? = (l[i]?).map (fun a => some (mark (t a).dest)) ∧
    (cornerMarks mark t l)[3 * i + 2]? = (l[i]?).map (fun a => some (mark (t a).apex))
  | [], i => by simp [cornerMarks]
  | a :: l, 0 => by simp [cornerMarks]
  | a :: l, i + 1 => by
    have ih := cornerMarks_get mark t l i
    have e : cornerMarks mark t (a :: l) = some (mark (t a).org) :: some (mark (t a).dest) ::
      some (mark (t a).apex) :: cornerMarks mark t l := by simp [cornerMarks]
    rw [e, show 3 * (i + 1) = 3 * i + 1 + 1 + 1 by ring, List.getElem?_cons_succ,
      List.getElem?_cons_succ, List.getElem?_cons_succ,
      show 3 * i + 1 + 1 + 1 + 1 = (3 * i + 1) + 1 + 1 + 1 by ring, List.getElem?_cons_succ,
      List.getElem?_cons_succ, List.getElem?_cons_succ,
      show 3 * i + 1 + 1 + 1 + 2 = (3 * i + 2) + 1 + 1 + 1 by ring, List.getElem?_cons_succ,
      List.getElem?_cons_succ, List.getElem?_cons_succ]
    exact ih

end Nikfemm
