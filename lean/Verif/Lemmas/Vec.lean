import Verif.Lemmas.CsrArith

namespace Nikfemm
open Spec Finset

variable {K : Type}

/-- Element-wise unary kernel, total correctness. -/
theorem kMap_spec [Zero K] {f : K → Res K} {g : K → K} {cv res : List K}
    (hf : ∀ a ∈ cv, f a = .ok (g a)) (hl : res.length = cv.length) :
    kMap f cv res = .ok (cv.map g) := by
  obtain ⟨s, e, hs, h1⟩ := forUp_inv (body := fun i res => do
      let a ← rd cv i
      let y ← f a
      wr res i y)
    (fun i s => s.length = cv.length ∧ ∀ r, r < i → fn s r = g (fn cv r))
    (lo := 0) (hi := cv.length) (s := res) (Nat.zero_le _) ⟨hl, by omega⟩
    (by
      rintro i s - hi ⟨h1, h2⟩
      simp only [rd_fn hi, ok_bind]
      rw [hf _ (by rw [fn_of_lt hi]; exact List.getElem_mem hi), ok_bind, wr_ok (by omega)]
      refine ⟨_, rfl, by simp [h1], fun r hr => ?_⟩
      rw [fn_set _ (by omega)]
      split
      · subst_vars; rfl
      · exact h2 r (by omega))
  unfold kMap
  rw [e]
  congr 1
  apply list_ext_fn (by simp [hs])
  intro i hi
  rw [h1 i (by omega), fn_of_lt (by omega : i < cv.length), fn_of_lt (by simp; omega)]
  simp

/-- Element-wise binary kernel, total correctness. -/
theorem kZip_spec [Zero K] {f : K → K → Res K} {g : K → K → K} {cv1 cv2 res : List K}
    (hf : ∀ i, i < cv1.length → f (fn cv1 i) (fn cv2 i) = .ok (g (fn cv1 i) (fn cv2 i)))
    (h12 : cv2.length = cv1.length) (hl : res.length = cv1.length) :
    kZip f cv1 cv2 res = .ok (List.zipWith g cv1 cv2) := by
  obtain ⟨s, e, hs, h1⟩ := forUp_inv (body := fun i res => do
      let a ← rd cv1 i
      let b ← rd cv2 i
      let y ← f a b
      wr res i y)
    (fun i s => s.length = cv1.length ∧ ∀ r, r < i → fn s r = g (fn cv1 r) (fn cv2 r))
    (lo := 0) (hi := cv1.length) (s := res) (Nat.zero_le _) ⟨hl, by omega⟩
    (by
      rintro i s - hi ⟨h1, h2⟩
      simp only [rd_fn hi, ok_bind, rd_fn (l := cv2) (i := i) (by omega)]
      rw [hf i hi, ok_bind, wr_ok (by omega)]
      refine ⟨_, rfl, by simp [h1], fun r hr => ?_⟩
      rw [fn_set _ (by omega)]
      split
      · subst_vars; rfl
      · exact h2 r (by omega))
  unfold kZip
  rw [e]
  congr 1
  apply list_ext_fn (by simp [hs, h12])
  intro i hi
  rw [h1 i (by omega), fn_of_lt (by omega : i < cv1.length), fn_of_lt (by omega : i < cv2.length),
    fn_of_lt (by simp; omega)]
  simp

theorem fn_zipWith [Zero K] {g : K → K → K} {v w : List K} {i : Nat} (h : i < v.length)
    (h' : i < w.length) : fn (List.zipWith g v w) i = g (fn v i) (fn w i) := by
  rw [fn_of_lt h, fn_of_lt h', fn_of_lt (by simp; omega)]
  simp

theorem kAddScaled_spec [CommSemiring K] {v w res : List K} {d : K} (h : w.length = v.length)
    (h' : res.length = v.length) :
    kAddScaled v d w res = .ok (List.zipWith (fun a b => a + d * b) v w) :=
  kZip_spec (fun _ _ => rfl) h h'

theorem kSub_spec [CommRing K] {v w res : List K} (h : w.length = v.length)
    (h' : res.length = v.length) :
    kSub v w res = .ok (List.zipWith (fun a b => a - b) v w) :=
  kZip_spec (fun _ _ => rfl) h h'

theorem kMul_spec [CommSemiring K] {v w res : List K} (h : w.length = v.length)
    (h' : res.length = v.length) :
    kMul v w res = .ok (List.zipWith (fun a b => a * b) v w) :=
  kZip_spec (fun _ _ => rfl) h h'

theorem kCopy_spec [Zero K] {v res : List K} (h' : res.length = v.length) :
    kCopy v res = .ok v := by
  have := kMap_spec (f := (opCopy : K → Res K)) (g := id) (cv := v) (res := res) (fun _ _ => rfl) h'
  simpa [kCopy] using this

theorem kDot_spec [CommSemiring K] {v w : List K} (h : w.length = v.length) :
    kDot v w = .ok (inner v.length (fn v) (fn w)) := by
  obtain ⟨s, e, h1⟩ := forUp_inv (body := fun i acc => do
      let a ← rd v i
      let b ← rd w i
      .ok (acc + a * b))
    (fun i s => s = ∑ j ∈ range i, fn v j * fn w j)
    (lo := 0) (hi := v.length) (s := (0 : K)) (Nat.zero_le _) (by simp)
    (by
      rintro i s - hi rfl
      simp only [rd_fn hi, ok_bind, rd_fn (l := w) (i := i) (by omega)]
      exact ⟨_, rfl, by rw [Finset.sum_range_succ]⟩)
  unfold kDot
  rw [e, h1]; rfl

theorem kSquareSum_spec [CommSemiring K] {v : List K} :
    kSquareSum v = .ok (inner v.length (fn v) (fn v)) := kDot_spec rfl

/-! ### Aliasing -/

/-- A kernel run on a memory where destination and operands may be the same array computes the
element-wise formula on the values held on entry, and changes only the destination. -/
theorem memZip_spec [Zero K] {f : K → K → Res K} {g : K → K → K} {r a b : Nat} {mem : Mem K}
    {va vb vr : List K} (ha : mem[a]? = some va) (hb : mem[b]? = some vb) (hr : mem[r]? = some vr)
    (hf : ∀ i, i < va.length → f (fn va i) (fn vb i) = .ok (g (fn va i) (fn vb i)))
    (hab : vb.length = va.length) (hl : vr.length = va.length) :
    memZip f r a b mem = .ok (mem.set r (List.zipWith g va vb)) := by
  have hrl : r < mem.length := (List.getElem?_eq_some_iff.mp hr).1
  -- contents of the destination after `i` iterations
  let part : Nat → List K := fun i => (List.range va.length).map fun t =>
    if t < i then g (fn va t) (fn vb t) else fn vr t
  have hpart0 : part 0 = vr := by
    apply list_ext_fn (by simp [part, hl])
    intro t ht
    simp only [part, List.length_map, List.length_range] at ht
    rw [fn_ofFn, if_pos ht]; simp
  have hpartn : part va.length = List.zipWith g va vb := by
    apply list_ext_fn (by simp [part, hab])
    intro t ht
    simp only [part, List.length_map, List.length_range] at ht
    rw [fn_ofFn, if_pos ht, if_pos ht, fn_zipWith ht (by omega)]
  -- reading element `i` of any operand after `i` iterations gives the original value
  have hread : ∀ (c : Nat) (vc : List K), mem[c]? = some vc → vc.length = va.length →
      ∀ i, i < va.length → ∃ v, rd (mem.set r (part i)) c = .ok v ∧ rd v i = .ok (fn vc i) := by
    intro c vc hc hcl i hi
    by_cases hcr : c = r
    · subst hcr
      have : vc = vr := by rw [hr] at hc; exact (Option.some.inj hc).symm
      subst this
      refine ⟨part i, by simp [rd, hrl], ?_⟩
      rw [rd_fn (by simp [part]; omega)]
      congr 1
      simp only [part]
      rw [fn_ofFn, if_pos hi, if_neg (lt_irrefl i)]
    · refine ⟨vc, ?_, rd_fn (by omega)⟩
      rw [rd_eq_ok_iff, List.getElem?_set_ne (Ne.symm hcr), hc]
  obtain ⟨s, e, hs⟩ := forUp_inv (body := fun i mem => do
      let va ← rd mem a
      let vb ← rd mem b
      let x ← rd va i
      let y ← rd vb i
      let w ← f x y
      let vr ← rd mem r
      let vr ← wr vr i w
      wr mem r vr)
    (fun i s => s = mem.set r (part i)) (lo := 0) (hi := va.length) (s := mem) (Nat.zero_le _)
    (by
      rw [hpart0]
      apply List.ext_getElem?
      intro t
      by_cases ht : t = r
      · subst ht; exact hr.trans (List.getElem?_set_self hrl).symm
      · rw [List.getElem?_set_ne (Ne.symm ht)])
    (by
      rintro i s - hi rfl
      obtain ⟨wa, e1, e2⟩ := hread a va ha rfl i hi
      obtain ⟨wb, e3, e4⟩ := hread b vb hb hab i hi
      have e5 : rd (mem.set r (part i)) r = .ok (part i) := by simp [rd, hrl]
      simp only [e1, e2, e3, e4, e5, ok_bind, hf i hi]
      rw [wr_ok (by simp [part]; omega), ok_bind, wr_ok (by simp; omega)]
      refine ⟨_, rfl, ?_⟩
      rw [List.set_set]
      congr 1
      simp only [part, map_range_set']
      apply List.map_congr_left
      intro t _
      by_cases h1 : t = i
      · subst h1; simp
      · rw [if_neg h1]
        by_cases h2 : t < i
        · rw [if_pos h2, if_pos (by omega)]
        · rw [if_neg h2, if_neg (by omega)])
  unfold memZip
  rw [show rd mem a = .ok va from rd_eq_ok_iff.mpr ha, ok_bind, e, hs, hpartn]
where
  map_range_set' {β : Type} (f : Nat → β) (n r : Nat) (v : β) :
    ((List.range n).map f).set r v = (List.range n).map (fun i => if i = r then v else f i) := by
    apply List.ext_getElem
    · simp
    · intro i h1 h2
      simp only [List.length_set, List.length_map, List.length_range] at h1
      rw [List.getElem_set]
      simp only [List.getElem_map, List.getElem_range]
      split <;> rename_i h
      · simp [h]
      · rw [if_neg (fun h' => h h'.symm)]

/-- The unary kernels are instances of the binary ones with equal operands. -/
theorem memMap_spec [Zero K] {f : K → Res K} {g : K → K} {r a : Nat} {mem : Mem K}
    {va vr : List K} (ha : mem[a]? = some va) (hr : mem[r]? = some vr)
    (hf : ∀ x ∈ va, f x = .ok (g x)) (hl : vr.length = va.length) :
    memMap f r a mem = .ok (mem.set r (va.map g)) := by
  have h := memZip_spec (f := fun x _ => f x) (g := fun x _ => g x) (r := r) (a := a) (b := a)
    ha ha hr (fun i hi => hf _ (by rw [fn_of_lt hi]; exact List.getElem_mem hi)) rfl hl
  have hz : List.zipWith (fun x _ => g x) va va = va.map g := by
    apply List.ext_getElem <;> simp
  rw [hz] at h
  rw [← h]
  unfold memMap memZip
  congr 1
  funext v
  congr 1
  funext i m
  cases rd m a with
  | error e => rfl
  | ok va => 
    simp only [ok_bind]
    cases rd va i with
    | error e => rfl
    | ok x => rfl

end Nikfemm
