import Verif.Lemmas.Memory
import Mathlib.Tactic.Linarith

/-!
# C82 — who owns the memory of a mesh
-/

namespace Nikfemm
open Spec

/-- At the beginning no object exists. -/
def nothing : Nat → Status := fun _ => .absent

/-- Programs that do not copy a meshed mesh never touch a block that is not allocated and never free a
block twice; at every moment every block of a living mesh is allocated and has no other owner. -/
theorem mesh_safe (cs : List MeshCmd) (hc : AllCmds Careful cs nothing) :
    ∃ s, meshRun cs .start = .ok s ∧
      (∀ x, (∃ P, s.obj x = some P) ↔ trackAll cs nothing x ≠ .absent) ∧
      ∀ x q, Owns s x q → q ∈ s.heap.live ∧ ∀ y, Owns s y q → y = x := by
  obtain ⟨s, e, hi, -, -⟩ := run_ok cs _ _ inv_start hc
  refine ⟨s, e, fun x => ?_, fun x q h => ⟨inv_live hi h, fun y h' => hi.one y x q h' h⟩⟩
  rw [Ne, show nothing = fun _ => Status.absent from rfl, hi.absent x, ← Ne,
    Option.ne_none_iff_exists']

/-- Without meshing again and without overwriting a meshed mesh nothing is lost: exactly the blocks of
living meshes are allocated, and nothing is left when the last mesh is gone. -/
theorem mesh_no_leak (cs : List MeshCmd) (hc : AllCmds Careful cs nothing)
    (ht : AllCmds Thrifty cs nothing) :
    ∃ s, meshRun cs .start = .ok s ∧ (∀ q, q ∈ s.heap.live ↔ ∃ x, Owns s x q) ∧
      ((∀ x, trackAll cs nothing x = .absent) → s.heap.live = ∅) := by
  obtain ⟨s, e, hi, -, ho⟩ := run_ok cs _ _ inv_start hc
  have hall := ho ht (by intro q hq; simp [MeshState.start] at hq)
  refine ⟨s, e, fun q => ⟨hall q, fun ⟨x, hx⟩ => inv_live hi hx⟩, fun hx => ?_⟩
  rw [Finset.eq_empty_iff_forall_notMem]
  intro q hq
  obtain ⟨x, P, eP, -⟩ := hall q hq
  rw [(hi.absent x).mp (hx x)] at eP
  cases eP

/-- The blocks of a meshed mesh: six if its drawing has region labels, otherwise five at least. -/
theorem full_blocks {h : Heap} {P : Ptrs} {l : Bool} (hg : Good h P) (hf : Full P l) :
    ∃ B : Finset Nat, (if l then 6 else 5) ≤ B.card ∧ ∀ q ∈ B, Has P q := by
  obtain ⟨q1, e1⟩ := hf.points
  obtain ⟨q2, e2⟩ := hf.markers
  obtain ⟨q3, e3⟩ := hf.triangles
  obtain ⟨q4, e4⟩ := hf.segments
  obtain ⟨q5, e5⟩ := hf.segmentMarkers
  have ne : ∀ {f g : Field} {a b : Nat}, f ∈ freedFields → g ∈ freedFields → P f = some a → P g = some b →
      f ≠ g → a ≠ b := by
    rintro f g a b hfm hgm ea eb hne rfl
    exact hne (hg.inj f hfm g hgm a ea eb)
  have n12 := ne (by decide) (by decide) e1 e2 (by decide)
  have n13 := ne (by decide) (by decide) e1 e3 (by decide)
  have n14 := ne (by decide) (by decide) e1 e4 (by decide)
  have n15 := ne (by decide) (by decide) e1 e5 (by decide)
  have n23 := ne (by decide) (by decide) e2 e3 (by decide)
  have n24 := ne (by decide) (by decide) e2 e4 (by decide)
  have n25 := ne (by decide) (by decide) e2 e5 (by decide)
  have n34 := ne (by decide) (by decide) e3 e4 (by decide)
  have n35 := ne (by decide) (by decide) e3 e5 (by decide)
  have n45 := ne (by decide) (by decide) e4 e5 (by decide)
  have c5 : ({q1, q2, q3, q4, q5} : Finset Nat).card = 5 := by
    rw [Finset.card_insert_of_notMem (by simp [*]), Finset.card_insert_of_notMem (by simp [*]),
      Finset.card_insert_of_notMem (by simp [*]), Finset.card_insert_of_notMem (by simp [*]),
      Finset.card_singleton]
  have h5 : ∀ q ∈ ({q1, q2, q3, q4, q5} : Finset Nat), Has P q := by
    intro q hq
    simp only [Finset.mem_insert, Finset.mem_singleton] at hq
    rcases hq with rfl | rfl | rfl | rfl | rfl
    · exact ⟨_, by decide, e1⟩
    · exact ⟨_, by decide, e2⟩
    · exact ⟨_, by decide, e3⟩
    · exact ⟨_, by decide, e4⟩
    · exact ⟨_, by decide, e5⟩
  cases l
  · exact ⟨_, by simp [c5], h5⟩
  · obtain ⟨q6, e6⟩ := hf.attr rfl
    have n1 := ne (by decide) (by decide) e6 e1 (by decide)
    have n2 := ne (by decide) (by decide) e6 e2 (by decide)
    have n3 := ne (by decide) (by decide) e6 e3 (by decide)
    have n4 := ne (by decide) (by decide) e6 e4 (by decide)
    have n5 := ne (by decide) (by decide) e6 e5 (by decide)
    refine ⟨insert q6 {q1, q2, q3, q4, q5}, ?_, ?_⟩
    · rw [Finset.card_insert_of_notMem (by simp [*]), c5]; simp
    · intro q hq
      rcases Finset.mem_insert.mp hq with rfl | hq
      · exact ⟨_, by decide, e6⟩
      · exact h5 q hq

/-- Meshing a meshed mesh again, or assigning to it, loses its blocks for ever: whatever follows, they
stay allocated and belong to nobody. -/
theorem remesh_leaks (cs ds : List MeshCmd) (x : Nat) (l : Bool) (c : MeshCmd)
    (hx : trackAll cs nothing x = .meshed l) (hcmd : (∃ l', c = .mesh x l') ∨ ∃ y, c = .assign x y)
    (hc : AllCmds Careful (cs ++ c :: ds) nothing) :
    ∃ s, ∃ B : Finset Nat, meshRun (cs ++ c :: ds) .start = .ok s ∧ (if l then 6 else 5) ≤ B.card ∧
      ∀ q ∈ B, q ∈ s.heap.live ∧ ∀ y, ¬ Owns s y q := by
  have split : ∀ (as bs : List MeshCmd) (f : Nat → Status), AllCmds Careful (as ++ bs) f →
      AllCmds Careful as f ∧ AllCmds Careful bs (trackAll as f) := by
    intro as
    induction as with
    | nil => intro bs f h; exact ⟨trivial, h⟩
    | cons a as ih =>
      intro bs f h
      obtain ⟨h1, h2⟩ := ih bs _ h.2
      exact ⟨⟨h.1, h1⟩, h2⟩
  obtain ⟨hcs, hcd⟩ := split _ _ _ hc
  obtain ⟨s1, e1, i1, -, -⟩ := run_ok cs _ _ inv_start hcs
  obtain ⟨P, eP, hf⟩ := i1.full x l hx
  obtain ⟨B, hB, hBP⟩ := full_blocks (i1.good x P eP) hf
  have hown : ∀ q ∈ B, Owns s1 x q := fun q hq => ⟨P, eP, hBP q hq⟩
  have hstep : ∃ s2, meshStep s1 c = .ok s2 ∧ Inv s2 (track (trackAll cs nothing) c) ∧
      ∀ q ∈ B, q ∈ s2.heap.live ∧ ∀ y, ¬ Owns s2 y q := by
    obtain ⟨s2, e2, i2, -, -⟩ := step_ok i1 c hcd.1
    refine ⟨s2, e2, i2, fun q hq => ?_⟩
    have hlive : q ∈ s1.heap.live := inv_live i1 (hown q hq)
    have others : ∀ y, y ≠ x → ¬ Owns s1 y q := fun y hy h => hy (i1.one y x q h (hown q hq))
    rcases hcmd with ⟨l', rfl⟩ | ⟨z, rfl⟩
    · obtain ⟨h', P', e', -, -, -, -, hnew, hl'⟩ := mesh_grow (P := P) l' i1.bound
      simp only [meshStep, eP, e', ok_bind, Except.ok.injEq] at e2
      subst e2
      refine ⟨(hl' q).mpr (Or.inl hlive), fun y hy => ?_⟩
      rcases owns_update.mp hy with ⟨rfl, R, eR, hR⟩ | ⟨hne, R, eR, hR⟩
      · obtain rfl : P' = R := by simpa using eR
        exact absurd (i1.bound q hlive) (not_lt.mpr (hnew q hR))
      · exact others y hne ⟨R, eR, hR⟩
    · have hz := i1.fresh z hcd.1.2
      simp only [meshStep, eP, hz, Except.ok.injEq] at e2
      subst e2
      refine ⟨hlive, fun y hy => ?_⟩
      rcases owns_update.mp hy with ⟨rfl, R, eR, hR⟩ | ⟨hne, R, eR, hR⟩
      · obtain rfl : Ptrs.null = R := by simpa using eR
        exact null_has q hR
      · exact others y hne ⟨R, eR, hR⟩
  obtain ⟨s2, e2, i2, hleak⟩ := hstep
  obtain ⟨s3, e3, -, st3, -⟩ := run_ok ds _ _ i2 hcd.2
  refine ⟨s3, B, ?_, hB, fun q hq => st3.leak q (hleak q hq).1 (hleak q hq).2⟩
  rw [meshRun_append, show nothing = fun _ => Status.absent from rfl] at *
  rw [e1, ok_bind]
  unfold meshRun at e3 ⊢
  rw [List.foldlM_cons, e2, ok_bind]
  exact e3

/-- Calling `mesh` `n + 1` times on the same mesh, as every call of `generate_system` does with every
layer, and destroying it leaves `6 n` blocks. -/
theorem remesh_count (n : Nat) : ∃ s, meshRun (.make 0 :: (List.replicate (n + 1) (.mesh 0 true) ++
    [.destroy 0])) .start = .ok s ∧ s.heap.live.card = 6 * n := by
  -- after `k + 1` times: `6 (k + 1)` blocks, of which the mesh owns six
  have main : ∀ (k : Nat) (s : MeshState) (P : Ptrs), s.obj 0 = some P →
      (∀ q ∈ s.heap.live, q < s.heap.next) → ∃ s', meshRun (List.replicate (k + 1) (.mesh 0 true)) s = .ok s' ∧
        (∀ q ∈ s'.heap.live, q < s'.heap.next) ∧ s'.heap.live.card = s.heap.live.card + 6 * (k + 1) ∧
        ∃ n0, s'.obj 0 = some (meshedPtrs n0 true) ∧ ∀ q, Has (meshedPtrs n0 true) q → q ∈ s'.heap.live := by
    intro k
    induction k with
    | zero =>
      intro s P eP hb
      obtain ⟨h', e, hn, hl⟩ := meshMesh_eq s.heap P true hb
      simp only [if_true] at hn
      refine ⟨⟨h', Function.update s.obj 0 (some (meshedPtrs s.heap.next true))⟩, ?_, ?_, ?_,
        s.heap.next, by simp, ?_⟩
      · show List.foldlM meshStep s [.mesh 0 true] = _
        rw [List.foldlM_cons]
        simp only [meshStep, eP, e, ok_bind]
        rfl
      · intro q hq
        rcases (hl q).mp hq with hq | hq
        · have := hb q hq; simp only; omega
        · exact hq.2
      · have : h'.live = s.heap.live ∪ Finset.Ico (s.heap.next + 3) (s.heap.next + 9) := by
          ext q
          rw [hl, Finset.mem_union, Finset.mem_Ico, hn]
        simp only [this]
        rw [Finset.card_union_of_disjoint, Nat.card_Ico]
        · omega
        · rw [Finset.disjoint_left]
          intro q hq hq'
          have := hb q hq
          have := (Finset.mem_Ico.mp hq').1
          omega
      · intro q hq
        rw [meshed_has] at hq
        refine (hl q).mpr (Or.inr ⟨hq.1, ?_⟩)
        simp only [if_true] at hq
        omega
    | succ k ih =>
      intro s P eP hb
      obtain ⟨h', e, hn, hl⟩ := meshMesh_eq s.heap P true hb
      simp only [if_true] at hn
      have hb' : ∀ q ∈ h'.live, q < h'.next := by
        intro q hq
        rcases (hl q).mp hq with hq | hq
        · have := hb q hq; omega
        · exact hq.2
      obtain ⟨s', e', b', c', o'⟩ := ih ⟨h', Function.update s.obj 0 (some (meshedPtrs s.heap.next true))⟩
        (meshedPtrs s.heap.next true) (by simp) hb'
      refine ⟨s', ?_, b', ?_, o'⟩
      · rw [List.replicate_succ]
        unfold meshRun
        rw [List.foldlM_cons]
        simp only [meshStep, eP, e, ok_bind]
        exact e'
      · have : h'.live = s.heap.live ∪ Finset.Ico (s.heap.next + 3) (s.heap.next + 9) := by
          ext q
          rw [hl, Finset.mem_union, Finset.mem_Ico, hn]
        rw [c']
        simp only [this]
        rw [Finset.card_union_of_disjoint, Nat.card_Ico]
        · omega
        · rw [Finset.disjoint_left]
          intro q hq hq'
          have := hb q hq
          have := (Finset.mem_Ico.mp hq').1
          omega
  obtain ⟨s, e, hb, hcard, n0, e0, hlive⟩ := main n ⟨⟨∅, 0⟩, Function.update (fun _ => none) 0 (some Ptrs.null)⟩
    Ptrs.null (by simp) (by simp)
  obtain ⟨h', ed, -, hl⟩ := destroy_ok (h := s.heap) (P := meshedPtrs n0 true)
    ⟨fun f hf q eq => hlive q ⟨f, hf, eq⟩, meshed_inj n0 true⟩
  refine ⟨⟨h', Function.update s.obj 0 none⟩, ?_, ?_⟩
  · unfold meshRun
    rw [List.foldlM_cons]
    show (List.foldlM meshStep ⟨⟨∅, 0⟩, Function.update (fun _ => none) 0 (some Ptrs.null)⟩ _) = _
    rw [List.foldlM_append]
    unfold meshRun at e
    rw [e, ok_bind, List.foldlM_cons]
    simp only [meshStep, e0, ed, ok_bind]
    rfl
  · have hsub : Finset.Ico (n0 + 3) (n0 + 9) ⊆ s.heap.live := by
      intro q hq
      refine hlive q ?_
      rw [meshed_has]
      have := Finset.mem_Ico.mp hq
      simp only [if_true]; omega
    have : h'.live = s.heap.live \ Finset.Ico (n0 + 3) (n0 + 9) := by
      ext q
      rw [hl, Finset.mem_sdiff, meshed_has, Finset.mem_Ico]
      simp
    simp only [this]
    rw [Finset.card_sdiff_of_subset hsub, Nat.card_Ico, hcard, Finset.card_empty]
    omega

/-- Copying or assigning a meshed mesh and then ending both lifetimes frees the same blocks twice, in
either order; reading the copy after the original is gone reads freed memory. -/
theorem copy_double_free (cs : List MeshCmd) (hc : AllCmds Careful cs nothing) (x y : Nat) (l : Bool)
    (hx : trackAll cs nothing x = .meshed l) (c : MeshCmd)
    (hcmd : (c = .copy y x ∧ trackAll cs nothing y = .absent) ∨
      (c = .assign y x ∧ y ≠ x ∧ trackAll cs nothing y ≠ .absent)) :
    meshRun (cs ++ [c, .destroy x, .destroy y]) .start = .error .ub ∧
    meshRun (cs ++ [c, .destroy y, .destroy x]) .start = .error .ub ∧
    meshRun (cs ++ [c, .destroy x, .use y]) .start = .error .ub := by
  obtain ⟨s, e, hi, -, -⟩ := run_ok cs _ _ inv_start hc
  obtain ⟨P, eP, hf⟩ := hi.full x l hx
  have hyx : y ≠ x := by
    rcases hcmd with ⟨-, hy⟩ | ⟨-, hy, -⟩
    · rintro rfl
      rw [hy] at hx; cases hx
    · exact hy
  have hstep : meshStep s c = .ok ⟨s.heap, Function.update s.obj y (some P)⟩ := by
    rcases hcmd with ⟨rfl, hy⟩ | ⟨rfl, -, hy⟩
    · have hy' := (hi.absent y).mp hy
      simp only [meshStep, hy', eP]
    · have hy' : s.obj y ≠ none := fun e => hy ((hi.absent y).mpr e)
      obtain ⟨R, eR⟩ := Option.ne_none_iff_exists'.mp hy'
      simp only [meshStep, eR, eP]
  obtain ⟨h', ed, -, hl⟩ := destroy_ok (hi.good x P eP)
  obtain ⟨q, eq⟩ := hf.points
  have hq : q ∉ h'.live := fun hc => ((hl q).mp hc).2 ⟨.pointlist, by decide, eq⟩
  have hub : destroyMesh h' P = .error .ub := destroy_ub (f := .pointlist) (by decide) eq hq
  have hread : readField h' P .pointlist = .error .ub := by
    unfold readField
    rw [eq]
    exact if_neg hq
  have gx : Function.update s.obj y (some P) x = some P := by
    rw [Function.update_of_ne hyx.symm, eP]
  have gy : Function.update s.obj y (some P) y = some P := Function.update_self ..
  have run3 : ∀ a b s', meshStep ⟨s.heap, Function.update s.obj y (some P)⟩ a = .ok s' →
      meshStep s' b = .error .ub → meshRun (cs ++ [c, a, b]) .start = .error .ub := by
    intro a b s' ea eb
    rw [meshRun_append, e, ok_bind]
    unfold meshRun
    rw [List.foldlM_cons, hstep, ok_bind, List.foldlM_cons, ea, ok_bind, List.foldlM_cons, eb]
    rfl
  have dx : meshStep ⟨s.heap, Function.update s.obj y (some P)⟩ (.destroy x) =
      .ok ⟨h', Function.update (Function.update s.obj y (some P)) x none⟩ := by
    simp only [meshStep, gx, ed, ok_bind]
  have dy : meshStep ⟨s.heap, Function.update s.obj y (some P)⟩ (.destroy y) =
      .ok ⟨h', Function.update (Function.update s.obj y (some P)) y none⟩ := by
    simp only [meshStep, gy, ed, ok_bind]
  refine ⟨run3 _ _ _ dx ?_, run3 _ _ _ dy ?_, run3 _ _ _ dx ?_⟩
  · simp only [meshStep, Function.update_of_ne hyx, gy, hub, error_bind]
  · simp only [meshStep, Function.update_of_ne hyx.symm, gx, eP, hub, error_bind]
  · simp only [meshStep, Function.update_of_ne hyx, gy, hread, error_bind]

/-- Reading a mesh that has not been meshed reads through a null pointer; so does adding the Kelvin
boundary to it. -/
theorem unmeshed_read (cs : List MeshCmd) (hc : AllCmds Careful cs nothing) (x : Nat)
    (hx : trackAll cs nothing x = .fresh) :
    meshRun (cs ++ [.use x]) .start = .error .ub ∧ meshRun (cs ++ [.kelvin x]) .start = .error .ub := by
  obtain ⟨s, e, hi, -, -⟩ := run_ok cs _ _ inv_start hc
  have hP := hi.fresh x hx
  have run1 : ∀ c, meshStep s c = .error .ub → meshRun (cs ++ [c]) .start = .error .ub := by
    intro c ec
    rw [meshRun_append, e, ok_bind]
    unfold meshRun
    rw [List.foldlM_cons, ec]
    rfl
  have hread : ∀ h f, readField h Ptrs.null f = .error .ub := fun _ _ => rfl
  refine ⟨run1 _ ?_, run1 _ ?_⟩
  · simp only [meshStep, hP, hread, error_bind]
  · have hk : kelvinMesh s.heap Ptrs.null = .error .ub := by
      obtain ⟨h1, Q, e1, -, -, -, hg1, -, hf1⟩ := meshMesh_ok s.heap Ptrs.null true hi.bound
      unfold kelvinMesh
      rw [e1]
      simp only [ok_bind]
      rw [readField_ok hg1 (by decide) hf1.markers, ok_bind, readField_ok hg1 (by decide) hf1.points,
        ok_bind, hread, error_bind]
    simp only [meshStep, hP, hk, error_bind]

/-! ## Programs -/

/-- The life of a magnetostatic simulation: mesh, Kelvin boundary, use, end. -/
example : AllCmds Careful [.make 0, .mesh 0 true, .kelvin 0, .use 0, .destroy 0] nothing ∧
    AllCmds Thrifty [.make 0, .mesh 0 true, .kelvin 0, .use 0, .destroy 0] nothing ∧
    ∀ x, trackAll [.make 0, .mesh 0 true, .kelvin 0, .use 0, .destroy 0] nothing x = .absent := by
  refine ⟨by simp [AllCmds, Careful, track, nothing], by simp [AllCmds, Thrifty, track, nothing], ?_⟩
  intro x
  by_cases hx : x = 0
  · subst hx; simp [trackAll, track]
  · simp [trackAll, track, hx, nothing]

/-- `meshes.push_back(CurrentDensityMesh())` twice: temporaries are copied before they are meshed, and
the first element is copied when the vector grows. -/
example : AllCmds Careful [.make 0, .copy 1 0, .destroy 0, .make 0, .copy 3 0, .copy 2 1, .destroy 1,
    .destroy 0, .mesh 2 true, .mesh 3 true, .use 2, .use 3, .destroy 2, .destroy 3] nothing := by
  simp [AllCmds, Careful, track, nothing]

/-- Meshing twice satisfies the hypotheses of `remesh_leaks`. -/
example : trackAll [.make 0, .mesh 0 true] nothing 0 = .meshed true ∧
    AllCmds Careful ([.make 0, .mesh 0 true] ++ .mesh 0 true :: [.use 0, .destroy 0]) nothing := by
  refine ⟨by simp [trackAll, track], ?_⟩
  simp [AllCmds, Careful, track, nothing]

/-- A meshed mesh and a free name satisfy the hypotheses of `copy_double_free`. -/
example : AllCmds Careful [.make 0, .mesh 0 true] nothing ∧
    trackAll [.make 0, .mesh 0 true] nothing 0 = .meshed true ∧
    trackAll [.make 0, .mesh 0 true] nothing 1 = .absent := by
  refine ⟨?_, by simp [trackAll, track], by simp [trackAll, track, nothing]⟩
  simp [AllCmds, Careful, track, nothing]

/-- An object that is only constructed satisfies the hypotheses of `unmeshed_read`. -/
example : AllCmds Careful [.make 0] nothing ∧ trackAll [.make 0] nothing 0 = .fresh := by
  simp [AllCmds, Careful, trackAll, track, nothing]

/-- Copying, destroying both: undefined. -/
example : (meshRun [.make 0, .mesh 0 true, .copy 1 0, .destroy 0, .destroy 1] .start).isOk = false := by
  decide +kernel

/-- Meshing twice and destroying: six blocks are left. -/
example : (meshRun [.make 0, .mesh 0 true, .mesh 0 true, .destroy 0] .start).toOption.map
    (fun s => s.heap.live) = some {3, 4, 5, 6, 7, 8} := by
  decide +kernel

end Nikfemm
