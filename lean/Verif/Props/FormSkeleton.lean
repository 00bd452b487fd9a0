import Verif.Lemmas.FormSkeleton
import Verif.Spec.FormSkeleton

/-!
# Triangle: putting in all segments
-/

set_option linter.unusedSectionVars false

namespace Nikfemm
variable {K : Type} [Field K] [LinearOrder K] [IsStrictOrderedRing K] {s : Skeleton K}

/-- After `makevertexmap` every vertex of the triangulation has a triangle that begins at it, and only triangles are
stored. -/
theorem makevertexmap_right {order : List Nat} (ho : ∀ t, t ∈ order ↔ t ∈ s.tris) (h0 : 0 ∉ s.tris) :
    (∀ v, s.m.HasCorner (· ∈ s.tris) v →
      (s.m.makevertexmap order v).1 ∈ s.tris ∧ s.m.org (s.m.makevertexmap order v) = v) ∧
    ∀ v, (s.m.makevertexmap order v).1 ≠ 0 ↔ s.m.HasCorner (· ∈ s.tris) v := by
  have mem : ∀ e : TEdge, e ∈ (order.flatMap fun t => [((t, 0) : TEdge), (t, 1), (t, 2)]) ↔ e.1 ∈ s.tris := by
    intro e
    rw [List.mem_flatMap]
    constructor
    · rintro ⟨t, ht, he⟩
      have : e.1 = t := by
        simp only [List.mem_cons, List.not_mem_nil, or_false] at he
        rcases he with rfl | rfl | rfl <;> rfl
      rw [this]; exact (ho t).1 ht
    · intro he
      refine ⟨e.1, (ho _).2 he, ?_⟩
      obtain ⟨t, o⟩ := e
      have : ∀ o : Fin 3, o = 0 ∨ o = 1 ∨ o = 2 := by decide
      rcases this o with rfl | rfl | rfl <;> simp
  have key : ∀ v, s.m.HasCorner (· ∈ s.tris) v →
      (s.m.makevertexmap order v).1 ∈ s.tris ∧ s.m.org (s.m.makevertexmap order v) = v := by
    rintro v ⟨x, hx, hv⟩
    rcases vertexmap_fold s.m (order.flatMap fun t => [((t, 0) : TEdge), (t, 1), (t, 2)]) (fun _ => space) v with
      ⟨-, h2⟩ | ⟨h1, h2⟩
    · refine absurd ?_ (h2 (lprev x) ((mem _).2 hx))
      rw [org_lprev]; exact hv
    · exact ⟨(mem _).1 h1, h2⟩
  refine ⟨key, fun v => ⟨fun h => ?_, fun h hc => h0 (hc ▸ (key v h).1)⟩⟩
  rcases vertexmap_fold s.m (order.flatMap fun t => [((t, 0) : TEdge), (t, 1), (t, 2)]) (fun _ => space) v with
    ⟨h1, -⟩ | ⟨h1, h2⟩
  · exact absurd (congrArg Prod.fst h1) h
  · exact ⟨lnext (s.m.makevertexmap order v), (mem (s.m.makevertexmap order v)).1 h1, h2⟩

/-- When `formskeleton` returns, the segments of the input consist of subsegments, in a constrained Delaunay triangulation that
covers the same points, with the vertices in place, and nothing else was covered with a subsegment; or so it was up to
some segment, for a part of which `constrainededge` was called. -/
theorem formskeleton_result {pick : Skeleton K → Spare} (hpick : ∀ s : Skeleton K, s.Unused (pick s))
    {seek : Skeleton K → Nat → Option TEdge}
    (hseek : ∀ s : Skeleton K, s.Ok → ∀ v, s.m.HasCorner (· ∈ s.tris) v →
      ∃ e, seek s v = some e ∧ e.1 ∈ s.tris ∧ s.m.org e = v)
    {order : List Nat} (ho : ∀ t, t ∈ order ↔ t ∈ s.tris) (O : s.Ok) (hT : s.tris.card ≠ 0) {vertex : Int → Nat}
    {invertices : Int} (hv : ∀ i, 0 ≤ i → i < invertices → s.m.HasCorner (· ∈ s.tris) (vertex i)) {n : Nat}
    {segs : List (Int × Int)} {s' : Skeleton K}
    (h : s.formskeleton pick order seek n vertex invertices segs = some s') :
    s'.Ok ∧ s.After s' ∧ (∀ q, s'.OnSub q ↔ s.OnSub q ∨ OnSegments s.pos vertex invertices segs q) ∨
    ∃ done a b rest s1 s2 e r t, segs = done ++ (a, b) :: rest ∧ s1.Ok ∧ s.After s1 ∧
      (∀ q, s1.OnSub q ↔ s.OnSub q ∨ OnSegments s.pos vertex invertices done q) ∧
      s2.Ok ∧ s1.After s2 ∧ 0 ≤ r ∧ r < t ∧ t ≤ 1 ∧
      (∀ q, s2.OnSub q ↔ s1.OnSub q ∨
        (0 < r ∧ Vec.Between (s.pos (vertex a)) ((s.pos (vertex a)).toward (s.pos (vertex b)) r) q) ∨
        (t < 1 ∧ Vec.Between (s.pos (vertex b)) ((s.pos (vertex a)).toward (s.pos (vertex b)) t) q)) ∧
      ∃ s3, Skeleton.constrainededge pick ((s.pos (vertex a)).toward (s.pos (vertex b)) t) n s2 e = some s3 := by
  have h0 : 0 ∉ s.tris := O.sound.out
  unfold Skeleton.formskeleton at h
  rw [if_neg hT] at h
  obtain ⟨k1, k2⟩ := makevertexmap_right ho h0
  have hst : ∀ v, (s.m.makevertexmap order v).1 ≠ 0 → (s.m.makevertexmap order v).1 ∈ s.tris :=
    fun v hc => (k1 v ((k2 v).1 hc)).1
  have find : ∀ s1 : Skeleton K, s1.Ok → s.tris ⊆ s1.tris → ∀ v, s1.m.HasCorner (· ∈ s1.tris) v →
      ∃ e, s1.handleAt (s.m.makevertexmap order) seek v = some e ∧ e.1 ∈ s1.tris ∧ s1.m.org e = v := by
    intro s1 O1 hsub v hc
    unfold Skeleton.handleAt
    split
    · next h1 => exact ⟨_, rfl, hsub (hst v h1.1), h1.2⟩
    · exact hseek s1 O1 v hc
  have main : ∀ (l done : List (Int × Int)) (s1 : Skeleton K), segs = done ++ l → s1.Ok → s.After s1 → s.tris ⊆ s1.tris →
      (∀ q, s1.OnSub q ↔ s.OnSub q ∨ OnSegments s.pos vertex invertices done q) →
      Skeleton.putSegments pick (s.m.makevertexmap order) seek n vertex invertices l s1 = some s' →
      s'.Ok ∧ s.After s' ∧ (∀ q, s'.OnSub q ↔ s.OnSub q ∨ OnSegments s.pos vertex invertices segs q) ∨
      ∃ done a b rest s1 s2 e r t, segs = done ++ (a, b) :: rest ∧ s1.Ok ∧ s.After s1 ∧
        (∀ q, s1.OnSub q ↔ s.OnSub q ∨ OnSegments s.pos vertex invertices done q) ∧
        s2.Ok ∧ s1.After s2 ∧ 0 ≤ r ∧ r < t ∧ t ≤ 1 ∧
        (∀ q, s2.OnSub q ↔ s1.OnSub q ∨
          (0 < r ∧ Vec.Between (s.pos (vertex a)) ((s.pos (vertex a)).toward (s.pos (vertex b)) r) q) ∨
          (t < 1 ∧ Vec.Between (s.pos (vertex b)) ((s.pos (vertex a)).toward (s.pos (vertex b)) t) q)) ∧
        ∃ s3, Skeleton.constrainededge pick ((s.pos (vertex a)).toward (s.pos (vertex b)) t) n s2 e = some s3 := by
    intro l
    induction l with
    | nil =>
      intro done s1 hl O1 A1 _ B1 h
      cases h
      rw [List.append_nil] at hl
      subst hl
      exact .inl ⟨O1, A1, B1⟩
    | cons ab l ih =>
      obtain ⟨a, b⟩ := ab
      intro done s1 hl O1 A1 T1 B1 h
      have hl' : segs = (done ++ [(a, b)]) ++ l := by rw [hl]; simp
      have skip : ¬ ((0 ≤ a ∧ a < invertices) ∧ (0 ≤ b ∧ b < invertices) ∧ s.pos (vertex a) ≠ s.pos (vertex b)) →
          ∀ q, s1.OnSub q ↔ s.OnSub q ∨ OnSegments s.pos vertex invertices (done ++ [(a, b)]) q := by
        intro hc q
        rw [B1 q]
        refine or_congr_right ⟨?_, ?_⟩
        · rintro ⟨x, y, h1, h2⟩
          exact ⟨x, y, List.mem_append_left _ h1, h2⟩
        · rintro ⟨x, y, h1, h2, h3, h4, h5⟩
          rcases List.mem_append.1 h1 with h1 | h1
          · exact ⟨x, y, h1, h2, h3, h4, h5⟩
          · simp only [List.mem_cons, List.not_mem_nil, or_false, Prod.mk.injEq] at h1
            obtain ⟨rfl, rfl⟩ := h1
            exact absurd ⟨h2, h3, h4⟩ hc
      rw [Skeleton.putSegments] at h
      split at h
      · exact ih _ s1 hl' O1 A1 T1 (skip (by omega)) h
      split at h
      · exact ih _ s1 hl' O1 A1 T1 (skip (by omega)) h
      rename_i va vb
      have va : 0 ≤ a ∧ a < invertices := by omega
      have vb : 0 ≤ b ∧ b < invertices := by omega
      obtain ⟨ca, pa⟩ := A1.vertex _ (hv a va.1 va.2)
      obtain ⟨cb, pb⟩ := A1.vertex _ (hv b vb.1 vb.2)
      split at h
      · next hp =>
        rw [pa, pb] at hp
        exact ih _ s1 hl' O1 A1 T1 (skip fun hc => hc.2.2 (Vec.ext hp.1 hp.2)) h
      · next hp =>
        have hne : s1.pos (vertex a) ≠ s1.pos (vertex b) := fun hc => hp ⟨by rw [hc], by rw [hc]⟩
        obtain ⟨s2, h2, h⟩ := Option.bind_eq_some_iff.1 h
        obtain ⟨e0, f1, f2, f3⟩ := find s1 O1 T1 _ ca
        have f4 : ∀ sx ex, Skeleton.scoutsegment pick (s1.pos (vertex b)) n s1 e0 = some (false, sx, ex) →
            ∃ e2, sx.handleAt (s.m.makevertexmap order) seek (vertex b) = some e2 ∧ e2.1 ∈ sx.tris ∧
              sx.m.org e2 = vertex b := by
          intro sx ex hx
          obtain ⟨Ox, Ax, -⟩ := scoutsegment_false hpick O1 f2 cb (by rw [f3]; exact hne.symm) hx
          exact find sx Ox (T1.trans (scoutsegment_tris _ _ _ _ hx)) _ (Ax.vertex _ cb).1
        rcases insertsegment_result hpick O1 cb hne f1 f2 f3 f4 h2 with ⟨g1, g2, g3⟩ | ⟨s3, e, r, t, g1, g2, r0, r1, r2, g3, -, g4⟩
        · refine ih _ s2 hl' g1 (A1.trans g2) (T1.trans (insertsegment_tris h2)) (fun q => ?_) h
          rw [g3 q, B1 q, or_assoc, pa, pb]
          refine or_congr_right ⟨?_, ?_⟩
          · rintro (⟨x, y, h1, h2⟩ | h1)
            · exact ⟨x, y, List.mem_append_left _ h1, h2⟩
            · exact ⟨a, b, by simp, va, vb, by rw [← pa, ← pb]; exact hne, h1⟩
          · rintro ⟨x, y, h1, h2, h3, h4, h5⟩
            rcases List.mem_append.1 h1 with h1 | h1
            · exact .inl ⟨x, y, h1, h2, h3, h4, h5⟩
            · simp only [List.mem_cons, List.not_mem_nil, or_false, Prod.mk.injEq] at h1
              obtain ⟨rfl, rfl⟩ := h1
              exact .inr h5
        · right
          rw [pa, pb] at g3 g4
          exact ⟨done, a, b, l, s1, s3, e, r, t, hl, O1, A1, B1, g1, g2, r0, r1, r2, g3, s2, g4⟩
  refine main segs [] s rfl O ⟨fun w hw => ⟨hw, rfl⟩, fun _ => rfl⟩ (Finset.Subset.refl _) (fun q => ?_) h
  refine ⟨.inl, ?_⟩
  rintro (h1 | ⟨x, y, h1, -⟩)
  · exact h1
  · simp at h1

/-! ## Two sides of a kite, and segments that are left out -/

example : (∀ s : Skeleton ℚ, s.Unused (freshSpare s)) ∧ bareKite.Ok ∧ bareKite.tris.card ≠ 0 ∧
    (∀ t, t ∈ [1, 2] ↔ t ∈ bareKite.tris) ∧ 0 ∉ bareKite.tris ∧
    (∀ s : Skeleton ℚ, s.Ok → ∀ v, s.m.HasCorner (· ∈ s.tris) v →
      ∃ e, lookAll s v = some e ∧ e.1 ∈ s.tris ∧ s.m.org e = v) ∧
    (∀ i : Int, 0 ≤ i → i < 4 → bareKite.m.HasCorner (· ∈ bareKite.tris) (i.toNat + 1)) ∧
    (bareKite.formskeleton freshSpare [1, 2] lookAll 3 (fun i => i.toNat + 1) 4 [(0, 1), (7, 2), (2, 2), (1, 3)]).isSome := by
  refine ⟨freshSpare_unused, bareKite_ok, by decide, fun t => by simp [bareKite], by decide, fun s _ v hv => ?_,
    fun i h0 h1 => ?_, by decide +kernel⟩
  · have := lookAll_finds s v hv
    unfold Skeleton.handleAt at this
    rwa [if_neg (by simp [space])] at this
  · have : i = 0 ∨ i = 1 ∨ i = 2 ∨ i = 3 := by omega
    rcases this with rfl | rfl | rfl | rfl
    · exact ⟨(1, 0), by decide, rfl⟩
    · exact ⟨(1, 1), by decide, rfl⟩
    · exact ⟨(1, 2), by decide, rfl⟩
    · exact ⟨(2, 2), by decide, rfl⟩

end Nikfemm
