import Verif.Model.FormSkeleton
import Verif.Props.InsertSegment

/-!
# Putting in segments removes no triangle
-/

set_option linter.unusedSectionVars false

namespace Nikfemm
variable {K : Type} [Field K] [LinearOrder K] [IsStrictOrderedRing K]

theorem segmentintersection_tris {c : Spare} {s : Skeleton K} {e : TEdge} {p : Vec K} {r : Skeleton K × TEdge}
    (h : s.segmentintersection c e p = some r) : s.tris ⊆ r.1.tris := by
  unfold Skeleton.segmentintersection at h
  obtain ⟨y, -, h⟩ := Option.bind_eq_some_iff.1 h
  dsimp only at h
  split at h
  · obtain ⟨a, -, h⟩ := Option.bind_eq_some_iff.1 h
    have key : s.tris ⊆ (if (s.m.nb e).1 = 0 then insert c.n1 s.tris else insert c.n1 (insert c.n2 s.tris)) := by
      split
      · exact Finset.subset_insert _ _
      · exact (Finset.subset_insert _ _).trans (Finset.subset_insert _ _)
    split at h
    · cases h; exact key
    · split at h
      · cases h; exact key
      · cases h
  · cases h

theorem scoutsegment_tris {pick : Skeleton K → Spare} {p : Vec K} : ∀ (k : Nat) (s : Skeleton K) (e : TEdge)
    (r : Bool × Skeleton K × TEdge), Skeleton.scoutsegment pick p k s e = some r → s.tris ⊆ r.2.1.tris := by
  intro k
  induction k with
  | zero => intro s e r h; simp [Skeleton.scoutsegment] at h
  | succ k ih =>
    intro s e r h
    unfold Skeleton.scoutsegment at h
    split at h
    swap
    · cases h
    have key : ∀ a, s.scoutStep (pick s) p e = some a →
        (∀ all s' e', a = .returns all s' e' → s.tris ⊆ s'.tris) ∧ ∀ s' e', a = .again s' e' → s.tris ⊆ s'.tris := by
      intro a ha
      unfold Skeleton.scoutStep at ha
      obtain ⟨d, -, ha⟩ := Option.bind_eq_some_iff.1 ha
      dsimp only at ha
      split at ha
      · cases ha
        refine ⟨?_, fun _ _ hc => by cases hc⟩
        intro _ _ _ hc; cases hc; exact Finset.Subset.refl _
      · split at ha
        · cases ha
          refine ⟨fun _ _ _ hc => (by cases hc), ?_⟩
          intro _ _ hc; cases hc; exact Finset.Subset.refl _
        · cases ha
          refine ⟨fun _ _ _ hc => (by cases hc), ?_⟩
          intro _ _ hc; cases hc; exact Finset.Subset.refl _
        · split at ha
          · cases ha
            refine ⟨?_, fun _ _ hc => by cases hc⟩
            intro _ _ _ hc; cases hc; exact Finset.Subset.refl _
          · obtain ⟨b, hb, rfl⟩ := Option.map_eq_some_iff.1 ha
            refine ⟨fun _ _ _ hc => (by cases hc), ?_⟩
            intro _ _ hc; cases hc
            exact segmentintersection_tris hb
    cases hs : s.scoutStep (pick s) p e with
    | none => rw [hs] at h; cases h
    | some a =>
      rw [hs] at h
      cases a with
      | returns all s' e' => cases h; exact (key _ hs).1 _ _ _ rfl
      | again s' e' => exact ((key _ hs).2 _ _ rfl).trans (ih _ _ _ h)

theorem dig_tris {pick : Skeleton K → Spare} {p q : Vec K} : ∀ (n : Nat) (s : Skeleton K) (e : TEdge)
    (r : Bool × Skeleton K × TEdge), Skeleton.dig pick p q n s e = some r → s.tris ⊆ r.2.1.tris := by
  intro n
  induction n with
  | zero => intro s e r h; simp [Skeleton.dig] at h
  | succ n ih =>
    intro s e r h
    unfold Skeleton.dig at h
    dsimp only at h
    split at h
    · obtain ⟨a, -, h⟩ := Option.bind_eq_some_iff.1 h
      obtain ⟨b, -, rfl⟩ := Option.map_eq_some_iff.1 h
      exact Finset.Subset.refl _
    · obtain ⟨a, -, h⟩ := Option.bind_eq_some_iff.1 h
      split at h
      · exact ih { s with m := a.1.flip a.2 } _ _ h
      · obtain ⟨b, hb, rfl⟩ := Option.map_eq_some_iff.1 h
        have h1 := segmentintersection_tris hb
        exact h1

theorem constrainededge_tris {pick : Skeleton K → Spare} {q : Vec K} : ∀ (n : Nat) (s : Skeleton K) (e : TEdge)
    (s' : Skeleton K), Skeleton.constrainededge pick q n s e = some s' → s.tris ⊆ s'.tris := by
  intro n
  induction n with
  | zero => intro s e r h; simp [Skeleton.constrainededge] at h
  | succ n ih =>
    intro s e s' h
    unfold Skeleton.constrainededge at h
    dsimp only at h
    obtain ⟨a, ha, h⟩ := Option.bind_eq_some_iff.1 h
    have h1 := dig_tris _ _ _ _ ha
    change s.tris ⊆ a.2.1.tris at h1
    split at h
    · obtain ⟨b, hb, h⟩ := Option.bind_eq_some_iff.1 h
      have h2 := scoutsegment_tris _ _ _ _ hb
      change a.2.1.tris ⊆ b.2.1.tris at h2
      split at h
      · cases h; exact h1.trans h2
      · exact (h1.trans h2).trans (ih _ _ _ h)
    · cases h; exact h1

theorem insertsegment_tris {pick : Skeleton K → Spare} {stored : Nat → TEdge} {seek : Skeleton K → Nat → Option TEdge}
    {n : Nat} {s s' : Skeleton K} {v w : Nat} (h : s.insertsegment pick stored seek n v w = some s') : s.tris ⊆ s'.tris := by
  unfold Skeleton.insertsegment at h
  obtain ⟨e, -, h⟩ := Option.bind_eq_some_iff.1 h
  obtain ⟨a, ha, h⟩ := Option.bind_eq_some_iff.1 h
  have h1 := scoutsegment_tris _ _ _ _ ha
  split at h
  · cases h; exact h1
  · dsimp only at h
    obtain ⟨e, -, h⟩ := Option.bind_eq_some_iff.1 h
    obtain ⟨b, hb, h⟩ := Option.bind_eq_some_iff.1 h
    have h2 := scoutsegment_tris _ _ _ _ hb
    split at h
    · cases h; exact h1.trans h2
    · exact (h1.trans h2).trans (constrainededge_tris _ _ _ _ h)

/-- The map after some triangles have been visited. -/
theorem vertexmap_fold (m : TMesh K) : ∀ (l : List TEdge) (f : Nat → TEdge) (v : Nat),
    (l.foldl (fun f e => Function.update f (m.org e) e) f v = f v ∧ ∀ e ∈ l, m.org e ≠ v) ∨
    (l.foldl (fun f e => Function.update f (m.org e) e) f v ∈ l ∧
      m.org (l.foldl (fun f e => Function.update f (m.org e) e) f v) = v) := by
  intro l
  induction l with
  | nil => intro f v; exact .inl ⟨rfl, by simp⟩
  | cons e l ih =>
    intro f v
    rw [List.foldl_cons]
    rcases ih (Function.update f (m.org e) e) v with ⟨h1, h2⟩ | ⟨h1, h2⟩
    · rw [h1]
      by_cases hv : m.org e = v
      · right
        subst hv
        rw [Function.update_self]
        exact ⟨List.mem_cons_self, rfl⟩
      · left
        rw [Function.update_of_ne (Ne.symm hv)]
        refine ⟨rfl, fun x hx => ?_⟩
        rcases List.mem_cons.1 hx with rfl | hx
        · exact hv
        · exact h2 x hx
    · right
      exact ⟨List.mem_cons_of_mem _ h1, h2⟩

end Nikfemm
