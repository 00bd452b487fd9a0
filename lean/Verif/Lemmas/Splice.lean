import Verif.Lemmas.Rim
import Verif.Lemmas.Parts
import Verif.Spec.Delete

/-!
# Replacing the last three triangles at a vertex by one
-/

set_option linter.unusedSectionVars false

namespace Nikfemm
variable {K : Type} [Field K] [LinearOrder K] [IsStrictOrderedRing K]

/-- Three triangles around a vertex; `d`, `g1` and `g2` start there. -/
structure Triple (m : TMesh K) (live : Nat → Prop) (d g1 g2 : TEdge) : Prop where
  l0 : live d.1
  l1 : live g1.1
  l2 : live g2.1
  n0 : m.nb (lprev d) = g1
  n1 : m.nb (lprev g1) = g2
  n2 : m.nb (lprev g2) = d
  s0 : m.sg d = noSub
  s1 : m.sg g1 = noSub
  s2 : m.sg g2 = noSub
  t01 : d.1 ≠ g1.1
  t12 : g1.1 ≠ g2.1
  t02 : d.1 ≠ g2.1
  far : ∀ g, g = d ∨ g = g1 ∨ g = g2 →
    (m.nb (lnext g)).1 ≠ d.1 ∧ (m.nb (lnext g)).1 ≠ g1.1 ∧ (m.nb (lnext g)).1 ≠ g2.1

/-- The edges that end at the vertex. -/
def Spoke (d g1 g2 x : TEdge) : Prop :=
  x = d ∨ x = lprev d ∨ x = g1 ∨ x = lprev g1 ∨ x = g2 ∨ x = lprev g2

/-- Where the edges go. -/
def spliceMap (d g1 g2 x : TEdge) : TEdge :=
  if x = lnext g2 then d else if x = lnext g1 then lprev d else x

section
variable {m : TMesh K} {live : Nat → Prop} {d g1 g2 : TEdge} (S : m.Sound live) (H : Triple m live d g1 g2)
include S H

theorem triple_nb : m.nb d = lprev g2 ∧ m.nb g1 = lprev d ∧ m.nb g2 = lprev g1 := by
  have h0 : live (lprev d).1 := H.l0
  have h1 : live (lprev g1).1 := H.l1
  have h2 : live (lprev g2).1 := H.l2
  refine ⟨?_, ?_, ?_⟩
  · rw [← H.n2]; exact S.nb_nb h2 (by rw [H.n2]; exact S.ne_space H.l0)
  · rw [← H.n0]; exact S.nb_nb h0 (by rw [H.n0]; exact S.ne_space H.l1)
  · rw [← H.n1]; exact S.nb_nb h1 (by rw [H.n1]; exact S.ne_space H.l2)

theorem spoke_inner {x : TEdge} (h : Spoke d g1 g2 x) :
    live x.1 ∧ m.nb x ≠ space ∧ m.sg x = noSub ∧ Spoke d g1 g2 (m.nb x) := by
  obtain ⟨b0, b1, b2⟩ := triple_nb S H
  have h0 : live (lprev d).1 := H.l0
  have h1 : live (lprev g1).1 := H.l1
  have h2 : live (lprev g2).1 := H.l2
  have z0 := S.ne_space H.l0
  have z1 := S.ne_space H.l1
  have z2 := S.ne_space H.l2
  have y0 := S.ne_space h0
  have y1 := S.ne_space h1
  have y2 := S.ne_space h2
  unfold Spoke at *
  rcases h with rfl | rfl | rfl | rfl | rfl | rfl
  · exact ⟨H.l0, by rw [b0]; exact y2, H.s0, by rw [b0]; simp⟩
  · exact ⟨h0, by rw [H.n0]; exact z1, by rw [S.sg_nb h0 (by rw [H.n0]; exact z1), H.n0]; exact H.s1, by rw [H.n0]; simp⟩
  · exact ⟨H.l1, by rw [b1]; exact y0, H.s1, by rw [b1]; simp⟩
  · exact ⟨h1, by rw [H.n1]; exact z2, by rw [S.sg_nb h1 (by rw [H.n1]; exact z2), H.n1]; exact H.s2, by rw [H.n1]; simp⟩
  · exact ⟨H.l2, by rw [b2]; exact y1, H.s2, by rw [b2]; simp⟩
  · exact ⟨h2, by rw [H.n2]; exact z0, by rw [S.sg_nb h2 (by rw [H.n2]; exact z0), H.n2]; exact H.s0, by rw [H.n2]; simp⟩

omit S in
theorem spoke_tri {x : TEdge} (h : Spoke d g1 g2 x) : x.1 = d.1 ∨ x.1 = g1.1 ∨ x.1 = g2.1 := by
  unfold Spoke at h
  rcases h with rfl | rfl | rfl | rfl | rfl | rfl <;> simp [lprev]

omit S in
theorem tri_spoke {x : TEdge} (h : x.1 = d.1 ∨ x.1 = g1.1 ∨ x.1 = g2.1) :
    Spoke d g1 g2 x ∨ x = lnext d ∨ x = lnext g1 ∨ x = lnext g2 := by
  unfold Spoke
  rcases h with h | h | h
  · rcases edge_cases d.2 (x := x) (t := d.1) h with h | h | h
    · exact .inl (.inl h)
    · exact .inr (.inl h)
    · exact .inl (.inr (.inl h))
  · rcases edge_cases g1.2 (x := x) (t := g1.1) h with h | h | h
    · exact .inl (.inr (.inr (.inl h)))
    · exact .inr (.inr (.inl h))
    · exact .inl (.inr (.inr (.inr (.inl h))))
  · rcases edge_cases g2.2 (x := x) (t := g2.1) h with h | h | h
    · exact .inl (.inr (.inr (.inr (.inr (.inl h)))))
    · exact .inr (.inr (.inr h))
    · exact .inl (.inr (.inr (.inr (.inr (.inr h)))))

omit S in
theorem spoke_not : ¬ Spoke d g1 g2 (lnext d) ∧ ¬ Spoke d g1 g2 (lnext g1) ∧ ¬ Spoke d g1 g2 (lnext g2) := by
  have a := H.t01
  have b := H.t12
  have c := H.t02
  have tr : ∀ {x y : TEdge}, x.1 ≠ y.1 → x ≠ y := fun h e => h (congrArg Prod.fst e :)
  refine ⟨?_, ?_, ?_⟩
  · rintro (h | h | h | h | h | h)
    · exact lnext_ne _ h
    · exact lnext_ne_lprev _ h
    · exact a (congrArg Prod.fst h :)
    · exact a (congrArg Prod.fst h :)
    · exact c (congrArg Prod.fst h :)
    · exact c (congrArg Prod.fst h :)
  · rintro (h | h | h | h | h | h)
    · exact a (congrArg Prod.fst h :).symm
    · exact a (congrArg Prod.fst h :).symm
    · exact lnext_ne _ h
    · exact lnext_ne_lprev _ h
    · exact b (congrArg Prod.fst h :)
    · exact b (congrArg Prod.fst h :)
  · rintro (h | h | h | h | h | h)
    · exact c (congrArg Prod.fst h :).symm
    · exact c (congrArg Prod.fst h :).symm
    · exact b (congrArg Prod.fst h :).symm
    · exact b (congrArg Prod.fst h :).symm
    · exact lnext_ne _ h
    · exact lnext_ne_lprev _ h

/-- The parts of the mesh afterwards. -/
theorem splice_parts :
    m.dnext d = lnext g2 ∧ m.oprev (lprev d) = lnext g1 ∧
    (m.spliceOut d).nb = bonds m.nb [(d, m.nb (lnext g2)), (lprev d, m.nb (lnext g1))] ∧
    (m.spliceOut d).apex = Function.update m.apex (lnext d) (m.dest g2) ∧
    (m.spliceOut d).sg = Function.update (Function.update m.sg d (m.sg (lnext g2))) (lprev d) (m.sg (lnext g1)) ∧
    (∀ s, (s ≠ m.sg (lnext g2) ∨ s = noSub) → (s ≠ m.sg (lnext g1) ∨ s = noSub) → (m.spliceOut d).st s = m.st s) ∧
    (m.sg (lnext g2) ≠ noSub → (m.spliceOut d).st (m.sg (lnext g2)) = d) ∧
    (m.sg (lnext g1) ≠ noSub → (m.spliceOut d).st (m.sg (lnext g1)) = lprev d) ∧
    (m.spliceOut d).sorg = m.sorg ∧ (m.spliceOut d).attr = m.attr ∧
    (m.spliceOut d).checksegments = m.checksegments := by
  obtain ⟨b0, b1, b2⟩ := triple_nb S H
  have e1 : m.dnext d = lnext g2 := by unfold TMesh.dnext; rw [b0, lprev_lprev]
  have e2 : m.oprev (lprev d) = lnext g1 := by unfold TMesh.oprev; rw [H.n0]
  refine ⟨e1, e2, ?_⟩
  have q2 : live (lnext g2).1 := H.l2
  have q1 : live (lnext g1).1 := H.l1
  have z2 := S.sg_zero q2
  have z1 := S.sg_zero q1
  have sp : m.sg (lprev d) = noSub := (spoke_inner S H (.inr (.inl rfl))).2.2.1
  have ne : m.sg (lnext g2) = m.sg (lnext g1) → m.sg (lnext g2) = noSub := by
    intro h
    by_contra hc
    exact H.t12 (congrArg Prod.fst (S.sg_inj q2 q1 h hc)).symm
  have pd : lprev d ≠ d := lprev_ne d
  have x1 : lnext g1 ≠ d := fun h => H.t01 (congrArg Prod.fst h :).symm
  have no0 : noSub.1 = 0 := rfl
  have og : m.org (lnext g2) = m.dest g2 := org_lnext ..
  unfold TMesh.spliceOut
  simp only [e1, e2]
  unfold TMesh.bond TMesh.tsbond TMesh.setorg
  simp only
  by_cases h2 : (m.sg (lnext g2)).1 = 0
  · have h2' : m.sg (lnext g2) = noSub := z2.resolve_right (by rw [not_not]; exact h2)
    by_cases h1 : (m.sg (lnext g1)).1 = 0
    · have h1' : m.sg (lnext g1) = noSub := z1.resolve_right (by rw [not_not]; exact h1)
      rw [if_neg (not_not.2 h2)]
      simp only
      rw [if_neg (not_not.2 h1)]
      refine ⟨rfl, ?_, ?_, fun s _ _ => rfl, fun h => absurd h2' h, fun h => absurd h1' h, rfl, rfl, rfl⟩
      · show Function.update m.apex _ (m.org (lnext g2)) = _
        rw [og]
      · rw [h2', h1']
        show m.sg = _
        rw [← H.s0, Function.update_eq_self, H.s0, ← sp, Function.update_eq_self]
    · have h1' : m.sg (lnext g1) ≠ noSub := fun h => h1 (by rw [h]; rfl)
      rw [if_neg (not_not.2 h2)]
      simp only
      rw [if_pos h1]
      refine ⟨rfl, ?_, ?_, ?_, fun h => absurd h2' h, ?_, rfl, rfl, rfl⟩
      · show Function.update m.apex _ (m.org (lnext g2)) = _
        rw [og]
      · rw [h2']
        show Function.update m.sg _ _ = _
        rw [← H.s0, Function.update_eq_self]
      · intro s _ hs
        exact Function.update_of_ne (hs.elim id fun h => by rw [h]; exact h1'.symm) _ _
      · intro _
        exact Function.update_self ..
  · have h2' : m.sg (lnext g2) ≠ noSub := fun h => h2 (by rw [h]; rfl)
    have ne' := fun h => h2' (ne h)
    rw [if_pos h2]
    simp only
    rw [Function.update_of_ne x1]
    by_cases h1 : (m.sg (lnext g1)).1 = 0
    · have h1' : m.sg (lnext g1) = noSub := z1.resolve_right (by rw [not_not]; exact h1)
      rw [if_neg (not_not.2 h1)]
      refine ⟨rfl, ?_, ?_, ?_, ?_, fun h => absurd h1' h, rfl, rfl, rfl⟩
      · show Function.update m.apex _ (m.org (lnext g2)) = _
        rw [og]
      · rw [h1']
        show Function.update m.sg _ _ = _
        have : Function.update m.sg d (m.sg (lnext g2)) (lprev d) = noSub := by rw [Function.update_of_ne pd, sp]
        rw [← this, Function.update_eq_self]
      · intro s hs _
        exact Function.update_of_ne (hs.elim id fun h => by rw [h]; exact h2'.symm) _ _
      · intro _
        exact Function.update_self ..
    · have h1' : m.sg (lnext g1) ≠ noSub := fun h => h1 (by rw [h]; rfl)
      rw [if_pos h1]
      refine ⟨rfl, ?_, rfl, ?_, ?_, ?_, rfl, rfl, rfl⟩
      · show Function.update m.apex _ (m.org (lnext g2)) = _
        rw [og]
      · intro s hs hs'
        show Function.update (Function.update m.st _ _) _ _ s = _
        rw [Function.update_of_ne (hs'.elim id fun h => by rw [h]; exact h1'.symm),
          Function.update_of_ne (hs.elim id fun h => by rw [h]; exact h2'.symm)]
      · intro _
        show Function.update (Function.update m.st _ _) _ _ _ = _
        rw [Function.update_of_ne ne', Function.update_self]
      · intro _
        exact Function.update_self ..

omit S in
theorem spliceMap_tri {x : TEdge} (h1 : x.1 ≠ g1.1) (h2 : x.1 ≠ g2.1) : spliceMap d g1 g2 x = x := by
  unfold spliceMap
  rw [if_neg (show ¬ x = lnext g2 from fun e => h2 (congrArg Prod.fst e :)),
    if_neg (show ¬ x = lnext g1 from fun e => h1 (congrArg Prod.fst e :))]

omit S in
theorem spliceMap_at : spliceMap d g1 g2 (lnext g2) = d ∧ spliceMap d g1 g2 (lnext g1) = lprev d := by
  unfold spliceMap
  refine ⟨if_pos rfl, ?_⟩
  rw [if_neg (show ¬ lnext g1 = lnext g2 from fun e => H.t12 (congrArg Prod.fst e :)), if_pos rfl]

/-- The corners afterwards. -/
theorem splice_corners :
    (m.spliceOut d).corners d = (m.dest g2, m.dest d, m.apex d) ∧
    (∀ x : TEdge, x.1 ≠ d.1 → (m.spliceOut d).corners x = m.corners x) ∧
    (∀ x, x ≠ lnext d → (m.spliceOut d).apex x = m.apex x) := by
  obtain ⟨-, -, -, ha, -⟩ := splice_parts S H
  have ap : ∀ x, x ≠ lnext d → (m.spliceOut d).apex x = m.apex x := by
    intro x hx; rw [ha, Function.update_of_ne hx]
  refine ⟨?_, fun x hx => ?_, ap⟩
  · unfold TMesh.corners TMesh.org TMesh.dest
    rw [ap d (lnext_ne d).symm, ap (lprev d) (lnext_ne_lprev d).symm, ha, Function.update_self]
    rfl
  · have h : ∀ y : TEdge, y.1 = x.1 → y ≠ lnext d := fun y hy e => hx (by rw [← hy, e]; rfl)
    unfold TMesh.corners TMesh.org TMesh.dest
    rw [ap x (h x rfl), ap (lnext x) (h _ rfl), ap (lprev x) (h _ rfl)]

/-- All edges that are not spokes are still there. -/
theorem splice_moved (a0 : m.dest d = m.apex g2) (a1 : m.dest g1 = m.apex d) (a2 : m.dest g2 = m.apex g1) :
    Moved m (m.spliceOut d) live (Shrunk live (g2.1, g1.1)) (spliceMap d g1 g2)
      (fun x => live x.1 ∧ ¬ Spoke d g1 g2 x) := by
  obtain ⟨-, -, hnb, -, hsg, hst, hst2, hst1, hso, hat, hch⟩ := splice_parts S H
  obtain ⟨hc, hco, hap⟩ := splice_corners S H
  obtain ⟨f2, f1⟩ := spliceMap_at H
  obtain ⟨ns0, ns1, ns2⟩ := spoke_not H
  have q2 : live (lnext g2).1 := H.l2
  have q1 : live (lnext g1).1 := H.l1
  have far1 := H.far g1 (.inr (.inl rfl))
  have far2 := H.far g2 (.inr (.inr rfl))
  unfold TMesh.corners at hc hco
  simp only [Prod.mk.injEq] at hc hco
  obtain ⟨c1, c2, c3⟩ := hc
  -- kept edges
  have cases : ∀ x : TEdge, live x.1 → ¬ Spoke d g1 g2 x →
      x = lnext g2 ∨ x = lnext g1 ∨ (x ≠ lnext g2 ∧ x ≠ lnext g1 ∧ spliceMap d g1 g2 x = x ∧ x.1 ≠ g1.1 ∧ x.1 ≠ g2.1 ∧
        x ≠ d ∧ x ≠ lprev d) := by
    intro x hx hk
    by_cases h2 : x = lnext g2
    · exact .inl h2
    · by_cases h1 : x = lnext g1
      · exact .inr (.inl h1)
      · have t1 : x.1 ≠ g1.1 := by
          intro e
          rcases tri_spoke H (x := x) (.inr (.inl e)) with h | h | h | h
          · exact hk h
          · exact H.t01 (by rw [← e, h]; rfl)
          · exact h1 h
          · exact h2 h
        have t2 : x.1 ≠ g2.1 := by
          intro e
          rcases tri_spoke H (x := x) (.inr (.inr e)) with h | h | h | h
          · exact hk h
          · exact H.t02 (by rw [← e, h]; rfl)
          · exact h1 h
          · exact h2 h
        exact .inr (.inr ⟨h2, h1, spliceMap_tri H t1 t2, t1, t2, fun e => hk (.inl e), fun e => hk (.inr (.inl e))⟩)
  have M : Moves m live [(lnext g2, d), (lnext g1, lprev d)] [(d, m.nb (lnext g2)), (lprev d, m.nb (lnext g1))]
      (spliceMap d g1 g2) (fun x => live x.1 ∧ ¬ Spoke d g1 g2 x) := by
    refine ⟨⟨?_, ?_⟩, ?_, ?_, ?_, fun x hx => hx.1, ?_⟩
    · simp only [List.pairwise_cons, List.mem_cons, List.not_mem_nil, or_false, forall_eq, List.Pairwise.nil, and_true,
        IsEmpty.forall_iff, implies_true]
      refine ⟨(lprev_ne d).symm, fun e => far1.1 (by rw [← e]), fun e => far2.1 (by rw [e]; rfl), fun e => ?_⟩
      by_contra hs
      exact H.t12 (congrArg Prod.fst (S.nb_inj q2 q1 e hs)).symm
    · intro p hp
      simp only [List.mem_cons, List.not_mem_nil, or_false] at hp
      rcases hp with rfl | rfl
      · exact ⟨S.ne_space H.l0, fun e => far2.1 (congrArg Prod.fst e :).symm⟩
      · exact ⟨S.ne_space (x := lprev d) H.l0, fun e => far1.1 (congrArg Prod.fst e :).symm⟩
    · intro p hp
      simp only [List.mem_cons, List.not_mem_nil, or_false] at hp
      rcases hp with rfl | rfl
      · exact ⟨q2, by simp, f2⟩
      · exact ⟨q1, by simp, f1⟩
    · intro p hp q hq
      simp only [List.mem_cons, List.not_mem_nil, or_false] at hp hq
      have : p.1 = lnext g1 ∨ p.1 = lnext g2 := by rcases hp with rfl | rfl <;> simp
      have g : (m.nb p.1).1 ≠ g1.1 ∧ (m.nb p.1).1 ≠ g2.1 := by
        rcases this with h | h <;> rw [h]
        · exact far1.2
        · exact far2.2
      rcases hq with rfl | rfl
      · exact fun e => g.2 (congrArg Prod.fst e :)
      · exact fun e => g.1 (congrArg Prod.fst e :)
    · intro x hx
      unfold spliceMap
      rw [if_neg (hx (lnext g2, d) (by simp)), if_neg (hx (lnext g1, lprev d) (by simp))]
    · intro x hx hL p hp
      simp only [List.mem_cons, List.not_mem_nil, or_false] at hp
      rcases hp with rfl | rfl
      · exact ⟨fun e => hx.2 (.inl e), fun _ => ⟨(lnext g2, d), by simp, rfl⟩⟩
      · exact ⟨fun e => hx.2 (.inr (.inl e)), fun _ => ⟨(lnext g1, lprev d), by simp, rfl⟩⟩
  have NB : ∀ x, live x.1 ∧ ¬ Spoke d g1 g2 x →
      (m.spliceOut d).nb (spliceMap d g1 g2 x) = if m.nb x = space then space else spliceMap d g1 g2 (m.nb x) := by
    intro x hx; rw [hnb]; exact M.nb S hx
  have NOW : ∀ x : TEdge, live x.1 ∧ ¬ Spoke d g1 g2 x → Shrunk live (g2.1, g1.1) (spliceMap d g1 g2 x).1 := by
    intro x hx
    rcases cases x hx.1 hx.2 with rfl | rfl | ⟨-, -, h, t1, t2, -⟩
    · rw [f2]; exact ⟨H.l0, H.t02, H.t01⟩
    · rw [f1]; exact ⟨H.l0, H.t02, H.t01⟩
    · rw [h]; exact ⟨hx.1, t2, t1⟩
  have REST : ∀ x' : TEdge, Shrunk live (g2.1, g1.1) x'.1 →
      ∃ x, (live x.1 ∧ ¬ Spoke d g1 g2 x) ∧ spliceMap d g1 g2 x = x' := by
    rintro x' ⟨hl, h2, h1⟩
    by_cases e1 : x' = d
    · exact ⟨lnext g2, ⟨q2, ns2⟩, by rw [f2, e1]⟩
    by_cases e2 : x' = lprev d
    · exact ⟨lnext g1, ⟨q1, ns1⟩, by rw [f1, e2]⟩
    refine ⟨x', ⟨hl, ?_⟩, spliceMap_tri H h1 h2⟩
    rintro (h | h | h | h | h | h)
    · exact e1 h
    · exact e2 h
    · exact h1 (congrArg Prod.fst h :)
    · exact h1 (congrArg Prod.fst h :)
    · exact h2 (congrArg Prod.fst h :)
    · exact h2 (congrArg Prod.fst h :)
  have ends : ∀ x : TEdge, x ≠ d → x ≠ lprev d →
      (m.spliceOut d).org x = m.org x ∧ (m.spliceOut d).dest x = m.dest x := by
    intro x h1 h2
    refine ⟨hap _ fun e => h1 ?_, hap _ fun e => h2 ?_⟩
    · rw [← lprev_lnext x, e, lprev_lnext]
    · rw [← lnext_lprev x, e, lnext_lnext]
  refine ⟨fun h => S.out h.1, fun x hx => hx.1, NOW, ?_, ?_, ?_, NB, ?_, ?_, ?_, ?_, hch, ?_, fun x' hx' => .inl (REST x' hx')⟩
  · intro x hx hs
    refine ⟨S.nb_live hx.1 hs, fun h => hx.2 ?_⟩
    have := (spoke_inner S H h).2.2.2
    rwa [S.nb_nb hx.1 hs] at this
  · intro x hx
    rcases cases x hx.1 hx.2 with rfl | rfl | ⟨-, -, h, -, -, h1, h2⟩
    · rw [f2, c1, org_lnext]
    · rw [f1, org_lprev, c3, org_lnext, a1]
    · rw [h]; exact (ends x h1 h2).1
  · intro x hx
    rcases cases x hx.1 hx.2 with rfl | rfl | ⟨-, -, h, -, -, h1, h2⟩
    · rw [f2, c2, dest_lnext, a0]
    · rw [f1, dest_lprev, c1, dest_lnext, a2]
    · rw [h]; exact (ends x h1 h2).2
  · intro x hx
    rw [hsg]
    rcases cases x hx.1 hx.2 with rfl | rfl | ⟨-, -, h, -, -, h1, h2⟩
    · rw [f2, Function.update_of_ne (lprev_ne d).symm, Function.update_self]
    · rw [f1, Function.update_self]
    · rw [h, Function.update_of_ne h2, Function.update_of_ne h1]
  · intro x hx hs
    rcases cases x hx.1 hx.2 with rfl | rfl | ⟨h2, h1, h, -⟩
    · rw [f2, hst2 hs]
    · rw [f1, hst1 hs]
    · rw [h, hst _ (.inl fun e => h2 (S.sg_inj hx.1 q2 e hs)) (.inl fun e => h1 (S.sg_inj hx.1 q1 e hs))]
      exact ((S.seg x hx.1).resolve_left hs).2.1
  · intro x _ _
    rw [hso]
    exact ⟨rfl, rfl⟩
  · intro x hx hs hn
    have h := ((S.seg x hx.1).resolve_left hs).2.2.2.2.2 hn
    have out : ∀ y : TEdge, live y.1 → m.sg y ≠ noSub → ssym (m.sg x) ≠ m.sg y := by
      intro y hy hsy e
      have := ((S.seg y hy).resolve_left hsy).2.1
      rw [← e, h] at this
      exact S.ne_space hy this.symm
    have n0 : ssym (m.sg x) ≠ noSub := by
      intro e
      have := ((S.seg x hx.1).resolve_left hs).1
      exact this (congrArg Prod.fst e :)
    rw [hst, h]
    · by_cases h' : m.sg (lnext g2) = noSub
      · rw [h']; exact .inl n0
      · exact .inl (out _ q2 h')
    · by_cases h' : m.sg (lnext g1) = noSub
      · rw [h']; exact .inl n0
      · exact .inl (out _ q1 h')
  · rintro ⟨e, he, hn⟩
    rcases bonds_space M.apart m.nb with ⟨p, hp, h1, h2⟩ | ⟨h1, h2⟩
    · rw [hnb, h2, (bonds_mem M.apart m.nb hp).1, h1]
      refine ⟨?_, rfl⟩
      simp only [List.mem_cons, List.not_mem_nil, or_false] at hp
      rcases hp with rfl | rfl
      · exact ⟨H.l0, H.t02, H.t01⟩
      · exact ⟨H.l0, H.t02, H.t01⟩
    · obtain ⟨x, hx, rfl⟩ := REST e he
      have hx' : m.nb x = space := by
        rw [NB x hx] at hn
        by_contra hs
        rw [if_neg hs] at hn
        have hk : live (m.nb x).1 ∧ ¬ Spoke d g1 g2 (m.nb x) := by
          refine ⟨S.nb_live hx.1 hs, fun h => hx.2 ?_⟩
          have := (spoke_inner S H h).2.2.2
          rwa [S.nb_nb hx.1 hs] at this
        have := (NOW _ hk).1
        rw [hn] at this
        exact S.out this
      obtain ⟨k1, k2⟩ := S.hull ⟨x, hx.1, hx'⟩
      have hk : ¬ Spoke d g1 g2 (m.nb space) := fun h => (spoke_inner S H h).2.1 k2
      have e0 : spliceMap d g1 g2 (m.nb space) = m.nb space := by
        unfold spliceMap
        rw [if_neg, if_neg]
        · intro e
          exact h1 (lprev d, m.nb (lnext g1)) (by simp) (by rw [← e]; exact k2)
        · intro e
          exact h1 (d, m.nb (lnext g2)) (by simp) (by rw [← e]; exact k2)
      have e1 : (m.spliceOut d).nb space = m.nb space := by rw [hnb, h2]
      have e2 := NB _ ⟨k1, hk⟩
      have e3 := NOW _ ⟨k1, hk⟩
      rw [e0] at e2 e3
      rw [e1]
      refine ⟨e3, ?_⟩
      rw [e2, if_pos k2]

end

/-- The mesh `m` without the vertex `v` of `m0`; `Y` are the neighbours of `v`, `l` are the tested triangles. -/
structure Healed (m0 : TMesh K) (live : Nat → Prop) (T : Finset Nat) (pos : Nat → Vec K) (v : Nat) (Y : Nat → Nat)
    (m : TMesh K) (live' : Nat → Prop) (l : Tested) : Prop where
  sound : m.Sound live'
  ccw : m.Ccw live' pos
  delaunay : m.Delaunay live' pos
  corner : ∀ w, m.HasCorner live' w ↔ m0.HasCorner live w ∧ w ≠ v
  edge : ∀ a b s o, s ≠ noSub ∨ o = true → (m.HasEdge live' a b s o ↔ m0.HasEdge live a b s o)
  area : ∀ T', (∀ t, live' t ↔ t ∈ T') → m.area2 T' pos = m0.area2 T pos
  total : ∀ T', (∀ t, live' t ↔ t ∈ T') → ∀ F : Nat → Nat → ℤ, (∀ a b, F a b = - F b a) → m.total F T' = m0.total F T
  part : m0.Regional live → ∀ T' : Finset Nat, (∀ t, live' t ↔ t ∈ T') → ∀ (a : K) (F : Nat → Nat → ℤ), (∀ a b, F a b = - F b a) →
    m.total F (T'.filter fun t => m0.attr t = a) = m0.total F (T.filter fun t => m0.attr t = a)
  regional : m0.Regional live → m.Regional live'
  attr : m.attr = m0.attr
  fixed : ∀ x : TEdge, live x.1 → m0.Off v x.1 → live' x.1 ∧ m.apex x = m0.apex x ∧ m.sg x = m0.sg x
  inner : ∀ x : TEdge, live' x.1 → ¬ m0.Off v x.1 → ∃ s, m.apex x = Y s
  tested : ∀ t, live' t → ¬ m0.Off v t → ∃ q ∈ l, q.1.1 = t
  entries : ∀ q ∈ l, live' q.1.1 ∧ ¬ m0.Off v q.1.1 ∧ m.corners q.1 = q.2

set_option maxHeartbeats 1000000 in
/-- Splicing out the last two triangles finishes the polygon. -/
theorem Rim.splice {m0 : TMesh K} {live : Nat → Prop} {T : Finset Nat} {pos : Nat → Vec K} {v : Nat} {Y : Nat → Nat} {k : Nat}
    {d : TEdge} {m : TMesh K} {l : Tested} {i b : Nat} {g1 g2 : TEdge} (hT : ∀ t, live t ↔ t ∈ T)
    (R : Rim m0 live T pos v Y k d m [(0, d), (i, g1), (b, g2)] l) (hk : Y k = Y 0)
    (hc : 0 < Nikfemm.ccw (pos (Y i)) (pos (Y b)) (pos (Y k))) :
    m.dnext d = lnext g2 ∧ m.oprev (lprev d) = lnext g1 ∧
    Healed m0 live T pos v Y (m.spliceOut d) (Shrunk live (g2.1, g1.1))
      ((d, (m.spliceOut d).org d, (m.spliceOut d).dest d, (m.spliceOut d).apex d) :: l) := by
  have S := R.sound
  have ch := R.chain
  simp only [List.cons_append, List.nil_append, List.isChain_cons_cons] at ch
  obtain ⟨⟨p0, n0, gd0⟩, ⟨p1, n1, gd1⟩, ⟨p2, n2, gd2⟩, -⟩ := ch
  simp only at p0 n0 gd0 p1 n1 gd1 p2 n2 gd2
  obtain ⟨l0, o0, d0, s0⟩ := R.each (0, d) (by simp)
  obtain ⟨l1, o1, d1, s1⟩ := R.each (i, g1) (by simp)
  obtain ⟨l2, o2, d2, s2⟩ := R.each (b, g2) (by simp)
  simp only at l0 o0 d0 s0 l1 o1 d1 s1 l2 o2 d2 s2
  have nd := R.nodup
  simp only [List.map_cons, List.map_nil, List.nodup_cons, List.mem_cons, List.not_mem_nil, or_false, not_or] at nd
  obtain ⟨⟨t01, t02⟩, t12, -⟩ := nd
  have off0 : ¬ m.Off v d.1 := fun h => h (lnext d).2 o0
  have off1 : ¬ m.Off v g1.1 := fun h => h (lnext g1).2 o1
  have off2 : ¬ m.Off v g2.1 := fun h => h (lnext g2).2 o2
  have farOf : ∀ p : Nat × TEdge, p ∈ [(0, d), (i, g1), (b, g2)] →
      (m.nb (lnext p.2)).1 ≠ d.1 ∧ (m.nb (lnext p.2)).1 ≠ g1.1 ∧ (m.nb (lnext p.2)).1 ≠ g2.1 := by
    intro p hp
    rcases R.far p hp with h | h
    · rw [h]
      exact ⟨fun e => S.out (by rw [show (0 : Nat) = space.1 from rfl, e]; exact l0),
        fun e => S.out (by rw [show (0 : Nat) = space.1 from rfl, e]; exact l1),
        fun e => S.out (by rw [show (0 : Nat) = space.1 from rfl, e]; exact l2)⟩
    · exact ⟨fun e => off0 (e ▸ h), fun e => off1 (e ▸ h), fun e => off2 (e ▸ h)⟩
  have H : Triple m live d g1 g2 := by
    refine ⟨l0, l1, l2, n0, n1, n2, s0, s1, s2, t01, t12, t02, ?_⟩
    rintro g (rfl | rfl | rfl)
    · exact farOf (0, g) (by simp)
    · exact farOf (i, g) (by simp)
    · exact farOf (b, g) (by simp)
  have a0 : m.dest d = m.apex g2 := by rw [d0, p2, hk]
  have a1 : m.dest g1 = m.apex d := by rw [d1, p0]
  have a2 : m.dest g2 = m.apex g1 := by rw [d2, p1]
  obtain ⟨e1, e2, -, -, -, -, -, -, -, hat, -⟩ := splice_parts S H
  obtain ⟨cc, cco, -⟩ := splice_corners S H
  have M := splice_moved S H a0 a1 a2
  have S' := M.sound S
  obtain ⟨f2, f1⟩ := spliceMap_at H
  obtain ⟨ns0, ns1, ns2⟩ := spoke_not H
  refine ⟨e1, e2, ?_⟩
  generalize hm' : m.spliceOut d = m' at *
  rw [d2, d0, p0] at cc
  have cc' := cc
  unfold TMesh.corners at cc
  simp only [Prod.mk.injEq] at cc
  obtain ⟨c1, c2, c3⟩ := cc
  have apx : ∀ x : TEdge, x.1 ≠ d.1 → m'.apex x = m.apex x := fun x hx => congrArg (fun q => q.2.2) (cco x hx)
  have orgx : ∀ x : TEdge, x.1 ≠ d.1 → m'.org x = m.org x := fun x hx => congrArg (fun q => q.1) (cco x hx)
  have destx : ∀ x : TEdge, x.1 ≠ d.1 → m'.dest x = m.dest x := fun x hx => congrArg (fun q => q.2.1) (cco x hx)
  have offx : ∀ t, t ≠ d.1 → (m'.Off v t ↔ m.Off v t) := fun t ht => off_congr fun o => apx (t, o) ht
  -- other vertices
  have v0 : Y 0 ≠ v := by rw [← d0, ← o0]; exact (S.corners d l0).symm
  have vi : Y i ≠ v := by rw [← d1, ← o1]; exact (S.corners g1 l1).symm
  have vb : Y b ≠ v := by rw [← d2, ← o2]; exact (S.corners g2 l2).symm
  -- triangles at the vertex
  have ring : ∀ x : TEdge, live x.1 → ¬ m.Off v x.1 → x.1 = d.1 ∨ x.1 = g1.1 ∨ x.1 = g2.1 := by
    intro x hx hn
    unfold TMesh.Off at hn
    push Not at hn
    obtain ⟨o, ho⟩ := hn
    have := (R.star (lprev (x.1, o)) hx).1 (by rw [org_lprev]; exact ho)
    simp only [List.map_cons, List.map_nil, List.mem_cons, List.not_mem_nil, or_false] at this
    rcases this with h | h | h
    · exact .inl (congrArg Prod.fst h :)
    · exact .inr (.inl (congrArg Prod.fst h :))
    · exact .inr (.inr (congrArg Prod.fst h :))
  have offd : m'.Off v d.1 := by
    rw [off_iff, c1, c2, c3]; exact ⟨vb, v0, vi⟩
  have old : ∀ x : TEdge, live x.1 → m0.Off v x.1 → m.Off v x.1 := by
    intro x hx h o
    rw [(R.fixed (x.1, o) hx h).1]
    exact h o
  have new0 : ¬ m0.Off v d.1 := fun h => off0 (old d l0 h)
  have new1 : ¬ m0.Off v g1.1 := fun h => off1 (old g1 l1 h)
  have new2 : ¬ m0.Off v g2.1 := fun h => off2 (old g2 l2 h)
  -- remaining triangles
  have still : ∀ t, Shrunk live (g2.1, g1.1) t → t ≠ d.1 → m.Off v t := by
    intro t ht hd
    by_contra hn
    rcases ring (t, 0) ht.1 hn with h | h | h
    · exact hd h
    · exact ht.2.2 h
    · exact ht.2.1 h
  have ccwd : 0 < Nikfemm.ccw (pos (Y b)) (pos (Y 0)) (pos (Y i)) := by
    rw [hk, ccw_rot] at hc; exact hc
  have cornersd : ∀ x : TEdge, x.1 = d.1 → x = d ∨ x = lnext d ∨ x = lprev d := fun x hx =>
    edge_cases d.2 (x := x) (t := d.1) hx
  have C' : m'.Ccw (Shrunk live (g2.1, g1.1)) pos := by
    intro x hx
    by_cases hd : x.1 = d.1
    · rcases cornersd x hd with rfl | rfl | rfl
      · rw [c1, c2, c3]; exact ccwd
      · rw [org_lnext, dest_lnext, apex_lnext, c1, c2, c3]
        show 0 < Nikfemm.ccw _ _ _
        rw [← ccw_rot]; exact ccwd
      · rw [org_lprev, dest_lprev, apex_lprev, c1, c2, c3]
        show 0 < Nikfemm.ccw _ _ _
        rw [ccw_rot]; exact ccwd
    · rw [apx x hd, orgx x hd, destx x hd]
      exact R.ccw x hx.1 (still _ hx hd)
  have NB : ∀ g, g = d ∨ g = g1 ∨ g = g2 → m'.nb (spliceMap d g1 g2 (lnext g)) = m.nb (lnext g) := by
    intro g hg
    have hk : live (lnext g).1 ∧ ¬ Spoke d g1 g2 (lnext g) := by
      rcases hg with rfl | rfl | rfl
      · exact ⟨l0, ns0⟩
      · exact ⟨l1, ns1⟩
      · exact ⟨l2, ns2⟩
    rw [M.nb _ hk]
    split
    · next h => exact h.symm
    · exact spliceMap_tri H (H.far g hg).2.1 (H.far g hg).2.2
  have fd : spliceMap d g1 g2 (lnext d) = lnext d := spliceMap_tri H t01 t02
  have nbd : m'.nb (lnext d) = m.nb (lnext d) := by have := NB d (.inl rfl); rwa [fd] at this
  have nbd2 : m'.nb d = m.nb (lnext g2) := by have := NB g2 (.inr (.inr rfl)); rwa [f2] at this
  have nbd1 : m'.nb (lprev d) = m.nb (lnext g1) := by have := NB g1 (.inr (.inl rfl)); rwa [f1] at this
  have sgd2 : m'.sg d = m.sg (lnext g2) := by have := M.sg (lnext g2) ⟨l2, ns2⟩; rwa [f2] at this
  have sgd1 : m'.sg (lprev d) = m.sg (lnext g1) := by have := M.sg (lnext g1) ⟨l1, ns1⟩; rwa [f1] at this
  have sgd : m'.sg (lnext d) = m.sg (lnext d) := by have := M.sg (lnext d) ⟨l0, ns0⟩; rwa [fd] at this
  -- the edges of the last triangle
  have ldd : ∀ x : TEdge, x.1 = d.1 → m'.sg x = noSub → m'.nb x ≠ space →
      incircle (pos (m'.org x)) (pos (m'.dest x)) (pos (m'.apex x)) (pos (m'.apex (m'.nb x))) ≤ 0 := by
    intro x hx h1 h2
    rcases cornersd x hx with rfl | rfl | rfl
    · rw [nbd2, apx _ (H.far g2 (.inr (.inr rfl))).1, c1, c2, c3, ← hk]
      rw [sgd2] at h1; rw [nbd2] at h2
      exact (gd2.resolve_left (not_not.2 h1)).resolve_left h2 i (by rw [hk]; exact ccwd)
    · rw [nbd, apx _ (H.far d (.inl rfl)).1, org_lnext, dest_lnext, apex_lnext, c1, c2, c3]
      rw [sgd] at h1; rw [nbd] at h2
      exact (gd0.resolve_left (not_not.2 h1)).resolve_left h2 b (by rw [← ccw_rot]; exact ccwd)
    · rw [nbd1, apx _ (H.far g1 (.inr (.inl rfl))).1, org_lprev, dest_lprev, apex_lprev, c1, c2, c3]
      rw [sgd1] at h1; rw [nbd1] at h2
      exact (gd1.resolve_left (not_not.2 h1)).resolve_left h2 0 (by rw [ccw_rot]; exact ccwd)
  have Nsh : ∀ x : TEdge, Shrunk live (g2.1, g1.1) x.1 → x.1 ≠ d.1 → (m'.nb x).1 ≠ d.1 → m'.nb x = m.nb x ∧ m'.sg x = m.sg x := by
    intro x hx hd hnd
    have hnot : ¬ Spoke d g1 g2 x := by
      intro h
      rcases spoke_tri H h with h | h | h
      · exact hd h
      · exact hx.2.2 h
      · exact hx.2.1 h
    have e := spliceMap_tri (d := d) H hx.2.2 hx.2.1
    have g1' := M.nb x ⟨hx.1, hnot⟩
    have g2' := M.sg x ⟨hx.1, hnot⟩
    rw [e] at g1' g2'
    refine ⟨?_, g2'⟩
    rw [g1']
    split
    · next h => exact h.symm
    · next h =>
      rw [g1', if_neg h] at hnd
      have k1 : m.nb x ≠ lnext g2 := by rintro h'; rw [h', f2] at hnd; exact hnd rfl
      have k2 : m.nb x ≠ lnext g1 := by rintro h'; rw [h', f1] at hnd; exact hnd rfl
      unfold spliceMap
      rw [if_neg k1, if_neg k2]
  have D' : m'.Delaunay (Shrunk live (g2.1, g1.1)) pos := by
    intro x hx
    rw [ld_iff C' hx]
    intro h1 h2
    by_cases hd : x.1 = d.1
    · exact ldd x hd h1 h2
    · by_cases hnd : (m'.nb x).1 = d.1
      · have hl := S'.nb_live hx h2
        have nn := S'.nb_nb hx h2
        obtain ⟨q1, q2⟩ := S'.nb_ends hx h2
        have := ldd (m'.nb x) hnd ((S'.sg_nb hx h2).1 h1) (by rw [nn]; exact S'.ne_space hx)
        rw [nn, q1, q2] at this
        rw [incircle_opp]
        exact this
      · obtain ⟨g1', g2'⟩ := Nsh x hx hd hnd
        rw [g1'] at hnd h2
        have hl := S.nb_live hx.1 h2
        have hl' : Shrunk live (g2.1, g1.1) (m.nb x).1 := by
          have := S'.nb_live hx (by rw [g1']; exact h2)
          rwa [g1'] at this
        rw [g2'] at h1
        rw [g1', apx _ hnd, apx x hd, orgx x hd, destx x hd]
        exact R.outer x hx.1 (still _ hx hd) h2 (still _ hl' hnd) h1
  have c0m : m.corners d = (v, Y 0, Y i) := by unfold TMesh.corners; rw [o0, d0, p0]
  have c1m : m.corners g1 = (v, Y i, Y b) := by unfold TMesh.corners; rw [o1, d1, p1]
  have c2m : m.corners g2 = (v, Y b, Y 0) := by unfold TMesh.corners; rw [o2, d2, p2, hk]
  have sumsT : ∀ T' : Finset Nat, (∀ t, Shrunk live (g2.1, g1.1) t ↔ t ∈ T') →
      T = insert g1.1 (insert g2.1 T') ∧ g1.1 ∉ insert g2.1 T' ∧ g2.1 ∉ T' ∧ d.1 ∈ T' := by
    intro T' hT'
    have k1 : g1.1 ∉ T' := fun h => ((hT' _).2 h).2.2 rfl
    have k2 : g2.1 ∉ T' := fun h => ((hT' _).2 h).2.1 rfl
    refine ⟨?_, ?_, k2, (hT' _).1 ⟨l0, t02, t01⟩⟩
    · ext t
      rw [Finset.mem_insert, Finset.mem_insert, ← hT, ← hT']
      constructor
      · intro h
        by_cases h1 : t = g1.1
        · exact .inl h1
        · by_cases h2 : t = g2.1
          · exact .inr (.inl h2)
          · exact .inr (.inr ⟨h, h2, h1⟩)
      · rintro (h | h | h)
        · rw [h]; exact l1
        · rw [h]; exact l2
        · exact h.1
    · rw [Finset.mem_insert, not_or]; exact ⟨t12, k1⟩
  have REST : ∀ x' : TEdge, Shrunk live (g2.1, g1.1) x'.1 →
      ∃ x, (live x.1 ∧ ¬ Spoke d g1 g2 x) ∧ spliceMap d g1 g2 x = x' := by
    intro x' hx
    by_cases e1 : x' = d
    · exact ⟨lnext g2, ⟨l2, ns2⟩, by rw [f2, e1]⟩
    by_cases e2 : x' = lprev d
    · exact ⟨lnext g1, ⟨l1, ns1⟩, by rw [f1, e2]⟩
    refine ⟨x', ⟨hx.1, ?_⟩, spliceMap_tri H hx.2.2 hx.2.1⟩
    rintro (h | h | h | h | h | h)
    · exact e1 h
    · exact e2 h
    · exact hx.2.2 (congrArg Prod.fst h :)
    · exact hx.2.2 (congrArg Prod.fst h :)
    · exact hx.2.1 (congrArg Prod.fst h :)
    · exact hx.2.1 (congrArg Prod.fst h :)
  refine ⟨S', C', D', ?_, ?_, ?_, ?_, ?_, ?_, hat.trans R.attr, ?_, ?_, ?_, ?_⟩
  · -- corners
    intro w
    rw [← R.keeps.corner w]
    have three : ∀ x : TEdge, x.1 = d.1 → m'.apex x = Y i ∨ m'.apex x = Y b ∨ m'.apex x = Y 0 := by
      intro x hx
      rcases cornersd x hx with rfl | rfl | rfl
      · exact .inl c3
      · rw [apex_lnext]; exact .inr (.inl c1)
      · rw [apex_lprev]; exact .inr (.inr c2)
    constructor
    · rintro ⟨x, hx, rfl⟩
      by_cases hd : x.1 = d.1
      · rcases three x hd with h | h | h <;> rw [h]
        · exact ⟨⟨d, l0, p0⟩, vi⟩
        · exact ⟨⟨g1, l1, p1⟩, vb⟩
        · exact ⟨⟨lprev d, l0, by rw [apex_lprev, d0]⟩, v0⟩
      · rw [apx x hd]
        exact ⟨⟨x, hx.1, rfl⟩, still _ hx hd x.2⟩
    · rintro ⟨⟨x, hx, rfl⟩, hw⟩
      have hd' : Shrunk live (g2.1, g1.1) d.1 := ⟨l0, t02, t01⟩
      by_cases hr : x.1 = d.1 ∨ x.1 = g1.1 ∨ x.1 = g2.1
      · have : m.apex x = Y 0 ∨ m.apex x = Y i ∨ m.apex x = Y b := by
          rcases hr with h | h | h
          · rcases edge_cases d.2 (x := x) (t := d.1) h with h | h | h
            · rw [show x = d from h, p0]; simp
            · exact absurd (by rw [show x = lnext d from h, apex_lnext]; exact o0) hw
            · rw [show x = lprev d from h, apex_lprev, d0]; simp
          · rcases edge_cases g1.2 (x := x) (t := g1.1) h with h | h | h
            · rw [show x = g1 from h, p1]; simp
            · exact absurd (by rw [show x = lnext g1 from h, apex_lnext]; exact o1) hw
            · rw [show x = lprev g1 from h, apex_lprev, d1]; simp
          · rcases edge_cases g2.2 (x := x) (t := g2.1) h with h | h | h
            · rw [show x = g2 from h, p2, hk]; simp
            · exact absurd (by rw [show x = lnext g2 from h, apex_lnext]; exact o2) hw
            · rw [show x = lprev g2 from h, apex_lprev, d2]; simp
        rcases this with h | h | h <;> rw [h]
        · exact ⟨lprev d, hd', by rw [apex_lprev, c2]⟩
        · exact ⟨d, hd', c3⟩
        · exact ⟨lnext d, hd', by rw [apex_lnext, c1]⟩
      · rw [not_or, not_or] at hr
        exact ⟨x, ⟨hx, hr.2.2, hr.2.1⟩, apx x hr.1⟩
  · intro p q s o hso
    rw [← R.keeps.edge p q s o hso]
    refine M.hasEdge_iff ?_ ?_ hso
    · intro x hx hn
      have := not_and.1 hn hx
      rw [not_not] at this
      obtain ⟨-, h1, h2, -⟩ := spoke_inner S H this
      exact ⟨h2, h1⟩
    · intro x hx hn
      obtain ⟨y, hy, e⟩ := REST x hx
      exact absurd e (hn y hy)
  · intro T' hT'
    rw [← R.keeps.area]
    obtain ⟨eT, k1, k2, k0⟩ := sumsT T' hT'
    rw [area2_eq, area2_eq, eT, Finset.sum_insert k1, Finset.sum_insert k2, ← Finset.add_sum_erase _ _ k0,
      ← Finset.add_sum_erase _ (fun t => m.tri2 pos (t, 0)) k0]
    have same : ∑ t ∈ T'.erase d.1, m'.tri2 pos (t, 0) = ∑ t ∈ T'.erase d.1, m.tri2 pos (t, 0) := by
      refine Finset.sum_congr rfl fun t ht => ?_
      rw [Finset.mem_erase] at ht
      exact tri2_corners (cco (t, 0) ht.1)
    rw [same, tri2_turn (x := (d.1, 0)) (y := d) _ rfl, tri2_turn (x := (d.1, 0)) (y := d) m rfl,
      tri2_turn (x := (g1.1, 0)) (y := g1) m rfl, tri2_turn (x := (g2.1, 0)) (y := g2) m rfl, tri2_corners cc',
      tri2_corners c0m, tri2_corners c1m, tri2_corners c2m]
    unfold Nikfemm.ccw
    ring
  · intro T' hT' F hF
    rw [← R.keeps.total F hF]
    obtain ⟨eT, k1, k2, k0⟩ := sumsT T' hT'
    rw [total_eq, total_eq, eT, Finset.sum_insert k1, Finset.sum_insert k2, ← Finset.add_sum_erase _ _ k0,
      ← Finset.add_sum_erase _ (fun t => m.triSum F (t, 0)) k0]
    have same : ∑ t ∈ T'.erase d.1, m'.triSum F (t, 0) = ∑ t ∈ T'.erase d.1, m.triSum F (t, 0) := by
      refine Finset.sum_congr rfl fun t ht => ?_
      rw [Finset.mem_erase] at ht
      exact triSum_corners (cco (t, 0) ht.1)
    rw [same, triSum_turn (x := (d.1, 0)) (y := d) _ rfl, triSum_turn (x := (d.1, 0)) (y := d) m rfl,
      triSum_turn (x := (g1.1, 0)) (y := g1) m rfl, triSum_turn (x := (g2.1, 0)) (y := g2) m rfl, triSum_corners cc',
      triSum_corners c0m, triSum_corners c1m, triSum_corners c2m, hF v (Y 0), hF v (Y i), hF v (Y b)]
    ring
  · intro Rg T' hT' a F hF
    rw [← R.keeps.part Rg a F hF]
    have R1 := (R.keeps.regional Rg).1
    have q1 : m0.attr g1.1 = m0.attr d.1 := by
      have := R1 (lprev d) l0 (spoke_inner S H (.inr (.inl rfl))).2.2.1 (spoke_inner S H (.inr (.inl rfl))).2.1
      rwa [n0, R.attr] at this
    have q2 : m0.attr g2.1 = m0.attr g1.1 := by
      have hsp : Spoke d g1 g2 (lprev g1) := .inr (.inr (.inr (.inl rfl)))
      have := R1 (lprev g1) l1 (spoke_inner S H hsp).2.2.1 (spoke_inner S H hsp).2.1
      rwa [n1, R.attr] at this
    obtain ⟨eT, k1, k2, k0⟩ := sumsT T' hT'
    rw [total_eq, total_eq]
    symm
    refine sum_insert_three (x := d.1) (n1 := g1.1) (n2 := g2.1) (T := T'.filter fun t => m0.attr t = a)
      (fun t => m'.triSum F (t, 0)) (fun t => m.triSum F (t, 0)) t12 (fun hc => ?_) (fun hc => k2 (Finset.mem_filter.1 hc).1)
      (fun _ => ?_) (fun t _ hne => (triSum_corners (cco (t, 0) hne)).symm) (fun t => ?_)
    · exact k1 (Finset.mem_insert_of_mem (Finset.mem_filter.1 hc).1)
    · rw [triSum_turn (x := (d.1, 0)) (y := d) m' rfl, triSum_turn (x := (d.1, 0)) (y := d) m rfl,
        triSum_turn (x := (g1.1, 0)) (y := g1) m rfl, triSum_turn (x := (g2.1, 0)) (y := g2) m rfl, triSum_corners cc',
        triSum_corners c0m, triSum_corners c1m, triSum_corners c2m, hF v (Y 0), hF v (Y i), hF v (Y b)]
      ring
    · rw [eT]
      simp only [Finset.mem_filter, Finset.mem_insert]
      constructor
      · rintro ⟨h | h | h, ha⟩
        · refine .inr ⟨⟨k0, ?_⟩, .inl h⟩
          rw [← q1, ← h]; exact ha
        · refine .inr ⟨⟨k0, ?_⟩, .inr h⟩
          rw [← q1, ← q2, ← h]; exact ha
        · exact .inl ⟨h, ha⟩
      · rintro (⟨h, ha⟩ | ⟨⟨-, ha⟩, h | h⟩)
        · exact ⟨.inr (.inr h), ha⟩
        · exact ⟨.inl h, by rw [h, q1]; exact ha⟩
        · exact ⟨.inr (.inl h), by rw [h, q2, q1]; exact ha⟩
  · -- attributes
    intro Rg x hx h1 h2
    have R1 := (R.keeps.regional Rg).1
    have q1 : m.attr g1.1 = m.attr d.1 := by
      have := R1 (lprev d) l0 (spoke_inner S H (.inr (.inl rfl))).2.2.1 (spoke_inner S H (.inr (.inl rfl))).2.1
      rwa [n0] at this
    have q2 : m.attr g2.1 = m.attr g1.1 := by
      have hsp : Spoke d g1 g2 (lprev g1) := .inr (.inr (.inr (.inl rfl)))
      have := R1 (lprev g1) l1 (spoke_inner S H hsp).2.2.1 (spoke_inner S H hsp).2.1
      rwa [n1] at this
    have fa : ∀ y, m.attr (spliceMap d g1 g2 y).1 = m.attr y.1 := by
      intro y
      unfold spliceMap
      split
      · next h => rw [h]; exact (q2.trans q1).symm
      · split
        · next h => rw [h]; exact q1.symm
        · rfl
    obtain ⟨y, hy, rfl⟩ := REST x hx
    rw [M.nb y hy] at h2 ⊢
    rw [M.sg y hy] at h1
    by_cases hs : m.nb y = space
    · rw [if_pos hs] at h2; exact absurd rfl h2
    · rw [if_neg hs, hat, fa, fa]
      exact R1 y hy.1 h1 hs
  · intro x hx h
    obtain ⟨h1, h2⟩ := R.fixed x hx h
    have t0 : x.1 ≠ d.1 := fun e => new0 (e ▸ h)
    have t1 : x.1 ≠ g1.1 := fun e => new1 (e ▸ h)
    have t2 : x.1 ≠ g2.1 := fun e => new2 (e ▸ h)
    refine ⟨⟨hx, t2, t1⟩, by rw [apx x t0, h1], ?_⟩
    have hnot : ¬ Spoke d g1 g2 x := by
      intro h
      rcases spoke_tri H h with h | h | h
      · exact t0 h
      · exact t1 h
      · exact t2 h
    have := M.sg x ⟨hx, hnot⟩
    rw [spliceMap_tri H t1 t2] at this
    rw [this, h2]
  · intro x hx h
    by_cases hd : x.1 = d.1
    · rcases cornersd x hd with rfl | rfl | rfl
      · exact ⟨i, c3⟩
      · exact ⟨b, by rw [apex_lnext, c1]⟩
      · exact ⟨0, by rw [apex_lprev, c2]⟩
    · rw [apx x hd]
      exact R.inner x hx.1 (still _ hx hd) h
  · intro t ht h
    by_cases hd : t = d.1
    · exact ⟨_, List.mem_cons_self .., hd.symm⟩
    · obtain ⟨q, hq, e⟩ := R.tested t ht.1 (still t ht hd) h
      exact ⟨q, List.mem_cons_of_mem _ hq, e⟩
  · intro q hq
    rcases List.mem_cons.1 hq with rfl | hq
    · exact ⟨⟨l0, t02, t01⟩, new0, rfl⟩
    · obtain ⟨h1, h2, h3, h4⟩ := R.entries q hq
      have t0 : q.1.1 ≠ d.1 := fun e => off0 (e ▸ h2)
      have t1 : q.1.1 ≠ g1.1 := fun e => off1 (e ▸ h2)
      have t2 : q.1.1 ≠ g2.1 := fun e => off2 (e ▸ h2)
      exact ⟨⟨h1, t2, t1⟩, h3, by rw [cco _ t0, h4]⟩

end Nikfemm
