import Verif.Lemmas.Carve
import Verif.Model.Drawing
import Mathlib.Algebra.Order.Ring.Rat
import Mathlib.Tactic.IntervalCases
import Mathlib.Tactic.NormNum

/-!
# C81 — which triangles remain and which material they get
-/

set_option linter.unusedSectionVars false

namespace Nikfemm
open Spec

variable {K P : Type} [Field K]

/-- How the triangles' attributes come about, label by label. -/
theorem regions_fold {T : Topo} {hull : List (Nat × Nat)} (hT : TopoOK T hull) {vs : Virus}
    (hd : Done T vs) (f : Nat → Bool) (hf : ∀ t, f t = true → Outside T t)
    (regions : List (Option Nat × K)) : (∀ r ∈ regions, ∀ s, r.1 = some s → s < T.size) →
    ∀ attr : Nat → K, ∃ attr',
    (regions.map (fun r => (r.1.bind (fun t => if f t then none else some t), r.2))).foldlM
      (labelStep T.size (vs.pool.foldl dissolveTri T.sym) vs.sub vs.infected) (vs.infected, attr) = some (vs.infected, attr') ∧
    (∀ t, ¬ Outside T t → (∀ r ∈ regions, ¬ Labels T t r) → attr' t = attr t) ∧
    (∀ t, ¬ Outside T t → ∀ pre r post, regions = pre ++ r :: post → Labels T t r →
      (∀ r' ∈ post, ¬ Labels T t r') → attr' t = r.2) := by
  induction regions with
  | nil =>
    intro _ attr
    refine ⟨attr, rfl, fun _ _ _ => rfl, ?_⟩
    intro t _ pre r post e
    simp at e
  | cons r regions ih =>
    intro hr attr
    have step : ∃ attr1, labelStep T.size (vs.pool.foldl dissolveTri T.sym) vs.sub vs.infected
        (vs.infected, attr) (r.1.bind (fun t => if f t then none else some t), r.2) = some (vs.infected, attr1) ∧
        (∀ t, ¬ Outside T t → Labels T t r → attr1 t = r.2) ∧
        (∀ t, ¬ Outside T t → ¬ Labels T t r → attr1 t = attr t) := by
      unfold labelStep
      cases e : r.1 with
      | none =>
        refine ⟨attr, rfl, ?_, fun _ _ _ => rfl⟩
        rintro t - ⟨s, hs, -⟩
        rw [e] at hs; cases hs
      | some s =>
        have outs : Outside T s → ∀ t, ¬ Outside T t → ¬ Labels T t r := by
          rintro ho t hto ⟨s', hs', hreg⟩
          rw [e] at hs'
          obtain rfl : s = s' := by simpa using hs'
          exact hto ((outside_region hT hreg).mp ho)
        simp only [Option.bind_some]
        by_cases hfs : f s = true
        · rw [if_pos hfs]
          have ho := hf s hfs
          exact ⟨attr, rfl, fun t h1 h2 => absurd h2 (outs ho t h1), fun _ _ _ => rfl⟩
        · rw [if_neg hfs]
          simp only
          by_cases hi : vs.infected s = true
          · rw [if_pos hi]
            have ho := (hd.mem s).mp ((hd.inf s).mp hi)
            exact ⟨attr, rfl, fun t h1 h2 => absurd h2 (outs ho t h1), fun _ _ _ => rfl⟩
          · rw [if_neg hi]
            have ho : ¬ Outside T s := fun hc => hi ((hd.inf s).mpr ((hd.mem s).mpr hc))
            obtain ⟨attr1, e1, h1, h2⟩ :=
              regionPlague_spec hT hd (hr r (by simp) s e) ho r.2 attr
            refine ⟨attr1, e1, ?_, ?_⟩
            · rintro t - ⟨s', hs', hreg⟩
              rw [e] at hs'
              obtain rfl : s = s' := by simpa using hs'
              exact h1 t hreg
            · intro t _ hn
              exact h2 t (fun hc => hn ⟨s, e, hc⟩)
    obtain ⟨attr1, e1, a1, a2⟩ := step
    obtain ⟨attr', e2, b1, b2⟩ := ih (fun r' hr' => hr r' (List.mem_cons_of_mem _ hr')) attr1
    refine ⟨attr', ?_, ?_, ?_⟩
    · rw [List.map_cons, List.foldlM_cons]
      rw [e1]
      exact e2
    · intro t ht hn
      rw [b1 t ht (fun r' hr' => hn r' (List.mem_cons_of_mem _ hr')),
        a2 t ht (hn r (by simp))]
    · intro t ht pre r0 post e hl hpost
      cases pre with
      | nil =>
        obtain ⟨rfl, rfl⟩ : r = r0 ∧ regions = post := by simpa using e
        rw [b1 t ht hpost, a1 t ht hl]
      | cons x pre =>
        obtain ⟨rfl, rfl⟩ : r = x ∧ regions = pre ++ r0 :: post := by simpa using e
        exact b2 t ht pre r0 post rfl hl hpost

/-- Everything about the removal of the outer triangles and the regions. -/
theorem carve_spec {T : Topo} {hull : List (Nat × Nat)} (hT : TopoOK T hull)
    (regions : List (Option Nat × K)) (hr : ∀ r ∈ regions, ∀ s, r.1 = some s → s < T.size) :
    ∃ c, carve T hull regions = some c ∧
      -- exactly the triangles outside die
      (∀ t, c.dead t = true ↔ Outside T t) ∧
      -- those that remain keep exactly the neighbours that remain
      (∀ t k, t < T.size → k < 3 → ¬ Outside T t → ∀ e,
        c.sym t k = some e ↔ T.sym t k = some e ∧ ¬ Outside T e.1) ∧
      -- the ends of the new boundary are marked, and only ends of outer segments
      (∀ e v, BoundaryEdge T e → IsEnd T v e → c.marked v = true) ∧
      (∀ v, c.marked v = true → ∃ e : Nat × Nat, e.1 < T.size ∧ e.2 < 3 ∧ T.sub e.1 e.2 = true ∧
        IsEnd T v e ∧ (T.sym e.1 e.2 = none ∨ ∃ u j, T.sym e.1 e.2 = some (u, j) ∧ Outside T u)) ∧
      -- without labels there are no attributes at all
      (c.attr = none ↔ regions = []) ∧
      -- the last label of a region counts, and a region without label gets 0
      ∀ f, c.attr = some f → ∀ t, ¬ Outside T t →
        ((∀ r ∈ regions, ¬ Labels T t r) → f t = 0) ∧
        (∀ pre r post, regions = pre ++ r :: post → Labels T t r → (∀ r' ∈ post, ¬ Labels T t r') →
          f t = r.2) := by
  obtain ⟨vs, e, hd⟩ := outer_done hT
  have hsym : ∀ t k, t < T.size → k < 3 → ¬ Outside T t → ∀ e,
      vs.pool.foldl dissolveTri T.sym t k = some e ↔ T.sym t k = some e ∧ ¬ Outside T e.1 := by
    intro t k ht hk ho e
    obtain ⟨d1, d2, d3⟩ := dissolve_spec hT hd ht hk ho
    cases es : T.sym t k with
    | none => rw [d3 es]; simp
    | some p =>
      obtain ⟨u, j⟩ := p
      by_cases hu : Outside T u
      · rw [d1 u j es hu]
        constructor
        · intro h; cases h
        · rintro ⟨h, h'⟩
          obtain rfl : (u, j) = e := by simpa using h
          exact absurd hu h'
      · rw [d2 u j es hu]
        constructor
        · intro h
          obtain rfl : (u, j) = e := by simpa using h
          exact ⟨rfl, hu⟩
        · exact fun h => h.1
  have hdead : ∀ t, vs.infected t = true ↔ Outside T t := fun t => (hd.inf t).trans (hd.mem t)
  have hbound : ∀ e v, BoundaryEdge T e → IsEnd T v e → vs.marked v = true := by
    intro e v he hv
    rcases (isEnd_iff he.2.1).mp hv with rfl | rfl
    · exact (hd.bound e he).1
    · exact (hd.bound e he).2
  unfold carve
  simp only [e, Option.bind_eq_bind, Option.bind_some]
  by_cases hreg : regions = []
  · subst hreg
    exact ⟨⟨vs.infected, vs.pool.foldl dissolveTri T.sym, vs.marked, none⟩, if_pos rfl, hdead, hsym, hbound, hd.marks, by simp, fun f hf => by simp at hf⟩
  · rw [if_neg hreg]
    obtain ⟨attr', e1, a1, a2⟩ := regions_fold hT hd (infectHull T hull).infected
      (fun t ht => by
        have h := infectHull_inv hT
        exact h.reach t ((h.inf t).mp ht).1) regions hr (fun _ => 0)
    rw [e1]
    refine ⟨_, rfl, hdead, hsym, hbound, hd.marks, by simp [hreg], ?_⟩
    intro f hf t ht
    obtain rfl : attr' = f := by simpa using hf
    exact ⟨a1 t ht, a2 t ht⟩

/-- The material of a triangle: that of the last label in its region; a region without label gets the
material that was drawn first. -/
theorem carve_material {T : Topo} {hull : List (Nat × Nat)} (hT : TopoOK T hull) (D : Drawing K P)
    (loc : Vec K → Option Nat) (hloc : ∀ p s, loc p = some s → s < T.size)
    (hD : ∀ r ∈ D.regions, r.2 < D.regionMap.length) (hne : D.regions ≠ []) :
    ∃ c f, carve T hull (D.regions.map (fun r => (loc r.1, (r.2 : K)))) = some c ∧ c.attr = some f ∧
      ∀ t, ¬ Outside T t → ∃ id w, f t = ((id : Nat) : K) ∧ D.getRegionPtrFromId id = .ok w ∧
        ((∃ pre r post, D.regions = pre ++ r :: post ∧ id = r.2 ∧
            (∃ s, loc r.1 = some s ∧ SameRegion T s t) ∧
            ∀ r' ∈ post, ∀ s, loc r'.1 = some s → ¬ SameRegion T s t) ∨
          (id = 0 ∧ ∀ r ∈ D.regions, ∀ s, loc r.1 = some s → ¬ SameRegion T s t)) := by
  obtain ⟨c, e, -, -, -, -, hattr, hf⟩ := carve_spec hT (D.regions.map (fun r => (loc r.1, (r.2 : K))))
    (by
      intro r hr s hs
      obtain ⟨r0, -, rfl⟩ := List.mem_map.mp hr
      exact hloc _ s hs)
  have hsome : c.attr ≠ none := fun hc => hne (by simpa using hattr.mp hc)
  obtain ⟨f, hfe⟩ := Option.ne_none_iff_exists'.mp hsome
  refine ⟨c, f, e, hfe, ?_⟩
  intro t ht
  obtain ⟨h0, h1⟩ := hf f hfe t ht
  have get : ∀ id, id < D.regionMap.length → ∃ w, D.getRegionPtrFromId id = .ok w := by
    intro id hid
    unfold Drawing.getRegionPtrFromId
    rw [List.getElem?_eq_getElem hid]
    exact ⟨_, rfl⟩
  by_cases hl : ∃ r ∈ D.regions, ∃ s, loc r.1 = some s ∧ SameRegion T s t
  · -- the last one
    have last : ∀ l : List (Vec K × Nat), (∃ r ∈ l, ∃ s, loc r.1 = some s ∧ SameRegion T s t) →
        ∃ pre r post, l = pre ++ r :: post ∧ (∃ s, loc r.1 = some s ∧ SameRegion T s t) ∧
          ∀ r' ∈ post, ∀ s, loc r'.1 = some s → ¬ SameRegion T s t := by
      intro l
      induction l with
      | nil => rintro ⟨r, hr, -⟩; cases hr
      | cons x l ih =>
        rintro ⟨r, hr, s, hs, hreg⟩
        by_cases hx : ∃ r ∈ l, ∃ s, loc r.1 = some s ∧ SameRegion T s t
        · obtain ⟨pre, r, post, rfl, h2, h3⟩ := ih hx
          exact ⟨x :: pre, r, post, rfl, h2, h3⟩
        · rcases List.mem_cons.mp hr with rfl | hr
          · exact ⟨[], r, l, rfl, ⟨s, hs, hreg⟩, fun r' hr' s' hs' hc => hx ⟨r', hr', s', hs', hc⟩⟩
          · exact absurd ⟨r, hr, s, hs, hreg⟩ hx
    obtain ⟨pre, r, post, el, hlab, hpost⟩ := last _ hl
    obtain ⟨w, hw⟩ := get r.2 (hD r (by rw [el]; simp))
    refine ⟨r.2, w, ?_, hw, Or.inl ⟨pre, r, post, el, rfl, hlab, hpost⟩⟩
    have := h1 (pre.map (fun r => (loc r.1, (r.2 : K)))) (loc r.1, (r.2 : K))
      (post.map (fun r => (loc r.1, (r.2 : K)))) (by rw [el]; simp) hlab (by
        intro r' hr'
        obtain ⟨r0, hr0, rfl⟩ := List.mem_map.mp hr'
        rintro ⟨s, hs, hreg⟩
        exact hpost r0 hr0 s hs hreg)
    exact this
  · have hpos : 0 < D.regionMap.length := by
      obtain ⟨r, hr⟩ := List.exists_mem_of_ne_nil _ hne
      exact lt_of_le_of_lt (Nat.zero_le _) (hD r hr)
    obtain ⟨w, hw⟩ := get 0 hpos
    refine ⟨0, w, ?_, hw, Or.inr ⟨rfl, fun r hr s hs hc => hl ⟨r, hr, s, hs, hc⟩⟩⟩
    rw [h0]
    · simp
    · rintro r' hr' ⟨s, hs, hreg⟩
      obtain ⟨r0, hr0, rfl⟩ := List.mem_map.mp hr'
      exact hl ⟨r0, hr0, s, hs, hreg⟩

/-! ## A triangulation with one triangle outside

Triangles `0 = (0, 1, 2)` and `1 = (1, 3, 2)` have the open edge `1 – 2` in common; the segment `2 – 3`
separates them from `2 = (2, 3, 4)`, whose other two edges are no segments. -/

/-- The neighbours. -/
def strip : Topo where
  size := 3
  sym
    | 0, 0 => some (1, 1)
    | 1, 1 => some (0, 0)
    | 1, 0 => some (2, 2)
    | 2, 2 => some (1, 0)
    | _, _ => none
  sub
    | 0, 1 => true
    | 0, 2 => true
    | 1, 2 => true
    | 1, 0 => true
    | 2, 2 => true
    | _, _ => false
  corner
    | 0, k => k
    | 1, 0 => 1
    | 1, 1 => 3
    | 1, _ => 2
    | _, k => k + 2

/-- The edges of the hull. -/
def stripHull : List (Nat × Nat) := [(0, 2), (1, 2), (2, 0), (2, 1), (0, 1)]

theorem strip_ok : TopoOK strip stripHull where
  adj := by
    intro t k u j ht hk e
    have ht : t < 3 := ht
    interval_cases t <;> interval_cases k <;> simp [strip] at e ⊢ <;> obtain ⟨rfl, rfl⟩ := e <;> simp
  hull := by
    rintro ⟨t, k⟩
    constructor
    · intro h
      simp only [stripHull, List.mem_cons, Prod.mk.injEq, List.not_mem_nil, or_false] at h
      rcases h with ⟨rfl, rfl⟩ | ⟨rfl, rfl⟩ | ⟨rfl, rfl⟩ | ⟨rfl, rfl⟩ | ⟨rfl, rfl⟩ <;> simp [strip]
    · rintro ⟨ht, hk, e⟩
      have ht : t < 3 := ht
      have hk : k < 3 := hk
      interval_cases t <;> interval_cases k <;> simp [strip, stripHull] at e ⊢

/-- The triangle `2` is outside, the other two are one region. -/
example : Outside strip 2 ∧ SameRegion strip 0 1 :=
  ⟨⟨2, 0, by decide, by decide, rfl, rfl, Relation.ReflTransGen.refl⟩,
    Relation.ReflTransGen.single ⟨by decide, 0, 1, by decide, rfl, rfl⟩⟩

/-- The hypotheses of `carve_spec` hold with a label in the triangle `0`. -/
example : ∃ c, carve strip stripHull [(some 0, (5 : ℚ))] = some c ∧
    (∀ t, c.dead t = true ↔ Outside strip t) := by
  obtain ⟨c, e, h, -⟩ := carve_spec strip_ok [(some 0, (5 : ℚ))] (by
    intro r hr s hs
    obtain rfl : r = (some 0, 5) := by simpa using hr
    obtain rfl : 0 = s := by simpa using hs
    decide)
  exact ⟨c, e, h⟩

/-- The triangle `2` dies, `0` and `1` get the label's attribute, and the vertex `4` is not marked. -/
example : (carve strip stripHull [(some 0, (5 : ℚ))]).map (fun c =>
    ((List.range 3).map c.dead, c.attr.map (fun f => (f 0, f 1)), (List.range 5).map c.marked)) =
    some ([false, false, true], some (5, 5), [true, true, true, true, false]) := by
  decide +kernel

/-- A label outside has no effect and a region without label gets 0. -/
example : (carve strip stripHull [(some 2, (5 : ℚ))]).map (fun c => c.attr.map (fun f => (f 0, f 1))) =
    some (some (0, 0)) := by
  decide +kernel

/-- The drawing of the examples: two labels in the same region. -/
def stripDrawing : Drawing ℚ Nat :=
  { (Drawing.empty : Drawing ℚ Nat) with
    regions := [(⟨0, 0⟩, 0), (⟨1, 1⟩, 1)], regionMap := [7, 8] }

/-- The hypotheses of `carve_material` hold. -/
example : (∀ p s, (fun p : Vec ℚ => if p.x = 0 then some 0 else some 1) p = some s → s < strip.size) ∧
    (∀ r ∈ stripDrawing.regions, r.2 < stripDrawing.regionMap.length) ∧ stripDrawing.regions ≠ [] := by
  refine ⟨?_, by decide, by decide⟩
  intro p s hs
  simp only at hs
  split_ifs at hs <;> (obtain rfl := (Option.some.inj hs)) <;> decide

/-- The second label wins in both triangles. -/
example : (carve strip stripHull (stripDrawing.regions.map (fun r =>
    ((if r.1.x = 0 then some 0 else some 1), (r.2 : ℚ))))).map
      (fun c => c.attr.map (fun f => (f 0, f 1))) = some (some (1, 1)) := by
  decide +kernel

end Nikfemm
