import Verif.Model.Multilayer
import Verif.Lemmas.Refine

set_option linter.unusedSectionVars false

/-!
# Points drawn around interconnections: what the loops append to each layer
-/

namespace Nikfemm
open Spec Drawing

variable {K P : Type}

/-- Append the points `f k` to drawing number `k`. -/
def appendPts (f : Nat → List (Vec K)) (ds : List (Drawing K P)) : List (Drawing K P) :=
  ds.mapIdx (fun k D => { D with points := D.points ++ f k })

@[simp] theorem appendPts_length (f : Nat → List (Vec K)) (ds : List (Drawing K P)) :
    (appendPts f ds).length = ds.length := by simp [appendPts]

theorem appendPts_get {f : Nat → List (Vec K)} {ds : List (Drawing K P)} {k : Nat} :
    (appendPts f ds)[k]? = ds[k]?.map (fun D => { D with points := D.points ++ f k }) := by
  simp [appendPts]

theorem appendPts_append (f g : Nat → List (Vec K)) (ds : List (Drawing K P)) :
    appendPts g (appendPts f ds) = appendPts (fun k => f k ++ g k) ds := by
  apply List.ext_getElem?
  intro k
  rw [appendPts_get, appendPts_get, appendPts_get]
  cases ds[k]? <;> simp

theorem appendPts_nil (ds : List (Drawing K P)) : appendPts (fun _ => []) ds = ds := by
  apply List.ext_getElem?
  intro k
  rw [appendPts_get]
  cases ds[k]? <;> simp

/-- The points, if the layer is the one looked at. -/
def onLayer (layer : Nat) (l : List (Vec K)) (k : Nat) : List (Vec K) := if layer = k then l else []

section
variable [Field K] [LinearOrder K]

theorem drawOn_ok {ds : List (Drawing K P)} {layer : Nat} (h : layer < ds.length) (p : Vec K) :
    drawOn ds layer p = .ok (appendPts (onLayer layer [p]) ds) := by
  unfold drawOn
  rw [rd_ok h, ok_bind, wr_ok h]
  congr 1
  apply List.ext_getElem?
  intro k
  rw [appendPts_get, List.getElem?_set]
  by_cases hk : layer = k
  · subst hk
    simp [h, onLayer, Drawing.drawPoint]
  · rw [if_neg hk]
    cases ds[k]? <;> simp [onLayer, hk]

theorem drawOn_ub {ds : List (Drawing K P)} {layer : Nat} (h : ds.length ≤ layer) (p : Vec K) :
    drawOn ds layer p = .error .ub := by
  unfold drawOn
  rw [rd_ub h, error_bind]

/-- The radius only depends on the segments and their end points. -/
theorem ringEpsilon_append (sq : K → K) {D : Drawing K P} (hD : WellFormed D) (new : List (Vec K))
    (p : Vec K) : ringEpsilon sq { D with points := D.points ++ new } p = ringEpsilon sq D p := by
  unfold ringEpsilon
  have : ∀ (l : List (Nat × Nat)) (e : K), (∀ s ∈ l, s.1 < D.points.length ∧ s.2 < D.points.length) →
      forEach (fun (s : Nat × Nat) eps => do
        let a ← rd (D.points ++ new) s.1
        let b ← rd (D.points ++ new) s.2
        match pointSegmentDistance sq p a b with
        | .ok d => if d < eps then .ok d else .ok eps
        | .error _ => .ok eps) l e =
      forEach (fun (s : Nat × Nat) eps => do
        let a ← rd D.points s.1
        let b ← rd D.points s.2
        match pointSegmentDistance sq p a b with
        | .ok d => if d < eps then .ok d else .ok eps
        | .error _ => .ok eps) l e := by
    intro l
    induction l with
    | nil => intros; rfl
    | cons s l ih =>
      intro e h
      obtain ⟨h1, h2⟩ := h s List.mem_cons_self
      simp only [forEach]
      rw [rd_ok h1, rd_ok h2, rd_ok (l := D.points ++ new) (by simp; omega),
        rd_ok (l := D.points ++ new) (by simp; omega), List.getElem_append_left h1,
        List.getElem_append_left h2]
      simp only [ok_bind]
      split
      · exact ih _ (fun s hs => h s (List.mem_cons_of_mem _ hs))
      · rfl
  exact this _ _ hD.refs

/-- Points drawn in layer `k` for one interconnection with radii `e1`, `e2`. -/
def ringList (lm : Libm K) (l : Link K) (e1 e2 : K) (n k : Nat) : List (Vec K) :=
  (List.range n).flatMap (fun i =>
    onLayer l.layer1 [ringPoint lm l.p1 e1 i (1 / 2)] k ++
    onLayer l.layer2 [ringPoint lm l.p2 e2 i (1 / 2)] k ++
    onLayer l.layer1 [ringPoint lm l.p1 e1 i (1 / 4)] k ++
    onLayer l.layer2 [ringPoint lm l.p2 e2 i (1 / 4)] k)

theorem drawRing_ok (lm : Libm K) (l : Link K) {ds : List (Drawing K P)} {D1 D2 : Drawing K P}
    {e1 e2 : K} (h1 : ds[l.layer1]? = some D1) (h2 : ds[l.layer2]? = some D2)
    (he1 : ringEpsilon lm.sqrt D1 l.p1 = .ok e1) (he2 : ringEpsilon lm.sqrt D2 l.p2 = .ok e2) :
    drawRing lm l ds = .ok (appendPts (ringList lm l e1 e2 10) ds) := by
  have hl1 : l.layer1 < ds.length := by
    by_contra hc; rw [List.getElem?_eq_none (by omega)] at h1; cases h1
  have hl2 : l.layer2 < ds.length := by
    by_contra hc; rw [List.getElem?_eq_none (by omega)] at h2; cases h2
  have g1 : ds[l.layer1] = D1 := by rw [List.getElem?_eq_getElem hl1] at h1; exact Option.some.inj h1
  have g2 : ds[l.layer2] = D2 := by rw [List.getElem?_eq_getElem hl2] at h2; exact Option.some.inj h2
  unfold drawRing
  rw [rd_ok hl1, ok_bind, rd_ok hl2, ok_bind, g1, g2, he1, ok_bind, he2, ok_bind]
  obtain ⟨ds', e, h⟩ := forUp_inv (σ := List (Drawing K P))
    (body := fun i ds => do
      let ds ← drawOn ds l.layer1 (ringPoint lm l.p1 e1 i (1 / 2))
      let ds ← drawOn ds l.layer2 (ringPoint lm l.p2 e2 i (1 / 2))
      let ds ← drawOn ds l.layer1 (ringPoint lm l.p1 e1 i (1 / 4))
      drawOn ds l.layer2 (ringPoint lm l.p2 e2 i (1 / 4)))
    (fun i s => s = appendPts (ringList lm l e1 e2 i) ds) (Nat.zero_le 10) (s := ds)
    (appendPts_nil ds).symm
    (by
      rintro i s - - rfl
      refine ⟨_, ?_, rfl⟩
      rw [drawOn_ok (by simpa using hl1), ok_bind, drawOn_ok (by simpa using hl2), ok_bind,
        drawOn_ok (by simpa using hl1), ok_bind, drawOn_ok (by simpa using hl2)]
      simp only [appendPts_append]
      congr 2
      funext k
      simp [ringList, List.range_succ])
  rw [e, h]

/-- Points drawn in layer `k` for all interconnections, with the radii given by `E`. -/
def ringsList (lm : Libm K) (E : Nat → Vec K → K) (links : List (Link K)) (k : Nat) : List (Vec K) :=
  links.flatMap (fun l => ringList lm l (E l.layer1 l.p1) (E l.layer2 l.p2) 10 k)

/-- End points of the interconnections in layer `k`. -/
def endsList (links : List (Link K)) (k : Nat) : List (Vec K) :=
  links.flatMap (fun l => onLayer l.layer1 [l.p1] k ++ onLayer l.layer2 [l.p2] k)

theorem drawEnds_ok (ds : List (Drawing K P)) : ∀ (links : List (Link K)) (f : Nat → List (Vec K)),
    (∀ l ∈ links, l.layer1 < ds.length ∧ l.layer2 < ds.length) →
    forEach (fun (l : Link K) ds => do
      let ds ← drawOn ds l.layer1 l.p1
      drawOn ds l.layer2 l.p2) links (appendPts f ds) =
      .ok (appendPts (fun k => f k ++ endsList links k) ds)
  | [], f, _ => by simp [forEach, endsList]
  | l :: links, f, h => by
    obtain ⟨h1, h2⟩ := h l List.mem_cons_self
    simp only [forEach]
    rw [drawOn_ok (by simpa using h1), ok_bind, drawOn_ok (by simpa using h2)]
    simp only [appendPts_append]
    rw [drawEnds_ok ds links _ (fun l hl => h l (List.mem_cons_of_mem _ hl))]
    congr 2
    funext k
    simp [endsList]

theorem drawRings_ok (lm : Libm K) {ds : List (Drawing K P)} (hwf : ∀ D ∈ ds, WellFormed D)
    {E : Nat → Vec K → K}
    (hE : ∀ k D p, ds[k]? = some D → ringEpsilon lm.sqrt D p = .ok (E k p)) :
    ∀ (links : List (Link K)) (f : Nat → List (Vec K)),
    (∀ l ∈ links, l.layer1 < ds.length ∧ l.layer2 < ds.length) →
    forEach (drawRing lm) links (appendPts f ds) =
      .ok (appendPts (fun k => f k ++ ringsList lm E links k) ds)
  | [], f, _ => by simp [forEach, ringsList]
  | l :: links, f, h => by
    obtain ⟨h1, h2⟩ := h l List.mem_cons_self
    have key : ∀ k (hk : k < ds.length) (p : Vec K), (appendPts f ds)[k]? =
        some { ds[k] with points := ds[k].points ++ f k } ∧
        ringEpsilon lm.sqrt { ds[k] with points := ds[k].points ++ f k } p = .ok (E k p) := by
      intro k hk p
      refine ⟨by rw [appendPts_get, List.getElem?_eq_getElem hk]; rfl, ?_⟩
      rw [ringEpsilon_append _ (hwf _ (List.getElem_mem hk))]
      exact hE k _ p (List.getElem?_eq_getElem hk)
    simp only [forEach]
    rw [drawRing_ok lm l (key _ h1 l.p1).1 (key _ h2 l.p2).1 (key _ h1 l.p1).2 (key _ h2 l.p2).2]
    simp only [appendPts_append]
    rw [drawRings_ok lm hwf hE links _ (fun l hl => h l (List.mem_cons_of_mem _ hl))]
    congr 2
    funext k
    simp [ringsList]

/-- The radius is always computed; it bounds the distances and is one of them, or the largest
double. -/
theorem ringEpsilon_spec (sq : K → K) {D : Drawing K P} (hD : WellFormed D) (p : Vec K) :
    ∃ e, ringEpsilon sq D p = .ok e ∧
      (∀ s ∈ D.segments, ∀ a b d, D.points[s.1]? = some a → D.points[s.2]? = some b →
        pointSegmentDistance sq p a b = .ok d → e ≤ d) ∧
      e ≤ (2 - 1 / 2 ^ 52) * 2 ^ 1023 ∧
      (e = (2 - 1 / 2 ^ 52) * 2 ^ 1023 ∨ ∃ s ∈ D.segments, ∃ a b, D.points[s.1]? = some a ∧
        D.points[s.2]? = some b ∧ pointSegmentDistance sq p a b = .ok e) := by
  unfold ringEpsilon
  obtain ⟨e, he, h⟩ := forEach_inv (σ := K) (fun pre e =>
      (∀ s ∈ pre, ∀ a b d, D.points[s.1]? = some a → D.points[s.2]? = some b →
        pointSegmentDistance sq p a b = .ok d → e ≤ d) ∧
      e ≤ (2 - 1 / 2 ^ 52) * 2 ^ 1023 ∧
      (e = (2 - 1 / 2 ^ 52) * 2 ^ 1023 ∨ ∃ s ∈ pre, ∃ a b, D.points[s.1]? = some a ∧
        D.points[s.2]? = some b ∧ pointSegmentDistance sq p a b = .ok e))
    D.segments [] ((2 - 1 / 2 ^ 52) * 2 ^ 1023) ⟨by simp, le_refl _, Or.inl rfl⟩
    (body := fun (s : Nat × Nat) eps => do
        let a ← rd D.points s.1
        let b ← rd D.points s.2
        match pointSegmentDistance sq p a b with
        | .ok d => if d < eps then .ok d else .ok eps
        | .error _ => .ok eps) (by
      intro pre s post e hsplit _ ⟨h1, h2, h3⟩
      obtain ⟨i1, i2⟩ := hD.refs s (by rw [List.nil_append] at hsplit; rw [hsplit]; simp)
      rw [rd_ok i1, ok_bind, rd_ok i2, ok_bind]
      have ga := List.getElem?_eq_getElem i1
      have gb := List.getElem?_eq_getElem i2
      have widen : (e = (2 - 1 / 2 ^ 52) * 2 ^ 1023 ∨ ∃ s ∈ pre, ∃ a b, D.points[s.1]? = some a ∧
          D.points[s.2]? = some b ∧ pointSegmentDistance sq p a b = .ok e) →
          (e = (2 - 1 / 2 ^ 52) * 2 ^ 1023 ∨ ∃ s' ∈ pre ++ [s], ∃ a b, D.points[s'.1]? = some a ∧
          D.points[s'.2]? = some b ∧ pointSegmentDistance sq p a b = .ok e) := by
        rintro (h | ⟨t, ht, r⟩)
        · exact Or.inl h
        · exact Or.inr ⟨t, List.mem_append_left _ ht, r⟩
      cases hd : pointSegmentDistance sq p D.points[s.1] D.points[s.2] with
      | error f =>
        refine ⟨e, rfl, ?_, h2, widen h3⟩
        intro t ht a b d ha hb hdd
        rcases List.mem_append.mp ht with ht | ht
        · exact h1 t ht a b d ha hb hdd
        · rw [List.mem_singleton] at ht; subst ht
          rw [ga] at ha; rw [gb] at hb; cases ha; cases hb
          rw [hd] at hdd; cases hdd
      | ok d0 =>
        by_cases hlt : d0 < e
        · refine ⟨d0, by simp [hlt], ?_, hlt.le.trans h2, Or.inr ⟨s, by simp, _, _, ga, gb, hd⟩⟩
          intro t ht a b d ha hb hdd
          rcases List.mem_append.mp ht with ht | ht
          · exact hlt.le.trans (h1 t ht a b d ha hb hdd)
          · rw [List.mem_singleton] at ht; subst ht
            rw [ga] at ha; rw [gb] at hb; cases ha; cases hb
            rw [hd] at hdd; cases hdd; exact le_refl _
        · refine ⟨e, by simp [hlt], ?_, h2, widen h3⟩
          intro t ht a b d ha hb hdd
          rcases List.mem_append.mp ht with ht | ht
          · exact h1 t ht a b d ha hb hdd
          · rw [List.mem_singleton] at ht; subst ht
            rw [ga] at ha; rw [gb] at hb; cases ha; cases hb
            rw [hd] at hdd; cases hdd; exact not_lt.mp hlt)
  exact ⟨e, he, by simpa using h⟩

end
end Nikfemm
