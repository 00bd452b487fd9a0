import Verif.Model.Materials
import Verif.Props.Drawing
import Verif.Props.Vector

/-! # C90: the materials of a drawing

Which material a region of a drawing gets, for any history of drawing operations, when materials
are compared as the code compares them. -/

set_option linter.unusedSectionVars false

namespace Nikfemm

open Drawing Spec

namespace Materials

/-! ## Specification -/

/-- The materials that the operations of a history mention, in order. -/
def mentioned {K P : Type} (ops : List (Op K P)) : List P :=
  ops.filterMap fun o => match o with
    | .region _ v => some v
    | .regionId v => some v
    | _ => none

/-- A list without the entries that some kept earlier entry is similar to. -/
inductive Thinned {P : Type} (similar : P → P → Prop) : List P → List P → Prop
  | nil : Thinned similar [] []
  | keep {l t v} : Thinned similar l t → (∀ w ∈ t, ¬ similar w v) →
      Thinned similar (l ++ [v]) (t ++ [v])
  | drop {l t v w} : Thinned similar l t → w ∈ t → similar w v → Thinned similar (l ++ [v]) t

/-- Two magnetic materials the code takes for one: the same permeability, current density and
curve, and magnetisations less than `1e-9` apart. -/
def SameMagnetic (p q : MagProp ℝ) : Prop :=
  p.mu = q.mu ∧ p.J = q.J ∧ p.bh = q.bh ∧ euclid p.M q.M < 1 / 1000000000

/-! ## The table of materials -/

section
variable {K P : Type} [Field K] [LinearOrder K]

/-- The labels and the materials are left alone. -/
def Alone (D : Drawing K P) (r : Drawing K P × Option Fault) : Prop :=
  r.1.regions = D.regions ∧ r.1.regionMap = D.regionMap

theorem drawSegment_alone (D : Drawing K P) (p q : Vec K) : Alone D (D.drawSegment p q) := by
  unfold drawSegment
  simp only [lift]
  split
  · split_ifs <;> exact ⟨rfl, rfl⟩
  · exact ⟨rfl, rfl⟩

theorem seq_alone {D : Drawing K P} {r : Drawing K P × Option Fault}
    {f : Drawing K P → Drawing K P × Option Fault} (h : Alone D r) (hf : ∀ E, Alone E (f E)) :
    Alone D (seq r f) := by
  rcases r with ⟨E, _ | e⟩
  · obtain ⟨h1, h2⟩ := hf E
    exact ⟨h1.trans h.1, h2.trans h.2⟩
  · exact h

theorem addPolygon_alone (D : Drawing K P) (Q : Polygon K) : Alone D (D.addPolygon Q) := ⟨rfl, rfl⟩

theorem drawRectangle_alone (D : Drawing K P) (p q : Vec K) : Alone D (D.drawRectangle p q) :=
  seq_alone (drawSegment_alone _ _ _) fun _ => seq_alone (drawSegment_alone _ _ _) fun _ =>
    seq_alone (drawSegment_alone _ _ _) fun _ => seq_alone (drawSegment_alone _ _ _) fun _ =>
      addPolygon_alone _ _

theorem drawChain_alone : ∀ (l : List (Vec K)) (a : Vec K) (D : Drawing K P),
    Alone D (drawChain D a l)
  | [], _, _ => ⟨rfl, rfl⟩
  | b :: l, a, D => seq_alone (drawSegment_alone D a b) fun E => drawChain_alone l b E

theorem drawPolygon_alone (D : Drawing K P) (Q : Polygon K) : Alone D (D.drawPolygon Q) := by
  cases Q with
  | nil => exact ⟨rfl, rfl⟩
  | cons a l =>
    exact seq_alone (drawChain_alone l a D) fun _ => seq_alone (drawSegment_alone _ _ _) fun _ =>
      addPolygon_alone _ _

theorem circleLoop_alone (lm : Libm K) (p : Vec K) (radius step : K) : ∀ (n : Nat) (angle : K)
    (p1 : Vec K) (acc : List (Vec K)) (D : Drawing K P),
    Alone D (circleLoop lm p radius step n angle p1 acc D)
  | 0, _, _, _, _ => ⟨rfl, rfl⟩
  | n + 1, _, _, _, _ => seq_alone (drawSegment_alone _ _ _) fun E =>
      circleLoop_alone lm p radius step n _ _ _ E

theorem refine_alone (lm : Libm K) (D : Drawing K P) :
    Alone D (lift D (D.addRefiningPoints lm) fun D => (D, none)) := by
  have key : ∀ E, D.addRefiningPoints lm = .ok E → E.regions = D.regions ∧
      E.regionMap = D.regionMap := by
    intro E hE
    unfold addRefiningPoints at hE
    obtain ⟨eps, -, hE⟩ := bind_eq_ok_iff.mp hE
    refine forUp_partial (fun _ (E : Drawing K P) => E.regions = D.regions ∧
      E.regionMap = D.regionMap) (Nat.zero_le _) ⟨rfl, rfl⟩ hE ?_
    intro i E E' _ _ h hstep
    unfold refineAt at hstep
    obtain ⟨sharp, -, hstep⟩ := bind_eq_ok_iff.mp hstep
    split_ifs at hstep
    · refine forUp_partial (fun _ (E : Drawing K P) => E.regions = D.regions ∧
        E.regionMap = D.regionMap) (Nat.zero_le _) h hstep ?_
      intro j F F' _ _ h hstep
      unfold refineCandidate at hstep
      obtain ⟨c, -, hstep⟩ := bind_eq_ok_iff.mp hstep
      obtain ⟨close, -, hstep⟩ := bind_eq_ok_iff.mp hstep
      simp only at hstep
      split_ifs at hstep <;> cases hstep <;> exact h
    · cases hstep; exact h
  unfold lift
  cases hE : D.addRefiningPoints lm with
  | ok E => exact key E hE
  | error e => exact ⟨rfl, rfl⟩

theorem thinned_total (eqP : P → P → Bool) (D : Drawing K P) (l : List P) (v : P)
    (h : Thinned (fun a b => eqP a b = true) l D.regionMap) :
    Thinned (fun a b => eqP a b = true) (l ++ [v]) (D.getRegionId eqP v).2.regionMap := by
  unfold getRegionId
  cases hf : findProp eqP v D.regionMap 0 with
  | some i =>
    obtain ⟨j, -, ⟨w, hw, he⟩, -⟩ := (findProp_some eqP v _ _ _).mp hf
    exact .drop h (List.mem_of_getElem? hw) he
  | none =>
    refine .keep h fun w hw => ?_
    rw [(findProp_none eqP v _ _).mp hf w hw]
    exact Bool.false_ne_true

theorem table_step (lm : Libm K) (eqP : P → P → Bool) : ∀ (ops : List (Op K P)) (D : Drawing K P)
    (l : List P), Thinned (fun a b => eqP a b = true) l D.regionMap →
    Thinned (fun a b => eqP a b = true) (l ++ mentioned ops) (runAll lm eqP ops D).regionMap
  | [], D, l, h => by simpa [mentioned, runAll] using h
  | o :: ops, D, l, h => by
    have hrun : runAll lm eqP (o :: ops) D = runAll lm eqP ops (o.run lm eqP D).1 := rfl
    rw [hrun]
    have quiet : Alone D (o.run lm eqP D) → mentioned (o :: ops) = mentioned ops →
        Thinned (fun a b => eqP a b = true) (l ++ mentioned (o :: ops))
          (runAll lm eqP ops (o.run lm eqP D).1).regionMap := by
      intro ha hm
      rw [hm]
      exact table_step lm eqP ops _ l (by rw [ha.2]; exact h)
    have loud : ∀ v, (o.run lm eqP D).1.regionMap = (D.getRegionId eqP v).2.regionMap →
        mentioned (o :: ops) = v :: mentioned ops →
        Thinned (fun a b => eqP a b = true) (l ++ mentioned (o :: ops))
          (runAll lm eqP ops (o.run lm eqP D).1).regionMap := by
      intro v hv hm
      rw [hm, List.append_cons]
      exact table_step lm eqP ops _ _ (by rw [hv]; exact thinned_total eqP D l v h)
    cases o with
    | rectangle p q => exact quiet (drawRectangle_alone D p q) rfl
    | rectangleWH p w h => exact quiet (drawRectangle_alone D p _) rfl
    | circle c r n => exact quiet (circleLoop_alone lm c r _ n _ _ _ D) rfl
    | polygon Q => exact quiet (drawPolygon_alone D Q) rfl
    | region p v => exact loud v rfl rfl
    | regionId v => exact loud v rfl rfl
    | point p => exact quiet ⟨rfl, rfl⟩ rfl
    | refine => exact quiet (refine_alone lm D) rfl
    | translate v =>
      have hm : mentioned (.translate v :: ops) = mentioned ops := rfl
      rw [hm]
      exact table_step lm eqP ops _ l h

/-- C90: the table of materials of a drawing consists of the materials that the history
mentions, in the order in which they were first mentioned, without those that compare equal to
a material already in the table.  Drawing segments, polygons, circles and points, refining and
translating do not touch it. -/
theorem material_table (lm : Libm K) (eqP : P → P → Bool) (ops : List (Op K P)) :
    Thinned (fun a b => eqP a b = true) (mentioned ops)
      (runAll lm eqP ops Drawing.empty).regionMap := by
  simpa using table_step lm eqP ops Drawing.empty [] .nil

/-- The specification determines the table. -/
theorem thinned_unique {similar : P → P → Prop} : ∀ {l t t' : List P}, Thinned similar l t →
    Thinned similar l t' → t = t' := by
  intro l t t' h
  induction h generalizing t' with
  | nil =>
    intro h'
    generalize hl : ([] : List P) = l at h'
    cases h' with
    | nil => rfl
    | keep => simp at hl
    | drop => simp at hl
  | @keep l t v h hn ih =>
    intro h'
    generalize hl : l ++ [v] = l' at h'
    cases h' with
    | nil => simp at hl
    | keep h' =>
      obtain ⟨rfl, hv⟩ := List.append_inj' hl rfl
      cases hv
      rw [ih h']
    | drop h' hw hs =>
      obtain ⟨rfl, hv⟩ := List.append_inj' hl rfl
      cases hv
      rw [← ih h'] at hw
      exact absurd hs (hn _ hw)
  | @drop l t v w h hw hs ih =>
    intro h'
    generalize hl : l ++ [v] = l' at h'
    cases h' with
    | nil => simp at hl
    | keep h' hn' =>
      obtain ⟨rfl, hv⟩ := List.append_inj' hl rfl
      cases hv
      rw [← ih h'] at hn'
      exact absurd hs (hn' _ hw)
    | drop h' =>
      obtain ⟨rfl, hv⟩ := List.append_inj' hl rfl
      cases hv
      exact ih h'

theorem thinned_subset {similar : P → P → Prop} {l t : List P} (h : Thinned similar l t) :
    ∀ v ∈ t, v ∈ l := by
  induction h with
  | nil => simp
  | keep _ _ ih =>
    intro v hv
    rcases List.mem_append.mp hv with hv | hv
    · exact List.mem_append_left _ (ih v hv)
    · exact List.mem_append_right _ hv
  | drop _ _ _ ih => exact fun v hv => List.mem_append_left _ (ih v hv)

end

/-! ## The material of a region -/

section
variable {K P : Type} [Field K] [LinearOrder K] [IsStrictOrderedRing K]

/-- C90: a region drawn at any moment of a history is, at the end, the label of the number it
got when it was drawn, moved by the translations since, and its material is one that compares
equal to the one it was drawn with: that one itself or one mentioned before. -/
theorem region_material (lm : Libm K) (eqP : P → P → Bool) (hrefl : ∀ v, eqP v v = true)
    (before after : List (Op K P)) (p : Vec K) (v : P)
    (h : ∀ o ∈ before ++ Op.region p v :: after, Allowed o) :
    ∃ id w, (runAll lm eqP (before ++ Op.region p v :: after) Drawing.empty).regions[
        (runAll lm eqP before Drawing.empty).regions.length]? =
          some (p.add (totalShift after), id) ∧
      (runAll lm eqP (before ++ Op.region p v :: after) Drawing.empty).getRegionPtrFromId id =
        .ok w ∧ eqP w v = true ∧ (w = v ∨ w ∈ mentioned before) := by
  set B := runAll lm eqP before Drawing.empty with hB
  have hsplit : before ++ Op.region p v :: after = (before ++ [Op.region p v]) ++ after := by simp
  rw [hsplit] at h ⊢
  have hrun : runAll lm eqP (before ++ [Op.region p v]) Drawing.empty = B.drawRegion eqP p v := by
    rw [hB]; exact List.foldl_append
  obtain ⟨id, w, hr, hw, he⟩ := draw_region_marks eqP hrefl B p v
  rw [← hrun] at hr hw
  refine ⟨id, w, ?_, region_id_stable lm eqP _ after h id w hw, he, ?_⟩
  · obtain ⟨t, ht⟩ := (history_keeps_indices lm eqP _ after h).regions
    rw [← ht]
    have : ((runAll lm eqP (before ++ [Op.region p v]) Drawing.empty).translate
        (totalShift after)).regions = B.regions.map (fun r => (r.1.add (totalShift after), r.2)) ++
          [(p.add (totalShift after), id)] := by
      show List.map _ _ = _
      rw [hr, List.map_append]; rfl
    rw [this]
    simp
  · have hm : w ∈ (runAll lm eqP (before ++ [Op.region p v]) Drawing.empty).regionMap := by
      unfold getRegionPtrFromId at hw
      split at hw
      · cases hw
      · next heq => cases hw; exact List.mem_of_getElem? heq
    have := thinned_subset (material_table lm eqP _) w hm
    have hmm : mentioned (before ++ [Op.region p v]) = mentioned before ++ [v] := by
      simp [mentioned]
    rw [hmm, List.mem_append, List.mem_singleton] at this
    exact this.symm

/-- C90: regions of a conduction drawing get exactly the conductivity they were drawn with. -/
theorem region_conductivity (lm : Libm K) (before after : List (Op K K)) (p : Vec K) (sigma : K)
    (h : ∀ o ∈ before ++ Op.region p sigma :: after, Allowed o) :
    ∃ id, (runAll lm conductivityEqv (before ++ Op.region p sigma :: after)
        Drawing.empty).regions[(runAll lm conductivityEqv before Drawing.empty).regions.length]? =
          some (p.add (totalShift after), id) ∧
      (runAll lm conductivityEqv (before ++ Op.region p sigma :: after)
        Drawing.empty).getRegionPtrFromId id = .ok sigma := by
  obtain ⟨id, w, hr, hw, he, -⟩ := region_material lm conductivityEqv
    (fun v => by simp [conductivityEqv]) before after p sigma h
  have : w = sigma := by simpa [conductivityEqv] using he
  exact ⟨id, hr, this ▸ hw⟩

end

/-! ## Magnetic materials -/

theorem bhEqv_iff : ∀ l m : List (BHPoint ℝ), bhEqv l m = true ↔ l = m
  | [], [] => by simp [bhEqv]
  | [], _ :: _ => by simp [bhEqv]
  | _ :: _, [] => by simp [bhEqv]
  | p :: l, q :: m => by
    rcases p with ⟨a, b⟩
    rcases q with ⟨c, d⟩
    simp [bhEqv, BHPoint.eqv, bhEqv_iff l m]

/-- C90: two magnetic materials compare equal exactly if permeability, current density and curve
are the same and the magnetisations are less than `1e-9` apart. -/
theorem magnetic_equality (p q : MagProp ℝ) : p.eqv q = true ↔ SameMagnetic p q := by
  unfold MagProp.eqv SameMagnetic
  simp only [Bool.and_eq_true, decide_eq_true_iff, point_equality_uses_distance, bhEqv_iff]
  tauto

/-- C90: regions of a magnetostatic drawing get exactly the permeability, current density and
curve they were drawn with, and a magnetisation less than `1e-9` from the one they were drawn
with; it is exactly that one unless a material mentioned before differs from it by less than
`1e-9` in the magnetisation and in nothing else. -/
theorem region_magnetic (lm : Libm ℝ) (before after : List (Op ℝ (MagProp ℝ))) (p : Vec ℝ)
    (v : MagProp ℝ) (h : ∀ o ∈ before ++ Op.region p v :: after, Allowed o) :
    ∃ id w, (runAll lm MagProp.eqv (before ++ Op.region p v :: after) Drawing.empty).regions[
        (runAll lm MagProp.eqv before Drawing.empty).regions.length]? =
          some (p.add (totalShift after), id) ∧
      (runAll lm MagProp.eqv (before ++ Op.region p v :: after)
        Drawing.empty).getRegionPtrFromId id = .ok w ∧
      w.mu = v.mu ∧ w.J = v.J ∧ w.bh = v.bh ∧ euclid w.M v.M < 1 / 1000000000 ∧
      ((∀ u ∈ mentioned before, SameMagnetic u v → u = v) → w = v) := by
  obtain ⟨id, w, hr, hw, he, hm⟩ := region_material lm MagProp.eqv
    (fun v => by rw [magnetic_equality]; exact ⟨rfl, rfl, rfl, by simp [euclid]⟩) before after p v h
  rw [magnetic_equality] at he
  refine ⟨id, w, hr, hw, he.1, he.2.1, he.2.2.1, he.2.2.2, fun hu => ?_⟩
  rcases hm with hm | hm
  · exact hm
  · exact hu w hm he

/-- A magnet with magnetisation `(x, 0)`. -/
def magnet (x : ℝ) : MagProp ℝ := ⟨0, ⟨x, 0⟩, 1, []⟩

theorem magnet_same (x y : ℝ) : (magnet x).eqv (magnet y) = true ↔ |x - y| < 1 / 1000000000 := by
  rw [magnetic_equality]
  simp [SameMagnetic, magnet, euclid, Real.sqrt_sq_eq_abs]

/-- C90: the comparison is not transitive, and the materials of a drawing depend on the order in
which the regions are drawn: with magnetisations `0`, `6e-10` and `1.2e-9`, drawn in this order,
the first two share a material and the drawing has two materials; drawn with the middle one
first, all three share one. -/
theorem materials_depend_on_order (lm : Libm ℝ) (a b c : Vec ℝ) :
    let x := magnet 0
    let y := magnet (6 / 10000000000)
    let z := magnet (12 / 10000000000)
    (x.eqv y = true ∧ y.eqv z = true ∧ x.eqv z = false) ∧
    (runAll lm MagProp.eqv [.region a x, .region b y, .region c z] Drawing.empty).regions =
      [(a, 0), (b, 0), (c, 1)] ∧
    (runAll lm MagProp.eqv [.region a x, .region b y, .region c z] Drawing.empty).regionMap =
      [x, z] ∧
    (runAll lm MagProp.eqv [.region b y, .region a x, .region c z] Drawing.empty).regions =
      [(b, 0), (a, 0), (c, 0)] ∧
    (runAll lm MagProp.eqv [.region b y, .region a x, .region c z] Drawing.empty).regionMap =
      [y] := by
  intro x y z
  have hxy : x.eqv y = true := (magnet_same _ _).mpr (by rw [abs_lt]; constructor <;> norm_num)
  have hyx : y.eqv x = true := (magnet_same _ _).mpr (by rw [abs_lt]; constructor <;> norm_num)
  have hyz : y.eqv z = true := (magnet_same _ _).mpr (by rw [abs_lt]; constructor <;> norm_num)
  have hxz : x.eqv z = false := by
    rw [← Bool.not_eq_true]
    intro h
    have := (abs_lt.mp ((magnet_same _ _).mp h)).1
    norm_num at this
  refine ⟨⟨hxy, hyz, hxz⟩, ?_, ?_, ?_, ?_⟩ <;>
    simp [runAll, Op.run, drawRegion, getRegionId, findProp, Drawing.empty, hxy, hyx, hyz, hxz]

/-! ## Examples -/

/-- The hypotheses of `region_magnetic` on a drawing of two magnets. -/
example (p : Vec ℝ) : (∀ o ∈ ([Op.region p (magnet 1)] : List (Op ℝ (MagProp ℝ))) ++
      Op.region p (magnet 2) :: [Op.translate p], Allowed o) ∧
    ∀ u ∈ mentioned [Op.region p (magnet 1)], SameMagnetic u (magnet 2) → u = magnet 2 := by
  constructor
  · intro o ho
    simp at ho
    rcases ho with rfl | rfl | rfl <;> simp [Allowed]
  · intro u hu hs
    simp [mentioned] at hu
    subst hu
    have := (abs_lt.mp ((magnet_same _ _).mp ((magnetic_equality _ _).mpr hs))).1
    norm_num at this

/-- A conduction drawing whose third region reuses the first conductivity. -/
example : (runAll toyLibm conductivityEqv [.region ⟨0, 0⟩ 5, .region ⟨1, 0⟩ 7,
      .rectangle ⟨0, 0⟩ ⟨1, 1⟩, .region ⟨2, 0⟩ 5] (Drawing.empty : Drawing ℚ ℚ)).regionMap =
    [5, 7] := by decide +kernel

end Materials

end Nikfemm
