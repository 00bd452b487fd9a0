import Verif.Lemmas.Scout

/-!
# One round of `scoutsegment`
-/

set_option linter.unusedSectionVars false

namespace Nikfemm
variable {K : Type} [Field K] [LinearOrder K] [IsStrictOrderedRing K] {s : Skeleton K} {p : Vec K}

/-- The formula of `segmentintersection`. -/
theorem intersection_eq {a p o d : Vec K} {r t : K} (hc : 0 < ccw o d a) (h : a.toward p r = o.toward d t) :
    intersection a p o d = some (o.toward d t) := by
  have hx : a.x + r * (p.x - a.x) = o.x + t * (d.x - o.x) := congrArg Vec.x h
  have hy : a.y + r * (p.y - a.y) = o.y + t * (d.y - o.y) := congrArg Vec.y h
  have h1 : r * ((d.y - o.y) * (p.x - a.x) - (d.x - o.x) * (p.y - a.y)) = ccw o d a := by
    unfold ccw
    linear_combination (d.y - o.y) * hx - (d.x - o.x) * hy
  have h2 : (d.y - o.y) * (p.x - a.x) - (d.x - o.x) * (p.y - a.y) ≠ 0 := by
    intro hz; rw [hz, mul_zero] at h1; exact hc.ne h1
  have h3 : ((p.y - a.y) * (o.x - p.x) - (p.x - a.x) * (o.y - p.y)) /
      ((d.y - o.y) * (p.x - a.x) - (d.x - o.x) * (p.y - a.y)) = t := by
    rw [div_eq_iff h2]
    linear_combination (p.x - a.x) * hy - (p.y - a.y) * hx
  unfold intersection
  simp only
  rw [if_neg h2, h3]
  rfl

theorem Skeleton.finddirection_ok (O : s.Ok) {e : TEdge} (he : e.1 ∈ s.tris) {w : Nat}
    (hw : s.m.HasCorner (· ∈ s.tris) w) (hne : s.pos w ≠ s.pos (s.m.org e)) :
    ∃ d e', s.finddirection (s.pos w) e = some (d, e') ∧ e'.1 ∈ s.tris ∧ s.m.org e' = s.m.org e ∧
      s.m.Leads s.pos (s.pos w) d e' := by
  obtain ⟨h1, h2⟩ := finddirection_leads (n := 2 * s.tris.card + 100) O.sound O.ccw (fun _ => Iff.rfl) he hne
  obtain ⟨d, e', h⟩ := h2 (by omega) (O.convex w hw)
  exact ⟨d, e', h, h1 d e' h⟩

/-! ## The crossing of two segments -/

section
variable {c : Spare} (O : s.Ok) (hU : s.Unused c) {h : TEdge} (hh : h.1 ∈ s.tris) (h0 : s.m.sg h ≠ noSub)
  {r t : K} (r0 : 0 < r) (t0 : 0 < t) (t1 : t < 1)
  (hx : (s.pos (s.m.apex h)).toward p r = (s.pos (s.m.org h)).toward (s.pos (s.m.dest h)) t)
include O hU hh h0 r0 t0 t1 hx

set_option maxHeartbeats 1000000 in
theorem segmentintersection_spec : ∃ s' e', s.segmentintersection c h p = some (s', e') ∧ s'.Ok ∧ s.After s' ∧
    (∀ q, s'.OnSub q ↔ s.OnSub q) ∧ e'.1 ∈ s'.tris ∧ s'.m.org e' = c.v ∧
    s'.pos c.v = (s.pos (s.m.org h)).toward (s.pos (s.m.dest h)) t ∧
    s'.pos (s'.m.dest e') = s.pos (s.m.apex h) ∧ (∀ x : TEdge, x.1 ∈ s'.tris → (s'.m.sg x).1 ≠ c.sub) ∧
    (∀ w, s'.m.HasCorner (· ∈ s'.tris) w ↔ w = c.v ∨ s.m.HasCorner (· ∈ s.tris) w) ∧
    ∀ x : TEdge, x.1 ∈ s'.tris → s'.m.sg x ≠ noSub → (s'.m.org x = c.v ∨ s'.m.dest x = c.v) ∨
      ∃ y : TEdge, y.1 ∈ s.tris ∧ s.m.sg y ≠ noSub ∧ s.m.org y = s'.m.org x ∧ s.m.dest y = s'.m.dest x := by
  have hc : 0 < ccw (s.pos (s.m.org h)) (s.pos (s.m.dest h)) (s.pos (s.m.apex h)) := O.ccw h hh
  obtain ⟨X, hX⟩ : ∃ X, X = (s.pos (s.m.org h)).toward (s.pos (s.m.dest h)) t := ⟨_, rfl⟩
  obtain ⟨m', e', hI⟩ := cut_ends O hU hh h0 t0 t1 hX.symm
  have O' := cut_ok O hU hh h0 t0 t1 hX.symm hI
  have hA := cut_after O hU hh h0 t0 t1 hX.symm hI
  obtain ⟨g1, g2⟩ := cut_handle O hU hh h0 t0 t1 hX.symm hI
  obtain ⟨y, y1, y2, y3⟩ := cut_spoke O hU hh h0 t0 t1 hX.symm hI
  have corners := cut_corners O hU hh h0 t0 t1 hX.symm hI
  obtain ⟨-, -, edges⟩ := cut_edges O hU hh h0 t0 t1 hX.symm hI
  obtain ⟨s', hs'⟩ : ∃ s' : Skeleton K, s' = ⟨m', Function.update s.pos c.v X, s.grown c h⟩ := ⟨_, rfl⟩
  have hv : s'.pos c.v = X := by rw [hs']; exact Function.update_self _ _ _
  have old : ∀ w, s.m.HasCorner (· ∈ s.tris) w → s'.m.HasCorner (· ∈ s'.tris) w ∧ s'.pos w = s.pos w := by
    rw [hs']; exact hA.vertex
  have hap := old (s.m.apex h) ⟨h, hh, rfl⟩
  have hor := old (s.m.org h) ⟨lnext h, hh, rfl⟩
  have O'' : s'.Ok := by rw [hs']; exact O'
  have y1 : y.1 ∈ s'.tris := by rw [hs']; exact y1
  have y2 : s'.m.org y = s.m.apex h := by rw [hs']; exact y2
  have y3 : s'.m.dest y = c.v := by rw [hs']; exact y3
  have g1 : e'.1 ∈ s'.tris := by rw [hs']; exact g1
  have g2 : s'.m.org e' = c.v := by rw [hs']; exact g2
  -- the apex is not the new point
  have key : t * ccw (s.pos (s.m.org h)) (s.pos (s.m.dest h)) (s.pos (s.m.apex h)) =
      ccw X (s.pos (s.m.apex h)) (s.pos (s.m.org h)) := by rw [hX]; unfold ccw Vec.toward; ring
  have kpos := mul_pos t0 hc
  rw [key] at kpos
  have hne : s'.pos (s.m.apex h) ≠ s'.pos (s'.m.org e') := by
    rw [g2, hv, hap.2]
    intro hz
    rw [hz, ccw_aab] at kpos
    exact kpos.false
  obtain ⟨d, f, hf, f1, f2, f3⟩ := s'.finddirection_ok O'' g1 hap.1 hne
  have f2 : s'.m.org f = c.v := f2.trans g2
  have cf : 0 < ccw (s'.pos (s'.m.org f)) (s'.pos (s'.m.dest f)) (s'.pos (s'.m.apex f)) := O''.ccw f f1
  -- the vertex before is not passed
  have pass : ∀ w, s'.m.HasCorner (· ∈ s'.tris) w → ∀ ρ, 0 < ρ → ρ ≤ 1 →
      X.toward (s.pos (s.m.apex h)) ρ = s'.pos w → s'.pos w = s.pos (s.m.apex h) := by
    intro w hw ρ ρ0 ρ1 hρ
    rcases ρ1.eq_or_lt with ρ1 | ρ1
    · rw [ρ1, toward_one] at hρ; exact hρ.symm
    · exfalso
      rw [toward_symm] at hρ
      have := vertex_edge O''.sound O''.ccw O''.apart O''.convex hw y1 (r := 1 - ρ) (by linarith) (by linarith)
      rw [y2, y3, hv, hap.2] at this
      exact this hρ
  have res : ∃ e1, (if s'.pos (s'.m.apex f) = s.pos (s.m.apex h) then some (s', s'.m.onext f)
      else if s'.pos (s'.m.dest f) = s.pos (s.m.apex h) then some (s', f) else none) = some (s', e1) ∧
      e1.1 ∈ s'.tris ∧ s'.m.org e1 = c.v ∧ s'.pos (s'.m.dest e1) = s.pos (s.m.apex h) := by
    have left : s'.pos (s'.m.apex f) = s.pos (s.m.apex h) → (s'.m.onext f).1 ∈ s'.tris ∧ s'.m.org (s'.m.onext f) = c.v ∧
        s'.pos (s'.m.dest (s'.m.onext f)) = s.pos (s.m.apex h) := by
      intro hl
      have hs : s'.m.nb (lprev f) ≠ space := by
        intro hs
        refine O''.convex _ hor.1 ⟨lprev f, f1, hs, ?_⟩
        show 0 < ccw _ _ _
        rw [dest_lprev, org_lprev, f2, hv, hl, hor.2]
        exact kpos
      obtain ⟨k1, k2, k3⟩ := onext_ends O''.sound f1 hs
      exact ⟨k1, k2.trans f2, by rw [k3]; exact hl⟩
    cases d with
    | leftCollinear =>
      obtain ⟨ρ, ρ0, hρ⟩ := f3
      have ρ1 := lead_left_short O'' f1 hap.1 ρ0 hρ
      rw [f2, hv, hap.2] at hρ
      have := pass _ ⟨f, f1, rfl⟩ ρ ρ0 ρ1 hρ
      rw [if_pos this]
      exact ⟨_, rfl, left this⟩
    | rightCollinear =>
      obtain ⟨ρ, ρ0, hρ⟩ := f3
      have ρ1 := lead_right_short O'' f1 hap.1 ρ0 hρ
      rw [f2, hv, hap.2] at hρ
      have this : s'.pos (s'.m.dest f) = s.pos (s.m.apex h) := pass _ ⟨lprev f, f1, rfl⟩ ρ ρ0 ρ1 hρ
      have n : s'.pos (s'.m.apex f) ≠ s.pos (s.m.apex h) := by
        intro hz
        rw [this, hz, ccw_abb] at cf
        exact cf.false
      rw [if_neg n, if_pos this]
      exact ⟨_, rfl, f1, f2, this⟩
    | within =>
      obtain ⟨ρ, τ, ρ0, τ0, τ1, hρ⟩ := f3
      exfalso
      rw [f2, hv, hap.2] at hρ
      rw [f2, hv] at cf
      refine edge_outside O''.sound O''.ccw O''.apart f1 y1 (by rw [y3, f2]) ?_ ?_
      · rw [f2, hv, y2, hap.2]
        have e1 : ρ * ccw X (s'.pos (s'.m.dest f)) (s.pos (s.m.apex h)) = τ * ccw X (s'.pos (s'.m.dest f)) (s'.pos (s'.m.apex f)) := by
          have := congrArg (ccw X (s'.pos (s'.m.dest f))) hρ
          rw [ccw_toward, ccw_toward, ccw_aba, ccw_abb] at this
          linarith
        exact pos_of_mul_pos_right (by rw [e1]; exact mul_pos τ0 cf) ρ0.le
      · rw [f2, hv, y2, hap.2]
        have e1 : ρ * ccw X (s.pos (s.m.apex h)) (s'.pos (s'.m.apex f)) = (1 - τ) * ccw X (s'.pos (s'.m.dest f)) (s'.pos (s'.m.apex f)) := by
          have := congrArg (fun z => ccw X z (s'.pos (s'.m.apex f))) hρ
          have a1 : ccw X (X.toward (s.pos (s.m.apex h)) ρ) (s'.pos (s'.m.apex f)) = ρ * ccw X (s.pos (s.m.apex h)) (s'.pos (s'.m.apex f)) := by
            unfold ccw Vec.toward; ring
          have a2 : ccw X ((s'.pos (s'.m.dest f)).toward (s'.pos (s'.m.apex f)) τ) (s'.pos (s'.m.apex f)) =
            (1 - τ) * ccw X (s'.pos (s'.m.dest f)) (s'.pos (s'.m.apex f)) := by
            unfold ccw Vec.toward; ring
          rw [← a1, ← a2]; exact this
        exact pos_of_mul_pos_right (by rw [e1]; exact mul_pos (by linarith) cf) ρ0.le
  obtain ⟨e1, r1, r2, r3, r4⟩ := res
  refine ⟨s', e1, ?_, O'', by rw [hs']; exact hA, ?_, r2, r3, hv.trans hX, r4, ?_, ?_, ?_⟩
  · unfold Skeleton.segmentintersection
    simp only
    rw [intersection_eq hc hx, ← hX]
    simp only [Option.bind_some]
    rw [hI]
    simp only
    have hs2 : (⟨m', Function.update s.pos c.v X, if (s.m.nb h).1 = 0 then insert c.n1 s.tris else
      insert c.n1 (insert c.n2 s.tris)⟩ : Skeleton K) = s' := by rw [hs']; rfl
    rw [hs2]
    rw [hap.2] at hf
    rw [hf]
    simp only [Option.bind_some]
    rw [show m' = s'.m by rw [hs'], show Function.update s.pos c.v X = s'.pos by rw [hs']]
    exact r1
  · rw [hs']; exact cut_onSub O hU hh h0 t0 t1 hX.symm hI
  · rw [hs']; exact fun x hx => cut_unused O hU hh h0 t0 t1 hX.symm hI hx
  · rw [hs']; exact corners
  · rw [hs']
    intro x hx x0
    rcases edges (m'.org x) (m'.dest x) (m'.sg x) (decide (m'.nb x = space)) (.inl x0) ⟨x, hx, rfl, rfl, rfl, by simp⟩ with
      ⟨-, -, z, hz, k1, k2, k3, -⟩ | ⟨k1, -⟩ | ⟨k1, -⟩
    · exact .inr ⟨z, hz, by rw [k3]; exact x0, k1, k2⟩
    · exact .inl (.inl k1)
    · exact .inl (.inr k1)

end

/-! ## What lies ahead -/

/-- The vertices strictly between `o` and `p`. -/
noncomputable def Skeleton.inWay (s : Skeleton K) (o p : Vec K) : Finset Nat :=
  letI := Classical.decPred fun w => ∃ r, 0 < r ∧ r < 1 ∧ o.toward p r = s.pos w
  ((s.tris ×ˢ (Finset.univ : Finset (Fin 3))).image s.m.apex).filter fun w => ∃ r, 0 < r ∧ r < 1 ∧ o.toward p r = s.pos w

/-- `o` to `p` crosses `a` to `b`. -/
def Crosses (o p a b : Vec K) : Prop :=
  ccw o p a ≠ 0 ∧ ∃ r t, 0 < r ∧ r < 1 ∧ 0 < t ∧ t < 1 ∧ o.toward p r = a.toward b t

/-- The subsegments that cross the way from `o` to `p`, as ordered pairs of vertices. -/
noncomputable def Skeleton.across (s : Skeleton K) (o p : Vec K) : Finset (Nat × Nat) :=
  letI := Classical.decPred fun x : TEdge => s.m.sg x ≠ noSub
  letI := Classical.decPred fun x : Nat × Nat => Crosses o p (s.pos x.1) (s.pos x.2)
  (((s.tris ×ˢ (Finset.univ : Finset (Fin 3))).filter fun x => s.m.sg x ≠ noSub).image
    fun x => (s.m.org x, s.m.dest x)).filter fun x => Crosses o p (s.pos x.1) (s.pos x.2)

theorem mem_inWay {o p : Vec K} {w : Nat} : w ∈ s.inWay o p ↔ s.m.HasCorner (· ∈ s.tris) w ∧
    ∃ r, 0 < r ∧ r < 1 ∧ o.toward p r = s.pos w := by
  unfold Skeleton.inWay
  simp only [Finset.mem_filter, Finset.mem_image, Finset.mem_product, Finset.mem_univ, and_true]
  rfl

theorem mem_across {o p : Vec K} {a b : Nat} : (a, b) ∈ s.across o p ↔ (∃ x : TEdge, x.1 ∈ s.tris ∧ s.m.sg x ≠ noSub ∧
    s.m.org x = a ∧ s.m.dest x = b) ∧ Crosses o p (s.pos a) (s.pos b) := by
  unfold Skeleton.across
  simp only [Finset.mem_filter, Finset.mem_image, Finset.mem_product, Finset.mem_univ, and_true, Prod.mk.injEq]
  constructor
  · rintro ⟨⟨x, ⟨h1, h2⟩, h3, h4⟩, h5⟩
    exact ⟨⟨x, h1, h2, h3, h4⟩, h5⟩
  · rintro ⟨⟨x, h1, h2, h3, h4⟩, h5⟩
    exact ⟨⟨x, ⟨h1, h2⟩, h3, h4⟩, h5⟩

theorem toward_inj {o p : Vec K} (h : p ≠ o) {r t : K} (e : o.toward p r = o.toward p t) : r = t := by
  have hx : o.x + r * (p.x - o.x) = o.x + t * (p.x - o.x) := congrArg Vec.x e
  have hy : o.y + r * (p.y - o.y) = o.y + t * (p.y - o.y) := congrArg Vec.y e
  have h1 : (r - t) * (p.x - o.x) = 0 := by linarith
  have h2 : (r - t) * (p.y - o.y) = 0 := by linarith
  rcases mul_eq_zero.1 h1 with h1 | h1
  · linarith
  rcases mul_eq_zero.1 h2 with h2 | h2
  · linarith
  · exact absurd (Vec.ext (by linarith) (by linarith)) h

/-- What is crossed on a later part of the way is crossed on the way. -/
theorem Crosses.later {o p a b : Vec K} {ρ : K} (h0 : 0 < ρ) (h1 : ρ < 1) (h : Crosses (o.toward p ρ) p a b) :
    Crosses o p a b := by
  obtain ⟨h2, r, t, r0, r1, t0, t1, e⟩ := h
  refine ⟨fun hz => h2 ?_, ρ + r * (1 - ρ), t, ?_, ?_, t0, t1, by rw [← toward_toward]; exact e⟩
  · have : ccw (o.toward p ρ) p a = (1 - ρ) * ccw o p a := by unfold ccw Vec.toward; ring
    rw [this, hz, mul_zero]
  · have := mul_pos r0 (sub_pos.2 h1); linarith
  · have := mul_pos (sub_pos.2 r1) (sub_pos.2 h1)
    have e1 : (1 - r) * (1 - ρ) = 1 - (ρ + r * (1 - ρ)) := by ring
    linarith

/-- Going on from a vertex in the way, less lies ahead. -/
theorem ahead_vertex {s' : Skeleton K} {o p : Vec K} {ρ : K} (hne : p ≠ o) (h0 : 0 < ρ) (h1 : ρ < 1) (hm : s'.pos = s.pos)
    (hc : ∀ w, s'.m.HasCorner (· ∈ s'.tris) w ↔ s.m.HasCorner (· ∈ s.tris) w) {w : Nat}
    (hw : s.m.HasCorner (· ∈ s.tris) w) (hp : o.toward p ρ = s.pos w)
    (hs : ∀ x : TEdge, x.1 ∈ s'.tris → s'.m.sg x ≠ noSub → ccw o p (s.pos (s'.m.org x)) = 0 ∨
      ∃ y : TEdge, y.1 ∈ s.tris ∧ s.m.sg y ≠ noSub ∧ s.m.org y = s'.m.org x ∧ s.m.dest y = s'.m.dest x) :
    (s'.inWay (o.toward p ρ) p).card + (s'.across (o.toward p ρ) p).card < (s.inWay o p).card + (s.across o p).card := by
  refine add_lt_add_of_lt_of_le (Finset.card_lt_card ?_) (Finset.card_le_card ?_)
  · refine (Finset.ssubset_iff_of_subset ?_).2 ⟨w, mem_inWay.2 ⟨hw, ρ, h0, h1, hp⟩, ?_⟩
    · intro u hu
      obtain ⟨u1, r, r0, r1, e⟩ := mem_inWay.1 hu
      rw [hm] at e
      refine mem_inWay.2 ⟨(hc u).1 u1, ρ + r * (1 - ρ), ?_, ?_, by rw [← toward_toward]; exact e⟩
      · have := mul_pos r0 (sub_pos.2 h1); linarith
      · have := mul_pos (sub_pos.2 r1) (sub_pos.2 h1)
        have e1 : (1 - r) * (1 - ρ) = 1 - (ρ + r * (1 - ρ)) := by ring
        linarith
    · intro hu
      obtain ⟨-, r, r0, r1, e⟩ := mem_inWay.1 hu
      rw [hm, ← hp, toward_toward] at e
      have := toward_inj hne e
      have := mul_pos r0 (sub_pos.2 h1); linarith
  · rintro ⟨a, b⟩ hu
    obtain ⟨⟨x, x1, x2, rfl, rfl⟩, hX⟩ := mem_across.1 hu
    rw [hm] at hX
    have hX' := hX.later h0 h1
    refine mem_across.2 ⟨?_, hX'⟩
    exact (hs x x1 x2).resolve_left hX'.1

/-- Going on from the crossing with a subsegment, less lies ahead. -/
theorem ahead_crossing {s' : Skeleton K} {o p : Vec K} {ρ t : K} (hne : p ≠ o) (h0 : 0 < ρ) (h1 : ρ < 1) {v : Nat}
    (hc : ∀ w, s'.m.HasCorner (· ∈ s'.tris) w ↔ w = v ∨ s.m.HasCorner (· ∈ s.tris) w)
    (hm : ∀ w, s.m.HasCorner (· ∈ s.tris) w → s'.pos w = s.pos w) (hv : s'.pos v = o.toward p ρ) {h : TEdge}
    (hh : h.1 ∈ s.tris) (hs : s.m.sg h ≠ noSub) (hx : ccw o p (s.pos (s.m.org h)) ≠ 0) (t0 : 0 < t) (t1 : t < 1)
    (hp : o.toward p ρ = (s.pos (s.m.org h)).toward (s.pos (s.m.dest h)) t)
    (hS : ∀ x : TEdge, x.1 ∈ s'.tris → s'.m.sg x ≠ noSub → (s'.m.org x = v ∨ s'.m.dest x = v) ∨
      ∃ y : TEdge, y.1 ∈ s.tris ∧ s.m.sg y ≠ noSub ∧ s.m.org y = s'.m.org x ∧ s.m.dest y = s'.m.dest x) :
    (s'.inWay (o.toward p ρ) p).card + (s'.across (o.toward p ρ) p).card < (s.inWay o p).card + (s.across o p).card := by
  have hne' : p ≠ o.toward p ρ := by
    intro e
    have := toward_inj hne ((toward_one o p).trans e)
    linarith
  refine add_lt_add_of_le_of_lt (Finset.card_le_card ?_) (Finset.card_lt_card ?_)
  · intro u hu
    obtain ⟨u1, r, r0, r1, e⟩ := mem_inWay.1 hu
    rcases (hc u).1 u1 with rfl | u1
    · exfalso
      rw [hv] at e
      have := toward_inj hne' (e.trans (toward_zero _ p).symm)
      linarith
    · rw [hm u u1] at e
      refine mem_inWay.2 ⟨u1, ρ + r * (1 - ρ), ?_, ?_, by rw [← toward_toward]; exact e⟩
      · have := mul_pos r0 (sub_pos.2 h1); linarith
      · have := mul_pos (sub_pos.2 r1) (sub_pos.2 h1)
        have e1 : (1 - r) * (1 - ρ) = 1 - (ρ + r * (1 - ρ)) := by ring
        linarith
  · have base : ∀ x : TEdge, x.1 ∈ s.tris → s'.pos (s.m.org x) = s.pos (s.m.org x) ∧ s'.pos (s.m.dest x) = s.pos (s.m.dest x) :=
      fun x hx => ⟨hm _ ⟨lnext x, hx, rfl⟩, hm _ ⟨lprev x, hx, rfl⟩⟩
    refine (Finset.ssubset_iff_of_subset ?_).2 ⟨(s.m.org h, s.m.dest h),
      mem_across.2 ⟨⟨h, hh, hs, rfl, rfl⟩, hx, ρ, t, h0, h1, t0, t1, hp⟩, ?_⟩
    · rintro ⟨a, b⟩ hu
      obtain ⟨⟨x, x1, x2, rfl, rfl⟩, hX⟩ := mem_across.1 hu
      rcases hS x x1 x2 with (hz | hz) | ⟨y, y1, y2, y3, y4⟩
      · exfalso
        obtain ⟨k1, -⟩ := hX
        rw [hz, hv] at k1
        exact k1 (ccw_aba _ _)
      · exfalso
        obtain ⟨k1, r, τ, r0, r1, τ0, τ1, e⟩ := hX
        rw [hz, hv] at e
        generalize o.toward p ρ = Z at e k1
        have e2 := congrArg (ccw Z p) e
        rw [ccw_toward, ccw_toward, ccw_aba, ccw_abb] at e2
        have : (1 - τ) * ccw Z p (s'.pos (s'.m.org x)) = 0 := by linarith
        rcases mul_eq_zero.1 this with h' | h'
        · linarith
        · exact k1 h'
      · rw [← y3, ← y4] at hX
        have hX := hX.later h0 h1
        rw [(base y y1).1, (base y y1).2] at hX
        rw [← y3, ← y4]
        exact mem_across.2 ⟨⟨y, y1, y2, rfl, rfl⟩, hX⟩
    · intro hu
      obtain ⟨-, k1, r, τ, r0, r1, τ0, τ1, e⟩ := mem_across.1 hu
      rw [(base h hh).1, (base h hh).2, toward_toward] at e
      have e2 := congrArg (ccw o p) e
      have e3 := congrArg (ccw o p) hp
      rw [ccw_toward, ccw_toward, ccw_aba, ccw_abb] at e2 e3
      obtain ⟨A, hA⟩ : ∃ A, A = ccw o p (s.pos (s.m.org h)) := ⟨_, rfl⟩
      obtain ⟨B, hB⟩ : ∃ B, B = ccw o p (s.pos (s.m.dest h)) := ⟨_, rfl⟩
      rw [← hA, ← hB] at e2 e3
      rw [← hA] at hx
      have hτ : τ = t := by
        have f1 : (τ - t) * (B - A) = 0 := by linarith
        rcases mul_eq_zero.1 f1 with f | f
        · linarith
        · exfalso
          have : B = A := by linarith
          rw [this] at e3
          exact hx (by linarith)
      rw [hτ, ← hp] at e
      have := toward_inj hne e
      have := mul_pos r0 (sub_pos.2 h1); linarith

/-! ## A round -/

theorem between_comm {a b q : Vec K} : Vec.Between a b q ↔ Vec.Between b a q := ⟨between_symm, between_symm⟩

theorem Skeleton.After.trans {s₁ s₂ s₃ : Skeleton K} (h : s₁.After s₂) (h' : s₂.After s₃) : s₁.After s₃ :=
  ⟨fun w hw => ⟨(h'.vertex w (h.vertex w hw).1).1, ((h'.vertex w (h.vertex w hw).1).2).trans (h.vertex w hw).2⟩,
    fun q => (h'.winding q).trans (h.winding q)⟩

theorem Skeleton.insertsubseg_corner (O : s.Ok) {e : TEdge} (he : e.1 ∈ s.tris) (k w : Nat) :
    (s.insertsubseg e k).m.HasCorner (· ∈ (s.insertsubseg e k).tris) w ↔ s.m.HasCorner (· ∈ s.tris) w := by
  have apex : ∀ x, (s.insertsubseg e k).m.apex x = s.m.apex x := fun x => (s.insertsubseg_org O he x).2.2
  constructor <;> rintro ⟨x, hx, h⟩
  · exact ⟨x, hx, (apex x).symm.trans h⟩
  · exact ⟨x, hx, (apex x).trans h⟩

theorem insertsubseg_edges (O : s.Ok) {e : TEdge} (he : e.1 ∈ s.tris) {k : Nat} (hk : k ≠ 0)
    (hu : ∀ x : TEdge, x.1 ∈ s.tris → (s.m.sg x).1 ≠ k) {x : TEdge} (hx : x.1 ∈ s.tris)
    (h : (s.insertsubseg e k).m.sg x ≠ noSub) : s.m.sg x ≠ noSub ∨
      ((s.insertsubseg e k).m.org x = s.m.org e ∧ (s.insertsubseg e k).m.dest x = s.m.dest e) ∨
      ((s.insertsubseg e k).m.org x = s.m.dest e ∧ (s.insertsubseg e k).m.dest x = s.m.org e) := by
  obtain ⟨o, d, -⟩ := s.insertsubseg_org (k := k) O he x
  rw [o, d]
  rcases (insertsubseg_sub O.sound he hk hu hx).1 h with h' | rfl | rfl
  · exact .inl h'
  · exact .inr (.inl ⟨rfl, rfl⟩)
  · have hs : s.m.nb e ≠ space := fun hc => by
      have hx : (s.m.nb e).1 ∈ s.tris := hx
      rw [hc] at hx; exact O.sound.out hx
    exact .inr (.inr (O.sound.nb_ends he hs))

section
variable {c : Spare} (O : s.Ok) (hU : s.Unused c) {e : TEdge} (he : e.1 ∈ s.tris) {w : Nat}
  (hw : s.m.HasCorner (· ∈ s.tris) w) (hne : s.pos w ≠ s.pos (s.m.org e))
include O hU he hw hne

set_option maxHeartbeats 1000000 in
theorem scoutStep_spec :
    (∃ s' e', s.scoutStep c (s.pos w) e = some (.returns true s' e') ∧ s'.Ok ∧ s.After s' ∧
      ∀ q, s'.OnSub q ↔ s.OnSub q ∨ Vec.Between (s.pos (s.m.org e)) (s.pos w) q) ∨
    (∃ e', s.scoutStep c (s.pos w) e = some (.returns false s e') ∧ e'.1 ∈ s.tris ∧ s.m.org e' = s.m.org e ∧
      s.m.sg (lnext e') = noSub ∧ ∃ r t, 0 < r ∧ r < 1 ∧ 0 < t ∧ t < 1 ∧
      (s.pos (s.m.org e)).toward (s.pos w) r = (s.pos (s.m.dest e')).toward (s.pos (s.m.apex e')) t) ∨
    (∃ s' e' r, s.scoutStep c (s.pos w) e = some (.again s' e') ∧ s'.Ok ∧ s.After s' ∧ e'.1 ∈ s'.tris ∧ 0 < r ∧ r < 1 ∧
      s'.pos (s'.m.org e') = (s.pos (s.m.org e)).toward (s.pos w) r ∧
      (∀ q, s'.OnSub q ↔ s.OnSub q ∨ Vec.Between (s.pos (s.m.org e)) ((s.pos (s.m.org e)).toward (s.pos w) r) q) ∧
      (s'.inWay ((s.pos (s.m.org e)).toward (s.pos w) r) (s.pos w)).card +
        (s'.across ((s.pos (s.m.org e)).toward (s.pos w) r) (s.pos w)).card <
      (s.inWay (s.pos (s.m.org e)) (s.pos w)).card + (s.across (s.pos (s.m.org e)) (s.pos w)).card) := by
  obtain ⟨d, f, hf, f1, f2, f3⟩ := s.finddirection_ok O he hw hne
  have cf : 0 < ccw (s.pos (s.m.org f)) (s.pos (s.m.dest f)) (s.pos (s.m.apex f)) := O.ccw f f1
  have hk : c.sub ≠ 0 := hU.2.2.2.2.2.2.2.1
  have hu : ∀ x : TEdge, x.1 ∈ s.tris → (s.m.sg x).1 ≠ c.sub := fun x hx => (hU.1 x.1 hx x.2).2.2
  have fp : (lprev f).1 ∈ s.tris := f1
  have fn : (lnext f).1 ∈ s.tris := f1
  unfold Skeleton.scoutStep
  rw [hf]
  simp only [Option.bind_some]
  by_cases h1 : s.pos (s.m.apex f) = s.pos w
  · left
    rw [if_pos (.inl h1), if_pos h1]
    refine ⟨_, _, rfl, O.insertsubseg fp hk hu, s.insertsubseg_after O fp hk hu, fun q => ?_⟩
    rw [s.insertsubseg_onSub O fp hk hu, org_lprev, dest_lprev, h1, f2, between_comm]
  by_cases h2 : s.pos (s.m.dest f) = s.pos w
  · left
    rw [if_pos (.inr h2), if_neg h1]
    refine ⟨_, _, rfl, O.insertsubseg f1 hk hu, s.insertsubseg_after O f1 hk hu, fun q => ?_⟩
    rw [s.insertsubseg_onSub O f1 hk hu, h2, f2]
  right
  rw [if_neg (by tauto)]
  cases d with
  | leftCollinear =>
    right
    obtain ⟨r, r0, hr⟩ := f3
    have r1 : r < 1 := by
      refine lt_of_le_of_ne (lead_left_short O f1 hw r0 hr) fun h => ?_
      rw [h, toward_one] at hr
      exact h1 hr.symm
    rw [f2] at hr
    refine ⟨_, _, r, rfl, O.insertsubseg fp hk hu, s.insertsubseg_after O fp hk hu, fp, r0, r1, ?_, ?_, ?_⟩
    · rw [(s.insertsubseg_org O fp _).1, org_lprev]; exact hr.symm
    · intro q
      rw [s.insertsubseg_onSub O fp hk hu, org_lprev, dest_lprev, f2, between_comm, hr]
    · refine ahead_vertex hne r0 r1 rfl (s.insertsubseg_corner O fp c.sub) ⟨f, f1, rfl⟩ hr ?_
      intro x hx x0
      obtain ⟨o, d, -⟩ := s.insertsubseg_org (k := c.sub) O fp x
      rcases insertsubseg_edges O fp hk hu hx x0 with h | h | h
      · exact .inr ⟨x, hx, h, o.symm, d.symm⟩
      · rw [h.1, org_lprev, ← hr, ccw_toward, ccw_aba, ccw_abb]; left; ring
      · rw [h.1, dest_lprev, f2, ccw_aba]; exact .inl rfl
  | rightCollinear =>
    right
    obtain ⟨r, r0, hr⟩ := f3
    have r1 : r < 1 := by
      refine lt_of_le_of_ne (lead_right_short O f1 hw r0 hr) fun h => ?_
      rw [h, toward_one] at hr
      exact h2 hr.symm
    rw [f2] at hr
    refine ⟨_, _, r, rfl, O.insertsubseg f1 hk hu, s.insertsubseg_after O f1 hk hu, fn, r0, r1, ?_, ?_, ?_⟩
    · rw [(s.insertsubseg_org O f1 _).1, org_lnext]; exact hr.symm
    · intro q
      rw [s.insertsubseg_onSub O f1 hk hu, f2, hr]
    · refine ahead_vertex hne r0 r1 rfl (s.insertsubseg_corner O f1 c.sub) ⟨lprev f, f1, rfl⟩ hr ?_
      intro x hx x0
      obtain ⟨o, d, -⟩ := s.insertsubseg_org (k := c.sub) O f1 x
      rcases insertsubseg_edges O f1 hk hu hx x0 with h | h | h
      · exact .inr ⟨x, hx, h, o.symm, d.symm⟩
      · rw [h.1, f2, ccw_aba]; exact .inl rfl
      · rw [h.1, ← hr, ccw_toward, ccw_aba, ccw_abb]; left; ring
  | within =>
    obtain ⟨r, t, r0, t0, t1, hr⟩ := f3
    have r1 : r < 1 := lead_within_short O f1 hw r0 t0 t1 hr
    rcases O.sound.sg_zero fn with hs | hs
    · left
      simp only
      rw [if_pos (by rw [hs]; rfl)]
      rw [f2] at hr
      exact ⟨_, rfl, f1, f2, hs, r, t, r0, r1, t0, t1, hr⟩
    · right
      simp only
      rw [if_neg hs]
      have hs0 : s.m.sg (lnext f) ≠ noSub := fun hc => hs (by rw [hc]; rfl)
      obtain ⟨s1, e1, g1, O1, A1, g2, g3, g4, g5, g6, g7, g8, g9⟩ := segmentintersection_spec (p := s.pos w) O hU fn hs0 r0 t0 t1
        (by rw [apex_lnext, org_lnext, dest_lnext]; exact hr)
      rw [org_lnext, dest_lnext, ← hr, f2] at g5
      rw [apex_lnext, f2] at g6
      rw [g1]
      simp only [Option.map_some]
      rw [f2] at hr cf
      refine ⟨_, _, r, rfl, O1.insertsubseg g3 hk g7, A1.trans (s1.insertsubseg_after O1 g3 hk g7), g3, r0, r1, ?_, ?_, ?_⟩
      · rw [(s1.insertsubseg_org O1 g3 _).1, g4]; exact g5
      · intro q
        rw [s1.insertsubseg_onSub O1 g3 hk g7, g2, g4, g5, g6, between_comm]
      · refine ahead_crossing hne r0 r1 (v := c.v) ?_ (fun u hu => (A1.vertex u hu).2) g5 fn hs0 ?_ t0 t1 ?_ ?_
        · intro u
          rw [s1.insertsubseg_corner O1 g3 c.sub, g8]
        · rw [org_lnext]
          intro hz
          have e1 : r * ccw (s.pos (s.m.org e)) (s.pos w) (s.pos (s.m.dest f)) =
              ccw (s.pos (s.m.org e)) ((s.pos (s.m.org e)).toward (s.pos w) r) (s.pos (s.m.dest f)) := by
            unfold ccw Vec.toward; ring
          have e2 : ccw (s.pos (s.m.org e)) ((s.pos (s.m.dest f)).toward (s.pos (s.m.apex f)) t) (s.pos (s.m.dest f)) =
              - (t * ccw (s.pos (s.m.org e)) (s.pos (s.m.dest f)) (s.pos (s.m.apex f))) := by
            unfold ccw Vec.toward; ring
          rw [hz, hr, e2] at e1
          have := mul_pos t0 cf
          linarith
        · rw [org_lnext, dest_lnext]; exact hr
        · intro x hx x0
          obtain ⟨o, d, -⟩ := s1.insertsubseg_org (k := c.sub) O1 g3 x
          rcases insertsubseg_edges O1 g3 hk g7 hx x0 with h | h | h
          · rw [o, d]; exact g9 x hx h
          · exact .inl (.inl (h.1.trans g4))
          · exact .inl (.inr (h.2.trans g4))

end

/-! ## All rounds -/

theorem scoutsegment_spec {pick : Skeleton K → Spare} (hpick : ∀ s : Skeleton K, s.Unused (pick s)) {w : Nat} {p : Vec K} :
    ∀ (N : Nat) (s : Skeleton K) (e : TEdge), s.Ok → e.1 ∈ s.tris → s.m.HasCorner (· ∈ s.tris) w → s.pos w = p →
      p ≠ s.pos (s.m.org e) →
      (s.inWay (s.pos (s.m.org e)) p).card + (s.across (s.pos (s.m.org e)) p).card ≤ N → ∀ k, N < k →
      ∃ all s' e', Skeleton.scoutsegment pick p k s e = some (all, s', e') ∧ s'.Ok ∧ s.After s' ∧
        (all = true → ∀ q, s'.OnSub q ↔ s.OnSub q ∨ Vec.Between (s.pos (s.m.org e)) p q) ∧
        (all = false → e'.1 ∈ s'.tris ∧ s'.m.sg (lnext e') = noSub ∧
          (∃ r t, 0 < r ∧ r < 1 ∧ 0 < t ∧ t < 1 ∧
            (s'.pos (s'.m.org e')).toward p r = (s'.pos (s'.m.dest e')).toward (s'.pos (s'.m.apex e')) t) ∧
          ∃ r, 0 ≤ r ∧ r < 1 ∧ s'.pos (s'.m.org e') = (s.pos (s.m.org e)).toward p r ∧
            ∀ q, s'.OnSub q ↔ s.OnSub q ∨ (0 < r ∧ Vec.Between (s.pos (s.m.org e)) (s'.pos (s'.m.org e')) q)) := by
  intro N
  induction N using Nat.strong_induction_on with
  | _ N ih =>
    intro s e O he hw hp hne hN k hk
    obtain ⟨k, rfl⟩ : ∃ j, k = j + 1 := ⟨k - 1, by omega⟩
    subst hp
    unfold Skeleton.scoutsegment
    rw [if_pos (hpick s)]
    rcases scoutStep_spec O (hpick s) he hw hne with ⟨s', e', h, O', A', h3⟩ | ⟨e', h, h1, h2, h3, r, t, h4⟩ |
      ⟨s', e', r, h, O', A', h3, r0, r1, h4, h5, h6⟩
    · rw [h]
      exact ⟨_, _, _, rfl, O', A', fun _ => h3, fun hc => absurd hc (by simp)⟩
    · rw [h]
      refine ⟨_, _, _, rfl, O, ⟨fun w hw => ⟨hw, rfl⟩, fun _ => rfl⟩, fun hc => absurd hc (by simp), fun _ => ?_⟩
      refine ⟨h1, h3, ⟨r, t, by rw [h2]; exact h4⟩, 0, le_rfl, one_pos, by rw [h2, toward_zero], fun q => ?_⟩
      constructor
      · exact .inl
      · rintro (hq | ⟨hq, -⟩)
        · exact hq
        · exact absurd hq (lt_irrefl _)
    · rw [h]
      have hw' := A'.vertex w hw
      have ne' : s.pos w ≠ s'.pos (s'.m.org e') := by
        rw [h4]
        intro hc
        have := toward_inj hne ((toward_one _ _).trans hc)
        linarith
      rw [← h4] at h6
      obtain ⟨all, s2, e2, g, O2, A2, g1, g2⟩ := ih _ (lt_of_lt_of_le h6 hN) s' e' O' h3 hw'.1 hw'.2 ne' le_rfl k (by omega)
      refine ⟨all, s2, e2, g, O2, A'.trans A2, fun ha q => ?_, fun ha => ?_⟩
      · rw [g1 ha q, h5 q, h4, or_assoc, ← between_join r0 r1]
      · obtain ⟨k1, k2, k3, ρ, ρ0, ρ1, k4, k5⟩ := g2 ha
        rw [h4, toward_toward] at k4
        have n0 : 0 < r + ρ * (1 - r) := by
          have := mul_nonneg ρ0 (sub_pos.2 r1).le; linarith
        refine ⟨k1, k2, k3, r + ρ * (1 - r), n0.le, ?_, k4, fun q => ?_⟩
        · have := mul_pos (sub_pos.2 ρ1) (sub_pos.2 r1)
          have e1 : (1 - ρ) * (1 - r) = 1 - (r + ρ * (1 - r)) := by ring
          linarith
        · rw [k5 q, h5 q, h4, k4, or_assoc]
          refine or_congr_right ?_
          -- the first part of the way, and the second
          have part : (s.pos (s.m.org e)).toward (s.pos w) r =
              (s.pos (s.m.org e)).toward ((s.pos (s.m.org e)).toward (s.pos w) (r + ρ * (1 - r))) (r / (r + ρ * (1 - r))) := by
            have : r / (r + ρ * (1 - r)) * (r + ρ * (1 - r)) = r := div_mul_cancel₀ _ n0.ne'
            unfold Vec.toward
            refine Vec.ext ?_ ?_ <;> simp only
            · linear_combination (-((s.pos w).x - (s.pos (s.m.org e)).x)) * this
            · linear_combination (-((s.pos w).y - (s.pos (s.m.org e)).y)) * this
          rcases ρ0.eq_or_lt with ρ0 | ρ0
          · rw [← ρ0]
            simp only [lt_irrefl, false_and, or_false, zero_mul, add_zero]
            exact (and_iff_right r0).symm
          · have hf0 : 0 < r / (r + ρ * (1 - r)) := div_pos r0 n0
            have hf1 : r / (r + ρ * (1 - r)) < 1 := by
              rw [div_lt_one n0]
              have := mul_pos ρ0 (sub_pos.2 r1); linarith
            have join := between_join (a := s.pos (s.m.org e)) (q := q)
              (b := (s.pos (s.m.org e)).toward (s.pos w) (r + ρ * (1 - r))) hf0 hf1
            rw [← part] at join
            rw [and_iff_right ρ0, and_iff_right n0]
            exact join.symm

end Nikfemm
