import Verif.Lemmas.MergeHulls

/-!
# Merging two triangulations: loops that end

Used for C144 and C145.
-/

set_option linter.unusedSectionVars false
set_option linter.unusedSimpArgs false
namespace Nikfemm
namespace Ghosts
variable {K : Type} [Field K] [LinearOrder K]
variable [IsStrictOrderedRing K]

/-! ### Loops that come down -/

theorem walk_ends {next : TEdge → TEdge} {go : TEdge → Bool} {P : TEdge → Prop} {φ : TEdge → K} {S : Finset TEdge}
    (hS : ∀ e, P e → e ∈ S) (step : ∀ e, P e → go e = true → P (next e) ∧ φ (next e) < φ e) :
    ∀ {n : Nat} {e : TEdge}, P e → (S.filter fun x => φ x < φ e).card < n → ∃ e', walk next go n e = some e' := by
  intro n
  induction n with
  | zero => intro e _ h; omega
  | succ n ih =>
    intro e he h
    rw [walk]
    by_cases g : go e = true
    · rw [if_pos g]
      obtain ⟨h1, h2⟩ := step e he g
      refine ih h1 (lt_of_lt_of_le (Finset.card_lt_card ?_) (Nat.lt_succ_iff.1 h))
      rw [Finset.ssubset_iff_of_subset]
      · exact ⟨next e, by simp [hS _ h1, h2], by simp⟩
      · intro x hx
        simp only [Finset.mem_filter] at hx ⊢
        exact ⟨hx.1, hx.2.trans h2⟩
    · exact ⟨e, by rw [if_neg g]⟩

section handles
variable {m : TMesh K} {all : Finset Nat}

/-- All handles whose corner in the role `c` is `NULL`. -/
def handles (c : TEdge → Nat) (all : Finset Nat) : Finset TEdge :=
  (all ×ˢ (Finset.univ : Finset (Fin 3))).filter fun e => c e = 0

theorem mem_handles {c : TEdge → Nat} {e : TEdge} : e ∈ handles c all ↔ e.1 ∈ all ∧ c e = 0 := by
  simp [handles]

theorem apexes_ne (C : m.Closed all) {e e' : TEdge} (h : e.1 ∈ all) (h1 : e.1 = e'.1) (h2 : e ≠ e') :
    m.apex e ≠ m.apex e' := by
  have : e' = lnext e ∨ e' = lprev e := by
    obtain ⟨t, i⟩ := e
    obtain ⟨t', i'⟩ := e'
    simp only at h1
    subst h1
    have : i ≠ i' := fun q => h2 (q ▸ rfl)
    simp only [lnext, lprev, Prod.mk.injEq, true_and]
    omega
  rcases this with rfl | rfl
  · have := C.corners (lprev e) h
    rw [org_lprev, dest_lprev] at this
    exact this
  · have := C.corners (lnext e) h
    rw [org_lnext, dest_lnext] at this
    exact this.symm

theorem card_from (C : m.Closed all) : (handles m.org all).card ≤ all.card := by
  refine Finset.card_le_card_of_injOn Prod.fst (fun e he => (mem_handles.1 he).1) ?_
  intro e he e' he' q
  by_contra ne
  have h := mem_handles.1 he
  have h' := mem_handles.1 he'
  refine apexes_ne C (e := lnext e) (e' := lnext e') h.1 q (fun z => ne ?_) (h.2.trans h'.2.symm)
  have := congrArg lprev z
  simpa [lprev_lnext'] using this

theorem card_to (C : m.Closed all) : (handles m.dest all).card ≤ all.card := by
  refine Finset.card_le_card_of_injOn Prod.fst (fun e he => (mem_handles.1 he).1) ?_
  intro e he e' he' q
  by_contra ne
  have h := mem_handles.1 he
  have h' := mem_handles.1 he'
  refine apexes_ne C (e := lprev e) (e' := lprev e') h.1 q (fun z => ne ?_) (h.2.trans h'.2.symm)
  have := congrArg lnext z
  simpa [lnext_lprev'] using this

theorem lowest_ends (C : m.Closed all) {pos : Nat → Vec K} {e : TEdge} (h : To m all e) {n : Nat}
    (hn : all.card < n) : ∃ e', m.lowest pos n e = some e' := by
  refine walk_ends (P := To m all) (φ := fun e => (pos (m.org e)).y) (S := handles m.dest all)
    (fun e he => mem_handles.2 he) (fun e he g => ⟨he.lower C, ?_⟩) h
    (lt_of_le_of_lt ((Finset.card_filter_le _ _).trans (card_to C)) hn)
  have := C.mate (lnext e) he.1
  rw [this.2.2.1, dest_lnext]
  exact of_decide_eq_true g

theorem highest_ends (C : m.Closed all) {pos : Nat → Vec K} {e : TEdge} (h : From m all e) {n : Nat}
    (hn : all.card < n) : ∃ e', m.highest pos n e = some e' := by
  refine walk_ends (P := From m all) (φ := fun e => - (pos (m.dest e)).y) (S := handles m.org all)
    (fun e he => mem_handles.2 he) (fun e he g => ⟨he.higher C, ?_⟩) h
    (lt_of_le_of_lt ((Finset.card_filter_le _ _).trans (card_from C)) hn)
  rw [dest_lnext, neg_lt_neg_iff]
  exact of_decide_eq_true g

theorem leftmost_ends (C : m.Closed all) {pos : Nat → Vec K} {e : TEdge} (h : To m all e) {n : Nat}
    (hn : all.card < n) : ∃ e', m.leftmost pos n e = some e' := by
  refine walk_ends (P := To m all) (φ := fun e => (pos (m.org e)).x) (S := handles m.dest all)
    (fun e he => mem_handles.2 he) (fun e he g => ⟨he.back C, ?_⟩) h
    (lt_of_le_of_lt ((Finset.card_filter_le _ _).trans (card_to C)) hn)
  rw [org_lprev]
  exact of_decide_eq_true g

theorem rightmost_ends (C : m.Closed all) {pos : Nat → Vec K} {e : TEdge} (h : From m all e) {n : Nat}
    (hn : all.card < n) : ∃ e', m.rightmost pos n e = some e' := by
  refine walk_ends (P := From m all) (φ := fun e => - (pos (m.dest e)).x) (S := handles m.org all)
    (fun e he => mem_handles.2 he) (fun e he g => ⟨he.lower C, ?_⟩) h
    (lt_of_le_of_lt ((Finset.card_filter_le _ _).trans (card_from C)) hn)
  have := C.mate (lprev e) he.1
  rw [this.2.2.2, org_lprev, neg_lt_neg_iff]
  exact of_decide_eq_true g

end handles

/-! ### The line below both sides -/

/-- Where the line from `p` to `q` crosses the line `a x + b y + c = 0`. -/
def crossHeight (a b c : K) (p q : Vec K) : K :=
  ((a * q.x + b * q.y + c) * (a * p.y - b * p.x) - (a * p.x + b * p.y + c) * (a * q.y - b * q.x)) /
    ((a * q.x + b * q.y + c) - (a * p.x + b * p.y + c))

theorem not_flat {a b c : K} {p q : Vec K} (hp : a * p.x + b * p.y + c < 0) (hq : 0 < a * q.x + b * q.y + c) :
    0 < a ^ 2 + b ^ 2 := by
  by_contra h
  have ha : a = 0 := by nlinarith [sq_nonneg a, sq_nonneg b, sq_eq_zero_iff.1 (le_antisymm (by nlinarith [sq_nonneg b]) (sq_nonneg a) : a ^ 2 = 0)]
  have hb : b = 0 := sq_eq_zero_iff.1 (le_antisymm (by nlinarith [sq_nonneg a]) (sq_nonneg b) : b ^ 2 = 0)
  subst ha; subst hb
  linarith

theorem crossing_left {a b c : K} {p p' q : Vec K} (hp : a * p.x + b * p.y + c < 0)
    (hp' : a * p'.x + b * p'.y + c < 0) (hq : 0 < a * q.x + b * q.y + c) (h : 0 < orient p p' q) :
    crossHeight a b c p' q < crossHeight a b c p q := by
  unfold crossHeight
  have k := mul_pos (mul_pos (not_flat hp hq) hq) h
  rw [div_lt_div_iff₀ (by linarith) (by linarith), ← sub_pos]
  refine lt_of_lt_of_eq k ?_
  unfold orient
  ring

theorem crossing_right {a b c : K} {p q q' : Vec K} (hp : a * p.x + b * p.y + c < 0)
    (hq : 0 < a * q.x + b * q.y + c) (hq' : 0 < a * q'.x + b * q'.y + c) (h : 0 < orient q' q p) :
    crossHeight a b c p q' < crossHeight a b c p q := by
  unfold crossHeight
  have k := mul_pos (mul_pos (not_flat hp hq) (neg_pos.2 hp)) h
  rw [div_lt_div_iff₀ (by linarith) (by linarith), ← sub_pos]
  refine lt_of_lt_of_eq k ?_
  unfold orient
  ring

theorem tangent_ends' {m : TMesh K} {pos : Nat → Vec K} {L R : Finset Nat} (cl : m.Closed L) (cr : m.Closed R)
    {φ : TEdge × TEdge → K} (down1 : ∀ il ir, From m L il → To m R ir →
      0 < orient (pos (m.dest il)) (pos (m.apex il)) (pos (m.org ir)) → φ (m.nb (lprev il), ir) < φ (il, ir))
    (down2 : ∀ il ir, From m L il → To m R ir →
      0 < orient (pos (m.apex ir)) (pos (m.org ir)) (pos (m.dest il)) → φ (il, m.nb (lnext ir)) < φ (il, ir)) :
    ∀ {n : Nat} {p : TEdge × TEdge}, From m L p.1 → To m R p.2 →
      ((handles m.org L ×ˢ handles m.dest R).filter fun x => φ x < φ p).card < n →
      ∃ p', m.tangent pos n p = some p' := by
  have go : ∀ {n : Nat} {p p' : TEdge × TEdge}, From m L p'.1 → To m R p'.2 → φ p' < φ p →
      ((handles m.org L ×ˢ handles m.dest R).filter fun x => φ x < φ p).card < n + 1 →
      ((handles m.org L ×ˢ handles m.dest R).filter fun x => φ x < φ p').card < n := by
    intro n p p' h1 h2 h h'
    refine lt_of_lt_of_le (Finset.card_lt_card ?_) (Nat.lt_succ_iff.1 h')
    rw [Finset.ssubset_iff_of_subset]
    · refine ⟨p', ?_, by simp⟩
      rw [Finset.mem_filter, Finset.mem_product]
      exact ⟨⟨mem_handles.2 h1, mem_handles.2 h2⟩, h⟩
    · intro x hx
      simp only [Finset.mem_filter] at hx ⊢
      exact ⟨hx.1, hx.2.trans h⟩
  intro n
  induction n with
  | zero => intro p _ _ h; omega
  | succ n ih =>
    intro p h1 h2 h
    obtain ⟨il, ir⟩ := p
    rw [TMesh.tangent]
    by_cases c1 : orient (pos (m.dest il)) (pos (m.apex il)) (pos (m.org ir)) > 0
    · simp only [c1, decide_true, if_true, Bool.true_or]
      have l1 := down1 il ir h1 h2 c1
      have f1 := h1.lower cl
      by_cases c2 : orient (pos (m.apex ir)) (pos (m.org ir)) (pos (m.dest (m.nb (lprev il)))) > 0
      · simp only [c2, decide_true, if_true]
        exact ih f1 (h2.lower cr) (go (p' := (_, _)) f1 (h2.lower cr) ((down2 _ ir f1 h2 c2).trans l1) h)
      · simp only [c2, decide_false, Bool.false_eq_true, if_false]
        exact ih f1 h2 (go (p' := (_, _)) f1 h2 l1 h)
    · simp only [c1, decide_false, Bool.false_eq_true, if_false, Bool.false_or]
      by_cases c2 : orient (pos (m.apex ir)) (pos (m.org ir)) (pos (m.dest il)) > 0
      · simp only [c2, decide_true, if_true]
        exact ih (p := (il, _)) h1 (h2.lower cr) (go (p' := (_, _)) h1 (h2.lower cr) (down2 il ir h1 h2 c2) h)
      · simp only [c2, decide_false, Bool.false_eq_true, if_false, Option.some.injEq, exists_eq']

theorem From.dest_ne {m : TMesh K} {all : Finset Nat} (C : m.Closed all) {e : TEdge} (h : From m all e) :
    m.dest e ≠ 0 := by
  have := C.corners e h.1; rw [h.2] at this; exact this.symm
theorem From.apex_ne {m : TMesh K} {all : Finset Nat} (C : m.Closed all) {e : TEdge} (h : From m all e) :
    m.apex e ≠ 0 := by
  have := C.corners (lprev e) h.1; rw [org_lprev, dest_lprev, h.2] at this; exact this
theorem To.org_ne {m : TMesh K} {all : Finset Nat} (C : m.Closed all) {e : TEdge} (h : To m all e) :
    m.org e ≠ 0 := by
  have := C.corners e h.1; rw [h.2] at this; exact this
/-! ### Taking edges away comes to an end -/

section loops
variable {pos : Nat → Vec K} {t : Nat} {all : Finset Nat} {V : Nat → Prop} {m0 : TMesh K} {s s' : Knit K}

/-- Where the circle through `a`, `b` and `v` meets the bisector of `a` and `b`. -/
def bulge (a b v : Vec K) : K :=
  ((v.x - a.x) * (v.x - b.x) + (v.y - a.y) * (v.y - b.y)) / ((b.x - a.x) * (v.y - a.y) - (b.y - a.y) * (v.x - a.x))

theorem bulge_lt {a b c d : Vec K} (hc : CcwPts a b c) (hd : CcwPts a b d) (h : incircle a b c d > 0) :
    bulge a b d < bulge a b c := by
  unfold bulge
  have hc' : 0 < (b.x - a.x) * (c.y - a.y) - (b.y - a.y) * (c.x - a.x) := by unfold CcwPts at hc; linarith
  have hd' : 0 < (b.x - a.x) * (d.y - a.y) - (b.y - a.y) * (d.x - a.x) := by unfold CcwPts at hd; linarith
  rw [div_lt_div_iff₀ hd' hc', ← sub_pos]
  refine lt_of_lt_of_eq h ?_
  unfold incircle
  ring

theorem Knitting.left_step (I : Knitting pos t all V m0 s)
    (hc : CcwPts (pos s.lowerleft) (pos s.lowerright) (pos s.upperleft)) {ne : TEdge}
    (hne : ne = (s.top t).nb (lprev s.leftcand))
    (hh : s.m.apex ne ≠ 0 ∧ incircle (pos s.lowerleft) (pos s.lowerright) (pos s.upperleft) (pos (s.m.apex ne)) > 0) :
    Knitting pos t all V m0 (s.openLeft ne).1 ∧
    CcwPts (pos s.lowerleft) (pos s.lowerright) (pos (s.m.apex ne)) ∧
    (s.openLeft ne).2 = ((s.openLeft ne).1.top t).nb (lprev (s.openLeft ne).1.leftcand) ∧ V (s.m.apex ne) := by
  obtain ⟨h2, hi⟩ := hh
  have h1 := (ne_of_ccw hc).1
  have h3 : s.m.apex ne ≠ s.lowerright := by
    intro e; rw [e, (incircle_self _ _ _).1] at hi; exact lt_irrefl _ hi
  have O := I.openL hne h1 h2 h3
  obtain ⟨I', hn'⟩ := I.openLeft hne h1 h2 h3
  have hr : CcwPts (pos s.lowerleft) (pos s.upperleft) (pos (s.m.apex ne)) := by
    have g : ¬ (s.top t).Ghost ne.1 := by
      rintro ⟨i, hi⟩
      rcases same_tri (x := (ne.1, i)) (y := ne) rfl with e | e | e <;> rw [e] at hi
      · exact h2 (O.a.symm.trans hi)
      · exact I.ne.2.1 ((congrArg Prod.fst O.e0).symm.trans hi)
      · exact I.ne.2.2.2.1 ((congrArg Prod.snd O.e0).symm.trans hi)
    have := I.ccw ne ⟨O.m, g⟩
    rwa [O.a, show (s.top t).org ne = s.lowerleft from congrArg Prod.fst O.e0,
      show (s.top t).dest ne = s.upperleft from congrArg Prod.snd O.e0] at this
  exact ⟨I', above_left hc hr hi, hn', (I.vertex _).1 ⟨ne, O.m, O.a⟩⟩

theorem Knitting.right_step (I : Knitting pos t all V m0 s)
    (hc : CcwPts (pos s.lowerleft) (pos s.lowerright) (pos s.upperright)) {ne : TEdge}
    (hne : ne = (s.top t).nb (lnext s.rightcand))
    (hh : s.m.apex ne ≠ 0 ∧ incircle (pos s.lowerleft) (pos s.lowerright) (pos s.upperright) (pos (s.m.apex ne)) > 0) :
    Knitting pos t all V m0 (s.openRight ne).1 ∧
    CcwPts (pos s.lowerleft) (pos s.lowerright) (pos (s.m.apex ne)) ∧
    (s.openRight ne).2 = ((s.openRight ne).1.top t).nb (lnext (s.openRight ne).1.rightcand) ∧ V (s.m.apex ne) := by
  obtain ⟨h2, hi⟩ := hh
  have h1 := (ne_of_ccw hc).2
  have h3 : s.m.apex ne ≠ s.lowerleft := by
    intro e; rw [e, (incircle_self _ _ _).2] at hi; exact lt_irrefl _ hi
  have O := I.openR hne h1 h2 h3
  obtain ⟨I', hn'⟩ := I.openRight hne h1 h2 h3
  have hr : CcwPts (pos s.upperright) (pos s.lowerright) (pos (s.m.apex ne)) := by
    have g : ¬ (s.top t).Ghost ne.1 := by
      rintro ⟨i, hi⟩
      rcases same_tri (x := (ne.1, i)) (y := ne) rfl with e | e | e <;> rw [e] at hi
      · exact h2 (O.a.symm.trans hi)
      · exact I.ne.2.2.2.2.2.1 ((congrArg Prod.fst O.e0).symm.trans hi)
      · exact I.ne.2.2.1 ((congrArg Prod.snd O.e0).symm.trans hi)
    have := I.ccw ne ⟨O.m, g⟩
    rwa [O.a, show (s.top t).org ne = s.upperright from congrArg Prod.fst O.e0,
      show (s.top t).dest ne = s.lowerright from congrArg Prod.snd O.e0] at this
  exact ⟨I', above_right hc hr hi, hn', (I.vertex _).1 ⟨ne, O.m, O.a⟩⟩

theorem fewer {VS : Finset Nat} {φ : Nat → K} {u v : Nat} {n : Nat} (hv : v ∈ VS) (h : φ v < φ u)
    (hn : (VS.filter fun x => φ x < φ u).card < n + 1) : (VS.filter fun x => φ x < φ v).card < n := by
  refine lt_of_lt_of_le (Finset.card_lt_card ?_) (Nat.lt_succ_iff.1 hn)
  rw [Finset.ssubset_iff_of_subset]
  · exact ⟨v, by simp [hv, h], by simp⟩
  · intro x hx
    simp only [Finset.mem_filter] at hx ⊢
    exact ⟨hx.1, hx.2.trans h⟩

theorem Knitting.eatLeft_ends {VS : Finset Nat} (hV : ∀ v, V v → v ∈ VS) {n : Nat} : ∀ {s : Knit K} {ne : TEdge},
    Knitting pos t all V m0 s → CcwPts (pos s.lowerleft) (pos s.lowerright) (pos s.upperleft) →
    ne = (s.top t).nb (lprev s.leftcand) →
    (VS.filter fun v => bulge (pos s.lowerleft) (pos s.lowerright) (pos v) <
      bulge (pos s.lowerleft) (pos s.lowerright) (pos s.upperleft)).card < n →
    ∃ s', s.eatLeft pos n ne = some s' := by
  induction n with
  | zero => intro s ne _ _ _ h; omega
  | succ n ih =>
    intro s ne I hc hne hn
    rw [Knit.eatLeft]
    split
    · next hh =>
      obtain ⟨I', c, hn', v⟩ := I.left_step hc hne hh
      exact ih I' c hn' (fewer (φ := fun v => bulge (pos s.lowerleft) (pos s.lowerright) (pos v)) (hV _ v)
        (bulge_lt hc c hh.2) hn)
    · exact ⟨s, rfl⟩

theorem Knitting.eatRight_ends {VS : Finset Nat} (hV : ∀ v, V v → v ∈ VS) {n : Nat} : ∀ {s : Knit K} {ne : TEdge},
    Knitting pos t all V m0 s → CcwPts (pos s.lowerleft) (pos s.lowerright) (pos s.upperright) →
    ne = (s.top t).nb (lnext s.rightcand) →
    (VS.filter fun v => bulge (pos s.lowerleft) (pos s.lowerright) (pos v) <
      bulge (pos s.lowerleft) (pos s.lowerright) (pos s.upperright)).card < n →
    ∃ s', s.eatRight pos n ne = some s' := by
  induction n with
  | zero => intro s ne _ _ _ h; omega
  | succ n ih =>
    intro s ne I hc hne hn
    rw [Knit.eatRight]
    split
    · next hh =>
      obtain ⟨I', c, hn', v⟩ := I.right_step hc hne hh
      exact ih I' c hn' (fewer (φ := fun v => bulge (pos s.lowerleft) (pos s.lowerright) (pos v)) (hV _ v)
        (bulge_lt hc c hh.2) hn)
    · exact ⟨s, rfl⟩

theorem Knitting.next_left (I : Knitting pos t all V m0 s)
    (hc : CcwPts (pos s.lowerleft) (pos s.lowerright) (pos s.upperleft)) :
    s.m.nb (lprev s.leftcand) = (s.top t).nb (lprev s.leftcand) := by
  obtain ⟨n1, n2, n3, n4, n5, n6, n7⟩ := I.ne
  have l2 := ends_lprev _ I.endsL
  rw [I.apexL] at l2
  exact (nb_old (t := t) (by exact I.lne)
    (ne_of_ends (M := s.top t) (by rw [l2, I.endsB]; simp [(ne_of_ccw hc).1]))
    (lprev_ne _) (ne_of_ends (M := s.top t) (by rw [l2, I.endsR]; simp [n4]))).symm

theorem Knitting.next_right (I : Knitting pos t all V m0 s)
    (hc : CcwPts (pos s.lowerleft) (pos s.lowerright) (pos s.upperright)) :
    s.m.nb (lnext s.rightcand) = (s.top t).nb (lnext s.rightcand) := by
  have l2 := ends_lnext _ I.endsR
  rw [I.apexR] at l2
  exact (nb_old (t := t) (by exact I.rne)
    (ne_of_ends (M := s.top t) (by rw [l2, I.endsB]; simp [(ne_of_ccw hc).2]))
    (ne_of_ends (M := s.top t) (by rw [l2, I.endsL]; simp [I.ne.1.symm])) (lnext_ne _)).symm

theorem left_ccw (h : s.leftfinished pos = false) :
    CcwPts (pos s.lowerleft) (pos s.lowerright) (pos s.upperleft) := by
  simp only [Knit.leftfinished, decide_eq_false_iff_not] at h
  exact ccw_of_finished h

theorem right_ccw (h : s.rightfinished pos = false) :
    CcwPts (pos s.lowerleft) (pos s.lowerright) (pos s.upperright) := by
  simp only [Knit.rightfinished, decide_eq_false_iff_not] at h
  exact ccw_of_finished h

/-- The left half of a round. -/
theorem Knitting.left_half (I : Knitting pos t all V m0 s) {n : Nat} {s1 : Knit K}
    (h : (if s.leftfinished pos then some s else s.eatLeft pos n (s.m.nb (lprev s.leftcand))) = some s1) :
    Knitting pos t all V m0 s1 ∧
    (s.leftfinished pos = false → CcwPts (pos s1.lowerleft) (pos s1.lowerright) (pos s1.upperleft)) ∧
    s1.lowerleft = s.lowerleft ∧ s1.lowerright = s.lowerright ∧ s1.upperright = s.upperright := by
  cases hb : s.leftfinished pos with
  | true =>
    rw [hb] at h
    simp only [if_true, Option.some.injEq] at h
    subst h
    exact ⟨I, by simp, rfl, rfl, rfl⟩
  | false =>
    rw [hb] at h
    simp only [Bool.false_eq_true, if_false] at h
    have := I.eatLeft (left_ccw hb) (I.next_left (left_ccw hb)) h
    exact ⟨this.1, fun _ => this.2.1, this.2.2⟩

theorem Knitting.round_ends {VS : Finset Nat} (hV : ∀ v, V v → v ∈ VS) (I : Knitting pos t all V m0 s) {n : Nat}
    (hn : VS.card < n) : ∃ s', s.round pos n = some s' := by
  have small : ∀ (p : Nat → Prop) [DecidablePred p], (VS.filter p).card < n :=
    fun p _ => lt_of_le_of_lt (Finset.card_filter_le _ _) hn
  have e1 : ∃ s1, (if s.leftfinished pos then some s else s.eatLeft pos n (s.m.nb (lprev s.leftcand))) = some s1 := by
    cases hb : s.leftfinished pos with
    | true => exact ⟨s, rfl⟩
    | false =>
      obtain ⟨s1, h⟩ := I.eatLeft_ends hV (left_ccw hb) (I.next_left (left_ccw hb)) (small _)
      exact ⟨s1, h⟩
  obtain ⟨s1, e1⟩ := e1
  obtain ⟨I1, -, q⟩ := I.left_half e1
  have e2 : ∃ s2, (if s.rightfinished pos then some s1 else s1.eatRight pos n (s1.m.nb (lnext s1.rightcand))) =
      some s2 := by
    cases hb : s.rightfinished pos with
    | true => exact ⟨s1, rfl⟩
    | false =>
      have hr := right_ccw hb
      rw [← q.1, ← q.2.1, ← q.2.2] at hr
      obtain ⟨s2, h⟩ := I1.eatRight_ends hV hr (I1.next_right hr) (small _)
      exact ⟨s2, h⟩
  obtain ⟨s2, e2⟩ := e2
  simp only [Knit.round, e1, e2]
  split
  · exact ⟨_, rfl⟩
  · exact ⟨_, rfl⟩

theorem Knitting.eatLeft_last {n : Nat} : ∀ {s s' : Knit K} {ne : TEdge}, Knitting pos t all V m0 s →
    CcwPts (pos s.lowerleft) (pos s.lowerright) (pos s.upperleft) → ne = (s.top t).nb (lprev s.leftcand) →
    s.eatLeft pos n ne = some s' →
    s'.m.apex (s'.m.nb (lprev s'.leftcand)) = 0 ∨
    incircle (pos s'.lowerleft) (pos s'.lowerright) (pos s'.upperleft)
      (pos (s'.m.apex (s'.m.nb (lprev s'.leftcand)))) ≤ 0 := by
  induction n with
  | zero => intro s s' ne _ _ _ h; simp [Knit.eatLeft] at h
  | succ n ih =>
    intro s s' ne I hc hne h
    rw [Knit.eatLeft] at h
    split at h
    · next hh =>
      obtain ⟨I', c, hn', v⟩ := I.left_step hc hne hh
      exact ih I' c hn' h
    · next hh =>
      simp only [Option.some.injEq] at h
      subst h
      rw [I.next_left hc, ← hne]
      by_cases z : s.m.apex ne = 0
      · exact .inl z
      · exact .inr (not_lt.1 fun q => hh ⟨z, q⟩)

theorem Knitting.eatRight_last {n : Nat} : ∀ {s s' : Knit K} {ne : TEdge}, Knitting pos t all V m0 s →
    CcwPts (pos s.lowerleft) (pos s.lowerright) (pos s.upperright) → ne = (s.top t).nb (lnext s.rightcand) →
    s.eatRight pos n ne = some s' →
    s'.m.apex (s'.m.nb (lnext s'.rightcand)) = 0 ∨
    incircle (pos s'.lowerleft) (pos s'.lowerright) (pos s'.upperright)
      (pos (s'.m.apex (s'.m.nb (lnext s'.rightcand)))) ≤ 0 := by
  induction n with
  | zero => intro s s' ne _ _ _ h; simp [Knit.eatRight] at h
  | succ n ih =>
    intro s s' ne I hc hne h
    rw [Knit.eatRight] at h
    split at h
    · next hh =>
      obtain ⟨I', c, hn', v⟩ := I.right_step hc hne hh
      exact ih I' c hn' h
    · next hh =>
      simp only [Option.some.injEq] at h
      subst h
      rw [I.next_right hc, ← hne]
      by_cases z : s.m.apex ne = 0
      · exact .inl z
      · exact .inr (not_lt.1 fun q => hh ⟨z, q⟩)

theorem incircle_rot (a b c d : Vec K) : incircle c a b d = incircle a b c d := by unfold incircle; ring
theorem incircle_swap (a b c d : Vec K) : incircle a b d c = - incircle a b c d := by unfold incircle; ring

theorem Knitting.round_choice {n : Nat} (I : Knitting pos t all V m0 s)
    (hf : ¬ (s.leftfinished pos && s.rightfinished pos) = true) (h : s.round pos n = some s') :
    (s'.lowerleft = s.lowerleft ∧ CcwPts (pos s.lowerleft) (pos s.lowerright) (pos s'.lowerright) ∧
      (s.leftfinished pos = false →
        incircle (pos s.lowerleft) (pos s.lowerright) (pos s'.lowerright) (pos s'.upperleft) ≤ 0)) ∨
    (s'.lowerright = s.lowerright ∧ CcwPts (pos s.lowerleft) (pos s.lowerright) (pos s'.lowerleft) ∧
      (s.rightfinished pos = false →
        incircle (pos s.lowerleft) (pos s.lowerright) (pos s'.lowerleft) (pos s'.upperright) ≤ 0)) := by
  simp only [Knit.round] at h
  split at h
  · cases h
  · next s1 e1 =>
    split at h
    · cases h
    · next s2 e2 =>
      obtain ⟨I1, c1, q1⟩ := I.left_half e1
      have c2 : (s.rightfinished pos = false →
            CcwPts (pos s2.lowerleft) (pos s2.lowerright) (pos s2.upperright)) ∧
          s2.lowerleft = s1.lowerleft ∧ s2.lowerright = s1.lowerright ∧ s2.upperleft = s1.upperleft := by
        cases hb : s.rightfinished pos with
        | true =>
          rw [hb] at e2
          simp only [if_true, Option.some.injEq] at e2
          subst e2
          exact ⟨by simp, rfl, rfl, rfl⟩
        | false =>
          rw [hb] at e2
          simp only [Bool.false_eq_true, if_false] at e2
          have hr := right_ccw hb
          rw [← q1.1, ← q1.2.1, ← q1.2.2] at hr
          have := I1.eatRight hr (I1.next_right hr) e2
          exact ⟨fun _ => this.2.1, this.2.2⟩
      obtain ⟨c2, q2⟩ := c2
      have el : s2.lowerleft = s.lowerleft := q2.1.trans q1.1
      have er : s2.lowerright = s.lowerright := q2.2.1.trans q1.2.1
      split at h
      · next hd =>
        simp only [Option.some.injEq] at h
        subst h
        have hb : s.rightfinished pos = false := by
          cases hb : s.rightfinished pos with
          | false => rfl
          | true => rw [hb] at hd hf; simp at hd hf; rw [hf] at hd; simp at hd
        refine .inl ⟨el, ?_, fun hl => ?_⟩
        · have := c2 hb; rwa [el, er] at this
        · rw [hl, hb] at hd
          simp only [Bool.false_or, Bool.not_false, Bool.true_and, decide_eq_true_eq] at hd
          rw [incircle_rot, el, er] at hd
          change incircle _ _ (pos s2.upperright) (pos s2.upperleft) ≤ 0
          rw [incircle_swap]
          exact (neg_nonpos.2 hd.le)
      · next hd =>
        simp only [Option.some.injEq] at h
        subst h
        simp only [Bool.or_eq_true, not_or, Bool.not_eq_true] at hd
        refine .inr ⟨er, ?_, fun hr => ?_⟩
        · have := c1 hd.1
          rw [← q2.1, ← q2.2.1, ← q2.2.2, el, er] at this
          exact this
        · have := hd.2
          rw [hr] at this
          simp only [Bool.not_false, Bool.true_and, decide_eq_false_iff_not, not_lt] at this
          rw [incircle_rot, el, er] at this
          exact this

end loops

end Ghosts
end Nikfemm
