import Verif.Spec.Kelvin
import Verif.Lemmas.NonLinear
import Mathlib.Tactic.NormNum
import Mathlib.Tactic.Linarith

set_option linter.unusedSectionVars false

namespace Nikfemm
open Spec

variable {K : Type} [Field K] [LinearOrder K]

/-- The search succeeds exactly when there is a boundary vertex with these coordinates. -/
theorem findBoundary_ok {D : MeshData K} (hm : D.markers.length = D.pts.length) (p : Vec K) :
    ∀ n j, j + n = D.pts.length → ∃ r, findBoundary D p n j = .ok r ∧
      (∀ k, r = some k → D.OnBoundary k ∧ D.pts[k]? = some p) ∧
      (r = none → ∀ k, j ≤ k → D.OnBoundary k → D.pts[k]? ≠ some p)
  | 0, j, h => by
    refine ⟨none, rfl, fun k hk => (nomatch hk), fun _ k hk hb => ?_⟩
    obtain ⟨m, h1, _⟩ := hb
    have := (List.getElem?_eq_some_iff.mp h1).1
    omega
  | n + 1, j, h => by
    obtain ⟨r, e, hr1, hr2⟩ := findBoundary_ok hm p n (j + 1) (by omega)
    have hjm : j < D.markers.length := by omega
    have hjp : j < D.pts.length := by omega
    have hmark : D.markers[j]? = some D.markers[j] := List.getElem?_eq_getElem hjm
    have hpt : D.pts[j]? = some D.pts[j] := List.getElem?_eq_getElem hjp
    unfold findBoundary
    rw [rd_ok hjm, ok_bind]
    by_cases hz : D.markers[j] = 0
    · rw [if_neg (by simp [hz])]
      refine ⟨r, e, hr1, fun hn k hk hb => ?_⟩
      rcases Nat.lt_or_eq_of_le hk with h' | h'
      · exact hr2 hn k h' hb
      · subst h'
        obtain ⟨m, hm1, hm2⟩ := hb
        rw [hmark, hz] at hm1; cases hm1; exact absurd rfl hm2
    · rw [if_pos hz, rd_ok hjp, ok_bind]
      have hbd : D.OnBoundary j := ⟨_, hmark, hz⟩
      by_cases hq : D.pts[j].x = p.x ∧ D.pts[j].y = p.y
      · rw [if_pos hq]
        refine ⟨some j, rfl, fun k hk => ?_, fun h' => by cases h'⟩
        cases hk
        refine ⟨hbd, ?_⟩
        rw [hpt]
        congr 1
        cases h1 : D.pts[j]; cases p
        rw [h1] at hq
        simp only at hq
        rw [hq.1, hq.2]
      · rw [if_neg hq]
        refine ⟨r, e, hr1, fun hn k hk hb => ?_⟩
        rcases Nat.lt_or_eq_of_le hk with h' | h'
        · exact hr2 hn k h' hb
        · subst h'
          intro h''
          rw [hpt] at h''
          cases h''
          exact hq ⟨rfl, rfl⟩

theorem IndexMap.get_cons (m : IndexMap) (i j k : Nat) :
    IndexMap.get ((i, j) :: m) k = if i = k then some j else m.get k := by
  unfold IndexMap.get
  by_cases h : i = k
  · simp [h]
  · simp [h]

/-- Number of interior vertices below `n`. -/
def MeshData.inner (E : MeshData K) (n : Nat) : Nat :=
  (List.range n).countP (fun k => E.markers[k]? = some 0)

theorem MeshData.inner_succ (E : MeshData K) (n : Nat) :
    E.inner (n + 1) = E.inner n + if E.markers[n]? = some 0 then 1 else 0 := by
  unfold MeshData.inner
  rw [List.range_succ, List.countP_append]
  simp [List.countP_cons]

theorem MeshData.inner_mono (E : MeshData K) {a b : Nat} (h : a ≤ b) : E.inner a ≤ E.inner b := by
  induction b with
  | zero => rw [Nat.le_zero.mp h]
  | succ b ih =>
    rcases Nat.lt_or_eq_of_le h with h' | h'
    · exact le_trans (ih (by omega)) (by rw [E.inner_succ]; omega)
    · rw [h']

theorem MeshData.inner_lt (E : MeshData K) {a b : Nat} (h : a < b) (ha : E.Interior a) :
    E.inner a < E.inner b := by
  have h1 := E.inner_mono (Nat.succ_le_of_lt h)
  have h2 := E.inner_succ a
  unfold MeshData.Interior at ha
  rw [if_pos ha] at h2
  simp only [Nat.succ_eq_add_one] at h1
  omega

theorem MeshData.inner_surj (E : MeshData K) {n k : Nat} (h : k < E.inner n) :
    ∃ v, E.Interior v ∧ E.inner v = k := by
  induction n with
  | zero => simp [MeshData.inner] at h
  | succ n ih =>
    by_cases h' : k < E.inner n
    · exact ih h'
    · rw [E.inner_succ] at h
      split at h
      · rename_i hn
        exact ⟨n, hn, by omega⟩
      · omega

theorem matchBoundary_ok {D E : MeshData K} (hD : D.markers.length = D.pts.length)
    (hE : E.markers.length = E.pts.length) : ∃ map c, matchBoundary D E = .ok (map, c) ∧
      c + E.inner E.pts.length ≤ E.pts.length ∧
      (∀ i j, map.get i = some j → E.OnBoundary i ∧ D.OnBoundary j ∧ D.pts[j]? = E.pts[i]?) ∧
      ∀ i, E.OnBoundary i → map.get i = none → ∀ j, D.OnBoundary j → D.pts[j]? ≠ E.pts[i]? := by
  unfold matchBoundary
  obtain ⟨⟨map, c⟩, e, h1, h2, h3⟩ := forUp_inv (body := fun i (s : IndexMap × Nat) => do
      let m ← rd E.markers i
      if m ≠ 0 then do
        let p ← rd E.pts i
        match ← findBoundary D p D.pts.length 0 with
        | some j => .ok ((i, j) :: s.1, s.2 + 1)
        | none => .ok s
      else .ok s) (fun n (s : IndexMap × Nat) => s.2 + E.inner n ≤ n ∧
        (∀ i j, s.1.get i = some j → i < n ∧ E.OnBoundary i ∧ D.OnBoundary j ∧ D.pts[j]? = E.pts[i]?) ∧
        ∀ i, i < n → E.OnBoundary i → s.1.get i = none → ∀ j, D.OnBoundary j → D.pts[j]? ≠ E.pts[i]?)
    (lo := 0) (hi := E.pts.length) (s := (([] : IndexMap), 0)) (Nat.zero_le _)
    ⟨by simp [MeshData.inner], fun i j h => by simp [IndexMap.get] at h, fun i h => absurd h (by omega)⟩ (by
      rintro n ⟨map, c⟩ - hn ⟨h1, h2, h3⟩
      simp only at h1 h2 h3
      have hm : n < E.markers.length := by omega
      have hmark : E.markers[n]? = some E.markers[n] := List.getElem?_eq_getElem hm
      have hpt : E.pts[n]? = some E.pts[n] := List.getElem?_eq_getElem hn
      rw [rd_ok hm, ok_bind]
      have hin := E.inner_succ n
      by_cases hz : E.markers[n] = 0
      · rw [if_neg (by simp [hz])]
        rw [hmark, hz, if_pos rfl] at hin
        refine ⟨_, rfl, by simp only; omega, fun i j h => ?_, fun i hi hb hg => ?_⟩
        · obtain ⟨a, b⟩ := h2 i j h
          exact ⟨by omega, b⟩
        · rcases Nat.lt_succ_iff_lt_or_eq.mp hi with h' | h'
          · exact h3 i h' hb hg
          · subst h'
            obtain ⟨m, hm1, hm2⟩ := hb
            rw [hmark, hz] at hm1; cases hm1; exact absurd rfl hm2
      · rw [if_pos hz, rd_ok hn, ok_bind]
        have hbd : E.OnBoundary n := ⟨_, hmark, hz⟩
        rw [hmark, if_neg (by simpa using hz)] at hin
        obtain ⟨r, er, hr1, hr2⟩ := findBoundary_ok hD E.pts[n] D.pts.length 0 (by omega)
        rw [er, ok_bind]
        cases r with
        | none =>
          refine ⟨_, rfl, by simp only; omega, fun i j h => ?_, fun i hi hb hg => ?_⟩
          · obtain ⟨a, b⟩ := h2 i j h
            exact ⟨by omega, b⟩
          · rcases Nat.lt_succ_iff_lt_or_eq.mp hi with h' | h'
            · exact h3 i h' hb hg
            · subst h'
              intro j hj
              rw [hpt]
              exact hr2 rfl j (Nat.zero_le _) hj
        | some j0 =>
          obtain ⟨b1, b2⟩ := hr1 j0 rfl
          refine ⟨_, rfl, by simp only; omega, fun i j h => ?_, fun i hi hb hg => ?_⟩
          · simp only [IndexMap.get_cons] at h
            split at h
            · rename_i hni
              subst hni
              cases h
              exact ⟨by omega, hbd, b1, b2.trans hpt.symm⟩
            · obtain ⟨a, b⟩ := h2 i j h
              exact ⟨by omega, b⟩
          · simp only [IndexMap.get_cons] at hg
            split at hg
            · cases hg
            · rename_i hni
              exact h3 i (by omega) hb hg)
  exact ⟨map, c, e, h1, fun i j h => (h2 i j h).2, fun i hb hg => by
    obtain ⟨m, hm1, hm2⟩ := hb
    have := (List.getElem?_eq_some_iff.mp hm1).1
    exact h3 i (by omega) ⟨m, hm1, hm2⟩ hg⟩

theorem appendInterior_ok {E : MeshData K} (hE : E.markers.length = E.pts.length) {cap : Nat}
    {pts : List (Vec K)} {map : IndexMap} (hcap : pts.length + E.inner E.pts.length ≤ cap)
    (hmap : ∀ i j, map.get i = some j → E.OnBoundary i) :
    ∃ l map', appendInterior E cap pts map = .ok (pts ++ l, map') ∧
      l.length = E.inner E.pts.length ∧
      (∀ i, E.OnBoundary i → map'.get i = map.get i) ∧
      (∀ i, E.Interior i → map'.get i = some (pts.length + E.inner i) ∧
        l[E.inner i]? = E.pts[i]?) ∧
      ∀ i, E.pts.length ≤ i → map'.get i = none := by
  unfold appendInterior
  obtain ⟨⟨q, map'⟩, e, ⟨l, hl, h0⟩, h1, h2, h3⟩ := forUp_inv
    (body := fun i (s : List (Vec K) × IndexMap) => do
      let m ← rd E.markers i
      if m = 0 then do
        let p ← rd E.pts i
        if cap ≤ s.1.length then .error .ub
        else .ok (s.1 ++ [p], (i, s.1.length) :: s.2)
      else .ok s) (fun n (s : List (Vec K) × IndexMap) =>
        (∃ l, s.1 = pts ++ l ∧ l.length = E.inner n ∧ ∀ i, i < n → E.Interior i →
          l[E.inner i]? = E.pts[i]?) ∧
        (∀ i, E.OnBoundary i → s.2.get i = map.get i) ∧
        (∀ i, i < n → E.Interior i → s.2.get i = some (pts.length + E.inner i)) ∧
        ∀ i, n ≤ i → ¬ E.OnBoundary i → s.2.get i = none)
    (lo := 0) (hi := E.pts.length) (s := (pts, map)) (Nat.zero_le _)
    ⟨⟨[], by simp, by simp [MeshData.inner], fun i h => absurd h (by omega)⟩, fun _ _ => rfl,
      fun i h => absurd h (by omega), fun i _ hi => by
        cases h : map.get i with
        | none => rfl
        | some j => exact absurd (hmap i j h) hi⟩ (by
      rintro n ⟨q, m'⟩ - hn ⟨⟨l, hl, hln, h0⟩, h1, h2, h3⟩
      simp only at hl h1 h2 h3
      subst hl
      have hm : n < E.markers.length := by omega
      have hmark : E.markers[n]? = some E.markers[n] := List.getElem?_eq_getElem hm
      have hpt : E.pts[n]? = some E.pts[n] := List.getElem?_eq_getElem hn
      rw [rd_ok hm, ok_bind]
      have hin := E.inner_succ n
      by_cases hz : E.markers[n] = 0
      · rw [if_pos hz, rd_ok hn, ok_bind]
        have hint : E.Interior n := by unfold MeshData.Interior; rw [hmark, hz]
        rw [hmark, hz, if_pos rfl] at hin
        have hlt := E.inner_lt hn hint
        have hlen : (pts ++ l).length = pts.length + E.inner n := by rw [List.length_append, hln]
        simp only
        rw [if_neg (by omega), hlen]
        refine ⟨_, rfl, ⟨l ++ [E.pts[n]], by simp, by simp [hln, hin], fun i hi hi' => ?_⟩,
          fun i hb => ?_, fun i hi hi' => ?_, fun i hi hb => ?_⟩
        · rcases Nat.lt_succ_iff_lt_or_eq.mp hi with h' | h'
          · have := E.inner_lt h' hi'
            rw [List.getElem?_append_left (by omega)]
            exact h0 i h' hi'
          · subst h'
            rw [← hln, hpt]; simp
        · simp only [IndexMap.get_cons]
          rw [if_neg, h1 i hb]
          rintro rfl
          obtain ⟨m, hm1, hm2⟩ := hb
          rw [hmark, hz] at hm1; cases hm1; exact hm2 rfl
        · simp only [IndexMap.get_cons]
          split
          · rename_i h'; subst h'; rfl
          · exact h2 i (by omega) hi'
        · simp only [IndexMap.get_cons]
          rw [if_neg (by omega)]
          exact h3 i (by omega) hb
      · rw [if_neg hz]
        rw [hmark, if_neg (by simpa using hz)] at hin
        have hni : ¬ E.Interior n := by
          unfold MeshData.Interior; rw [hmark]; simpa using hz
        refine ⟨_, rfl, ⟨l, rfl, by omega, fun i hi hi' => ?_⟩, h1, fun i hi hi' => ?_,
          fun i hi hb => h3 i (by omega) hb⟩
        · rcases Nat.lt_succ_iff_lt_or_eq.mp hi with h' | h'
          · exact h0 i h' hi'
          · subst h'; exact absurd hi' hni
        · rcases Nat.lt_succ_iff_lt_or_eq.mp hi with h' | h'
          · exact h2 i h' hi'
          · subst h'; exact absurd hi' hni)
  simp only at hl h1 h2 h3
  refine ⟨l, map', by rw [e, hl], h0.1, h1, fun i hi => ?_, fun i hi => ?_⟩
  · have : i < E.pts.length := by
      unfold MeshData.Interior at hi
      have := (List.getElem?_eq_some_iff.mp hi).1
      omega
    exact ⟨h2 i this hi, h0.2 i this hi⟩
  · refine h3 i hi (fun ⟨m, hm1, _⟩ => ?_)
    have := (List.getElem?_eq_some_iff.mp hm1).1
    omega

theorem appendTriangles_ok (E : MeshData K) (map : IndexMap) (id : Nat) (junk : Nat → Nat → Nat)
    (D : MeshData K) : ∃ l, appendTriangles E map id junk D =
      .ok { D with tris := D.tris ++ l, attrs := D.attrs ++ List.replicate E.tris.length id } ∧
      l.length = E.tris.length ∧ ∀ (i : Nat) e, E.tris[i]? = some e →
        l[i]? = some ⟨mapVertex map (junk i 0) e.v0, mapVertex map (junk i 1) e.v1,
            mapVertex map (junk i 2) e.v2⟩ := by
  unfold appendTriangles
  obtain ⟨s, e, l, h1, h2, h3⟩ := forUp_inv (body := fun i (D : MeshData K) => do
      let e ← rd E.tris i
      .ok { D with
            tris := D.tris ++ [⟨mapVertex map (junk i 0) e.v0, mapVertex map (junk i 1) e.v1,
              mapVertex map (junk i 2) e.v2⟩]
            attrs := D.attrs ++ [id] }) (fun n (s : MeshData K) => ∃ l,
        s = { D with tris := D.tris ++ l, attrs := D.attrs ++ List.replicate n id } ∧ l.length = n ∧
        ∀ (i : Nat) e, i < n → E.tris[i]? = some e →
          l[i]? = some ⟨mapVertex map (junk i 0) e.v0, mapVertex map (junk i 1) e.v1,
            mapVertex map (junk i 2) e.v2⟩) (lo := 0) (hi := E.tris.length) (s := D) (Nat.zero_le _)
    ⟨[], by simp, rfl, fun i _ h => absurd h (by omega)⟩ (by
      rintro n s - hn ⟨l, rfl, hl, hv⟩
      rw [rd_ok hn, ok_bind]
      refine ⟨_, rfl, l ++ [⟨mapVertex map (junk n 0) E.tris[n].v0,
        mapVertex map (junk n 1) E.tris[n].v1, mapVertex map (junk n 2) E.tris[n].v2⟩], ?_,
        by simp [hl], ?_⟩
      rotate_left
      · intro i e hi he
        rcases Nat.lt_succ_iff_lt_or_eq.mp hi with h' | h'
        · rw [List.getElem?_append_left (by omega)]
          exact hv i e h' he
        · subst h'
          rw [List.getElem?_eq_getElem hn] at he
          cases he
          rw [List.getElem?_append_right (by omega), hl]
          simp
      · simp [List.replicate_succ'])
  exact ⟨l, by rw [e, h1], h2, fun i e' he => h3 i e' (List.getElem?_eq_some_iff.mp he).1 he⟩

end Nikfemm
