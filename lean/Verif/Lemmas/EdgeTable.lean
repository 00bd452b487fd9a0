import Verif.Spec.Force
import Verif.Lemmas.Fem

set_option linter.unusedSectionVars false

namespace Nikfemm
open Spec

/-- Triangles recorded for a key by the given incidences. -/
def recorded (l : List (Nat × Nat)) (k : Nat) : List Nat := (l.filter (fun x => x.1 = k)).map Prod.snd

/-- The table holds what was recorded. -/
def TabInv (l : List (Nat × Nat)) (tab : List (Nat × List Nat)) : Prop :=
  ∀ k, findKey tab k = if recorded l k = [] then none else some (recorded l k)

theorem recorded_append (l l' : List (Nat × Nat)) (k : Nat) :
    recorded (l ++ l') k = recorded l k ++ recorded l' k := by
  simp [recorded]

theorem recorded_single (k i k' : Nat) : recorded [(k, i)] k' = if k = k' then [i] else [] := by
  unfold recorded
  by_cases h : k = k' <;> simp [h]

theorem edgePush_spec {l : List (Nat × Nat)} {tab : List (Nat × List Nat)} (h : TabInv l tab)
    (key i : Nat) :
    if (recorded l key).length < 2 then
      ∃ tab', edgePush key i tab = .ok tab' ∧ TabInv (l ++ [(key, i)]) tab'
    else edgePush key i tab = .error .ub := by
  unfold edgePush
  by_cases h0 : recorded l key = []
  · have hk : findKey tab key = none := by rw [h key, if_pos h0]
    rw [hk, h0]
    simp only [List.length_nil, Nat.zero_lt_two, if_true]
    refine ⟨_, rfl, fun k => ?_⟩
    rw [findKey_append, h k, recorded_append, recorded_single]
    by_cases hkk : key = k
    · subst hkk
      simp [h0, findKey]
    · by_cases hr : recorded l k = [] <;> simp [hkk, hr, findKey]
  · have hk : findKey tab key = some (recorded l key) := by rw [h key, if_neg h0]
    rw [hk]
    simp only
    split
    · refine ⟨_, rfl, fun k => ?_⟩
      rw [findKey_updKey, h k, recorded_append, recorded_single]
      by_cases hkk : key = k
      · subst hkk
        simp [h0]
      · have : ¬ k = key := fun h => hkk h.symm
        simp [hkk, this]
    · rfl

open Classical in
/-- Pushing a list of incidences, as long as no key gets more than two. -/
theorem edgePushes_spec : ∀ (new : List (Nat × Nat)) {l : List (Nat × Nat)}
    {tab : List (Nat × List Nat)}, TabInv l tab →
    (∀ k, (recorded l k).length ≤ 2) →
    if ∀ k, (recorded (l ++ new) k).length ≤ 2 then
      ∃ tab', forEach (fun (x : Nat × Nat) tab => edgePush x.1 x.2 tab) new tab = .ok tab' ∧
        TabInv (l ++ new) tab'
    else forEach (fun (x : Nat × Nat) tab => edgePush x.1 x.2 tab) new tab = .error .ub
  | [], l, tab, h, hl => by
    simp only [List.append_nil, hl, implies_true, if_true]
    exact ⟨tab, rfl, h⟩
  | x :: new, l, tab, h, hl => by
    have := edgePush_spec h x.1 x.2
    by_cases hx : (recorded l x.1).length < 2
    · rw [if_pos hx] at this
      obtain ⟨tab1, e1, h1⟩ := this
      have hl1 : ∀ k, (recorded (l ++ [(x.1, x.2)]) k).length ≤ 2 := by
        intro k
        rw [recorded_append, recorded_single, List.length_append]
        by_cases hk : x.1 = k
        · subst hk; simp; omega
        · simp [hk, hl k]
      have ih := edgePushes_spec new h1 hl1
      simp only [forEach, e1]
      have hap : l ++ [(x.1, x.2)] ++ new = l ++ x :: new := by simp
      rw [hap] at ih
      exact ih
    · rw [if_neg hx] at this
      have hno : ¬ ∀ k, (recorded (l ++ x :: new) k).length ≤ 2 := by
        intro hc
        have h1 := hc x.1
        have h2 : recorded (x :: new) x.1 = x.2 :: recorded new x.1 := by simp [recorded]
        rw [recorded_append, h2, List.length_append, List.length_cons] at h1
        omega
      rw [if_neg hno]
      simp only [forEach, this]

/-- The incidences of a list of triangles, numbered from `n`. -/
def sideIncs (n : Nat) (tris : List Elem) : List (Nat × Nat) :=
  (tris.zipIdx n).flatMap (fun x => x.1.sides.map (fun s => (edgeKey s.1 s.2, x.2)))

theorem forEach_append' {α σ : Type} (body : α → σ → Res σ) (l l' : List α) (s : σ) :
    forEach body (l ++ l') s = (forEach body l s >>= forEach body l') := by
  induction l generalizing s with
  | nil => rfl
  | cons a l ih =>
    simp only [List.cons_append, forEach]
    cases body a s with
    | ok s' => exact ih s'
    | error e => rfl

theorem bind_assoc_res {α β γ : Type} (x : Res α) (f : α → Res β) (g : β → Res γ) :
    (x >>= f) >>= g = x >>= fun a => f a >>= g := by
  cases x <;> rfl

theorem bind_ok_res {α : Type} (x : Res α) : (x >>= fun a => (.ok a : Res α)) = x := by
  cases x <;> rfl

/-- The table loop pushes all incidences in order. -/
theorem edgeTable_eq (tris : List Elem) :
    edgeTable tris = forEach (fun (x : Nat × Nat) tab => edgePush x.1 x.2 tab) (sideIncs 0 tris) [] := by
  have main : ∀ (post pre : List Elem) (tab : List (Nat × List Nat)), tris = pre ++ post →
      loopN (fun i tab => do
        let e ← rd tris i
        let tab ← edgePush (edgeKey e.v0 e.v1) i tab
        let tab ← edgePush (edgeKey e.v1 e.v2) i tab
        edgePush (edgeKey e.v2 e.v0) i tab) post.length pre.length tab =
      forEach (fun (x : Nat × Nat) tab => edgePush x.1 x.2 tab) (sideIncs pre.length post) tab := by
    intro post
    induction post with
    | nil => intro pre tab _; rfl
    | cons e post ih =>
      intro pre tab h
      have hrd : rd tris pre.length = .ok e := by
        rw [rd_eq_ok_iff, h]; simp
      have hs : sideIncs pre.length (e :: post) = (e.sides.map (fun s => (edgeKey s.1 s.2, pre.length))) ++
          sideIncs (pre.length + 1) post := by
        simp [sideIncs, List.zipIdx_cons]
      rw [hs, forEach_append']
      simp only [List.length_cons, loopN, hrd, ok_bind, Elem.sides, List.map_cons, List.map_nil,
        forEach]
      have ih' := fun tab => ih (pre ++ [e]) tab (by rw [h]; simp)
      simp only [List.length_append, List.length_cons, List.length_nil, Nat.zero_add] at ih'
      cases h1 : edgePush (edgeKey e.v0 e.v1) pre.length tab with
      | error x => rfl
      | ok t1 =>
        simp only [ok_bind]
        cases h2 : edgePush (edgeKey e.v1 e.v2) pre.length t1 with
        | error x => rfl
        | ok t2 =>
          simp only [ok_bind]
          cases h3 : edgePush (edgeKey e.v2 e.v0) pre.length t2 with
          | error x => rfl
          | ok t3 => exact ih' t3
  have := main tris [] [] rfl
  exact this

open Classical in
theorem edgeTable_spec (tris : List Elem) :
    if ∀ k, (recorded (sideIncs 0 tris) k).length ≤ 2 then
      ∃ tab, edgeTable tris = .ok tab ∧ TabInv (sideIncs 0 tris) tab
    else edgeTable tris = .error .ub := by
  rw [edgeTable_eq]
  have := edgePushes_spec (sideIncs 0 tris) (l := []) (tab := [])
    (fun k => by simp [findKey, recorded]) (fun k => by simp [recorded])
  simpa using this

theorem edgeKey_eq_iff {a b c d : Nat} (ha : a < 2 ^ 32) (hb : b < 2 ^ 32) (hc : c < 2 ^ 32)
    (hd : d < 2 ^ 32) : edgeKey a b = edgeKey c d ↔ SameEdge (c, d) (a, b) := by
  unfold edgeKey SameEdge
  simp only
  split <;> split <;> rw [packKey_inj (by assumption) (by assumption) (by assumption) (by assumption)] <;>
    omega

theorem sides_filter {e : Elem} (hn : e.verts.Nodup) (h32 : ∀ v ∈ e.verts, v < 2 ^ 32) {a b : Nat}
    (ha : a < 2 ^ 32) (hb : b < 2 ^ 32) (t : Nat) :
    (e.sides.filter (fun s => edgeKey s.1 s.2 = edgeKey a b)).map (fun _ => t) =
      if e.HasEdge a b then [t] else [] := by
  obtain ⟨v0, v1, v2⟩ := e
  simp only [Elem.verts, List.nodup_cons, List.mem_cons, List.not_mem_nil, or_false, not_or,
    List.nodup_nil, and_true, not_false_eq_true, forall_eq_or_imp, forall_eq] at hn h32
  obtain ⟨⟨n1, n2⟩, n3⟩ := hn
  obtain ⟨h0, h1, h2⟩ := h32
  have d1 := edgeKey_eq_iff h0 h1 ha hb
  have d2 := edgeKey_eq_iff h1 h2 ha hb
  have d3 := edgeKey_eq_iff h2 h0 ha hb
  have hh : (Elem.mk v0 v1 v2).HasEdge a b ↔
      SameEdge (a, b) (v0, v1) ∨ SameEdge (a, b) (v1, v2) ∨ SameEdge (a, b) (v2, v0) := by
    simp [Elem.HasEdge, Elem.sides]
  rw [← d1, ← d2, ← d3] at hh
  have e12 : ¬ (edgeKey v0 v1 = edgeKey a b ∧ edgeKey v1 v2 = edgeKey a b) := by
    rw [d1, d2]; unfold SameEdge; simp only; omega
  have e13 : ¬ (edgeKey v0 v1 = edgeKey a b ∧ edgeKey v2 v0 = edgeKey a b) := by
    rw [d1, d3]; unfold SameEdge; simp only; omega
  have e23 : ¬ (edgeKey v1 v2 = edgeKey a b ∧ edgeKey v2 v0 = edgeKey a b) := by
    rw [d2, d3]; unfold SameEdge; simp only; omega
  clear d1 d2 d3 h0 h1 h2 ha hb n1 n2 n3
  unfold Elem.sides
  simp only
  simp only [List.filter_cons, List.filter_nil]
  by_cases c1 : edgeKey v0 v1 = edgeKey a b <;> by_cases c2 : edgeKey v1 v2 = edgeKey a b <;>
    by_cases c3 : edgeKey v2 v0 = edgeKey a b <;> simp_all

theorem recorded_sides : ∀ (tris : List Elem) (n : Nat), (∀ e ∈ tris, e.verts.Nodup) →
    (∀ e ∈ tris, ∀ v ∈ e.verts, v < 2 ^ 32) → ∀ {a b : Nat}, a < 2 ^ 32 → b < 2 ^ 32 →
    recorded (sideIncs n tris) (edgeKey a b) =
      ((tris.zipIdx n).filter (fun x => x.1.HasEdge a b)).map Prod.snd
  | [], n, _, _, a, b, _, _ => rfl
  | e :: tris, n, hn, h32, a, b, ha, hb => by
    have ih := recorded_sides tris (n + 1) (fun e he => hn e (by simp [he]))
      (fun e he => h32 e (by simp [he])) ha hb
    have hs : sideIncs n (e :: tris) = (e.sides.map (fun s => (edgeKey s.1 s.2, n))) ++
        sideIncs (n + 1) tris := by
      simp [sideIncs, List.zipIdx_cons]
    have h1 : recorded (e.sides.map (fun s => (edgeKey s.1 s.2, n))) (edgeKey a b) =
        if e.HasEdge a b then [n] else [] := by
      rw [← sides_filter (hn e (by simp)) (h32 e (by simp)) ha hb n]
      unfold recorded
      rw [List.filter_map, List.map_map]
      rfl
    rw [hs, recorded_append, h1, ih, List.zipIdx_cons]
    by_cases hh : e.HasEdge a b <;> simp [hh]

theorem recorded_nil {tris : List Elem} {n k : Nat} (h : recorded (sideIncs n tris) k ≠ []) :
    ∃ e ∈ tris, ∃ s ∈ e.sides, k = edgeKey s.1 s.2 := by
  obtain ⟨t, ht⟩ := List.exists_mem_of_ne_nil _ h
  unfold recorded at ht
  obtain ⟨x, hx, -⟩ := List.mem_map.mp ht
  obtain ⟨hx, hk⟩ := List.mem_filter.mp hx
  unfold sideIncs at hx
  obtain ⟨y, hy, hx⟩ := List.mem_flatMap.mp hx
  obtain ⟨s, hs, rfl⟩ := List.mem_map.mp hx
  exact ⟨y.1, List.fst_mem_of_mem_zipIdx hy, s, hs, by simpa using Eq.symm (of_decide_eq_true hk)⟩

end Nikfemm
