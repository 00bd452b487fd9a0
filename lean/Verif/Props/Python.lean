import Verif.Spec.Python
import Verif.Props.Multilayer

/-!
# C56, C57: the Python module
-/

set_option linter.unusedSectionVars false

namespace Nikfemm
open Spec

variable {K : Type} [Field K] [LinearOrder K]

/-! ## Reading arguments -/

theorem isLong_iff (v : PyVal K) : v.isLong = true ↔ v.Is .int := by
  cases v <;> simp [PyVal.isLong, PyVal.Is]

theorem asDouble_none (v : PyVal K) : v.asDouble = none ↔ ¬ v.Is .number := by
  cases v <;> simp [PyVal.asDouble, PyVal.Is]

theorem asDouble_number {v : PyVal K} {x : K} (h : v.Number x) : v.asDouble = some (x, false) := by
  cases h with
  | float => rfl
  | int n h =>
    show some (longAsDouble n) = _
    unfold longAsDouble
    rw [if_pos h]
  | false => rfl
  | true => rfl

theorem asULong_unsigned {v : PyVal K} {n : Nat} (h : v.Unsigned n) :
    v.isLong = true ∧ v.asULong = (n, false) := by
  cases h with
  | int n h =>
    refine ⟨rfl, ?_⟩
    simp only [PyVal.asULong]
    rw [if_pos ⟨by omega, by exact_mod_cast h⟩]
    rfl
  | false => exact ⟨rfl, rfl⟩
  | true => exact ⟨rfl, rfl⟩

theorem asULong_outOfRange {v : PyVal K} (h : v.OutOfRange) :
    v.isLong = true ∧ v.asULong = (2 ^ 64 - 1, true) := by
  obtain ⟨n, rfl, h⟩ := h
  refine ⟨rfl, ?_⟩
  simp only [PyVal.asULong]
  rw [if_neg (by omega)]

theorem readPoint_position {l : List (PyVal K)} {p : Vec K} (h : IsPosition l p) :
    readPoint l = .ok (p, false) := by
  obtain ⟨a, b, rest, rfl, ha, hb⟩ := h
  simp only [readPoint, readCoord, List.getElem?_cons_zero, List.getElem?_cons_succ,
    asDouble_number ha, asDouble_number hb]
  rfl

theorem readPoint_numeric {l : List (PyVal K)} (h : NumericPair l) : ∃ r, readPoint l = .ok r := by
  obtain ⟨a, b, rest, rfl, ha, hb⟩ := h
  have ha' : a.asDouble ≠ none := fun h => (asDouble_none a).mp h ha
  have hb' : b.asDouble ≠ none := fun h => (asDouble_none b).mp h hb
  obtain ⟨x, hx⟩ := Option.ne_none_iff_exists'.mp ha'
  obtain ⟨y, hy⟩ := Option.ne_none_iff_exists'.mp hb'
  simp only [readPoint, readCoord, List.getElem?_cons_zero, List.getElem?_cons_succ, hx, hy]
  exact ⟨_, rfl⟩

theorem readPoint_wrong {l : List (PyVal K)} (h : WrongPair l) : readPoint l = .error .raise := by
  obtain ⟨a, rest, rfl, ha | ⟨ha, b, rest', rfl, hb⟩⟩ := h
  · simp only [readPoint, readCoord, List.getElem?_cons_zero, (asDouble_none a).mpr ha]
    rfl
  · have ha' : a.asDouble ≠ none := fun h => (asDouble_none a).mp h ha
    obtain ⟨x, hx⟩ := Option.ne_none_iff_exists'.mp ha'
    simp only [readPoint, readCoord, List.getElem?_cons_zero, List.getElem?_cons_succ, hx,
      (asDouble_none b).mpr hb]
    rfl

theorem readPoint_short {l : List (PyVal K)} (h : ShortPair l) : readPoint l = .error .crash := by
  obtain rfl | ⟨a, rfl, ha⟩ := h
  · rfl
  · have ha' : a.asDouble ≠ none := fun h => (asDouble_none a).mp h ha
    obtain ⟨x, hx⟩ := Option.ne_none_iff_exists'.mp ha'
    simp only [readPoint, readCoord, List.getElem?_cons_zero, List.getElem?_cons_succ, hx]
    rfl

/-- Every list is a pair of numbers, wrong or short. -/
theorem pair_cases (l : List (PyVal K)) : NumericPair l ∨ WrongPair l ∨ ShortPair l := by
  rcases l with _ | ⟨a, _ | ⟨b, rest⟩⟩
  · exact Or.inr (Or.inr (Or.inl rfl))
  · by_cases ha : a.Is .number
    · exact Or.inr (Or.inr (Or.inr ⟨a, rfl, ha⟩))
    · exact Or.inr (Or.inl ⟨a, _, rfl, Or.inl ha⟩)
  · by_cases ha : a.Is .number
    · by_cases hb : b.Is .number
      · exact Or.inl ⟨a, b, rest, rfl, ha, hb⟩
      · exact Or.inr (Or.inl ⟨a, _, rfl, Or.inr ⟨ha, b, rest, rfl, hb⟩⟩)
    · exact Or.inr (Or.inl ⟨a, _, rfl, Or.inl ha⟩)

theorem longAsDouble_pending {n : Int} {x : K} (h : longAsDouble n = (x, true)) :
    2 ^ 1024 - 2 ^ 970 ≤ n.natAbs := by
  unfold longAsDouble at h
  split at h
  · simp at h
  · omega

theorem asDouble_pending {v : PyVal K} {x : K} (h : v.asDouble = some (x, true)) : v.HasHuge := by
  cases v with
  | int n => exact .int n (longAsDouble_pending (Option.some.inj h))
  | float y => simp [PyVal.asDouble] at h
  | bool b => simp [PyVal.asDouble] at h
  | _ => simp [PyVal.asDouble] at h

theorem readCoord_pending {l : List (PyVal K)} {i : Nat} {x : K} (h : readCoord l i = .ok (x, true)) :
    (PyVal.list l).HasHuge := by
  unfold readCoord at h
  cases hv : l[i]? with
  | none => rw [hv] at h; cases h
  | some v =>
    rw [hv] at h
    simp only at h
    cases hd : v.asDouble with
    | none => rw [hd] at h; cases h
    | some r =>
      rw [hd] at h
      cases h
      exact .list l v (List.mem_of_getElem? hv) (asDouble_pending hd)

theorem readPoint_pending {l : List (PyVal K)} {p : Vec K} (h : readPoint l = .ok (p, true)) :
    (PyVal.list l).HasHuge := by
  unfold readPoint at h
  cases hx : readCoord l 0 with
  | error f => rw [hx] at h; cases h
  | ok x =>
    cases hy : readCoord l 1 with
    | error f => rw [hx, hy] at h; cases h
    | ok y =>
      rw [hx, hy] at h
      obtain ⟨x, ex⟩ := x
      obtain ⟨y, ey⟩ := y
      cases ex
      · cases ey
        · cases h
        · exact readCoord_pending hy
      · exact readCoord_pending hx

theorem readPoints_pending : ∀ {ps : List (PyVal K)} {Q : List (Vec K)}, readPoints ps = .ok (Q, true) →
    (PyVal.list ps).HasHuge
  | [], Q, h => by cases h
  | .list l :: rest, Q, h => by
    unfold readPoints at h
    split at h
    · cases h
    · cases hp : readPoint l with
      | error f => rw [hp] at h; cases h
      | ok p =>
        cases hr : readPoints rest with
        | error f => rw [hp, hr] at h; cases h
        | ok r =>
          rw [hp, hr] at h
          obtain ⟨p, ep⟩ := p
          obtain ⟨r, er⟩ := r
          cases ep
          · cases er
            · cases h
            · cases readPoints_pending hr with
              | list _ v hv hh => exact .list _ v (List.mem_cons_of_mem _ hv) hh
          · exact .list _ _ (List.mem_cons_self) (readPoint_pending hp)
  | .float _ :: _, _, h => by simp [readPoints] at h
  | .int _ :: _, _, h => by simp [readPoints] at h
  | .bool _ :: _, _, h => by simp [readPoints] at h
  | .system _ :: _, _, h => by simp [readPoints] at h
  | .other :: _, _, h => by simp [readPoints] at h

/-! ## C57 -/

/-- **C57.** A call with a wrong number or wrong kinds of arguments raises an exception and changes
nothing. -/
theorem signature_checked (m : PyMethod) (args : List (PyVal K)) (st : PyState K)
    (h : ¬ List.Forall₂ PyVal.Is m.signature args) : m.call args st = .raised st := by
  cases m <;> simp only [PyMethod.call, PyMethod.signature] at h ⊢
  · unfold pyDrawRectangle
    split
    · rename_i p q l
      split
      · rfl
      · rename_i hl
        exact absurd (.cons ⟨p, rfl⟩ (.cons ⟨q, rfl⟩ (.cons ((isLong_iff l).mp (by simpa using hl)) .nil))) h
    · rfl
  · unfold pyDrawRegion
    split
    · rename_i p x l
      split
      · rfl
      · rename_i hl
        exact absurd (.cons ⟨p, rfl⟩ (.cons ⟨x, rfl⟩ (.cons ((isLong_iff l).mp (by simpa using hl)) .nil))) h
    · rfl
  · unfold pyDrawPolygon
    split
    · rename_i p l
      split
      · rfl
      · rename_i hl
        exact absurd (.cons ⟨p, rfl⟩ (.cons ((isLong_iff l).mp (by simpa using hl)) .nil)) h
    · rfl
  · unfold pyAddInterconnection
    split
    · rename_i p q l1 l2 R
      split
      · rfl
      · rename_i h1
        split
        · rfl
        · rename_i h2
          cases hR : R.asDouble with
          | none => rfl
          | some r =>
            have hR' : R.Is .number := by
              by_contra hc
              rw [(asDouble_none R).mpr hc] at hR
              cases hR
            exact absurd (.cons ⟨p, rfl⟩ (.cons ⟨q, rfl⟩ (.cons ((isLong_iff l1).mp (by simpa using h1))
              (.cons ((isLong_iff l2).mp (by simpa using h2)) (.cons hR' .nil))))) h
    · rfl
  · unfold pySetVoltage
    split
    · rename_i r p V l
      cases hV : V.asDouble with
      | none => rfl
      | some v =>
        simp only
        split
        · rfl
        · rename_i hl
          have hV' : V.Is .number := by
            by_contra hc
            rw [(asDouble_none V).mpr hc] at hV
            cases hV
          exact absurd (.cons ⟨r, rfl⟩ (.cons ⟨p, rfl⟩ (.cons hV'
            (.cons ((isLong_iff l).mp (by simpa using hl)) .nil)))) h
    · rfl

/-- What the methods that read positions do with the first position that is not a pair of numbers. -/
theorem position_failure (m : PyMethod) (hm : m ≠ .drawPolygon) {args : List (PyVal K)} (st : PyState K)
    (hs : List.Forall₂ PyVal.Is m.signature args) {pre post : List (List (PyVal K))} {l : List (PyVal K)}
    (hl : listArgs args = pre ++ l :: post) (hpre : ∀ p ∈ pre, NumericPair p) {f : PyFail}
    (hf : readPoint l = .error f) : m.call args st = f.out st := by
  cases m <;> simp only [PyMethod.call, PyMethod.signature] at hs ⊢
  · obtain _ | ⟨⟨p, rfl⟩, _ | ⟨⟨q, rfl⟩, _ | ⟨h3, _ | _⟩⟩⟩ := hs
    rename_i L
    have hL : ∀ (b : Bool), L.isLong = b → b = true := fun b hb => hb ▸ (isLong_iff L).mpr h3
    have hq : listArgs [.list p, .list q, L] = [p, q] := by
      rcases h3 with ⟨n, rfl⟩ | ⟨b, rfl⟩ <;> rfl
    rw [hq] at hl
    unfold pyDrawRectangle
    simp only [(isLong_iff L).mpr h3, Bool.true_eq_false, if_false]
    rcases pre with _ | ⟨a, _ | ⟨b, pre⟩⟩
    · cases hl
      rw [hf]
    · cases hl
      obtain ⟨r, hr⟩ := readPoint_numeric (hpre p (by simp))
      rw [hr]
      simp only [hf]
    · simp at hl
  · obtain _ | ⟨⟨p, rfl⟩, _ | ⟨⟨q, rfl⟩, _ | ⟨h3, _ | _⟩⟩⟩ := hs
    rename_i L
    have hq : listArgs [.list p, .float q, L] = [p] := by
      rcases h3 with ⟨n, rfl⟩ | ⟨b, rfl⟩ <;> rfl
    rw [hq] at hl
    unfold pyDrawRegion
    simp only [(isLong_iff L).mpr h3, Bool.true_eq_false, if_false]
    rcases pre with _ | ⟨a, pre⟩
    · cases hl
      rw [hf]
    · simp at hl
  · exact absurd rfl hm
  · obtain _ | ⟨⟨p, rfl⟩, _ | ⟨⟨q, rfl⟩, _ | ⟨h3, _ | ⟨h4, _ | ⟨h5, _ | _⟩⟩⟩⟩⟩ := hs
    rename_i L1 L2 R
    have hq : listArgs [.list p, .list q, L1, L2, R] = [p, q] := by
      rcases h3 with ⟨n, rfl⟩ | ⟨b, rfl⟩ <;> rcases h4 with ⟨n, rfl⟩ | ⟨b, rfl⟩ <;>
        rcases h5 with ⟨n, rfl⟩ | ⟨n, rfl⟩ | ⟨b, rfl⟩ <;> rfl
    rw [hq] at hl
    have hR : R.asDouble ≠ none := fun h => (asDouble_none R).mp h h5
    obtain ⟨x, hx⟩ := Option.ne_none_iff_exists'.mp hR
    unfold pyAddInterconnection
    simp only [(isLong_iff L1).mpr h3, (isLong_iff L2).mpr h4, Bool.true_eq_false, if_false, hx]
    rcases pre with _ | ⟨a, _ | ⟨b, pre⟩⟩
    · cases hl
      rw [hf]
    · cases hl
      obtain ⟨r, hr⟩ := readPoint_numeric (hpre p (by simp))
      rw [hr]
      simp only [hf]
    · simp at hl
  · obtain _ | ⟨⟨r, rfl⟩, _ | ⟨⟨p, rfl⟩, _ | ⟨h3, _ | ⟨h4, _ | _⟩⟩⟩⟩ := hs
    rename_i V L
    have hq : listArgs [.system r, .list p, V, L] = [p] := by
      rcases h3 with ⟨n, rfl⟩ | ⟨n, rfl⟩ | ⟨b, rfl⟩ <;> rcases h4 with ⟨n, rfl⟩ | ⟨b, rfl⟩ <;> rfl
    rw [hq] at hl
    have hV : V.asDouble ≠ none := fun h => (asDouble_none V).mp h h3
    obtain ⟨x, hx⟩ := Option.ne_none_iff_exists'.mp hV
    unfold pySetVoltage
    simp only [(isLong_iff L).mpr h4, Bool.true_eq_false, if_false, hx]
    rcases pre with _ | ⟨a, pre⟩
    · cases hl
      rw [hf]
    · simp at hl

/-- **C57.** If the first unusable position has an item that is not a number among its first two, the
call raises an exception and changes nothing; if it has fewer than two items, the call crashes. -/
theorem position_checked (m : PyMethod) (hm : m ≠ .drawPolygon) {args : List (PyVal K)} (st : PyState K)
    (hs : List.Forall₂ PyVal.Is m.signature args) {pre post : List (List (PyVal K))} {l : List (PyVal K)}
    (hl : listArgs args = pre ++ l :: post) (hpre : ∀ p ∈ pre, NumericPair p) :
    (WrongPair l → m.call args st = .raised st) ∧ (ShortPair l → m.call args st = .crash) :=
  ⟨fun h => position_failure m hm st hs hl hpre (readPoint_wrong h),
    fun h => position_failure m hm st hs hl hpre (readPoint_short h)⟩

theorem readPoints_cases (ps : List (PyVal K)) :
    ((∀ v ∈ ps, ∃ a b, v = .list [a, b] ∧ a.Is .number ∧ b.Is .number) → ∃ r, readPoints ps = .ok r) ∧
      ((¬ ∀ v ∈ ps, ∃ a b, v = .list [a, b] ∧ a.Is .number ∧ b.Is .number) → readPoints ps = .error .raise) := by
  induction ps with
  | nil => exact ⟨fun _ => ⟨_, rfl⟩, fun h => absurd (by simp) h⟩
  | cons v rest ih =>
    obtain ⟨ih1, ih2⟩ := ih
    constructor
    · intro h
      obtain ⟨a, b, rfl, ha, hb⟩ := h v (by simp)
      obtain ⟨r, hr⟩ := ih1 (fun w hw => h w (List.mem_cons_of_mem _ hw))
      obtain ⟨p, hp⟩ := readPoint_numeric ⟨a, b, [], rfl, ha, hb⟩
      refine ⟨(p.1 :: r.1, p.2 || r.2), ?_⟩
      rw [readPoints, if_neg (by simp), hp, hr]
      rfl
    · intro h
      cases v with
      | list l =>
        rw [readPoints]
        split
        · rfl
        · rename_i hl
          obtain ⟨a, b, rfl⟩ := List.length_eq_two.mp (by simpa using hl)
          by_cases ha : a.Is .number
          · by_cases hb : b.Is .number
            · obtain ⟨p, hp⟩ := readPoint_numeric ⟨a, b, [], rfl, ha, hb⟩
              rw [hp, ih2]
              · rfl
              · intro hc
                refine h (fun w hw => ?_)
                rcases List.mem_cons.mp hw with rfl | hw
                · exact ⟨a, b, rfl, ha, hb⟩
                · exact hc w hw
            · rw [readPoint_wrong ⟨a, _, rfl, Or.inr ⟨ha, b, _, rfl, hb⟩⟩]; rfl
          · rw [readPoint_wrong ⟨a, _, rfl, Or.inl ha⟩]; rfl
      | _ => rfl

/-- **C57.** `draw_polygon` raises an exception and changes nothing unless every item of its list is a
list of exactly two numbers. -/
theorem polygon_checked (ps : List (PyVal K)) (l : PyVal K) (st : PyState K)
    (h : ¬ ∀ v ∈ ps, ∃ a b, v = .list [a, b] ∧ a.Is .number ∧ b.Is .number) :
    PyMethod.drawPolygon.call [.list ps, l] st = .raised st := by
  simp only [PyMethod.call, pyDrawPolygon]
  rw [(readPoints_cases ps).2 h]
  split <;> rfl

theorem readPoints_positions {ps : List (PyVal K)} {Q : List (Vec K)}
    (h : List.Forall₂ (fun v p => ∃ l, v = .list l ∧ l.length = 2 ∧ IsPosition l p) ps Q) :
    readPoints ps = .ok (Q, false) := by
  induction h with
  | nil => rfl
  | cons h _ ih =>
    obtain ⟨l, rfl, hl, hp⟩ := h
    rw [readPoints, if_neg (by omega), readPoint_position hp, ih]
    rfl

/-- The result of drawing on layer `n`: nothing is checked about the layer, and an exception thrown by
the drawing ends the process. -/
structure LayerDrawn (st : PyState K) (n : Nat) (op : Drawing K K → Drawing K K × Option Fault)
    (out : PyOut (PyState K)) : Prop where
  missing : st.meshes.length ≤ n → out = .crash
  done : ∀ M D, st.meshes[n]? = some M → op M.drawing = (D, none) →
    out = .done ⟨st.meshes.set n { M with drawing := D }, st.links, st.systems⟩
  rejected : ∀ M D, st.meshes[n]? = some M → op M.drawing = (D, some .throw) → out = .abort
  undefined : ∀ M D, st.meshes[n]? = some M → op M.drawing = (D, some .ub) → out = .crash

theorem drawOnLayer_drawn (st : PyState K) (n : Nat) (op : Drawing K K → Drawing K K × Option Fault) :
    LayerDrawn st n op (drawOnLayer st n false op) where
  missing h := by
    unfold drawOnLayer
    rw [List.getElem?_eq_none h]
  done M D hM hD := by
    unfold drawOnLayer
    rw [hM]
    simp only [hD, finish, Bool.false_eq_true, if_false]
  rejected M D hM hD := by
    unfold drawOnLayer
    rw [hM]
    simp only [hD, Fault.out]
  undefined M D hM hD := by
    unfold drawOnLayer
    rw [hM]
    simp only [hD, Fault.out]

/-- **C57.** With usable arguments, the drawing methods draw on the given layer, which is not checked
to exist. -/
theorem draw_effect (st : PyState K) {l : PyVal K} {n : Nat} (hl : l.Unsigned n) :
    (∀ {p q P Q}, IsPosition p P → IsPosition q Q →
      LayerDrawn st n (fun D => D.drawRectangle P Q)
        (PyMethod.drawRectangle.call [.list p, .list q, l] st)) ∧
    (∀ {p P} (x : K), IsPosition p P →
      LayerDrawn st n (fun D => (D.drawRegion (fun a b => decide (a = b)) P x, none))
        (PyMethod.drawRegion.call [.list p, .float x, l] st)) ∧
    (∀ {ps Q}, List.Forall₂ (fun v p => ∃ l, v = .list l ∧ l.length = 2 ∧ IsPosition l p) ps Q →
      LayerDrawn st n (fun D => D.drawPolygon Q) (PyMethod.drawPolygon.call [.list ps, l] st)) := by
  obtain ⟨h1, h2⟩ := asULong_unsigned hl
  refine ⟨fun hp hq => ?_, fun x hp => ?_, fun hQ => ?_⟩
  · simp only [PyMethod.call, pyDrawRectangle, h1, Bool.true_eq_false, if_false, readPoint_position hp,
      readPoint_position hq, h2]
    exact drawOnLayer_drawn _ _ _
  · simp only [PyMethod.call, pyDrawRegion, h1, Bool.true_eq_false, if_false, readPoint_position hp, h2]
    exact drawOnLayer_drawn _ _ _
  · simp only [PyMethod.call, pyDrawPolygon, h1, Bool.true_eq_false, if_false,
      readPoints_positions hQ, h2]
    exact drawOnLayer_drawn _ _ _

/-- **C57.** With usable arguments, `add_interconnection` appends an interconnection, whether or not
its layers exist. -/
theorem interconnection_effect (st : PyState K) {p q : List (PyVal K)} {P Q : Vec K} {l1 l2 R : PyVal K}
    {n1 n2 : Nat} {r : K} (hp : IsPosition p P) (hq : IsPosition q Q) (h1 : l1.Unsigned n1)
    (h2 : l2.Unsigned n2) (hR : R.Number r) :
    PyMethod.addInterconnection.call [.list p, .list q, l1, l2, R] st =
      .done ⟨st.meshes, st.links ++ [⟨P, Q, n1, n2, r⟩], st.systems⟩ := by
  obtain ⟨a1, a2⟩ := asULong_unsigned h1
  obtain ⟨b1, b2⟩ := asULong_unsigned h2
  simp only [PyMethod.call, pyAddInterconnection, a1, b1, Bool.true_eq_false, if_false,
    readPoint_position hp, readPoint_position hq, a2, b2, asDouble_number hR]
  rfl

/-- **C57.** With usable arguments, `set_voltage` changes only the given system, as the library's
function does; a `System` made by Python itself and a layer that does not exist are not rejected. -/
theorem set_voltage_effect (st : PyState K) {ref : Nat} {p : List (PyVal K)} {P : Vec K} {V l : PyVal K}
    {v : K} {n : Nat} (hp : IsPosition p P) (hV : V.Number v) (hl : l.Unsigned n) :
    (st.systems[ref]? = some none → PyMethod.setVoltage.call [.system ref, .list p, V, l] st = .crash) ∧
    ∀ S, st.systems[ref]? = some (some S) →
      (st.meshes.length ≤ n → PyMethod.setVoltage.call [.system ref, .list p, V, l] st = .crash) ∧
      ∀ S', setVoltageLayer (st.meshes.map Mesh.data) S P v n = .ok S' →
        PyMethod.setVoltage.call [.system ref, .list p, V, l] st =
          .done ⟨st.meshes, st.links, st.systems.set ref (some S')⟩ := by
  obtain ⟨a1, a2⟩ := asULong_unsigned hl
  refine ⟨fun h => ?_, fun S hS => ⟨fun h => ?_, fun S' h => ?_⟩⟩
  · simp only [PyMethod.call, pySetVoltage, a1, Bool.true_eq_false, if_false,
      readPoint_position hp, asDouble_number hV, h]
  · have : setVoltageLayer (st.meshes.map Mesh.data) S P v n = .error .ub := by
      unfold setVoltageLayer
      rw [rd_ub (by simpa using h), error_bind]
    simp only [PyMethod.call, pySetVoltage, a1, Bool.true_eq_false, if_false,
      readPoint_position hp, a2, asDouble_number hV, hS, this]
    rfl
  · simp only [PyMethod.call, pySetVoltage, a1, Bool.true_eq_false, if_false,
      readPoint_position hp, a2, asDouble_number hV, hS, h]
    rfl

/-- **C57.** A layer number that is negative or does not fit 64 bits makes the drawing methods read
out of bounds. -/
theorem draw_out_of_range (st : PyState K) (hst : st.meshes.length < 2 ^ 64) {l : PyVal K}
    (hl : l.OutOfRange) :
    (∀ {p q}, NumericPair p → NumericPair q →
      PyMethod.drawRectangle.call [.list p, .list q, l] st = .crash) ∧
    (∀ {p} (x : K), NumericPair p → PyMethod.drawRegion.call [.list p, .float x, l] st = .crash) ∧
    (∀ {ps}, (∀ v ∈ ps, ∃ a b, v = .list [a, b] ∧ a.Is .number ∧ b.Is .number) →
      PyMethod.drawPolygon.call [.list ps, l] st = .crash) := by
  obtain ⟨h1, h2⟩ := asULong_outOfRange hl
  have hc : ∀ b op, drawOnLayer st (2 ^ 64 - 1) b op = .crash := by
    intro b op
    unfold drawOnLayer
    rw [List.getElem?_eq_none (by omega)]
  refine ⟨fun hp hq => ?_, fun x hp => ?_, fun hQ => ?_⟩
  · obtain ⟨a, ha⟩ := readPoint_numeric hp
    obtain ⟨b, hb⟩ := readPoint_numeric hq
    simp only [PyMethod.call, pyDrawRectangle, h1, Bool.true_eq_false, if_false, ha, hb, h2, hc]
  · obtain ⟨a, ha⟩ := readPoint_numeric hp
    simp only [PyMethod.call, pyDrawRegion, h1, Bool.true_eq_false, if_false, ha, h2, hc]
  · obtain ⟨a, ha⟩ := (readPoints_cases _).1 hQ
    simp only [PyMethod.call, pyDrawPolygon, h1, Bool.true_eq_false, if_false, ha, h2, hc]

/-- **C57.** A layer number out of range makes `add_interconnection` raise an exception after it has
appended an interconnection with the layer number 2^64 - 1. -/
theorem interconnection_out_of_range (st : PyState K) {p q : List (PyVal K)} {P Q : Vec K}
    {l1 l2 R : PyVal K} {n2 : Nat} {r : K} (hp : IsPosition p P) (hq : IsPosition q Q)
    (h1 : l1.OutOfRange) (h2 : l2.Unsigned n2) (hR : R.Number r) :
    PyMethod.addInterconnection.call [.list p, .list q, l1, l2, R] st =
      .raised ⟨st.meshes, st.links ++ [⟨P, Q, 2 ^ 64 - 1, n2, r⟩], st.systems⟩ := by
  obtain ⟨a1, a2⟩ := asULong_outOfRange h1
  obtain ⟨b1, b2⟩ := asULong_unsigned h2
  simp only [PyMethod.call, pyAddInterconnection, a1, b1, Bool.true_eq_false, if_false,
    readPoint_position hp, readPoint_position hq, a2, b2, asDouble_number hR]
  rfl

theorem finish_raised {b : Bool} {st st' : PyState K} (h : finish b st = .raised st') : b = true := by
  cases b
  · cases h
  · rfl

theorem drawOnLayer_raised {st st' : PyState K} {n : Nat} {b : Bool}
    {op : Drawing K K → Drawing K K × Option Fault} (h : drawOnLayer st n b op = .raised st') :
    b = true := by
  unfold drawOnLayer at h
  split at h
  · cases h
  · split at h
    · exact finish_raised h
    · rename_i f _
      cases f <;> cases h

theorem fail_raised {f : PyFail} {st st' : PyState K} (h : f.out st = .raised st') : st' = st := by
  cases f
  · cases h; rfl
  · cases h

theorem asULong_pending {v : PyVal K} (hv : v.isLong = true) (h : v.asULong.2 = true) : v.OutOfRange := by
  cases v with
  | int n =>
    refine ⟨n, rfl, ?_⟩
    simp only [PyVal.asULong] at h
    split at h
    · cases h
    · omega
  | bool b => simp [PyVal.asULong] at h
  | _ => cases hv

/-- **C57.** Without integers out of the range of a `double` or a `uint64_t`, a call that raises an
exception has changed nothing. -/
theorem raised_unchanged (m : PyMethod) {args : List (PyVal K)} {st st' : PyState K}
    (h : m.call args st = .raised st') (hr : ∀ v ∈ args, ¬ v.HasHuge ∧ ¬ v.OutOfRange) : st' = st := by
  have hpt : ∀ {l : List (PyVal K)} {r : Vec K × Bool}, PyVal.list l ∈ args → readPoint l = .ok r → r.2 = false := by
    intro l r hl e
    obtain ⟨r, b⟩ := r
    cases b
    · rfl
    · exact absurd (readPoint_pending e) (hr _ hl).1
  have hul : ∀ {v : PyVal K}, v ∈ args → ¬ v.isLong = false → v.asULong.2 = false := by
    intro v hv hl
    by_contra hc
    exact (hr v hv).2 (asULong_pending (by simpa using hl) (by simpa using hc))
  have hdb : ∀ {v : PyVal K} {r : K × Bool}, v ∈ args → v.asDouble = some r → r.2 = false := by
    intro v r hv e
    obtain ⟨r, b⟩ := r
    cases b
    · rfl
    · exact absurd (asDouble_pending e) (hr _ hv).1
  cases m <;> simp only [PyMethod.call] at h
  · unfold pyDrawRectangle at h
    split at h
    · split at h
      · cases h; rfl
      · rename_i hl
        split at h
        · exact fail_raised h
        · rename_i e1
          split at h
          · exact fail_raised h
          · rename_i e2
            have := drawOnLayer_raised h
            have t1 := hpt (by simp) e1
            have t2 := hpt (by simp) e2
            have t3 := hul (by simp) hl
            simp_all
    · cases h; rfl
  · unfold pyDrawRegion at h
    split at h
    · split at h
      · cases h; rfl
      · rename_i hl
        split at h
        · exact fail_raised h
        · rename_i e1
          have := drawOnLayer_raised h
          have t1 := hpt (by simp) e1
          have t3 := hul (by simp) hl
          simp_all
    · cases h; rfl
  · unfold pyDrawPolygon at h
    split at h
    · split at h
      · cases h; rfl
      · rename_i hl
        split at h
        · exact fail_raised h
        · rename_i Q b e1
          have hb := drawOnLayer_raised h
          have t3 := hul (by simp) hl
          rw [t3, Bool.or_false] at hb
          subst hb
          exact absurd (readPoints_pending e1) (hr _ (by simp)).1
    · cases h; rfl
  · unfold pyAddInterconnection at h
    split at h
    · split at h
      · cases h; rfl
      · rename_i hl1
        split at h
        · cases h; rfl
        · rename_i hl2
          split at h
          · cases h; rfl
          · rename_i e3
            split at h
            · exact fail_raised h
            · rename_i e1
              split at h
              · exact fail_raised h
              · rename_i e2
                have := finish_raised h
                have t1 := hpt (by simp) e1
                have t2 := hpt (by simp) e2
                have t3 := hul (by simp) hl1
                have t4 := hul (by simp) hl2
                have t5 := hdb (by simp) e3
                simp_all
    · cases h; rfl
  · unfold pySetVoltage at h
    split at h
    · split at h
      · cases h; rfl
      · rename_i e3
        split at h
        · cases h; rfl
        · rename_i hl
          split at h
          · exact fail_raised h
          · rename_i e1
            split at h
            · split at h
              · have := finish_raised h
                have t1 := hpt (by simp) e1
                have t3 := hul (by simp) hl
                have t5 := hdb (by simp) e3
                simp_all
              · rename_i f _
                cases f <;> cases h
            · cases h
    · cases h; rfl

/-- **C57.** The exception of such an integer comes after the change: drawing a region at
`[2**1024, 0]` draws it at (-1, 0) and then raises an exception. -/
theorem huge_changed (st : PyState K) {M : Mesh K K} (hM : st.meshes[0]? = some M) (x : K) :
    PyMethod.drawRegion.call [.list [.int (2 ^ 1024), .int 0], .float x, .int 0] st =
      .raised ⟨st.meshes.set 0 { M with drawing := M.drawing.drawRegion (fun a b => decide (a = b)) ⟨-1, 0⟩ x },
        st.links, st.systems⟩ := by
  have h1 : readPoint ([.int (2 ^ 1024), .int 0] : List (PyVal K)) = .ok (⟨-1, 0⟩, true) := by
    have e : longAsDouble (2 ^ 1024) = ((-1 : K), true) := by
      unfold longAsDouble
      rw [if_neg (by decide +kernel)]
    have e0 : longAsDouble 0 = ((0 : K), false) := by
      unfold longAsDouble
      rw [if_pos (by decide +kernel), Int.cast_zero]
    simp only [readPoint, readCoord, List.getElem?_cons_zero, List.getElem?_cons_succ, PyVal.asDouble, e, e0]
    rfl
  have h2 : (PyVal.int 0 : PyVal K).asULong = (0, false) := rfl
  simp only [PyMethod.call, pyDrawRegion, h1, h2, drawOnLayer, hM, finish]
  rfl

theorem readDepths_iff (l : List (PyVal K)) (ds : List K) :
    readDepths l = some (ds, false) ↔ List.Forall₂ PyVal.Number l ds := by
  have hn : ∀ (v : PyVal K) x, v.asDouble = some (x, false) → v.Number x := by
    intro v x h
    cases v with
    | float y => cases h; exact .float _
    | int n =>
      replace h : some (longAsDouble n) = some (x, false) := h
      unfold longAsDouble at h
      split at h
      · rename_i hlt
        cases h
        exact .int n hlt
      · cases h
    | bool b => cases b <;> cases h <;> constructor
    | _ => cases h
  induction l generalizing ds with
  | nil => simp [readDepths, eq_comm]
  | cons v rest ih =>
    constructor
    · intro h
      rw [readDepths] at h
      cases hv : v.asDouble with
      | none => rw [hv] at h; cases h
      | some d =>
        cases hr : readDepths rest with
        | none => rw [hv, hr] at h; cases h
        | some r =>
          rw [hv, hr] at h
          obtain ⟨d, b⟩ := d
          obtain ⟨r, b'⟩ := r
          cases b
          · cases b'
            · cases h
              exact .cons (hn v d hv) ((ih r).mp hr)
            · cases h
          · cases h
    · rintro (_ | ⟨h1, h2⟩)
      rw [readDepths, asDouble_number h1, (ih _).mpr h2]
      rfl

/-- **C57.** The constructor accepts exactly a layer count and a list with as many depths, all numbers
in range; only the low 32 bits of the count matter.  The simulation has a layer for each depth and no
interconnections. -/
theorem constructor_accepts (fresh : Mesh K K) (args : List (PyVal K)) (st : PyState K) :
    pyNew fresh args = some st ↔ ∃ n l ds, args = [n, .list l] ∧
      ((∃ z : Int, n = .int z ∧ z % 2 ^ 32 = l.length) ∨ (n = .bool false ∧ l.length = 0) ∨
        (n = .bool true ∧ l.length = 1)) ∧
      List.Forall₂ PyVal.Number l ds ∧
      st.meshes = ds.map (fun d => { fresh with depth := d }) ∧ st.links = [] ∧ st.systems = [] := by
  have hc : ∀ (n : PyVal K) (k : Nat), n.asUInt32 = some k ↔ ((∃ z : Int, n = .int z ∧ z % 2 ^ 32 = k) ∨
      (n = .bool false ∧ k = 0) ∨ (n = .bool true ∧ k = 1)) := by
    intro n k
    cases n with
    | int z =>
      have hz : 0 ≤ z % 2 ^ 32 := Int.emod_nonneg _ (by decide)
      simp only [PyVal.asUInt32, Option.some.injEq, PyVal.int.injEq, exists_eq_left', reduceCtorEq,
        false_and, or_false]
      omega
    | bool b => cases b <;> simp [PyVal.asUInt32, eq_comm]
    | _ => simp [PyVal.asUInt32]
  constructor
  · intro h
    unfold pyNew at h
    split at h
    · rename_i n l
      split at h
      · cases h
      · rename_i k hk
        split at h
        · cases h
        · rename_i hlen
          split at h
          · cases h
          · rename_i ds pending hd
            split at h
            · cases h
            · rename_i hp
              cases h
              obtain rfl : pending = false := by simpa using hp
              refine ⟨n, l, ds, rfl, ?_, (readDepths_iff l ds).mp hd, rfl, rfl, rfl⟩
              have : l.length = k := by simpa using hlen
              rw [this]
              exact (hc n k).mp hk
    · cases h
  · rintro ⟨n, l, ds, rfl, hn, hd, h1, h2, h3⟩
    obtain ⟨m, ls, sy⟩ := st
    simp only at h1 h2 h3
    subst h1 h2 h3
    simp only [pyNew, (hc n l.length).mpr hn, (readDepths_iff l ds).mpr hd]
    simp

/-! ## C56 -/

/-- Rows written one after the other into a list with `N` empty slots. -/
theorem fill_rows {α : Type} (sizes : List Nat) (g : Nat → Nat → Option α) {N : Nat} (hN : sizes.sum ≤ N)
    (body : Nat → List (Option α) → Res (List (Option α)))
    (inner : Nat → Nat → List (Option α) → Res (List (Option α)))
    (hb : ∀ i, (hi : i < sizes.length) → ∀ out, body i out = forUp 0 sizes[i] (inner i) out)
    (hi : ∀ i, (hi : i < sizes.length) → ∀ j, j < sizes[i] → ∃ a, g i j = some a ∧
      ∀ out, inner i j out = listSet out (j + (sizes.take i).sum) a) :
    ∃ out, forUp 0 sizes.length body (List.replicate N none) = .ok out ∧ out.length = N ∧
      (∀ i, (hi : i < sizes.length) → ∀ j, j < sizes[i] →
        out[(sizes.take i).sum + j]? = some (g i j)) ∧
      ∀ k, sizes.sum ≤ k → k < N → out[k]? = some none := by
  obtain ⟨out, e, h1, h2, h3⟩ := forUp_inv (body := body) (fun n (out : List (Option α)) =>
      out.length = N ∧
      (∀ i, (hi : i < sizes.length) → i < n → ∀ j, j < sizes[i] →
        out[(sizes.take i).sum + j]? = some (g i j)) ∧
      ∀ k, (sizes.take n).sum ≤ k → k < N → out[k]? = some none)
    (lo := 0) (hi := sizes.length) (s := List.replicate N none) (Nat.zero_le _)
    ⟨by simp, fun i _ h => absurd h (Nat.not_lt_zero _), fun k _ hk => by simp [hk]⟩ (by
      rintro n out - hn ⟨h1, h2, h3⟩
      rw [hb n hn]
      have hsucc := take_sum_succ hn
      have hle := take_sum_le sizes (n + 1)
      obtain ⟨out', e', k1, k2, k3, k4⟩ := forUp_inv (body := inner n) (fun m (o : List (Option α)) =>
          o.length = N ∧
          (∀ k, k < (sizes.take n).sum → o[k]? = out[k]?) ∧
          (∀ j, j < m → o[(sizes.take n).sum + j]? = some (g n j)) ∧
          ∀ k, (sizes.take n).sum + m ≤ k → k < N → o[k]? = some none)
        (lo := 0) (hi := sizes[n]) (s := out) (Nat.zero_le _)
        ⟨h1, fun _ _ => rfl, fun j h => absurd h (Nat.not_lt_zero _), fun k hk => h3 k (by omega)⟩ (by
          rintro m o - hm ⟨k1, k2, k3, k4⟩
          obtain ⟨a, ha, hi⟩ := hi n hn m hm
          rw [hi, listSet, if_pos (by omega)]
          refine ⟨_, rfl, by simpa using k1, fun k hk => ?_, fun j hj => ?_, fun k hk hk' => ?_⟩
          · rw [List.getElem?_set_ne (by omega)]; exact k2 k hk
          · rcases Nat.lt_or_ge j m with h | h
            · rw [List.getElem?_set_ne (by omega)]; exact k3 j h
            · obtain rfl : j = m := by omega
              rw [Nat.add_comm, List.getElem?_set_self (by omega), ha]
          · rw [List.getElem?_set_ne (by omega)]; exact k4 k (by omega) hk')
      refine ⟨out', e', k1, fun i hi' hin j hj => ?_, fun k hk hk' => k4 k (by omega) hk'⟩
      rcases Nat.lt_or_ge i n with h | h
      · have := take_sum_mono sizes (show i + 1 ≤ n by omega)
        have := take_sum_succ hi'
        rw [k2 _ (by omega)]
        exact h2 i hi' h j hj
      · obtain rfl : i = n := by omega
        exact k3 j hj)
  rw [List.take_length] at h3
  exact ⟨out, e, h1, fun i hi j hj => h2 i hi hi j hj, h3⟩

theorem fill_row {α : Type} (n : Nat) (g : Nat → α) (inner : Nat → List (Option α) → Res (List (Option α)))
    (hi : ∀ j, j < n → ∀ out, inner j out = listSet out j (g j)) :
    ∃ out, forUp 0 n inner (List.replicate n none) = .ok out ∧ out.length = n ∧
      ∀ j, j < n → out[j]? = some (some (g j)) := by
  obtain ⟨out, e, h1, h2⟩ := forUp_inv (body := inner) (fun m (o : List (Option α)) =>
      o.length = n ∧ ∀ j, j < m → o[j]? = some (some (g j)))
    (lo := 0) (hi := n) (s := List.replicate n none) (Nat.zero_le _)
    ⟨by simp, fun j h => absurd h (Nat.not_lt_zero _)⟩ (by
      rintro m o - hm ⟨k1, k2⟩
      rw [hi m hm, listSet, if_pos (by omega)]
      refine ⟨_, rfl, by simpa using k1, fun j hj => ?_⟩
      rcases Nat.lt_or_ge j m with h | h
      · rw [List.getElem?_set_ne (by omega)]; exact k2 j h
      · obtain rfl : j = m := by omega
        rw [List.getElem?_set_self (by omega)])
  exact ⟨out, e, h1, h2⟩

/-- The nested loops over the layers and over the `items` of each layer. -/
theorem fill_layers {α β : Type} (meshes : List (Mesh K K)) (items : Mesh K K → List β) {N : Nat}
    (hN : (meshes.map (fun M => (items M).length)).sum ≤ N) (step : Nat → Nat → β → List (Option α) → Res (List (Option α)))
    (g : Nat → Nat → β → α)
    (hs : ∀ (i : Nat) M (j : Nat) x, meshes[i]? = some M → (items M)[j]? = some x → ∀ out,
      step i j x out = listSet out (j + layerStart (meshes.map (fun M => (items M).length)) i) (g i j x)) :
    ∃ out, forUp 0 meshes.length (fun i out => do
        let M ← rd meshes i
        forUp 0 (items M).length (fun j out => do
          let x ← rd (items M) j
          step i j x out) out) (List.replicate N none) = .ok out ∧ out.length = N ∧
      (∀ (i : Nat) M (j : Nat) x, meshes[i]? = some M → (items M)[j]? = some x →
        out[layerStart (meshes.map (fun M => (items M).length)) i + j]? = some (some (g i j x))) ∧
      ∀ k, (meshes.map (fun M => (items M).length)).sum ≤ k → k < N → out[k]? = some none := by
  obtain ⟨out, e, h1, h2, h3⟩ := fill_rows (meshes.map (fun M => (items M).length))
    (fun i j => ((meshes[i]?).bind (fun M => (items M)[j]?)).map (g i j)) hN
    (fun i out => do
        let M ← rd meshes i
        forUp 0 (items M).length (fun j out => do
          let x ← rd (items M) j
          step i j x out) out)
    (fun i j out => do
        let M ← rd meshes i
        let x ← rd (items M) j
        step i j x out)
    (fun i hi out => by
      have hi' : i < meshes.length := by simpa using hi
      simp only [rd_ok hi', ok_bind, List.getElem_map])
    (fun i hi j hj => by
      have hi' : i < meshes.length := by simpa using hi
      have hj' : j < (items meshes[i]).length := by simpa using hj
      refine ⟨g i j (items meshes[i])[j], by simp [hi', hj'], fun out => ?_⟩
      rw [rd_ok hi', ok_bind, rd_ok hj', ok_bind]
      exact hs i _ j _ (List.getElem?_eq_getElem hi') (List.getElem?_eq_getElem hj') out)
  rw [List.length_map] at e
  refine ⟨out, e, h1, fun i M j x hM hx => ?_, h3⟩
  obtain ⟨hi, rfl⟩ := List.getElem?_eq_some_iff.mp hM
  obtain ⟨hj, rfl⟩ := List.getElem?_eq_some_iff.mp hx
  have := h2 i (by simpa using hi) j (by simpa using hj)
  unfold layerStart
  rw [this]
  simp [hi, hj]

theorem rd_offsets {meshes : List (Mesh K K)} {β : Type} (items : Mesh K K → List β) {i : Nat} {M : Mesh K K}
    (h : meshes[i]? = some M) : rd (offsetsOf (meshes.map (fun M => (items M).length))) i =
      .ok (layerStart (meshes.map (fun M => (items M).length)) i) := by
  obtain ⟨hi, -⟩ := List.getElem?_eq_some_iff.mp h
  rw [rd_offsetsOf (by simpa using hi)]
  rfl

/-- Positions of a layer's nodes are below the total. -/
theorem layer_position_lt {meshes : List (Mesh K K)} {i : Nat} {M : Mesh K K} (h : meshes[i]? = some M)
    {v : Nat} (hv : v < M.data.pts.length) :
    v + layerStart (nodeCounts meshes) i < (nodeCounts meshes).sum := by
  obtain ⟨h1, h2⟩ := List.getElem?_eq_some_iff.mp h
  have hi : i < (nodeCounts meshes).length := by simpa [nodeCounts] using h1
  have e := take_sum_succ hi
  have l := take_sum_le (nodeCounts meshes) (i + 1)
  have : (nodeCounts meshes)[i] = M.data.pts.length := by simp [nodeCounts, h2]
  unfold layerStart
  omega

/-- **C56.** What `generate_system` returns: a complete list of the vertices of all layers, and for
each layer a complete list of its triangles, whose three numbers are the positions of the corners in
the list of vertices. -/
theorem generate_lists (meshes : List (Mesh K K)) (h : ∀ M ∈ meshes, M.data.Indexed) :
    ∃ T W, generateLists meshes = .ok (T, W) ∧ W.length = (nodeCounts meshes).sum ∧
      T.length = meshes.length ∧ none ∉ W ∧
      ∀ (i : Nat) M, meshes[i]? = some M →
        (∀ (j : Nat) p, M.data.pts[j]? = some p →
          W[layerStart (nodeCounts meshes) i + j]? = some (some (p.x, p.y))) ∧
        ∃ ts, T[i]? = some (some ts) ∧ ts.length = M.data.tris.length ∧
          ∀ (j : Nat) e, M.data.tris[j]? = some e → ∃ a b c, ts[j]? = some (some (a, b, c)) ∧
            (a < W.length ∧ b < W.length ∧ c < W.length) ∧
            [a, b, c].map (fun v => (W[v]?).join) = M.data.corners e := by
  -- triangles
  have htri : ∀ i (hi : i < meshes.length), ∃ ts,
      forUp 0 meshes[i].data.tris.length (fun j mine => do
        let e ← rd meshes[i].data.tris j
        let o ← rd (offsetsOf (meshes.map (fun M => M.data.pts.length))) i
        listSet mine j (e.shift o)) (List.replicate meshes[i].data.tris.length none) = .ok ts ∧
      ts.length = meshes[i].data.tris.length ∧
      ∀ j (hj : j < meshes[i].data.tris.length),
        ts[j]? = some (some (meshes[i].data.tris[j].shift (layerStart (nodeCounts meshes) i))) := by
    intro i hi
    obtain ⟨ts, e, h1, h2⟩ := fill_row meshes[i].data.tris.length
      (fun j => ((meshes[i].data.tris[j]?).getD ⟨0, 0, 0⟩).shift (layerStart (nodeCounts meshes) i))
      (fun j mine => do
        let e ← rd meshes[i].data.tris j
        let o ← rd (offsetsOf (meshes.map (fun M => M.data.pts.length))) i
        listSet mine j (e.shift o))
      (fun j hj out => by
        rw [rd_ok hj, ok_bind, rd_offsets (fun M => M.data.pts) (List.getElem?_eq_getElem hi), ok_bind,
          List.getElem?_eq_getElem hj, Option.getD_some]
        rfl)
    refine ⟨ts, e, h1, fun j hj => ?_⟩
    rw [h2 j hj, List.getElem?_eq_getElem hj, Option.getD_some]
  obtain ⟨T, eT, t1, t2⟩ : ∃ T, forUp 0 meshes.length (fun i out => do
      let M ← rd meshes i
      let mine ← forUp 0 M.data.tris.length (fun j mine => do
        let e ← rd M.data.tris j
        let o ← rd (offsetsOf (meshes.map (fun M => M.data.pts.length))) i
        listSet mine j (e.shift o)) (List.replicate M.data.tris.length none)
      listSet out i mine) (List.replicate meshes.length none) = .ok T ∧ T.length = meshes.length ∧
      ∀ i (hi : i < meshes.length), T[i]? = some (some (Classical.choose (htri i hi))) := by
    obtain ⟨T, e, h1, h2⟩ := fill_row meshes.length
      (fun i => if hi : i < meshes.length then Classical.choose (htri i hi) else [])
      (fun i out => do
        let M ← rd meshes i
        let mine ← forUp 0 M.data.tris.length (fun j mine => do
          let e ← rd M.data.tris j
          let o ← rd (offsetsOf (meshes.map (fun M => M.data.pts.length))) i
          listSet mine j (e.shift o)) (List.replicate M.data.tris.length none)
        listSet out i mine)
      (fun i hi out => by
        rw [rd_ok hi, ok_bind, (Classical.choose_spec (htri i hi)).1, ok_bind, dif_pos hi])
    exact ⟨T, e, h1, fun i hi => by rw [h2 i hi, dif_pos hi]⟩
  -- vertices
  obtain ⟨W, eW, w1, w2, -⟩ := fill_layers meshes (fun M => M.data.pts) (N := (nodeCounts meshes).sum) le_rfl
    (fun i j p out => do
        let o ← rd (offsetsOf (meshes.map (fun M => M.data.pts.length))) i
        listSet out (j + o) (p.x, p.y))
    (fun i j p => (p.x, p.y))
    (fun i M j x hM hx out => by rw [rd_offsets (fun M => M.data.pts) hM, ok_bind])
  refine ⟨T, W, ?_, w1, t1, ?_, fun i M hM => ⟨fun j p hp => w2 i M j p hM hp, ?_⟩⟩
  · unfold generateLists
    dsimp only
    rw [eT, ok_bind]
    simp only [nodeCounts] at eW
    rw [eW, ok_bind]
  · intro hc
    obtain ⟨k, hk, e⟩ := List.mem_iff_getElem.mp hc
    obtain ⟨i, j, hi, hj, rfl⟩ := exists_layer (nodeCounts meshes) k (by omega)
    have hi' : i < meshes.length := by simpa [nodeCounts] using hi
    have hj' : j < meshes[i].data.pts.length := by simpa [nodeCounts] using hj
    have := w2 i _ j _ (List.getElem?_eq_getElem hi') (List.getElem?_eq_getElem hj')
    have e2 : W[layerStart (nodeCounts meshes) i + j]? = some none := by
      rw [← e]
      exact List.getElem?_eq_getElem hk
    rw [show layerStart (meshes.map (fun M => M.data.pts.length)) i = layerStart (nodeCounts meshes) i from rfl,
      e2] at this
    cases this
  · obtain ⟨hi, rfl⟩ := List.getElem?_eq_some_iff.mp hM
    obtain ⟨-, s1, s2⟩ := Classical.choose_spec (htri i hi)
    refine ⟨_, t2 i hi, s1, fun j e he => ?_⟩
    obtain ⟨hj, rfl⟩ := List.getElem?_eq_some_iff.mp he
    have hx := h _ (List.getElem_mem hi) _ (List.getElem_mem hj)
    refine ⟨_, _, _, s2 j hj, ?_, ?_⟩
    · rw [w1]
      exact ⟨layer_position_lt hM (hx _ (by simp [Elem.verts])),
        layer_position_lt hM (hx _ (by simp [Elem.verts])),
        layer_position_lt hM (hx _ (by simp [Elem.verts]))⟩
    · have hv : ∀ v, v < meshes[i].data.pts.length →
          (W[v + layerStart (nodeCounts meshes) i]?).join = (meshes[i].data.pts[v]?).map (fun p => (p.x, p.y)) := by
        intro v hv
        have := w2 i _ v _ hM (List.getElem?_eq_getElem hv)
        rw [Nat.add_comm, show layerStart (nodeCounts meshes) i =
          layerStart (meshes.map (fun M => M.data.pts.length)) i from rfl, this, List.getElem?_eq_getElem hv]
        rfl
      simp only [List.map_cons, List.map_nil, MeshData.corners, Elem.verts]
      rw [hv _ (hx _ (by simp [Elem.verts])), hv _ (hx _ (by simp [Elem.verts])),
        hv _ (hx _ (by simp [Elem.verts]))]

/-- **C56.** What `solve` returns for a solution `V` with at least as many values as there are nodes,
and power densities `P`: every node's layer, coordinates and voltage at its global number; the
triangles of all layers in order, with their layer and the positions of their corners in the list of
voltages; and the power densities labelled with the number of the element, not of the layer.  The
list of voltages has empty slots if `V` is longer, that is, if the system is of another simulation. -/
theorem solve_lists (meshes : List (Mesh K K)) (h : ∀ M ∈ meshes, M.data.Indexed) (V P : List K)
    (hV : (nodeCounts meshes).sum ≤ V.length) :
    ∃ volts tris dens, solveLists meshes V P = .ok (volts, tris, dens) ∧ volts.length = V.length ∧
      tris.length = (elemCounts meshes).sum ∧ dens.length = P.length ∧
      (∀ k, (nodeCounts meshes).sum ≤ k → k < V.length → volts[k]? = some none) ∧
      (∀ (k : Nat) x, P[k]? = some x → dens[k]? = some (some (k, x))) ∧
      ∀ (i : Nat) M, meshes[i]? = some M →
        (∀ (j : Nat) p, M.data.pts[j]? = some p → ∃ v,
          V[layerStart (nodeCounts meshes) i + j]? = some v ∧
          volts[layerStart (nodeCounts meshes) i + j]? = some (some (i, p.x, p.y, v))) ∧
        ∀ (j : Nat) e, M.data.tris[j]? = some e → ∃ a b c,
          tris[layerStart (elemCounts meshes) i + j]? = some (some (i, a, b, c)) ∧
          [a, b, c].map (fun v => ((volts[v]?).join).map (fun r => (r.1, r.2.1, r.2.2.1))) =
            (M.data.corners e).map (fun p => p.map (fun p => (i, p.1, p.2))) := by
  obtain ⟨volts, ev, v1, v2, v3⟩ := fill_layers meshes (fun M => M.data.pts) (N := V.length) hV
    (fun i j p out => do
        let o ← rd (offsetsOf (meshes.map (fun M => M.data.pts.length))) i
        let v ← rd V (j + o)
        listSet out (j + o) (i, p.x, p.y, v))
    (fun i j p => (i, p.x, p.y, (V[j + layerStart (nodeCounts meshes) i]?).getD 0))
    (fun i M j x hM hx out => by
      obtain ⟨hj, -⟩ := List.getElem?_eq_some_iff.mp hx
      have hlt := layer_position_lt hM hj
      rw [rd_offsets (fun M => M.data.pts) hM, ok_bind, show
        layerStart (meshes.map (fun M => M.data.pts.length)) i = layerStart (nodeCounts meshes) i from rfl,
        rd_ok (by omega), ok_bind, List.getElem?_eq_getElem (by omega), Option.getD_some])
  obtain ⟨dens, ed, d1, d2⟩ := fill_row P.length (fun i => (i, (P[i]?).getD 0))
    (fun i out => do
      let x ← rd P i
      listSet out i (i, x))
    (fun j hj out => by rw [rd_ok hj, ok_bind, List.getElem?_eq_getElem hj, Option.getD_some])
  obtain ⟨tris, et, t1, t2, -⟩ := fill_layers meshes (fun M => M.data.tris) (N := (elemCounts meshes).sum) le_rfl
    (fun i j e out => do
      let o ← rd (offsetsOf (meshes.map (fun M => M.data.pts.length))) i
      let t ← rd (offsetsOf (meshes.map (fun M => M.data.tris.length))) i
      listSet out (j + t) (i, e.shift o))
    (fun i j e => (i, e.shift (layerStart (nodeCounts meshes) i)))
    (fun i M j x hM hx out => by
      rw [rd_offsets (fun M => M.data.pts) hM, ok_bind, rd_offsets (fun M => M.data.tris) hM, ok_bind]
      rfl)
  refine ⟨volts, tris, dens, ?_, v1, t1, d1, v3, fun k x hx => ?_, fun i M hM => ⟨fun j p hp => ?_, fun j e he => ?_⟩⟩
  · unfold solveLists
    dsimp only
    simp only [elemCounts] at et
    rw [ev, ok_bind, ed, ok_bind, et, ok_bind]
  · obtain ⟨hk, rfl⟩ := List.getElem?_eq_some_iff.mp hx
    rw [d2 k hk, List.getElem?_eq_getElem hk, Option.getD_some]
  · obtain ⟨hj, -⟩ := List.getElem?_eq_some_iff.mp hp
    have hlt := layer_position_lt hM hj
    refine ⟨V[layerStart (nodeCounts meshes) i + j], List.getElem?_eq_getElem (by omega), ?_⟩
    have := v2 i M j p hM hp
    rw [show layerStart (meshes.map (fun M => M.data.pts.length)) i = layerStart (nodeCounts meshes) i from rfl]
      at this
    rw [this, Nat.add_comm j, List.getElem?_eq_getElem (by omega), Option.getD_some]
  · have hx := h M (List.mem_of_getElem? hM) e (List.mem_of_getElem? he)
    refine ⟨_, _, _, t2 i M j e hM he, ?_⟩
    have hv : ∀ v, v < M.data.pts.length →
        ((volts[v + layerStart (nodeCounts meshes) i]?).join).map (fun r => (r.1, r.2.1, r.2.2.1)) =
          ((M.data.pts[v]?).map (fun p => (p.x, p.y))).map (fun p => (i, p.1, p.2)) := by
      intro v hv
      have := v2 i M v _ hM (List.getElem?_eq_getElem hv)
      rw [Nat.add_comm, show layerStart (nodeCounts meshes) i =
        layerStart (meshes.map (fun M => M.data.pts.length)) i from rfl, this, List.getElem?_eq_getElem hv]
      rfl
    simp only [List.map_cons, List.map_nil, MeshData.corners, Elem.verts]
    rw [hv _ (hx _ (by simp [Elem.verts])), hv _ (hx _ (by simp [Elem.verts])),
      hv _ (hx _ (by simp [Elem.verts]))]

/-- **C56.** If the solution has fewer values than there are nodes, `solve` reads out of bounds. -/
theorem solve_lists_short (meshes : List (Mesh K K)) (V P : List K) (hV : V.length < (nodeCounts meshes).sum) :
    solveLists meshes V P = .error .ub := by
  obtain ⟨i, j, hi, hj, e⟩ := exists_layer (nodeCounts meshes) V.length hV
  have hi' : i < meshes.length := by simpa [nodeCounts] using hi
  have hj' : j < meshes[i].data.pts.length := by simpa [nodeCounts] using hj
  have hoff : ∀ k, k < meshes.length → rd (offsetsOf (meshes.map (fun M => M.data.pts.length))) k =
      .ok (layerStart (nodeCounts meshes) k) :=
    fun k hk => rd_offsets (fun M => M.data.pts) (List.getElem?_eq_getElem hk)
  have e' : V.length = layerStart (nodeCounts meshes) i + j := e
  unfold solveLists
  dsimp only
  rw [forUp_fails (e := .ub) (fun _ (out : List (Option (Nat × K × K × K))) => out.length = V.length) (k := i)
    (Nat.zero_le _) hi' (by simp) ?_ ?_, error_bind]
  · rintro k out - hk hout
    have hk' : k < meshes.length := by omega
    rw [rd_ok hk', ok_bind]
    refine forUp_inv (fun _ (o : List (Option (Nat × K × K × K))) => o.length = V.length)
      (Nat.zero_le _) hout ?_
    rintro m o - hm ho
    have h1 := take_sum_succ (sizes := nodeCounts meshes) (k := k) (by simpa [nodeCounts] using hk')
    have h2 := take_sum_mono (nodeCounts meshes) (show k + 1 ≤ i by omega)
    have h3 : (nodeCounts meshes)[k]'(by simpa [nodeCounts] using hk') = meshes[k].data.pts.length := by
      simp [nodeCounts]
    have hlt : m + layerStart (nodeCounts meshes) k < V.length := by
      unfold layerStart at e' ⊢
      omega
    rw [rd_ok hm, ok_bind, hoff k hk', ok_bind, rd_ok hlt, ok_bind, listSet, if_pos (by omega)]
    exact ⟨_, rfl, by simpa using ho⟩
  · intro out hout
    rw [rd_ok hi', ok_bind]
    refine forUp_fails (fun _ (o : List (Option (Nat × K × K × K))) => o.length = V.length) (k := j)
      (Nat.zero_le _) hj' hout ?_ ?_
    · rintro m o - hm ho
      rw [rd_ok (by omega), ok_bind, hoff i hi', ok_bind, rd_ok (by omega), ok_bind, listSet,
        if_pos (by omega)]
      exact ⟨_, rfl, by simpa using ho⟩
    · intro o ho
      rw [rd_ok hj', ok_bind, hoff i hi', ok_bind, rd_ub (by omega), error_bind]

/-! ## Examples -/

/-- A layer with the triangle (0,0), (x,0), (0,x). -/
def exLayer (x : ℚ) : Mesh ℚ ℚ :=
  { center := ⟨0, 0⟩, radius := 1, dflt := 0, epsilon := 0, depth := 1,
    data := { pts := [⟨0, 0⟩, ⟨x, 0⟩, ⟨0, x⟩], tris := [⟨0, 1, 2⟩], attrs := [0], markers := [] },
    drawing := (Drawing.empty : Drawing ℚ ℚ) }

example : ∀ M ∈ [exLayer 1, exLayer 2], M.data.Indexed := by
  unfold MeshData.Indexed
  decide +kernel

example : generateLists [exLayer 1, exLayer 2] =
    .ok ([some [some (0, 1, 2)], some [some (3, 4, 5)]],
      [some (0, 0), some (1, 0), some (0, 1), some (0, 0), some (2, 0), some (0, 2)]) := rfl

example : solveLists [exLayer 1, exLayer 2] [10, 11, 12, 13, 14, 15] [7, 8] =
    .ok ([some (0, 0, 0, 10), some (0, 1, 0, 11), some (0, 0, 1, 12), some (1, 0, 0, 13),
        some (1, 2, 0, 14), some (1, 0, 2, 15)],
      [some (0, 0, 1, 2), some (1, 3, 4, 5)], [some (0, 7), some (1, 8)]) := rfl

example : IsPosition ([.int 3, .float (1 / 2), .other] : List (PyVal ℚ)) ⟨3, 1 / 2⟩ :=
  ⟨_, _, _, rfl, .int 3 (by decide +kernel), .float _⟩

example : (PyVal.int 1 : PyVal ℚ).Unsigned 1 ∧ (PyVal.int (-1) : PyVal ℚ).OutOfRange :=
  ⟨.int 1 (by decide), -1, rfl, Or.inl (by decide)⟩

/-- A call that raises an exception although the arguments are of the right kinds. -/
example : List.Forall₂ PyVal.Is PyMethod.drawRegion.signature
      [(.list [.int 3, .other] : PyVal ℚ), .float 1, .int 0] ∧
    listArgs [(.list [.int 3, .other] : PyVal ℚ), .float 1, .int 0] = [] ++ [.int 3, .other] :: [] ∧
    WrongPair ([.int 3, .other] : List (PyVal ℚ)) := by
  refine ⟨.cons ⟨_, rfl⟩ (.cons ⟨_, rfl⟩ (.cons (Or.inl ⟨_, rfl⟩) .nil)), rfl, _, _, rfl,
    Or.inr ⟨Or.inr (Or.inl ⟨_, rfl⟩), _, _, rfl, ?_⟩⟩
  rintro (⟨x, h⟩ | ⟨n, h⟩ | ⟨b, h⟩) <;> cases h

/-- A count of 2^32 + 2 layers is accepted with two depths. -/
example : ∃ st, pyNew (exLayer 1) [.int (2 ^ 32 + 2), .list [.int 3, .float (1 / 2)]] = some st ∧
    st.meshes.length = 2 :=
  ⟨⟨[{ exLayer 1 with depth := ((3 : Int) : ℚ) }, { exLayer 1 with depth := 1 / 2 }], [], []⟩,
    (constructor_accepts _ _ _).mpr ⟨_, _, [((3 : Int) : ℚ), 1 / 2], rfl, Or.inl ⟨_, rfl, by decide⟩,
      .cons (.int 3 (by decide +kernel)) (.cons (.float _) .nil), rfl, rfl, rfl⟩, rfl⟩

end Nikfemm
