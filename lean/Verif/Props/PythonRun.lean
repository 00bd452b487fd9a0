import Verif.Spec.PythonRun
import Verif.Props.Python
import Verif.Props.Rings
import Verif.Props.Kelvin

/-!
# C78: sessions of the Python module
-/

set_option linter.unusedSectionVars false

namespace Nikfemm
open Spec

variable {K : Type} [Field K] [LinearOrder K]

/-! ## Arguments -/

theorem generateArgs_none {args : List (PyVal K)} (h : ¬ GenerateKinds args) :
    pyGenerateArgs args = none := by
  rcases args with _ | ⟨r, _ | ⟨a, _ | ⟨m, _ | ⟨x, rest⟩⟩⟩⟩
  · exact absurd ⟨by simp, by simp, by simp, by simp⟩ h
  · cases r with
    | bool b => exact absurd ⟨by simp, by simp, by simp, by simp⟩ h
    | _ => rfl
  · unfold pyGenerateArgs
    cases ha : a.asDouble with
    | none => simp [ha]
    | some x =>
      have ha' : a.Is .number := by
        by_contra hc
        rw [(asDouble_none a).mpr hc] at ha
        cases ha
      cases r with
      | bool b => exact absurd ⟨by simp, by simp, by simpa using ha', by simp⟩ h
      | _ => simp [ha]
  · unfold pyGenerateArgs
    cases hm : m.asDouble with
    | none => simp [hm]
    | some y =>
      have hm' : m.Is .number := by
        by_contra hc
        rw [(asDouble_none m).mpr hc] at hm
        cases hm
      cases ha : a.asDouble with
      | none => simp [hm, ha]
      | some x =>
        have ha' : a.Is .number := by
          by_contra hc
          rw [(asDouble_none a).mpr hc] at ha
          cases ha
        cases r with
        | bool b => exact absurd ⟨by simp, by simp, by simpa using ha', by simpa using hm'⟩ h
        | _ => simp [hm, ha]
  · rfl

theorem generateArgs_some {args : List (PyVal K)} {r : Bool} {x y : K} (h : GenerateArgs args r x y) :
    pyGenerateArgs args = some (r, x, y, false) := by
  cases h with
  | none => rfl
  | refine r => rfl
  | area r a h => simp [pyGenerateArgs, asDouble_number h]
  | angle r a b h h' => simp [pyGenerateArgs, asDouble_number h, asDouble_number h']

theorem toI32_ok [IsStrictOrderedRing K] [FloorRing K] {x : K} {n : Int} (h : Truncates x n)
    (hn : -2 ^ 31 ≤ n ∧ n < 2 ^ 31) : toI32 x = .ok n := by
  have h1 : (-2 ^ 31 : K) ≤ (n : K) := by exact_mod_cast hn.1
  have h2 : (n : K) + 1 ≤ 2 ^ 31 := by exact_mod_cast hn.2
  unfold toI32
  by_cases hx : 0 ≤ x
  · obtain ⟨a, b⟩ := h.1 hx
    rw [if_pos ⟨by linarith, by linarith⟩, if_pos hx, Int.floor_eq_iff.mpr ⟨a, b⟩]
  · obtain ⟨a, b⟩ := h.2 (not_le.mp hx)
    rw [if_pos ⟨by linarith, by linarith⟩, if_neg hx, Int.ceil_eq_iff.mpr ⟨a, b⟩]

/-! ## Meshing -/

theorem meshLayers_ok {sq : K → K} {tri : Drawing K K → K → Int → Res (MeshData K)} {area : K}
    {angle : Int} {meshes meshes' : List (Mesh K K)} {ds : List (Drawing K K)}
    (hds : ds.length = meshes.length) (h : Remeshed sq tri area angle meshes ds meshes') :
    forUp 0 (List.zipWith (fun (M : Mesh K K) D => { M with drawing := D }) meshes ds).length
      (fun i ms => do
        let M ← rd ms i
        let M ← meshLayer sq tri area angle M
        wr ms i M) (List.zipWith (fun (M : Mesh K K) D => { M with drawing := D }) meshes ds) =
      .ok meshes' := by
  set L := List.zipWith (fun (M : Mesh K K) D => { M with drawing := D }) meshes ds with hL
  have hlen : L.length = meshes.length := by simp [hL, hds]
  obtain ⟨s, e, h1, h2⟩ := forUp_inv (σ := List (Mesh K K)) (fun i s => s.length = meshes.length ∧
      ∀ k, s[k]? = if k < i then meshes'[k]? else L[k]?) (body := fun i ms => do
        let M ← rd ms i
        let M ← meshLayer sq tri area angle M
        wr ms i M) (lo := 0) (hi := L.length) (s := L) (Nat.zero_le _) ⟨hlen, fun k => by simp⟩ (by
      rintro i s - hi ⟨h1, h2⟩
      have hi' : i < meshes.length := by omega
      obtain ⟨d, eps, a, b, c⟩ := h.layer i _ _ (List.getElem?_eq_getElem hi')
        (List.getElem?_eq_getElem (hds ▸ hi'))
      have hLi : L[i]? = some { meshes[i] with drawing := ds[i]'(hds ▸ hi') } := by
        rw [hL, List.getElem?_zipWith]
        rw [List.getElem?_eq_getElem hi', List.getElem?_eq_getElem (hds ▸ hi')]
      have hs : rd s i = .ok { meshes[i] with drawing := ds[i]'(hds ▸ hi') } :=
        rd_eq_ok_iff.mpr (by rw [h2, if_neg (lt_irrefl _), hLi])
      refine ⟨s.set i { meshes[i] with drawing := ds[i]'(hds ▸ hi'), data := d, epsilon := eps.getD meshes[i].epsilon },
        ?_, ?_, ?_⟩
      · rw [hs]
        simp only [ok_bind, meshLayer, a, b]
        exact wr_ok (by omega)
      · simpa using h1
      · intro k
        rw [List.getElem?_set]
        by_cases hk : i = k
        · subst hk
          rw [if_pos rfl, if_pos (by omega), if_pos (by omega), c]
        · rw [if_neg hk, h2]
          by_cases hki : k < i
          · rw [if_pos hki, if_pos (by omega)]
          · rw [if_neg hki, if_neg (by omega)])
  rw [e]
  congr 1
  refine List.ext_getElem? (fun k => ?_)
  rw [h2 k]
  by_cases hk : k < L.length
  · rw [if_pos hk]
  · rw [if_neg hk, List.getElem?_eq_none (by omega), List.getElem?_eq_none (by rw [h.length]; omega)]

theorem multiGenerate_ok {lm : Libm K} {tri : Drawing K K → K → Int → Res (MeshData K)} {refine : Bool}
    {area : K} {angle : Int} {links : List (Link K)} {meshes meshes' : List (Mesh K K)}
    {ds : List (Drawing K K)} (hds : prepareDrawings lm refine links (meshes.map (fun M => M.drawing)) = .ok ds)
    (hlen : ds.length = meshes.length) (h : Remeshed lm.sqrt tri area angle meshes ds meshes')
    {S : Sys K} (hS : multiSystem lm.sqrt (fun s => s) meshes' links = .ok S) :
    multiGenerate lm tri refine area angle links meshes = .ok (meshes', S) := by
  unfold multiGenerate
  rw [hds, ok_bind]
  simp only
  rw [meshLayers_ok hlen h, ok_bind, hS, ok_bind]

theorem drawOn_length {P : Type} {ds ds' : List (Drawing K P)} {k : Nat} {p : Vec K}
    (h : drawOn ds k p = .ok ds') : ds'.length = ds.length := by
  unfold drawOn at h
  obtain ⟨D, -, h⟩ := bind_eq_ok_iff.mp h
  obtain ⟨-, rfl⟩ := wr_eq_ok_iff.mp h
  simp

theorem drawRing_length {P : Type} {lm : Libm K} {l : Link K} {ds ds' : List (Drawing K P)}
    (h : drawRing lm l ds = .ok ds') : ds'.length = ds.length := by
  unfold drawRing at h
  obtain ⟨D1, -, h⟩ := bind_eq_ok_iff.mp h
  obtain ⟨D2, -, h⟩ := bind_eq_ok_iff.mp h
  obtain ⟨e1, -, h⟩ := bind_eq_ok_iff.mp h
  obtain ⟨e2, -, h⟩ := bind_eq_ok_iff.mp h
  refine forUp_partial (fun _ (s : List (Drawing K P)) => s.length = ds.length) (Nat.zero_le _) rfl h ?_
  intro i s s' _ _ hs e
  obtain ⟨a, ea, e⟩ := bind_eq_ok_iff.mp e
  obtain ⟨b, eb, e⟩ := bind_eq_ok_iff.mp e
  obtain ⟨c, ec, e⟩ := bind_eq_ok_iff.mp e
  rw [drawOn_length e, drawOn_length ec, drawOn_length eb, drawOn_length ea, hs]

theorem prepareDrawings_length {P : Type} {lm : Libm K} {refine : Bool} {links : List (Link K)}
    {ds ds' : List (Drawing K P)} (h : prepareDrawings lm refine links ds = .ok ds') :
    ds'.length = ds.length := by
  unfold prepareDrawings at h
  obtain ⟨a, ea, h⟩ := bind_eq_ok_iff.mp h
  obtain ⟨b, eb, h⟩ := bind_eq_ok_iff.mp h
  have ha : a.length = ds.length := by
    cases refine with
    | false => cases ea; rfl
    | true =>
      refine forUp_partial (fun _ (s : List (Drawing K P)) => s.length = ds.length) (Nat.zero_le _) rfl ea ?_
      intro i s s' _ _ hs e
      obtain ⟨D, -, e⟩ := bind_eq_ok_iff.mp e
      obtain ⟨D', -, e⟩ := bind_eq_ok_iff.mp e
      obtain ⟨-, rfl⟩ := wr_eq_ok_iff.mp e
      simpa using hs
  have hb : b.length = ds.length := by
    refine forEach_partial (fun _ (s : List (Drawing K P)) => s.length = ds.length) links [] a b ha eb ?_
    intro pre' l post s s' _ _ hs e
    obtain ⟨c, ec, e⟩ := bind_eq_ok_iff.mp e
    rw [drawOn_length e, drawOn_length ec, hs]
  refine forEach_partial (fun _ (s : List (Drawing K P)) => s.length = ds.length) links [] b ds' hb h ?_
  intro pre' l post s s' _ _ hs e
  rw [drawRing_length e, hs]

/-! ## C78 -/

/-- **C78** (arguments).  Anything but up to three arguments - a Boolean and two numbers - raises an
exception and changes nothing. -/
theorem generate_checked [FloorRing K] (lm : Libm K) (tri : Drawing K K → K → Int → Res (MeshData K))
    {args : List (PyVal K)} (st : PyState K) (h : ¬ GenerateKinds args) :
    pyGenerateSystem lm tri args st = .raised (st, none) := by
  unfold pyGenerateSystem
  rw [generateArgs_none h]

/-- **C78** (effect).  If the triangulator makes of the prepared drawings meshes that can be assembled,
`generate_system` keeps everything else and returns a new object for the system of these meshes, whose
unknowns are the returned vertices. -/
theorem generate_effect [IsStrictOrderedRing K] [FloorRing K] {lm : Libm K}
    (hsq : ∀ a b, 0 ≤ a → a < b → lm.sqrt a < lm.sqrt b)
    {tri : Drawing K K → K → Int → Res (MeshData K)} {st : PyState K} {args : List (PyVal K)}
    {r : Bool} {area y : K} {n : Int} (ha : GenerateArgs args r area y) (hn : Truncates y n)
    (hr : -2 ^ 31 ≤ n ∧ n < 2 ^ 31) {ds : List (Drawing K K)}
    (hds : prepareDrawings lm r st.links (st.meshes.map (fun M => M.drawing)) = .ok ds)
    {meshes : List (Mesh K K)} (hm : Remeshed lm.sqrt tri area n st.meshes ds meshes)
    {mat : Nat → Nat → K} (hok : LayersOK meshes mat)
    (hlinks : ∀ l ∈ st.links, l.layer1 ≠ l.layer2 ∧ l.R ≠ 0 ∧
      (∃ M, meshes[l.layer1]? = some M ∧ M.data.pts ≠ []) ∧
      ∃ M, meshes[l.layer2]? = some M ∧ M.data.pts ≠ [])
    {N : List (NodeLink K)} (hN : List.Forall₂ (Resolves meshes) st.links N)
    (hpw : N.Pairwise (fun l l' => ¬ l.SamePair (nodeCounts meshes) l')) :
    ∃ S G, multiSystem lm.sqrt (fun s => s) meshes st.links = .ok S ∧ SysOK S ∧
      pyGenerateSystem lm tri args st =
        .done (⟨meshes, st.links, st.systems ++ [some S]⟩, some G) ∧
      G.ref = st.systems.length ∧ S.A.m = G.verts.length ∧ none ∉ G.verts ∧
      G.verts.length = (nodeCounts meshes).sum ∧ G.tris.length = meshes.length ∧
      ∀ (i : Nat) M, meshes[i]? = some M →
        (∀ (j : Nat) p, M.data.pts[j]? = some p →
          G.verts[layerStart (nodeCounts meshes) i + j]? = some (some (p.x, p.y))) ∧
        ∃ ts, G.tris[i]? = some (some ts) ∧ ts.length = M.data.tris.length ∧
          ∀ (j : Nat) e, M.data.tris[j]? = some e → ∃ a b c, ts[j]? = some (some (a, b, c)) ∧
            (a < S.A.m ∧ b < S.A.m ∧ c < S.A.m) ∧
            [a, b, c].map (fun v => (G.verts[v]?).join) = M.data.corners e := by
  obtain ⟨N', hN', hsys⟩ := multilayer_system hsq hok (fun s => s) hlinks
  obtain rfl := forall2_unique (R := Resolves meshes) (fun _ _ _ h h' => h.unique h') hN hN'
  obtain ⟨S, eS, hS, hSm, -⟩ := hsys hpw
  obtain ⟨T, W, eL, w1, w2, w3, w4⟩ := generate_lists meshes (fun M hM => by
    obtain ⟨k, hk⟩ := List.mem_iff_getElem?.mp hM
    exact (hok.mesh k M hk).verts)
  have e := multiGenerate_ok hds (by simpa using prepareDrawings_length hds) hm eS
  refine ⟨S, ⟨st.systems.length, T, W⟩, eS, hS, ?_, rfl, by rw [hSm, w1], w3, w1, w2, ?_⟩
  · unfold pyGenerateSystem
    rw [generateArgs_some ha]
    simp only [toI32_ok hn hr, ok_bind, e, eL, Bool.false_eq_true, if_false]
  · intro i M hM
    obtain ⟨a, ts, b, c, d⟩ := w4 i M hM
    refine ⟨a, ts, b, c, fun j e he => ?_⟩
    obtain ⟨x, y, z, q, q', q''⟩ := d j e he
    exact ⟨x, y, z, q, by rw [hSm, ← w1]; exact q', q''⟩

/-- **C78** (angles).  An angle that does not fit into an `int` is not rejected: the conversion is
undefined behaviour. -/
theorem generate_angle_undefined [FloorRing K] (lm : Libm K)
    (tri : Drawing K K → K → Int → Res (MeshData K)) {args : List (PyVal K)} (st : PyState K)
    {r : Bool} {area y : K} (ha : GenerateArgs args r area y) (hy : y ≤ -2 ^ 31 - 1 ∨ 2 ^ 31 ≤ y) :
    pyGenerateSystem lm tri args st = .crash := by
  have : toI32 y = .error .ub := by
    unfold toI32
    rw [if_neg]
    rintro ⟨h1, h2⟩
    rcases hy with h | h
    · exact absurd h1 (not_lt.mpr h)
    · exact absurd h2 (not_lt.mpr h)
  unfold pyGenerateSystem
  rw [generateArgs_some ha]
  simp only [this, error_bind, Fault.ret]

theorem asDouble_tooLarge {v : PyVal K} (h : v.TooLarge) : v.asDouble = some (-1, true) := by
  obtain ⟨n, rfl, hn⟩ := h
  show some (longAsDouble n) = _
  unfold longAsDouble
  rw [if_neg (by omega)]

theorem generateArgs_overflow {args : List (PyVal K)} {r : Bool} {x y : K}
    (h : OverflowArgs args r x y) : pyGenerateArgs args = some (r, x, y, true) := by
  cases h with
  | area r a h => simp [pyGenerateArgs, asDouble_tooLarge h]
  | areaOf3 r a b h h' => simp [pyGenerateArgs, asDouble_tooLarge h, asDouble_number h']
  | angle r a b h h' => simp [pyGenerateArgs, asDouble_number h, asDouble_tooLarge h']
  | both r a b h h' => simp [pyGenerateArgs, asDouble_tooLarge h, asDouble_tooLarge h']

/-- **C78** (overflow).  An integer that is too large for a `double` is taken as -1, as the area or as
the angle; the layers are meshed with it, and then an exception is raised: the simulation has changed,
but no system is returned. -/
theorem generate_overflow [IsStrictOrderedRing K] [FloorRing K] {lm : Libm K}
    {tri : Drawing K K → K → Int → Res (MeshData K)} {st : PyState K} {args : List (PyVal K)} {r : Bool}
    {area y : K} {n : Int} (ha : OverflowArgs args r area y) (hn : Truncates y n)
    (hr : -2 ^ 31 ≤ n ∧ n < 2 ^ 31) {ds : List (Drawing K K)}
    (hds : prepareDrawings lm r st.links (st.meshes.map (fun M => M.drawing)) = .ok ds)
    {meshes : List (Mesh K K)} (hm : Remeshed lm.sqrt tri area n st.meshes ds meshes) {S : Sys K}
    (hS : multiSystem lm.sqrt (fun s => s) meshes st.links = .ok S) :
    pyGenerateSystem lm tri args st =
      .raised (⟨meshes, st.links, st.systems⟩, none) := by
  have e := multiGenerate_ok hds (by simpa using prepareDrawings_length hds) hm hS
  unfold pyGenerateSystem
  rw [generateArgs_overflow ha]
  simp only [toI32_ok hn hr, ok_bind, e, if_true]

/-- **C78** (`solve`, arguments).  `solve` takes exactly one `System`; anything else raises an
exception and changes nothing.  A `System` made by Python itself is followed as a null pointer. -/
theorem solve_checked (sq : K → K) (args : List (PyVal K)) (st : PyState K) :
    ((∀ ref, args ≠ [.system ref]) → pySolve sq args st = .raised (st, none)) ∧
    ∀ ref, st.systems[ref]? = some none → pySolve sq [.system ref] st = .crash := by
  constructor
  · intro h
    unfold pySolve
    split
    · rename_i ref
      exact absurd rfl (h ref)
    · rfl
  · intro ref h
    unfold pySolve
    simp only [h]

theorem kZip_length {op : K → K → Res K} {a b r r' : List K} (h : kZip op a b r = .ok r') :
    r'.length = r.length := by
  unfold kZip at h
  refine forUp_partial (fun _ (s : List K) => s.length = r.length) (Nat.zero_le _) rfl h ?_
  intro i s s' _ _ hs e
  obtain ⟨x, -, e⟩ := bind_eq_ok_iff.mp e
  obtain ⟨y, -, e⟩ := bind_eq_ok_iff.mp e
  obtain ⟨z, -, e⟩ := bind_eq_ok_iff.mp e
  obtain ⟨-, rfl⟩ := wr_eq_ok_iff.mp e
  simpa using hs

theorem ssorLoop_length [IsStrictOrderedRing K] {A : Csr K} {omega tol : K} : ∀ (n : Nat) {x r z p Ap : List K} {t : K}
    {out : List K × Bool}, ssorLoop A omega tol n x r z p Ap t = .ok out → out.1.length = x.length
  | 0, x, r, z, p, Ap, t, out, h => by cases h; rfl
  | n + 1, x, r, z, p, Ap, t, out, h => by
    unfold ssorLoop at h
    obtain ⟨_, -, h⟩ := bind_eq_ok_iff.mp h
    obtain ⟨_, -, h⟩ := bind_eq_ok_iff.mp h
    obtain ⟨_, -, h⟩ := bind_eq_ok_iff.mp h
    obtain ⟨x', ex, h⟩ := bind_eq_ok_iff.mp h
    obtain ⟨_, -, h⟩ := bind_eq_ok_iff.mp h
    obtain ⟨_, -, h⟩ := bind_eq_ok_iff.mp h
    have hx : x'.length = x.length := kZip_length ex
    split at h
    · cases h; exact hx
    · obtain ⟨_, -, h⟩ := bind_eq_ok_iff.mp h
      obtain ⟨_, -, h⟩ := bind_eq_ok_iff.mp h
      obtain ⟨_, -, h⟩ := bind_eq_ok_iff.mp h
      obtain ⟨_, -, h⟩ := bind_eq_ok_iff.mp h
      rw [ssorLoop_length n h, hx]

theorem solveConduction_length [IsStrictOrderedRing K] {S : Sys K} {n maxIt : Nat} {tol : K}
    {out : List K × Bool} (h : solveConduction S n tol maxIt = .ok out) : out.1.length = n := by
  unfold solveConduction at h
  obtain ⟨_, -, h⟩ := bind_eq_ok_iff.mp h
  unfold ssorSolve at h
  obtain ⟨_, -, h⟩ := bind_eq_ok_iff.mp h
  obtain ⟨_, -, h⟩ := bind_eq_ok_iff.mp h
  obtain ⟨_, -, h⟩ := bind_eq_ok_iff.mp h
  obtain ⟨_, -, h⟩ := bind_eq_ok_iff.mp h
  obtain ⟨_, -, h⟩ := bind_eq_ok_iff.mp h
  split at h
  · cases h; simp
  · rw [ssorLoop_length _ h]; simp

/-- **C78** (stale systems).  Solving a system with fewer unknowns than the simulation has nodes - one
generated before the drawing was refined, or by another simulation - never returns and never raises
an exception. -/
theorem solve_stale [IsStrictOrderedRing K] (sq : K → K) {st : PyState K} {ref : Nat} {S : Sys K}
    (hS : st.systems[ref]? = some (some S)) (hlt : S.b.length < (nodeCounts st.meshes).sum)
    (out : PyState K × Option (Solved K)) :
    pySolve sq [.system ref] st ≠ .done out ∧ pySolve sq [.system ref] st ≠ .raised out := by
  have key : ∃ f : Fault, (do
        let V ← solveConduction S S.b.length (1 / 10 ^ 7) 100000
        let P ← computePowerDensity sq (fun s => s) st.meshes V.1
        solveLists st.meshes V.1 P) = .error f := by
    cases hV : solveConduction S S.b.length (1 / 10 ^ 7) 100000 with
    | error f => exact ⟨f, rfl⟩
    | ok V =>
      rw [ok_bind]
      cases hP : computePowerDensity sq (fun s => s) st.meshes V.1 with
      | error f => exact ⟨f, rfl⟩
      | ok P =>
        refine ⟨.ub, ?_⟩
        rw [ok_bind]
        exact solve_lists_short _ _ _ (by rw [solveConduction_length hV]; exact hlt)
  obtain ⟨f, hf⟩ := key
  unfold pySolve
  simp only [hS, hf]
  cases f <;> simp [Fault.ret]

/-! ### Sessions -/

theorem setVoltages_ok (meshes : List (Mesh K K)) (links : List (Link K)) (sys : List (Option (Sys K))) :
    ∀ {vargs : List (List (PyVal K))} {calls : List (VoltageCall K)},
    List.Forall₂ (VoltageArgs sys.length) vargs calls → ∀ {S S' : Sys K},
    applyVoltages (meshes.map (fun M => M.data)) calls S = .ok S' →
    setVoltages vargs ⟨meshes, links, sys ++ [some S]⟩ = .done ⟨meshes, links, sys ++ [some S']⟩ := by
  intro vargs calls h
  induction h with
  | nil => intro S S' e; cases e; rfl
  | @cons args c vargs calls hc _ ih =>
    intro S S' e
    obtain ⟨p, V, l, rfl, hp, hV, hl⟩ := hc
    obtain ⟨S1, e1, e2⟩ : ∃ S1, setVoltageLayer (meshes.map (fun M => M.data)) S c.p c.V c.layer = .ok S1 ∧
        applyVoltages (meshes.map (fun M => M.data)) calls S1 = .ok S' := by
      unfold applyVoltages forEach at e
      split at e
      · rename_i S1 e1
        exact ⟨S1, e1, e⟩
      · cases e
    have := ((set_voltage_effect ⟨meshes, links, sys ++ [some S]⟩ (ref := sys.length) hp hV hl).2 S
      (by simp)).2 S1 e1
    unfold setVoltages
    rw [this]
    simp only
    rw [show (sys ++ [some S]).set sys.length (some S1) = sys ++ [some S1] by simp]
    exact ih e2

/-- **C78** (sessions).  Take a simulation whose prepared drawings the triangulator turns into meshes
that can be assembled, with positive conductivities, depths and resistances and at most 100000 nodes,
and voltages such that every node is connected to a node with an imposed voltage.  Then calling
`generate_system`, `set_voltage` for each voltage with the returned system, and `solve` returns: for
every vertex reported by `generate_system`, its layer, position and voltage; the voltages imposed last
up to 1e-7; and power densities that are not negative. -/
theorem session_solves [IsStrictOrderedRing K] [FloorRing K] {lm : Libm K}
    (hsq : ∀ a b, 0 ≤ a → a < b → lm.sqrt a < lm.sqrt b)
    (hsq' : ∀ a, 0 ≤ a → lm.sqrt a * lm.sqrt a = a)
    {tri : Drawing K K → K → Int → Res (MeshData K)} {st : PyState K} {args : List (PyVal K)}
    {r : Bool} {area y : K} {n : Int} (ha : GenerateArgs args r area y) (hn : Truncates y n)
    (hr : -2 ^ 31 ≤ n ∧ n < 2 ^ 31) {ds : List (Drawing K K)}
    (hds : prepareDrawings lm r st.links (st.meshes.map (fun M => M.drawing)) = .ok ds)
    {meshes : List (Mesh K K)} (hm : Remeshed lm.sqrt tri area n st.meshes ds meshes)
    {mat : Nat → Nat → K} (hok : LayersOK meshes mat) (hsig : ∀ k t, 0 < mat k t)
    (hdepth : ∀ M ∈ meshes, 0 < M.depth)
    (hlinks : ∀ l ∈ st.links, l.layer1 ≠ l.layer2 ∧ 0 < l.R ∧
      (∃ M, meshes[l.layer1]? = some M ∧ M.data.pts ≠ []) ∧
      ∃ M, meshes[l.layer2]? = some M ∧ M.data.pts ≠ [])
    (hsmall : 3 * ((elemCounts meshes).sum + st.links.length) < 2 ^ 32)
    (hn0 : 0 < (nodeCounts meshes).sum) (hn1 : (nodeCounts meshes).sum ≤ 100000)
    {N : List (NodeLink K)} (hN : List.Forall₂ (Resolves meshes) st.links N)
    (hpw : N.Pairwise (fun l l' => ¬ l.SamePair (nodeCounts meshes) l'))
    {calls : List (VoltageCall K)} (hc : ∀ c ∈ calls, c.Valid (meshes.map (fun M => M.data)))
    {l : List (Nat × K)}
    (hl : List.Forall₂ (VoltageCall.Addresses (meshes.map (fun M => M.data))) calls l)
    (hconn : ∀ i, i < (nodeCounts meshes).sum →
      ∃ y ∈ l, Relation.ReflTransGen (Joined meshes N) i y.1)
    {vargs : List (List (PyVal K))} (hv : List.Forall₂ (VoltageArgs st.systems.length) vargs calls) :
    ∃ st1 G st2 R, pyGenerateSystem lm tri args st = .done (st1, some G) ∧
      G.ref = st.systems.length ∧ setVoltages vargs st1 = .done st2 ∧
      pySolve lm.sqrt [.system G.ref] st2 = .done (st2, some R) ∧
      st1.meshes = meshes ∧ st2.meshes = meshes ∧ st1.links = st.links ∧ st2.links = st.links ∧
      (∀ k, k < st.systems.length → st2.systems[k]? = st.systems[k]?) ∧
      R.volts.length = G.verts.length ∧ R.dens.length = (elemCounts meshes).sum ∧
      (∀ (j : Nat), j < G.verts.length → ∃ k px py v, R.volts[j]? = some (some (k, px, py, v)) ∧
        G.verts[j]? = some (some (px, py))) ∧
      (∀ (k : Nat) M, meshes[k]? = some M → ∀ (j : Nat) p, M.data.pts[j]? = some p → ∃ v,
        R.volts[layerStart (nodeCounts meshes) k + j]? = some (some (k, p.x, p.y, v))) ∧
      (∀ (m : Nat) c y, calls[m]? = some c → l[m]? = some y →
        (∀ (m' : Nat) y', m < m' → l[m']? = some y' → y'.1 ≠ y.1) →
        ∃ px py v, R.volts[y.1]? = some (some (c.layer, px, py, v)) ∧ |v - c.V| < 1 / 10 ^ 7) ∧
      ∀ (j : Nat), j < R.dens.length → ∃ w, R.dens[j]? = some (some (j, w)) ∧ 0 ≤ w := by
  obtain ⟨S, G, eS, hS, eG, g1, g2, g3, g4, -, g5⟩ := generate_effect hsq ha hn hr hds hm hok
    (fun l hl => ⟨(hlinks l hl).1, ne_of_gt (hlinks l hl).2.1, (hlinks l hl).2.2⟩) hN hpw
  obtain ⟨S0, S', e0, eV, hsol⟩ := multilayer_simulation_converges hsq hok (sigma := fun s => s)
    (fun k t => hsig k t) hdepth hlinks hsmall hc hn0 (1 / 10 ^ 7) (by positivity) hN hpw hl hconn
  rw [eS] at e0; cases e0
  obtain ⟨x, ex, xl, -, hx⟩ := hsol 100000 hn1
  obtain ⟨P, eP, Pl, hP⟩ := power_density_sums hsq' hok (fun s => s) (V := x) (le_of_eq xl.symm)
  have hidx : ∀ M ∈ meshes, M.data.Indexed := fun M hM => by
    obtain ⟨k, hk⟩ := List.mem_iff_getElem?.mp hM
    exact (hok.mesh k M hk).verts
  obtain ⟨volts, tris, dens, eR, r1, r2, r3, -, r4, r5⟩ := solve_lists meshes hidx x P (le_of_eq xl.symm)
  have hvolt : ∀ j, j < (nodeCounts meshes).sum → ∃ k M i p, meshes[k]? = some M ∧
      M.data.pts[i]? = some p ∧ j = layerStart (nodeCounts meshes) k + i := by
    intro j hj
    obtain ⟨k, i, hk, hi, e⟩ := exists_layer (nodeCounts meshes) j hj
    have hk' : k < meshes.length := by simpa [nodeCounts] using hk
    have hi' : i < meshes[k].data.pts.length := by simpa [nodeCounts] using hi
    exact ⟨k, _, i, _, List.getElem?_eq_getElem hk', List.getElem?_eq_getElem hi', e⟩
  refine ⟨_, G, ⟨meshes, st.links, st.systems ++ [some S']⟩, ⟨volts, tris, dens⟩, eG, g1,
    setVoltages_ok meshes st.links st.systems hv eV, ?_, rfl, rfl, rfl, rfl, ?_, by rw [g4, ← xl, ← r1],
    by rw [r3, Pl], ?_, ?_, ?_, ?_⟩
  · unfold pySolve
    have : (st.systems ++ [some S'])[G.ref]? = some (some S') := by rw [g1]; simp
    simp only [this, ex, ok_bind, eP, eR]
  · intro k hk
    exact List.getElem?_append_left hk
  · intro j hj
    rw [g4] at hj
    obtain ⟨k, M, i, p, hM, hp, rfl⟩ := hvolt j hj
    obtain ⟨v, -, hv⟩ := (r5 k M hM).1 i p hp
    exact ⟨k, p.x, p.y, v, hv, (g5 k M hM).1 i p hp⟩
  · intro k M hM j p hp
    obtain ⟨v, -, hv⟩ := (r5 k M hM).1 j p hp
    exact ⟨v, hv⟩
  · intro m c y hcm hym hlast
    have hb := hx m c y hcm hym hlast
    obtain ⟨c', hc', -, D, j, hD, hj, hy1⟩ := forall2_getElem?' hl m y hym
    rw [hcm] at hc'; cases hc'
    have hcnt : (meshes.map (fun M => M.data)).map (fun D => D.pts.length) = nodeCounts meshes := by
      simp [nodeCounts]
    rw [hcnt] at hy1
    rw [List.getElem?_map] at hD
    cases hM : meshes[c.layer]? with
    | none => rw [hM] at hD; cases hD
    | some M =>
      rw [hM] at hD
      cases hD
      obtain ⟨p, hp, -⟩ := hj
      obtain ⟨v, hv1, hv2⟩ := (r5 c.layer M hM).1 j p hp
      refine ⟨p.x, p.y, v, by rw [hy1]; exact hv2, ?_⟩
      rw [hy1] at hb
      have : fn x (layerStart (nodeCounts meshes) c.layer + j) = v := by
        unfold fn
        simp [hv1]
      rwa [this] at hb
  · intro j hj
    simp only [r3] at hj
    refine ⟨P[j], r4 j _ (List.getElem?_eq_getElem hj), ?_⟩
    rw [Pl] at hj
    obtain ⟨k, i, hk, hi, e⟩ := exists_layer (elemCounts meshes) j hj
    have hk' : k < meshes.length := by simpa [elemCounts] using hk
    have hi' : i < meshes[k].data.tris.length := by simpa [elemCounts] using hi
    obtain ⟨g, -, h1, -⟩ := (hP k _ (List.getElem?_eq_getElem hk')).1 i hi'
    have h2 : fn P (layerStart (elemCounts meshes) k + i) = P[j]'(by rw [Pl]; exact hj) := by
      have : P[layerStart (elemCounts meshes) k + i]? = P[j]? := by rw [e]; rfl
      unfold fn
      rw [this, List.getElem?_eq_getElem (by rw [Pl]; exact hj)]
      rfl
    rw [← h2, h1]
    exact mul_nonneg (add_nonneg (mul_self_nonneg _) (mul_self_nonneg _)) (le_of_lt (hsig k i))

/-! ### Repetition -/

theorem meshLayers_drawings {sq : K → K} {tri : Drawing K K → K → Int → Res (MeshData K)} {area : K}
    {angle : Int} {ms ms' : List (Mesh K K)}
    (h : forUp 0 ms.length (fun i ms => do
        let M ← rd ms i
        let M ← meshLayer sq tri area angle M
        wr ms i M) ms = .ok ms') : ms'.map (fun M => M.drawing) = ms.map (fun M => M.drawing) := by
  refine forUp_partial (fun _ (s : List (Mesh K K)) => s.map (fun M => M.drawing) =
    ms.map (fun M => M.drawing)) (Nat.zero_le _) rfl h ?_
  intro i s s' _ _ hs e
  obtain ⟨M, eM, e⟩ := bind_eq_ok_iff.mp e
  obtain ⟨M', eM', e⟩ := bind_eq_ok_iff.mp e
  obtain ⟨-, rfl⟩ := wr_eq_ok_iff.mp e
  have hd : M'.drawing = M.drawing := by
    unfold meshLayer at eM'
    obtain ⟨d, -, eM'⟩ := bind_eq_ok_iff.mp eM'
    obtain ⟨d', -, eM'⟩ := bind_eq_ok_iff.mp eM'
    cases eM'
    rfl
  rw [← hs]
  refine List.ext_getElem? (fun k => ?_)
  rw [List.getElem?_map, List.getElem?_map, List.getElem?_set]
  by_cases hk : i = k
  · subst hk
    have := rd_eq_ok_iff.mp eM
    rw [if_pos rfl, if_pos (List.getElem?_eq_some_iff.mp this).1, this]
    simp [hd]
  · rw [if_neg hk]

theorem generate_done_drawings [FloorRing K] {lm : Libm K} {tri : Drawing K K → K → Int → Res (MeshData K)}
    {args : List (PyVal K)} {st st' : PyState K} {g : Option (Generated K)} {r : Bool} {area y : K}
    (ha : GenerateArgs args r area y) (h : pyGenerateSystem lm tri args st = .done (st', g)) :
    prepareDrawings lm r st.links (st.meshes.map (fun M => M.drawing)) =
      .ok (st'.meshes.map (fun M => M.drawing)) ∧ st'.links = st.links := by
  unfold pyGenerateSystem at h
  rw [generateArgs_some ha] at h
  simp only at h
  split at h
  · rename_i f _
    cases f <;> cases h
  · rename_i ms S e
    simp only [Bool.false_eq_true, if_false] at h
    obtain ⟨n, -, e⟩ := bind_eq_ok_iff.mp e
    unfold multiGenerate at e
    obtain ⟨ds, eds, e⟩ := bind_eq_ok_iff.mp e
    obtain ⟨ms1, ems, e⟩ := bind_eq_ok_iff.mp e
    obtain ⟨S1, -, e⟩ := bind_eq_ok_iff.mp e
    cases e
    split at h
    · rename_i f _
      cases f <;> cases h
    · cases h
      refine ⟨?_, rfl⟩
      simp only
      rw [eds, meshLayers_drawings ems]
      refine congrArg _ (List.ext_getElem? (fun k => ?_))
      have hlen := prepareDrawings_length eds
      rw [List.length_map] at hlen
      rw [List.getElem?_map, List.getElem?_zipWith]
      by_cases hk : k < ds.length
      · rw [List.getElem?_eq_getElem hk, List.getElem?_eq_getElem (hlen ▸ hk)]
        rfl
      · rw [List.getElem?_eq_none (by omega), List.getElem?_eq_none (by omega)]
        rfl

/-- **C78** (repetition).  Calling `generate_system` twice without refinement is not like calling it
once: both calls append the same points - 21 for each end of an interconnection in the layer, among
them the end itself - so the triangulator is given all of them twice. -/
theorem generate_repeats (pi : ℝ) (tri : Drawing ℝ ℝ → ℝ → Int → Res (MeshData ℝ))
    {st st1 st2 : PyState ℝ} (hwf : ∀ M ∈ st.meshes, WellFormed M.drawing)
    (hne : ∀ M ∈ st.meshes, NoPointSegments M.drawing)
    (hl : ∀ l ∈ st.links, l.layer1 < st.meshes.length ∧ l.layer2 < st.meshes.length)
    {args args' : List (PyVal ℝ)} {g g' : Option (Generated ℝ)} {area y area' y' : ℝ}
    (ha : GenerateArgs args false area y) (ha' : GenerateArgs args' false area' y')
    (h : pyGenerateSystem (realLibm pi) tri args st = .done (st1, g))
    (h' : pyGenerateSystem (realLibm pi) tri args' st1 = .done (st2, g')) :
    ∀ (k : Nat) M, st.meshes[k]? = some M → ∃ new M1 M2, st1.meshes[k]? = some M1 ∧
      st2.meshes[k]? = some M2 ∧
      M1.drawing = { M.drawing with points := M.drawing.points ++ new } ∧
      M2.drawing = { M.drawing with points := M.drawing.points ++ new ++ new } ∧
      new.length = 21 * (st.links.flatMap (endsIn · k)).length ∧
      ∀ c ∈ st.links.flatMap (endsIn · k), c ∈ new := by
  obtain ⟨e1, l1⟩ := generate_done_drawings ha h
  obtain ⟨e2, -⟩ := generate_done_drawings ha' h'
  set ds := st.meshes.map (fun M => M.drawing) with hds
  have hwf0 : ∀ D ∈ ds, WellFormed D := by
    intro D hD
    obtain ⟨M, hM, rfl⟩ := List.mem_map.mp hD
    exact hwf M hM
  have hne0 : ∀ D ∈ ds, NoPointSegments D := by
    intro D hD
    obtain ⟨M, hM, rfl⟩ := List.mem_map.mp hD
    exact hne M hM
  have hl0 : ∀ l ∈ st.links, l.layer1 < ds.length ∧ l.layer2 < ds.length := by
    intro l hl'; simpa [hds] using hl l hl'
  obtain ⟨ds1, E, p1, len1, hE, h1⟩ := prepare_exact pi false st.links ds hwf0 hne0 hl0
  rw [e1] at p1
  cases p1
  set ds1 := st1.meshes.map (fun M => M.drawing) with hds1
  -- the drawings after the first call
  have h1' : ∀ (k : Nat) D, ds[k]? = some D → ds1[k]? = some { D with points := D.points ++
      (endsList st.links k ++ ringsList (realLibm pi) E st.links k) } := by
    intro k D hD
    obtain ⟨D0, hr, h⟩ := h1 k D hD
    have hr : D0 = D := hr
    subst hr
    exact h
  have back : ∀ D1 ∈ ds1, ∃ D ∈ ds, ∃ new, D1 = { D with points := D.points ++ new } := by
    intro D1 hD1
    obtain ⟨k, hk⟩ := List.mem_iff_getElem?.mp hD1
    have hk' : k < ds.length := len1 ▸ (List.getElem?_eq_some_iff.mp hk).1
    have := h1' k _ (List.getElem?_eq_getElem hk')
    rw [hk] at this
    cases this
    exact ⟨_, List.getElem_mem hk', _, rfl⟩
  have hwf1 : ∀ D ∈ ds1, WellFormed D := by
    intro D1 hD1
    obtain ⟨D, hD, new, rfl⟩ := back D1 hD1
    exact wf_appendPoints (hwf0 D hD) new
  have hne1 : ∀ D ∈ ds1, NoPointSegments D := by
    intro D1 hD1
    obtain ⟨D, hD, new, rfl⟩ := back D1 hD1
    intro s hs
    have hr := (hwf0 D hD).refs s hs
    simp only
    rw [List.getElem?_append_left hr.1, List.getElem?_append_left hr.2]
    exact hne0 D hD s hs
  rw [l1] at e2
  obtain ⟨ds2, E', p2, len2, hE', h2⟩ := prepare_exact pi false st.links ds1 hwf1 hne1
    (by rw [len1]; exact hl0)
  rw [e2] at p2
  cases p2
  have hEE : ∀ k p, k < ds.length → E' k p = E k p := by
    intro k p hk
    have hD := List.getElem?_eq_getElem hk
    have c1 := hE k _ p hD
    have c2 := hE' k _ p (h1' k _ hD)
    exact clearance_unique ((clearance_append (hwf0 _ (List.getElem_mem hk))).mp c2) c1
  have hrings : ∀ k, ringsList (realLibm pi) E' st.links k = ringsList (realLibm pi) E st.links k := by
    intro k
    unfold ringsList
    refine List.flatMap_congr (fun l hl' => ?_)
    rw [hEE _ _ (hl0 l hl').1, hEE _ _ (hl0 l hl').2]
  intro k M hM
  have hD : ds[k]? = some M.drawing := by rw [hds, List.getElem?_map, hM]; rfl
  have a1 := h1' k _ hD
  obtain ⟨D0, hr, a2⟩ := h2 k _ a1
  have hr : D0 = _ := hr
  subst hr
  rw [hds1, List.getElem?_map] at a1
  rw [List.getElem?_map] at a2
  cases hM1 : st1.meshes[k]? with
  | none => rw [hM1] at a1; cases a1
  | some M1 =>
    cases hM2 : st2.meshes[k]? with
    | none => rw [hM2] at a2; cases a2
    | some M2 =>
      rw [hM1] at a1
      rw [hM2] at a2
      simp only [Option.map_some, Option.some.injEq] at a1 a2
      refine ⟨endsList st.links k ++ ringsList (realLibm pi) E st.links k, M1, M2, rfl, rfl, a1, ?_, ?_, ?_⟩
      · rw [a2, hrings]
      · rw [List.length_append, endsList_eq]
        have : (ringsList (realLibm pi) E st.links k).length =
            20 * (st.links.flatMap (endsIn · k)).length := by
          unfold ringsList
          simp only [List.length_flatMap, ringList_length]
          rw [← List.sum_map_mul_left]
        rw [this]
        ring
      · intro c hc
        rw [endsList_eq]
        exact List.mem_append_left _ hc

/-! ### Examples -/

/-- A triangulator that always makes the same triangle. -/
noncomputable def plateTri : Drawing ℝ ℝ → ℝ → Int → Res (MeshData ℝ) := fun _ _ _ => .ok realPlate.data

/-- Two plates joined at a corner. -/
noncomputable def platesJoined : Link ℝ := ⟨⟨0, 0⟩, ⟨0, 0⟩, 0, 1, 4⟩

/-- Layers with one material and without segments. -/
def PlateLayer (M : Mesh ℝ ℝ) : Prop :=
  M.depth = 2 ∧ M.drawing.regionMap = [3] ∧ WellFormed M.drawing ∧ M.drawing.segments = []

theorem plateLayers_ok {meshes : List (Mesh ℝ ℝ)} (hlen : meshes.length = 2)
    (h : ∀ M ∈ meshes, PlateLayer M ∧ M.data = realPlate.data) : LayersOK meshes (fun _ _ => 3) := by
  have hcnt : nodeCounts meshes = [3, 3] := by
    match meshes, hlen with
    | [A, B], _ => simp [nodeCounts, (h A (by simp)).2, (h B (by simp)).2, realPlate]
  refine ⟨fun k M hM => ?_, fun M hM => ?_, fun M hM => ?_, fun M hM => ?_, by rw [hcnt]; decide⟩
  · obtain ⟨⟨-, h2, -⟩, h3⟩ := h M (List.mem_of_getElem? hM)
    refine ⟨by rw [h3]; simp [realPlate], by rw [h3]; simp [realPlate, Elem.verts], fun t ht => ?_⟩
    rw [h3] at ht
    have : t = 0 := by simpa [realPlate] using ht
    subst this
    exact ⟨0, by rw [h3]; rfl, by rw [h2]; rfl⟩
  · rw [(h M hM).2]
    intro e he
    have : e = ⟨0, 1, 2⟩ := by simpa [realPlate] using he
    subst this
    norm_num [MeshData.area2, MeshData.pt, realPlate]
  · rw [(h M hM).2]
    intro v hv
    have hv' : v < 3 := hv
    unfold MeshData.valence
    rw [show realPlate.data.tris.flatMap Elem.verts = [0, 1, 2] from rfl]
    have : v = 0 ∨ v = 1 ∨ v = 2 := by omega
    rcases this with rfl | rfl | rfl <;> decide
  · rw [(h M hM).2]
    intro v
    unfold MeshData.valence
    rw [show realPlate.data.tris.flatMap Elem.verts = [0, 1, 2] from rfl]
    exact le_trans List.count_le_length (by decide)

theorem plate_nearest (p : Vec ℝ) (hp : p = ⟨0, 0⟩) : IsNearest realPlate.data.pts p 0 := by
  subst hp
  refine ⟨⟨0, 0⟩, rfl, fun i q hq => ?_⟩
  rcases i with _ | _ | _ | i
  · cases hq; exact ⟨le_refl _, fun h => absurd h (lt_irrefl _)⟩
  · cases hq; exact ⟨by norm_num [distSqTo], fun h => by omega⟩
  · cases hq; exact ⟨by norm_num [distSqTo], fun h => by omega⟩
  · cases hq

theorem plate_ready (pi : ℝ) {meshes : List (Mesh ℝ ℝ)} (hlen : meshes.length = 2)
    (h : ∀ M ∈ meshes, PlateLayer M) :
    ∃ ds meshes', prepareDrawings (realLibm pi) false [platesJoined] (meshes.map (fun M => M.drawing)) = .ok ds ∧
      Remeshed Real.sqrt plateTri 1 33 meshes ds meshes' ∧ meshes'.length = 2 ∧
      ∀ M ∈ meshes', PlateLayer M ∧ M.data = realPlate.data := by
  obtain ⟨ds, e, hl, hds⟩ := prepared_drawings pi false [platesJoined] (meshes.map (fun M => M.drawing))
    (fun D hD => by
      obtain ⟨M, hM, rfl⟩ := List.mem_map.mp hD
      exact (h M hM).2.2.1)
    (fun D hD => by
      obtain ⟨M, hM, rfl⟩ := List.mem_map.mp hD
      intro s hs
      rw [(h M hM).2.2.2] at hs
      cases hs)
    (by simp [platesJoined, hlen])
  obtain ⟨r, er, -⟩ := epsilon_half_shortest realPlate.data (by simp [realPlate, Elem.verts])
  have hl' : ds.length = meshes.length := by simpa using hl
  refine ⟨ds, List.zipWith (fun (M : Mesh ℝ ℝ) D =>
    { M with drawing := D, data := realPlate.data, epsilon := r.getD M.epsilon }) meshes ds, e, ⟨by simp [hl'], ?_⟩, by simp [hl', hlen], ?_⟩
  · intro k M D hM hD
    refine ⟨realPlate.data, r, rfl, er, ?_⟩
    rw [List.getElem?_zipWith, hM, hD]
  · intro M hM
    obtain ⟨k, hk⟩ := List.mem_iff_getElem?.mp hM
    rw [List.getElem?_zipWith] at hk
    cases hM0 : meshes[k]? with
    | none => rw [hM0] at hk; cases hk
    | some M0 =>
      cases hD : ds[k]? with
      | none => rw [hM0, hD] at hk; cases hk
      | some D =>
        rw [hM0, hD] at hk
        cases hk
        obtain ⟨h1, h2, h3, h4⟩ := h M0 (List.mem_of_getElem? hM0)
        obtain ⟨D0, rings, hr, hD', -⟩ := hds k M0.drawing (by rw [List.getElem?_map, hM0]; rfl)
        have hr : D0 = M0.drawing := hr
        subst hr
        rw [hD] at hD'
        cases hD'
        exact ⟨⟨h1, h2, wf_appendPoints h3 _, h4⟩, rfl⟩

theorem plate_link {meshes : List (Mesh ℝ ℝ)} (hlen : meshes.length = 2)
    (h : ∀ M ∈ meshes, PlateLayer M ∧ M.data = realPlate.data) :
    (∀ l ∈ [platesJoined], l.layer1 ≠ l.layer2 ∧ 0 < l.R ∧
      (∃ M, meshes[l.layer1]? = some M ∧ M.data.pts ≠ []) ∧
      ∃ M, meshes[l.layer2]? = some M ∧ M.data.pts ≠ []) ∧
    List.Forall₂ (Resolves meshes) [platesJoined] [⟨0, 1, 0, 0, 4⟩] := by
  match meshes, hlen with
  | [A, B], _ =>
    have hA := (h A (by simp)).2
    have hB := (h B (by simp)).2
    refine ⟨?_, .cons ⟨rfl, rfl, rfl, ⟨A, rfl, ?_⟩, ⟨B, rfl, ?_⟩⟩ .nil⟩
    · intro l hl
      cases List.mem_singleton.mp hl
      refine ⟨by simp [platesJoined], by norm_num [platesJoined], ⟨A, rfl, ?_⟩, B, rfl, ?_⟩
      · rw [hA]; simp [realPlate]
      · rw [hB]; simp [realPlate]
    · rw [hA]; exact plate_nearest _ rfl
    · rw [hB]; exact plate_nearest _ rfl

/-- Layers before the first call. -/
noncomputable def barePlate : Mesh ℝ ℝ := { realPlate with data := ⟨[], [], [], []⟩ }

theorem barePlate_layer : PlateLayer barePlate :=
  ⟨rfl, rfl, ⟨by simp [barePlate, realPlate], by simp [barePlate, realPlate],
    by simp [barePlate, realPlate]⟩, rfl⟩

theorem plate_truncates : Truncates (33 : ℝ) 33 :=
  ⟨fun _ => by constructor <;> norm_num, fun h => absurd h (by norm_num)⟩

theorem plate_generates (pi : ℝ) {meshes : List (Mesh ℝ ℝ)} (hlen : meshes.length = 2)
    (h : ∀ M ∈ meshes, PlateLayer M) (sys : List (Option (Sys ℝ))) :
    ∃ meshes' sys' g, pyGenerateSystem (realLibm pi) plateTri [.bool false] ⟨meshes, [platesJoined], sys⟩ =
      .done (⟨meshes', [platesJoined], sys'⟩, some g) ∧ meshes'.length = 2 ∧ ∀ M ∈ meshes', PlateLayer M := by
  obtain ⟨ds, meshes', e, hm, hl, hp⟩ := plate_ready pi hlen h
  obtain ⟨hlink, hN⟩ := plate_link hl hp
  obtain ⟨S, G, -, -, eG, -⟩ := generate_effect (lm := realLibm pi)
    (fun a b ha hab => Real.sqrt_lt_sqrt ha hab) (st := ⟨meshes, [platesJoined], sys⟩)
    (.refine false) plate_truncates (by norm_num) e hm (plateLayers_ok hl hp)
    (fun l hl => ⟨(hlink l hl).1, ne_of_gt (hlink l hl).2.1, (hlink l hl).2.2⟩) hN (by simp)
  exact ⟨meshes', _, G, eG, hl, fun M hM => (hp M hM).1⟩

/-- The hypotheses of `generate_repeats`: after two calls the lower plate's drawing has 42 points
although it had none. -/
example : ∃ st1 st2 g g', pyGenerateSystem (realLibm 3) plateTri [.bool false]
      ⟨[barePlate, barePlate], [platesJoined], []⟩ = .done (st1, g) ∧
    pyGenerateSystem (realLibm 3) plateTri [.bool false] st1 = .done (st2, g') ∧
    ∃ M, st2.meshes[0]? = some M ∧ M.drawing.points.length = 42 := by
  have hb : ∀ M ∈ [barePlate, barePlate], PlateLayer M := by
    intro M hM
    have : M = barePlate := by simpa using hM
    rw [this]; exact barePlate_layer
  obtain ⟨m1, s1, g1, e1, l1, p1⟩ := plate_generates 3 (meshes := [barePlate, barePlate]) rfl hb []
  obtain ⟨m2, s2, g2, e2, l2, p2⟩ := plate_generates 3 l1 p1 s1
  obtain ⟨new, M1, M2, h1, h2, h3, h4, h5, h6⟩ := generate_repeats 3 plateTri
    (st := ⟨[barePlate, barePlate], [platesJoined], []⟩) (fun M hM => (hb M hM).2.2.1)
    (fun M hM s hs => by rw [(hb M hM).2.2.2] at hs; cases hs) (by simp [platesJoined])
    (.refine false) (.refine false) e1 e2 0 barePlate rfl
  refine ⟨_, _, _, _, e1, e2, M2, h2, ?_⟩
  rw [h4]
  simp only [List.length_append, h5]
  simp [barePlate, realPlate, endsIn, platesJoined]

/-- The hypotheses of `session_solves`: seven volts at the common corner of the plates. -/
example : ∃ st1 G st2 R,
    pyGenerateSystem (realLibm 3) plateTri [.bool false] ⟨[barePlate, barePlate], [platesJoined], []⟩ =
      .done (st1, some G) ∧
    setVoltages [[.system 0, .list [.int 0, .int 0], .float 7, .int 0]] st1 = .done st2 ∧
    pySolve Real.sqrt [.system 0] st2 = .done (st2, some R) ∧
    ∃ px py v, R.volts[0]? = some (some (0, px, py, v)) ∧ |v - 7| < 1 / 10 ^ 7 := by
  have hb : ∀ M ∈ [barePlate, barePlate], PlateLayer M := by
    intro M hM
    have : M = barePlate := by simpa using hM
    rw [this]; exact barePlate_layer
  obtain ⟨ds, meshes, e, hm, hl, hp⟩ := plate_ready 3 (meshes := [barePlate, barePlate]) rfl hb
  obtain ⟨hlink, hN⟩ := plate_link hl hp
  have hok := plateLayers_ok hl hp
  match meshes, hl with
  | [A, B], _ =>
    have hA := (hp A (by simp)).2
    have hB := (hp B (by simp)).2
    have hcnt : nodeCounts [A, B] = [3, 3] := by simp [nodeCounts, hA, hB, realPlate]
    have hjoin : ∀ (k : Nat) (M : Mesh ℝ ℝ) (u : Nat), [A, B][k]? = some M → u < 3 →
        Joined [A, B] [⟨0, 1, 0, 0, 4⟩] (layerStart (nodeCounts [A, B]) k + u)
          (layerStart (nodeCounts [A, B]) k + 0) := by
      intro k M u hM hu
      left
      refine ⟨k, M, u, 0, hM, rfl, rfl, ⟨0, 1, 2⟩, ?_, ?_, by simp [Elem.verts]⟩
      · rw [(hp M (List.mem_of_getElem? hM)).2]; simp [realPlate]
      · simp only [Elem.verts, List.mem_cons, List.not_mem_nil, or_false]; omega
    have hcross : Joined [A, B] [⟨0, 1, 0, 0, 4⟩] 3 0 := by
      right
      refine ⟨⟨0, 1, 0, 0, 4⟩, by simp, ?_⟩
      rw [hcnt]
      simp [NodeLink.ends, layerStart]
    have hc : (⟨⟨0, 0⟩, 7, 0⟩ : VoltageCall ℝ).Valid ([A, B].map (fun M => M.data)) :=
      ⟨A.data, rfl, by rw [hA]; simp [realPlate]⟩
    obtain ⟨st1, G, st2, R, h1, h2, h3, h4, -, -, -, -, -, -, -, -, -, h5, -⟩ :=
      session_solves (lm := realLibm 3) (fun a b ha hab => Real.sqrt_lt_sqrt ha hab)
      (fun a ha => Real.mul_self_sqrt ha) (st := ⟨[barePlate, barePlate], [platesJoined], []⟩)
      (.refine false) plate_truncates (by norm_num) e hm hok (fun _ _ => by norm_num)
      (fun M hM => by rw [(hp M hM).1.1]; norm_num) hlink
      (by simp [elemCounts, hA, hB, realPlate]) (by rw [hcnt]; decide) (by rw [hcnt]; decide) hN (by simp)
      (calls := [⟨⟨0, 0⟩, 7, 0⟩]) (by simpa using hc) (l := [(0, 7)])
      (.cons ⟨rfl, A.data, 0, rfl, by rw [hA]; exact plate_nearest _ rfl, rfl⟩ .nil)
      (fun i hi => by
        refine ⟨(0, 7), by simp, ?_⟩
        rw [hcnt] at hi
        have hi : i < 6 := hi
        by_cases h3 : i < 3
        · have := hjoin 0 A i rfl h3
          exact Relation.ReflTransGen.single (by simpa [layerStart] using this)
        · have := hjoin 1 B (i - 3) rfl (by omega)
          rw [hcnt] at this
          simp only [layerStart, List.take_succ_cons, List.take_zero, List.sum_cons, List.sum_nil] at this
          rw [show 3 + 0 + (i - 3) = i by omega] at this
          exact Relation.ReflTransGen.head this (Relation.ReflTransGen.single hcross))
      (vargs := [[.system 0, .list [.int 0, .int 0], .float 7, .int 0]])
      (.cons ⟨_, _, _, rfl, ⟨_, _, [], rfl, by simpa using PyVal.Number.int (K := ℝ) 0 (by decide +kernel),
        by simpa using PyVal.Number.int (K := ℝ) 0 (by decide +kernel)⟩, .float _, .int 0 (by decide)⟩ .nil)
    have h2 : G.ref = 0 := h2
    rw [h2] at h4
    refine ⟨st1, G, st2, R, h1, h3, h4, ?_⟩
    exact h5 0 _ _ rfl rfl (fun m' y' hm' hy' => by
      rcases m' with _ | m'
      · omega
      · simp at hy')

/-- Angles and areas that are not rejected. -/
example : GenerateArgs [.bool true, .float 1, (.float (3 * 10 ^ 9) : PyVal ℚ)] true 1 (3 * 10 ^ 9) ∧
    (2 ^ 31 : ℚ) ≤ 3 * 10 ^ 9 ∧ OverflowArgs [.bool true, (.int (2 ^ 1024) : PyVal ℚ), .int 20] true (-1) 20 ∧
    ¬ GenerateKinds [(.int 1 : PyVal ℚ)] :=
  ⟨.angle _ _ _ (.float _) (.float _), by norm_num, .areaOf3 _ _ _ ⟨2 ^ 1024, rfl, by decide +kernel⟩ (.int 20 (by decide +kernel)), fun h => by
    obtain ⟨r, hr⟩ := h.2.1 _ rfl
    cases hr⟩

end Nikfemm
