import Verif.Model.Mesh

/-!
# Regions of a mesh (`mesh/mesh.hpp:453-556`)
-/

namespace Nikfemm

section
variable {K P σ : Type} [Field K] [LinearOrder K]

/-- The search among several polygons, `mesh.hpp:470-483`; the inner loop with `break` is `any`.
Without a suitable polygon the result stays empty. -/
def innermostLoop (all : List (Polygon K)) : List (Polygon K) → Polygon K
  | [] => []
  | Q :: rest =>
    if all.any (fun R => !(Q.eqv R) && Q.containsPolygon R) then innermostLoop all rest else Q

/-- `getInnermostPolygon`, `mesh.hpp:453-487`. -/
def Mesh.getInnermostPolygon (M : Mesh K P) (p : Vec K) : Res (Polygon K) :=
  let tp := p.sub M.center
  let found := M.drawing.polygons.filter (fun Q => Q.contains tp)
  if found.length = 0 then .error .throw
  else if found.length = 1 then rd found 0
  else .ok (innermostLoop found found)

/-- The loop over the triangles shared by the functions below, `mesh.hpp:495-503`: triangles with
all three corners in the polygon. -/
def MeshData.regionLoop (D : MeshData K) (Q : Polygon K) (step : σ → Vec K → Vec K → Vec K → σ)
    (s : σ) : Res σ :=
  forUp 0 D.tris.length (fun i s => do
    let e ← rd D.tris i
    let p1 ← rd D.pts e.v0
    let p2 ← rd D.pts e.v1
    let p3 ← rd D.pts e.v2
    if Q.contains p1 && Q.contains p2 && Q.contains p3 then .ok (step s p1 p2 p3) else .ok s) s

/-- `(p1 + p2 + p3) / 3`. -/
def Vec.third (p1 p2 p3 : Vec K) : Vec K :=
  let q := (p1.add p2).add p3
  ⟨q.x / 3, q.y / 3⟩

/-- `computeAreaIntegral`, `mesh.hpp:490-506`. -/
def Mesh.computeAreaIntegral (M : Mesh K P) (p : Vec K) : Res K := do
  let Q ← M.getInnermostPolygon p
  M.data.regionLoop Q (fun area p1 p2 p3 => area + Vec.area p1 p2 p3) 0

/-- `computeMass`, `mesh.hpp:509-512`. -/
def Mesh.computeMass (M : Mesh K P) (p : Vec K) (density : K) : Res K := do
  let area ← M.computeAreaIntegral p
  .ok (area * M.depth * density)

/-- `computeBarycenter`, `mesh.hpp:515-534`. -/
def Mesh.computeBarycenter (M : Mesh K P) (p : Vec K) : Res (Vec K) := do
  let Q ← M.getInnermostPolygon p
  let (area, b) ← M.data.regionLoop Q (fun (s : K × Vec K) p1 p2 p3 =>
    let a := Vec.area p1 p2 p3
    (s.1 + a, s.2.add ((Vec.third p1 p2 p3).smul a))) (0, ⟨0, 0⟩)
  let x ← fdiv b.x area
  let y ← fdiv b.y area
  .ok ⟨x, y⟩

/-- `computeInertiaMoment`, `mesh.hpp:537-556`. -/
def Mesh.computeInertiaMoment (M : Mesh K P) (p center : Vec K) (density : K) : Res K := do
  let Q ← M.getInnermostPolygon p
  let moment ← M.data.regionLoop Q (fun m p1 p2 p3 =>
    m + Vec.area p1 p2 p3 * ((Vec.third p1 p2 p3).sub center).normSq) 0
  .ok (moment * M.depth * density)

end

end Nikfemm
