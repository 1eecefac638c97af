import Verif.Model.GlobFunSp

/-!
Two ways in which a mesh is changed after it was made: other meshes are made from the same `Edge` objects, which give the edges new numbers
(`/repo/puncturedfem/mesh/planar_mesh.py` L146-148), and `add_edge` is called from outside.
-/

namespace PFEM

variable {K : Type} [Field K] [LinearOrder K]

/-- the mesh when its `Edge` objects are in the state `st`: a mesh has references to the edges, not copies (planar_mesh.py L131) -/
def PlanarMesh.after (m : PlanarMesh K) (st : EdgeStore K) : PlanarMesh K := { m with store := st }

/-- a global function space when the edges of its mesh are in the state `st` (globfunsp.py L187 reads the numbers) -/
def GlobFunSp.after (s : GlobFunSp K) (st : EdgeStore K) : GlobFunSp K := { s with mesh := s.mesh.after st }

/-- `add_edge` called for an existing mesh (planar_mesh.py L113-132) -/
def PlanarMesh.addTo (m : PlanarMesh K) (e : ℕ) : Py (PlanarMesh K) := do
  let (es, n) ← addEdge m.store (m.edges, m.numEdges) e
  .ok { m with edges := es, numEdges := n }

end PFEM
