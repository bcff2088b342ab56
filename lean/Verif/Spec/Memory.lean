import Verif.Model.Heap

/-!
# Reading shared objects
-/

namespace Lp
variable {F K : Type} [LD K]

/-- The object at an address. -/
def deref (m : Heap K) (a : Ptr) : Quality K := (m[a]?).getD Quality.zero

/-- `m` still contains the objects of `m0`, unchanged. -/
def Keeps (m0 m : Heap K) : Prop := m0.length ≤ m.length ∧ ∀ a, a < m0.length → deref m a = deref m0 a

/-- The table with the numbers instead of the pointers. -/
def UTM.deref (m : Heap K) (q : UTM Ptr) : UTM (Quality K) := ⟨q.size, q.data.map (Lp.deref m)⟩

/-- What the getters of an ordered partition return at the moment when the memory is `m`. -/
def SOPartition.reported (m : Heap K) (P : SOPartition F) : OPartition F K :=
  ⟨P.parameter, P.cuts, P.parts.map (fun x => ⟨x.start, x.end, deref m x.quality⟩), deref m P.quality⟩

/-- The same for a hierarchical partition. -/
def SHPartition.reported (m : Heap K) (P : SHPartition F) : HPartition F K :=
  ⟨P.parameter, P.aggregated, P.parts.map (fun x => ⟨x.h, x.size, deref m x.quality⟩), deref m P.quality⟩

/-- The same for a spatiotemporal partition. -/
def SDPartition.reported (m : Heap K) (P : SDPartition F) : DPartition F K :=
  ⟨P.parameter, P.cuts, P.parts.map (fun x => ⟨x.h, x.hsize, x.start, x.end, deref m x.quality⟩), deref m P.quality⟩

end Lp
