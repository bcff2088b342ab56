import Verif.Base.Res

/-!
# `UpperTriangularMatrix` (sources/uppertriangularmatrix.cpp)
-/

namespace Lp

/-- `class UpperTriangularMatrix<T>`: `headers/uppertriangularmatrix.h:13-29`.  Cells are stored diagonal by
diagonal in `matrix`. -/
structure UTM (α : Type) where
  size : Nat
  data : List α
  deriving DecidableEq, Repr

namespace UTM
variable {α : Type}

/-- Storage index of cell `(i,j)`: `sources/uppertriangularmatrix.cpp:49,56`:
`(j-i)*size-(j-i)*((j-i)-1)/2+i` in 32-bit unsigned arithmetic (`i`,`j` are `unsigned int`). -/
def index (size i j : Nat) : Nat :=
  let n := UInt32.ofNat size
  let d := UInt32.ofNat j - UInt32.ofNat i
  (d * n - d * (d - 1) / 2 + UInt32.ofNat i).toNat

/-- `elements`: `sources/uppertriangularmatrix.cpp:16`: `((size+1)*size/2)` in 32-bit unsigned arithmetic. -/
def elements (size : Nat) : Nat :=
  ((UInt32.ofNat size + 1) * UInt32.ofNat size / 2).toNat

/-- Constructors: `sources/uppertriangularmatrix.cpp:16-44`: `elements` copies of an initial value (for the
`shared_ptr` instantiations: that many fresh default objects). -/
def mk' (size : Nat) (v : α) : UTM α := ⟨size, List.replicate (elements size) v⟩

/-- `T operator()(i,j)`: `sources/uppertriangularmatrix.cpp:47-50`. -/
def get (m : UTM α) (i j : Nat) : Res α := vget m.data (index m.size i j)

/-- `void operator()(i,j,value)`: `sources/uppertriangularmatrix.cpp:53-57`.  For the `shared_ptr`
instantiations also models in-place modification of the pointed-to object (each cell owns its object). -/
def set (m : UTM α) (i j : Nat) (v : α) : Res (UTM α) := do
  let d ← vset m.data (index m.size i j) v
  return { m with data := d }

/-- `getElements()`: `sources/uppertriangularmatrix.cpp:3-7`. -/
def getElements (m : UTM α) : Nat := elements m.size

/-- `getSize()`: `sources/uppertriangularmatrix.cpp:9-13`.  The member is an `unsigned int`, the result an `int`:
the same number for every size below `2^31`. -/
def getSize (m : UTM α) : Nat := m.size

/-- `T operator[](i)`: `sources/uppertriangularmatrix.cpp:59-60`: the storage read by position. -/
def at' (m : UTM α) (i : Nat) : Res α := vget m.data i

end UTM
end Lp
