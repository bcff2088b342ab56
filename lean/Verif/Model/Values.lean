import Verif.Base.Num
import Verif.Model.Meta

/-!
# Value containers (sources/ovaluesn.cpp, hvaluesn.cpp, dvaluesn.cpp, ovalues.cpp, hvalues.cpp, dvalues.cpp)

A C++ `vector<vector<...<double>>>` is a nested list.  Products of dimensions are `unsigned int`: they wrap at 2^32.  (Of the vector
constructors: the products are `size_t`, narrowed to `unsigned int` when passed to the base class.)  Single dimensions are natural numbers.
-/

namespace Lp
variable {K : Type}

/-- `vector< vector<double> >` and so on. -/
abbrev V1 (K : Type) := List K
abbrev V2 (K : Type) := List (List K)
abbrev V3 (K : Type) := List (List (List K))
abbrev V4 (K : Type) := List (List (List (List K)))

/-- `SIZE1`: `headers/lpglobal.h:20`. -/
def SIZE1 {α : Type} (v : List α) : Nat := v.length
/-- `SIZE2`: `headers/lpglobal.h:21`. -/
def SIZE2 {α : Type} (v : List (List α)) : Nat := match v with | [] => 0 | a :: _ => a.length
/-- `SIZE3`: `headers/lpglobal.h:22`. -/
def SIZE3 {α : Type} (v : List (List (List α))) : Nat := match v with | (a :: _) :: _ => a.length | _ => 0
/-- `SIZE4`: `headers/lpglobal.h:23`. -/
def SIZE4 {α : Type} (v : List (List (List (List α)))) : Nat :=
  match v with | ((a :: _) :: _) :: _ => a.length | _ => 0

/-- Nested reads `v[a][b]`, ... -/
def get2 {α : Type} (v : List (List α)) (a b : Nat) : Res α := do vget (← vget v a) b
def get3 {α : Type} (v : List (List (List α))) (a b c : Nat) : Res α := do vget (← get2 v a b) c
def get4 {α : Type} (v : List (List (List (List α)))) (a b c d : Nat) : Res α := do vget (← get3 v a b c) d

/-- Nested writes `v[a][b] = x`, ... -/
def set2 {α : Type} (v : List (List α)) (a b : Nat) (x : α) : Res (List (List α)) := do
  let r ← vget v a; let r' ← vset r b x; vset v a r'
def set3 {α : Type} (v : List (List (List α))) (a b c : Nat) (x : α) : Res (List (List (List α))) := do
  let r ← vget v a; let r' ← set2 r b c x; vset v a r'
def set4 {α : Type} (v : List (List (List (List α)))) (a b c d : Nat) (x : α) :
    Res (List (List (List (List α)))) := do
  let r ← vget v a; let r' ← set3 r b c d x; vset v a r'

/-! ## The three abstract interfaces -/

/-- `class OValues`: `headers/ovalues.h:10-20`; `series k` is the virtual `operator[](k)`. -/
structure OValues (K : Type) where
  vsize : Nat
  osize : Nat
  series : Nat → Res (List K)

/-- `class HValues`: `headers/hvalues.h:47-58`; `value h k` is `(*values)[h][k]`, i.e. the virtual
`getValue(h,k)` (`sources/hvalues.cpp:8-11,48-51`). -/
structure HValues (K : Type) where
  vsize : Nat
  md : HMeta
  value : Nat → Nat → Res K

/-- `class DValues`: `headers/dvalues.h:16-30`; `series h k` is `(*values)[h][k]`, i.e. the virtual
`getValue(h,k)` (`sources/dvalues.cpp:9-12,35-38`). -/
structure DValues (K : Type) where
  vsize : Nat
  osize : Nat
  md : HMeta
  series : Nat → Nat → Res (List K)

/-! ## Index arithmetic of the flattened dimensions -/

/-- Conversion to `unsigned int`. -/
def u32 (n : Nat) : Nat := n % 4294967296

/-- `toI`, `toJ` of the 3-dimensional containers: `sources/ovaluesn.cpp:55-61`, `sources/hvaluesn.cpp:68-74`,
and of `DValuesN4`: `sources/dvaluesn.cpp:53-61`.  Division by zero (an `int` division trap) only if `j = 0`. -/
def toI3 (j index : Nat) : Nat := index / j
def toJ3 (j index : Nat) : Nat := index % j

/-- `toI`, `toJ`, `toK` of the 4-dimensional containers: `sources/ovaluesn.cpp:100-110`,
`sources/hvaluesn.cpp:109-119`. -/
def toI4 (j k index : Nat) : Nat := index / u32 (k * j)
def toJ4 (j k index : Nat) : Nat := (index / k) % j
def toK4 (k index : Nat) : Nat := index % k

/-- `vector<..>(n, x)` nested, as in the constructors taking dimensions. -/
def rep2 {α : Type} (a b : Nat) (x : α) : List (List α) := List.replicate a (List.replicate b x)
def rep3 {α : Type} (a b c : Nat) (x : α) : List (List (List α)) := List.replicate a (rep2 b c x)
def rep4 {α : Type} (a b c d : Nat) (x : α) : List (List (List (List α))) := List.replicate a (rep3 b c d x)

/-! ## Ordered values

One structure per class, with its fields; `ofVec` and `ofDims` are the two constructors, `series` is
`operator[](index)`, `read` and `write` the two overloads of `operator()`, `toOValues` the view through the base
class. -/

/-- `class OValuesN1`: `headers/ovaluesn.h:9-19`. -/
structure OValuesN1 (K : Type) where
  vsize : Nat
  osize : Nat
  values : V1 K

namespace OValuesN1

/-- Constructor from a vector: `sources/ovaluesn.cpp:3-6`. -/
def ofVec (v : V1 K) : OValuesN1 K := ⟨1, SIZE1 v, v⟩

/-- Constructor from dimensions, all values 0: `sources/ovaluesn.cpp:8-10`. -/
def ofDims [Zero K] (osize : Nat) : OValuesN1 K := ⟨1, osize, List.replicate osize 0⟩

/-- `operator[](index)`: `sources/ovaluesn.cpp:12-14`. -/
def series (c : OValuesN1 K) (_index : Nat) : Res (List K) := .ok c.values

/-- `operator()(o)`: `sources/ovaluesn.cpp:16-18`. -/
def read (c : OValuesN1 K) (o : Nat) : Res K := vget c.values o

/-- `operator()(o, val)`: `sources/ovaluesn.cpp:20-22`. -/
def write (c : OValuesN1 K) (o : Nat) (val : K) : Res (OValuesN1 K) := do
  let v ← vset c.values o val
  return { c with values := v }

/-- The object seen as an `OValues`. -/
def toOValues (c : OValuesN1 K) : OValues K := ⟨c.vsize, c.osize, c.series⟩

end OValuesN1

/-- `class OValuesN2`: `headers/ovaluesn.h:21-31`. -/
structure OValuesN2 (K : Type) where
  vsize : Nat
  osize : Nat
  values : V2 K

namespace OValuesN2

/-- Constructor from a vector: `sources/ovaluesn.cpp:24-27`. -/
def ofVec (v : V2 K) : OValuesN2 K := ⟨SIZE1 v, SIZE2 v, v⟩

/-- Constructor from dimensions, all values 0: `sources/ovaluesn.cpp:29-31`. -/
def ofDims [Zero K] (vsize osize : Nat) : OValuesN2 K := ⟨vsize, osize, rep2 vsize osize 0⟩

/-- `operator[](index)`: `sources/ovaluesn.cpp:33-35`. -/
def series (c : OValuesN2 K) (index : Nat) : Res (List K) := vget c.values index

/-- `operator()(a, o)`: `sources/ovaluesn.cpp:37-39`. -/
def read (c : OValuesN2 K) (a o : Nat) : Res K := get2 c.values a o

/-- `operator()(a, o, val)`: `sources/ovaluesn.cpp:41-43`. -/
def write (c : OValuesN2 K) (a o : Nat) (val : K) : Res (OValuesN2 K) := do
  let v ← set2 c.values a o val
  return { c with values := v }

/-- The object seen as an `OValues`. -/
def toOValues (c : OValuesN2 K) : OValues K := ⟨c.vsize, c.osize, c.series⟩

end OValuesN2

/-- `class OValuesN3`: `headers/ovaluesn.h:33-49`. -/
structure OValuesN3 (K : Type) where
  vsize : Nat
  osize : Nat
  i : Nat
  j : Nat
  values : V3 K

namespace OValuesN3

/-- Constructor from a vector: `sources/ovaluesn.cpp:63-67`. -/
def ofVec (v : V3 K) : OValuesN3 K := ⟨u32 (SIZE1 v * SIZE2 v), SIZE3 v, SIZE1 v, SIZE2 v, v⟩

/-- Constructor from dimensions, all values 0: `sources/ovaluesn.cpp:69-71`. -/
def ofDims [Zero K] (i j osize : Nat) : OValuesN3 K := ⟨u32 (i * j), osize, i, j, rep3 i j osize 0⟩

/-- `operator[](index)`: `sources/ovaluesn.cpp:73-75`. -/
def series (c : OValuesN3 K) (index : Nat) : Res (List K) := get2 c.values (toI3 c.j index) (toJ3 c.j index)

/-- `operator()(a, b, o)`: `sources/ovaluesn.cpp:77-79`. -/
def read (c : OValuesN3 K) (a b o : Nat) : Res K := get3 c.values a b o

/-- `operator()(a, b, o, val)`: `sources/ovaluesn.cpp:81-83`. -/
def write (c : OValuesN3 K) (a b o : Nat) (val : K) : Res (OValuesN3 K) := do
  let v ← set3 c.values a b o val
  return { c with values := v }

/-- The object seen as an `OValues`. -/
def toOValues (c : OValuesN3 K) : OValues K := ⟨c.vsize, c.osize, c.series⟩

end OValuesN3

/-- `class OValuesN4`: `headers/ovaluesn.h:51-70`. -/
structure OValuesN4 (K : Type) where
  vsize : Nat
  osize : Nat
  i : Nat
  j : Nat
  k : Nat
  values : V4 K

namespace OValuesN4

/-- Constructor from a vector: `sources/ovaluesn.cpp:112-116`. -/
def ofVec (v : V4 K) : OValuesN4 K := ⟨u32 (SIZE1 v * SIZE2 v * SIZE3 v), SIZE4 v, SIZE1 v, SIZE2 v, SIZE3 v, v⟩

/-- Constructor from dimensions, all values 0: `sources/ovaluesn.cpp:118-120`. -/
def ofDims [Zero K] (i j k osize : Nat) : OValuesN4 K := ⟨u32 (i * j * k), osize, i, j, k, rep4 i j k osize 0⟩

/-- `operator[](index)`: `sources/ovaluesn.cpp:122-124`. -/
def series (c : OValuesN4 K) (index : Nat) : Res (List K) := get3 c.values (toI4 c.j c.k index) (toJ4 c.j c.k index) (toK4 c.k index)

/-- `operator()(a, b, e, o)`: `sources/ovaluesn.cpp:126-128`. -/
def read (c : OValuesN4 K) (a b e o : Nat) : Res K := get4 c.values a b e o

/-- `operator()(a, b, e, o, val)`: `sources/ovaluesn.cpp:130-132`. -/
def write (c : OValuesN4 K) (a b e o : Nat) (val : K) : Res (OValuesN4 K) := do
  let v ← set4 c.values a b e o val
  return { c with values := v }

/-- The object seen as an `OValues`. -/
def toOValues (c : OValuesN4 K) : OValues K := ⟨c.vsize, c.osize, c.series⟩

end OValuesN4

/-! ## Hierarchical values

As above; `value` is the virtual `getValue(h, index)`. -/

/-- `class HValuesN1`: `headers/hvaluesn.h:9-19`. -/
structure HValuesN1 (K : Type) where
  vsize : Nat
  md : HMeta
  values : V1 K

namespace HValuesN1

/-- Constructor from a vector: `sources/hvaluesn.cpp:24-27`. -/
def ofVec (v : V1 K) (parents : List Int) : Res (HValuesN1 K) := do
  let md ← mkMeta (SIZE1 v) parents
  return ⟨1, md, v⟩

/-- Constructor from dimensions, all values 0: `sources/hvaluesn.cpp:29-31`. -/
def ofDims [Zero K] (leaves : Nat) (parents : List Int) : Res (HValuesN1 K) := do
  let md ← mkMeta leaves parents
  return ⟨1, md, List.replicate leaves 0⟩

/-- `getValue(h, index)`: `sources/hvaluesn.cpp:4-7`. -/
def value (c : HValuesN1 K) (h _index : Nat) : Res K := vget c.values h

/-- `operator()(h)`: `sources/hvaluesn.cpp:33-35`. -/
def read (c : HValuesN1 K) (h : Nat) : Res K := vget c.values h

/-- `operator()(h, val)`: `sources/hvaluesn.cpp:37-39`. -/
def write (c : HValuesN1 K) (h : Nat) (val : K) : Res (HValuesN1 K) := do
  let v ← vset c.values h val
  return { c with values := v }

/-- The object seen as an `HValues`. -/
def toHValues (c : HValuesN1 K) : HValues K := ⟨c.vsize, c.md, c.value⟩

end HValuesN1

/-- `class HValuesN2`: `headers/hvaluesn.h:21-31`. -/
structure HValuesN2 (K : Type) where
  vsize : Nat
  md : HMeta
  values : V2 K

namespace HValuesN2

/-- Constructor from a vector: `sources/hvaluesn.cpp:41-44`. -/
def ofVec (v : V2 K) (parents : List Int) : Res (HValuesN2 K) := do
  let md ← mkMeta (SIZE1 v) parents
  return ⟨SIZE2 v, md, v⟩

/-- Constructor from dimensions, all values 0: `sources/hvaluesn.cpp:46-48`. -/
def ofDims [Zero K] (leaves vsize : Nat) (parents : List Int) : Res (HValuesN2 K) := do
  let md ← mkMeta leaves parents
  return ⟨vsize, md, rep2 leaves vsize 0⟩

/-- `getValue(h, index)`: `sources/hvaluesn.cpp:9-12`. -/
def value (c : HValuesN2 K) (h index : Nat) : Res K := get2 c.values h index

/-- `operator()(h, a)`: `sources/hvaluesn.cpp:50-52`. -/
def read (c : HValuesN2 K) (h a : Nat) : Res K := get2 c.values h a

/-- `operator()(h, a, val)`: `sources/hvaluesn.cpp:54-56`. -/
def write (c : HValuesN2 K) (h a : Nat) (val : K) : Res (HValuesN2 K) := do
  let v ← set2 c.values h a val
  return { c with values := v }

/-- The object seen as an `HValues`. -/
def toHValues (c : HValuesN2 K) : HValues K := ⟨c.vsize, c.md, c.value⟩

end HValuesN2

/-- `class HValuesN3`: `headers/hvaluesn.h:33-49`. -/
structure HValuesN3 (K : Type) where
  vsize : Nat
  md : HMeta
  i : Nat
  j : Nat
  values : V3 K

namespace HValuesN3

/-- Constructor from a vector: `sources/hvaluesn.cpp:76-80`. -/
def ofVec (v : V3 K) (parents : List Int) : Res (HValuesN3 K) := do
  let md ← mkMeta (SIZE1 v) parents
  return ⟨u32 (SIZE2 v * SIZE3 v), md, SIZE2 v, SIZE3 v, v⟩

/-- Constructor from dimensions, all values 0: `sources/hvaluesn.cpp:82-84`. -/
def ofDims [Zero K] (leaves i j : Nat) (parents : List Int) : Res (HValuesN3 K) := do
  let md ← mkMeta leaves parents
  return ⟨u32 (i * j), md, i, j, rep3 leaves i j 0⟩

/-- `getValue(h, index)`: `sources/hvaluesn.cpp:14-17`. -/
def value (c : HValuesN3 K) (h index : Nat) : Res K := get3 c.values h (toI3 c.j index) (toJ3 c.j index)

/-- `operator()(h, a, b)`: `sources/hvaluesn.cpp:86-88`. -/
def read (c : HValuesN3 K) (h a b : Nat) : Res K := get3 c.values h a b

/-- `operator()(h, a, b, val)`: `sources/hvaluesn.cpp:90-92`. -/
def write (c : HValuesN3 K) (h a b : Nat) (val : K) : Res (HValuesN3 K) := do
  let v ← set3 c.values h a b val
  return { c with values := v }

/-- The object seen as an `HValues`. -/
def toHValues (c : HValuesN3 K) : HValues K := ⟨c.vsize, c.md, c.value⟩

end HValuesN3

/-- `class HValuesN4`: `headers/hvaluesn.h:51-70`. -/
structure HValuesN4 (K : Type) where
  vsize : Nat
  md : HMeta
  i : Nat
  j : Nat
  k : Nat
  values : V4 K

namespace HValuesN4

/-- Constructor from a vector: `sources/hvaluesn.cpp:121-125`. -/
def ofVec (v : V4 K) (parents : List Int) : Res (HValuesN4 K) := do
  let md ← mkMeta (SIZE1 v) parents
  return ⟨u32 (SIZE2 v * SIZE3 v * SIZE4 v), md, SIZE2 v, SIZE3 v, SIZE4 v, v⟩

/-- Constructor from dimensions, all values 0: `sources/hvaluesn.cpp:127-129`. -/
def ofDims [Zero K] (leaves i j k : Nat) (parents : List Int) : Res (HValuesN4 K) := do
  let md ← mkMeta leaves parents
  return ⟨u32 (i * j * k), md, i, j, k, rep4 leaves i j k 0⟩

/-- `getValue(h, index)`: `sources/hvaluesn.cpp:19-22`. -/
def value (c : HValuesN4 K) (h index : Nat) : Res K := get4 c.values h (toI4 c.j c.k index) (toJ4 c.j c.k index) (toK4 c.k index)

/-- `operator()(h, a, b, e)`: `sources/hvaluesn.cpp:131-133`. -/
def read (c : HValuesN4 K) (h a b e : Nat) : Res K := get4 c.values h a b e

/-- `operator()(h, a, b, e, val)`: `sources/hvaluesn.cpp:135-137`. -/
def write (c : HValuesN4 K) (h a b e : Nat) (val : K) : Res (HValuesN4 K) := do
  let v ← set4 c.values h a b e val
  return { c with values := v }

/-- The object seen as an `HValues`. -/
def toHValues (c : HValuesN4 K) : HValues K := ⟨c.vsize, c.md, c.value⟩

end HValuesN4

/-! ## Spatiotemporal values

As above; `series` is the virtual `getValue(h, index)`. -/

/-- `class DValuesN2`: `headers/dvaluesn.h:9-19`. -/
structure DValuesN2 (K : Type) where
  vsize : Nat
  osize : Nat
  md : HMeta
  values : V2 K

namespace DValuesN2

/-- Constructor from a vector: `sources/dvaluesn.cpp:3-6`. -/
def ofVec (v : V2 K) (parents : List Int) : Res (DValuesN2 K) := do
  let md ← mkMeta (SIZE1 v) parents
  return ⟨1, SIZE2 v, md, v⟩

/-- Constructor from dimensions, all values 0: `sources/dvaluesn.cpp:8-11`. -/
def ofDims [Zero K] (leaves osize : Nat) (parents : List Int) : Res (DValuesN2 K) := do
  let md ← mkMeta leaves parents
  return ⟨1, osize, md, rep2 leaves osize 0⟩

/-- `getValue(h, index)`: `sources/dvaluesn.cpp:23-26`. -/
def series (c : DValuesN2 K) (h _index : Nat) : Res (List K) := vget c.values h

/-- `operator()(h, o)`: `sources/dvaluesn.cpp:13-16`. -/
def read (c : DValuesN2 K) (h o : Nat) : Res K := get2 c.values h o

/-- `operator()(h, o, val)`: `sources/dvaluesn.cpp:18-21`. -/
def write (c : DValuesN2 K) (h o : Nat) (val : K) : Res (DValuesN2 K) := do
  let v ← set2 c.values h o val
  return { c with values := v }

/-- The object seen as a `DValues`. -/
def toDValues (c : DValuesN2 K) : DValues K := ⟨c.vsize, c.osize, c.md, c.series⟩

end DValuesN2

/-- `class DValuesN3`: `headers/dvaluesn.h:21-31`. -/
structure DValuesN3 (K : Type) where
  vsize : Nat
  osize : Nat
  md : HMeta
  values : V3 K

namespace DValuesN3

/-- Constructor from a vector: `sources/dvaluesn.cpp:28-31`. -/
def ofVec (v : V3 K) (parents : List Int) : Res (DValuesN3 K) := do
  let md ← mkMeta (SIZE1 v) parents
  return ⟨SIZE2 v, SIZE3 v, md, v⟩

/-- Constructor from dimensions, all values 0: `sources/dvaluesn.cpp:33-36`. -/
def ofDims [Zero K] (leaves vsize osize : Nat) (parents : List Int) : Res (DValuesN3 K) := do
  let md ← mkMeta leaves parents
  return ⟨vsize, osize, md, rep3 leaves vsize osize 0⟩

/-- `getValue(h, index)`: `sources/dvaluesn.cpp:48-51`. -/
def series (c : DValuesN3 K) (h index : Nat) : Res (List K) := get2 c.values h index

/-- `operator()(h, a, o)`: `sources/dvaluesn.cpp:38-41`. -/
def read (c : DValuesN3 K) (h a o : Nat) : Res K := get3 c.values h a o

/-- `operator()(h, a, o, val)`: `sources/dvaluesn.cpp:43-46`. -/
def write (c : DValuesN3 K) (h a o : Nat) (val : K) : Res (DValuesN3 K) := do
  let v ← set3 c.values h a o val
  return { c with values := v }

/-- The object seen as a `DValues`. -/
def toDValues (c : DValuesN3 K) : DValues K := ⟨c.vsize, c.osize, c.md, c.series⟩

end DValuesN3

/-- `class DValuesN4`: `headers/dvaluesn.h:33-49`. -/
structure DValuesN4 (K : Type) where
  vsize : Nat
  osize : Nat
  md : HMeta
  i : Nat
  j : Nat
  values : V4 K

namespace DValuesN4

/-- Constructor from a vector: `sources/dvaluesn.cpp:63-66`. -/
def ofVec (v : V4 K) (parents : List Int) : Res (DValuesN4 K) := do
  let md ← mkMeta (SIZE1 v) parents
  return ⟨u32 (SIZE2 v * SIZE3 v), SIZE4 v, md, SIZE2 v, SIZE3 v, v⟩

/-- Constructor from dimensions, all values 0: `sources/dvaluesn.cpp:68-71`. -/
def ofDims [Zero K] (leaves i j osize : Nat) (parents : List Int) : Res (DValuesN4 K) := do
  let md ← mkMeta leaves parents
  return ⟨u32 (i * j), osize, md, i, j, rep4 leaves i j osize 0⟩

/-- `getValue(h, index)`: `sources/dvaluesn.cpp:93-96`. -/
def series (c : DValuesN4 K) (h index : Nat) : Res (List K) := get3 c.values h (toI3 c.j index) (toJ3 c.j index)

/-- `operator()(h, a, b, o)`: `sources/dvaluesn.cpp:73-76`. -/
def read (c : DValuesN4 K) (h a b o : Nat) : Res K := get4 c.values h a b o

/-- `operator()(h, a, b, o, val)`: `sources/dvaluesn.cpp:78-81`. -/
def write (c : DValuesN4 K) (h a b o : Nat) (val : K) : Res (DValuesN4 K) := do
  let v ← set4 c.values h a b o val
  return { c with values := v }

/-- The object seen as a `DValues`. -/
def toDValues (c : DValuesN4 K) : DValues K := ⟨c.vsize, c.osize, c.md, c.series⟩

end DValuesN4

end Lp
