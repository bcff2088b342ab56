import Verif.Model.Heap

/-!
# Programs over `Tradeoff` variables and `shared_ptr<Quality>` handles

A user's view of `sources/tradeoff.cpp` and `sources/quality.cpp`: any sequence of calls on named `Tradeoff` variables and
named handles to `Quality` objects, with the memory of `Model/Heap.lean`.

The binary `operator+ - * /` on `Tradeoff` (`sources/tradeoff.cpp:87-124`) are declared in namespace `lpaggreg`
(`headers/tradeoff.h:40-43`) but defined in the global namespace, so the declared ones have no definition and no call of them
links; `Tradeoff.binFree` models the definitions (C65).
-/

namespace Lp
variable {F K : Type}

/-- The four compound operators. -/
inductive Arith
  | add | sub | mul | div
  deriving DecidableEq, Repr

/-- `+ - * /` on numbers (the operators inside `sources/quality.cpp:43-65`, `sources/tradeoff.cpp:59-84`). -/
def Arith.ap [LD K] : Arith → K → K → K
  | .add, x, y => x + y
  | .sub, x, y => x - y
  | .mul, x, y => x * y
  | .div, x, y => x / y

/-- One call. -/
inductive Call (F K : Type)
  | qNew (h : Nat) (g l : K)          -- `h = shared_ptr<Quality>(new Quality(g, l))`
  | qCopy (h h' : Nat)                -- `h = h'` (copies the pointer)
  | qTake (h i : Nat)                 -- `h = t_i.getQuality()`
  | qSetGain (h : Nat) (g : K)        -- `h->setGain(g)`
  | qSetLoss (h : Nat) (l : K)        -- `h->setLoss(l)`
  | qAddGain (h : Nat) (g : K)        -- `h->addToGain(g)`
  | qAddLoss (h : Nat) (l : K)        -- `h->addToLoss(l)`
  | qArith (o : Arith) (h h' : Nat)   -- `*h o= *h'`
  | qBin (o : Arith) (h h₁ h₂ : Nat)  -- `*h = *h₁ o *h₂` (implicit copy assignment of `Quality`)
  | tNew (i : Nat)                    -- `t_i = Tradeoff()`
  | tOfQ (i h : Nat)                  -- `t_i = Tradeoff(h)`
  | tOfVal (i : Nat) (v : K) (h : Nat)  -- `t_i = Tradeoff(v, h)`
  | tSet (i h : Nat) (p : F)          -- `t_i.set(h, p)`, `t_i = Tradeoff(h, p)`
  | tPIC (i : Nat) (p : F)            -- `t_i.computePIC(p)`
  | tAssign (i j : Nat)               -- `t_i = t_j` (implicit copy assignment)
  | tArith (o : Arith) (i j : Nat)    -- `t_i o= t_j`

/-- The memory and the variables. -/
structure Store (K : Type) where
  mem : Heap K
  tr : List (STr K)
  hd : List Ptr

section
variable [LD K]

/-- `*a o= *b`: `sources/quality.cpp:43-65`: first the gain is written, then the losses are read. -/
def heapArith (o : Arith) (m : Heap K) (a b : Ptr) : Res (Heap K) := do
  let x ← vget m a
  let y ← vget m b
  let m ← vset m a { x with gain := o.ap x.gain y.gain }
  let x ← vget m a
  let y ← vget m b
  vset m a { x with loss := o.ap x.loss y.loss }

/-- Binary `operator+ - * /` on `Quality`: `sources/quality.cpp:67-85`. -/
def Quality.bin : Arith → Quality K → Quality K → Quality K
  | .add, x, y => x.add y
  | .sub, x, y => x.sub y
  | .mul, x, y => x.mul y
  | .div, x, y => x.div y

/-- The four compound operators on tradeoffs, on values (`sources/tradeoff.cpp:59-84`). -/
def Tradeoff.bin : Arith → Tradeoff K → Tradeoff K → Tradeoff K
  | .add, x, y => x.add y
  | .sub, x, y => x.sub y
  | .mul, x, y => x.mul y
  | .div, x, y => x.div y

/-- Binary `operator+ - * /` on `Tradeoff`: `sources/tradeoff.cpp:87-124`: a new quality (0, 0), `+=` the first, `o=` the
second. -/
def Tradeoff.binFree (o : Arith) (x y : Tradeoff K) : Tradeoff K :=
  let q := Quality.bin o ((Quality.zero : Quality K).add ⟨x.gain, x.loss⟩) ⟨y.gain, y.loss⟩
  ⟨o.ap x.value y.value, q.gain, q.loss⟩

/-- One call on the store. -/
def Store.step [FloatP F K] (s : Store K) : Call F K → Res (Store K)
  /- `sources/quality.cpp:8-11` -/
  | .qNew h g l => do
    let hd ← vset s.hd h s.mem.length
    return ⟨s.mem ++ [⟨g, l⟩], s.tr, hd⟩
  | .qCopy h h' => do
    let a ← vget s.hd h'
    let hd ← vset s.hd h a
    return ⟨s.mem, s.tr, hd⟩
  /- `sources/tradeoff.cpp:16-19` -/
  | .qTake h i => do
    let t ← vget s.tr i
    let hd ← vset s.hd h t.ptr
    return ⟨s.mem, s.tr, hd⟩
  /- `sources/quality.cpp:18-21` -/
  | .qSetGain h g => do
    let a ← vget s.hd h
    let x ← vget s.mem a
    let m ← vset s.mem a { x with gain := g }
    return ⟨m, s.tr, s.hd⟩
  /- `sources/quality.cpp:28-31` -/
  | .qSetLoss h l => do
    let a ← vget s.hd h
    let x ← vget s.mem a
    let m ← vset s.mem a { x with loss := l }
    return ⟨m, s.tr, s.hd⟩
  /- `sources/quality.cpp:33-36` -/
  | .qAddGain h g => do
    let a ← vget s.hd h
    let x ← vget s.mem a
    let m ← vset s.mem a (x.addToGain g)
    return ⟨m, s.tr, s.hd⟩
  /- `sources/quality.cpp:38-41` -/
  | .qAddLoss h l => do
    let a ← vget s.hd h
    let x ← vget s.mem a
    let m ← vset s.mem a (x.addToLoss l)
    return ⟨m, s.tr, s.hd⟩
  /- `sources/quality.cpp:43-65` -/
  | .qArith o h h' => do
    let a ← vget s.hd h
    let b ← vget s.hd h'
    let m ← heapArith o s.mem a b
    return ⟨m, s.tr, s.hd⟩
  /- `sources/quality.cpp:67-85` -/
  | .qBin o h h₁ h₂ => do
    let b ← vget s.hd h₁
    let c ← vget s.hd h₂
    let y ← vget s.mem b
    let z ← vget s.mem c
    let a ← vget s.hd h
    let m ← vset s.mem a (Quality.bin o y z)
    return ⟨m, s.tr, s.hd⟩
  /- `sources/tradeoff.cpp:27-31` -/
  | .tNew i => do
    let tr ← vset s.tr i ⟨0, s.mem.length⟩
    return ⟨s.mem ++ [Quality.zero], tr, s.hd⟩
  /- `sources/tradeoff.cpp:52-56` -/
  | .tOfQ i h => do
    let a ← vget s.hd h
    let x ← vget s.mem a
    let tr ← vset s.tr i ⟨0, s.mem.length⟩
    return ⟨s.mem ++ [x], tr, s.hd⟩
  /- `sources/tradeoff.cpp:39-42` -/
  | .tOfVal i v h => do
    let a ← vget s.hd h
    let x ← vget s.mem a
    let tr ← vset s.tr i ⟨v, s.mem.length⟩
    return ⟨s.mem ++ [x], tr, s.hd⟩
  /- `sources/tradeoff.cpp:9-13` and `:45-49` -/
  | .tSet i h p => do
    let a ← vget s.hd h
    let (m, t) ← STr.set s.mem a p
    let tr ← vset s.tr i t
    return ⟨m, tr, s.hd⟩
  /- `sources/tradeoff.cpp:3-6` -/
  | .tPIC i p => do
    let t ← vget s.tr i
    let x ← vget s.mem t.ptr
    let tr ← vset s.tr i ⟨Tradeoff.pic p x.gain x.loss, t.ptr⟩
    return ⟨s.mem, tr, s.hd⟩
  /- no user-defined assignment (`headers/tradeoff.h:11-37`; the copy constructor is commented out, line 20) -/
  | .tAssign i j => do
    let t ← vget s.tr j
    let tr ← vset s.tr i t
    return ⟨s.mem, tr, s.hd⟩
  /- `sources/tradeoff.cpp:59-84` -/
  | .tArith o i j => do
    let t ← vget s.tr i
    let u ← vget s.tr j
    let m ← heapArith o s.mem t.ptr u.ptr
    let tr ← vset s.tr i ⟨o.ap t.value u.value, t.ptr⟩
    return ⟨m, tr, s.hd⟩

/-- A sequence of calls. -/
def Store.run [FloatP F K] (s : Store K) (l : List (Call F K)) : Res (Store K) := forEach (fun c s => s.step c) l s

/-- `nt` variables `Tradeoff t_i;` and `nh` handles to new `Quality()` objects. -/
def Store.fresh (nt nh : Nat) : Store K :=
  ⟨List.replicate (nt + nh) Quality.zero, (List.range nt).map (fun i => ⟨0, i⟩), (List.range nh).map (fun i => nt + i)⟩
end
end Lp
