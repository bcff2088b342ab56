import Verif.Model.Objects

/-!
# Specification: `Tradeoff` and `Quality` as plain values

What a user who does not know about the shared pointers expects of the calls of `Model/Objects.lean`: each variable
holds its own numbers.
-/

namespace Lp.Spec
variable {F K : Type}

/-- Each tradeoff has a value, a gain and a loss; each handle stands for a gain and a loss. -/
structure Values (K : Type) where
  tr : List (Tradeoff K)
  hd : List (Quality K)

variable [LD K]

/-- What the getters `getValue()`, `getQuality()->getGain()`, `->getLoss()` report of all variables. -/
def observe (s : Store K) : Values K :=
  ⟨s.tr.map (fun t => ⟨t.value, (s.mem[t.ptr]?.getD Quality.zero).gain, (s.mem[t.ptr]?.getD Quality.zero).loss⟩),
   s.hd.map (fun a => s.mem[a]?.getD Quality.zero)⟩

/-- What each operator sign means. -/
def signed (o : Arith) (x y : K) : K :=
  match o with
  | .add => x + y
  | .sub => x - y
  | .mul => x * y
  | .div => x / y

/-- One call, on values. -/
def Values.step [FloatP F K] (v : Values K) : Call F K → Res (Values K)
  | .qNew h g l => do return ⟨v.tr, ← vset v.hd h ⟨g, l⟩⟩
  | .qCopy h h' => do return ⟨v.tr, ← vset v.hd h (← vget v.hd h')⟩
  | .qTake h i => do let t ← vget v.tr i; return ⟨v.tr, ← vset v.hd h ⟨t.gain, t.loss⟩⟩
  | .qSetGain h g => do let x ← vget v.hd h; return ⟨v.tr, ← vset v.hd h ⟨g, x.loss⟩⟩
  | .qSetLoss h l => do let x ← vget v.hd h; return ⟨v.tr, ← vset v.hd h ⟨x.gain, l⟩⟩
  | .qAddGain h g => do let x ← vget v.hd h; return ⟨v.tr, ← vset v.hd h ⟨x.gain + g, x.loss⟩⟩
  | .qAddLoss h l => do let x ← vget v.hd h; return ⟨v.tr, ← vset v.hd h ⟨x.gain, x.loss + l⟩⟩
  | .qArith o h h' => do
    let x ← vget v.hd h
    let y ← vget v.hd h'
    return ⟨v.tr, ← vset v.hd h ⟨signed o x.gain y.gain, signed o x.loss y.loss⟩⟩
  | .qBin o h h₁ h₂ => do
    let y ← vget v.hd h₁
    let z ← vget v.hd h₂
    return ⟨v.tr, ← vset v.hd h ⟨signed o y.gain z.gain, signed o y.loss z.loss⟩⟩
  | .tNew i => do return ⟨← vset v.tr i ⟨0, 0, 0⟩, v.hd⟩
  | .tOfQ i h => do let x ← vget v.hd h; return ⟨← vset v.tr i ⟨0, x.gain, x.loss⟩, v.hd⟩
  | .tOfVal i k h => do let x ← vget v.hd h; return ⟨← vset v.tr i ⟨k, x.gain, x.loss⟩, v.hd⟩
  | .tSet i h p => do
    let x ← vget v.hd h
    return ⟨← vset v.tr i ⟨FloatP.toK p * x.gain - FloatP.toK (FloatP.oneSub p) * x.loss, x.gain, x.loss⟩, v.hd⟩
  | .tPIC i p => do
    let t ← vget v.tr i
    return ⟨← vset v.tr i ⟨FloatP.toK p * t.gain - FloatP.toK (FloatP.oneSub p) * t.loss, t.gain, t.loss⟩, v.hd⟩
  | .tAssign i j => do return ⟨← vset v.tr i (← vget v.tr j), v.hd⟩
  | .tArith o i j => do
    let t ← vget v.tr i
    let u ← vget v.tr j
    return ⟨← vset v.tr i ⟨signed o t.value u.value, signed o t.gain u.gain, signed o t.loss u.loss⟩, v.hd⟩

/-- A sequence of calls, on values. -/
def Values.run [FloatP F K] (v : Values K) (l : List (Call F K)) : Res (Values K) := forEach (fun c v => v.step c) l v

/-- The object of handle `h` has no other user (`use_count() == 1`). -/
def HdAlone (s : Store K) (h : Nat) : Prop :=
  ∀ a, s.hd[h]? = some a → (∀ k, k ≠ h → s.hd[k]? ≠ some a) ∧ ∀ t ∈ s.tr, t.ptr ≠ a

/-- The object of `t_i` has no other user. -/
def TrAlone (s : Store K) (i : Nat) : Prop :=
  ∀ t, s.tr[i]? = some t → (∀ k u, k ≠ i → s.tr[k]? = some u → u.ptr ≠ t.ptr) ∧ ∀ a ∈ s.hd, a ≠ t.ptr

/-- The calls that write to an existing object find it without another user. -/
def WritesAlone (s : Store K) : Call F K → Prop
  | .qSetGain h _ | .qSetLoss h _ | .qAddGain h _ | .qAddLoss h _ | .qArith _ h _ | .qBin _ h _ _ => HdAlone s h
  | .tArith _ i _ => TrAlone s i
  | _ => True

/-- Every write of the sequence finds its object without another user. -/
def NeverShared [FloatP F K] : Store K → List (Call F K) → Prop
  | _, [] => True
  | s, c :: l => WritesAlone s c ∧ ∀ s', s.step c = .ok s' → NeverShared s' l

end Lp.Spec
