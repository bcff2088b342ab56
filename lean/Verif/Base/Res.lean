/-!
# Outcomes, checked memory accesses and loops

The C++ code is modelled by total functions into `Res α = Except Fault α`.  Everything the C++ standard leaves
undefined, and everything that would make the program not return, is an explicit `Fault`.
-/

namespace Lp

/-- Ways in which an execution of the C++ code leaves defined behaviour or does not return. -/
inductive Fault
  | outOfBounds   -- `vector::operator[]` outside the vector
  | nullDeref     -- dereference of a null `shared_ptr`
  | uninit        -- read of an uninitialised variable
  | intOverflow   -- signed `int` overflow
  | badIterator   -- use of an invalidated iterator (strict reading of the standard only)
  | outOfFuel     -- the recursion/loop did not finish within the given number of steps
  deriving DecidableEq, Repr

/-- Result of running a piece of the program. -/
abbrev Res (α : Type) := Except Fault α

/-- `v[i]` for `vector<α> v` and an unsigned index. -/
def vget {α : Type} (v : List α) (i : Nat) : Res α :=
  match v[i]? with
  | some x => .ok x
  | none => .error .outOfBounds

/-- `v[i] = x`. -/
def vset {α : Type} (v : List α) (i : Nat) (x : α) : Res (List α) :=
  if i < v.length then .ok (v.set i x) else .error .outOfBounds

/-- An `int` used as a vector index: a negative one converts to a huge `size_t`, i.e. is out of range. -/
def toIdx (i : Int) : Res Nat :=
  if 0 ≤ i then .ok i.toNat else .error .outOfBounds

/-- Auxiliary: `cnt` iterations of an up-counting loop starting at `i`. -/
def forUpAux {σ : Type} (f : Nat → σ → Res σ) : Nat → Nat → σ → Res σ
  | 0, _, s => .ok s
  | n + 1, i, s =>
    match f i s with
    | .error e => .error e
    | .ok s' => forUpAux f n (i + 1) s'

/-- `for (i = lo; i < hi; i++) f`. -/
def forUp {σ : Type} (lo hi : Nat) (f : Nat → σ → Res σ) (s : σ) : Res σ := forUpAux f (hi - lo) lo s

/-- `for (i = n-1; i >= 0; i--) f`. -/
def forDown {σ : Type} : Nat → (Nat → σ → Res σ) → σ → Res σ
  | 0, _, s => .ok s
  | n + 1, f, s =>
    match f n s with
    | .error e => .error e
    | .ok s' => forDown n f s'

/-- `for (x : l) f`. -/
def forEach {α σ : Type} (f : α → σ → Res σ) : List α → σ → Res σ
  | [], s => .ok s
  | x :: l, s =>
    match f x s with
    | .error e => .error e
    | .ok s' => forEach f l s'

/-! ## Reasoning rules -/

@[simp] theorem bind_ok {α β : Type} (a : α) (f : α → Res β) :
    (Except.bind (Except.ok a : Res α) f) = f a := rfl

@[simp] theorem okBind {α β : Type} (a : α) (f : α → Res β) :
    ((Except.ok a : Res α) >>= f) = f a := rfl

@[simp] theorem errBind {α β : Type} (e : Fault) (f : α → Res β) :
    ((Except.error e : Res α) >>= f) = .error e := rfl

@[simp] theorem pureOk {α : Type} (a : α) : (pure a : Res α) = .ok a := rfl

theorem vget_ok {α : Type} {v : List α} {i : Nat} (h : i < v.length) : vget v i = .ok v[i] := by
  simp [vget, h]

theorem vget_eq_ok {α : Type} {v : List α} {i : Nat} {x : α} : vget v i = .ok x ↔ v[i]? = some x := by
  unfold vget
  cases h : v[i]? <;> simp

theorem vget_err {α : Type} {v : List α} {i : Nat} (h : v.length ≤ i) :
    vget v i = .error .outOfBounds := by
  simp [vget, h]

theorem vset_ok {α : Type} {v : List α} {i : Nat} {x : α} (h : i < v.length) :
    vset v i x = .ok (v.set i x) := by
  simp [vset, h]

theorem toIdx_nat (n : Nat) : toIdx (n : Int) = .ok n := by simp [toIdx]

theorem forUpAux_inv {σ : Type} {f : Nat → σ → Res σ} (P : Nat → σ → Prop) :
    ∀ (n i : Nat) (s : σ), P i s →
      (∀ k s, i ≤ k → k < i + n → P k s → ∃ s', f k s = .ok s' ∧ P (k + 1) s') →
      ∃ s', forUpAux f n i s = .ok s' ∧ P (i + n) s' := by
  intro n
  induction n with
  | zero => intro i s h _; exact ⟨s, rfl, h⟩
  | succ n ih =>
    intro i s h step
    obtain ⟨s1, h1, p1⟩ := step i s (Nat.le_refl _) (by omega) h
    obtain ⟨s2, h2, p2⟩ := ih (i + 1) s1 p1 (fun k t hk hk' => step k t (by omega) (by omega))
    refine ⟨s2, by simp [forUpAux, h1, h2], ?_⟩
    have : i + 1 + n = i + (n + 1) := by omega
    rwa [← this]

/-- Total-correctness rule for an up-counting loop. -/
theorem forUp_inv {σ : Type} {f : Nat → σ → Res σ} {lo hi : Nat} {s : σ} (P : Nat → σ → Prop)
    (hle : lo ≤ hi) (h0 : P lo s)
    (step : ∀ k s, lo ≤ k → k < hi → P k s → ∃ s', f k s = .ok s' ∧ P (k + 1) s') :
    ∃ s', forUp lo hi f s = .ok s' ∧ P hi s' := by
  have := forUpAux_inv (f := f) P (hi - lo) lo s h0 (fun k s h1 h2 => step k s h1 (by omega))
  rwa [Nat.add_sub_cancel' hle] at this

theorem forUpAux_succ {σ : Type} {f : Nat → σ → Res σ} : ∀ (n i : Nat) (s : σ),
    forUpAux f (n + 1) i s = (forUpAux f n i s >>= fun s => f (i + n) s) := by
  intro n
  induction n with
  | zero =>
    intro i s
    simp only [forUpAux, Nat.add_zero, okBind]
    cases f i s <;> rfl
  | succ n ih =>
    intro i s
    have e : i + 1 + n = i + (n + 1) := by omega
    cases h : f i s with
    | error e => simp [forUpAux, h]
    | ok s' =>
      have h1 : forUpAux f (n + 1 + 1) i s = forUpAux f (n + 1) (i + 1) s' := by
        rw [forUpAux]; simp [h]
      have h2 : forUpAux f (n + 1) i s = forUpAux f n (i + 1) s' := by
        rw [forUpAux]; simp [h]
      rw [h1, h2, ih (i + 1) s', e]

/-- The last iteration of an up-counting loop. -/
theorem forUp_succ {σ : Type} {f : Nat → σ → Res σ} {lo hi : Nat} {s : σ} (h : lo ≤ hi) :
    forUp lo (hi + 1) f s = (forUp lo hi f s >>= fun s => f hi s) := by
  unfold forUp
  have e : hi + 1 - lo = (hi - lo) + 1 := by omega
  rw [e, forUpAux_succ]
  have : lo + (hi - lo) = hi := by omega
  rw [this]

/-- Total-correctness rule for a down-counting loop. -/
theorem forDown_inv {σ : Type} {f : Nat → σ → Res σ} (P : Nat → σ → Prop) :
    ∀ (n : Nat) (s : σ), P n s →
      (∀ k s, k < n → P (k + 1) s → ∃ s', f k s = .ok s' ∧ P k s') →
      ∃ s', forDown n f s = .ok s' ∧ P 0 s' := by
  intro n
  induction n with
  | zero => intro s h _; exact ⟨s, rfl, h⟩
  | succ n ih =>
    intro s h step
    obtain ⟨s1, h1, p1⟩ := step n s (by omega) h
    obtain ⟨s2, h2, p2⟩ := ih s1 p1 (fun k t hk => step k t (by omega))
    exact ⟨s2, by simp [forDown, h1, h2], p2⟩

/-- Total-correctness rule for a range-for loop; the invariant sees the processed prefix. -/
theorem forEach_inv {α σ : Type} {f : α → σ → Res σ} (P : List α → σ → Prop) (l : List α) (s : σ)
    (h0 : P [] s)
    (step : ∀ pre x post s, l = pre ++ x :: post → P pre s → ∃ s', f x s = .ok s' ∧ P (pre ++ [x]) s') :
    ∃ s', forEach f l s = .ok s' ∧ P l s' := by
  suffices H : ∀ (post pre : List α) (s : σ), l = pre ++ post → P pre s →
      ∃ s', forEach f post s = .ok s' ∧ P l s' from H l [] s rfl h0
  intro post
  induction post with
  | nil => intro pre s hl hp; exact ⟨s, rfl, by simpa [hl] using hp⟩
  | cons x post ih =>
    intro pre s hl hp
    obtain ⟨s1, h1, p1⟩ := step pre x post s hl hp
    obtain ⟨s2, h2, p2⟩ := ih (pre ++ [x]) s1 (by simp [hl]) p1
    exact ⟨s2, by simp [forEach, h1, h2], p2⟩

instance {α : Type} [DecidableEq α] : DecidableEq (Res α) := fun a b =>
  match a, b with
  | .ok x, .ok y => if h : x = y then isTrue (h ▸ rfl) else isFalse (fun h' => h (Except.ok.inj h'))
  | .error x, .error y =>
    if h : x = y then isTrue (h ▸ rfl) else isFalse (fun h' => h (Except.error.inj h'))
  | .ok _, .error _ => isFalse (fun h => nomatch h)
  | .error _, .ok _ => isFalse (fun h => nomatch h)

end Lp
