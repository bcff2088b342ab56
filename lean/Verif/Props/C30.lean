import Verif.Model.History
import Verif.Props.C16

/-!
# C30 — repeated searches do not influence each other
-/

namespace Lp.C30
variable {F K P T : Type} [FloatP F K] [LD K]

/-- The last search of a history, if any. -/
def lastSearch (calls : List (PCall F)) : Option (F × F × F) :=
  calls.foldl (fun acc c => match c with
    | .search t lo hi => some (t, lo, hi)
    | _ => acc) none

/-- After any sequence of calls on a new partitioner its state (hence the result of every getter) is that of a new
partitioner on which only the last search was made; without a search it is that of a new partitioner.  In
particular `computeBestPartition`, `getP`, `computeAUC` and the getters change nothing. -/
theorem history (ops : PartOps F K P T) (strict : Bool) (fuel : Nat) (randMax : K) (rnd : K → K)
    (calls : List (PCall F)) (st : PState F K P T)
    (h : runHistory ops strict fuel randMax rnd calls PState.empty = .ok st) :
    match lastSearch calls with
    | none => st = PState.empty
    | some (t, lo, hi) => computeBestPartitions ops strict fuel t lo hi PState.empty = .ok st := by
  have key : ∀ (calls : List (PCall F)) (s0 st : PState F K P T) (o : Option (F × F × F)),
      (match o with
        | none => s0 = PState.empty
        | some (t, lo, hi) => computeBestPartitions ops strict fuel t lo hi PState.empty = .ok s0) →
      forEach (PCall.run ops strict fuel randMax rnd) calls s0 = .ok st →
      match calls.foldl (fun acc c => match c with
          | .search t lo hi => some (t, lo, hi)
          | _ => acc) o with
        | none => st = PState.empty
        | some (t, lo, hi) => computeBestPartitions ops strict fuel t lo hi PState.empty = .ok st := by
    intro calls
    induction calls with
    | nil => intro s0 st o ho h; simp only [forEach, Except.ok.injEq] at h; subst h; exact ho
    | cons c calls ih =>
      intro s0 st o ho h
      unfold forEach at h
      split at h
      · simp at h
      · rename_i s1 h1
        rw [List.foldl_cons]
        refine ih s1 st _ ?_ h
        cases c with
        | search t lo hi => exact h1
        | best p =>
          simp only [PCall.run] at h1
          cases hb : ops.best p with
          | error e => rw [hb] at h1; simp at h1
          | ok v => rw [hb] at h1; simp only [okBind, pureOk, Except.ok.injEq] at h1; subst h1; exact ho
        | getP s =>
          simp only [PCall.run] at h1
          cases hb : Lp.getP randMax s s0 with
          | error e => rw [hb] at h1; simp at h1
          | ok v => rw [hb] at h1; simp only [okBind, pureOk, Except.ok.injEq] at h1; subst h1; exact ho
        | auc =>
          simp only [PCall.run] at h1
          cases hb : computeAUC rnd s0 with
          | error e => rw [hb] at h1; simp at h1
          | ok v => rw [hb] at h1; simp only [okBind, pureOk, Except.ok.injEq] at h1; subst h1; exact ho
        | getter =>
          simp only [PCall.run, pureOk, Except.ok.injEq] at h1; subst h1; exact ho
  exact key calls PState.empty st none rfl h

/-- A search gives the same outcome (result or fault) after any history as on a new partitioner. -/
theorem search (ops : PartOps F K P T) (strict : Bool) (fuel : Nat) (randMax : K) (rnd : K → K)
    (calls : List (PCall F)) (st : PState F K P T)
    (_h : runHistory ops strict fuel randMax rnd calls PState.empty = .ok st) (t lo hi : F) :
    computeBestPartitions ops strict fuel t lo hi st = computeBestPartitions ops strict fuel t lo hi PState.empty := rfl

/-- Concrete case: two searches with other calls in between. -/
example : (runHistory (oOps C16.exQ) false 10 (2147483647 : ℚ) id
    [.search (1 / 100) 0 1, .best (1 / 2), .getP 2, .auc, .search (1 / 2) 0 1, .getter] PState.empty).map
      (fun st => (st.pList, st.tuples.length)) =
    (computeBestPartitions (oOps C16.exQ) false 10 (1 / 2 : ℚ) 0 1 PState.empty).map
      (fun st => (st.pList, st.tuples.length)) := by decide +kernel

end Lp.C30
