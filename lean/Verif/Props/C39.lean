import Verif.Proofs.SearchList
import Verif.Props.C29
import Verif.Proofs.SampleRuns

/-!
# C39 — the loop that removes repeated partitions and iterator validity

`strict = true` is the reading of the C++ standard: the iterator given to `vector::erase` is invalid afterwards, and
the loop decrements it.  `strict = false` is what libstdc++ does.
-/

namespace Lp.C39
open Spec
variable {F K P T : Type} [Field K] [LinearOrder K] [FloatP F K] {u : K}

theorem dedup_aux {ops : PartOps F K P T} {B : F → P} (fl : FloatLaws F K u) (L : List F) :
    ∀ idx, idx + 1 ≤ L.length →
    dedup ops true idx ⟨L, L.map (fun p => (p, B p))⟩ =
      if List.IsChain (fun x y => ops.same (B y) (B x) = false) (L.take (idx + 1)) then
        .ok ⟨L, L.map (fun p => (p, B p))⟩ else .error .badIterator := by
  intro idx
  induction idx with
  | zero =>
    intro h
    cases L with
    | nil => simp at h
    | cons x L => simp [dedup]
  | succ idx ih =>
    intro h
    obtain ⟨pre, y, x, post, rfl, hl⟩ : ∃ pre y x post, L = pre ++ y :: x :: post ∧ pre.length = idx := by
      refine ⟨L.take idx, L[idx], L[idx + 1], L.drop (idx + 2), ?_, by simp; omega⟩
      rw [← List.drop_eq_getElem_cons (by omega), ← List.drop_eq_getElem_cons (by omega), List.take_append_drop]
    have gx : vget (pre ++ y :: x :: post) (idx + 1) = .ok x := by
      rw [vget_eq_ok, List.getElem?_append_right (by omega)]; simp [hl]
    have gy : vget (pre ++ y :: x :: post) idx = .ok y := by
      rw [vget_eq_ok, List.getElem?_append_right (by omega)]; simp [hl]
    have t2 : (pre ++ y :: x :: post).take (idx + 1 + 1) = pre ++ y :: [x] := by
      rw [List.take_append, List.take_of_length_le (by omega), show idx + 1 + 1 - pre.length = 2 by omega]; rfl
    have t1 : (pre ++ y :: x :: post).take (idx + 1) = pre ++ [y] := by
      rw [List.take_append, List.take_of_length_le (by omega), show idx + 1 - pre.length = 1 by omega]; rfl
    rw [t2]
    unfold dedup
    simp only [gx, gy, okBind]
    rw [mapDeref_ent fl B (by simp), mapDeref_ent fl B (by simp)]
    simp only [okBind]
    have hsp : List.IsChain (fun x y => ops.same (B y) (B x) = false) (pre ++ y :: [x]) ↔
        List.IsChain (fun x y => ops.same (B y) (B x) = false) (pre ++ [y]) ∧ ops.same (B x) (B y) = false := by
      rw [List.isChain_split]; simp
    split
    · rename_i hs
      simp only [hsp, hs]
      simp
    · rename_i hs
      rw [ih (by omega), t1]
      simp only [hsp]
      simp [hs]

/-- Under the strict reading a search that samples the parameters `L` (between `lo` and `hi`) has a defined result
exactly when no two consecutive sampled partitions are equal, and then nothing is removed: the result is the one
of the lenient reading. Otherwise it is undefined behaviour. -/
theorem strict (fl : FloatLaws F K u) (ops : PartOps F K P T) (ho : IsPartitioner ops) (t lo hi : F)
    (h0 : (0 : K) ≤ FloatP.toK lo) (hlt : (FloatP.toK lo : K) < FloatP.toK hi) (h1 : (FloatP.toK hi : K) ≤ 1)
    (fuel : Nat) (st st' : PState F K P T) (h : computeBestPartitions ops false fuel t lo hi st = .ok st') :
    ∃ (L : List F) (Ps : List P), L.map ops.best = Ps.map .ok ∧
      L.head? = some lo ∧ L.getLast? = some hi ∧ L.Pairwise (fun x y => (FloatP.toK x : K) < FloatP.toK y) ∧
      (List.IsChain (fun x y => ops.same y x = false) Ps →
        computeBestPartitions ops true fuel t lo hi st = .ok st' ∧ st'.pList = L) ∧
      (¬ List.IsChain (fun x y => ops.same y x = false) Ps →
        computeBestPartitions ops true fuel t lo hi st = .error .badIterator ∧ st'.pList.length < L.length) := by
  obtain ⟨B, so⟩ := isPartitioner_ops ho
  cases hA : addBest ops t fuel (B lo) (B hi) ⟨[lo], [lo].map (fun p => (p, B p))⟩ with
  | error e =>
    unfold computeBestPartitions at h
    simp only [so.best, okBind, List.nil_append] at h
    have e1 : (mapInsert lo (B lo) [] : List (F × P)) = [lo].map (fun p => (p, B p)) := rfl
    rw [e1, hA] at h
    simp at h
  | ok s1 =>
    obtain ⟨S, rfl, hc, hb⟩ := addBest_spec fl so t fuel lo hi [lo] s1 h0 hlt h1 (by simp) hA
    have hpw := resolved_pairwise hc
    have hins : mapInsert hi (B hi) (([lo] ++ S).map (fun p => (p, B p))) =
        (lo :: S ++ [hi]).map (fun p => (p, B p)) := by
      rw [mapInsert_last fl]
      · simp
      · intro e he
        obtain ⟨x, hx, rfl⟩ := List.mem_map.mp he
        simp at hx
        rcases hx with rfl | hx
        · exact hlt
        · exact (hb x hx).2
    have hrun : ∀ strict, computeBestPartitions ops strict fuel t lo hi st =
        (dedup ops strict ((lo :: S ++ [hi]).length - 1) ⟨lo :: S ++ [hi], (lo :: S ++ [hi]).map (fun p => (p, B p))⟩ >>=
          fun acc => .ok ⟨acc.pList, acc.partitions, acc.partitions.foldl (fun l e => l ++ ops.rows e.1 e.2) [],
            acc.partitions.foldl (fun m e => mapInsert e.1 (ops.quality e.2) m) []⟩) := by
      intro strict
      unfold computeBestPartitions
      simp only [so.best, okBind, List.nil_append]
      have e1 : (mapInsert lo (B lo) [] : List (F × P)) = [lo].map (fun p => (p, B p)) := rfl
      rw [e1, hA]
      simp only [okBind]
      rw [hins]
      simp
    have hlen : (lo :: S ++ [hi]).length - 1 + 1 = (lo :: S ++ [hi]).length := by simp
    have hd := dedup_spec fl so ((lo :: S ++ [hi]).length - 1) (lo :: S ++ [hi]) [] hlen.symm (by
      rw [List.append_nil]; exact hpw.imp (fun hl => by rintro rfl; exact lt_irrefl _ hl))
    rw [List.append_nil, List.append_nil] at hd
    have hst := hrun false
    rw [hd, h] at hst
    obtain rfl := Except.ok.inj hst
    have hds := dedup_aux (ops := ops) (B := B) fl (lo :: S ++ [hi]) ((lo :: S ++ [hi]).length - 1) hlen.le
    rw [hlen, List.take_length] at hds
    have keepId : ∀ l : List F, List.IsChain (fun x y => ops.same (B y) (B x) = false) l →
        keep (fun x y => ops.same (B x) (B y)) l = l := by
      intro l
      cases l with
      | nil => intro _; rfl
      | cons a l =>
        intro hch
        change a :: keepAux (fun x y => ops.same (B x) (B y)) a l = a :: l
        congr 1
        induction l generalizing a with
        | nil => rfl
        | cons b l ih =>
          rw [List.isChain_cons_cons] at hch
          unfold keepAux
          rw [hch.1]
          simp [ih b hch.2]
    have keepLt : ∀ l : List F, ¬ List.IsChain (fun x y => ops.same (B y) (B x) = false) l →
        (keep (fun x y => ops.same (B x) (B y)) l).length < l.length := by
      intro l
      cases l with
      | nil => intro h; simp at h
      | cons a l =>
        intro hch
        unfold keep
        simp only [List.length_cons, Nat.add_lt_add_iff_right]
        induction l generalizing a with
        | nil => simp at hch
        | cons b l ih =>
          rw [List.isChain_cons_cons] at hch
          unfold keepAux
          split
          · exact Nat.lt_succ_of_le (keepAux_sublist (same := fun x y => ops.same (B x) (B y)) l b).length_le
          · rename_i hs
            simp only [List.length_cons, Nat.add_lt_add_iff_right]
            exact ih b (fun hl => hch ⟨by simpa using hs, hl⟩)
    refine ⟨lo :: S ++ [hi], (lo :: S ++ [hi]).map B, ?_, rfl, List.getLast?_concat .., hpw, ?_, ?_⟩
    · rw [List.map_map]; exact List.map_congr_left (fun x _ => (so.best x).trans rfl)
    · intro hch
      rw [List.isChain_map] at hch
      rw [hrun true, hds, if_pos hch, keepId _ hch]
      exact ⟨rfl, rfl⟩
    · intro hch
      rw [List.isChain_map] at hch
      rw [hrun true, hds, if_neg hch]
      exact ⟨rfl, keepLt _ hch⟩

/-- In particular the search is undefined under the strict reading whenever the partitions at the two ends of the
range are equal (for instance for homogeneous data, `C40`). -/
theorem equalEnds (fl : FloatLaws F K u) (ops : PartOps F K P T) (ho : IsPartitioner ops) (t lo hi : F)
    (hlt : (FloatP.toK lo : K) < FloatP.toK hi)
    (Pl Ph : P) (el : ops.best lo = .ok Pl) (eh : ops.best hi = .ok Ph) (hs : ops.same Pl Ph = true)
    (fuel : Nat) (st : PState F K P T) :
    computeBestPartitions ops true (fuel + 1) t lo hi st = .error .badIterator := by
  obtain ⟨B, so⟩ := isPartitioner_ops ho
  rw [so.best] at el eh
  obtain rfl := Except.ok.inj el
  obtain rfl := Except.ok.inj eh
  have hA : ∀ s, addBest ops t (fuel + 1) (B lo) (B hi) s = .ok s := by
    intro s; rw [addBest_eq so, hs]; rfl
  have hins : mapInsert hi (B hi) [(lo, B lo)] = [lo, hi].map (fun p => (p, B p)) := by
    rw [mapInsert_last fl]
    · rfl
    · intro e he; simp at he; subst he; exact hlt
  have hds := dedup_aux (ops := ops) (B := B) fl [lo, hi] 1 (le_refl _)
  rw [if_neg (by simp [so.symm _ _ hs])] at hds
  unfold computeBestPartitions
  simp only [so.best, okBind, hA, List.nil_append]
  have e1 : (mapInsert lo (B lo) [] : List (F × P)) = [(lo, B lo)] := rfl
  rw [e1, hins]
  change (dedup ops true 1 _ >>= _) = _
  rw [List.singleton_append, hds]
  rfl

/-! ## Concrete cases -/

/-- Samples `0, 1/2, 1` with three different partitions: defined. -/
example : (computeBestPartitions (oOps C16.exQ) true 10 (1 / 2 : ℚ) 0 1 PState.empty).map
    (fun st => st.pList) = .ok [0, 1 / 2, 1] := by decide +kernel
/-- A finer search of the same table meets a repetition. -/
example : (computeBestPartitions (oOps C16.exQ) true 10 (1 / 4 : ℚ) 0 1 PState.empty).map
    (fun st => st.pList) = .error .badIterator := by decide +kernel

/-! ## The hypotheses are met by concrete inputs (`Proofs/Samples.lean`) -/

example := strict (exactLaws ℚ) _ Sample.oIs (1 / 16) 0 1 (by decide +kernel) (by decide +kernel) (by decide +kernel) 20 _ _  Sample.oRun
example := strict (exactLaws ℚ) _ Sample.dIs (1 / 16) 0 1 (by decide +kernel) (by decide +kernel) (by decide +kernel) 20 _ _  Sample.dRun
example := equalEnds (exactLaws ℚ) _ Sample.hIs (1 / 16) (9 / 10) 1 (by decide +kernel) _ _ (Sample.hPok _) (Sample.hPok _)
  (Sample.same_of (Sample.hPok _) (Sample.hPok _) (by decide +kernel)) 5 PState.empty

end Lp.C39
