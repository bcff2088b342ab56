import Verif.Props.C28
import Verif.Proofs.SampleRuns

/-!
# C31 — the strategies of `getP`
-/

namespace Lp.C31
open Spec
variable {F K P T : Type} [Field K] [LinearOrder K] [FloatP F K] {u : K}

/-- Squared distance of a quality to `(gain, loss) = (1, 0)`. -/
def dist (q : Quality K) : K := (q.gain - 1) ^ 2 + q.loss ^ 2

/-- `P_MIN` and unknown strategies give 0, before and after a search. -/
theorem minimum (fl : FloatLaws F K u) (randMax : K) (st : PState F K P T) (s : Int) (hs : s ≠ 1) (hs2 : s ≠ 2) :
    ∃ p : F, getP randMax s st = .ok p ∧ (FloatP.toK p : K) = 0 := by
  refine ⟨FloatP.zero, ?_, fl.zero⟩
  unfold getP
  split
  · rfl
  · rfl

/-- Before any search `P_MAX` reads out of range and `P_OPT` an uninitialised variable. -/
theorem before (randMax : K) :
    getP randMax 1 (PState.empty : PState F K P T) = .error .outOfBounds ∧
    getP randMax 2 (PState.empty : PState F K P T) = .error .uninit := ⟨rfl, rfl⟩

/-- The loop of `computePOpt`. -/
theorem opt_aux (randMax : K) (st : PState F K P T) (L : List F) (Q : F → Quality K)
    (hL : L.Pairwise (fun x y => (FloatP.toK x : K) < FloatP.toK y))
    (hQ : ∀ x ∈ L, mapDeref x st.qualityList = .ok (Q x)) :
    ∃ r, forEach (fun p (acc : K × Option F) => do
        let q ← mapDeref p st.qualityList
        let score := (q.gain - 1) * (q.gain - 1) + q.loss * q.loss
        if decide (score < acc.1) || score == acc.1 then return (score, some p) else return acc) L (randMax, none) =
      .ok r ∧
      ((r = (randMax, none) ∧ ∀ x ∈ L, randMax < dist (Q x)) ∨
        ∃ p ∈ L, r = (dist (Q p), some p) ∧ dist (Q p) ≤ randMax ∧ (∀ x ∈ L, dist (Q p) ≤ dist (Q x)) ∧
          (∀ x ∈ L, dist (Q x) = dist (Q p) → (FloatP.toK x : K) ≤ FloatP.toK p)) := by
  apply forEach_inv (P := fun L r => ((r = (randMax, none) ∧ ∀ x ∈ L, randMax < dist (Q x)) ∨
        ∃ p ∈ L, r = (dist (Q p), some p) ∧ dist (Q p) ≤ randMax ∧ (∀ x ∈ L, dist (Q p) ≤ dist (Q x)) ∧
          (∀ x ∈ L, dist (Q x) = dist (Q p) → (FloatP.toK x : K) ≤ FloatP.toK p)))
  · left; exact ⟨rfl, by simp⟩
  · intro pre x post s hl hp
    have hx := hQ x (by rw [hl]; simp)
    simp only [hx, okBind]
    have hsc : ((Q x).gain - 1) * ((Q x).gain - 1) + (Q x).loss * (Q x).loss = dist (Q x) := by
      unfold dist; ring
    have hbeq : ∀ a b : K, (a == b) = decide (a = b) := fun a b => rfl
    rw [hsc, hbeq]
    have hord : ∀ y ∈ pre, (FloatP.toK y : K) ≤ FloatP.toK x := by
      intro y hy
      rw [hl, List.pairwise_append] at hL
      exact (hL.2.2 y hy x (by simp)).le
    rcases hp with ⟨rfl, h⟩ | ⟨p, hp, rfl, h1, h2, h3⟩
    · by_cases hc : dist (Q x) ≤ randMax
      · refine ⟨(dist (Q x), some x), ?_, Or.inr ⟨x, by simp, rfl, hc, ?_, ?_⟩⟩
        · rw [if_pos (by simpa using le_iff_lt_or_eq.mp hc)]; rfl
        · intro y hy
          rcases List.mem_append.mp hy with hy | hy
          · exact le_trans hc (h y hy).le
          · simp at hy; rw [hy]
        · intro y hy _
          rcases List.mem_append.mp hy with hy | hy
          · exact hord y hy
          · simp at hy; rw [hy]
      · refine ⟨(randMax, none), ?_, Or.inl ⟨rfl, ?_⟩⟩
        · rw [if_neg (by simp; push Not at hc; exact ⟨hc.le, hc.ne'⟩)]; rfl
        · intro y hy
          rcases List.mem_append.mp hy with hy | hy
          · exact h y hy
          · simp at hy; rw [hy]; exact not_le.mp hc
    · by_cases hc : dist (Q x) ≤ dist (Q p)
      · refine ⟨(dist (Q x), some x), ?_, Or.inr ⟨x, by simp, rfl, le_trans hc h1, ?_, ?_⟩⟩
        · rw [if_pos (by simpa using le_iff_lt_or_eq.mp hc)]; rfl
        · intro y hy
          rcases List.mem_append.mp hy with hy | hy
          · exact le_trans hc (h2 y hy)
          · simp at hy; rw [hy]
        · intro y hy _
          rcases List.mem_append.mp hy with hy | hy
          · exact hord y hy
          · simp at hy; rw [hy]
      · refine ⟨(dist (Q p), some p), ?_, Or.inr ⟨p, by simp [hp], rfl, h1, ?_, ?_⟩⟩
        · rw [if_neg (by simp; push Not at hc; exact ⟨hc.le, hc.ne'⟩)]; rfl
        · intro y hy
          rcases List.mem_append.mp hy with hy | hy
          · exact h2 y hy
          · simp at hy; rw [hy]; exact (not_le.mp hc).le
        · intro y hy he
          rcases List.mem_append.mp hy with hy | hy
          · exact h3 y hy he
          · simp at hy; rw [hy] at he; exact absurd he.le hc

variable [IsStrictOrderedRing K]

/-- After a search `P_MAX` is the largest significant parameter. -/
theorem maximum (fl : FloatLaws F K u) (ops : PartOps F K P T) (ho : IsPartitioner ops) (t lo hi : F)
    (h0 : (0 : K) ≤ FloatP.toK lo) (hlt : (FloatP.toK lo : K) < FloatP.toK hi) (h1 : (FloatP.toK hi : K) ≤ 1)
    (fuel : Nat) (st st' : PState F K P T) (h : computeBestPartitions ops false fuel t lo hi st = .ok st')
    (randMax : K) :
    ∃ p ∈ st'.pList, getP randMax 1 st' = .ok p ∧ ∀ x ∈ st'.pList, (FloatP.toK x : K) ≤ FloatP.toK p := by
  obtain ⟨hh, hs, _⟩ := C28.list fl ops ho t lo hi h0 hlt h1 fuel st st' h
  have hne : st'.pList ≠ [] := by intro e; rw [e] at hh; simp at hh
  refine ⟨st'.pList.getLast hne, List.getLast_mem hne, ?_, ?_⟩
  · unfold getP
    rw [if_neg (by decide), if_pos rfl, if_neg (by simpa using hne), vget_eq_ok]
    rw [← List.getLast?_eq_getElem?, List.getLast?_eq_getLast_of_ne_nil hne]
  · intro x hx
    have e := List.dropLast_append_getLast hne
    rw [← e, List.pairwise_append] at hs
    rw [← e] at hx
    rcases List.mem_append.mp hx with hx | hx
    · exact (hs.2.2 x hx _ (by simp)).le
    · simp at hx; rw [hx]

/-- After a search `P_OPT` is the significant parameter whose quality is nearest to `(1, 0)`, the largest such one,
provided the smallest squared distance is at most `RAND_MAX`; otherwise an uninitialised variable is read. -/
theorem optimum (fl : FloatLaws F K u) (ops : PartOps F K P T) (ho : IsPartitioner ops) (t lo hi : F)
    (h0 : (0 : K) ≤ FloatP.toK lo) (hlt : (FloatP.toK lo : K) < FloatP.toK hi) (h1 : (FloatP.toK hi : K) ≤ 1)
    (fuel : Nat) (st st' : PState F K P T) (h : computeBestPartitions ops false fuel t lo hi st = .ok st')
    (randMax : K) :
    ((∃ e ∈ st'.qualityList, dist e.2 ≤ randMax) →
      ∃ p q, getP randMax 2 st' = .ok p ∧ (p, q) ∈ st'.qualityList ∧ (∀ e ∈ st'.qualityList, dist q ≤ dist e.2) ∧
        ∀ e ∈ st'.qualityList, dist e.2 = dist q → (FloatP.toK e.1 : K) ≤ FloatP.toK p) ∧
    ((∀ e ∈ st'.qualityList, randMax < dist e.2) → getP randMax 2 st' = .error .uninit) := by
  obtain ⟨B, so⟩ := isPartitioner_ops ho
  obtain ⟨S, hc, hb, e1, hs, e2, e3, e4⟩ := search_full fl so h0 hlt h1 h
  obtain ⟨r, hr, hcase⟩ := opt_aux randMax st' st'.pList (fun p => ops.quality (B p)) hs (by
    intro x hx
    rw [e3]
    exact mapDeref_ent fl (fun p => ops.quality (B p)) hx)
  have hget : getP randMax 2 st' = (match r.2 with
      | some p => .ok p
      | none => .error .uninit) := by
    unfold getP
    rw [if_neg (by decide), if_neg (by decide), if_pos rfl]
    unfold computePOpt
    rw [hr]; rfl
  have hmem : ∀ e ∈ st'.qualityList, ∃ x ∈ st'.pList, e = (x, ops.quality (B x)) := by
    intro e he
    rw [e3] at he
    obtain ⟨x, hx, rfl⟩ := List.mem_map.mp he
    exact ⟨x, hx, rfl⟩
  constructor
  · rintro ⟨e, he, hle⟩
    rcases hcase with ⟨_, hgt⟩ | ⟨p, hp, rfl, _, hmin, hlast⟩
    · obtain ⟨x, hx, rfl⟩ := hmem e he
      exact absurd hle (not_le.mpr (hgt x hx))
    · refine ⟨p, ops.quality (B p), hget, by rw [e3]; exact List.mem_map.mpr ⟨p, hp, rfl⟩, ?_, ?_⟩
      · intro e he; obtain ⟨x, hx, rfl⟩ := hmem e he; exact hmin x hx
      · intro e he; obtain ⟨x, hx, rfl⟩ := hmem e he; exact hlast x hx
  · intro hall
    rcases hcase with ⟨rfl, _⟩ | ⟨p, hp, _, hle, _, _⟩
    · exact hget
    · exact absurd hle (not_le.mpr (hall (p, ops.quality (B p)) (by rw [e3]; exact List.mem_map.mpr ⟨p, hp, rfl⟩)))

/-! ## Concrete cases -/

example : (do let st ← computeBestPartitions (oOps C16.exQ) false 10 (1 / 4 : ℚ) 0 1 PState.empty
              let a ← getP (2147483647 : ℚ) 0 st
              let b ← getP (2147483647 : ℚ) 1 st
              let c ← getP (2147483647 : ℚ) 2 st
              return (a, b, c) : Res (ℚ × ℚ × ℚ)) = .ok (0, 3 / 4, 0) := by decide +kernel

/-! ## The hypotheses are met by concrete inputs (`Proofs/Samples.lean`) -/

example := maximum (exactLaws ℚ) _ Sample.oIs (1 / 16) 0 1 (by decide +kernel) (by decide +kernel) (by decide +kernel) 20 _ _  Sample.oRun 2147483647
example := optimum (exactLaws ℚ) _ Sample.hIs (1 / 16) 0 1 (by decide +kernel) (by decide +kernel) (by decide +kernel) 20 _ _  Sample.hRun 2147483647
example := optimum (exactLaws ℚ) _ Sample.dIs (1 / 16) 0 1 (by decide +kernel) (by decide +kernel) (by decide +kernel) 20 _ _  Sample.dRun 2147483647

end Lp.C31
