import Verif.Proofs.Ent
import Verif.Proofs.Weights
import Verif.Proofs.DExact
import Verif.Proofs.DProducts

/-!
# The extreme parameters, homogeneous data
-/

namespace Lp
open Spec
variable {A ι : Type} {m : Nat} {V : Nat → ι → ℝ} {cells : A → Finset ι} {U : Finset ι} {sols : List Nat → List A → Prop}
  {ds : List Nat} {L : List A}

theorem entQ_nonneg {s : Finset ι} (hv : ∀ k < m, ∀ x ∈ s, 0 ≤ V k x) :
    0 ≤ (entQ m V s).gain ∧ 0 ≤ (entQ m V s).loss :=
  ⟨gainSeries_nonneg hv, lossSeries_nonneg hv⟩

theorem Cuts.nonneg (h : Cuts cells L U) (hv : ∀ k < m, ∀ x ∈ U, 0 ≤ V k x) :
    0 ≤ gainOf (fun a => entQ m V (cells a)) L ∧ 0 ≤ lossOf (fun a => entQ m V (cells a)) L :=
  ⟨gainOf_nonneg (fun a ha => (entQ_nonneg (fun k hk x hx => hv k hk x (h.sub a ha hx))).1),
   lossOf_nonneg (fun a ha => (entQ_nonneg (fun k hk x hx => hv k hk x (h.sub a ha hx))).2)⟩

/-- Parameter 0, lexicographic criterion. -/
theorem LexFirst.atZero (h : LexFirst sols 0 1 (fun a => entQ m V (cells a)) ds L)
    (hc : ∀ ds L, sols ds L → Cuts cells L U) (hv : ∀ k < m, ∀ x ∈ U, 0 ≤ V k x)
    {ds' : List Nat} {L' : List A} (hs : sols ds' L') (hz : lossOf (fun a => entQ m V (cells a)) L' = 0) :
    lossOf (fun a => entQ m V (cells a)) L = 0 ∧
      gainOf (fun a => entQ m V (cells a)) L' ≤ gainOf (fun a => entQ m V (cells a)) L := by
  have h1 := h.best ds' L' hs
  have h2 := ((hc _ _ h.mem).nonneg hv).2
  have h3 := h1.value
  unfold valueOf at h3
  rw [hz] at h3
  have hz' : lossOf (fun a => entQ m V (cells a)) L = 0 := by linarith
  refine ⟨hz', ?_⟩
  rcases h1 with h1 | ⟨_, h1 | h1⟩
  · unfold valueOf at h1; rw [hz, hz'] at h1; linarith
  · exact h1.le
  · exact h1.1.le

/-- Parameter 1, lexicographic criterion. -/
theorem LexFirst.atOne (h : LexFirst sols 1 0 (fun a => entQ m V (cells a)) ds L)
    (hc : ∀ ds L, sols ds L → Cuts cells L U) (hv : ∀ k < m, ∀ x ∈ U, 0 ≤ V k x)
    {dsw : List Nat} {w : A} (hw : sols dsw [w]) (hU : cells w = U) (hn : U.Nonempty) :
    gainOf (fun a => entQ m V (cells a)) L = (entQ m V U).gain ∧
      ∀ ds' L', sols ds' L' → gainOf (fun a => entQ m V (cells a)) L' = (entQ m V U).gain →
        lossOf (fun a => entQ m V (cells a)) L ≤ lossOf (fun a => entQ m V (cells a)) L' := by
  subst hU
  have h1 := (h.best _ _ hw).value
  have h2 := ((hc _ _ h.mem).whole hn hv).1
  have e : gainOf (fun a => entQ m V (cells a)) L = (entQ m V (cells w)).gain := by
    unfold valueOf at h1
    simp only [gainOf_cons, gainOf_nil] at h1
    linarith
  refine ⟨e, fun ds' L' hs hg => ?_⟩
  rcases h.best ds' L' hs with h3 | ⟨_, h3 | h3⟩
  · unfold valueOf at h3; rw [hg, e] at h3; linarith
  · rw [hg, e] at h3; linarith
  · exact h3.2

theorem singles_tiles (n : Nat) : ∀ k, k ≤ n → Tiles k n ((List.range' k (n - k)).map (fun i => (i, i))) := by
  intro k hk
  obtain ⟨d, rfl⟩ : ∃ d, n = k + d := ⟨n - k, by omega⟩
  induction d generalizing k with
  | zero => simp; exact .nil k
  | succ d ih =>
    have := ih (k + 1) (by omega)
    rw [show k + 1 + d = k + (d + 1) by omega] at this
    rw [show k + (d + 1) - k = (k + (d + 1) - (k + 1)) + 1 by omega, List.range'_succ, List.map_cons]
    exact .cons (le_refl _) (by omega) this

theorem leaves_cover {leaves : Nat} {parents : List Int} {root : Nat} (t : IsTree leaves parents root) :
    LeafCover leaves parents (List.range leaves) := by
  refine ⟨fun h hh => ?_, fun l hl => ?_⟩
  · have := t.leavesLe
    have := List.mem_range.mp hh
    omega
  · refine ⟨l, ⟨l, by simp [hl], .self⟩, ?_⟩
    rintro k ⟨x, hx, hu⟩
    obtain ⟨hk, e⟩ := List.getElem?_eq_some_iff.mp hx
    simp at hk e
    subst e
    have := mem_leavesUnder.mpr ⟨hl, hu⟩
    rw [leavesUnder_leaf t hk] at this
    exact (Finset.mem_singleton.mp this).symm

theorem before_zero {ds : List Nat} (h : Before ds [0]) : False := by
  cases h with
  | lt h => omega
  | tail h => cases h

/-- Homogeneous data, lexicographic criterion: the whole is chosen. -/
theorem LexFirst.homog {σ : Type} {decs : Decs σ A} {st : List σ} {a b : ℝ} (ha : 0 ≤ a)
    (h : LexFirst (Sol decs st) a b (fun a => entQ m V (cells a)) ds L)
    (hc : ∀ ds L, Sol decs st ds L → Cuts cells L U) (hv : ∀ k < m, ∀ x ∈ U, 0 ≤ V k x)
    {w : A} (hw : Sol decs st [0] [w]) (hU : cells w = U) (hn : U.Nonempty) (hz : (entQ m V U).loss = 0) : L = [w] := by
  subst hU
  have hL := hc _ _ h.mem
  have w1 := hL.whole hn hv
  have n1 := hL.nonneg hv
  have hl : lossOf (fun a => entQ m V (cells a)) L = 0 := by
    have := w1.2; rw [hz] at this; exact le_antisymm this n1.2
  have hwg : gainOf (fun a => entQ m V (cells a)) [w] = (entQ m V (cells w)).gain := by simp
  have hwl : lossOf (fun a => entQ m V (cells a)) [w] = 0 := by simp [hz]
  have hge : (entQ m V (cells w)).gain ≤ gainOf (fun a => entQ m V (cells a)) L := by
    rcases h.best _ _ hw with h1 | ⟨_, h1 | h1⟩
    · unfold valueOf at h1
      rw [hl, hwl, hwg] at h1
      rcases ha.lt_or_eq with ha | ha
      · have : a * (entQ m V (cells w)).gain < a * gainOf (fun a => entQ m V (cells a)) L := by linarith
        exact (lt_of_mul_lt_mul_left this ha.le).le
      · rw [← ha] at h1; linarith
    · rw [hwg] at h1; exact h1.le
    · rw [hwg] at h1; exact h1.1.le
  have e : ds = [0] := by
    rcases h.first _ _ hw (by rw [hwg]; exact le_antisymm hge w1.1) (by rw [hwl, hl]) with e | e
    · exact e
    · exact (before_zero e).elim
  subst e
  exact h.mem.unique hw

/-- Homogeneous data, value criterion. -/
theorem ValFirst.homog {σ : Type} {decs : Decs σ A} {st : List σ} {a b : ℝ} (ha : 0 ≤ a)
    (h : ValFirst (Sol decs st) a b (fun a => entQ m V (cells a)) ds L)
    (hc : ∀ ds L, Sol decs st ds L → Cuts cells L U) (hv : ∀ k < m, ∀ x ∈ U, 0 ≤ V k x)
    {w : A} (hw : Sol decs st [0] [w]) (hU : cells w = U) (hn : U.Nonempty) (hz : (entQ m V U).loss = 0) : L = [w] := by
  subst hU
  have hL := hc _ _ h.mem
  have w1 := hL.whole hn hv
  have n1 := hL.nonneg hv
  have hl : lossOf (fun a => entQ m V (cells a)) L = 0 := by
    have := w1.2; rw [hz] at this; exact le_antisymm this n1.2
  have hwg : gainOf (fun a => entQ m V (cells a)) [w] = (entQ m V (cells w)).gain := by simp
  have hwl : lossOf (fun a => entQ m V (cells a)) [w] = 0 := by simp [hz]
  have e : ds = [0] := by
    rcases h.first _ _ hw (le_antisymm (h.best _ _ hw) (by
      unfold valueOf
      rw [hl, hwl, hwg]
      have := mul_le_mul_of_nonneg_left w1.1 ha
      linarith)) with e | e
    · exact e
    · exact (before_zero e).elim
  subst e
  exact h.mem.unique hw

/-- Parameter 1, value criterion: the whole is chosen. -/
theorem ValFirst.atOne {σ : Type} {decs : Decs σ A} {st : List σ}
    (h : ValFirst (Sol decs st) 1 0 (fun a => entQ m V (cells a)) ds L)
    (hc : ∀ ds L, Sol decs st ds L → Cuts cells L U) (hv : ∀ k < m, ∀ x ∈ U, 0 ≤ V k x)
    {w : A} (hw : Sol decs st [0] [w]) (hU : cells w = U) (hn : U.Nonempty) : L = [w] := by
  subst hU
  have w1 := ((hc _ _ h.mem).whole hn hv).1
  have e : ds = [0] := by
    rcases h.first _ _ hw (le_antisymm (h.best _ _ hw) (by
      unfold valueOf
      simp only [gainOf_cons, gainOf_nil]
      linarith)) with e | e
    · exact e
    · exact (before_zero e).elim
  subst e
  exact h.mem.unique hw

theorem oWhole_sol {n : Nat} (h : 0 < n) : Sol (oDecs n) (oStart n 0) [0] [(0, n - 1)] := by
  have : Sol (oDecs n) [0] [0] ([(0, n - 1)] ++ []) := Sol.cons (k := 0) (succ := []) rfl .nil
  unfold oStart
  rw [if_pos h]
  exact this

theorem hWhole_sol {leaves : Nat} {children : List (List Nat)} {r : Nat} :
    Sol (hDecs leaves children) [r] [0] [r] := by
  have : Sol (hDecs leaves children) [r] [0] ([r] ++ []) := Sol.cons (k := 0) (succ := []) (by unfold hDecs; split <;> rfl) .nil
  exact this

theorem dWhole_sol {leaves n : Nat} {children : List (List Nat)} {r : Nat} :
    Sol (dDecs leaves children n) [(r, 0)] [0] [⟨r, 0, n - 1⟩] := by
  have : Sol (dDecs leaves children n) [(r, 0)] [0] ([⟨r, 0, n - 1⟩] ++ []) := Sol.cons (k := 0) (succ := []) rfl .nil
  exact this

end Lp
