import Verif.Proofs.DCover
import Verif.Proofs.HExact

/-!
# The spatiotemporal partitioner in exact arithmetic
-/

namespace Lp
open Spec
variable {F K : Type} [Field K] [LinearOrder K] [IsStrictOrderedRing K] [FloatP F K]
variable {leaves n : Nat} {parents : List Int} {md : HMeta}

omit [IsStrictOrderedRing K] in
theorem tsum_ob (T : Nat → Tradeoff K) (l : List Nat) : ob (tsum T l) = wsum (fun h => ob (T h)) l := by
  have : ∀ z : Tradeoff K, ob (l.foldl (fun a c => a.add (T c)) z) = ob z + wsum (fun h => ob (T h)) l := by
    induction l with
    | nil => intro z; simp
    | cons a l ih =>
      intro z
      simp only [List.foldl_cons, ih, wsum_cons, ob_add]
      rw [add_assoc]
  unfold tsum
  rw [this, ob_zero, zero_add]

/-- Quality of a rectangle. -/
def rq (Q : Nat → Nat → Nat → Quality K) (r : Rect) : Quality K := Q r.node r.first r.last

theorem d_dpEq (r : RightMeta leaves parents md) {Q : Nat → Nat → Nat → Quality K} {p : F}
    {T : Nat → Nat → Tradeoff K} {C : Nat → Nat → Int}
    (h : ∀ h i, h < parents.length → i < n → DEq leaves parents md.path Q p n T C h i) :
    DpEq (dDecs leaves md.children n) (obq p (rq Q)) (fun s => s.1 < parents.length ∧ s.2 < n)
      (fun s => ob (T s.1 s.2)) (dChoice leaves n C) := by
  have spec : ∀ x i, x < parents.length → i < n → ∃ k : Nat, dChoice leaves n C (x, i) = k ∧
      (∀ (j : Nat) (e : List Rect) (succ : List (Nat × Nat)), (dDecs leaves md.children n (x, i))[j]? = some (e, succ) →
        (j = k → ob (T x i) = wsum (obq p (rq Q)) e + wsum (fun s => ob (T s.1 s.2)) succ) ∧
        wsum (obq p (rq Q)) e + wsum (fun s => ob (T s.1 s.2)) succ ≤ ob (T x i) ∧
        (j < k → wsum (obq p (rq Q)) e + wsum (fun s => ob (T s.1 s.2)) succ < ob (T x i))) ∧
      ∃ d, (dDecs leaves md.children n (x, i))[k]? = some d := by
    intro x i hx hi
    obtain ⟨ch, hch, hperm, hmem⟩ := r.kidsPerm hx
    let S := tsum (fun c => T c i) (kidsIn parents md.path x)
    let cands : List (Tradeoff K × Int) :=
      ((if (!decide (x < leaves)) = true then [(S, (-1 : Int))] else []) ++
        (List.range' i (n - 1 - i)).map (fun c =>
          ((Tradeoff.zero.add (Tradeoff.set (Q x i c) p)).add (T x (c + 1)), (c : Int))))
    obtain ⟨k, hk, hb⟩ := firstBest_spec (ob (K := K)) Tradeoff.gt gt_iff
      (Tradeoff.set (Q x i (n - 1)) p, ((n - 1 : Nat) : Int)) cands
    have e0 := h x i hx hi
    unfold DEq dRow at e0
    rw [← e0] at hk hb
    have hS : ob S = wsum (fun s => ob (T s.1 s.2)) (ch.map (fun c => (c, i))) := by
      change ob (tsum _ _) = _
      rw [tsum_ob, wsum_perm _ hperm.symm]
      unfold wsum
      rw [List.map_map]
      rfl
    -- the entries of the candidate list
    have entry : ∀ (j : Nat) (e : List Rect) (succ : List (Nat × Nat)),
        (dDecs leaves md.children n (x, i))[j]? = some (e, succ) →
        ∃ y : Tradeoff K × Int, ((Tradeoff.set (Q x i (n - 1)) p, ((n - 1 : Nat) : Int)) :: cands)[j]? = some y ∧
          wsum (obq p (rq Q)) e + wsum (fun s => ob (T s.1 s.2)) succ = ob y.1 ∧
          (∀ C' : Nat → Nat → Int, C' x i = y.2 → dChoice leaves n C' (x, i) = j) := by
      intro j e succ hj
      rcases dDecs_cases hj with ⟨rfl, rfl, rfl⟩ | ⟨hl, rfl, rfl, rfl⟩ | ⟨c, hc1, hc2, rfl, rfl, rfl⟩
      · refine ⟨_, rfl, by simp [obq, rq], ?_⟩
        intro C' hC'
        unfold dChoice
        rw [if_pos]
        simp only [hC']; omega
      · refine ⟨(S, -1), ?_, ?_, ?_⟩
        · simp [cands, hl]
        · simp only [hch, Option.getD_some, wsum_nil, zero_add]; exact hS.symm
        · intro C' hC'
          unfold dChoice
          simp only at hC' ⊢
          rw [if_neg (by rw [hC']; omega), if_pos hC']
      · refine ⟨((Tradeoff.zero.add (Tradeoff.set (Q x i c) p)).add (T x (c + 1)), (c : Int)), ?_, ?_, ?_⟩
        · have e : i + 1 * (c - i) = c := by omega
          have hr : (List.range' i (n - 1 - i))[c - i]? = some c := by
            rw [List.getElem?_range' (by omega), e]
          by_cases hl : x < leaves
          · simp [cands, hl, hr]
          · simp [cands, hl, hr]
        · simp [obq, rq, ob_add, ob_zero]
        · intro C' hC'
          unfold dChoice
          simp only at hC' ⊢
          rw [if_neg (by rw [hC']; omega), if_neg (by rw [hC']; omega), hC', Int.toNat_natCast]
    have hlen : (dDecs leaves md.children n (x, i)).length =
        ((Tradeoff.set (Q x i (n - 1)) p, ((n - 1 : Nat) : Int)) :: cands).length := by
      by_cases hl : x < leaves <;> simp [dDecs, cands, hl]
    have hkl : k < (dDecs leaves md.children n (x, i)).length := by
      rw [hlen]; exact (List.getElem?_eq_some_iff.mp hk).1
    obtain ⟨⟨e, succ⟩, hd⟩ : ∃ d, (dDecs leaves md.children n (x, i))[k]? = some d :=
      ⟨_, List.getElem?_eq_getElem hkl⟩
    refine ⟨k, ?_, ?_, ⟨_, hd⟩⟩
    · obtain ⟨y, hy, _, hch'⟩ := entry k e succ hd
      rw [hk] at hy
      obtain rfl := Option.some.inj hy
      exact hch' C rfl
    · intro j e succ hj
      obtain ⟨y, hy, hw, _⟩ := entry j e succ hj
      obtain ⟨hb1, hb2⟩ := hb j y hy
      rw [hw]
      refine ⟨?_, hb1, hb2⟩
      rintro rfl
      rw [hk] at hy
      obtain rfl := Option.some.inj hy
      rfl
  refine ⟨?_, ?_, ?_⟩
  · rintro ⟨x, i⟩ ⟨hx, hi⟩ k e succ hk s' hs'
    simp only at hx hi
    rcases dDecs_cases hk with ⟨_, _, rfl⟩ | ⟨hl, _, _, rfl⟩ | ⟨c, hc1, hc2, _, _, rfl⟩
    · simp at hs'
    · obtain ⟨ch, hch, hperm, hmem⟩ := r.kidsPerm hx
      rw [hch] at hs'
      simp only [Option.getD_some, List.mem_map] at hs'
      obtain ⟨c, hc, rfl⟩ := hs'
      exact ⟨((hmem c).mp hc).lt, hi⟩
    · simp at hs'; subst hs'; exact ⟨hx, by simp only; omega⟩
  · rintro ⟨x, i⟩ ⟨hx, hi⟩
    obtain ⟨k, hk, hall, ⟨⟨e, succ⟩, hd⟩⟩ := spec x i hx hi
    rw [hk]
    exact ⟨e, succ, hd, (hall k e succ hd).1 rfl⟩
  · rintro ⟨x, i⟩ ⟨hx, hi⟩ j e succ hj
    obtain ⟨k, hk, hall, _⟩ := spec x i hx hi
    rw [hk]
    exact (hall j e succ hj).2

/-- In exact arithmetic the spatiotemporal partition is the first optimal derivation. -/
theorem dBest_first (r : RightMeta leaves parents md) {q : List (UTM (Quality K))} {Q : Nat → Nat → Nat → Quality K}
    (hq : MRep q parents.length n Q) (h0 : 0 < n) (hn : n ≤ 65535) (p : F) :
    ∃ (P : DPartition F K) (ds : List Nat) (L : List Rect),
      dBestPartition q md p = .ok P ∧ P.parts = L.map (dPartOf md Q) ∧
      P.quality = ⟨gainOf (rq Q) L, lossOf (rq Q) L⟩ ∧ P.parameter = p ∧
      LexFirst (Sol (dDecs leaves md.children n) [(md.root, 0)]) (wGain p) (wLoss p) (rq Q) ds L := by
  obtain ⟨P, T, C, ds, L, h1, h2, h3, h4, h5, h6⟩ := dBest_spec r hq h0 hn p
  have hdp := d_dpEq r h2
  have hok : ∀ s ∈ [(md.root, 0)], s.1 < parents.length ∧ s.2 < n := by
    intro s hs; simp at hs; subst hs; exact ⟨r.tree.rootLt, h0⟩
  have hw := hdp.greedy_weight h3 hok
  refine ⟨P, ds, L, h1, h4, by rw [h5]; exact sumQuality_eq (rq Q) L, h6, h3.sol, ?_, ?_⟩
  · intro ds' L' hs'
    rw [← wsum_obq_le, hw]
    exact (hdp.optimal hs' hok).1
  · intro ds' L' hs' hg hl
    apply (hdp.optimal hs' hok).2 ds L h3
    rw [← hw]
    exact wsum_obq_eq p _ _ _ hg hl

end Lp
