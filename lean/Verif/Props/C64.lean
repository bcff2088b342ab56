import Verif.Proofs.TreeCoverD
import Verif.Base.Hardware
import Verif.Props.C03
import Verif.Props.C16
import Verif.Props.C18
import Verif.Proofs.SampleRuns

/-!
# C64 — what a bad hierarchy does

The constructors check nothing.  Which bad parent vectors are caught (the computation reads out of range, never
returning a result), and which are processed as if nothing were wrong?
-/

namespace Lp.C64
open Spec
variable {F K : Type}

/-! ## Hierarchies that cannot go unnoticed -/

/-- For every parent vector (any integers, any number of leaves), any qualities, any parameter and any arithmetic: if
the metadata is constructed and the best hierarchical partition is computed, then there are fewer leaves than nodes,
exactly one entry of the vector is `-1` (that of the reported root), all the others are node numbers, and every inner
node has a leaf below it.  So a forest, a number out of range, or an inner node without leaves is always caught. -/
theorem hierarchical [LD K] [FloatP F K] (leaves : Nat) (parents : List Int) (md : HMeta)
    (hm : mkMeta leaves parents = .ok md) (q : List (Quality K)) (p : F) (P : HPartition F K)
    (h : hBestPartition q md p = .ok P) : leaves < parents.length ∧ OneRoot leaves parents md.root := by
  obtain ⟨m1, m2, m3, m4, m5⟩ := mkMeta_path hm
  obtain ⟨w1, w2⟩ := hBest_walked h
  have hlt : leaves < parents.length := by omega
  exact ⟨hlt, oneRoot_of_walked hm (by omega) w2⟩

/-- The same for the spatiotemporal partition, if there are at most as many leaves as nodes. -/
theorem spatiotemporal [LD K] [FloatP F K] (leaves : Nat) (parents : List Int) (md : HMeta)
    (hm : mkMeta leaves parents = .ok md) (hle : leaves ≤ parents.length) (q : List (UTM (Quality K))) (p : F)
    (P : DPartition F K) (h : dBestPartition q md p = .ok P) : OneRoot leaves parents md.root :=
  oneRoot_of_walked hm hle (dBest_walked hm hle h)

/-- The same for the qualities of a hierarchy, for a container with at least one series. -/
theorem hQualities [LDLog K] (leaves : Nat) (parents : List Int) (v : HValues K)
    (hm : mkMeta leaves parents = .ok v.md) (hv : 0 < v.vsize) (o : HQualities K)
    (h : (HQualities.ofValues v).computeQualities = .ok o) :
    leaves < parents.length ∧ OneRoot leaves parents v.md.root := by
  obtain ⟨q, h1, _⟩ := bind_eq_ok' h
  obtain ⟨m1, m2, m3, m4, m5⟩ := mkMeta_path hm
  obtain ⟨w1, w2⟩ := hq_walked hv h1
  have w1 : v.md.leaveSize < v.md.path.length := w1
  have hlt : leaves < parents.length := by omega
  exact ⟨hlt, oneRoot_of_walked hm (by omega) w2⟩

/-- The same for spatiotemporal qualities, for a container with at least one series and one slice. -/
theorem dQualities [LDLog K] (leaves : Nat) (parents : List Int) (v : DValues K)
    (hm : mkMeta leaves parents = .ok v.md) (hv : 0 < v.vsize) (ho : 0 < v.osize) (o : DQualities K)
    (h : (DQualities.ofValues v).computeQualities = .ok o) :
    leaves < parents.length ∧ OneRoot leaves parents v.md.root := by
  obtain ⟨q, h1, _⟩ := bind_eq_ok' h
  obtain ⟨m1, m2, m3, m4, m5⟩ := mkMeta_path hm
  obtain ⟨w1, w2⟩ := dq_walked hv ho h1
  have w1 : v.md.leaveSize < v.md.path.length := w1
  have hlt : leaves < parents.length := by omega
  exact ⟨hlt, oneRoot_of_walked hm (by omega) w2⟩

theorem levels_aux {leaves : Nat} {parents : List Int} {root : Nat} (r : OneRoot leaves parents root)
    (hb : Balanced leaves parents) : IsTree leaves parents root := by
  obtain ⟨level, h0, h1⟩ := hb
  have noPar : ∀ p, ¬ ParentIs parents root p := by
    intro p hp
    unfold ParentIs at hp
    rw [r.rootPar] at hp
    have := Option.some.inj hp
    omega
  refine ⟨r.rootLt, r.rootPar, r.other, ?_, r.leavesLe, ?_⟩
  · -- climb: levels are bounded
    obtain ⟨B, hB⟩ : ∃ B, ∀ x, x < parents.length → level x ≤ B := by
      refine ⟨(Finset.range parents.length).sup level, fun x hx => ?_⟩
      exact Finset.le_sup (f := level) (Finset.mem_range.mpr hx)
    have climb : ∀ (d h : Nat), h < parents.length → B - level h ≤ d → Under parents root h := by
      intro d
      induction d with
      | zero =>
        intro h hh hd
        by_cases hr : h = root
        · subst hr; exact .self
        · obtain ⟨p, hp, hpar⟩ := r.other h hh hr
          have a := h1 h p hpar
          have b := hB p hp
          omega
      | succ d ih =>
        intro h hh hd
        by_cases hr : h = root
        · subst hr; exact .self
        · obtain ⟨p, hp, hpar⟩ := r.other h hh hr
          have a := h1 h p hpar
          exact .up hpar (ih p hp (by omega))
    exact fun h hh => climb _ h hh (le_refl _)
  · intro h hh
    constructor
    · rintro hl ⟨c, hc⟩
      have a := h1 c h hc
      have b := h0 h hl
      omega
    · intro hno
      by_contra hl
      obtain ⟨l, hl', hu⟩ := r.above h hh (by omega)
      rcases under_iff.mp hu with e | ⟨c, hc, _⟩
      · omega
      · exact hno ⟨c, hc⟩

/-- Levelled vectors: if there is a level function that is 0 on the leaves and grows by one from a node to its parent,
then a hierarchical partition that is computed at all rests on right metadata.  Nothing else can go wrong unnoticed,
so everything proved for right metadata (C18, C19, C22, ...) holds for the result. -/
theorem levelled [LD K] [FloatP F K] (leaves : Nat) (parents : List Int) (md : HMeta)
    (hm : mkMeta leaves parents = .ok md) (hb : Balanced leaves parents) (q : List (Quality K)) (p : F)
    (P : HPartition F K) (h : hBestPartition q md p = .ok P) : RightMeta leaves parents md := by
  have r := (hierarchical leaves parents md hm q p P h).2
  obtain ⟨md', h1, _, h3⟩ := C03.balanced leaves parents md.root (levels_aux r hb) hb
  rw [hm] at h1
  obtain rfl := Except.ok.inj h1
  exact h3

/-- The same for the spatiotemporal partition. -/
theorem levelledSpatiotemporal [LD K] [FloatP F K] (leaves : Nat) (parents : List Int) (md : HMeta)
    (hm : mkMeta leaves parents = .ok md) (hle : leaves ≤ parents.length) (hb : Balanced leaves parents)
    (q : List (UTM (Quality K))) (p : F) (P : DPartition F K) (h : dBestPartition q md p = .ok P) :
    RightMeta leaves parents md := by
  have r := spatiotemporal leaves parents md hm hle q p P h
  obtain ⟨md', h1, _, h3⟩ := C03.balanced leaves parents md.root (levels_aux r hb) hb
  rw [hm] at h1
  obtain rfl := Except.ok.inj h1
  exact h3

/-! ## Any tree: fault or cover -/

/-- For every tree, also one that the metadata constructor misreads (C03), any qualities, any parameter and any
arithmetic: if the best hierarchical partition is computed at all, every leaf is below exactly one of its parts. -/
theorem treeCover [LD K] [FloatP F K] (leaves : Nat) (parents : List Int) (root : Nat)
    (t : IsTree leaves parents root) (md : HMeta) (hm : mkMeta leaves parents = .ok md) (q : List (Quality K)) (p : F)
    (P : HPartition F K) (h : hBestPartition q md p = .ok P) :
    LeafCover leaves parents (P.parts.map HPart.h) :=
  hBest_cover_tree t hm h

/-- The same for the spatiotemporal partition: every cell (leaf, slice) is in exactly one part. -/
theorem treeCoverSpatiotemporal [LD K] [FloatP F K] (leaves : Nat) (parents : List Int) (root : Nat)
    (t : IsTree leaves parents root) (md : HMeta) (hm : mkMeta leaves parents = .ok md) (n : Nat) (hn : n ≤ 65535)
    (q : List (UTM (Quality K))) (Q : Nat → Nat → Nat → Quality K) (hq : MRep q parents.length n Q) (p : F)
    (P : DPartition F K) (h : dBestPartition q md p = .ok P) :
    CellCover leaves parents n (P.parts.map (fun x => (⟨x.h, x.start, x.end⟩ : Rect))) :=
  dBest_cover_tree t hm hn hq h

/-! ## Cases -/

/-- Metadata and best hierarchical partition in one go: the parts with the number of leaves they claim to contain. -/
def run (leaves : Nat) (parents : List Int) (q : List (Quality ℚ)) (p : ℚ) : Res (List (Nat × Nat)) := do
  let md ← mkMeta leaves parents
  let P ← hBestPartition q md p
  return P.parts.map (fun x => (x.h, x.size))

/-- Caught: an inner node without leaves (node 2), and a forest. -/
theorem caught : run 2 [3, 3, 3, -1] [⟨0, 0⟩, ⟨0, 0⟩, ⟨0, 1⟩, ⟨0, 1⟩] 0 = .error .outOfBounds ∧
    run 2 [2, 3, -1, -1] [⟨0, 0⟩, ⟨0, 0⟩, ⟨0, 1⟩, ⟨0, 1⟩] 0 = .error .outOfBounds := by
  decide +kernel

/-- Not caught: leaf 0 given as the parent of leaf 1.  Even the finest partition merges the two. -/
theorem leafParent : run 2 [2, 0, -1] [⟨0, 0⟩, ⟨0, 0⟩, ⟨0, 1⟩] 0 = .ok [(0, 2)] := by
  decide +kernel

/-- Not caught: a cycle (2, 3) beside a long enough branch to the root 7.  Leaf 0 is in no part. -/
theorem cycle : run 2 [2, 4, 3, 2, 5, 6, 7, -1]
      [⟨0, 0⟩, ⟨0, 0⟩, ⟨0, 1⟩, ⟨0, 1⟩, ⟨0, 1⟩, ⟨0, 1⟩, ⟨0, 1⟩, ⟨0, 1⟩] 0 = .ok [(1, 1)] ∧
    ¬ LeafCover 2 [2, 4, 3, 2, 5, 6, 7, -1] [1] := by
  refine ⟨by decide +kernel, ?_⟩
  rintro ⟨_, h⟩
  obtain ⟨k, ⟨x, hx, hu⟩, _⟩ := h 0 (by decide)
  have hk := (List.getElem?_eq_some_iff.mp hx).1
  obtain rfl : k = 0 := by simp at hk; exact hk
  obtain rfl : x = 1 := by simpa using hx.symm
  have never : ∀ y, Under [2, 4, 3, 2, 5, 6, 7, -1] 1 y → y ≠ 0 ∧ y ≠ 2 ∧ y ≠ 3 := by
    intro y hy
    induction hy with
    | self => decide
    | @up c p hp _ ih =>
      unfold ParentIs at hp
      refine ⟨?_, ?_, ?_⟩ <;> (rintro rfl; simp at hp; omega)
  exact (never 0 hu).1 rfl

/-- Not caught: a tree that the constructor misreads although the root comes last.  The partition covers (as proved
above), but the root claims to contain one leaf where it has two. -/
theorem lateChild : IsTree 2 [2, 3, 4, 2, 5, 6, -1] 6 ∧
    run 2 [2, 3, 4, 2, 5, 6, -1] [⟨0, 0⟩, ⟨0, 0⟩, ⟨0, 1⟩, ⟨0, 1⟩, ⟨0, 1⟩, ⟨0, 1⟩, ⟨0, 1⟩] 0 = .ok [(0, 1), (1, 1)] ∧
    run 2 [2, 3, 4, 2, 5, 6, -1] [⟨0, 0⟩, ⟨0, 0⟩, ⟨0, 1⟩, ⟨0, 1⟩, ⟨0, 1⟩, ⟨0, 1⟩, ⟨0, 1⟩] 1 = .ok [(6, 1)] ∧
    leavesUnder 2 [2, 3, 4, 2, 5, 6, -1] 6 = {0, 1} := by
  have t : IsTree 2 [2, 3, 4, 2, 5, 6, -1] 6 :=
    .ofCheck (fun h => if h = 6 then 0 else if h = 5 then 1 else if h = 4 then 2 else if h = 2 then 3 else
      if h = 3 then 4 else 5) (by decide) (by decide) (by decide) (by decide)
  refine ⟨t, by decide +kernel, by decide +kernel, ?_⟩
  ext l
  rw [mem_leavesUnder]
  simp only [Finset.mem_insert, Finset.mem_singleton]
  constructor
  · rintro ⟨h, _⟩; omega
  · intro h
    have hl : l < 2 := by omega
    exact ⟨hl, t.reach l (lt_of_lt_of_le hl t.leavesLe)⟩

/-- The hypotheses can be met: a balanced tree and hardware arithmetic with NaN qualities, where `levelled` applies. -/
example : ∃ (md : HMeta) (P : HPartition Float32 Float), mkMeta 4 [4, 4, 6, 6, 5, -1, 5] = .ok md ∧
    Balanced 4 [4, 4, 6, 6, 5, -1, 5] ∧
    hBestPartition (List.replicate 7 (⟨0 / 0, 1 / 0⟩ : Quality Float)) md (0 / 0 : Float32) = .ok P := by
  obtain ⟨md, P, L, h1, h2, _⟩ := C18.coverTree 4 [4, 4, 6, 6, 5, -1, 5] 5 C03.sevenTree C03.sevenNearest (by decide)
    (List.replicate 7 (⟨0 / 0, 1 / 0⟩ : Quality Float)) (by decide) (0 / 0 : Float32)
  exact ⟨md, P, h1,
    .ofCheck (fun h => if h < 4 then 0 else if h = 5 then 2 else 1) (by decide) (by decide) (by decide), h2⟩

/-! ## The hypotheses are met by concrete inputs (`Proofs/Samples.lean`) -/

example := hierarchical 4 Sample.tree _ Sample.mk _ (1 / 2) _ (Sample.hPok _)
example := spatiotemporal 4 Sample.tree _ Sample.mk (by decide) _ (1 / 2) _ (Sample.dPok _)
example := levelled 4 Sample.tree _ Sample.mk Sample.balanced _ (1 / 2) _ (Sample.hPok _)
example := levelledSpatiotemporal 4 Sample.tree _ Sample.mk (by decide) Sample.balanced _ (1 / 2) _ (Sample.dPok _)
example := treeCover 4 Sample.tree 6 Sample.isTree _ Sample.mk _ (1 / 2) _ (Sample.hPok _)
example := treeCoverSpatiotemporal 4 Sample.tree 6 Sample.isTree _ Sample.mk 3 (by decide) _ _ Sample.dRep (1 / 2) _ (Sample.dPok _)

end Lp.C64
