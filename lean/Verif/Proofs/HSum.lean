import Verif.Spec.SumOf
import Verif.Proofs.HEntropy

/-!
# `HQualities::computeQualities` in any arithmetic
-/

namespace Lp
open Spec
variable {leaves : Nat} {parents : List Int} {md : HMeta}

/-- Leaves whose values are in the accumulator of node `h` after the nodes `done` have been visited. -/
noncomputable def accSet (leaves : Nat) (parents : List Int) (done : List Nat) (h : Nat) : Finset Nat :=
  if h < leaves then (if h ∈ done then {h} else ∅)
  else (kidsIn parents done h).toFinset.biUnion (leavesUnder leaves parents)

theorem accSet_nil (h : Nat) : accSet leaves parents [] h = ∅ := by
  unfold accSet; split <;> simp [kidsIn]

theorem accSet_leaf {done : List Nat} {h : Nat} (hl : h < leaves) (hd : h ∈ done) : accSet leaves parents done h = {h} := by
  unfold accSet; rw [if_pos hl, if_pos hd]

/-- When an inner node is reached its accumulator is complete. -/
theorem accSet_ready (r : RightMeta leaves parents md) {k h : Nat} (hk : md.path[k]? = some h)
    (hin : ¬ h < leaves) : accSet leaves parents (md.path.take k) h = leavesUnder leaves parents h := by
  unfold accSet
  rw [if_neg hin, r.kidsTake hk]
  obtain ⟨e1, -⟩ := leavesUnder_inner r.tree (not_lt.mp hin) (kidsIn parents md.path h).toFinset (by
    intro c
    rw [List.mem_toFinset, mem_kidsIn, r.pathMem]
    exact ⟨fun hc => hc.2, fun hc => ⟨hc.lt, hc⟩⟩)
  exact e1.symm

/-- Effect of visiting `h` on the accumulator of its parent. -/
theorem accSet_parent {done : List Nat} {h p : Nat} (hp : ParentIs parents h p) (hpi : ¬ p < leaves) :
    accSet leaves parents (done ++ [h]) p = accSet leaves parents done p ∪ leavesUnder leaves parents h := by
  unfold accSet
  rw [if_neg hpi, if_neg hpi, kidsIn_append_one hp, if_pos rfl]
  ext l
  simp only [List.toFinset_append, Finset.mem_biUnion, Finset.mem_union, List.mem_toFinset, List.mem_singleton]
  constructor
  · rintro ⟨c, h1 | h1, h2⟩
    · exact Or.inl ⟨c, h1, h2⟩
    · subst h1; exact Or.inr h2
  · rintro (⟨c, h1, h2⟩ | h2)
    · exact ⟨c, Or.inl h1, h2⟩
    · exact ⟨h, Or.inr rfl, h2⟩

theorem accSet_disjoint (r : RightMeta leaves parents md) {done : List Nat} {h p : Nat} (hp : ParentIs parents h p)
    (hpi : ¬ p < leaves) (hn : h ∉ done) : Disjoint (accSet leaves parents done p) (leavesUnder leaves parents h) := by
  unfold accSet
  rw [if_neg hpi, Finset.disjoint_biUnion_left]
  intro c hc
  rw [List.mem_toFinset, mem_kidsIn] at hc
  obtain ⟨-, e2⟩ := leavesUnder_inner r.tree (not_lt.mp hpi) (kidsIn parents md.path p).toFinset (by
    intro c
    rw [List.mem_toFinset, mem_kidsIn, r.pathMem]
    exact ⟨fun hc => hc.2, fun hc => ⟨hc.lt, hc⟩⟩)
  refine e2 ?_ ?_ ?_
  · rw [Finset.mem_coe, List.mem_toFinset, mem_kidsIn, r.pathMem]; exact ⟨hc.2.lt, hc.2⟩
  · rw [Finset.mem_coe, List.mem_toFinset, mem_kidsIn, r.pathMem]; exact ⟨hp.lt, hp⟩
  · rintro rfl; exact hn hc.1

/-- The other accumulators are unchanged, except that of `h` itself if it is a leaf. -/
theorem accSet_other {done : List Nat} {h p x : Nat} (hp : ParentIs parents h p) (e : x ≠ p) (e' : h < leaves → x ≠ h) :
    accSet leaves parents (done ++ [h]) x = accSet leaves parents done x := by
  unfold accSet
  rw [kidsIn_append_one hp, if_neg e, List.append_nil]
  split
  · rename_i hx
    have : x ≠ h := by rintro rfl; exact e' hx rfl
    simp [this]
  · rfl

variable {K : Type}

theorem vaddTo_any [Add K] {v : List K} {n : Nat} {f : Nat → K} (h : VRep v n f) {i : Nat} (x : K) (hi : i < n) :
    ∃ v', vaddTo v i x = .ok v' ∧ VRep v' n (vupd f i (f i + x)) := by
  unfold vaddTo
  rw [h.get hi]
  simp only [okBind]
  exact h.set _ hi

variable [LDLog K]

/-- Invariant for series `c` after the nodes `done`. -/
structure HSInv (leaves : Nat) (parents : List Int) (V : Nat → Nat → K) (c : Nat) (done : List Nat) (s : HSt K)
    (fs fi : Nat → K) (fq : Nat → Quality K) : Prop where
  sum : VRep s.sum parents.length fs
  info : VRep s.info parents.length fi
  q : VRep s.q parents.length fq
  sumEq : ∀ x, x < parents.length → SumOf (V c) (accSet leaves parents done x) (fs x)
  infoEq : ∀ x, x < parents.length → SumOf (fun l => entropyReduction (V c l) 0) (accSet leaves parents done x) (fi x)
  qLeaf : ∀ x, x < leaves → fq x = ⟨0, 0⟩
  qEq : ∀ x, ¬ x < leaves → x < parents.length → Measured V (leavesUnder leaves parents x)
    ((leavesUnder leaves parents x).card : Nat) (if x ∈ done then c + 1 else c) (fq x)

theorem SumOf.push (r : RightMeta leaves parents md) {f : Nat → K} {done : List Nat} {h p : Nat} {a b : K} (hp : ParentIs parents h p)
    (hpi : ¬ p < leaves) (hn : h ∉ done) (ha : SumOf f (accSet leaves parents done p) a)
    (hb : SumOf f (leavesUnder leaves parents h) b) : SumOf f (accSet leaves parents (done ++ [h]) p) (a + b) := by
  rw [accSet_parent hp hpi]
  exact .add (accSet_disjoint r hp hpi hn) ha hb

theorem hqLeaf_sum (r : RightMeta leaves parents md) {v : HValues K} {m : Nat} {V : Nat → Nat → K}
    (hv : HData v m leaves V) {c : Nat} (hc : c < m) {k : Nat} (hk : k < leaves)
    (hlt : leaves < parents.length) {s : HSt K} {fs fi : Nat → K} {fq : Nat → Quality K}
    (hi : HSInv leaves parents V c (md.path.take k) s fs fi fq) :
    ∃ s' fs' fi' fq', hqLeaf v md c k s = .ok s' ∧ HSInv leaves parents V c (md.path.take (k + 1)) s' fs' fi' fq' := by
  have hp := r.pathLeaves k hk
  obtain ⟨p, hpar, hpl, hpo, -⟩ := r.par hp (by omega)
  have hpi := parent_inner r hpar
  have hkp : p ≠ k := by rintro rfl; exact hpi hk
  have hkl : k < parents.length := by omega
  have hn := r.notMem_take hp
  unfold hqLeaf
  rw [vget_eq_ok.mpr hp]
  simp only [okBind]
  rw [hv.val c k hc hk]
  simp only [okBind]
  obtain ⟨s1, e1, r1⟩ := hi.sum.set (V c k) hkl
  obtain ⟨s2, e2, r2⟩ := vaddTo_any r1 (V c k) hpl
  obtain ⟨i1, e3, r3⟩ := hi.info.set (entropyReduction (V c k) 0) hkl
  obtain ⟨i2, e4, r4⟩ := vaddTo_any r3 (entropyReduction (V c k) 0) hpl
  rw [e1, hpo]
  simp only [okBind]
  rw [e2, e3]
  simp only [okBind]
  rw [e4]
  have key : ∀ (f g : Nat → K), (∀ x, x < parents.length → SumOf f (accSet leaves parents (md.path.take k) x) (g x)) →
      ∀ x, x < parents.length → SumOf f (accSet leaves parents (md.path.take (k + 1)) x)
        (vupd (vupd g k (f k)) p (vupd g k (f k) p + f k) x) := by
    intro f g hg x hx
    rw [RightMeta.take_succ hp]
    by_cases e : x = p
    · subst e
      rw [vupd_same, vupd_ne hkp]
      refine SumOf.push r hpar hpi hn (hg x hx) ?_
      rw [leavesUnder_leaf r.tree hk]
      exact .one k
    · rw [vupd_ne e]
      by_cases e' : x = k
      · subst e'
        rw [vupd_same, accSet_leaf hk (by simp)]
        exact .one x
      · rw [vupd_ne e', accSet_other hpar e (fun _ => e')]
        exact hg x hx
  refine ⟨_, _, _, _, rfl, r2, r4, hi.q, key _ _ hi.sumEq, key (fun l => entropyReduction (V c l) 0) _ hi.infoEq, hi.qLeaf, ?_⟩
  intro x hx hxl
  rw [RightMeta.take_succ hp]
  have : x ≠ k := by rintro rfl; exact hx hk
  have h1 := hi.qEq x hx hxl
  simp only [List.mem_append, List.mem_singleton, this, or_false]
  exact h1

theorem hqAdd_sum (r : RightMeta leaves parents md) {V : Nat → Nat → K} {c : Nat} {fq : Nat → Quality K} {s : HSt K}
    {fs fi : Nat → K} {h : Nat} (hl : h < parents.length) (h1 : VRep s.sum parents.length fs)
    (h2 : VRep s.info parents.length fi) (h3 : VRep s.q parents.length fq)
    (e1 : SumOf (V c) (leavesUnder leaves parents h) (fs h))
    (e2 : SumOf (fun l => entropyReduction (V c l) 0) (leavesUnder leaves parents h) (fi h))
    (e3 : Measured V (leavesUnder leaves parents h) ((leavesUnder leaves parents h).card : Nat) c (fq h)) :
    ∃ s' q', hqAdd md h s = .ok s' ∧ s'.sum = s.sum ∧ s'.info = s.info ∧ VRep s'.q parents.length (vupd fq h q') ∧
      Measured V (leavesUnder leaves parents h) ((leavesUnder leaves parents h).card : Nat) (c + 1) q' := by
  unfold hqAdd
  rw [h1.get hl, h2.get hl, h3.get hl]
  simp only [okBind]
  rw [r.sizeOf hl]
  obtain ⟨q, e4, h4⟩ := h3.set (((fq h).addToGain (entropyReduction (fs h) (fi h))).addToLoss
    (divergence (((leavesUnder leaves parents h).card : Nat) : Int) (fs h) (fi h))) hl
  rw [e4]
  exact ⟨_, _, rfl, rfl, rfl, h4, .next e3 e1 e2⟩

theorem hq_enter_sum {V : Nat → Nat → K} {c k h : Nat} {fq : Nat → Quality K} {q' : Quality K}
    (hk : md.path[k]? = some h)
    (hq : ∀ x, ¬ x < leaves → x < parents.length → Measured V (leavesUnder leaves parents x)
      ((leavesUnder leaves parents x).card : Nat) (if x ∈ md.path.take k then c + 1 else c) (fq x))
    (h' : Measured V (leavesUnder leaves parents h) ((leavesUnder leaves parents h).card : Nat) (c + 1) q') :
    ∀ x, ¬ x < leaves → x < parents.length → Measured V (leavesUnder leaves parents x)
      ((leavesUnder leaves parents x).card : Nat) (if x ∈ md.path.take (k + 1) then c + 1 else c) (vupd fq h q' x) := by
  intro x hx hxl
  rw [RightMeta.take_succ hk]
  by_cases e : x = h
  · subst e
    rw [vupd_same, if_pos (by simp)]
    exact h'
  · rw [vupd_ne e]
    simp only [List.mem_append, List.mem_singleton, e, or_false]
    exact hq x hx hxl

theorem hqInner_sum (r : RightMeta leaves parents md) {V : Nat → Nat → K} {c k : Nat}
    (hk1 : leaves ≤ k) (hk2 : k + 1 < parents.length) {s : HSt K} {fs fi : Nat → K} {fq : Nat → Quality K}
    (hi : HSInv leaves parents V c (md.path.take k) s fs fi fq) :
    ∃ s' fs' fi' fq', hqInner md k s = .ok s' ∧ HSInv leaves parents V c (md.path.take (k + 1)) s' fs' fi' fq' := by
  obtain ⟨h, hp, hl⟩ := r.at_ (show k < parents.length by omega)
  have hin : ¬ h < leaves := by rw [r.leafIff hp]; omega
  obtain ⟨p, hpar, hpl, hpo, hnp⟩ := r.par hp hk2
  have hpi := parent_inner r hpar
  have hn := r.notMem_take hp
  have hph : h ≠ p := by
    rintro rfl
    exact hnp (by rw [RightMeta.take_succ hp]; simp)
  unfold hqInner
  rw [vget_eq_ok.mpr hp]
  simp only [okBind]
  rw [hpo]
  simp only [okBind]
  rw [hi.sum.get hl]
  simp only [okBind]
  obtain ⟨s2, e2, r2⟩ := vaddTo_any hi.sum (fs h) hpl
  rw [e2]
  simp only [okBind]
  rw [hi.info.get hl]
  simp only [okBind]
  obtain ⟨i2, e4, r4⟩ := vaddTo_any hi.info (fi h) hpl
  rw [e4]
  simp only [okBind]
  have hs := hi.sumEq h hl
  have hI := hi.infoEq h hl
  have hq := hi.qEq h hin hl
  rw [accSet_ready r hp hin] at hs hI
  rw [if_neg hn] at hq
  obtain ⟨s', q', e5, e6, e7, h5, h6⟩ := hqAdd_sum (V := V) (c := c) r (s := ⟨s2, i2, s.q⟩) hl r2 r4 hi.q
    (by rw [vupd_ne hph]; exact hs) (by rw [vupd_ne hph]; exact hI) hq
  have key : ∀ (f g : Nat → K), (∀ x, x < parents.length → SumOf f (accSet leaves parents (md.path.take k) x) (g x)) →
      ∀ x, x < parents.length → SumOf f (accSet leaves parents (md.path.take (k + 1)) x) (vupd g p (g p + g h) x) := by
    intro f g hg x hx
    rw [RightMeta.take_succ hp]
    by_cases e : x = p
    · subst e
      rw [vupd_same]
      refine SumOf.push r hpar hpi hn (hg x hx) ?_
      have := hg h hl
      rw [accSet_ready r hp hin] at this
      exact this
    · rw [vupd_ne e, accSet_other hpar e (fun hh => absurd hh hin)]
      exact hg x hx
  refine ⟨s', _, _, _, e5, by rw [e6]; exact r2, by rw [e7]; exact r4, h5, key _ _ hi.sumEq, key _ _ hi.infoEq, ?_,
    hq_enter_sum hp hi.qEq h6⟩
  intro x hx
  rw [vupd_ne (by rintro rfl; exact hin hx)]
  exact hi.qLeaf x hx

/-- The qualities computed by `computeQualities`, in any arithmetic. -/
theorem hqCompute_sum (r : RightMeta leaves parents md) {v : HValues K} {m : Nat} {V : Nat → Nat → K}
    (hv : HData v m leaves V) (hlt : leaves < parents.length) :
    ∃ q f, hqCompute v md = .ok q ∧ VRep q parents.length f ∧ (∀ x, x < leaves → f x = ⟨0, 0⟩) ∧
      ∀ x, ¬ x < leaves → x < parents.length → Measured V (leavesUnder leaves parents x)
        ((leavesUnder leaves parents x).card : Nat) m (f x) := by
  unfold hqCompute
  rw [r.hsize, hv.vsize]
  obtain ⟨q, e, f, h⟩ := forUp_inv (lo := 0) (hi := m) (f := fun k q => hqSeries v md k q)
    (s := List.replicate parents.length Quality.zero)
    (fun k q => ∃ f, VRep q parents.length f ∧ (∀ x, x < leaves → f x = ⟨0, 0⟩) ∧
      ∀ x, ¬ x < leaves → x < parents.length → Measured V (leavesUnder leaves parents x)
        ((leavesUnder leaves parents x).card : Nat) k (f x)) (Nat.zero_le _)
    ⟨_, VRep.replicate _ _, fun _ _ => rfl, fun _ _ _ => .zero⟩
    (by
      rintro c q - hc ⟨f, hq1, hq2, hq3⟩
      unfold hqSeries
      rw [r.hsize, r.leaveSize]
      obtain ⟨s1, e1, fs1, fi1, fq1, h1⟩ := forUp_inv (lo := 0) (hi := leaves) (f := fun i s => hqLeaf v md c i s)
        (s := ⟨List.replicate parents.length 0, List.replicate parents.length 0, q⟩)
        (fun k s => ∃ fs fi fq, HSInv leaves parents V c (md.path.take k) s fs fi fq) (Nat.zero_le _)
        (by
          refine ⟨_, _, _, VRep.replicate _ _, VRep.replicate _ _, hq1, ?_, ?_, hq2, ?_⟩
          · intro x _; rw [List.take_zero, accSet_nil]; exact .none
          · intro x _; rw [List.take_zero, accSet_nil]; exact .none
          · intro x h1 h2; simpa using hq3 x h1 h2)
        (by
          rintro k s - hk ⟨fs, fi, fq, hi⟩
          obtain ⟨s', fs', fi', fq', e, h⟩ := hqLeaf_sum r hv hc hk hlt hi
          exact ⟨s', e, fs', fi', fq', h⟩)
      rw [e1]
      simp only [okBind]
      obtain ⟨y, hy, -⟩ := r.at_ hlt
      rw [vget_eq_ok.mpr hy]
      simp only [okBind]
      obtain ⟨s2, e2, fs2, fi2, fq2, h2⟩ := forUp_inv (lo := leaves) (hi := parents.length - 1) (f := fun i s => hqInner md i s)
        (s := s1) (fun k s => ∃ fs fi fq, HSInv leaves parents V c (md.path.take k) s fs fi fq) (by omega) ⟨fs1, fi1, fq1, h1⟩
        (by
          rintro k s hk1 hk2 ⟨fs, fi, fq, hi⟩
          obtain ⟨s', fs', fi', fq', e, h⟩ := hqInner_sum r hk1 (by omega) hi
          exact ⟨s', e, fs', fi', fq', h⟩)
      rw [e2]
      simp only [okBind]
      rw [show max leaves (parents.length - 1) = parents.length - 1 by omega, vget_eq_ok.mpr r.last]
      simp only [okBind]
      have hin := r.rootInner hlt
      have hs := h2.sumEq md.root r.tree.rootLt
      have hI := h2.infoEq md.root r.tree.rootLt
      have hq := h2.qEq md.root hin r.tree.rootLt
      rw [accSet_ready r r.last hin] at hs hI
      rw [if_neg (r.notMem_take r.last)] at hq
      obtain ⟨s', q', e5, e6, e7, h5, h6⟩ := hqAdd_sum (V := V) (c := c) r (s := s2) r.tree.rootLt h2.sum h2.info h2.q hs hI hq
      rw [e5]
      refine ⟨s'.q, rfl, _, h5, ?_, ?_⟩
      · intro x hx
        rw [vupd_ne (by rintro rfl; exact hin hx)]
        exact h2.qLeaf x hx
      · intro x hx hxl
        have := hq_enter_sum r.last h2.qEq h6 x hx hxl
        rw [if_pos] at this
        · exact this
        · rw [show parents.length - 1 + 1 = md.path.length by rw [r.pathLen]; have := r.tree.rootLt; omega, List.take_length,
            r.pathMem]
          exact hxl)
  exact ⟨q, f, e, h⟩

end Lp
