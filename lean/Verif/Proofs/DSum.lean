import Verif.Proofs.HSum
import Verif.Proofs.OSum
import Verif.Proofs.DEntropy

/-!
# `DQualities::computeQualities` in any arithmetic
-/

namespace Lp
open Spec
variable {leaves : Nat} {parents : List Int} {md : HMeta} {K : Type} [LDLog K]

/-- Cells of node `h` and slices `a..b`. -/
noncomputable def dSet (leaves : Nat) (parents : List Int) (h a b : Nat) : Finset (Nat × Nat) :=
  leavesUnder leaves parents h ×ˢ Finset.Icc a b

/-- Quality of node `x` and slices `a..b` after `k` series. -/
def DMeas (leaves : Nat) (parents : List Int) (V : Nat → Nat × Nat → K) (x a b k : Nat) (q : Quality K) : Prop :=
  if x < leaves ∧ a = b then q = ⟨0, 0⟩
  else Measured V (dSet leaves parents x a b) ((dSet leaves parents x a b).card : Nat) k q

/-- Loop invariant for series `c`: `D a b` are the nodes finished for cell `(a,b)`. -/
structure DSInv (leaves : Nat) (parents : List Int) (n : Nat) (V : Nat → Nat × Nat → K) (c : Nat)
    (D : Nat → Nat → List Nat) (s : DSt K) (fs fi : Nat → Nat → Nat → K) (fq : Nat → Nat → Nat → Quality K) : Prop where
  sum : MRep s.sum parents.length n fs
  info : MRep s.info parents.length n fi
  q : MRep s.q parents.length n fq
  sumEq : ∀ x a b, x < parents.length → a ≤ b → b < n →
    SumOf (V c) (accSet leaves parents (D a b) x ×ˢ Finset.Icc a b) (fs x a b)
  infoEq : ∀ x a b, x < parents.length → a ≤ b → b < n →
    SumOf (fun y => entropyReduction (V c y) 0) (accSet leaves parents (D a b) x ×ˢ Finset.Icc a b) (fi x a b)
  qEq : ∀ x a b, x < parents.length → a ≤ b → b < n →
    DMeas leaves parents V x a b (if x ∈ D a b then c + 1 else c) (fq x a b)

/-- As `DSInv`, with the contents left out. -/
def DSOk (leaves : Nat) (parents : List Int) (n : Nat) (V : Nat → Nat × Nat → K) (c : Nat)
    (D : Nat → Nat → List Nat) (s : DSt K) : Prop := ∃ fs fi fq, DSInv leaves parents n V c D s fs fi fq

variable {n : Nat} {V : Nat → Nat × Nat → K} {c : Nat}

theorem DSOk.congr {D D' : Nat → Nat → List Nat} {s : DSt K} (h : DSOk leaves parents n V c D s)
    (e : ∀ a b, a ≤ b → b < n → D a b = D' a b) : DSOk leaves parents n V c D' s := by
  obtain ⟨fs, fi, fq, h⟩ := h
  refine ⟨fs, fi, fq, h.sum, h.info, h.q, ?_, ?_, ?_⟩
  · intro x a b hx h1 h2; rw [← e a b h1 h2]; exact h.sumEq x a b hx h1 h2
  · intro x a b hx h1 h2; rw [← e a b h1 h2]; exact h.infoEq x a b hx h1 h2
  · intro x a b hx h1 h2; rw [← e a b h1 h2]; exact h.qEq x a b hx h1 h2

theorem dqPush_any {s : DSt K} {fs fi : Nat → Nat → Nat → K} {N h p i j : Nat} (hpo : md.parentOf h = .ok p)
    (hh : h < N) (hp : p < N) (hij : i ≤ j) (hj : j < n) (h1 : MRep s.sum N n fs) (h2 : MRep s.info N n fi) :
    ∃ s', dqPush md h i j s = .ok s' ∧ MRep s'.sum N n (mupd fs p i j (fs p i j + fs h i j)) ∧
      MRep s'.info N n (mupd fi p i j (fi p i j + fi h i j)) ∧ s'.q = s.q := by
  unfold dqPush
  rw [hpo]
  simp only [okBind]
  rw [h1.get hp hij hj, h1.get hh hij hj]
  simp only [okBind]
  obtain ⟨s1, e1, r1⟩ := h1.set (fs p i j + fs h i j) hp hij hj
  rw [e1]
  simp only [okBind]
  rw [h2.get hp hij hj, h2.get hh hij hj]
  simp only [okBind]
  obtain ⟨s2, e2, r2⟩ := h2.set (fi p i j + fi h i j) hp hij hj
  rw [e2]
  exact ⟨_, rfl, r1, r2, rfl⟩

theorem dqAdd_any {s : DSt K} {fs fi : Nat → Nat → Nat → K} {fq : Nat → Nat → Nat → Quality K} {N h i j : Nat} {c : Int}
    (hh : h < N) (hij : i ≤ j) (hj : j < n) (h1 : MRep s.sum N n fs) (h2 : MRep s.info N n fi)
    (h3 : MRep s.q N n fq) :
    ∃ s', dqAdd h i j c s = .ok s' ∧ s'.sum = s.sum ∧ s'.info = s.info ∧
      MRep s'.q N n (mupd fq h i j ⟨(fq h i j).gain + entropyReduction (fs h i j) (fi h i j),
        (fq h i j).loss + divergence c (fs h i j) (fi h i j)⟩) := by
  unfold dqAdd
  rw [h1.get hh hij hj, h2.get hh hij hj, h3.get hh hij hj]
  simp only [okBind]
  obtain ⟨q, e, r⟩ := h3.set (((fq h i j).addToGain (entropyReduction (fs h i j) (fi h i j))).addToLoss
    (divergence c (fs h i j) (fi h i j))) hh hij hj
  rw [e]
  exact ⟨_, rfl, rfl, rfl, r⟩

/-- Bookkeeping of the sums when cell `(i,j)` of node `h`, whose contents are now right, is added to the parent. -/
theorem dSum_next (r : RightMeta leaves parents md) {f : Nat × Nat → K} {g g' : Nat → Nat → Nat → K} {done : List Nat} {h p i j : Nat}
    (hh : h < parents.length) (hpar : ParentIs parents h p) (hpi : ¬ p < leaves) (hn : h ∉ done) (hij : i ≤ j) (hj : j < n)
    (hg : ∀ x a b, x < parents.length → a ≤ b → b < n →
      SumOf f (accSet leaves parents (dn done h i j a b) x ×ˢ Finset.Icc a b) (g x a b))
    (hme : SumOf f (leavesUnder leaves parents h ×ˢ Finset.Icc i j) (g' h i j))
    (hp' : p ≠ h) (hg' : ∀ x a b, ¬ (x = h ∧ a = i ∧ b = j) → g' x a b = g x a b)
    (hinner : ¬ h < leaves → g' h i j = g h i j) :
    ∀ x a b, x < parents.length → a ≤ b → b < n →
      SumOf f (accSet leaves parents (dn done h i (j + 1) a b) x ×ˢ Finset.Icc a b)
        (mupd g' p i j (g' p i j + g' h i j) x a b) := by
  intro x a b hx hab hb
  by_cases e : a = i ∧ b = j
  · obtain ⟨rfl, rfl⟩ := e
    rw [dn_next_here]
    by_cases e1 : x = p
    · subst e1
      rw [mupd_same, accSet_parent hpar hpi, Finset.union_product]
      refine .add ?_ ?_ hme
      · rw [Finset.disjoint_product]
        exact Or.inl (accSet_disjoint r hpar hpi hn)
      · rw [hg' x a b (by tauto)]
        have := hg x a b hx hab hb
        rwa [dn_here] at this
    · rw [mupd_ne (by tauto)]
      by_cases e2 : x = h
      · subst e2
        by_cases hl : x < leaves
        · rw [accSet_leaf hl (by simp)]
          rwa [leavesUnder_leaf r.tree hl] at hme
        · rw [accSet_other hpar e1 (fun hl' => absurd hl' hl), hinner hl]
          have := hg x a b hx hab hb
          rwa [dn_here] at this
      · rw [hg' x a b (by tauto), accSet_other hpar e1 (fun _ => e2)]
        have := hg x a b hx hab hb
        rwa [dn_here] at this
  · rw [mupd_ne (by tauto), dn_next e, hg' x a b (by tauto)]
    exact hg x a b hx hab hb

/-- Bookkeeping of the qualities. -/
theorem dMeas_next {fq : Nat → Nat → Nat → Quality K} {q' : Quality K} {done : List Nat} {h i j : Nat}
    (hq : ∀ x a b, x < parents.length → a ≤ b → b < n →
      DMeas leaves parents V x a b (if x ∈ dn done h i j a b then c + 1 else c) (fq x a b))
    (h' : DMeas leaves parents V h i j (c + 1) q') :
    ∀ x a b, x < parents.length → a ≤ b → b < n →
      DMeas leaves parents V x a b (if x ∈ dn done h i (j + 1) a b then c + 1 else c) (mupd fq h i j q' x a b) := by
  intro x a b hx hab hb
  by_cases e : a = i ∧ b = j
  · obtain ⟨rfl, rfl⟩ := e
    rw [dn_next_here]
    by_cases e1 : x = h
    · subst e1
      rw [mupd_same, if_pos (by simp)]
      exact h'
    · rw [mupd_ne (by tauto)]
      have := hq x a b hx hab hb
      rw [dn_here] at this
      simpa [e1] using this
  · rw [mupd_ne (by tauto), dn_next e]
    exact hq x a b hx hab hb

theorem SumOf.leafCell {f : Nat × Nat → K} {h i j : Nat} {x y : K} (hij : i < j)
    (hx : SumOf f ({h} ×ˢ Finset.Icc (i + 1) j) x) (hy : SumOf f ({h} ×ˢ Finset.Icc i i) y) :
    SumOf f ({h} ×ˢ Finset.Icc i j) (x + y) := by
  have hd : Disjoint (({h} : Finset Nat) ×ˢ Finset.Icc (i + 1) j) ({h} ×ˢ Finset.Icc i i) := by
    rw [Finset.disjoint_product]
    right
    rw [Finset.disjoint_left]; intro a; simp only [Finset.mem_Icc]; omega
  have hu : ({h} : Finset Nat) ×ˢ Finset.Icc i j = {h} ×ˢ Finset.Icc (i + 1) j ∪ {h} ×ˢ Finset.Icc i i := by
    rw [← Finset.product_union]
    congr 1
    ext a; simp only [Finset.mem_Icc, Finset.mem_union]; omega
  rw [hu]
  exact .add hd hx hy

theorem dqLeafCell_sum (r : RightMeta leaves parents md) {h i j : Nat} {p : Nat} {done : List Nat} (hl : h < leaves)
    (hpo : md.parentOf h = .ok p) (hpar : ParentIs parents h p) (hpl : p < parents.length) (hn : h ∉ done)
    (hij : i < j) (hj : j < n) {s : DSt K} (hi : DSOk leaves parents n V c (dn done h i j) s) :
    ∃ s', dqLeafCell md h i j s = .ok s' ∧ DSOk leaves parents n V c (dn done h i (j + 1)) s' := by
  obtain ⟨fs, fi, fq, hi⟩ := hi
  have hpi := parent_inner r hpar
  have hlt : h < parents.length := lt_of_lt_of_le hl r.tree.leavesLe
  have hph : p ≠ h := by rintro rfl; exact hpi hl
  have key : ∀ (f : Nat × Nat → K) (g : Nat → Nat → Nat → K), (∀ x a b, x < parents.length → a ≤ b → b < n →
      SumOf f (accSet leaves parents (dn done h i j a b) x ×ˢ Finset.Icc a b) (g x a b)) →
      SumOf f (leavesUnder leaves parents h ×ˢ Finset.Icc i j) (g h (i + 1) j + g h i i) := by
    intro f g hg
    have h1 := hg h (i + 1) j hlt hij hj
    have h2 := hg h i i hlt (le_refl i) (by omega)
    rw [dn_done (Or.inl (by omega)), accSet_leaf hl (by simp)] at h1
    rw [dn_done (Or.inr ⟨rfl, hij⟩), accSet_leaf hl (by simp)] at h2
    rw [leavesUnder_leaf r.tree hl]
    exact SumOf.leafCell hij h1 h2
  have hs := key _ _ hi.sumEq
  have hI := key _ _ hi.infoEq
  unfold dqLeafCell
  rw [hi.sum.get hlt hij hj, hi.sum.get hlt (le_refl i) (by omega)]
  simp only [okBind]
  obtain ⟨s1, e1, r1⟩ := hi.sum.set (fs h (i + 1) j + fs h i i) hlt hij.le hj
  rw [e1]
  simp only [okBind]
  rw [hi.info.get hlt hij hj, hi.info.get hlt (le_refl i) (by omega)]
  simp only [okBind]
  obtain ⟨s2, e2, r2⟩ := hi.info.set (fi h (i + 1) j + fi h i i) hlt hij.le hj
  rw [e2]
  simp only [okBind]
  obtain ⟨s3, e3, g1, g2, r3⟩ := dqAdd_any (s := ⟨s1, s2, s.q⟩) (c := (j : Int) - i + 1) hlt hij.le hj r1 r2 hi.q
  rw [e3]
  simp only [okBind]
  obtain ⟨s4, e4, r4, r5, g3⟩ := dqPush_any (s := s3) hpo hlt hpl hij.le hj (by rw [g1]; exact r1) (by rw [g2]; exact r2)
  refine ⟨s4, e4, _, _, _, r4, r5, by rw [g3]; exact r3, ?_, ?_, ?_⟩
  · exact dSum_next r hlt hpar hpi hn hij.le hj hi.sumEq (by rw [mupd_same]; exact hs) hph
      (fun x a b e => mupd_ne e) (fun h' => absurd hl h')
  · exact dSum_next r hlt hpar hpi hn hij.le hj hi.infoEq (by rw [mupd_same]; exact hI) hph
      (fun x a b e => mupd_ne e) (fun h' => absurd hl h')
  · refine dMeas_next hi.qEq ?_
    have hq := hi.qEq h i j hlt hij.le hj
    rw [dn_here, if_neg hn] at hq
    unfold DMeas at hq ⊢
    rw [if_neg (by omega)] at hq ⊢
    rw [mupd_same, mupd_same]
    have hc : ((dSet leaves parents h i j).card : Int) = (j : Int) - i + 1 := by
      unfold dSet
      rw [leavesUnder_leaf r.tree hl, Finset.card_product, Finset.card_singleton, card_Icc i j hij.le]
      simp
    rw [hc] at hq ⊢
    exact .next hq hs hI

theorem dqLeafRow_sum (r : RightMeta leaves parents md) {v : DValues K} {m : Nat}
    (hv : DData v m leaves n V) (hc : c < m) {h i : Nat} {p : Nat} {done : List Nat} (hl : h < leaves)
    (hpo : md.parentOf h = .ok p) (hpar : ParentIs parents h p) (hpl : p < parents.length) (hn : h ∉ done)
    (hin : i < n) {s : DSt K} (hi : DSOk leaves parents n V c (dn done h i i) s) :
    ∃ s', dqLeafRow v md c h i s = .ok s' ∧ DSOk leaves parents n V c (dn done h i n) s' := by
  obtain ⟨fs, fi, fq, hi⟩ := hi
  have hpi := parent_inner r hpar
  have hlt : h < parents.length := lt_of_lt_of_le hl r.tree.leavesLe
  have hph : p ≠ h := by rintro rfl; exact hpi hl
  unfold dqLeafRow
  have hr := table1_rep n (fun x => V c (h, x))
  rw [hv.row c h hc hl]
  simp only [okBind]
  rw [hr.get hin]
  simp only [okBind]
  obtain ⟨s1, e1, r1⟩ := hi.sum.set (V c (h, i)) hlt (le_refl i) hin
  rw [e1]
  simp only [okBind]
  obtain ⟨s2, e2, r2⟩ := hi.info.set (entropyReduction (V c (h, i)) 0) hlt (le_refl i) hin
  rw [e2]
  simp only [okBind]
  obtain ⟨s4, e4, r4, r5, g3⟩ := dqPush_any (s := ⟨s1, s2, s.q⟩) hpo hlt hpl (le_refl i) hin r1 r2
  rw [e4]
  simp only [okBind]
  have one : ∀ f : Nat × Nat → K, SumOf f (leavesUnder leaves parents h ×ˢ Finset.Icc i i) (f (h, i)) := by
    intro f
    rw [leavesUnder_leaf r.tree hl, Finset.Icc_self, Finset.singleton_product_singleton]
    exact .one (h, i)
  have hstart : DSOk leaves parents n V c (dn done h i (i + 1)) s4 := by
    refine ⟨_, _, fq, r4, r5, by rw [g3]; exact hi.q, ?_, ?_, ?_⟩
    · exact dSum_next r hlt hpar hpi hn (le_refl i) hin hi.sumEq (by rw [mupd_same]; exact one _) hph
        (fun x a b e => mupd_ne e) (fun h' => absurd hl h')
    · exact dSum_next r hlt hpar hpi hn (le_refl i) hin hi.infoEq
        (by rw [mupd_same]; exact one (fun y => entropyReduction (V c y) 0)) hph
        (fun x a b e => mupd_ne e) (fun h' => absurd hl h')
    · have hq : DMeas leaves parents V h i i (c + 1) (fq h i i) := by
        have := hi.qEq h i i hlt (le_refl i) hin
        unfold DMeas at this ⊢
        rw [if_pos ⟨hl, rfl⟩] at this ⊢
        exact this
      have := dMeas_next hi.qEq hq
      intro x a b hx hab hb
      have h2 := this x a b hx hab hb
      by_cases e : x = h ∧ a = i ∧ b = i
      · obtain ⟨rfl, rfl, rfl⟩ := e; rwa [mupd_same] at h2
      · rwa [mupd_ne e] at h2
  rw [hv.osize]
  exact forUp_inv (lo := i + 1) (hi := n) (f := fun j s => dqLeafCell md h i j s)
    (fun j s => DSOk leaves parents n V c (dn done h i j) s) (by omega) hstart
    (fun j s hj1 hj2 hi => dqLeafCell_sum r hl hpo hpar hpl hn (by omega) hj2 hi)

/-- A node processed row by row. -/
theorem dqRows_sum {done : List Nat} {h : Nat} {body : Nat → DSt K → Res (DSt K)} {s : DSt K}
    (hi : DSOk leaves parents n V c (fun _ _ => done) s)
    (step : ∀ i s, i < n → DSOk leaves parents n V c (dn done h i i) s →
      ∃ s', body i s = .ok s' ∧ DSOk leaves parents n V c (dn done h i n) s') :
    ∃ s', forDown n body s = .ok s' ∧ DSOk leaves parents n V c (fun _ _ => done ++ [h]) s' := by
  obtain ⟨s', e, hs⟩ := forDown_inv (f := body) (fun i s => DSOk leaves parents n V c (dn done h i n) s) n s
    (hi.congr (fun a b h1 h2 => (dn_start h2 h1).symm))
    (fun i s hin hi => step i s hin (hi.congr (fun a b h1 h2 => dn_row h2 h1)))
  exact ⟨s', e, hs.congr (fun a b _ h2 => dn_end h2)⟩

theorem dqLeaf_sum (r : RightMeta leaves parents md) {v : DValues K} {m : Nat}
    (hv : DData v m leaves n V) (hc : c < m) {k : Nat} (hk : k < leaves) (hlt : leaves < parents.length)
    {s : DSt K} (hi : DSOk leaves parents n V c (fun _ _ => md.path.take k) s) :
    ∃ s', dqLeaf v md c k s = .ok s' ∧ DSOk leaves parents n V c (fun _ _ => md.path.take (k + 1)) s' := by
  have hp := r.pathLeaves k hk
  obtain ⟨p, hpar, hpl, hpo, -⟩ := r.par hp (by omega)
  unfold dqLeaf
  rw [vget_eq_ok.mpr hp]
  simp only [okBind]
  rw [hv.osize, RightMeta.take_succ hp]
  exact dqRows_sum hi (fun i s hin hi => dqLeafRow_sum r hv hc hk hpo hpar hpl (r.notMem_take hp) hin hi)

theorem dqInnerMeas (r : RightMeta leaves parents md) {done : List Nat} {h i j : Nat} {s : DSt K}
    {fs fi : Nat → Nat → Nat → K} {fq : Nat → Nat → Nat → Quality K}
    (hin : ¬ h < leaves) (hl : h < parents.length) (hij : i ≤ j) (hj : j < n) (hn : h ∉ done)
    (hr : accSet leaves parents done h = leavesUnder leaves parents h)
    (hi : DSInv leaves parents n V c (dn done h i j) s fs fi fq) :
    SumOf (V c) (dSet leaves parents h i j) (fs h i j) ∧
    SumOf (fun y => entropyReduction (V c y) 0) (dSet leaves parents h i j) (fi h i j) ∧
    DMeas leaves parents V h i j (c + 1) ⟨(fq h i j).gain + entropyReduction (fs h i j) (fi h i j),
      (fq h i j).loss + divergence (((j : Int) - i + 1) * ((leavesUnder leaves parents h).card : Nat)) (fs h i j) (fi h i j)⟩ := by
  have h1 := hi.sumEq h i j hl hij hj
  have h2 := hi.infoEq h i j hl hij hj
  have h3 := hi.qEq h i j hl hij hj
  rw [dn_here, hr] at h1 h2
  rw [dn_here, if_neg hn] at h3
  refine ⟨h1, h2, ?_⟩
  unfold DMeas at h3 ⊢
  rw [if_neg (by tauto)] at h3 ⊢
  have hc : ((dSet leaves parents h i j).card : Int) = ((j : Int) - i + 1) * ((leavesUnder leaves parents h).card : Nat) := by
    unfold dSet
    rw [Finset.card_product, card_Icc i j hij]
    push_cast
    ring
  rw [← hc]
  exact .next h3 h1 h2

theorem dqInner_sum (r : RightMeta leaves parents md) (hb : leaves * n < 2147483648) {k : Nat} (hk1 : leaves ≤ k)
    (hk2 : k + 1 < parents.length) {s : DSt K} (hi : DSOk leaves parents n V c (fun _ _ => md.path.take k) s) :
    ∃ s', dqInner n md k s = .ok s' ∧ DSOk leaves parents n V c (fun _ _ => md.path.take (k + 1)) s' := by
  obtain ⟨h, hp, hl⟩ := r.at_ (show k < parents.length by omega)
  have hin : ¬ h < leaves := by rw [r.leafIff hp]; omega
  obtain ⟨p, hpar, hpl, hpo, hnp⟩ := r.par hp hk2
  have hpi := parent_inner r hpar
  have hn := r.notMem_take hp
  have hph : p ≠ h := by
    rintro rfl
    exact hnp (by rw [RightMeta.take_succ hp]; simp)
  unfold dqInner
  rw [vget_eq_ok.mpr hp]
  simp only [okBind]
  rw [RightMeta.take_succ hp]
  refine dqRows_sum hi (fun i s hin' hi => ?_)
  refine forUp_inv (lo := i) (hi := n) (fun j s => DSOk leaves parents n V c (dn (md.path.take k) h i j) s)
    (by omega) hi ?_
  rintro j s hij hj ⟨fs, fi, fq, hi⟩
  rw [dqCount_spec r hl hij hj hb]
  simp only [okBind]
  obtain ⟨hs, hI, hq⟩ := dqInnerMeas r hin hl hij hj hn (accSet_ready r hp hin) hi
  obtain ⟨s3, e3, g1, g2, r3⟩ := dqAdd_any (s := s)
    (c := ((j : Int) - i + 1) * ((leavesUnder leaves parents h).card : Nat)) hl hij hj hi.sum hi.info hi.q
  rw [e3]
  simp only [okBind]
  obtain ⟨s4, e4, r4, r5, g3⟩ := dqPush_any (s := s3) hpo hl hpl hij hj (by rw [g1]; exact hi.sum)
    (by rw [g2]; exact hi.info)
  refine ⟨s4, e4, _, _, _, r4, r5, by rw [g3]; exact r3, ?_, ?_, dMeas_next hi.qEq hq⟩
  · exact dSum_next r hl hpar hpi hn hij hj hi.sumEq hs hph (fun _ _ _ _ => rfl) (fun _ => rfl)
  · exact dSum_next r hl hpar hpi hn hij hj hi.infoEq hI hph (fun _ _ _ _ => rfl) (fun _ => rfl)

theorem dqRoot_sum (r : RightMeta leaves parents md) (hb : leaves * n < 2147483648) (hlt : leaves < parents.length)
    {s : DSt K} (hi : DSOk leaves parents n V c (fun _ _ => md.path.take (parents.length - 1)) s) :
    ∃ s' f, dqRoot n md md.root s = .ok s' ∧ MRep s'.q parents.length n f ∧
      ∀ x a b, x < parents.length → a ≤ b → b < n → DMeas leaves parents V x a b (c + 1) (f x a b) := by
  have hin := r.rootInner hlt
  have hnp := r.notMem_take r.last
  have hl := r.tree.rootLt
  have hready := accSet_ready r r.last hin
  obtain ⟨done, hdone⟩ : ∃ d, d = md.path.take (parents.length - 1) := ⟨_, rfl⟩
  rw [← hdone] at hi hnp hready
  obtain ⟨fs, fi, fq, hi⟩ := hi
  unfold dqRoot
  let P : Nat → Nat → DSt K → Prop := fun i j s' =>
    MRep s'.sum parents.length n fs ∧ MRep s'.info parents.length n fi ∧
    ∃ fq, MRep s'.q parents.length n fq ∧ ∀ x a b, x < parents.length → a ≤ b → b < n →
      DMeas leaves parents V x a b (if x ∈ dn done md.root i j a b then c + 1 else c) (fq x a b)
  obtain ⟨s', e, -, -, f, h3, h4⟩ := forDown_inv (f := fun i s => forUp i n (fun j s => do
      let n ← dqCount md md.root i j
      dqAdd md.root i j n s) s) (fun i s => P i n s) n s
    (by
      refine ⟨hi.sum, hi.info, fq, hi.q, ?_⟩
      intro x a b hx h1 h2; rw [dn_start h2 h1]; exact hi.qEq x a b hx h1 h2)
    (by
      rintro i s hin' ⟨h1, h2, fq', h3, h4⟩
      obtain ⟨s', e, hs⟩ := forUp_inv (lo := i) (hi := n) (f := fun j s => do
          let n ← dqCount md md.root i j
          dqAdd md.root i j n s) (s := s) (fun j s => P i j s) (by omega)
        ⟨h1, h2, fq', h3, fun x a b hx g1 g2 => by rw [← dn_row g2 g1]; exact h4 x a b hx g1 g2⟩
        (by
          rintro j s hij hj ⟨h1, h2, fq', h3, h4⟩
          simp only [dqCount_spec r hl hij hj hb, okBind]
          obtain ⟨s3, e3, g1, g2, r3⟩ := dqAdd_any (s := s)
            (c := ((j : Int) - i + 1) * ((leavesUnder leaves parents md.root).card : Nat)) hl hij hj h1 h2 h3
          refine ⟨s3, e3, by rw [g1]; exact h1, by rw [g2]; exact h2, _, r3, dMeas_next h4 ?_⟩
          have q1 := hi.sumEq md.root i j hl hij hj
          have q2 := hi.infoEq md.root i j hl hij hj
          have q3 := h4 md.root i j hl hij hj
          rw [hready] at q1 q2
          rw [dn_here, if_neg hnp] at q3
          unfold DMeas at q3 ⊢
          rw [if_neg (by tauto)] at q3 ⊢
          have hc : ((dSet leaves parents md.root i j).card : Int) =
              ((j : Int) - i + 1) * ((leavesUnder leaves parents md.root).card : Nat) := by
            unfold dSet
            rw [Finset.card_product, card_Icc i j hij]
            push_cast
            ring
          rw [← hc]
          exact .next q3 q1 q2)
      exact ⟨s', e, hs⟩)
  refine ⟨s', f, e, h3, ?_⟩
  intro x a b hx h1 h2
  have := h4 x a b hx h1 h2
  rw [dn_end h2, if_pos] at this
  · exact this
  · rw [hdone, ← RightMeta.take_succ r.last,
      show parents.length - 1 + 1 = md.path.length by rw [r.pathLen]; omega, List.take_length, r.pathMem]
    exact hx

/-- The tables computed by `computeQualities`, in any arithmetic. -/
theorem dqCompute_sum (r : RightMeta leaves parents md) (hlt : leaves < parents.length)
    {v : DValues K} {m : Nat} (hv : DData v m leaves n V) (hn : n ≤ 65535) (hb : leaves * n < 2147483648) :
    ∃ q f, dqCompute v md = .ok q ∧ MRep q parents.length n f ∧
      ∀ x a b, x < parents.length → a ≤ b → b < n → DMeas leaves parents V x a b m (f x a b) := by
  unfold dqCompute
  rw [r.hsize, hv.vsize, hv.osize]
  obtain ⟨q, e, f, h⟩ := forUp_inv (lo := 0) (hi := m) (f := fun k q => dqSeries v md k q)
    (s := List.replicate parents.length (UTM.mk' n Quality.zero))
    (fun k q => ∃ f, MRep q parents.length n f ∧
      ∀ x a b, x < parents.length → a ≤ b → b < n → DMeas leaves parents V x a b k (f x a b))
    (Nat.zero_le _)
    ⟨_, MRep.replicate hn _, fun x a b _ _ _ => by
      unfold DMeas; split
      · rfl
      · exact .zero⟩
    (by
      rintro c q - hc ⟨f, hq, hf⟩
      unfold dqSeries
      rw [r.hsize, r.leaveSize, hv.osize]
      obtain ⟨s1, e1, h1⟩ := forUp_inv (lo := 0) (hi := leaves) (f := fun i s => dqLeaf v md c i s)
        (s := ⟨List.replicate parents.length (UTM.mk' n 0), List.replicate parents.length (UTM.mk' n 0), q⟩)
        (fun k s => DSOk leaves parents n V c (fun _ _ => md.path.take k) s) (Nat.zero_le _)
        (by
          refine ⟨_, _, _, MRep.replicate hn _, MRep.replicate hn _, hq, ?_, ?_, ?_⟩
          · intro x a b _ _ _; rw [List.take_zero, accSet_nil, Finset.empty_product]; exact .none
          · intro x a b _ _ _; rw [List.take_zero, accSet_nil, Finset.empty_product]; exact .none
          · intro x a b hx h1 h2; simpa using hf x a b hx h1 h2)
        (fun k s _ hk hi => dqLeaf_sum r hv hc hk hlt hi)
      dsimp only
      erw [e1]
      simp only [okBind]
      obtain ⟨y, hy, -⟩ := r.at_ hlt
      rw [vget_eq_ok.mpr hy]
      simp only [okBind]
      obtain ⟨s2, e2, h2⟩ := forUp_inv (lo := leaves) (hi := parents.length - 1) (f := fun i s => dqInner n md i s)
        (s := s1) (fun k s => DSOk leaves parents n V c (fun _ _ => md.path.take k) s) (by omega) h1
        (fun k s hk1 hk2 hi => dqInner_sum r hb hk1 (by omega) hi)
      rw [e2]
      simp only [okBind]
      rw [show max leaves (parents.length - 1) = parents.length - 1 by omega, vget_eq_ok.mpr r.last]
      simp only [okBind]
      obtain ⟨s', f', e5, h5, h6⟩ := dqRoot_sum r hb hlt h2
      rw [e5]
      exact ⟨s'.q, rfl, f', h5, h6⟩)
  exact ⟨q, f, e, h⟩

end Lp
