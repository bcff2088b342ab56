import Verif.Proofs.HEntropy
import Verif.Proofs.OEntropy
import Verif.Proofs.MRep
import Mathlib.Algebra.BigOperators.Group.Finset.Sigma

/-!
# `DQualities::computeQualities` computes the entropy measures
-/

namespace Lp
open Spec
variable {leaves : Nat} {parents : List Int} {md : HMeta}

/-- Sum of a leaf's values over the interval `[a,b]`. -/
noncomputable def W (f : Nat × Nat → ℝ) (a b l : Nat) : ℝ := ∑ x ∈ Finset.Icc a b, f (l, x)

theorem W_diag (f : Nat × Nat → ℝ) (i l : Nat) : W f i i l = f (l, i) := by simp [W]

theorem W_step (f : Nat × Nat → ℝ) {i j : Nat} (h : i < j) (l : Nat) : W f i j l = W f (i + 1) j l + W f i i l := by
  unfold W; rw [sum_Icc_step _ h]; simp

/-- Quality of node `h` and interval `[a,b]` for one series. -/
noncomputable def dCell (leaves : Nat) (parents : List Int) (f : Nat × Nat → ℝ) (h a b : Nat) : Quality ℝ :=
  codeQ (leafSum leaves parents (W f a b) h) (leafSum leaves parents (W (fun x => er0 (f x)) a b) h)
    (((b : Int) - a + 1) * ((leavesUnder leaves parents h).card : Nat))

theorem dCell_leaf (r : RightMeta leaves parents md) (f : Nat × Nat → ℝ) {h : Nat} (hl : h < leaves) (a b : Nat) :
    dCell leaves parents f h a b = codeQ (W f a b h) (W (fun x => er0 (f x)) a b h) ((b : Int) - a + 1) := by
  unfold dCell
  rw [leafSum_leaf r _ hl, leafSum_leaf r _ hl, leavesUnder_leaf r.tree hl, Finset.card_singleton]
  simp

theorem dCell_leaf_diag (r : RightMeta leaves parents md) (f : Nat × Nat → ℝ) {h : Nat} (hl : h < leaves) (a : Nat) :
    dCell leaves parents f h a a = ⟨0, 0⟩ := by
  rw [dCell_leaf r f hl, W_diag, W_diag, sub_self, zero_add]
  exact codeQ_single _

/-- Nodes finished for cell `(a,b)` while node `h` is being processed and has got to cell `(i,j)`. -/
def dn (done : List Nat) (h i j a b : Nat) : List Nat := if ODone i j a b then done ++ [h] else done

theorem dn_here (done : List Nat) (h i j : Nat) : dn done h i j i j = done := by
  unfold dn; rw [if_neg (by unfold ODone; omega)]

theorem dn_next_here (done : List Nat) (h i j : Nat) : dn done h i (j + 1) i j = done ++ [h] := by
  unfold dn; rw [if_pos (by unfold ODone; omega)]

theorem dn_next {done : List Nat} {h i j a b : Nat} (e : ¬ (a = i ∧ b = j)) :
    dn done h i (j + 1) a b = dn done h i j a b := by
  unfold dn
  have : ODone i (j + 1) a b ↔ ODone i j a b := by unfold ODone; omega
  simp only [this]

theorem dn_done {done : List Nat} {h i j a b : Nat} (e : ODone i j a b) : dn done h i j a b = done ++ [h] := by
  unfold dn; rw [if_pos e]

/-- Contents of `sum` (and `info`). -/
noncomputable def dAcc (leaves : Nat) (parents : List Int) (f : Nat × Nat → ℝ) (D : Nat → Nat → List Nat)
    (x a b : Nat) : ℝ := acc leaves parents (W f a b) (D a b) x

/-- Contents of the quality table. -/
noncomputable def dQ (leaves : Nat) (parents : List Int) (f : Nat × Nat → ℝ) (q0 : Nat → Nat → Nat → Quality ℝ)
    (D : Nat → Nat → List Nat) (x a b : Nat) : Quality ℝ :=
  if x ∈ D a b then qplus (q0 x a b) (dCell leaves parents f x a b) else q0 x a b

/-- Loop invariant: `D a b` are the nodes finished for cell `(a,b)`. -/
structure DQInv (leaves : Nat) (parents : List Int) (n : Nat) (f : Nat × Nat → ℝ) (q0 : Nat → Nat → Nat → Quality ℝ)
    (D : Nat → Nat → List Nat) (s : DSt ℝ) : Prop where
  sum : MRep s.sum parents.length n (dAcc leaves parents f D)
  info : MRep s.info parents.length n (dAcc leaves parents (fun x => er0 (f x)) D)
  q : MRep s.q parents.length n (dQ leaves parents f q0 D)

variable {n : Nat} {f : Nat × Nat → ℝ} {q0 : Nat → Nat → Nat → Quality ℝ}

theorem DQInv.congr {D D' : Nat → Nat → List Nat} {s : DSt ℝ} (h : DQInv leaves parents n f q0 D s)
    (e : ∀ a b, a ≤ b → b < n → D a b = D' a b) : DQInv leaves parents n f q0 D' s := by
  refine ⟨h.sum.congr ?_, h.info.congr ?_, h.q.congr ?_⟩
  · intro x a b _ h1 h2; unfold dAcc; rw [e a b h1 h2]
  · intro x a b _ h1 h2; unfold dAcc; rw [e a b h1 h2]
  · intro x a b _ h1 h2; unfold dQ; rw [e a b h1 h2]

theorem dqPush_spec {s : DSt ℝ} {fs fi : Nat → Nat → Nat → ℝ} {N h p i j : Nat} (hpo : md.parentOf h = .ok p)
    (hh : h < N) (hp : p < N) (hij : i ≤ j) (hj : j < n) (h1 : MRep s.sum N n fs) (h2 : MRep s.info N n fi) :
    ∃ s', dqPush md h i j s = .ok s' ∧ MRep s'.sum N n (mupd fs p i j (fs p i j + fs h i j)) ∧
      MRep s'.info N n (mupd fi p i j (fi p i j + fi h i j)) ∧ s'.q = s.q := by
  unfold dqPush
  rw [hpo]
  simp only [okBind]
  rw [h1.get hp hij hj, h1.get hh hij hj]
  simp only [okBind]
  obtain ⟨s1, e1, r1⟩ := h1.set (fs p i j + fs h i j) hp hij hj
  rw [e1]
  simp only [okBind]
  rw [h2.get hp hij hj, h2.get hh hij hj]
  simp only [okBind]
  obtain ⟨s2, e2, r2⟩ := h2.set (fi p i j + fi h i j) hp hij hj
  rw [e2]
  exact ⟨_, rfl, r1, r2, rfl⟩

theorem dqAdd_spec {s : DSt ℝ} {fs fi : Nat → Nat → Nat → ℝ} {fq : Nat → Nat → Nat → Quality ℝ} {N h i j : Nat} {c : Int}
    (hh : h < N) (hij : i ≤ j) (hj : j < n) (h1 : MRep s.sum N n fs) (h2 : MRep s.info N n fi)
    (h3 : MRep s.q N n fq) :
    ∃ s', dqAdd h i j c s = .ok s' ∧ s'.sum = s.sum ∧ s'.info = s.info ∧
      MRep s'.q N n (mupd fq h i j (qplus (fq h i j) (codeQ (fs h i j) (fi h i j) c))) := by
  unfold dqAdd
  rw [h1.get hh hij hj, h2.get hh hij hj, h3.get hh hij hj]
  simp only [okBind]
  rw [add_code]
  obtain ⟨q, e, r⟩ := h3.set (qplus (fq h i j) (codeQ (fs h i j) (fi h i j) c)) hh hij hj
  unfold qplus at e
  rw [e]
  exact ⟨_, rfl, rfl, rfl, r⟩

/-- The quality table after finishing cell `(i,j)` of node `h`. -/
theorem dQ_next {done : List Nat} {h i j : Nat} (hn : h ∉ done) (x a b : Nat) :
    mupd (dQ leaves parents f q0 (dn done h i j)) h i j
      (qplus (dQ leaves parents f q0 (dn done h i j) h i j) (dCell leaves parents f h i j)) x a b =
    dQ leaves parents f q0 (dn done h i (j + 1)) x a b := by
  by_cases e : a = i ∧ b = j
  · obtain ⟨rfl, rfl⟩ := e
    by_cases e' : x = h
    · subst e'
      rw [mupd_same]
      unfold dQ
      rw [dn_here, dn_next_here, if_neg hn, if_pos (by simp)]
    · rw [mupd_ne (by tauto)]
      unfold dQ
      rw [dn_here, dn_next_here]
      simp [e']
  · rw [mupd_ne (by tauto)]
    unfold dQ
    rw [dn_next e]

/-- The sums after pushing cell `(i,j)` of inner node `h`. -/
theorem dAcc_next_inner {done : List Nat} {h p i j : Nat} (hin : ¬ h < leaves)
    (hpar : ParentIs parents h p) (hpi : ¬ p < leaves) {g : Nat × Nat → ℝ}
    (hr : acc leaves parents (W g i j) done h = leafSum leaves parents (W g i j) h) (x a b : Nat) :
    mupd (dAcc leaves parents g (dn done h i j)) p i j
      (dAcc leaves parents g (dn done h i j) p i j + dAcc leaves parents g (dn done h i j) h i j) x a b =
    dAcc leaves parents g (dn done h i (j + 1)) x a b := by
  by_cases e : a = i ∧ b = j
  · obtain ⟨rfl, rfl⟩ := e
    unfold dAcc
    rw [dn_next_here, acc_inner _ hin hpar hpi, ← hr]
    by_cases e' : x = p
    · subst e'; rw [mupd_same, vupd_same, dn_here]
    · rw [mupd_ne (by tauto), vupd_ne e', dn_here]
  · rw [mupd_ne (by tauto)]
    unfold dAcc
    rw [dn_next e]

/-- The sums after setting and pushing cell `(i,j)` of leaf `h`. -/
theorem dAcc_next_leaf (r : RightMeta leaves parents md) {done : List Nat} {h p i j : Nat} (hl : h < leaves)
    (hpar : ParentIs parents h p) (hpi : ¬ p < leaves) {g : Nat × Nat → ℝ} (x a b : Nat) :
    mupd (mupd (dAcc leaves parents g (dn done h i j)) h i j (W g i j h)) p i j
      (mupd (dAcc leaves parents g (dn done h i j)) h i j (W g i j h) p i j +
        mupd (dAcc leaves parents g (dn done h i j)) h i j (W g i j h) h i j) x a b =
    dAcc leaves parents g (dn done h i (j + 1)) x a b := by
  have hph : ¬ (p = h ∧ i = i ∧ j = j) := by
    rintro ⟨rfl, -⟩; exact hpi hl
  rw [mupd_same, mupd_ne hph]
  by_cases e : a = i ∧ b = j
  · obtain ⟨rfl, rfl⟩ := e
    unfold dAcc
    rw [dn_next_here, acc_leaf r _ hl hpar hpi]
    by_cases e' : x = p
    · subst e'; rw [mupd_same, vupd_same, dn_here]
    · rw [mupd_ne (by tauto), vupd_ne e']
      by_cases e2 : x = h
      · subst e2; rw [mupd_same, vupd_same]
      · rw [mupd_ne (by tauto), vupd_ne e2, dn_here]
  · rw [mupd_ne (by tauto), mupd_ne (by tauto)]
    unfold dAcc
    rw [dn_next e]

theorem dqLeafCell_spec (r : RightMeta leaves parents md) {h i j : Nat} {p : Nat} {done : List Nat} (hl : h < leaves)
    (hpo : md.parentOf h = .ok p) (hpar : ParentIs parents h p) (hpl : p < parents.length) (hn : h ∉ done)
    (hij : i < j) (hj : j < n) {s : DSt ℝ} (hi : DQInv leaves parents n f q0 (dn done h i j) s) :
    ∃ s', dqLeafCell md h i j s = .ok s' ∧ DQInv leaves parents n f q0 (dn done h i (j + 1)) s' := by
  have hpi := parent_inner r hpar
  have hlt : h < parents.length := lt_of_lt_of_le hl r.tree.leavesLe
  have v1 : ∀ g, dAcc leaves parents g (dn done h i j) h (i + 1) j = W g (i + 1) j h := by
    intro g
    unfold dAcc
    rw [dn_done (Or.inl (by omega)), acc_leaf_done r _ hl (by simp)]
  have v2 : ∀ g, dAcc leaves parents g (dn done h i j) h i i = W g i i h := by
    intro g
    unfold dAcc
    rw [dn_done (Or.inr ⟨rfl, hij⟩), acc_leaf_done r _ hl (by simp)]
  unfold dqLeafCell
  rw [hi.sum.get hlt hij hj, hi.sum.get hlt (le_refl i) (by omega)]
  simp only [okBind]
  rw [v1, v2, ← W_step f hij]
  obtain ⟨s1, e1, r1⟩ := hi.sum.set (W f i j h) hlt hij.le hj
  rw [e1]
  simp only [okBind]
  rw [hi.info.get hlt hij hj, hi.info.get hlt (le_refl i) (by omega)]
  simp only [okBind]
  rw [v1, v2, ← W_step _ hij]
  obtain ⟨s2, e2, r2⟩ := hi.info.set (W (fun x => er0 (f x)) i j h) hlt hij.le hj
  rw [e2]
  simp only [okBind]
  obtain ⟨s3, e3, g1, g2, r3⟩ := dqAdd_spec (s := ⟨s1, s2, s.q⟩) (c := (j : Int) - i + 1) hlt hij.le hj r1 r2 hi.q
  rw [e3]
  simp only [okBind]
  obtain ⟨s4, e4, r4, r5, g3⟩ := dqPush_spec (s := s3) hpo hlt hpl hij.le hj (by rw [g1]; exact r1) (by rw [g2]; exact r2)
  refine ⟨s4, e4, ?_, ?_, ?_⟩
  · exact r4.congr (fun x a b _ _ _ => dAcc_next_leaf r hl hpar hpi x a b)
  · exact r5.congr (fun x a b _ _ _ => dAcc_next_leaf r hl hpar hpi x a b)
  · rw [g3]
    refine r3.congr (fun x a b _ _ _ => ?_)
    rw [mupd_same, mupd_same, ← dCell_leaf r f hl, dQ_next hn]

theorem dqLeafRow_spec (r : RightMeta leaves parents md) {v : DValues ℝ} {m : Nat} {V : Nat → Nat × Nat → ℝ}
    (hv : DData v m leaves n V) {c : Nat} (hc : c < m) {h i : Nat} {p : Nat} {done : List Nat} (hl : h < leaves)
    (hpo : md.parentOf h = .ok p) (hpar : ParentIs parents h p) (hpl : p < parents.length) (hn : h ∉ done)
    (hin : i < n) {s : DSt ℝ} (hi : DQInv leaves parents n (V c) q0 (dn done h i i) s) :
    ∃ s', dqLeafRow v md c h i s = .ok s' ∧ DQInv leaves parents n (V c) q0 (dn done h i n) s' := by
  have hpi := parent_inner r hpar
  have hlt : h < parents.length := lt_of_lt_of_le hl r.tree.leavesLe
  unfold dqLeafRow
  have hr := table1_rep n (fun x => V c (h, x))
  rw [hv.row c h hc hl]
  simp only [okBind]
  rw [hr.get hin]
  simp only [okBind]
  obtain ⟨s1, e1, r1⟩ := hi.sum.set (V c (h, i)) hlt (le_refl i) hin
  rw [e1]
  simp only [okBind]
  obtain ⟨s2, e2, r2⟩ := hi.info.set (er0 (V c (h, i))) hlt (le_refl i) hin
  unfold er0 at e2
  rw [e2]
  simp only [okBind]
  obtain ⟨s4, e4, r4, r5, g3⟩ := dqPush_spec (s := ⟨s1, s2, s.q⟩) hpo hlt hpl (le_refl i) hin r1 r2
  rw [e4]
  simp only [okBind]
  have hstart : DQInv leaves parents n (V c) q0 (dn done h i (i + 1)) s4 := by
    refine ⟨?_, ?_, ?_⟩
    · refine r4.congr (fun x a b _ _ _ => ?_)
      rw [← dAcc_next_leaf r (done := done) (h := h) (i := i) (j := i) hl hpar hpi x a b, W_diag]
    · refine r5.congr (fun x a b _ _ _ => ?_)
      rw [← dAcc_next_leaf r (done := done) (h := h) (i := i) (j := i) hl hpar hpi x a b, W_diag]
    · rw [g3]
      refine hi.q.congr (fun x a b _ _ _ => ?_)
      rw [← dQ_next hn, dCell_leaf_diag r _ hl, qplus_zero]
      by_cases e : x = h ∧ a = i ∧ b = i
      · obtain ⟨rfl, rfl, rfl⟩ := e; rw [mupd_same]
      · rw [mupd_ne e]
  rw [hv.osize]
  exact forUp_inv (lo := i + 1) (hi := n) (f := fun j s => dqLeafCell md h i j s)
    (fun j s => DQInv leaves parents n (V c) q0 (dn done h i j) s) (by omega) hstart
    (fun j s hj1 hj2 hi => dqLeafCell_spec r hl hpo hpar hpl hn (by omega) hj2 hi)

theorem dn_start {done : List Nat} {h a b : Nat} (hb : b < n) (hab : a ≤ b) : dn done h n n a b = done := by
  unfold dn; rw [if_neg (by unfold ODone; omega)]

theorem dn_row {done : List Nat} {h i a b : Nat} (hb : b < n) (hab : a ≤ b) :
    dn done h (i + 1) n a b = dn done h i i a b := by
  unfold dn
  have : ODone (i + 1) n a b ↔ ODone i i a b := by unfold ODone; omega
  simp only [this]

theorem dn_end {done : List Nat} {h a b : Nat} (hb : b < n) : dn done h 0 n a b = done ++ [h] :=
  dn_done (by unfold ODone; omega)

/-- A node processed row by row. -/
theorem dqRows {done : List Nat} {h : Nat} {body : Nat → DSt ℝ → Res (DSt ℝ)} {s : DSt ℝ}
    (hi : DQInv leaves parents n f q0 (fun _ _ => done) s)
    (step : ∀ i s, i < n → DQInv leaves parents n f q0 (dn done h i i) s →
      ∃ s', body i s = .ok s' ∧ DQInv leaves parents n f q0 (dn done h i n) s') :
    ∃ s', forDown n body s = .ok s' ∧ DQInv leaves parents n f q0 (fun _ _ => done ++ [h]) s' := by
  obtain ⟨s', e, hs⟩ := forDown_inv (f := body) (fun i s => DQInv leaves parents n f q0 (dn done h i n) s) n s
    (hi.congr (fun a b h1 h2 => (dn_start h2 h1).symm))
    (fun i s hin hi => step i s hin (hi.congr (fun a b h1 h2 => dn_row h2 h1)))
  exact ⟨s', e, hs.congr (fun a b _ h2 => dn_end h2)⟩

theorem dqLeaf_spec (r : RightMeta leaves parents md) {v : DValues ℝ} {m : Nat} {V : Nat → Nat × Nat → ℝ}
    (hv : DData v m leaves n V) {c : Nat} (hc : c < m) {k : Nat} (hk : k < leaves) (hlt : leaves < parents.length)
    {s : DSt ℝ} (hi : DQInv leaves parents n (V c) q0 (fun _ _ => md.path.take k) s) :
    ∃ s', dqLeaf v md c k s = .ok s' ∧ DQInv leaves parents n (V c) q0 (fun _ _ => md.path.take (k + 1)) s' := by
  have hp := r.pathLeaves k hk
  obtain ⟨p, hpar, hpl, hpo, -⟩ := r.par hp (by omega)
  unfold dqLeaf
  rw [vget_eq_ok.mpr hp]
  simp only [okBind]
  rw [hv.osize, RightMeta.take_succ hp]
  exact dqRows hi (fun i s hin hi => dqLeafRow_spec r hv hc hk hpo hpar hpl (r.notMem_take hp) hin hi)

theorem dqCount_spec (r : RightMeta leaves parents md) {h i j : Nat} (hh : h < parents.length) (hij : i ≤ j) (hj : j < n)
    (hb : leaves * n < 2147483648) :
    dqCount md h i j = .ok (((j : Int) - i + 1) * ((leavesUnder leaves parents h).card : Nat)) := by
  unfold dqCount mulInt
  rw [r.sizeOf hh]
  rw [if_pos]
  have h1 : (leavesUnder leaves parents h).card ≤ leaves := by
    have := Finset.card_le_card (show leavesUnder leaves parents h ⊆ Finset.range leaves from fun l hl =>
      Finset.mem_range.mpr (mem_leavesUnder.mp hl).1)
    rwa [Finset.card_range] at this
  have h2 : (j - i + 1) * (leavesUnder leaves parents h).card ≤ n * leaves := Nat.mul_le_mul (by omega) h1
  have h3 : ((j : Int) - i + 1) = ((j - i + 1 : Nat) : Int) := by omega
  rw [h3]
  have : (((j - i + 1) * (leavesUnder leaves parents h).card : Nat) : Int) < 2147483648 := by
    rw [Nat.mul_comm] at hb; omega
  push_cast at this ⊢
  exact this

theorem dqInner_spec (r : RightMeta leaves parents md) (hb : leaves * n < 2147483648) {k : Nat} (hk1 : leaves ≤ k)
    (hk2 : k + 1 < parents.length) {s : DSt ℝ} (hi : DQInv leaves parents n f q0 (fun _ _ => md.path.take k) s) :
    ∃ s', dqInner n md k s = .ok s' ∧ DQInv leaves parents n f q0 (fun _ _ => md.path.take (k + 1)) s' := by
  obtain ⟨h, hp, hl⟩ := r.at_ (show k < parents.length by omega)
  have hin : ¬ h < leaves := by rw [r.leafIff hp]; omega
  obtain ⟨p, hpar, hpl, hpo, hnp⟩ := r.par hp hk2
  have hpi := parent_inner r hpar
  unfold dqInner
  rw [vget_eq_ok.mpr hp]
  simp only [okBind]
  rw [RightMeta.take_succ hp]
  refine dqRows hi (fun i s hin' hi => ?_)
  refine forUp_inv (lo := i) (hi := n) (fun j s => DQInv leaves parents n f q0 (dn (md.path.take k) h i j) s)
    (by omega) hi ?_
  intro j s hij hj hi
  rw [dqCount_spec r hl hij hj hb]
  simp only [okBind]
  obtain ⟨s3, e3, g1, g2, r3⟩ := dqAdd_spec (s := s)
    (c := ((j : Int) - i + 1) * ((leavesUnder leaves parents h).card : Nat)) hl hij hj hi.sum hi.info hi.q
  rw [e3]
  simp only [okBind]
  obtain ⟨s4, e4, r4, r5, g3⟩ := dqPush_spec (s := s3) hpo hl hpl hij hj (by rw [g1]; exact hi.sum)
    (by rw [g2]; exact hi.info)
  have v : ∀ g, dAcc leaves parents g (dn (md.path.take k) h i j) h i j = leafSum leaves parents (W g i j) h := by
    intro g; unfold dAcc; rw [dn_here, acc_ready r _ hp hin]
  refine ⟨s4, e4, ?_, ?_, ?_⟩
  · exact r4.congr (fun x a b _ _ _ => dAcc_next_inner hin hpar hpi (acc_ready r _ hp hin) x a b)
  · exact r5.congr (fun x a b _ _ _ => dAcc_next_inner hin hpar hpi (acc_ready r _ hp hin) x a b)
  · rw [g3]
    refine r3.congr (fun x a b _ _ _ => ?_)
    rw [v, v, ← dQ_next (r.notMem_take hp)]
    rfl

theorem dqRoot_spec (r : RightMeta leaves parents md) (hb : leaves * n < 2147483648) (hlt : leaves < parents.length)
    {s : DSt ℝ} (hi : DQInv leaves parents n f q0 (fun _ _ => md.path.take (parents.length - 1)) s) :
    ∃ s', dqRoot n md md.root s = .ok s' ∧
      MRep s'.q parents.length n (fun x a b => qplus (q0 x a b) (dCell leaves parents f x a b)) := by
  have hin := r.rootInner hlt
  have hnp := r.notMem_take r.last
  have hl := r.tree.rootLt
  obtain ⟨done, hdone⟩ : ∃ d, d = md.path.take (parents.length - 1) := ⟨_, rfl⟩
  have hready : ∀ g i j, acc leaves parents (W g i j) done md.root = leafSum leaves parents (W g i j) md.root := by
    intro g i j; rw [hdone]; exact acc_ready r _ r.last hin
  rw [← hdone] at hi hnp
  unfold dqRoot
  let P : Nat → Nat → DSt ℝ → Prop := fun i j s' =>
    MRep s'.sum parents.length n (dAcc leaves parents f (fun _ _ => done)) ∧
    MRep s'.info parents.length n (dAcc leaves parents (fun x => er0 (f x)) (fun _ _ => done)) ∧
    MRep s'.q parents.length n (dQ leaves parents f q0 (dn done md.root i j))
  obtain ⟨s', e, hs⟩ := forDown_inv (f := fun i s => forUp i n (fun j s => do
      let n ← dqCount md md.root i j
      dqAdd md.root i j n s) s) (fun i s => P i n s) n s
    (by
      refine ⟨hi.sum, hi.info, hi.q.congr ?_⟩
      intro x a b _ h1 h2; unfold dQ; rw [dn_start h2 h1])
    (by
      rintro i s hin' ⟨h1, h2, h3⟩
      obtain ⟨s', e, hs⟩ := forUp_inv (lo := i) (hi := n) (f := fun j s => do
          let n ← dqCount md md.root i j
          dqAdd md.root i j n s) (s := s) (fun j s => P i j s) (by omega)
        ⟨h1, h2, h3.congr (fun x a b _ g1 g2 => by unfold dQ; rw [dn_row g2 g1])⟩
        (by
          rintro j s hij hj ⟨h1, h2, h3⟩
          simp only [dqCount_spec r hl hij hj hb, okBind]
          obtain ⟨s3, e3, g1, g2, r3⟩ := dqAdd_spec (s := s)
            (c := ((j : Int) - i + 1) * ((leavesUnder leaves parents md.root).card : Nat)) hl hij hj h1 h2 h3
          refine ⟨s3, e3, by rw [g1]; exact h1, by rw [g2]; exact h2, r3.congr (fun x a b _ _ _ => ?_)⟩
          unfold dAcc
          rw [hready, hready, ← dQ_next hnp]
          rfl)
      exact ⟨s', e, hs⟩)
  refine ⟨s', e, hs.2.2.congr ?_⟩
  intro x a b hx _ h2
  unfold dQ
  rw [dn_end h2, if_pos]
  rw [hdone, ← RightMeta.take_succ r.last,
    show parents.length - 1 + 1 = md.path.length by rw [r.pathLen]; omega, List.take_length, r.pathMem]
  exact hx

theorem dqSeries_spec (r : RightMeta leaves parents md) (hlt : leaves < parents.length)
    {v : DValues ℝ} {m : Nat} {V : Nat → Nat × Nat → ℝ} (hv : DData v m leaves n V) (hn : n ≤ 65535)
    (hb : leaves * n < 2147483648) {c : Nat} (hc : c < m) {q : List (UTM (Quality ℝ))}
    (hq : MRep q parents.length n q0) :
    ∃ q', dqSeries v md c q = .ok q' ∧
      MRep q' parents.length n (fun x a b => qplus (q0 x a b) (dCell leaves parents (V c) x a b)) := by
  unfold dqSeries
  rw [r.hsize, r.leaveSize, hv.osize]
  obtain ⟨s1, e1, h1⟩ := forUp_inv (lo := 0) (hi := leaves) (f := fun i s => dqLeaf v md c i s)
    (s := ⟨List.replicate parents.length (UTM.mk' n 0), List.replicate parents.length (UTM.mk' n 0), q⟩)
    (fun k s => DQInv leaves parents n (V c) q0 (fun _ _ => md.path.take k) s) (Nat.zero_le _)
    (by
      refine ⟨?_, ?_, ?_⟩
      · exact (MRep.replicate hn _).congr (fun x a b _ _ _ => by unfold dAcc; rw [List.take_zero, acc_nil])
      · exact (MRep.replicate hn _).congr (fun x a b _ _ _ => by unfold dAcc; rw [List.take_zero, acc_nil])
      · exact hq.congr (fun x a b _ _ _ => by unfold dQ; simp))
    (fun k s _ hk hi => dqLeaf_spec r hv hc hk hlt hi)
  dsimp only
  erw [e1]
  simp only [okBind]
  obtain ⟨y, hy, -⟩ := r.at_ hlt
  rw [vget_eq_ok.mpr hy]
  simp only [okBind]
  obtain ⟨s2, e2, h2⟩ := forUp_inv (lo := leaves) (hi := parents.length - 1) (f := fun i s => dqInner n md i s)
    (s := s1) (fun k s => DQInv leaves parents n (V c) q0 (fun _ _ => md.path.take k) s) (by omega) h1
    (fun k s hk1 hk2 hi => dqInner_spec r hb hk1 (by omega) hi)
  rw [e2]
  simp only [okBind]
  rw [show max leaves (parents.length - 1) = parents.length - 1 by omega, vget_eq_ok.mpr r.last]
  simp only [okBind]
  obtain ⟨s', e5, h5⟩ := dqRoot_spec r hb hlt h2
  rw [e5]
  exact ⟨s'.q, rfl, h5⟩

/-- Contents of the tables computed by `computeQualities`, whatever the signs of the data. -/
theorem dqCompute_spec (r : RightMeta leaves parents md) (hlt : leaves < parents.length)
    {v : DValues ℝ} {m : Nat} {V : Nat → Nat × Nat → ℝ} (hv : DData v m leaves n V) (hn : n ≤ 65535)
    (hb : leaves * n < 2147483648) :
    ∃ q, dqCompute v md = .ok q ∧
      MRep q parents.length n (fun h a b => qSeries m (fun k => dCell leaves parents (V k) h a b)) := by
  unfold dqCompute
  rw [r.hsize, hv.vsize, hv.osize]
  obtain ⟨q, e, h⟩ := forUp_inv (lo := 0) (hi := m) (f := fun k q => dqSeries v md k q)
    (s := List.replicate parents.length (UTM.mk' n Quality.zero))
    (fun k q => MRep q parents.length n (fun h a b => qSeries k (fun k => dCell leaves parents (V k) h a b)))
    (Nat.zero_le _)
    ((MRep.replicate hn _).congr (fun x a b _ _ _ => by rw [qSeries_zero]; rfl))
    (fun k q _ hk hi => by
      obtain ⟨q', e, h⟩ := dqSeries_spec r hlt hv hn hb hk hi
      exact ⟨q', e, h.congr (fun x a b _ _ _ => (qSeries_succ k _).symm)⟩)
  exact ⟨q, e, h⟩

theorem leafSum_W (f : Nat × Nat → ℝ) (h a b : Nat) :
    leafSum leaves parents (W f a b) h = ∑ x ∈ leavesUnder leaves parents h ×ˢ Finset.Icc a b, f x := by
  unfold leafSum W; rw [Finset.sum_product]

/-- For non-negative values the tables contain the entropy measures. -/
theorem dqCompute_entropy (r : RightMeta leaves parents md) (hlt : leaves < parents.length)
    {v : DValues ℝ} {m : Nat} {V : Nat → Nat × Nat → ℝ} (hv : DData v m leaves n V) (hn : n ≤ 65535)
    (hb : leaves * n < 2147483648) (h0 : ∀ k h x, k < m → h < leaves → x < n → 0 ≤ V k (h, x)) :
    ∃ q, dqCompute v md = .ok q ∧ MRep q parents.length n (fun h a b =>
      ⟨gainSeries m (leavesUnder leaves parents h ×ˢ Finset.Icc a b) V,
       lossSeries m (leavesUnder leaves parents h ×ˢ Finset.Icc a b) V⟩) := by
  obtain ⟨q, e, h⟩ := dqCompute_spec r hlt hv hn hb
  refine ⟨q, e, h.congr (fun x a b hx hab hbn => ?_)⟩
  unfold dCell
  simp only [leafSum_W]
  refine qSeries_eq (fun k hk y hy => ?_) ?_
  · rw [Finset.mem_product, Finset.mem_Icc] at hy
    exact h0 k y.1 y.2 hk (mem_leavesUnder.mp hy.1).1 (by omega)
  · rw [Finset.card_product, card_Icc a b hab]
    push_cast
    ring

end Lp
