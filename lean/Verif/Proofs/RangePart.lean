import Verif.Proofs.RangeQ
import Verif.Proofs.NearPart

/-!
# Arithmetic with a bounded range: the partitioners

The tables of the partitioners, computed with machine numbers, are those of the arithmetic without bounds, with the same choices.
-/

namespace Lp
open Spec
open scoped BigOperators
variable {K' K : Type} [LDLog K'] [LDLog K] {fin : K' → Prop} {num : K' → K} {val : K → ℝ} {u w : ℝ} {b g E Q : Nat}

/-- A parameter, used in the arithmetic `K` instead of `K'`. -/
structure LiftP (F : Type) where
  p : F

/-- Operations on it: the weights are those of the machine. -/
@[reducible] def liftFloat {F : Type} [FloatP F K'] (num : K' → K) : FloatP (LiftP F) K where
  toK x := num (FloatP.toK x.p)
  zero := ⟨FloatP.zero⟩
  oneSub x := ⟨FloatP.oneSub x.p⟩
  sub x y := ⟨FloatP.sub x.p y.p⟩
  add x y := ⟨FloatP.add x.p y.p⟩
  half x := ⟨FloatP.half x.p⟩
  lt x y := FloatP.lt x.p y.p

/-- The numbers of a tradeoff. -/
def inT (num : K' → K) (t : Tradeoff K') : Tradeoff K := ⟨num t.value, num t.gain, num t.loss⟩

/-- All three numbers are in range. -/
structure HeldT (fin : K' → Prop) (num : K' → K) (val : K → ℝ) (a : Nat) (B : ℝ) (t : Tradeoff K') : Prop where
  value : Held fin num val a B t.value
  gain : Held fin num val a B t.gain
  loss : Held fin num val a B t.loss

omit [LDLog K'] [LDLog K] in
theorem HeldT.mono {a a' : Nat} {B B' : ℝ} {x : Tradeoff K'} (h : HeldT fin num val a B x) (ha : a ≤ a') (hB : B ≤ B') :
    HeldT fin num val a' B' x := ⟨h.value.mono ha hB, h.gain.mono ha hB, h.loss.mono ha hB⟩

/-- Bound for the tradeoff of `k` parts. -/
noncomputable def cap (u M : ℝ) (k : Nat) : ℝ := (1 + u) ^ k * (k * (16 * M))

theorem cap_mono {M : ℝ} (hu : 0 ≤ u) (hM : 0 ≤ M) {k k' : Nat} (h : k ≤ k') : cap u M k ≤ cap u M k' := by
  unfold cap
  have h1 : (k : ℝ) ≤ k' := by exact_mod_cast h
  exact mul_le_mul (pow_le_pow_right₀ (by linarith) h) (mul_le_mul_of_nonneg_right h1 (by positivity)) (by positivity) (by positivity)

theorem cap_one {M : ℝ} (hu : 0 ≤ u) (hM : 0 ≤ M) {k : Nat} (h : 1 ≤ k) : 16 * M ≤ cap u M k := by
  refine le_trans ?_ (cap_mono hu hM h)
  unfold cap
  norm_num
  nlinarith

theorem cap_add {M : ℝ} (hu : 0 ≤ u) (hM : 0 ≤ M) {j k : Nat} (hj : 1 ≤ j) (hk : 1 ≤ k) :
    (1 + u) * (cap u M j + cap u M k) ≤ cap u M (j + k) := by
  unfold cap
  have e : ∀ x y : Nat, 1 ≤ y → (1 + u) * ((1 + u) ^ x * (x * (16 * M))) ≤ (1 + u) ^ (x + y) * (x * (16 * M)) := by
    intro x y hy
    rw [← mul_assoc, ← pow_succ']
    exact mul_le_mul_of_nonneg_right (pow_le_pow_right₀ (by linarith) (by omega)) (by positivity)
  have h1 := e j k hk
  have h2 := e k j hj
  rw [add_comm k j] at h2
  push_cast
  linarith

/-- Hypotheses of the partitioners: the qualities are multiples of `2^-A` of magnitude at most `M`, at most `N` parts. -/
structure Room (u : ℝ) (b E A c N : Nat) (M : ℝ) : Prop where
  pos : 0 ≤ M
  fac : (1 + u) ^ N ≤ 3 / 2
  top : 24 * (N * M) ≤ 2 ^ E
  low : c + A + 1 + b ≤ E

theorem Room.cap {A c N k : Nat} {M : ℝ} (rm : Room u b E A c N M) (hu : 0 ≤ u) (h : k ≤ N) : cap u M k ≤ 2 ^ E := by
  refine le_trans (cap_mono hu rm.pos h) (le_trans ?_ rm.top)
  unfold Lp.cap
  have := rm.pos
  have h1 : (1 + u) ^ N * (N * (16 * M)) ≤ 3 / 2 * (N * (16 * M)) := mul_le_mul_of_nonneg_right rm.fac (by positivity)
  linarith

variable (ar : RangeArith fin num val u w b g E Q)
include ar

theorem HeldT.zero {a : Nat} {B : ℝ} (hB : 0 ≤ B) : inT num (Tradeoff.zero : Tradeoff K') = Tradeoff.zero ∧
    HeldT fin num val a B (Tradeoff.zero : Tradeoff K') := by
  refine ⟨?_, Held.zero ar hB, Held.zero ar hB, Held.zero ar hB⟩
  unfold inT Tradeoff.zero
  rw [ar.range.zero.2]

theorem HeldT.add {a : Nat} {B C D : ℝ} {x y : Tradeoff K'} (ha : a ≤ E) (hx : HeldT fin num val a B x) (hy : HeldT fin num val a C y)
    (hD : (1 + u) * (B + C) ≤ D) (hE : D ≤ 2 ^ E) :
    inT num (x.add y) = (inT num x).add (inT num y) ∧ HeldT fin num val a D (x.add y) := by
  obtain ⟨v1, v2⟩ := Held.add ar ha hx.value hy.value hD hE
  obtain ⟨g1, g2⟩ := Held.add ar ha hx.gain hy.gain hD hE
  obtain ⟨l1, l2⟩ := Held.add ar ha hx.loss hy.loss hD hE
  refine ⟨?_, v2, g2, l2⟩
  unfold inT Tradeoff.add
  rw [v1, g1, l1]

theorem HeldT.zeroAdd {a : Nat} {B : ℝ} {x : Tradeoff K'} (ha : a ≤ E) (hx : HeldT fin num val a B x) (hE : B ≤ 2 ^ E) :
    inT num (Tradeoff.zero.add x) = Tradeoff.zero.add (inT num x) ∧ HeldT fin num val a B (Tradeoff.zero.add x) := by
  obtain ⟨v1, v2⟩ := Held.zeroAdd ar ha hx.value hE
  obtain ⟨g1, g2⟩ := Held.zeroAdd ar ha hx.gain hE
  obtain ⟨l1, l2⟩ := Held.zeroAdd ar ha hx.loss hE
  refine ⟨?_, v2, g2, l2⟩
  unfold inT Tradeoff.add Tradeoff.zero
  simp only
  rw [v1, g1, l1]

theorem gt_num {a a' : Nat} {B B' : ℝ} {x y : Tradeoff K'} (hx : HeldT fin num val a B x) (hy : HeldT fin num val a' B' y) :
    (inT num x).gt (inT num y) = x.gt y := by
  have r := ar.range
  unfold Tradeoff.gt inT
  simp only
  rw [r.eq hx.value.fin hy.value.fin, r.eq hx.gain.fin hy.gain.fin]
  simp only [r.lt hy.value.fin hx.value.fin, r.lt hy.gain.fin hx.gain.fin, r.lt hx.loss.fin hy.loss.fin]

theorem lt_num {a a' : Nat} {B B' : ℝ} {x y : Tradeoff K'} (hx : HeldT fin num val a B x) (hy : HeldT fin num val a' B' y) :
    (inT num x).lt (inT num y) = x.lt y := by
  unfold Tradeoff.lt
  rw [gt_num ar hx hy]
  unfold Tradeoff.eqOp inT
  simp only
  rw [ar.range.eq hx.value.fin hy.value.fin]

theorem firstBest_num {a : Nat} {B : ℝ} {ι : Type} (x : Tradeoff K' × ι) (l : List (Tradeoff K' × ι))
    (h : ∀ y ∈ x :: l, HeldT fin num val a B y.1) :
    firstBest Tradeoff.gt (inT num x.1, x.2) (l.map (fun y => (inT num y.1, y.2))) =
        (inT num (firstBest Tradeoff.gt x l).1, (firstBest Tradeoff.gt x l).2) ∧
      HeldT fin num val a B (firstBest Tradeoff.gt x l).1 := by
  unfold firstBest
  induction l generalizing x with
  | nil => exact ⟨rfl, h x (by simp)⟩
  | cons y l ih =>
    simp only [List.map_cons, List.foldl_cons]
    rw [gt_num ar (h y (by simp)) (h x (by simp))]
    by_cases hc : y.1.gt x.1 = true
    · rw [if_pos hc, if_pos hc]
      exact ih y (fun z hz => h z (by simp at hz ⊢; tauto))
    · rw [if_neg hc, if_neg hc]
      exact ih x (fun z hz => h z (by simp at hz ⊢; tauto))

variable {F : Type} [FloatP F K'] {A c N : Nat} {M : ℝ} {p : F}

/-- The tradeoff of one part. -/
theorem set_num (rm : Room u b E A c N M) (hN : 1 ≤ N) (hp : Weights fin num val c p) {q : Quality K'}
    (hg : Held fin num val A M q.gain) (hl : Held fin num val A M q.loss) :
    letI := liftFloat (F := F) num
    inT num (Tradeoff.set q p) = Tradeoff.set (inQ num q) (⟨p⟩ : LiftP F) ∧
      HeldT fin num val (c + A + 1 + b) (16 * M) (Tradeoff.set q p) := by
  have hM := rm.pos
  have htop : 24 * M ≤ 2 ^ E := by
    have : (1 : ℝ) ≤ N := by exact_mod_cast hN
    have := rm.top
    nlinarith
  have prod : ∀ {x y : K'}, Held fin num val c 2 x → Held fin num val A M y →
      num (x * y) = num x * num y ∧ Held fin num val (c + A + 1 + b) (4 * M) (x * y) := by
    intro x y hx hy
    obtain ⟨m1, m2, m3, m4⟩ := mul_num ar hx.fin (fun h => hx.grid.low h) hx.mag hy.fin (fun h => hy.grid.low h) hy.mag
      (by have := rm.low; omega) (by linarith)
    refine ⟨m1, m2, ?_, by linarith⟩
    by_cases h0 : val (num (x * y)) = 0
    · rw [h0]; exact .zero _
    · exact ar.fine.bits _ _ (m3 h0)
  obtain ⟨p1, p2⟩ := prod hp.1 hg
  obtain ⟨q1, q2⟩ := prod hp.2 hl
  obtain ⟨s1, s2⟩ := Held.sub ar (D := 16 * M) rm.low p2 q2 (by linarith) (by linarith)
  refine ⟨?_, s2, hg.mono (by omega) (by linarith), hl.mono (by omega) (by linarith)⟩
  unfold inT Tradeoff.set Tradeoff.pic
  rw [s1, p1, q1]
  rfl

/-- The tables of the ordered partitioner. -/
theorem o_num {n : Nat} (rm : Room u b E A c n M) (hp : Weights fin num val c p) {f : Nat → Nat → Quality K'}
    (hf : ∀ i j, i ≤ j → j < n → Held fin num val A M (f i j).gain ∧ Held fin num val A M (f i j).loss)
    {T : Nat → Tradeoff K'} {C : Nat → Int} (h : ∀ i, i < n → (T i, C i) = oRow f n p T i (n - 1)) :
    letI := liftFloat (F := F) num
    ∀ i, i < n → (inT num (T i), C i) =
      oRow (fun i j => inQ num (f i j)) n (⟨p⟩ : LiftP F) (fun i => inT num (T i)) i (n - 1) := by
  letI := liftFloat (F := F) num
  have hu := ar.laws.unit_nonneg
  have key : ∀ k i, i < n → n - i = k → HeldT fin num val (c + A + 1 + b) (cap u M (n - i)) (T i) ∧ (inT num (T i), C i) =
      oRow (fun i j => inQ num (f i j)) n (⟨p⟩ : LiftP F) (fun i => inT num (T i)) i (n - 1) := by
    intro k
    induction k using Nat.strong_induction_on with
    | _ k ih =>
      intro i hi hk
      have hset : ∀ j, i ≤ j → j < n → _ := fun j h1 h2 => set_num ar rm (by omega) hp (hf i j h1 h2).1 (hf i j h1 h2).2
      have hcand : ∀ c', i ≤ c' → c' < n - 1 →
          inT num ((Tradeoff.set (f i c') p).add (T (c' + 1))) =
            (Tradeoff.set (inQ num (f i c')) (⟨p⟩ : LiftP F)).add (inT num (T (c' + 1))) ∧
          HeldT fin num val (c + A + 1 + b) (cap u M (n - i)) ((Tradeoff.set (f i c') p).add (T (c' + 1))) := by
        intro c' h1 h2
        obtain ⟨e1, e2⟩ := hset c' h1 (by omega)
        have ht := (ih (n - (c' + 1)) (by omega) (c' + 1) (by omega) rfl).1
        obtain ⟨a1, a2⟩ := HeldT.add ar rm.low (e2.mono (le_refl _) (cap_one hu rm.pos (le_refl 1))) ht
          (le_trans (cap_add hu rm.pos (le_refl 1) (by omega)) (cap_mono hu rm.pos (k' := n - i) (by omega)))
          (rm.cap hu (by omega))
        exact ⟨by rw [a1, e1], a2⟩
      obtain ⟨w1, w2⟩ := hset (n - 1) (by omega) (by omega)
      obtain ⟨b1, b2⟩ := firstBest_num ar (a := c + A + 1 + b) (B := cap u M (n - i))
        (Tradeoff.set (f i (n - 1)) p, (n : Int) - 1)
        ((List.range' i (n - 1 - i)).map (fun c => ((Tradeoff.set (f i c) p).add (T (c + 1)), (c : Int)))) (by
          intro y hy
          rcases List.mem_cons.mp hy with rfl | hy
          · exact w2.mono (le_refl _) (cap_one hu rm.pos (by omega))
          · obtain ⟨c', hc', rfl⟩ := List.mem_map.mp hy
            have := List.mem_range'_1.mp hc'
            exact (hcand c' this.1 (by omega)).2)
      have e0 := h i hi
      unfold oRow at e0 ⊢
      rw [← e0] at b1 b2
      refine ⟨b2, ?_⟩
      rw [← b1, List.map_map]
      simp only
      rw [w1]
      congr 1
      apply List.map_congr_left
      intro c' hc'
      have := List.mem_range'_1.mp hc'
      simp only [Function.comp_apply]
      rw [(hcand c' this.1 (by omega)).1]
  exact fun i hi => (key _ i hi rfl).2

/-! ## Trees -/

variable {leaves : Nat} {parents : List Int} {md : HMeta}

/-- Sum over the children. -/
theorem tsum_num {a : Nat} {hM : 0 ≤ M} (ha : a ≤ E) (T : Nat → Tradeoff K') (W : Nat → Nat) (l : List Nat)
    (hl : ∀ x ∈ l, 1 ≤ W x ∧ HeldT fin num val a (cap u M (W x)) (T x)) (hE : cap u M (l.map W).sum ≤ 2 ^ E) :
    inT num (tsum T l) = tsum (fun x => inT num (T x)) l ∧ HeldT fin num val a (cap u M (l.map W).sum) (tsum T l) := by
  have hu := ar.laws.unit_nonneg
  induction l using List.reverseRecOn with
  | nil =>
    have := HeldT.zero (a := a) ar (B := cap u M 0) (by unfold cap; simp)
    exact this
  | append_singleton l x ih =>
    rw [List.map_append, List.sum_append] at hE ⊢
    simp only [List.map_cons, List.map_nil, List.sum_cons, List.sum_nil, Nat.add_zero] at hE ⊢
    obtain ⟨hx1, hx2⟩ := hl x (by simp)
    rw [tsum_append, tsum_append]
    rcases l.eq_nil_or_concat with rfl | ⟨l', y, rfl⟩
    · simp only [List.map_nil, List.sum_nil, Nat.zero_add] at hE ⊢
      exact HeldT.zeroAdd ar ha hx2 hE
    · obtain ⟨h1, h2⟩ := ih (fun z hz => hl z (by simp at hz ⊢; tauto)) (le_trans (cap_mono hu hM (by omega)) hE)
      have hy := (hl y (by simp)).1
      have hs : 1 ≤ ((l' ++ [y]).map W).sum := by simp; omega
      rw [List.concat_eq_append] at *
      obtain ⟨a1, a2⟩ := HeldT.add ar ha h2 hx2 (cap_add hu hM hs hx1) hE
      exact ⟨by rw [a1, h1], a2⟩

omit ar [LDLog K'] [LDLog K] [FloatP F K'] in
/-- The children share the leaves of their parent. -/
theorem kids_card (r : RightMeta leaves parents md) {h : Nat} (hh : h < parents.length) (hl : ¬ h < leaves) :
    ((kidsIn parents md.path h).map (fun x => (leavesUnder leaves parents x).card)).sum = (leavesUnder leaves parents h).card := by
  have hnd : (kidsIn parents md.path h).Nodup := r.pathNodup.filter _
  obtain ⟨e1, e2⟩ := leavesUnder_inner r.tree (Nat.not_lt.mp hl) (kidsIn parents md.path h).toFinset (by
    intro c
    rw [List.mem_toFinset, mem_kidsIn, r.pathMem]
    exact ⟨fun h => h.2, fun h => ⟨h.lt, h⟩⟩)
  rw [e1, Finset.card_biUnion e2, List.sum_toFinset _ hnd]

/-- The tables of the hierarchical partitioner. -/
theorem h_num (r : RightMeta leaves parents md) (rm : Room u b E A c leaves M) (hp : Weights fin num val c p) {Q : Nat → Quality K'}
    (hf : ∀ h, h < parents.length → Held fin num val A M (Q h).gain ∧ Held fin num val A M (Q h).loss)
    {T : Nat → Tradeoff K'} {G : Nat → Bool} (h : ∀ h, h < parents.length → (T h, G h) = hNode leaves parents md.path Q p T h) :
    letI := liftFloat (F := F) num
    ∀ h, h < parents.length → (inT num (T h), G h) =
      hNode leaves parents md.path (fun h => inQ num (Q h)) (⟨p⟩ : LiftP F) (fun h => inT num (T h)) h := by
  letI := liftFloat (F := F) num
  have hu := ar.laws.unit_nonneg
  have hcard : ∀ x, x < parents.length → 1 ≤ (leavesUnder leaves parents x).card ∧ (leavesUnder leaves parents x).card ≤ leaves := by
    intro x hx
    refine ⟨Finset.card_pos.mpr (leaves_nonempty r.tree hx), ?_⟩
    have : leavesUnder leaves parents x ⊆ Finset.range leaves := by
      intro l hl; exact Finset.mem_range.mpr (mem_leavesUnder.mp hl).1
    simpa using Finset.card_le_card this
  have key : ∀ k x : Nat, md.path[k]? = some x →
      HeldT fin num val (c + A + 1 + b) (cap u M (leavesUnder leaves parents x).card) (T x) ∧
      (inT num (T x), G x) =
        hNode leaves parents md.path (fun h => inQ num (Q h)) (⟨p⟩ : LiftP F) (fun h => inT num (T h)) x := by
    intro k
    induction k using Nat.strong_induction_on with
    | _ k ih =>
      intro x hk
      have hx : x < parents.length := (r.pathMem x).mp (List.mem_of_getElem? hk)
      obtain ⟨c1, c2⟩ := hcard x hx
      obtain ⟨s1, s2⟩ := set_num ar rm (by omega) hp (hf x hx).1 (hf x hx).2
      have s3 := s2.mono (le_refl _) (cap_one hu rm.pos c1)
      have e0 := h x hx
      unfold hNode at e0 ⊢
      by_cases hl : x < leaves
      · rw [if_pos hl] at e0 ⊢
        obtain ⟨e1, e2⟩ := Prod.mk.inj e0
        rw [e1, e2]
        exact ⟨s3, by rw [s1]⟩
      · rw [if_neg hl] at e0 ⊢
        obtain ⟨t1, t2⟩ := tsum_num ar (hM := rm.pos) (a := c + A + 1 + b) rm.low T (fun x => (leavesUnder leaves parents x).card)
          (kidsIn parents md.path x) (by
            intro y hy
            obtain ⟨hy1, hy2⟩ := mem_kidsIn.mp hy
            have hyl := (r.pathMem y).mp hy1
            obtain ⟨j, hj⟩ := List.getElem?_of_mem hy1
            exact ⟨(hcard y hyl).1, (ih j (r.pathOrder j k y x hj hk hy2) y hj).1⟩) (by
            rw [kids_card r hx hl]; exact rm.cap hu c2)
        rw [kids_card r hx hl] at t2
        rw [← t1, ← s1, lt_num ar s3 t2]
        split at e0
        · rename_i hc
          obtain ⟨e1, e2⟩ := Prod.mk.inj e0
          rw [e1, e2, if_pos hc]
          exact ⟨t2, rfl⟩
        · rename_i hc
          obtain ⟨e1, e2⟩ := Prod.mk.inj e0
          rw [e1, e2, if_neg hc]
          exact ⟨s3, rfl⟩
  intro x hx
  obtain ⟨k, hk⟩ := List.getElem?_of_mem ((r.pathMem x).mpr hx)
  exact (key k x hk).2

/-- The tables of the spatiotemporal partitioner. -/
theorem d_num (r : RightMeta leaves parents md) {n : Nat} (rm : Room u b E A c (leaves * n) M) (hp : Weights fin num val c p)
    {Q : Nat → Nat → Nat → Quality K'}
    (hf : ∀ h i j, h < parents.length → i ≤ j → j < n → Held fin num val A M (Q h i j).gain ∧ Held fin num val A M (Q h i j).loss)
    {T : Nat → Nat → Tradeoff K'} {C : Nat → Nat → Int}
    (h : ∀ h i, h < parents.length → i < n → DEq leaves parents md.path Q p n T C h i) :
    letI := liftFloat (F := F) num
    ∀ h i, h < parents.length → i < n → DEq leaves parents md.path (fun h i j => inQ num (Q h i j)) (⟨p⟩ : LiftP F) n
      (fun h i => inT num (T h i)) C h i := by
  letI := liftFloat (F := F) num
  have hu := ar.laws.unit_nonneg
  have hcard : ∀ x, x < parents.length → 1 ≤ (leavesUnder leaves parents x).card ∧ (leavesUnder leaves parents x).card ≤ leaves := by
    intro x hx
    refine ⟨Finset.card_pos.mpr (leaves_nonempty r.tree hx), ?_⟩
    have : leavesUnder leaves parents x ⊆ Finset.range leaves := by
      intro l hl; exact Finset.mem_range.mpr (mem_leavesUnder.mp hl).1
    simpa using Finset.card_le_card this
  have key : ∀ k x : Nat, md.path[k]? = some x → ∀ d i, i < n → n - i = d →
      HeldT fin num val (c + A + 1 + b) (cap u M ((leavesUnder leaves parents x).card * (n - i))) (T x i) ∧
      DEq leaves parents md.path (fun h i j => inQ num (Q h i j)) (⟨p⟩ : LiftP F) n (fun h i => inT num (T h i)) C x i := by
    intro k
    induction k using Nat.strong_induction_on with
    | _ k ihk =>
      intro x hk d
      have hx : x < parents.length := (r.pathMem x).mp (List.mem_of_getElem? hk)
      obtain ⟨c1, c2⟩ := hcard x hx
      induction d using Nat.strong_induction_on with
      | _ d ih =>
        intro i hi hd
        have hW : (leavesUnder leaves parents x).card * (n - i) ≤ leaves * n := Nat.mul_le_mul c2 (by omega)
        have hW1 : 1 ≤ (leavesUnder leaves parents x).card * (n - i) := Nat.mul_pos c1 (by omega)
        have hN : 1 ≤ leaves * n := le_trans hW1 hW
        have hset : ∀ j, i ≤ j → j < n → _ := fun j h1 h2 => set_num ar rm hN hp (hf x i j hx h1 h2).1 (hf x i j hx h1 h2).2
        have htop := rm.cap hu hW
        have hcand : ∀ c', i ≤ c' → c' < n - 1 →
            inT num ((Tradeoff.zero.add (Tradeoff.set (Q x i c') p)).add (T x (c' + 1))) =
              (Tradeoff.zero.add (Tradeoff.set (inQ num (Q x i c')) (⟨p⟩ : LiftP F))).add (inT num (T x (c' + 1))) ∧
            HeldT fin num val (c + A + 1 + b) (cap u M ((leavesUnder leaves parents x).card * (n - i)))
              ((Tradeoff.zero.add (Tradeoff.set (Q x i c') p)).add (T x (c' + 1))) := by
          intro c' h1 h2
          obtain ⟨e1, e2⟩ := hset c' h1 (by omega)
          have e2 := e2.mono (le_refl _) (cap_one hu rm.pos (le_refl 1))
          obtain ⟨z1, z2⟩ := HeldT.zeroAdd ar rm.low e2 (rm.cap hu hN)
          have ht := (ih (n - (c' + 1)) (by omega) (c' + 1) (by omega) rfl).1
          have hle : 1 + (leavesUnder leaves parents x).card * (n - (c' + 1)) ≤ (leavesUnder leaves parents x).card * (n - i) := by
            have : (leavesUnder leaves parents x).card * (n - (c' + 1) + 1) ≤ (leavesUnder leaves parents x).card * (n - i) :=
              Nat.mul_le_mul_left _ (by omega)
            rw [Nat.mul_add] at this
            omega
          obtain ⟨a1, a2⟩ := HeldT.add ar rm.low z2 ht
            (le_trans (cap_add hu rm.pos (le_refl 1) (Nat.mul_pos c1 (by omega))) (cap_mono hu rm.pos hle)) htop
          exact ⟨by rw [a1, z1, e1], a2⟩
        obtain ⟨w1, w2⟩ := hset (n - 1) (by omega) (by omega)
        have hsum : ¬ x < leaves → inT num (tsum (fun c => T c i) (kidsIn parents md.path x)) =
            tsum (fun c => inT num (T c i)) (kidsIn parents md.path x) ∧
            HeldT fin num val (c + A + 1 + b) (cap u M ((leavesUnder leaves parents x).card * (n - i)))
              (tsum (fun c => T c i) (kidsIn parents md.path x)) := by
          intro hl
          have ec : ((kidsIn parents md.path x).map (fun y => (leavesUnder leaves parents y).card * (n - i))).sum =
              (leavesUnder leaves parents x).card * (n - i) := by
            rw [List.sum_map_mul_right, kids_card r hx hl]
          have := tsum_num ar (hM := rm.pos) (a := c + A + 1 + b) rm.low (fun c => T c i)
            (fun x => (leavesUnder leaves parents x).card * (n - i)) (kidsIn parents md.path x) (by
              intro y hy
              obtain ⟨hy1, hy2⟩ := mem_kidsIn.mp hy
              have hyl := (r.pathMem y).mp hy1
              obtain ⟨j, hj⟩ := List.getElem?_of_mem hy1
              exact ⟨Nat.mul_pos (hcard y hyl).1 (by omega), (ihk j (r.pathOrder j k y x hj hk hy2) y hj _ i hi rfl).1⟩) (by
              rw [ec]; exact htop)
          rwa [ec] at this
        obtain ⟨b1, b2⟩ := firstBest_num ar (a := c + A + 1 + b) (B := cap u M ((leavesUnder leaves parents x).card * (n - i)))
          (Tradeoff.set (Q x i (n - 1)) p, ((n - 1 : Nat) : Int))
          ((if (!decide (x < leaves)) = true then [(tsum (fun c => T c i) (kidsIn parents md.path x), (-1 : Int))] else []) ++
            (List.range' i (n - 1 - i)).map (fun c =>
              ((Tradeoff.zero.add (Tradeoff.set (Q x i c) p)).add (T x (c + 1)), (c : Int)))) (by
            intro y hy
            rcases List.mem_cons.mp hy with rfl | hy
            · exact w2.mono (le_refl _) (cap_one hu rm.pos hW1)
            · rcases List.mem_append.mp hy with hy | hy
              · by_cases hl : x < leaves
                · simp [hl] at hy
                · simp [hl] at hy
                  subst hy
                  exact (hsum hl).2
              · obtain ⟨c', hc', rfl⟩ := List.mem_map.mp hy
                have := List.mem_range'_1.mp hc'
                exact (hcand c' this.1 (by omega)).2)
        have e0 := h x i hx hi
        unfold DEq dRow at e0 ⊢
        rw [← e0] at b1 b2
        refine ⟨b2, ?_⟩
        rw [← b1, List.map_append, List.map_map]
        simp only
        rw [w1]
        congr 2
        · by_cases hl : x < leaves
          · simp [hl]
          · simp [hl, (hsum hl).1]
        · apply List.map_congr_left
          intro c' hc'
          have := List.mem_range'_1.mp hc'
          simp only [Function.comp_apply]
          rw [(hcand c' this.1 (by omega)).1]
  intro x i hx hi
  obtain ⟨k, hk⟩ := List.getElem?_of_mem ((r.pathMem x).mpr hx)
  exact (key k x hk _ i hi rfl).2

/-- The quality of a partition. -/
theorem sumQ_num {a : Nat} (hM : 0 ≤ M) (ha : a ≤ E) (l : List (Quality K'))
    (hl : ∀ q ∈ l, Held fin num val a M q.gain ∧ Held fin num val a M q.loss) (hE : cap u M l.length ≤ 2 ^ E) :
    inQ num (sumQuality l) = sumQuality (l.map (inQ num)) ∧ Held fin num val a (cap u M l.length) (sumQuality l).gain ∧
      Held fin num val a (cap u M l.length) (sumQuality l).loss := by
  have hu := ar.laws.unit_nonneg
  have app : ∀ {R : Type} [LD R] (l : List (Quality R)) (q : Quality R), sumQuality (l ++ [q]) = (sumQuality l).add q := by
    intro R _ l q; simp [sumQuality]
  have h1M : M ≤ cap u M 1 := le_trans (by linarith) (cap_one hu hM (le_refl 1))
  induction l using List.reverseRecOn with
  | nil =>
    refine ⟨?_, Held.zero ar (by unfold cap; simp), Held.zero ar (by unfold cap; simp)⟩
    change (⟨num 0, num 0⟩ : Quality K) = ⟨0, 0⟩
    rw [ar.range.zero.2]
  | append_singleton l q ih =>
    rw [List.length_append, List.length_singleton] at hE ⊢
    obtain ⟨hg, hq⟩ := hl q (by simp)
    have hg := hg.mono (le_refl _) h1M
    have hq := hq.mono (le_refl _) h1M
    rw [app, List.map_append, List.map_singleton, app]
    rcases Nat.eq_zero_or_pos l.length with h0 | h0
    · obtain rfl := List.length_eq_zero_iff.mp h0
      simp only [List.length_nil, Nat.zero_add] at hE ⊢
      obtain ⟨a1, a2⟩ := Held.zeroAdd ar ha hg hE
      obtain ⟨b1, b2⟩ := Held.zeroAdd ar ha hq hE
      refine ⟨?_, a2, b2⟩
      change (⟨num (0 + q.gain), num (0 + q.loss)⟩ : Quality K) = ⟨0 + num q.gain, 0 + num q.loss⟩
      rw [a1, b1]
    · obtain ⟨e, h1, h2⟩ := ih (fun z hz => hl z (by simp [hz])) (le_trans (cap_mono hu hM (by omega)) hE)
      obtain ⟨a1, a2⟩ := Held.add ar ha h1 hg (cap_add hu hM h0 (le_refl 1)) hE
      obtain ⟨b1, b2⟩ := Held.add ar ha h2 hq (cap_add hu hM h0 (le_refl 1)) hE
      refine ⟨?_, a2, b2⟩
      rw [← e]
      change (⟨num ((sumQuality l).gain + q.gain), num ((sumQuality l).loss + q.loss)⟩ : Quality K) =
        ⟨num (sumQuality l).gain + num q.gain, num (sumQuality l).loss + num q.loss⟩
      rw [a1, b1]

end Lp
