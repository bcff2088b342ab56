import Verif.Spec.Ragged
import Verif.Proofs.Data
import Verif.Proofs.OSum
import Verif.Proofs.HSum
import Verif.Proofs.DSum

/-!
# `computeQualities` reads exactly the block
-/

namespace Lp
open Spec
variable {K : Type}

/-! ## Loops -/

theorem forUpAux_congr {σ : Type} {f g : Nat → σ → Res σ} : ∀ (n i : Nat) (s : σ),
    (∀ k s, i ≤ k → k < i + n → f k s = g k s) → forUpAux f n i s = forUpAux g n i s := by
  intro n
  induction n with
  | zero => intro i s _; rfl
  | succ n ih =>
    intro i s h
    simp only [forUpAux, h i s (Nat.le_refl _) (by omega)]
    cases g i s with
    | error e => rfl
    | ok s' => exact ih (i + 1) s' (fun k t hk hk' => h k t (by omega) (by omega))

theorem forUp_congr {σ : Type} {f g : Nat → σ → Res σ} {lo hi : Nat} {s : σ}
    (h : ∀ k s, lo ≤ k → k < hi → f k s = g k s) : forUp lo hi f s = forUp lo hi g s :=
  forUpAux_congr _ _ _ (fun k s h1 h2 => h k s h1 (by omega))

theorem forDown_congr {σ : Type} : ∀ (n : Nat) {f g : Nat → σ → Res σ} {s : σ},
    (∀ k s, k < n → f k s = g k s) → forDown n f s = forDown n g s := by
  intro n
  induction n with
  | zero => intro f g s _; rfl
  | succ n ih =>
    intro f g s h
    simp only [forDown, h n s (by omega)]
    cases g n s with
    | error e => rfl
    | ok s' => exact ih (fun k t hk => h k t (by omega))

theorem forUpAux_error {σ : Type} {f : Nat → σ → Res σ} {k : Nat} (hf : ∀ s, ∃ e, f k s = .error e) : ∀ (n i : Nat) (s : σ),
    i ≤ k → k < i + n → ∃ e, forUpAux f n i s = .error e := by
  intro n
  induction n with
  | zero => intro i s h1 h2; omega
  | succ n ih =>
    intro i s h1 h2
    simp only [forUpAux]
    cases h : f i s with
    | error e => exact ⟨e, rfl⟩
    | ok s' =>
      have hne : i ≠ k := by
        rintro rfl
        obtain ⟨e, he⟩ := hf s
        rw [he] at h; simp at h
      exact ih (i + 1) s' (by omega) (by omega)

theorem forUp_error {σ : Type} {f : Nat → σ → Res σ} {lo hi k : Nat} {s : σ} (h1 : lo ≤ k) (h2 : k < hi)
    (hf : ∀ s, ∃ e, f k s = .error e) : ∃ e, forUp lo hi f s = .error e :=
  forUpAux_error hf _ _ _ h1 (by omega)

theorem forDown_error {σ : Type} : ∀ (n : Nat) {f : Nat → σ → Res σ} {k : Nat} {s : σ}, k < n →
    (∀ s, ∃ e, f k s = .error e) → ∃ e, forDown n f s = .error e := by
  intro n
  induction n with
  | zero => intro f k s h; omega
  | succ n ih =>
    intro f k s h hf
    simp only [forDown]
    cases hs : f n s with
    | error e => exact ⟨e, rfl⟩
    | ok s' =>
      have hne : n ≠ k := by
        rintro rfl
        obtain ⟨e, he⟩ := hf s
        rw [he] at hs; simp at hs
      exact ih (by omega) hf

/-! ## What the analysis reads -/

/-- An optional element as a read. -/
def ofOpt {α : Type} : Option α → Res α
  | some x => .ok x
  | none => .error .outOfBounds

theorem vget_ofOpt {α : Type} (v : List α) (i : Nat) : vget v i = ofOpt v[i]? := by
  unfold vget ofOpt; cases v[i]? <;> rfl

theorem ofOpt_bind {α β : Type} (x : Option α) (f : α → Option β) :
    (ofOpt x >>= fun a => ofOpt (f a)) = ofOpt (x.bind f) := by cases x <;> rfl

theorem get2_at (v : V2 K) (a b : Nat) : get2 v a b = ofOpt (at2 v a b) := by
  unfold get2 at2
  simp only [vget_ofOpt]
  exact ofOpt_bind _ _

theorem get3_at (v : V3 K) (a b c : Nat) : get3 v a b c = ofOpt (at3 v a b c) := by
  unfold get3 get2 at3 at2
  simp only [vget_ofOpt]
  cases v[a]? with
  | none => rfl
  | some r =>
    simp only [Option.bind_some]
    cases h : r[b]? with
    | none => simp [ofOpt, h]
    | some r' => simp only [ofOpt, okBind, h, Option.bind_some]

theorem get4_at (v : V4 K) (a b c d : Nat) : get4 v a b c d = ofOpt (at4 v a b c d) := by
  unfold get4 get3 get2 at4 at3 at2
  simp only [vget_ofOpt]
  cases v[a]? with
  | none => rfl
  | some r =>
    simp only [Option.bind_some]
    cases h : r[b]? with
    | none => simp [ofOpt, h]
    | some r' =>
      simp only [ofOpt, okBind, h, Option.bind_some]
      cases r'[c]? <;> rfl

theorem SIZE2_len (v : V2 K) : SIZE2 v = len2 v := by cases v <;> rfl
theorem SIZE2_len3 {α : Type} (v : List (List α)) : SIZE2 v = len2 v := by cases v <;> rfl
theorem SIZE3_len {α : Type} (v : List (List (List α))) : SIZE3 v = len3 v := by
  cases v with
  | nil => rfl
  | cons a v => cases a <;> rfl
theorem SIZE4_len {α : Type} (v : List (List (List (List α)))) : SIZE4 v = len4 v := by
  cases v with
  | nil => rfl
  | cons a v =>
    cases a with
    | nil => rfl
    | cons b a => cases b <;> rfl

/-- What an ordered container gives for position `i` of series `k`. -/
def oRead (v : OValues K) (k i : Nat) : Res K := do vget (← v.series k) i
/-- What a spatiotemporal container gives for slice `i` of leaf `h` in series `k`. -/
def dRead (v : DValues K) (h k i : Nat) : Res K := do vget (← v.series h k) i

variable [LDLog K]

/-! ## Ordered -/

theorem oqRow_read (v : OValues K) (k i : Nat) (s : OSt K) : oqRow v k i s = (do
    let x ← oRead v k i
    let sum ← s.sum.set i i x
    let info ← s.info.set i i (entropyReduction x 0)
    forUp (i + 1) v.osize (fun j s => oqCell i j s) ⟨sum, info, s.q⟩) := by
  unfold oqRow oRead
  cases v.series k <;> rfl

theorem oqCompute_congr {v v' : OValues K} (h1 : v.vsize = v'.vsize) (h2 : v.osize = v'.osize)
    (h : ∀ k i, k < v.vsize → i < v.osize → oRead v k i = oRead v' k i) : oqCompute v = oqCompute v' := by
  unfold oqCompute
  rw [← h1, ← h2]
  congr 1
  refine forUp_congr (fun k s _ hk => forDown_congr _ (fun i s hi => ?_))
  rw [oqRow_read, oqRow_read, h k i hk hi, h2]

theorem oqCompute_error {v : OValues K} {k i : Nat} {e : Fault} (hk : k < v.vsize) (hi : i < v.osize)
    (h : oRead v k i = .error e) : ∃ e, oqCompute v = .error e := by
  unfold oqCompute
  obtain ⟨e', he⟩ := forUp_error (lo := 0) (f := fun k s => forDown v.osize (fun i s => oqRow v k i s) s)
    (s := (⟨UTM.mk' v.osize 0, UTM.mk' v.osize 0, UTM.mk' v.osize Quality.zero⟩ : OSt K)) (Nat.zero_le k) hk
    (fun s => forDown_error v.osize hi (fun s => ⟨e, by rw [oqRow_read, h]; rfl⟩))
  exact ⟨e', by rw [he]; rfl⟩

theorem oqCompute_iff {v : OValues K} {R : Nat → Nat → Option K}
    (hR : ∀ k i, k < v.vsize → i < v.osize → oRead v k i = ofOpt (R k i)) (hn : v.osize ≤ 65535) :
    (∃ q, oqCompute v = .ok q) ↔ ∀ k i, k < v.vsize → i < v.osize → (R k i).isSome := by
  constructor
  · rintro ⟨q, hq⟩ k i hk hi
    cases hr : R k i with
    | some x => rfl
    | none =>
      obtain ⟨e, he⟩ := oqCompute_error hk hi (by rw [hR k i hk hi, hr]; rfl)
      rw [he] at hq; simp at hq
  · intro h
    let v' : OValues K := ⟨v.vsize, v.osize, fun k => .ok (table1 v.osize (fun i => (R k i).getD 0))⟩
    have hv : OData v' v.vsize v.osize (fun k i => (R k i).getD 0) := ⟨rfl, rfl, fun _ _ => rfl⟩
    obtain ⟨q, _, e, _⟩ := oqCompute_sum hv hn
    refine ⟨q, ?_⟩
    rw [← e]
    refine oqCompute_congr rfl rfl (fun k i hk hi => ?_)
    rw [hR k i hk hi]
    show _ = (do vget (← (Except.ok (table1 v.osize (fun i => (R k i).getD 0)) : Res (List K))) i)
    simp only [okBind]
    rw [table1_get _ hi]
    have := h k i hk hi
    revert this
    cases R k i with
    | none => simp
    | some x => intro _; rfl

/-! ## Hierarchical -/

variable {leaves n : Nat} {parents : List Int} {md : HMeta}

theorem hqCompute_congr (r : RightMeta leaves parents md) {v v' : HValues K} (h1 : v.vsize = v'.vsize)
    (h : ∀ k h, k < v.vsize → h < leaves → v.value h k = v'.value h k) : hqCompute v md = hqCompute v' md := by
  unfold hqCompute
  rw [← h1]
  refine forUp_congr (fun k q _ hk => ?_)
  unfold hqSeries
  congr 1
  refine forUp_congr (fun i s _ hi => ?_)
  rw [r.leaveSize] at hi
  unfold hqLeaf
  have : vget md.path i = .ok i := vget_eq_ok.mpr (r.pathLeaves i hi)
  simp only [this, okBind, h k i hk hi]

theorem hqCompute_error (r : RightMeta leaves parents md) {v : HValues K} {k l : Nat} {e : Fault} (hk : k < v.vsize) (hl : l < leaves)
    (h : v.value l k = .error e) : ∃ e, hqCompute v md = .error e := by
  unfold hqCompute
  refine forUp_error (Nat.zero_le k) hk (fun q => ?_)
  unfold hqSeries
  obtain ⟨e', he⟩ := forUp_error (lo := 0) (hi := md.leaveSize) (f := fun i s => hqLeaf v md k i s)
    (s := (⟨List.replicate md.hsize 0, List.replicate md.hsize 0, q⟩ : HSt K)) (Nat.zero_le l) (by rw [r.leaveSize]; exact hl)
    (fun s => ⟨e, by
      unfold hqLeaf
      have : vget md.path l = .ok l := vget_eq_ok.mpr (r.pathLeaves l hl)
      simp only [this, okBind, h, errBind]⟩)
  exact ⟨e', by rw [he]; rfl⟩

theorem hqCompute_iff (r : RightMeta leaves parents md) (hlt : leaves < parents.length) {v : HValues K} {R : Nat → Nat → Option K}
    (hR : ∀ k l, k < v.vsize → l < leaves → v.value l k = ofOpt (R k l)) :
    (∃ q, hqCompute v md = .ok q) ↔ ∀ k l, k < v.vsize → l < leaves → (R k l).isSome := by
  constructor
  · rintro ⟨q, hq⟩ k i hk hi
    cases hr : R k i with
    | some x => rfl
    | none =>
      obtain ⟨e, he⟩ := hqCompute_error r hk hi (by rw [hR k i hk hi, hr]; rfl)
      rw [he] at hq; simp at hq
  · intro h
    let v' : HValues K := ⟨v.vsize, v.md, fun l k => .ok ((R k l).getD 0)⟩
    have hv : HData v' v.vsize leaves (fun k i => (R k i).getD 0) := ⟨rfl, fun _ _ _ _ => rfl⟩
    obtain ⟨q, _, e, _⟩ := hqCompute_sum r hv hlt
    refine ⟨q, ?_⟩
    rw [← e]
    refine hqCompute_congr r rfl (fun k i hk hi => ?_)
    rw [hR k i hk hi]
    have := h k i hk hi
    show _ = Except.ok ((R k i).getD 0)
    revert this
    cases R k i with
    | none => simp
    | some x => intro _; rfl

/-! ## Spatiotemporal -/

theorem dqLeafRow_read (v : DValues K) (md : HMeta) (k h i : Nat) (s : DSt K) : dqLeafRow v md k h i s = (do
    let x ← dRead v h k i
    let sum ← mset s.sum h i i x
    let info ← mset s.info h i i (entropyReduction x 0)
    let s ← dqPush md h i i ⟨sum, info, s.q⟩
    forUp (i + 1) v.osize (fun j s => dqLeafCell md h i j s) s) := by
  unfold dqLeafRow dRead
  cases v.series h k <;> rfl

theorem dqCompute_congr (r : RightMeta leaves parents md) {v v' : DValues K} (h1 : v.vsize = v'.vsize) (h2 : v.osize = v'.osize)
    (h : ∀ k l i, k < v.vsize → l < leaves → i < v.osize → dRead v l k i = dRead v' l k i) : dqCompute v md = dqCompute v' md := by
  unfold dqCompute
  rw [← h1, ← h2]
  refine forUp_congr (fun k q _ hk => ?_)
  unfold dqSeries
  rw [← h2]
  dsimp only
  congr 1
  refine forUp_congr (fun i s _ hi => ?_)
  rw [r.leaveSize] at hi
  unfold dqLeaf
  have : vget md.path i = .ok i := vget_eq_ok.mpr (r.pathLeaves i hi)
  simp only [this, okBind]
  rw [← h2]
  refine forDown_congr _ (fun j s hj => ?_)
  rw [dqLeafRow_read, dqLeafRow_read, h k i j hk hi hj, h2]

theorem dqCompute_error (r : RightMeta leaves parents md) {v : DValues K} {k l i : Nat} {e : Fault} (hk : k < v.vsize) (hl : l < leaves)
    (hi : i < v.osize) (h : dRead v l k i = .error e) : ∃ e, dqCompute v md = .error e := by
  unfold dqCompute
  refine forUp_error (Nat.zero_le k) hk (fun q => ?_)
  unfold dqSeries
  obtain ⟨e', he⟩ := forUp_error (lo := 0) (hi := md.leaveSize) (f := fun i s => dqLeaf v md k i s)
    (s := (⟨List.replicate md.hsize (UTM.mk' v.osize 0), List.replicate md.hsize (UTM.mk' v.osize 0), q⟩ : DSt K)) (Nat.zero_le l)
    (by rw [r.leaveSize]; exact hl)
    (fun s => by
      unfold dqLeaf
      have : vget md.path l = .ok l := vget_eq_ok.mpr (r.pathLeaves l hl)
      simp only [this, okBind]
      exact forDown_error v.osize hi (fun s => ⟨e, by rw [dqLeafRow_read, h]; rfl⟩))
  exact ⟨e', by dsimp only; rw [he]; rfl⟩

theorem dqCompute_iff (r : RightMeta leaves parents md) (hlt : leaves < parents.length) {v : DValues K} {R : Nat → Nat → Nat → Option K}
    (hR : ∀ k l i, k < v.vsize → l < leaves → i < v.osize → dRead v l k i = ofOpt (R k l i)) (hn : v.osize ≤ 65535)
    (hb : leaves * v.osize < 2147483648) :
    (∃ q, dqCompute v md = .ok q) ↔ ∀ k l i, k < v.vsize → l < leaves → i < v.osize → (R k l i).isSome := by
  constructor
  · rintro ⟨q, hq⟩ k l i hk hl hi
    cases hr : R k l i with
    | some x => rfl
    | none =>
      obtain ⟨e, he⟩ := dqCompute_error r hk hl hi (by rw [hR k l i hk hl hi, hr]; rfl)
      rw [he] at hq; simp at hq
  · intro h
    let v' : DValues K := ⟨v.vsize, v.osize, v.md, fun l k => .ok (table1 v.osize (fun i => (R k l i).getD 0))⟩
    have hv : DData v' v.vsize leaves v.osize (fun k x => (R k x.1 x.2).getD 0) := ⟨rfl, rfl, fun _ _ _ _ => rfl⟩
    obtain ⟨q, _, e, _⟩ := dqCompute_sum r hlt hv hn hb
    refine ⟨q, ?_⟩
    rw [← e]
    refine dqCompute_congr r rfl rfl (fun k l i hk hl hi => ?_)
    rw [hR k l i hk hl hi]
    show _ = (do vget (← (Except.ok (table1 v.osize (fun i => (R k l i).getD 0)) : Res (List K))) i)
    simp only [okBind]
    rw [table1_get _ hi]
    have := h k l i hk hl hi
    revert this
    cases R k l i with
    | none => simp
    | some x => intro _; rfl

end Lp
