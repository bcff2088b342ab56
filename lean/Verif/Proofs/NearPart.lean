import Verif.Proofs.Near
import Verif.Proofs.OExact
import Verif.Proofs.DExact
import Verif.Proofs.HExact
import Verif.Proofs.Ent

/-!
# The three partitioners with rounded arithmetic
-/

namespace Lp
open Spec
variable {E : Type} [Field E] [LinearOrder E] [IsStrictOrderedRing E] {u : E}
variable {F K : Type} [LD K] [FloatP F K] {val : K → E}

/-- Exact value of a part. -/
def vpart {A : Type} (val : K → E) (p : F) (q : A → Quality K) (x : A) : E :=
  val (FloatP.toK p) * val (q x).gain - val (FloatP.toK (FloatP.oneSub p)) * val (q x).loss

/-- Magnitude of a part. -/
def mpart {A : Type} (val : K → E) (p : F) (q : A → Quality K) (x : A) : E :=
  |val (FloatP.toK p) * val (q x).gain| + |val (FloatP.toK (FloatP.oneSub p)) * val (q x).loss|

/-- The exact qualities the stored numbers stand for. -/
def exactQ {A : Type} (val : K → E) (q : A → Quality K) (x : A) : Quality E := ⟨val (q x).gain, val (q x).loss⟩

theorem wsum_vpart {A : Type} (p : F) (q : A → Quality K) (L : List A) :
    wsum (vpart val p q) L = valueOf (val (FloatP.toK p)) (val (FloatP.toK (FloatP.oneSub p))) (exactQ val q) L := by
  induction L with
  | nil => simp [valueOf]
  | cons a L ih =>
    rw [wsum_cons, ih]
    simp only [valueOf, gainOf_cons, lossOf_cons, vpart, exactQ]
    ring

section
variable (laws : RoundedLaws val u)
include laws

theorem near_set {A : Type} (p : F) (q : A → Quality K) (x : A) :
    Near u 2 (val (Tradeoff.set (q x) p : Tradeoff K).value) (vpart val p q x) (mpart val p q x) :=
  near_pic laws p _ _

theorem o_rdp {f : Nat → Nat → Quality K} {n : Nat} {p : F} {T : Nat → Tradeoff K} {C : Nat → Int}
    (h : ∀ i, i < n → (T i, C i) = oRow f n p T i (n - 1)) :
    RDp u val (oDecs n) (vpart val p (fun x : Nat × Nat => f x.1 x.2)) (mpart val p (fun x : Nat × Nat => f x.1 x.2))
      (fun i => i < n) (fun i => n - i + 1) (fun i => (T i).value) (oChoice n C) := by
  have hset : ∀ i j, i ≤ j → j < n → Near u 2 (val (Tradeoff.set (f i j) p : Tradeoff K).value)
      (vpart val p (fun x : Nat × Nat => f x.1 x.2) (i, j)) (mpart val p (fun x : Nat × Nat => f x.1 x.2) (i, j)) :=
    fun i j _ _ => near_set laws p (fun x : Nat × Nat => f x.1 x.2) (i, j)
  have hu := laws.unit_nonneg
  -- one computed candidate
  have cand : ∀ i c, i ≤ c → c < n - 1 → ∀ (X : K) (V M : E), Near u (n - (c + 1) + 1) (val X) V M →
      Near u (n - i + 1) (val ((Tradeoff.set (f i c) p : Tradeoff K).value + X))
        (vpart val p (fun x : Nat × Nat => f x.1 x.2) (i, c) + V) (mpart val p (fun x : Nat × Nat => f x.1 x.2) (i, c) + M) := by
    intro i c h1 h2 X V M hX
    have a := (hset i c h1 (by omega)).mono hu (k' := n - (c + 1) + 1) (by omega)
    exact (near_add laws a hX).mono hu (by omega)
  have spec : ∀ i, i < n → ∃ k : Nat, oChoice n C i = k ∧
      ∀ (j : Nat) (e : List (Nat × Nat)) (succ : List Nat), (oDecs n i)[j]? = some (e, succ) →
        ∃ y : Tradeoff K, val y.value ≤ val (T i).value ∧ (j = k → y = T i) ∧
          ((e = [(i, n - 1)] ∧ succ = [] ∧ y = Tradeoff.set (f i (n - 1)) p) ∨
            ∃ c, i ≤ c ∧ c < n - 1 ∧ e = [(i, c)] ∧ succ = [c + 1] ∧ y = (Tradeoff.set (f i c) p).add (T (c + 1))) := by
    intro i hi
    obtain ⟨k, hk, hb⟩ := firstBest_spec (obv val) Tradeoff.gt (gt_iff_obv laws)
      (Tradeoff.set (f i (n - 1)) p, (n : Int) - 1)
      ((List.range' i (n - 1 - i)).map (fun c => ((Tradeoff.set (f i c) p).add (T (c + 1)), (c : Int))))
    have e0 := h i hi
    unfold oRow at e0
    rw [← e0] at hk hb
    refine ⟨k, ?_, ?_⟩
    · rcases headRange_get hk with ⟨rfl, hy⟩ | ⟨c, rfl, h1, h2, hy⟩
      · simp only [Prod.mk.injEq] at hy
        simp [oChoice, hy.2]
      · simp only [Prod.mk.injEq] at hy
        unfold oChoice
        rw [if_neg (by omega), hy.2, Int.toNat_natCast]
    · intro j e succ hj
      have key : ∃ y : Tradeoff K × Int, ((Tradeoff.set (f i (n - 1)) p, (n : Int) - 1) ::
          (List.range' i (n - 1 - i)).map
            (fun c => ((Tradeoff.set (f i c) p).add (T (c + 1)), (c : Int))))[j]? = some y ∧
          ((e = [(i, n - 1)] ∧ succ = [] ∧ y.1 = Tradeoff.set (f i (n - 1)) p) ∨
            ∃ c, i ≤ c ∧ c < n - 1 ∧ e = [(i, c)] ∧ succ = [c + 1] ∧ y.1 = (Tradeoff.set (f i c) p).add (T (c + 1))) := by
        rcases headRange_get hj with ⟨rfl, hy⟩ | ⟨c, rfl, h1, h2, hy⟩
        · simp only [Prod.mk.injEq] at hy
          obtain ⟨rfl, rfl⟩ := hy
          exact ⟨_, rfl, .inl ⟨rfl, rfl, rfl⟩⟩
        · simp only [Prod.mk.injEq] at hy
          obtain ⟨rfl, rfl⟩ := hy
          exact ⟨_, headRange_some h1 h2, .inr ⟨c, h1, by omega, rfl, rfl, rfl⟩⟩
      obtain ⟨y, hy, hcase⟩ := key
      refine ⟨y.1, obv_le (hb j y hy).1, ?_, hcase⟩
      rintro rfl
      rw [hk] at hy
      simp only [Option.some.injEq] at hy
      rw [← hy]
  refine ⟨?_, ?_, ?_⟩
  · intro i hi k e succ hk
    obtain ⟨k', _, hall⟩ := spec i hi
    obtain ⟨y, _, _, ⟨_, rfl, _⟩ | ⟨c, _, _, _, rfl, _⟩⟩ := hall k e succ hk
    · exact ⟨List.nodup_nil, by simp⟩
    · exact ⟨List.nodup_singleton _, by simp; omega⟩
  · intro i hi e succ hk V M hV
    obtain ⟨k, hc, hall⟩ := spec i hi
    rw [hc] at hk
    obtain ⟨y, _, hyT, ⟨rfl, rfl, hy⟩ | ⟨c, h1, h2, rfl, rfl, hy⟩⟩ := hall k e succ hk
    · rw [← hyT rfl, hy]
      simp only [wsum_cons, wsum_nil, add_zero]
      exact (hset i (n - 1) (by omega) (by omega)).mono hu (by omega)
    · rw [← hyT rfl, hy]
      simp only [wsum_cons, wsum_nil, add_zero]
      exact cand i c h1 h2 _ _ _ (hV (c + 1) (by simp))
  · intro i hi k e succ hk X V M hX
    obtain ⟨k', _, hall⟩ := spec i hi
    obtain ⟨y, hle, _, ⟨rfl, rfl, rfl⟩ | ⟨c, h1, h2, rfl, rfl, rfl⟩⟩ := hall k e succ hk
    · refine ⟨_, hle, ?_⟩
      simp only [wsum_cons, wsum_nil, add_zero]
      exact (hset i (n - 1) (by omega) (by omega)).mono hu (by omega)
    · obtain ⟨g1, g2⟩ := hX (c + 1) (by simp)
      refine ⟨(Tradeoff.set (f i c) p : Tradeoff K).value + X (c + 1), le_trans (laws.add_mono _ _ _ _ (le_refl _) g1) hle, ?_⟩
      simp only [wsum_cons, wsum_nil, add_zero]
      exact cand i c h1 h2 _ _ _ g2

/-! ## Trees -/

variable {leaves : Nat} {parents : List Int} {md : HMeta}

omit laws [FloatP F K] [IsStrictOrderedRing E] [Field E] [LinearOrder E] in
theorem tsum_fold (T : Nat → Tradeoff K) (l : List Nat) :
    (tsum T l).value = l.foldl (fun s c => s + (T c).value) 0 := by
  have : ∀ z : Tradeoff K, (l.foldl (fun a c => a.add (T c)) z).value = l.foldl (fun s c => s + (T c).value) z.value := by
    induction l with
    | nil => intro z; rfl
    | cons a l ih => intro z; simp only [List.foldl_cons]; rw [ih]; rfl
  exact this _

omit laws [LD K] [FloatP F K] [IsStrictOrderedRing E] [Field E] [LinearOrder E] in
/-- A child with its sisters has no more leaves than the parent. -/
theorem card_kids (r : RightMeta leaves parents md) {h c : Nat} {ch : List Nat} (hl : ¬ h < leaves) (hnd : ch.Nodup)
    (hmem : ∀ c, c ∈ ch ↔ ParentIs parents c h) (hc : c ∈ ch) :
    (leavesUnder leaves parents c).card + (ch.length - 1) ≤ (leavesUnder leaves parents h).card := by
  obtain ⟨e1, e2⟩ := leavesUnder_inner r.tree (Nat.not_lt.mp hl) ch.toFinset (by intro c; rw [List.mem_toFinset, hmem])
  rw [e1, Finset.card_biUnion e2]
  have hc' : c ∈ ch.toFinset := List.mem_toFinset.mpr hc
  rw [← Finset.add_sum_erase _ _ hc']
  have h1 : (ch.toFinset.erase c).card ≤ ∑ x ∈ ch.toFinset.erase c, (leavesUnder leaves parents x).card := by
    rw [Finset.card_eq_sum_ones]
    apply Finset.sum_le_sum
    intro x hx
    have hx' := (hmem x).mp (List.mem_toFinset.mp (Finset.mem_of_mem_erase hx))
    exact Finset.card_pos.mpr (leaves_nonempty r.tree hx'.lt)
  rw [Finset.card_erase_of_mem hc', List.toFinset_card_of_nodup hnd] at h1
  omega

omit [FloatP F K] in
/-- The sum over the children. -/
theorem near_kids (r : RightMeta leaves parents md) {h e : Nat} {ch : List Nat} (hh : h < parents.length) (hl : ¬ h < leaves)
    (hch : md.children[h]? = some ch) {X : Nat → K} {V M : Nat → E}
    (hX : ∀ c ∈ ch, Near u ((leavesUnder leaves parents c).card + e) (val (X c)) (V c) (M c)) :
    Near u ((leavesUnder leaves parents h).card + e)
      (val ((kidsIn parents md.path h).foldl (fun s c => s + X c) 0)) (wsum V ch) (wsum M ch) := by
  obtain ⟨ch', h1, hperm, hmem⟩ := r.kidsPerm hh
  rw [hch] at h1
  obtain rfl := Option.some.inj h1
  have hnd : ch.Nodup := hperm.nodup_iff.mpr (r.pathNodup.filter _)
  rw [wsum_perm V hperm, wsum_perm M hperm]
  have hf := near_fold laws X V M (k := (leavesUnder leaves parents h).card + e - (ch.length - 1)) (kidsIn parents md.path h)
    (fun c hc => by
      have hc' : c ∈ ch := hperm.mem_iff.mpr hc
      have := card_kids r hl hnd hmem hc'
      exact (hX c hc').mono laws.unit_nonneg (by omega))
  refine hf.mono laws.unit_nonneg ?_
  rw [← hperm.length_eq]
  rcases List.eq_nil_or_concat ch with rfl | ⟨l, c, rfl⟩
  · simp
  · have := card_kids r hl hnd hmem (c := c) (by simp)
    omega

theorem h_rdp (r : RightMeta leaves parents md) {Q : Nat → Quality K} {p : F} {T : Nat → Tradeoff K} {A : Nat → Bool}
    (h : ∀ h, h < parents.length → (T h, A h) = hNode leaves parents md.path Q p T h) :
    RDp u val (hDecs leaves md.children) (vpart val p Q) (mpart val p Q) (fun h => h < parents.length)
      (fun h => (leavesUnder leaves parents h).card + 1) (fun h => (T h).value) (hChoice A) := by
  have hset : ∀ x, x < parents.length → Near u ((leavesUnder leaves parents x).card + 1)
      (val (Tradeoff.set (Q x) p : Tradeoff K).value) (vpart val p Q x) (mpart val p Q x) := by
    intro x hx
    refine (near_set laws p Q x).mono laws.unit_nonneg ?_
    have := Finset.card_pos.mpr (leaves_nonempty r.tree hx)
    omega
  have hleaf : ∀ x, x < parents.length → x < leaves → T x = Tradeoff.set (Q x) p ∧ A x = true := by
    intro x hx hl
    have := h x hx
    unfold hNode at this
    rw [if_pos hl] at this
    exact Prod.mk.inj this
  have hinner : ∀ x, x < parents.length → ¬ x < leaves →
      (val (Tradeoff.set (Q x) p : Tradeoff K).value ≤ val (T x).value ∧
        val (tsum T (kidsIn parents md.path x)).value ≤ val (T x).value) ∧
      ((A x = false ∧ T x = tsum T (kidsIn parents md.path x)) ∨ (A x = true ∧ T x = Tradeoff.set (Q x) p)) := by
    intro x hx hl
    have := h x hx
    unfold hNode at this
    rw [if_neg hl] at this
    by_cases hc : Tradeoff.lt (Tradeoff.set (Q x) p) (tsum T (kidsIn parents md.path x)) = true
    · rw [if_pos hc] at this
      obtain ⟨e1, e2⟩ := Prod.mk.inj this
      rw [lt_iff_val laws] at hc
      rw [e1]
      exact ⟨⟨hc.le, le_refl _⟩, .inl ⟨e2, rfl⟩⟩
    · rw [if_neg hc] at this
      obtain ⟨e1, e2⟩ := Prod.mk.inj this
      rw [lt_iff_val laws] at hc
      rw [e1]
      exact ⟨⟨le_refl _, not_lt.mp hc⟩, .inr ⟨e2, rfl⟩⟩
  refine ⟨?_, ?_, ?_⟩
  · intro x hx k e succ hk
    by_cases hl : x < leaves
    · rw [hDecs_leaf hl] at hk
      cases k with
      | succ k => simp at hk
      | zero => simp at hk; rw [hk.2]; simp
    · obtain ⟨ch, hch, hperm, hmem⟩ := r.kidsPerm hx
      have hnd : ch.Nodup := hperm.nodup_iff.mpr (r.pathNodup.filter _)
      rw [hDecs_inner hl hch] at hk
      match k, hk with
      | 0, hk => simp at hk; rw [hk.2]; simp
      | 1, hk => simp at hk; rw [← hk.2]; exact ⟨hnd, fun y hy => ((hmem y).mp hy).lt⟩
      | k + 2, hk => simp at hk
  · intro x hx e succ hk V M hV
    by_cases hl : x < leaves
    · obtain ⟨e1, e2⟩ := hleaf x hx hl
      rw [hDecs_leaf hl] at hk
      simp [hChoice, e2] at hk
      obtain ⟨rfl, rfl⟩ := hk
      simp only [wsum_cons, wsum_nil, add_zero, e1]
      exact hset x hx
    · obtain ⟨ch, hch, hperm, hmem⟩ := r.kidsPerm hx
      rw [hDecs_inner hl hch] at hk
      rcases (hinner x hx hl).2 with ⟨e2, e1⟩ | ⟨e2, e1⟩
      · simp [hChoice, e2] at hk
        obtain ⟨rfl, rfl⟩ := hk
        simp only [wsum_nil, zero_add]
        rw [e1, tsum_fold]
        exact near_kids laws r hx hl hch hV
      · simp [hChoice, e2] at hk
        obtain ⟨rfl, rfl⟩ := hk
        simp only [wsum_cons, wsum_nil, add_zero]
        rw [e1]
        exact hset x hx
  · intro x hx k e succ hk X V M hX
    by_cases hl : x < leaves
    · obtain ⟨e1, e2⟩ := hleaf x hx hl
      rw [hDecs_leaf hl] at hk
      cases k with
      | succ k => simp at hk
      | zero =>
        simp at hk
        obtain ⟨rfl, rfl⟩ := hk
        simp only [wsum_cons, wsum_nil, add_zero]
        exact ⟨_, by rw [e1], hset x hx⟩
    · obtain ⟨ch, hch, hperm, hmem⟩ := r.kidsPerm hx
      rw [hDecs_inner hl hch] at hk
      obtain ⟨⟨g1, g2⟩, _⟩ := hinner x hx hl
      match k, hk with
      | 0, hk =>
        simp at hk
        obtain ⟨rfl, rfl⟩ := hk
        simp only [wsum_cons, wsum_nil, add_zero]
        exact ⟨_, g1, hset x hx⟩
      | 1, hk =>
        simp at hk
        obtain ⟨rfl, rfl⟩ := hk
        simp only [wsum_nil, zero_add]
        refine ⟨(kidsIn parents md.path x).foldl (fun s c => s + X c) 0, le_trans ?_ g2, ?_⟩
        · rw [tsum_fold]
          exact fold_mono laws _ _ _ (fun c hc => (hX c (hperm.mem_iff.mpr hc)).1)
        · exact near_kids laws r hx hl hch (fun c hc => (hX c hc).2)
      | k + 2, hk => simp at hk

end

section
variable {n leaves : Nat} {parents : List Int} {md : HMeta}

/-- Quality of a rectangle. -/
def rqv (Q : Nat → Nat → Nat → Quality K) (r : Rect) : Quality K := Q r.node r.first r.last

theorem wsum_map_pair (V : Nat × Nat → E) (i : Nat) (ch : List Nat) :
    wsum V (ch.map (fun c => (c, i))) = wsum (fun c => V (c, i)) ch := by
  unfold wsum; rw [List.map_map]; rfl

theorem d_rdp (laws : RoundedLaws val u) (r : RightMeta leaves parents md) {Q : Nat → Nat → Nat → Quality K} {p : F}
    {T : Nat → Nat → Tradeoff K} {C : Nat → Nat → Int}
    (h : ∀ h i, h < parents.length → i < n → DEq leaves parents md.path Q p n T C h i) :
    RDp u val (dDecs leaves md.children n) (vpart val p (rqv Q)) (mpart val p (rqv Q))
      (fun s => s.1 < parents.length ∧ s.2 < n) (fun s => (leavesUnder leaves parents s.1).card + (n - s.2))
      (fun s => (T s.1 s.2).value) (dChoice leaves n C) := by
  have hu := laws.unit_nonneg
  have hcard : ∀ x, x < parents.length → 1 ≤ (leavesUnder leaves parents x).card :=
    fun x hx => Finset.card_pos.mpr (leaves_nonempty r.tree hx)
  have hset : ∀ x i j, x < parents.length → i ≤ j → j < n → Near u 2 (val (Tradeoff.set (Q x i j) p : Tradeoff K).value)
      (vpart val p (rqv Q) ⟨x, i, j⟩) (mpart val p (rqv Q) ⟨x, i, j⟩) :=
    fun x i j _ _ _ => near_set laws p (rqv Q) ⟨x, i, j⟩
  have cand : ∀ x i c, x < parents.length → i ≤ c → c < n - 1 → ∀ (X : K) (V M : E),
      Near u ((leavesUnder leaves parents x).card + (n - (c + 1))) (val X) V M →
      Near u ((leavesUnder leaves parents x).card + (n - i))
        (val ((Tradeoff.zero.add (Tradeoff.set (Q x i c) p : Tradeoff K)).value + X))
        (vpart val p (rqv Q) ⟨x, i, c⟩ + V) (mpart val p (rqv Q) ⟨x, i, c⟩ + M) := by
    intro x i c hx h1 h2 X V M hX
    have a : Near u 2 (val ((Tradeoff.zero.add (Tradeoff.set (Q x i c) p : Tradeoff K)).value))
        (vpart val p (rqv Q) ⟨x, i, c⟩) (mpart val p (rqv Q) ⟨x, i, c⟩) := by
      have e : val ((Tradeoff.zero.add (Tradeoff.set (Q x i c) p : Tradeoff K)).value) =
          val (Tradeoff.set (Q x i c) p : Tradeoff K).value := laws.zero_add _
      rw [e]
      exact hset x i c hx h1 (by omega)
    have := hcard x hx
    exact (near_add laws (a.mono hu (by omega)) hX).mono hu (by omega)
  have spec : ∀ x i, x < parents.length → i < n → ∃ k : Nat, dChoice leaves n C (x, i) = k ∧
      (∀ (j : Nat) (e : List Rect) (succ : List (Nat × Nat)), (dDecs leaves md.children n (x, i))[j]? = some (e, succ) →
        ∃ y : Tradeoff K, val y.value ≤ val (T x i).value ∧ (j = k → y = T x i) ∧
          ((e = [⟨x, i, n - 1⟩] ∧ succ = [] ∧ y = Tradeoff.set (Q x i (n - 1)) p) ∨
           (¬ x < leaves ∧ e = [] ∧ succ = ((md.children[x]?).getD []).map (fun c => (c, i)) ∧
              y = tsum (fun c => T c i) (kidsIn parents md.path x)) ∨
            ∃ c, i ≤ c ∧ c < n - 1 ∧ e = [⟨x, i, c⟩] ∧ succ = [(x, c + 1)] ∧
              y = (Tradeoff.zero.add (Tradeoff.set (Q x i c) p)).add (T x (c + 1)))) := by
    intro x i hx hi
    obtain ⟨ch, hch, hperm, hmem⟩ := r.kidsPerm hx
    let S := tsum (fun c => T c i) (kidsIn parents md.path x)
    let cands : List (Tradeoff K × Int) :=
      ((if (!decide (x < leaves)) = true then [(S, (-1 : Int))] else []) ++
        (List.range' i (n - 1 - i)).map (fun c =>
          ((Tradeoff.zero.add (Tradeoff.set (Q x i c) p)).add (T x (c + 1)), (c : Int))))
    obtain ⟨k, hk, hb⟩ := firstBest_spec (obv val) Tradeoff.gt (gt_iff_obv laws)
      (Tradeoff.set (Q x i (n - 1)) p, ((n - 1 : Nat) : Int)) cands
    have e0 := h x i hx hi
    unfold DEq dRow at e0
    rw [← e0] at hk hb
    have entry : ∀ (j : Nat) (e : List Rect) (succ : List (Nat × Nat)),
        (dDecs leaves md.children n (x, i))[j]? = some (e, succ) →
        ∃ y : Tradeoff K × Int, ((Tradeoff.set (Q x i (n - 1)) p, ((n - 1 : Nat) : Int)) :: cands)[j]? = some y ∧
          ((e = [⟨x, i, n - 1⟩] ∧ succ = [] ∧ y.1 = Tradeoff.set (Q x i (n - 1)) p) ∨
           (¬ x < leaves ∧ e = [] ∧ succ = ((md.children[x]?).getD []).map (fun c => (c, i)) ∧
              y.1 = tsum (fun c => T c i) (kidsIn parents md.path x)) ∨
            ∃ c, i ≤ c ∧ c < n - 1 ∧ e = [⟨x, i, c⟩] ∧ succ = [(x, c + 1)] ∧
              y.1 = (Tradeoff.zero.add (Tradeoff.set (Q x i c) p)).add (T x (c + 1))) ∧
          (∀ C' : Nat → Nat → Int, C' x i = y.2 → dChoice leaves n C' (x, i) = j) := by
      intro j e succ hj
      rcases dDecs_cases hj with ⟨rfl, rfl, rfl⟩ | ⟨hl, rfl, rfl, rfl⟩ | ⟨c, hc1, hc2, rfl, rfl, rfl⟩
      · refine ⟨_, rfl, .inl ⟨rfl, rfl, rfl⟩, ?_⟩
        intro C' hC'
        unfold dChoice
        rw [if_pos]
        simp only [hC']; omega
      · refine ⟨(S, -1), ?_, .inr (.inl ⟨hl, rfl, rfl, rfl⟩), ?_⟩
        · simp [cands, hl]
        · intro C' hC'
          unfold dChoice
          simp only at hC' ⊢
          rw [if_neg (by rw [hC']; omega), if_pos hC']
      · refine ⟨((Tradeoff.zero.add (Tradeoff.set (Q x i c) p)).add (T x (c + 1)), (c : Int)), ?_,
          .inr (.inr ⟨c, hc1, hc2, rfl, rfl, rfl⟩), ?_⟩
        · have e : i + 1 * (c - i) = c := by omega
          have hr : (List.range' i (n - 1 - i))[c - i]? = some c := by
            rw [List.getElem?_range' (by omega), e]
          by_cases hl : x < leaves
          · simp [cands, hl, hr]
          · simp [cands, hl, hr]
        · intro C' hC'
          unfold dChoice
          simp only at hC' ⊢
          rw [if_neg (by rw [hC']; omega), if_neg (by rw [hC']; omega), hC', Int.toNat_natCast]
    have hlen : (dDecs leaves md.children n (x, i)).length =
        ((Tradeoff.set (Q x i (n - 1)) p, ((n - 1 : Nat) : Int)) :: cands).length := by
      by_cases hl : x < leaves <;> simp [dDecs, cands, hl]
    have hkl : k < (dDecs leaves md.children n (x, i)).length := by
      rw [hlen]; exact (List.getElem?_eq_some_iff.mp hk).1
    obtain ⟨⟨e, succ⟩, hd⟩ : ∃ d, (dDecs leaves md.children n (x, i))[k]? = some d :=
      ⟨_, List.getElem?_eq_getElem hkl⟩
    refine ⟨k, ?_, ?_⟩
    · obtain ⟨y, hy, _, hch'⟩ := entry k e succ hd
      rw [hk] at hy
      obtain rfl := Option.some.inj hy
      exact hch' C rfl
    · intro j e succ hj
      obtain ⟨y, hy, hw, _⟩ := entry j e succ hj
      refine ⟨y.1, obv_le (hb j y hy).1, ?_, hw⟩
      rintro rfl
      rw [hk] at hy
      obtain rfl := Option.some.inj hy
      rfl
  refine ⟨?_, ?_, ?_⟩
  · rintro ⟨x, i⟩ ⟨hx, hi⟩ k e succ hk
    simp only at hx hi
    rcases dDecs_cases hk with ⟨_, _, rfl⟩ | ⟨hl, _, _, rfl⟩ | ⟨c, hc1, hc2, _, _, rfl⟩
    · simp
    · obtain ⟨ch, hch, hperm, hmem⟩ := r.kidsPerm hx
      have hnd : ch.Nodup := hperm.nodup_iff.mpr (r.pathNodup.filter _)
      rw [hch]
      simp only [Option.getD_some]
      refine ⟨hnd.map (fun a b e => (Prod.mk.inj e).1), ?_⟩
      intro s' hs'
      obtain ⟨c, hc, rfl⟩ := List.mem_map.mp hs'
      exact ⟨((hmem c).mp hc).lt, hi⟩
    · refine ⟨List.nodup_singleton _, ?_⟩
      intro s' hs'
      simp at hs'; subst hs'; exact ⟨hx, by simp only; omega⟩
  · rintro ⟨x, i⟩ ⟨hx, hi⟩ e succ hk V M hV
    obtain ⟨k, hc, hall⟩ := spec x i hx hi
    rw [hc] at hk
    have := hcard x hx
    obtain ⟨y, _, hyT, ⟨rfl, rfl, hy⟩ | ⟨hl, rfl, rfl, hy⟩ | ⟨c, h1, h2, rfl, rfl, hy⟩⟩ := hall k e succ hk
    · simp only
      rw [← hyT rfl, hy]
      simp only [wsum_cons, wsum_nil, add_zero]
      exact (hset x i (n - 1) hx (by omega) (by omega)).mono hu (by omega)
    · simp only
      rw [← hyT rfl, hy, tsum_fold]
      obtain ⟨ch, hch, hperm, hmem⟩ := r.kidsPerm hx
      rw [hch] at hV ⊢
      simp only [Option.getD_some, wsum_nil, zero_add, wsum_map_pair] at hV ⊢
      exact near_kids laws r hx hl hch (fun c hc => hV (c, i) (List.mem_map.mpr ⟨c, hc, rfl⟩))
    · simp only
      rw [← hyT rfl, hy]
      simp only [wsum_cons, wsum_nil, add_zero]
      exact cand x i c hx h1 h2 _ _ _ (hV (x, c + 1) (by simp))
  · rintro ⟨x, i⟩ ⟨hx, hi⟩ k e succ hk X V M hX
    obtain ⟨k', _, hall⟩ := spec x i hx hi
    have := hcard x hx
    obtain ⟨y, hle, _, ⟨rfl, rfl, rfl⟩ | ⟨hl, rfl, rfl, rfl⟩ | ⟨c, h1, h2, rfl, rfl, rfl⟩⟩ := hall k e succ hk
    · refine ⟨_, hle, ?_⟩
      simp only [wsum_cons, wsum_nil, add_zero]
      exact (hset x i (n - 1) hx (by omega) (by omega)).mono hu (by omega)
    · obtain ⟨ch, hch, hperm, hmem⟩ := r.kidsPerm hx
      rw [hch] at hX ⊢
      simp only [Option.getD_some, wsum_nil, zero_add, wsum_map_pair] at hX ⊢
      have hX' : ∀ c ∈ ch, _ := fun c hc => hX (c, i) (List.mem_map.mpr ⟨c, hc, rfl⟩)
      refine ⟨(kidsIn parents md.path x).foldl (fun s c => s + X (c, i)) 0, le_trans ?_ hle, ?_⟩
      · rw [tsum_fold]
        exact fold_mono laws _ _ _ (fun c hc => (hX' c (hperm.mem_iff.mpr hc)).1)
      · exact near_kids laws r hx hl hch (fun c hc => (hX' c hc).2)
    · obtain ⟨g1, g2⟩ := hX (x, c + 1) (by simp)
      refine ⟨(Tradeoff.zero.add (Tradeoff.set (Q x i c) p : Tradeoff K)).value + X (x, c + 1),
        le_trans (laws.add_mono _ _ _ _ (le_refl _) g1) hle, ?_⟩
      simp only [wsum_cons, wsum_nil, add_zero]
      exact cand x i c hx h1 h2 _ _ _ g2

end
end Lp
