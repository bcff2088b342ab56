import Verif.Proofs.RangePart
import Verif.Proofs.Limited
import Verif.Spec.Pc
import Verif.Proofs.Condition
import Verif.Props.C58

/-!
# C84 — a bounded range of exponents: nothing overflows or underflows

C58 is about rounded arithmetic with exponents of any size.  Here the numbers of the machine (type `K'`) have a bounded range, and what happens
to a result outside it is left open (`RangeArith`, `Spec/Range.lean`).  If the data are multiples of `2^-a`, not negative and at most `D`, and the
range has room for this (`Fits`), then every gain, every loss and the quality of every partition is finite, and the guarantees of C58
hold word for word: no intermediate result of the computation of the qualities and of the best partition leaves the range.
For the x87 `long double` there is room for all data between `2^-970` and `2^990`, on all sizes the program can handle (`roomLong`).
-/

namespace Lp.C84
open Spec C58
open scoped BigOperators
variable {F K' K : Type} [LDLog K'] [LDLog K] [FloatP F K'] {fin : K' → Prop} {num : K' → K} {val : K → ℝ} {u w : ℝ} {b g E Q : Nat}

/-- A value of the data: finite, a multiple of `2^-a`, not negative, at most `D`. -/
def Datum (fin : K' → Prop) (num : K' → K) (val : K → ℝ) (a : Nat) (D : ℝ) (x : K') : Prop :=
  fin x ∧ Grid a (val (num x)) ∧ 0 ≤ val (num x) ∧ val (num x) ≤ D

/-- The range `E` has room: `N` elements, `m` series, data at most `D` and multiples of `2^-a`, parameters multiples of `2^-c`.
`2^e` bounds all gains and losses. -/
structure Fits (u : ℝ) (E Q a b g c e m N : Nat) (D : ℝ) : Prop where
  count : (1 + u) ^ N ≤ 3 / 2
  series : (1 + u) ^ m ≤ 3 / 2
  logLow : a ≤ Q
  logTop : 2 * (N * D) ≤ (2 : ℝ) ^ Q
  size : 2 ^ 13 * (m * ((E + 2) * N * D)) ≤ 2 ^ e
  top : 24 * (N * (2 : ℝ) ^ e) ≤ 2 ^ E
  low : c + (a + g + 3 + b) + 1 + b ≤ E

/-- Room for the relative qualities too. -/
structure FitsNormalized (u : ℝ) (E Q a b g c e m N : Nat) (D : ℝ) : Prop extends Fits u E Q a b g c e m N D where
  topN : 24 * (N * (2 : ℝ) ^ (a + g + 3 + b + e + 1)) ≤ 2 ^ E
  lowN : c + (a + g + 3 + b + e + 1 + b) + 1 + b ≤ E

/-- The number a machine number is. -/
def real (num : K' → K) (val : K → ℝ) (x : K') : ℝ := val (num x)

/-- Both numbers are finite. -/
def Finite (fin : K' → Prop) (q : Quality K') : Prop := fin q.gain ∧ fin q.loss

theorem cell_aux {ι : Type} [DecidableEq ι] (ar : RangeArith fin num val u w b g E Q) {a c e m N : Nat} {D : ℝ}
    (ft : Fits u E Q a b g c e m N D) {V : Nat → ι → K'} {s : Finset ι}
    {q : Quality K'} (hs : s.Nonempty) (hc : s.card ≤ N) (hb : N < 2147483648)
    (hx : ∀ k < m, ∀ i ∈ s, Datum fin num val a D (V k i))
    (hq : (s.card = 1 ∧ q = ⟨0, 0⟩) ∨ Measured V s (s.card : Nat) m q) :
    Held fin num val (a + g + 3 + b) (2 ^ e) q.gain ∧ Held fin num val (a + g + 3 + b) (2 ^ e) q.loss ∧
    Accurate (real num val) u w m V s q ∧ QClose val (factor u w (3 * N + m + 1)) m (numbers (real num val) V) s (inQ num q) := by
  have hN1 : (1 : ℝ) ≤ N := by have := hs.card_pos; exact_mod_cast (by omega : 1 ≤ N)
  have heE : (2 : ℝ) ^ e ≤ 2 ^ E := by
    have := ft.top
    have h2 : (0 : ℝ) < 2 ^ e := by positivity
    nlinarith
  have hAE : a + g + 3 + b ≤ E := by have := ft.low; omega
  have hHeld : ∀ k < m, ∀ i ∈ s, Held fin num val a D (V k i) := fun k hk i hi =>
    ⟨(hx k hk i hi).1, (hx k hk i hi).2.1, by rw [abs_of_nonneg (hx k hk i hi).2.2.1]; exact (hx k hk i hi).2.2.2⟩
  have key : Held fin num val (a + g + 3 + b) (2 ^ e) q.gain ∧ Held fin num val (a + g + 3 + b) (2 ^ e) q.loss ∧
      ((s.card = 1 ∧ inQ num q = ⟨0, 0⟩) ∨ Measured (fun k i => num (V k i)) s (s.card : Nat) m (inQ num q)) := by
    rcases hq with ⟨h1, rfl⟩ | h
    · refine ⟨Held.zero ar (by positivity), Held.zero ar (by positivity), .inl ⟨h1, ?_⟩⟩
      unfold inQ
      rw [ar.range.zero.2]
    · obtain ⟨h1, h2, h3⟩ := measured_num ar hs hc hb ft.count ft.series hHeld hAE ft.logLow ft.logTop (le_trans ft.size heE) h
      exact ⟨h2.mono (le_refl _) ft.size, h3.mono (le_refl _) ft.size, .inr h1⟩
  obtain ⟨k1, k2, k3⟩ := key
  have := accurate_aux (V := fun k i => num (V k i)) ar.laws ar.w_le hs hc hb ft.count (fun k hk i hi => (hx k hk i hi).2.2.1) k3
  exact ⟨k1, k2, this.1, this.2⟩

theorem room_aux {a c e m N : Nat} {D : ℝ} (ft : Fits u E Q a b g c e m N D) : Room u b E (a + g + 3 + b) c N (2 ^ e) :=
  ⟨by positivity, ft.count, ft.top, ft.low⟩

theorem roomN_aux {a c e m N : Nat} {D : ℝ} (ft : FitsNormalized u E Q a b g c e m N D) :
    Room u b E (a + g + 3 + b + e + 1 + b) c N (2 ^ (a + g + 3 + b + e + 1)) :=
  ⟨by positivity, ft.count, ft.topN, ft.lowN⟩

theorem tiles_length_aux {i n : Nat} {L : List (Nat × Nat)} (h : Tiles i n L) : i + L.length ≤ n := by
  induction h with
  | nil => simp
  | cons h1 h2 h3 ih => simp only [List.length_cons]; omega

/-- Finite quality of a partition. -/
theorem quality_aux (ar : RangeArith fin num val u w b g E Q) {A c N : Nat} {M : ℝ} (rm : Room u b E A c N M) (l : List (Quality K'))
    (hl : ∀ q ∈ l, Held fin num val A M q.gain ∧ Held fin num val A M q.loss) (hN : l.length ≤ N) : Finite fin (sumQuality l) := by
  obtain ⟨_, h2, h3⟩ := sumQ_num ar rm.pos (by have := rm.low; omega) l hl (rm.cap ar.laws.unit_nonneg hN)
  exact ⟨h2.fin, h3.fin⟩

/-- The partition of a table of qualities in range is nearly the best one, measured with the table. -/
theorem oPart_aux (ar : RangeArith fin num val u w b g E Q) {n A c : Nat} {M : ℝ} (rm : Room u b E A c n M)
    {q : UTM (Quality K')} {f : Nat → Nat → Quality K'} (hq : q.Rep n f)
    (hf : ∀ i j, i ≤ j → j < n → Held fin num val A M (f i j).gain ∧ Held fin num val A M (f i j).loss)
    (p : F) (hp : Weights fin num val c p) :
    ∃ (P : OPartition F K') (L : List (Nat × Nat)), oBestPartition q p = .ok P ∧ Tiles 0 n L ∧
      P.parts.map (fun x => (x.start, x.end)) = L.map (fun I => ((I.1 : Int), (I.2 : Int))) ∧ Finite fin P.quality ∧
      ∀ L', Tiles 0 n L' → C50.Within ((1 + u) ^ (n + 1) - 1) (real num val (FloatP.toK p)) (real num val (FloatP.toK (FloatP.oneSub p)))
        (C50.exact val (fun I : Nat × Nat => inQ num (f I.1 I.2))) L L' := by
  obtain ⟨P, T, C, ds, L, h1, h2, h3, h4, h5, h6⟩ := oBest_spec hq p
  have ht := oSol_tiles h3.sol 0 rfl (Nat.zero_le _)
  refine ⟨P, L, h1, ht, by rw [h4, List.map_map]; rfl, ?_, ?_⟩
  · rw [h5]
    refine quality_aux ar rm _ ?_ (by have := tiles_length_aux ht; simpa using this)
    intro y hy
    obtain ⟨I, hI, rfl⟩ := List.mem_map.mp hy
    obtain ⟨_, b2, b3⟩ := ht.bounds I hI
    exact hf _ _ b2 b3
  · intro L' hL'
    letI := liftFloat (F := F) num
    exact C50.ordered_aux (F := LiftP F) ar.laws.toRoundedLaws (o_num ar rm hp hf h2) h3 hL'

/-- Ordered data: `n` elements. -/
theorem ordered (ar : RangeArith fin num val u w b g E Q) {a c e m n : Nat} {D : ℝ} (ft : Fits u E Q a b g c e m n D)
    (v : OValues K') (V : Nat → Nat → K') (hv : OData v m n V) (hn : n ≤ 65535)
    (hd : ∀ k i, k < m → i < n → Datum fin num val a D (V k i)) :
    ∃ (q : UTM (Quality K')) (f : Nat → Nat → Quality K'),
      (OQualities.ofValues v).computeQualities = .ok ⟨some v, some q⟩ ∧
      (∀ i j, i ≤ j → j < n → q.get i j = .ok (f i j) ∧ Finite fin (f i j) ∧
        Accurate (real num val) u w m V (Finset.Icc i j) (f i j)) ∧
      ∀ p : F, Weights fin num val c p →
        ∃ (P : OPartition F K') (L : List (Nat × Nat)), oBestPartition q p = .ok P ∧ Tiles 0 n L ∧
          P.parts.map (fun x => (x.start, x.end)) = L.map (fun I => ((I.1 : Int), (I.2 : Int))) ∧ Finite fin P.quality ∧
          ∀ L', Tiles 0 n L' →
            NearBest ((1 + w) ^ 3 * (1 + u) ^ (4 * n + m + 2) - 1) (real num val (FloatP.toK p))
              (real num val (FloatP.toK (FloatP.oneSub p))) m (numbers (real num val) V) (fun I => Finset.Icc I.1 I.2) L L' := by
  obtain ⟨q, f, e0, h1, h2, h3⟩ := oqCompute_sum hv hn
  have cell : ∀ i j, i ≤ j → j < n → _ := fun i j hij hj =>
    cell_aux ar ft (V := V) (s := Finset.Icc i j) (q := f i j) ⟨i, by simp [hij]⟩ (by rw [Nat.card_Icc]; omega) (by omega)
      (fun k hk x hx => hd k x hk (by rw [Finset.mem_Icc] at hx; omega)) (by
        rcases Nat.lt_or_eq_of_le hij with hlt | rfl
        · right
          rw [← card_Icc i j hij]
          exact h3 i j hlt hj
        · left
          exact ⟨by rw [Nat.card_Icc]; omega, h2 i hj⟩)
  refine ⟨q, f, ?_, fun i j hij hj => ⟨h1.get hij hj, ⟨(cell i j hij hj).1.fin, (cell i j hij hj).2.1.fin⟩, (cell i j hij hj).2.2.1⟩, ?_⟩
  · unfold OQualities.computeQualities OQualities.ofValues
    simp only [e0, okBind, pureOk]
  · intro p hp
    obtain ⟨P, L, g1, g2, g3, g4, g5⟩ := oPart_aux ar (room_aux ft) h1
      (fun i j hij hj => ⟨(cell i j hij hj).1, (cell i j hij hj).2.1⟩) p hp
    refine ⟨P, L, g1, g2, g3, g4, fun L' hL' => ?_⟩
    have hk : ∀ {M : List (Nat × Nat)}, Tiles 0 n M → ∀ I ∈ M,
        QClose val (factor u w (3 * n + m + 1)) m (numbers (real num val) V) (Finset.Icc I.1 I.2) (inQ num (f I.1 I.2)) := by
      intro M hM I hI
      obtain ⟨_, b2, b3⟩ := hM.bounds I hI
      exact (cell I.1 I.2 b2 b3).2.2.2
    have := near_aux ar.laws.unit_nonneg (hk g2) (hk hL') (g5 L' hL')
    rwa [show 3 * n + m + 1 + (n + 1) = 4 * n + m + 2 by omega] at this

theorem hPart_aux (ar : RangeArith fin num val u w b g E Q) {leaves : Nat} {parents : List Int} {md : HMeta} (hmd : RightMeta leaves parents md)
    (hlt : leaves < parents.length) {A c : Nat} {M : ℝ} (rm : Room u b E A c leaves M)
    {q : List (Quality K')} {f : Nat → Quality K'} (hq : VRep q parents.length f)
    (hf : ∀ h, h < parents.length → Held fin num val A M (f h).gain ∧ Held fin num val A M (f h).loss)
    (p : F) (hp : Weights fin num val c p) :
    ∃ (P : HPartition F K') (L : List Nat), hBestPartition q md p = .ok P ∧ LeafCover leaves parents L ∧
      P.parts.map (fun x => x.h) = L ∧ Finite fin P.quality ∧
      ∀ L', LeafCover leaves parents L' → C50.Within ((1 + u) ^ (leaves + 1) - 1) (real num val (FloatP.toK p))
        (real num val (FloatP.toK (FloatP.oneSub p))) (C50.exact val (fun h => inQ num (f h))) L L' := by
  obtain ⟨P, T, A, ds, L, h1, h2, h3, h4, h5, h6⟩ := hBest_spec hmd hlt hq p
  have hc := hSol_leafCover hmd h3.sol
  refine ⟨P, L, h1, hc, by rw [h4, List.map_map]; exact List.map_id L, ?_, ?_⟩
  · rw [h5]
    refine quality_aux ar rm _ ?_ ?_
    · intro y hy
      obtain ⟨x, hx, rfl⟩ := List.mem_map.mp hy
      exact hf x (hc.1 x hx)
    · have := (leafCover_cuts hmd.tree hc).length_le
      rw [leavesUnder_root hmd.tree, Finset.card_range] at this
      simpa using this
  · intro L' hL'
    letI := liftFloat (F := F) num
    exact C50.hierarchical_aux (F := LiftP F) ar.laws.toRoundedLaws hmd (h_num ar hmd rm hp hf h2) h3 hL'

theorem hSub_aux (leaves : Nat) (parents : List Int) (h : Nat) : leavesUnder leaves parents h ⊆ Finset.range leaves := by
  intro l hl; exact Finset.mem_range.mpr (mem_leavesUnder.mp hl).1

theorem hCell_aux (ar : RangeArith fin num val u w b g E Q) {a c e m leaves : Nat} {D : ℝ} (ft : Fits u E Q a b g c e m leaves D)
    (parents : List Int) (v : HValues K') (hmd : RightMeta leaves parents v.md) (hlt : leaves < parents.length) (hb : leaves < 2147483648)
    (V : Nat → Nat → K') (hv : HData v m leaves V) (hd : ∀ k i, k < m → i < leaves → Datum fin num val a D (V k i)) :
    ∃ (q : List (Quality K')) (f : Nat → Quality K'),
      (HQualities.ofValues v).computeQualities = .ok ⟨some v, some q, v.md⟩ ∧ VRep q parents.length f ∧
      ∀ h, h < parents.length → Held fin num val (a + g + 3 + b) (2 ^ e) (f h).gain ∧ Held fin num val (a + g + 3 + b) (2 ^ e) (f h).loss ∧
        Accurate (real num val) u w m V (leavesUnder leaves parents h) (f h) ∧
        QClose val (factor u w (3 * leaves + m + 1)) m (numbers (real num val) V) (leavesUnder leaves parents h) (inQ num (f h)) := by
  obtain ⟨q, f, e0, h1, h2, h3⟩ := hqCompute_sum hmd hv hlt
  refine ⟨q, f, ?_, h1, ?_⟩
  · unfold HQualities.computeQualities HQualities.ofValues
    simp only [e0, okBind, pureOk]
  · intro h hh
    have hc := Finset.card_le_card (hSub_aux leaves parents h)
    rw [Finset.card_range] at hc
    refine cell_aux ar ft (leaves_nonempty hmd.tree hh) hc hb
      (fun k hk x hx => hd k x hk (Finset.mem_range.mp (hSub_aux leaves parents h hx))) ?_
    by_cases hl : h < leaves
    · left
      exact ⟨by rw [leavesUnder_leaf hmd.tree hl]; rfl, h2 h hl⟩
    · right
      exact h3 h hl hh

/-- Hierarchies. -/
theorem hierarchical (ar : RangeArith fin num val u w b g E Q) {a c e m leaves : Nat} {D : ℝ} (ft : Fits u E Q a b g c e m leaves D)
    (parents : List Int) (v : HValues K') (hmd : RightMeta leaves parents v.md) (hlt : leaves < parents.length) (hb : leaves < 2147483648)
    (V : Nat → Nat → K') (hv : HData v m leaves V) (hd : ∀ k i, k < m → i < leaves → Datum fin num val a D (V k i)) :
    ∃ (q : List (Quality K')) (f : Nat → Quality K'),
      (HQualities.ofValues v).computeQualities = .ok ⟨some v, some q, v.md⟩ ∧
      (∀ h, h < parents.length → q[h]? = some (f h) ∧ Finite fin (f h) ∧
        Accurate (real num val) u w m V (leavesUnder leaves parents h) (f h)) ∧
      ∀ p : F, Weights fin num val c p →
        ∃ (P : HPartition F K') (L : List Nat), hBestPartition q v.md p = .ok P ∧ LeafCover leaves parents L ∧
          P.parts.map (fun x => x.h) = L ∧ Finite fin P.quality ∧
          ∀ L', LeafCover leaves parents L' →
            NearBest ((1 + w) ^ 3 * (1 + u) ^ (4 * leaves + m + 2) - 1) (real num val (FloatP.toK p))
              (real num val (FloatP.toK (FloatP.oneSub p))) m (numbers (real num val) V) (leavesUnder leaves parents) L L' := by
  obtain ⟨q, f, e0, h1, cell⟩ := hCell_aux ar ft parents v hmd hlt hb V hv hd
  refine ⟨q, f, e0, fun h hh => ⟨h1.2 h hh, ⟨(cell h hh).1.fin, (cell h hh).2.1.fin⟩, (cell h hh).2.2.1⟩, ?_⟩
  intro p hp
  obtain ⟨P, L, g1, g2, g3, g4, g5⟩ := hPart_aux ar hmd hlt (room_aux ft) h1 (fun h hh => ⟨(cell h hh).1, (cell h hh).2.1⟩) p hp
  refine ⟨P, L, g1, g2, g3, g4, fun L' hL' => ?_⟩
  have := near_aux ar.laws.unit_nonneg (fun x hx => (cell x (g2.1 x hx)).2.2.2) (fun x hx => (cell x (hL'.1 x hx)).2.2.2) (g5 L' hL')
  rwa [show 3 * leaves + m + 1 + (leaves + 1) = 4 * leaves + m + 2 by omega] at this

theorem dPart_aux (ar : RangeArith fin num val u w b g E Q) {leaves : Nat} {parents : List Int} {md : HMeta} (hmd : RightMeta leaves parents md)
    {n : Nat} (h0 : 0 < n) (hn : n ≤ 65535) {A c : Nat} {M : ℝ} (rm : Room u b E A c (leaves * n) M)
    {q : List (UTM (Quality K'))} {f : Nat → Nat → Nat → Quality K'} (hq : MRep q parents.length n f)
    (hf : ∀ h i j, h < parents.length → i ≤ j → j < n → Held fin num val A M (f h i j).gain ∧ Held fin num val A M (f h i j).loss)
    (p : F) (hp : Weights fin num val c p) :
    ∃ (P : DPartition F K') (L : List Rect), dBestPartition q md p = .ok P ∧ CellCover leaves parents n L ∧ CoarseFirst parents L ∧
      P.parts.map (fun x => (⟨x.h, x.start, x.end⟩ : Rect)) = L ∧ Finite fin P.quality ∧
      ∀ L', CellCover leaves parents n L' → CoarseFirst parents L' →
        C50.Within ((1 + u) ^ (leaves + n) - 1) (real num val (FloatP.toK p))
          (real num val (FloatP.toK (FloatP.oneSub p))) (C50.exact val (fun r : Rect => inQ num (f r.node r.first r.last))) L L' := by
  obtain ⟨P, T, C, ds, L, h1, h2, h3, h4, h5, h6⟩ := dBest_spec hmd hq h0 hn p
  have hc := dSol_cellCover hmd h0 h3.sol
  refine ⟨P, L, h1, hc, dSol_coarse hmd h0 h3.sol, by rw [h4, List.map_map]; exact List.map_id L, ?_, ?_⟩
  · rw [h5]
    refine quality_aux ar rm _ ?_ ?_
    · intro y hy
      obtain ⟨r, hr, rfl⟩ := List.mem_map.mp hy
      exact hf _ _ _ (hc.1 r hr).1 (hc.1 r hr).2.1 (hc.1 r hr).2.2
    · have := (cellCover_cuts hmd.tree hc h0).length_le
      unfold dCells at this
      rw [Finset.card_product, leavesUnder_root hmd.tree, Finset.card_range, Nat.card_Icc,
        show n - 1 + 1 - 0 = n by omega] at this
      simpa using this
  · intro L' hL' hf'
    letI := liftFloat (F := F) num
    exact C50.spatiotemporal_aux (F := LiftP F) ar.laws.toRoundedLaws hmd h0 (d_num ar hmd rm hp hf h2) h3 hL' hf'

theorem dCell_aux (ar : RangeArith fin num val u w b g E Q) {a c e m leaves n : Nat} {D : ℝ} (ft : Fits u E Q a b g c e m (leaves * n) D)
    (parents : List Int) (v : DValues K') (hmd : RightMeta leaves parents v.md) (hlt : leaves < parents.length) (hn : n ≤ 65535)
    (hb : leaves * n < 2147483648) (V : Nat → Nat × Nat → K') (hv : DData v m leaves n V)
    (hd : ∀ k i t, k < m → i < leaves → t < n → Datum fin num val a D (V k (i, t))) :
    ∃ (q : List (UTM (Quality K'))) (f : Nat → Nat → Nat → Quality K'),
      (DQualities.ofValues v).computeQualities = .ok ⟨some v, some q, v.md⟩ ∧ MRep q parents.length n f ∧
      ∀ h i j, h < parents.length → i ≤ j → j < n → Held fin num val (a + g + 3 + b) (2 ^ e) (f h i j).gain ∧
        Held fin num val (a + g + 3 + b) (2 ^ e) (f h i j).loss ∧
        Accurate (real num val) u w m V (leavesUnder leaves parents h ×ˢ Finset.Icc i j) (f h i j) ∧
        QClose val (factor u w (3 * (leaves * n) + m + 1)) m (numbers (real num val) V) (leavesUnder leaves parents h ×ˢ Finset.Icc i j)
          (inQ num (f h i j)) := by
  obtain ⟨q, f, e0, h1, h2⟩ := dqCompute_sum hmd hlt hv hn hb
  refine ⟨q, f, ?_, h1, ?_⟩
  · unfold DQualities.computeQualities DQualities.ofValues
    simp only [e0, okBind, pureOk]
  · intro h i j hh hij hj
    have hc : (leavesUnder leaves parents h ×ˢ Finset.Icc i j).card ≤ leaves * n := by
      rw [Finset.card_product, Nat.card_Icc]
      have hc := Finset.card_le_card (hSub_aux leaves parents h)
      rw [Finset.card_range] at hc
      exact Nat.mul_le_mul hc (by omega)
    refine cell_aux ar ft ((leaves_nonempty hmd.tree hh).product ⟨i, by simp [hij]⟩) hc hb ?_ ?_
    · rintro k hk ⟨x, t⟩ hx
      rw [Finset.mem_product, Finset.mem_Icc] at hx
      exact hd k x t hk (Finset.mem_range.mp (hSub_aux leaves parents h hx.1)) (lt_of_le_of_lt hx.2.2 hj)
    · have := h2 h i j hh hij hj
      unfold DMeas at this
      split at this
      · rename_i hc
        left
        refine ⟨?_, this⟩
        rw [leavesUnder_leaf hmd.tree hc.1, hc.2]
        simp
      · right
        exact this

/-- Hierarchy × time, against the coarse-first partitions (see C21). -/
theorem spatiotemporal (ar : RangeArith fin num val u w b g E Q) {a c e m leaves n : Nat} {D : ℝ} (ft : Fits u E Q a b g c e m (leaves * n) D)
    (parents : List Int) (v : DValues K') (hmd : RightMeta leaves parents v.md) (hlt : leaves < parents.length) (h0 : 0 < n) (hn : n ≤ 65535)
    (hb : leaves * n < 2147483648) (V : Nat → Nat × Nat → K') (hv : DData v m leaves n V)
    (hd : ∀ k i t, k < m → i < leaves → t < n → Datum fin num val a D (V k (i, t))) :
    ∃ (q : List (UTM (Quality K'))) (f : Nat → Nat → Nat → Quality K'),
      (DQualities.ofValues v).computeQualities = .ok ⟨some v, some q, v.md⟩ ∧
      (∀ h i j, h < parents.length → i ≤ j → j < n → mget q h i j = .ok (f h i j) ∧ Finite fin (f h i j) ∧
        Accurate (real num val) u w m V (leavesUnder leaves parents h ×ˢ Finset.Icc i j) (f h i j)) ∧
      ∀ p : F, Weights fin num val c p →
        ∃ (P : DPartition F K') (L : List Rect), dBestPartition q v.md p = .ok P ∧ CellCover leaves parents n L ∧
          CoarseFirst parents L ∧ P.parts.map (fun x => (⟨x.h, x.start, x.end⟩ : Rect)) = L ∧ Finite fin P.quality ∧
          ∀ L', CellCover leaves parents n L' → CoarseFirst parents L' →
            NearBest ((1 + w) ^ 3 * (1 + u) ^ (3 * (leaves * n) + m + 1 + leaves + n) - 1) (real num val (FloatP.toK p))
              (real num val (FloatP.toK (FloatP.oneSub p))) m (numbers (real num val) V)
              (fun r : Rect => leavesUnder leaves parents r.node ×ˢ Finset.Icc r.first r.last) L L' := by
  obtain ⟨q, f, e0, h1, cell⟩ := dCell_aux ar ft parents v hmd hlt hn hb V hv hd
  refine ⟨q, f, e0, fun h i j hh hij hj => ⟨h1.get hh hij hj, ⟨(cell h i j hh hij hj).1.fin, (cell h i j hh hij hj).2.1.fin⟩,
    (cell h i j hh hij hj).2.2.1⟩, ?_⟩
  intro p hp
  obtain ⟨P, L, g1, g2, gc, g3, g4, g5⟩ := dPart_aux ar hmd h0 hn (room_aux ft) h1
    (fun h i j hh hij hj => ⟨(cell h i j hh hij hj).1, (cell h i j hh hij hj).2.1⟩) p hp
  refine ⟨P, L, g1, g2, gc, g3, g4, fun L' hL' hf => ?_⟩
  have := near_aux ar.laws.unit_nonneg (pos := fun r : Rect => leavesUnder leaves parents r.node ×ˢ Finset.Icc r.first r.last)
    (fun r hr => (cell r.node r.first r.last (g2.1 r hr).1 (g2.1 r hr).2.1 (g2.1 r hr).2.2).2.2.2)
    (fun r hr => (cell r.node r.first r.last (hL'.1 r hr).1 (hL'.1 r hr).2.1 (hL'.1 r hr).2.2).2.2.2) (g5 L' hL' hf)
  rwa [show 3 * (leaves * n) + m + 1 + (leaves + n) = 3 * (leaves * n) + m + 1 + leaves + n by omega] at this

/-! ## After `normalize()` -/

theorem div_aux (ar : RangeArith fin num val u w b g E Q) {A e : Nat} {x R : Quality K'} (hE : A + e + 1 ≤ E)
    (hx : Held fin num val A (2 ^ e) x.gain ∧ Held fin num val A (2 ^ e) x.loss)
    (hR : Held fin num val A (2 ^ e) R.gain ∧ Held fin num val A (2 ^ e) R.loss) (hg : real num val R.gain ≠ 0)
    (hl : real num val R.loss ≠ 0) :
    inQ num (x.div R) = (inQ num x).div (inQ num R) ∧ Held fin num val (A + e + 1 + b) (2 ^ (A + e + 1)) (x.div R).gain ∧
      Held fin num val (A + e + 1 + b) (2 ^ (A + e + 1)) (x.div R).loss := by
  obtain ⟨a1, a2⟩ := div_num ar hx.1 hR.1 hg (le_refl _) (le_refl _) hE
  obtain ⟨b1, b2⟩ := div_num ar hx.2 hR.2 hl (le_refl _) (le_refl _) hE
  refine ⟨?_, a2, b2⟩
  change (⟨num (x.gain / R.gain), num (x.loss / R.loss)⟩ : Quality K) = ⟨num x.gain / num R.gain, num x.loss / num R.loss⟩
  rw [a1, b1]

/-- Ordered data. -/
theorem orderedNormalized (ar : RangeArith fin num val u w b g E Q) {a c e m n : Nat} {D : ℝ} (ft : FitsNormalized u E Q a b g c e m n D)
    (v : OValues K') (V : Nat → Nat → K') (hv : OData v m n V) (h0 : 0 < n) (hn : n ≤ 65535)
    (hd : ∀ k i, k < m → i < n → Datum fin num val a D (V k i)) :
    ∃ (R : Quality K') (q' : UTM (Quality K')),
      ((OQualities.ofValues v).computeQualities >>= OQualities.normalize) = .ok ⟨some v, some q'⟩ ∧
      Finite fin R ∧ Accurate (real num val) u w m V (Finset.Icc 0 (n - 1)) R ∧
      (real num val R.gain ≠ 0 → real num val R.loss ≠ 0 →
        (∀ i j, i ≤ j → j < n → ∃ x, q'.get i j = .ok x ∧ Finite fin x) ∧
        ∀ p : F, Weights fin num val c p →
          ∃ (P : OPartition F K') (L : List (Nat × Nat)), oBestPartition q' p = .ok P ∧ Tiles 0 n L ∧
            P.parts.map (fun x => (x.start, x.end)) = L.map (fun I => ((I.1 : Int), (I.2 : Int))) ∧ Finite fin P.quality ∧
            ∀ L', Tiles 0 n L' →
              NearBest ((1 + w) ^ 3 * (1 + u) ^ (4 * n + m + 3) - 1) (real num val (FloatP.toK p) / real num val R.gain)
                (real num val (FloatP.toK (FloatP.oneSub p)) / real num val R.loss) m (numbers (real num val) V)
                (fun I => Finset.Icc I.1 I.2) L L') := by
  obtain ⟨q, f, e0, h1, h2, h3⟩ := oqCompute_sum hv hn
  have cell : ∀ i j, i ≤ j → j < n → _ := fun i j hij hj =>
    cell_aux ar ft.toFits (V := V) (s := Finset.Icc i j) (q := f i j) ⟨i, by simp [hij]⟩ (by rw [Nat.card_Icc]; omega) (by omega)
      (fun k hk x hx => hd k x hk (by rw [Finset.mem_Icc] at hx; omega)) (by
        rcases Nat.lt_or_eq_of_le hij with hlt | rfl
        · right
          rw [← card_Icc i j hij]
          exact h3 i j hlt hj
        · left
          exact ⟨by rw [Nat.card_Icc]; omega, h2 i hj⟩)
  have e1 : (OQualities.ofValues v).computeQualities = .ok ⟨some v, some q⟩ := by
    unfold OQualities.computeQualities OQualities.ofValues
    simp only [e0, okBind, pureOk]
  obtain ⟨q', e', h1'⟩ := oqNormalize_spec h1 h0
  have c0 := cell 0 (n - 1) (Nat.zero_le _) (by omega)
  refine ⟨f 0 (n - 1), q', ?_, ⟨c0.1.fin, c0.2.1.fin⟩, c0.2.2.1, ?_⟩
  · rw [e1]
    exact oNormalize_object hv.osize h0 e'
  · intro hg hl
    have hdiv : ∀ i j, i ≤ j → j < n → _ := fun i j hij hj =>
      div_aux ar (by have := ft.lowN; omega) ⟨(cell i j hij hj).1, (cell i j hij hj).2.1⟩ ⟨c0.1, c0.2.1⟩ hg hl
    refine ⟨fun i j hij hj => ⟨_, h1'.get hij hj, (hdiv i j hij hj).2.1.fin, (hdiv i j hij hj).2.2.fin⟩, ?_⟩
    intro p hp
    obtain ⟨P, L, g1, g2, g3, g4, g5⟩ := oPart_aux ar (roomN_aux ft) h1'
      (fun i j hij hj => ⟨(hdiv i j hij hj).2.1, (hdiv i j hij hj).2.2⟩) p hp
    refine ⟨P, L, g1, g2, g3, g4, fun L' hL' => ?_⟩
    have hk : ∀ {M : List (Nat × Nat)}, Tiles 0 n M → ∀ I ∈ M,
        QClose val (factor u w (3 * n + m + 1)) m (numbers (real num val) V) (Finset.Icc I.1 I.2) (inQ num (f I.1 I.2)) := by
      intro M hM I hI
      obtain ⟨_, b2, b3⟩ := hM.bounds I hI
      exact (cell I.1 I.2 b2 b3).2.2.2
    have hk2 : ∀ {M : List (Nat × Nat)}, Tiles 0 n M → ∀ I ∈ M,
        inQ num ((f I.1 I.2).div (f 0 (n - 1))) = (inQ num (f I.1 I.2)).div (inQ num (f 0 (n - 1))) := by
      intro M hM I hI
      obtain ⟨_, b2, b3⟩ := hM.bounds I hI
      exact (hdiv I.1 I.2 b2 b3).1
    have := norm_aux (R := inQ num (f 0 (n - 1))) ar.laws hg hl (hk g2) (hk hL') (hk2 g2) (hk2 hL') (g5 L' hL')
    rwa [show 3 * n + m + 1 + 1 + (n + 1) = 4 * n + m + 3 by omega] at this

/-- Hierarchies whose root has the highest number (see C12). -/
theorem hierarchicalNormalized (ar : RangeArith fin num val u w b g E Q) {a c e m leaves : Nat} {D : ℝ}
    (ft : FitsNormalized u E Q a b g c e m leaves D) (parents : List Int) (v : HValues K') (hmd : RightMeta leaves parents v.md)
    (hlt : leaves < parents.length) (hroot : v.md.root = parents.length - 1) (hb : leaves < 2147483648)
    (V : Nat → Nat → K') (hv : HData v m leaves V) (hd : ∀ k i, k < m → i < leaves → Datum fin num val a D (V k i)) :
    ∃ (R : Quality K') (q' : List (Quality K')),
      ((HQualities.ofValues v).computeQualities >>= HQualities.normalize) = .ok ⟨some v, some q', v.md⟩ ∧
      Finite fin R ∧ Accurate (real num val) u w m V (Finset.range leaves) R ∧
      (real num val R.gain ≠ 0 → real num val R.loss ≠ 0 →
        (∀ h, h < parents.length → ∃ x, q'[h]? = some x ∧ Finite fin x) ∧
        ∀ p : F, Weights fin num val c p →
          ∃ (P : HPartition F K') (L : List Nat), hBestPartition q' v.md p = .ok P ∧ LeafCover leaves parents L ∧
            P.parts.map (fun x => x.h) = L ∧ Finite fin P.quality ∧
            ∀ L', LeafCover leaves parents L' →
              NearBest ((1 + w) ^ 3 * (1 + u) ^ (4 * leaves + m + 3) - 1) (real num val (FloatP.toK p) / real num val R.gain)
                (real num val (FloatP.toK (FloatP.oneSub p)) / real num val R.loss) m (numbers (real num val) V)
                (leavesUnder leaves parents) L L') := by
  obtain ⟨q, f, e0, h1, cell⟩ := hCell_aux ar ft.toFits parents v hmd hlt hb V hv hd
  have hr := hmd.tree.rootLt
  obtain ⟨q', e', h1'⟩ := hqNormalize_spec h1 hr
  have hlate : ∀ h, h < parents.length → (f h).div (nDiv (v.md.root < h) (f v.md.root)) = (f h).div (f v.md.root) := by
    intro h hh
    unfold nDiv
    rw [if_neg (by omega)]
  have c0 := cell _ hr
  refine ⟨f v.md.root, q', ?_, ⟨c0.1.fin, c0.2.1.fin⟩, ?_, ?_⟩
  · rw [e0]
    exact hNormalize_object e'
  · rw [← leavesUnder_root hmd.tree]
    exact c0.2.2.1
  · intro hg hl
    have hdiv : ∀ h, h < parents.length → _ := fun h hh =>
      div_aux ar (by have := ft.lowN; omega) ⟨(cell h hh).1, (cell h hh).2.1⟩ ⟨c0.1, c0.2.1⟩ hg hl
    refine ⟨fun h hh => ⟨_, h1'.2 h hh, by rw [hlate h hh]; exact ⟨(hdiv h hh).2.1.fin, (hdiv h hh).2.2.fin⟩⟩, ?_⟩
    intro p hp
    obtain ⟨P, L, g1, g2, g3, g4, g5⟩ := hPart_aux ar hmd hlt (roomN_aux ft) h1'
      (fun h hh => by rw [hlate h hh]; exact ⟨(hdiv h hh).2.1, (hdiv h hh).2.2⟩) p hp
    refine ⟨P, L, g1, g2, g3, g4, fun L' hL' => ?_⟩
    have := norm_aux (R := inQ num (f v.md.root)) ar.laws hg hl (fun x hx => (cell x (g2.1 x hx)).2.2.2) (fun x hx => (cell x (hL'.1 x hx)).2.2.2)
      (fun x hx => by rw [hlate x (g2.1 x hx)]; exact (hdiv x (g2.1 x hx)).1)
      (fun x hx => by rw [hlate x (hL'.1 x hx)]; exact (hdiv x (hL'.1 x hx)).1) (g5 L' hL')
    rwa [show 3 * leaves + m + 1 + 1 + (leaves + 1) = 4 * leaves + m + 3 by omega] at this

/-- Hierarchy × time, root with the highest number. -/
theorem spatiotemporalNormalized (ar : RangeArith fin num val u w b g E Q) {a c e m leaves n : Nat} {D : ℝ}
    (ft : FitsNormalized u E Q a b g c e m (leaves * n) D) (parents : List Int) (v : DValues K') (hmd : RightMeta leaves parents v.md)
    (hlt : leaves < parents.length) (hroot : v.md.root = parents.length - 1) (h0 : 0 < n) (hn : n ≤ 65535)
    (hb : leaves * n < 2147483648) (V : Nat → Nat × Nat → K') (hv : DData v m leaves n V)
    (hd : ∀ k i t, k < m → i < leaves → t < n → Datum fin num val a D (V k (i, t))) :
    ∃ (R : Quality K') (q' : List (UTM (Quality K'))),
      ((DQualities.ofValues v).computeQualities >>= DQualities.normalize) = .ok ⟨some v, some q', v.md⟩ ∧
      Finite fin R ∧ Accurate (real num val) u w m V (Finset.range leaves ×ˢ Finset.Icc 0 (n - 1)) R ∧
      (real num val R.gain ≠ 0 → real num val R.loss ≠ 0 →
        (∀ h i j, h < parents.length → i ≤ j → j < n → ∃ x, mget q' h i j = .ok x ∧ Finite fin x) ∧
        ∀ p : F, Weights fin num val c p →
          ∃ (P : DPartition F K') (L : List Rect), dBestPartition q' v.md p = .ok P ∧ CellCover leaves parents n L ∧
            CoarseFirst parents L ∧ P.parts.map (fun x => (⟨x.h, x.start, x.end⟩ : Rect)) = L ∧ Finite fin P.quality ∧
            ∀ L', CellCover leaves parents n L' → CoarseFirst parents L' →
              NearBest ((1 + w) ^ 3 * (1 + u) ^ (3 * (leaves * n) + m + 2 + leaves + n) - 1)
                (real num val (FloatP.toK p) / real num val R.gain)
                (real num val (FloatP.toK (FloatP.oneSub p)) / real num val R.loss) m (numbers (real num val) V)
                (fun r : Rect => leavesUnder leaves parents r.node ×ˢ Finset.Icc r.first r.last) L L') := by
  obtain ⟨q, f, e0, h1, cell⟩ := dCell_aux ar ft.toFits parents v hmd hlt hn hb V hv hd
  have hr := hmd.tree.rootLt
  obtain ⟨q', e', h1'⟩ := dqNormalize_spec h1 hr hmd.hsize h0 hn
  have hlate : ∀ h i j, h < parents.length →
      (f h i j).div (nDiv (v.md.root < h) (f v.md.root 0 (n - 1))) = (f h i j).div (f v.md.root 0 (n - 1)) := by
    intro h i j hh
    unfold nDiv
    rw [if_neg (by omega)]
  have c0 := cell _ 0 (n - 1) hr (Nat.zero_le _) (by omega)
  refine ⟨f v.md.root 0 (n - 1), q', ?_, ⟨c0.1.fin, c0.2.1.fin⟩, ?_, ?_⟩
  · rw [e0]
    exact dNormalize_object hv.osize h0 e'
  · rw [← leavesUnder_root hmd.tree]
    exact c0.2.2.1
  · intro hg hl
    have hdiv : ∀ h i j, h < parents.length → i ≤ j → j < n → _ := fun h i j hh hij hj =>
      div_aux ar (by have := ft.lowN; omega) ⟨(cell h i j hh hij hj).1, (cell h i j hh hij hj).2.1⟩ ⟨c0.1, c0.2.1⟩ hg hl
    refine ⟨fun h i j hh hij hj => ⟨_, h1'.get hh hij hj, by
      rw [hlate h i j hh]; exact ⟨(hdiv h i j hh hij hj).2.1.fin, (hdiv h i j hh hij hj).2.2.fin⟩⟩, ?_⟩
    intro p hp
    obtain ⟨P, L, g1, g2, gc, g3, g4, g5⟩ := dPart_aux ar hmd h0 hn (roomN_aux ft) h1'
      (fun h i j hh hij hj => by rw [hlate h i j hh]; exact ⟨(hdiv h i j hh hij hj).2.1, (hdiv h i j hh hij hj).2.2⟩) p hp
    refine ⟨P, L, g1, g2, gc, g3, g4, fun L' hL' hf => ?_⟩
    have dv : ∀ {M : List Rect}, CellCover leaves parents n M → ∀ r ∈ M,
        inQ num ((f r.node r.first r.last).div (nDiv (v.md.root < r.node) (f v.md.root 0 (n - 1)))) =
          (inQ num (f r.node r.first r.last)).div (inQ num (f v.md.root 0 (n - 1))) := by
      intro M hM r hr
      rw [hlate _ _ _ (hM.1 r hr).1]
      exact (hdiv r.node r.first r.last (hM.1 r hr).1 (hM.1 r hr).2.1 (hM.1 r hr).2.2).1
    have := norm_aux (R := inQ num (f v.md.root 0 (n - 1))) ar.laws hg hl (pos := fun r : Rect => leavesUnder leaves parents r.node ×ˢ Finset.Icc r.first r.last)
      (q := fun r : Rect => inQ num (f r.node r.first r.last))
      (fun r hr => (cell r.node r.first r.last (g2.1 r hr).1 (g2.1 r hr).2.1 (g2.1 r hr).2.2).2.2.2)
      (fun r hr => (cell r.node r.first r.last (hL'.1 r hr).1 (hL'.1 r hr).2.1 (hL'.1 r hr).2.2).2.2.2)
      (dv g2) (dv hL') (g5 L' hL' hf)
    rwa [show 3 * (leaves * n) + m + 1 + 1 + (leaves + n) = 3 * (leaves * n) + m + 2 + leaves + n by omega] at this

/-! ## The numbers of a PC -/

/-- `long double`: 64-bit significands, results between `2^-16382` and `2^16382`; logarithms of and in `double`, of numbers between `2^-1022`
and `2^1022`.  What becomes of any other result is given by `lost`. -/
abbrev Long (lost : PcLong → Special PcLong) : Type := Limited PcLong RoundedLog.val 16382 1022 lost

/-- The same where `long double` is `double`. -/
abbrev Double (lost : RoundedLog (truncationIn ℝ 52) (truncationIn ℝ 52) → Special (RoundedLog (truncationIn ℝ 52) (truncationIn ℝ 52))) :
    Type := Limited (RoundedLog (truncationIn ℝ 52) (truncationIn ℝ 52)) RoundedLog.val 1022 1022 lost

theorem arith_aux (d E Q : Nat) (hd : 1 ≤ d) (hw : logAccuracy (truncationIn ℝ d) (truncationIn ℝ 52) ≤ 1 / 2) (hu : (truncationIn ℝ d).u ≤ 1 / 2)
    (lost : RoundedLog (truncationIn ℝ d) (truncationIn ℝ 52) → Special (RoundedLog (truncationIn ℝ d) (truncationIn ℝ 52))) :
    RangeArith (K' := Limited (RoundedLog (truncationIn ℝ d) (truncationIn ℝ 52)) RoundedLog.val E Q lost) Limited.fin Limited.num RoundedLog.val
      (1 / 2 ^ d) (logAccuracy (truncationIn ℝ d) (truncationIn ℝ 52)) d 55 E Q :=
  have l : LogLaws (K := RoundedLog (truncationIn ℝ d) (truncationIn ℝ 52)) RoundedLog.val (truncationIn ℝ d).u
    (logAccuracy (truncationIn ℝ d) (truncationIn ℝ 52)) := roundedLog_laws _ _ (by norm_num [truncationIn])
  ⟨l, fine_laws d 52 hd (by omega), limited_laws l.lt_iff l.zero E Q lost, hu, hw⟩

/-- The arithmetic of the x87. -/
theorem long (lost : PcLong → Special PcLong) :
    RangeArith (K' := Long lost) Limited.fin Limited.num RoundedLog.val (1 / 2 ^ 63) (logAccuracy (truncationIn ℝ 63) (truncationIn ℝ 52))
      63 55 16382 1022 :=
  arith_aux 63 16382 1022 (by omega) (le_trans x87_accuracy (by norm_num)) (by norm_num [truncationIn]) lost

/-- The arithmetic where `long double` is `double`. -/
theorem double (lost) :
    RangeArith (K' := Double lost) Limited.fin Limited.num RoundedLog.val (1 / 2 ^ 52) (logAccuracy (truncationIn ℝ 52) (truncationIn ℝ 52))
      52 55 1022 1022 :=
  arith_aux 52 1022 1022 (by omega) (by norm_num [logAccuracy, truncationIn]) (by norm_num [truncationIn]) lost

theorem pow_aux {d k : Nat} (hd : 52 ≤ d) (hk : k ≤ 2147483647) : ((1 : ℝ) + 1 / 2 ^ d) ^ k ≤ 3 / 2 := by
  have h0 : (1 : ℝ) / 2 ^ d ≤ 1 / 2 ^ 52 := pow_inv_le hd
  have hk' : (k : ℝ) ≤ 2147483647 := by exact_mod_cast hk
  have h1 : (k : ℝ) * (1 / 2 ^ d) ≤ 2147483647 * (1 / 2 ^ 52) :=
    mul_le_mul hk' h0 (by positivity) (by norm_num)
  have h2 := C50.factor (1 / 2 ^ d : ℝ) k (by positivity) (le_trans h1 (by norm_num))
  have h3 : (2147483647 : ℝ) * (1 / 2 ^ 52) ≤ 1 / 4 := by norm_num
  linarith

theorem nat_aux {k : Nat} (h : k ≤ 2147483647) : (k : ℝ) ≤ 2 ^ 31 := by
  have : (k : ℝ) ≤ 2147483647 := by exact_mod_cast h
  norm_num
  linarith

theorem fits_aux {d E Q a c e m N t : Nat} (hd : 52 ≤ d) (hm : m ≤ 2147483647) (hN : N ≤ 2147483647) (hE : E ≤ 16382)
    (q1 : a ≤ Q) (q2 : 32 + t ≤ Q) (he : 90 + t ≤ e) (h1 : 37 + (a + 55 + 3 + d + e + 1) ≤ E)
    (h2 : c + (a + 55 + 3 + d + e + 1 + d) + 1 + d ≤ E) :
    FitsNormalized (1 / 2 ^ d) E Q a d 55 c e m N (2 ^ t) := by
  have m1 := nat_aux hm
  have n1 := nat_aux hN
  have m0 : (0 : ℝ) ≤ m := Nat.cast_nonneg m
  have n0 : (0 : ℝ) ≤ N := Nat.cast_nonneg N
  have hE1 : (E : ℝ) + 2 ≤ 2 ^ 15 := by
    have : (E : ℝ) ≤ 16382 := by exact_mod_cast hE
    norm_num
    linarith
  have up : ∀ k l : Nat, k ≤ l → (2 : ℝ) ^ k ≤ 2 ^ l := fun k l h => pow_le_pow_right₀ (by norm_num) h
  have top : ∀ k : Nat, 24 * (N * (2 : ℝ) ^ k) ≤ 2 ^ (37 + k) := by
    intro k
    rw [pow_add]
    have : (0 : ℝ) < 2 ^ k := by positivity
    have h : 24 * (N : ℝ) ≤ 2 ^ 37 := by linarith
    nlinarith
  refine ⟨⟨pow_aux hd hN, pow_aux hd hm, q1, ?_, ?_, le_trans (top e) (up _ _ (by omega)), by omega⟩, le_trans (top _) (up _ _ h1), h2⟩
  · refine le_trans ?_ (up _ _ q2)
    rw [pow_add]
    have : (0 : ℝ) < 2 ^ t := by positivity
    have h : 2 * (N : ℝ) ≤ 2 ^ 32 := by linarith
    nlinarith
  · refine le_trans ?_ (up _ _ he)
    have e90 : (2 : ℝ) ^ (90 + t) = 2 ^ 13 * (2 ^ 31 * (2 ^ 15 * 2 ^ 31 * 2 ^ t)) := by ring
    rw [e90]
    refine mul_le_mul_of_nonneg_left ?_ (by positivity)
    refine mul_le_mul m1 ?_ (by positivity) (by positivity)
    exact mul_le_mul_of_nonneg_right (mul_le_mul hE1 n1 n0 (by positivity)) (by positivity)

/-- On a PC there is room for all data that are multiples of `2^-1022` and at most `2^990`, for all parameters of type `float`, and all sizes
that are numbers of type `int`.  Every `double` that is 0 or at least `2^-970` is such a multiple. -/
theorem roomLong {m N : Nat} (hm : m ≤ 2147483647) (hN : N ≤ 2147483647) :
    FitsNormalized (1 / 2 ^ 63) 16382 1022 1022 63 55 149 1080 m N (2 ^ 990) :=
  fits_aux (by omega) hm hN (by omega) (by omega) (by omega) (by omega) (by omega) (by omega)

/-- Where `long double` is `double`: data that are multiples of `2^-52` and at most `2^100`. -/
theorem roomDouble {m N : Nat} (hm : m ≤ 2147483647) (hN : N ≤ 2147483647) :
    FitsNormalized (1 / 2 ^ 52) 1022 1022 52 52 55 149 190 m N (2 ^ 100) :=
  fits_aux (by omega) hm hN (by omega) (by omega) (by omega) (by omega) (by omega) (by omega)

/-- A rational number as a `long double`. -/
noncomputable def longOf (lost : PcLong → Special PcLong) (x : ℚ) : Long lost := (Special.num (pcLong x) : Special PcLong)

/-- All parameters of type `float` from 0 to 1, with any rounding. -/
theorem weights (lost : PcLong → Special PcLong) (R : Rounding) (p : With (B32 R) (longOf lost))
    (h0 : 0 ≤ Subtype.val (show B32 R from p)) (h1 : Subtype.val (show B32 R from p) ≤ 1) :
    Weights (K' := Long lost) Limited.fin Limited.num RoundedLog.val 149 p := by
  have key : ∀ x : ℚ, IsB32 x → 0 ≤ x → x ≤ 1 → Held (K' := Long lost) Limited.fin Limited.num RoundedLog.val 149 2 (longOf lost x) := by
    intro x hb x0 x1
    have a0 := (truncationIn ℝ 63).mono 0 (x : ℝ) (by exact_mod_cast x0)
    have a1 := (truncationIn ℝ 63).mono (x : ℝ) 1 (by exact_mod_cast x1)
    rw [(truncationIn ℝ 63).zero] at a0
    rw [(truncationIn ℝ 63).one] at a1
    refine ⟨⟨_, rfl⟩, ?_, ?_⟩
    · obtain ⟨z, hz⟩ := isB32_int hb
      refine truncBits_grid 63 ⟨z, ?_⟩
      rw [eq_div_iff (by positivity)]
      exact_mod_cast hz
    · show |(truncationIn ℝ 63).rnd (x : ℝ)| ≤ 2
      rw [abs_of_nonneg a0]
      linarith
  have r0 : R.rnd 0 = 0 := R.fix 0 isB32_zero
  have r1 : R.rnd 1 = 1 := R.fix 1 isB32_one
  set y := Subtype.val (show B32 R from p) with hy
  have b0 := R.mono 0 (1 - y) (by linarith)
  have b1 := R.mono (1 - y) 1 (by linarith)
  rw [r0] at b0
  rw [r1] at b1
  exact ⟨key y (Subtype.property (show B32 R from p)) h0 h1, key _ (R.b32 (1 - y)) b0 b1⟩

/-! ## Examples: the values `i/3` of C58 on the bounded machine, whatever becomes of results out of range -/

/-- `i/3`, rounded to 64 bits. -/
noncomputable def exL (lost : PcLong → Special PcLong) : Nat → Long lost := fun i => (Special.num (exV i) : Special PcLong)

theorem exL_datum_aux (lost : PcLong → Special PcLong) (i : Nat) (hi : i < 10) :
    Datum Limited.fin Limited.num RoundedLog.val 1022 (2 ^ 990) (exL lost i) := by
  refine ⟨⟨_, rfl⟩, ?_, exV_aux i, ?_⟩
  · show Grid 1022 (exV i).val
    by_cases h0 : (exV i).val = 0
    · rw [h0]; exact Grid.zero _
    · have hi0 : i ≠ 0 := by
        rintro rfl
        refine h0 ?_
        show (truncationIn ℝ 63).rnd (((0 : Nat) : ℝ) / 3) = 0
        rw [Nat.cast_zero, zero_div]
        exact (truncationIn ℝ 63).zero
      have h1 : (1 : ℝ) ≤ i := by exact_mod_cast Nat.pos_of_ne_zero hi0
      have h3 : |(i : ℝ) / 3| / 2 ≤ |(exV i).val| :=
        err_lower (u := 1 / 2 ^ 63) (by norm_num) ((truncationIn ℝ 63).err ((i : ℝ) / 3))
      rw [abs_of_nonneg (show (0 : ℝ) ≤ (i : ℝ) / 3 by positivity)] at h3
      exact (truncBits_bits (b := 63) (e := 3) ((truncationIn ℝ 63).idem ((i : ℝ) / 3)) (le_trans (by norm_num; linarith) h3)).mono (by omega)
  · have h1 : (exV i).val ≤ (i : ℝ) / 3 := by
      show truncBits 63 ((i : ℝ) / 3) ≤ _
      unfold truncBits
      split
      · exact truncPos_le _ _
      · split
        · next h => exact absurd h (by have : (0 : ℝ) ≤ (i : ℝ) / 3 := by positivity
                                       linarith)
        · positivity
    have h2 : (i : ℝ) ≤ 10 := by exact_mod_cast hi.le
    have h3 : (2 : ℝ) ^ 4 ≤ 2 ^ 990 := pow_le_pow_right₀ (by norm_num) (by omega)
    have h4 : (i : ℝ) / 3 ≤ 2 ^ 4 := by norm_num; linarith
    exact le_trans h1 (le_trans h4 h3)

/-- Ten ordered values, every `float` parameter between 0 and 1, any rounding of `float`s. -/
example (lost : PcLong → Special PcLong) (R : Rounding) : ∃ (v : OValues (Long lost)) (q : UTM (Quality (Long lost)))
    (f : Nat → Nat → Quality (Long lost)), v = (OValuesN1.ofVec (table1 10 (exL lost))).toOValues ∧
    (OQualities.ofValues v).computeQualities = .ok ⟨some v, some q⟩ ∧
    (∀ i j, i ≤ j → j < 10 → q.get i j = .ok (f i j) ∧ Finite Limited.fin (f i j)) ∧
    ∀ p : With (B32 R) (longOf lost), 0 ≤ Subtype.val (show B32 R from p) → Subtype.val (show B32 R from p) ≤ 1 →
      ∃ (P : OPartition (With (B32 R) (longOf lost)) (Long lost)) (L : List (Nat × Nat)), oBestPartition q p = .ok P ∧ Tiles 0 10 L ∧
        Finite Limited.fin P.quality := by
  obtain ⟨q, f, h1, h2, h3⟩ := ordered (F := With (B32 R) (longOf lost)) (long lost) (roomLong (m := 1) (N := 10) (by omega) (by omega)).toFits _
    (fun _ => exL lost) (OValuesN1.ofVec_holds (O := 10) (exL lost)).data (by decide) (fun _ i _ hi => exL_datum_aux lost i hi)
  refine ⟨_, q, f, rfl, h1, fun i j hij hj => ⟨(h2 i j hij hj).1, (h2 i j hij hj).2.1⟩, fun p p0 p1 => ?_⟩
  obtain ⟨P, L, g1, g2, g3, g4, _⟩ := h3 p (weights lost R p p0 p1)
  exact ⟨P, L, g1, g2, g4⟩

/-- Four leaves of the hierarchy 4 [4,4,5,5,6,6,-1]. -/
example (lost : PcLong → Special PcLong) (R : Rounding) : ∃ (v : HValues (Long lost)) (q : List (Quality (Long lost)))
    (f : Nat → Quality (Long lost)),
    (HQualities.ofValues v).computeQualities = .ok ⟨some v, some q, v.md⟩ ∧
    (∀ h, h < 7 → q[h]? = some (f h) ∧ Finite Limited.fin (f h)) ∧
    ∀ p : With (B32 R) (longOf lost), 0 ≤ Subtype.val (show B32 R from p) → Subtype.val (show B32 R from p) ≤ 1 →
      ∃ (P : HPartition (With (B32 R) (longOf lost)) (Long lost)) (L : List Nat), hBestPartition q v.md p = .ok P ∧
        LeafCover 4 [4, 4, 5, 5, 6, 6, -1] L ∧ Finite Limited.fin P.quality := by
  obtain ⟨md, _, r⟩ := C57.meta_aux
  have h : (⟨1, md, table1 4 (exL lost)⟩ : HValuesN1 (Long lost)).Holds 4 md (exL lost) := ⟨rfl, rfl, rfl⟩
  obtain ⟨q, f, h1, h2, h3⟩ := hierarchical (F := With (B32 R) (longOf lost)) (long lost)
    (roomLong (m := 1) (N := 4) (by omega) (by omega)).toFits [4, 4, 5, 5, 6, 6, -1] _ r (by decide) (by omega) (fun _ => exL lost) h.data
    (fun _ i _ hi => exL_datum_aux lost i (by omega))
  refine ⟨_, q, f, h1, fun i hi => ⟨(h2 i hi).1, (h2 i hi).2.1⟩, fun p p0 p1 => ?_⟩
  obtain ⟨P, L, g1, g2, g3, g4, _⟩ := h3 p (weights lost R p p0 p1)
  exact ⟨P, L, g1, g2, g4⟩

/-- Four leaves, two slices of time. -/
example (lost : PcLong → Special PcLong) (R : Rounding) : ∃ (v : DValues (Long lost)) (q : List (UTM (Quality (Long lost))))
    (f : Nat → Nat → Nat → Quality (Long lost)),
    (DQualities.ofValues v).computeQualities = .ok ⟨some v, some q, v.md⟩ ∧
    (∀ h i j, h < 7 → i ≤ j → j < 2 → mget q h i j = .ok (f h i j) ∧ Finite Limited.fin (f h i j)) ∧
    ∀ p : With (B32 R) (longOf lost), 0 ≤ Subtype.val (show B32 R from p) → Subtype.val (show B32 R from p) ≤ 1 →
      ∃ (P : DPartition (With (B32 R) (longOf lost)) (Long lost)) (L : List Rect), dBestPartition q v.md p = .ok P ∧
        CellCover 4 [4, 4, 5, 5, 6, 6, -1] 2 L ∧ Finite Limited.fin P.quality := by
  obtain ⟨md, _, r⟩ := C57.meta_aux
  have h : (⟨1, 2, md, table2 4 2 (fun x => exL lost (2 * x.1 + x.2))⟩ : DValuesN2 (Long lost)).Holds 4 2 md
    (fun x => exL lost (2 * x.1 + x.2)) := ⟨rfl, rfl, rfl, rfl⟩
  obtain ⟨q, f, h1, h2, h3⟩ := spatiotemporal (F := With (B32 R) (longOf lost)) (long lost)
    (roomLong (m := 1) (N := 4 * 2) (by omega) (by omega)).toFits [4, 4, 5, 5, 6, 6, -1] _ r (by decide) (by omega) (by omega) (by omega)
    (fun _ x => exL lost (2 * x.1 + x.2)) h.data (fun _ i t _ hi ht => exL_datum_aux lost _ (by show 2 * i + t < 10; omega))
  refine ⟨_, q, f, h1, fun h i j hh hij hj => ⟨(h2 h i j hh hij hj).1, (h2 h i j hh hij hj).2.1⟩, fun p p0 p1 => ?_⟩
  obtain ⟨P, L, g1, g2, _, _, g4, _⟩ := h3 p (weights lost R p p0 p1)
  exact ⟨P, L, g1, g2, g4⟩

/-- The values 0, 1, 1 of C58: gain and loss of the whole are not 0, and the relative qualities are finite. -/
example (lost : PcLong → Special PcLong) (R : Rounding) : ∃ (v : OValues (Long lost)) (T : Quality (Long lost)) (q' : UTM (Quality (Long lost))),
    ((OQualities.ofValues v).computeQualities >>= OQualities.normalize) = .ok ⟨some v, some q'⟩ ∧
    real Limited.num RoundedLog.val T.gain ≠ 0 ∧ real Limited.num RoundedLog.val T.loss ≠ 0 ∧
    (∀ i j, i ≤ j → j < 3 → ∃ x, q'.get i j = .ok x ∧ Finite Limited.fin x) := by
  have hd : ∀ i : Nat, i < 3 → Datum Limited.fin Limited.num RoundedLog.val 1022 (2 ^ 990)
      (show Long lost from (Special.num (exW i) : Special PcLong)) := by
    intro i _
    have e : RoundedLog.val (Limited.num (show Long lost from (Special.num (exW i) : Special PcLong))) = if i = 0 then 0 else 1 := exW_aux i
    refine ⟨⟨_, rfl⟩, ?_, ?_, ?_⟩
    · rw [e]
      split
      · exact Grid.zero _
      · exact Grid.mono (a := 0) ⟨1, by norm_num⟩ (by omega)
    · rw [e]; split <;> norm_num
    · rw [e]
      have : (1 : ℝ) ≤ 2 ^ 990 := one_le_pow₀ (by norm_num)
      split
      · exact le_trans zero_le_one this
      · exact this
  obtain ⟨T, q', h1, h2, h3, h4⟩ := orderedNormalized (F := With (B32 R) (longOf lost)) (long lost) (roomLong (m := 1) (N := 3) (by omega) (by omega)) _
    (fun _ i => (show Long lost from (Special.num (exW i) : Special PcLong)))
    (OValuesN1.ofVec_holds (O := 3) (fun i => (show Long lost from (Special.num (exW i) : Special PcLong)))).data
    (by decide) (by decide) (fun _ i _ hi => hd i hi)
  obtain ⟨n1, n2⟩ := exW_nonzero_aux (inQ Limited.num T) h3
  exact ⟨_, T, q', h1, n1, n2, (h4 n1 n2).1⟩

end Lp.C84
