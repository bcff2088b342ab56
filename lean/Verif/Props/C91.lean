import Verif.Proofs.RSetup
import Verif.Proofs.DProducts
import Verif.Proofs.Extreme

/-!
# C91 — the best value as a function of the parameter, and why no reported partition loses more than it gains
-/

namespace Lp.C91
open Spec

section
variable {K P T : Type} [Field K] [LinearOrder K] [IsStrictOrderedRing K]

/-- What a quality is worth at the parameter `p`. -/
def worth (p : K) (q : Quality K) : K := p * q.gain - (1 - p) * q.loss

omit [IsStrictOrderedRing K] in
theorem worth_shift_aux (p p' : K) (q : Quality K) : worth p' q = worth p q + (p' - p) * (q.gain + q.loss) := by
  unfold worth; ring

/-- What the best partition is worth is a convex function of the parameter. -/
theorem convex (ops : PartOps K K P T) (ho : IsPartitioner ops) (p p' a : K) (a0 : 0 ≤ a) (a1 : a ≤ 1) (X X' Y : P)
    (hX : ops.best p = .ok X) (hX' : ops.best p' = .ok X') (hY : ops.best (a * p + (1 - a) * p') = .ok Y) :
    worth (a * p + (1 - a) * p') (ops.quality Y) ≤ a * worth p (ops.quality X) + (1 - a) * worth p' (ops.quality X') := by
  have h1 : worth p (ops.quality Y) ≤ worth p (ops.quality X) := (isPartitioner_curve ho).opt p _ X Y hX hY
  have h2 : worth p' (ops.quality Y) ≤ worth p' (ops.quality X') := (isPartitioner_curve ho).opt p' _ X' Y hX' hY
  have e : worth (a * p + (1 - a) * p') (ops.quality Y) = a * worth p (ops.quality Y) + (1 - a) * worth p' (ops.quality Y) := by
    unfold worth; ring
  rw [e]
  exact add_le_add (mul_le_mul_of_nonneg_left h1 a0) (mul_le_mul_of_nonneg_left h2 (by linarith))

/-- From one parameter to another the value changes at least by gain + loss of the first best partition times the difference of the parameters,
and at most by gain + loss of the second one times that difference. -/
theorem slope (ops : PartOps K K P T) (ho : IsPartitioner ops) (p p' : K) (X X' : P)
    (hX : ops.best p = .ok X) (hX' : ops.best p' = .ok X') :
    (p' - p) * ((ops.quality X).gain + (ops.quality X).loss) ≤ worth p' (ops.quality X') - worth p (ops.quality X) ∧
    worth p' (ops.quality X') - worth p (ops.quality X) ≤ (p' - p) * ((ops.quality X').gain + (ops.quality X').loss) := by
  have h1 : worth p (ops.quality X') ≤ worth p (ops.quality X) := (isPartitioner_curve ho).opt p _ X X' hX hX'
  have h2 : worth p' (ops.quality X) ≤ worth p' (ops.quality X') := (isPartitioner_curve ho).opt p' _ X' X hX' hX
  have e1 := worth_shift_aux p p' (ops.quality X)
  have e2 := worth_shift_aux p p' (ops.quality X')
  constructor <;> linarith

/-- Whoever takes the best partition for `p` although the parameter should have been `p'` loses at most the difference of the
parameters times the difference of gain + loss of the two partitions. -/
theorem detour (ops : PartOps K K P T) (ho : IsPartitioner ops) (p p' : K) (X X' : P)
    (hX : ops.best p = .ok X) (hX' : ops.best p' = .ok X') :
    0 ≤ worth p' (ops.quality X') - worth p' (ops.quality X) ∧
    worth p' (ops.quality X') - worth p' (ops.quality X) ≤
      (p' - p) * (((ops.quality X').gain + (ops.quality X').loss) - ((ops.quality X).gain + (ops.quality X).loss)) := by
  have h1 : worth p (ops.quality X') ≤ worth p (ops.quality X) := (isPartitioner_curve ho).opt p _ X X' hX hX'
  have h2 : worth p' (ops.quality X) ≤ worth p' (ops.quality X') := (isPartitioner_curve ho).opt p' _ X' X hX' hX
  have e1 := worth_shift_aux p p' (ops.quality X)
  have e2 := worth_shift_aux p p' (ops.quality X')
  constructor <;> linarith

end

/-! ## Relative qualities -/

/-- With the weights `p` for the gain and `w` for the loss, a relative quality is worth at least as much as losing and gaining nothing and as gaining and
losing everything, and at most `p`; and its loss does not exceed its gain. -/
structure Pays (p w : ℝ) (q : Quality ℝ) : Prop where
  nothing : 0 ≤ p * q.gain - w * q.loss
  everything : p - w ≤ p * q.gain - w * q.loss
  most : p * q.gain - w * q.loss ≤ p
  fair : q.loss ≤ q.gain

variable {F : Type} [FloatP F ℝ] {u : ℝ}

theorem weights_aux (fl : FloatLaws F ℝ u) {p : F} (h1 : (FloatP.toK p : ℝ) ≤ 1) :
    (0 : ℝ) ≤ FloatP.toK (FloatP.oneSub p) ∧ (0 < (FloatP.toK p : ℝ) ∨ (0 : ℝ) < FloatP.toK (FloatP.oneSub p)) := by
  rcases h1.lt_or_eq with h | h
  · exact ⟨(fl.oneSub_pos p h).le, .inr (fl.oneSub_pos p h)⟩
  · exact ⟨(fl.oneSub_one p h).ge, .inl (by rw [h]; norm_num)⟩

theorem pays_aux {A : Type} {p w : ℝ} (p0 : 0 ≤ p) (w0 : 0 ≤ w) (hpw : 0 < p ∨ 0 < w) {quality : A → Quality ℝ} {rival : List A → Prop}
    {L L0 L1 : List A} (hbest : ∀ L', rival L' → valueOf p w quality L' ≤ valueOf p w quality L)
    (hu : 0 ≤ gainOf quality L ∧ gainOf quality L ≤ 1 ∧ 0 ≤ lossOf quality L ∧ lossOf quality L ≤ 1)
    (r0 : rival L0) (z0 : gainOf quality L0 = 0 ∧ lossOf quality L0 = 0)
    (r1 : rival L1) (z1 : gainOf quality L1 = 1 ∧ lossOf quality L1 = 1) :
    Pays p w ⟨gainOf quality L, lossOf quality L⟩ := by
  have b0 := hbest _ r0
  have b1 := hbest _ r1
  unfold valueOf at b0 b1
  rw [z0.1, z0.2] at b0
  rw [z1.1, z1.2] at b1
  refine ⟨by dsimp only; linarith, by dsimp only; linarith, ?_, ?_⟩
  · dsimp only
    have := mul_le_mul_of_nonneg_left hu.2.1 p0
    have := mul_nonneg w0 hu.2.2.1
    linarith
  · dsimp only
    rcases le_or_gt p w with h | h
    · have hw : 0 < w := by rcases hpw with h' | h' <;> linarith
      have := mul_le_mul_of_nonneg_right h hu.1
      exact le_of_mul_le_mul_left (by linarith) hw
    · have := mul_le_mul_of_nonneg_right h.le (sub_nonneg.mpr hu.2.2.2)
      have : p * lossOf quality L ≤ p * gainOf quality L := by linarith
      exact le_of_mul_le_mul_left this (by linarith)

theorem entZero_aux {A ι : Type} {m : Nat} {V : Nat → ι → ℝ} {cells : A → Finset ι} {w : A} {quality : A → Quality ℝ}
    (hq : quality = fun a => ⟨(entQ m V (cells a)).gain / (entQ m V (cells w)).gain, (entQ m V (cells a)).loss / (entQ m V (cells w)).loss⟩)
    {L : List A} (h : ∀ a ∈ L, ∃ x, cells a = {x}) : gainOf quality L = 0 ∧ lossOf quality L = 0 := by
  subst hq
  constructor
  · unfold gainOf
    apply List.sum_eq_zero
    intro x hx
    obtain ⟨a, ha, rfl⟩ := List.mem_map.mp hx
    obtain ⟨y, hy⟩ := h a ha
    simp [entQ, hy, gainSeries_single]
  · unfold lossOf
    apply List.sum_eq_zero
    intro x hx
    obtain ⟨a, ha, rfl⟩ := List.mem_map.mp hx
    obtain ⟨y, hy⟩ := h a ha
    simp [entQ, hy, lossSeries_single]

theorem entOne_aux {A ι : Type} {m : Nat} {V : Nat → ι → ℝ} {cells : A → Finset ι} {w : A} {quality : A → Quality ℝ}
    (hq : quality = fun a => ⟨(entQ m V (cells a)).gain / (entQ m V (cells w)).gain, (entQ m V (cells a)).loss / (entQ m V (cells w)).loss⟩)
    (hg : gainSeries m (cells w) V ≠ 0) (hl : lossSeries m (cells w) V ≠ 0) : gainOf quality [w] = 1 ∧ lossOf quality [w] = 1 := by
  subst hq
  simp only [gainOf, lossOf, List.map_cons, List.map_nil, List.sum_cons, List.sum_nil, add_zero, entQ]
  exact ⟨div_self hg, div_self hl⟩

/-- Choosing a parameter that is not quite right: what the best partition for `p` lacks, at another parameter, of the best one there. -/
theorem lack_aux {A : Type} {quality : A → Quality ℝ} {rival : List A → Prop} {p p' : ℝ} {L L' : List A}
    (hbest : ∀ M, rival M → valueOf p (1 - p) quality M ≤ valueOf p (1 - p) quality L) (hr : rival L')
    (hu : 0 ≤ gainOf quality L ∧ gainOf quality L ≤ 1 ∧ 0 ≤ lossOf quality L ∧ lossOf quality L ≤ 1)
    (hu' : 0 ≤ gainOf quality L' ∧ gainOf quality L' ≤ 1 ∧ 0 ≤ lossOf quality L' ∧ lossOf quality L' ≤ 1) :
    worth p' ⟨gainOf quality L', lossOf quality L'⟩ ≤ worth p' ⟨gainOf quality L, lossOf quality L⟩ + 2 * |p' - p| := by
  have b : worth p ⟨gainOf quality L', lossOf quality L'⟩ ≤ worth p ⟨gainOf quality L, lossOf quality L⟩ := hbest _ hr
  rw [worth_shift_aux p p', worth_shift_aux p p' ⟨gainOf quality L, lossOf quality L⟩]
  dsimp only
  have h1 : |(p' - p) * ((gainOf quality L' + lossOf quality L') - (gainOf quality L + lossOf quality L))| ≤ |p' - p| * 2 := by
    rw [abs_mul]
    refine mul_le_mul_of_nonneg_left ?_ (abs_nonneg _)
    rw [abs_le]
    constructor <;> linarith [hu.1, hu.2.1, hu.2.2.1, hu.2.2.2, hu'.1, hu'.2.1, hu'.2.2.1, hu'.2.2.2]
  have := le_abs_self ((p' - p) * ((gainOf quality L' + lossOf quality L') - (gainOf quality L + lossOf quality L)))
  linarith

/-- The relative qualities of a partitioner, with the finest partition and the one-part partition among the rivals. -/
structure RelOps {P T A : Type} (ops : PartOps F ℝ P T) (rival : List A → Prop) (quality : A → Quality ℝ) : Prop
    extends UnitOps ops rival rival quality where
  finest : ∃ L, rival L ∧ gainOf quality L = 0 ∧ lossOf quality L = 0
  whole : ∃ L, rival L ∧ gainOf quality L = 1 ∧ lossOf quality L = 1

theorem best_aux (fl : FloatLaws F ℝ u) {P T A : Type} {ops : PartOps F ℝ P T} {rival : List A → Prop} {quality : A → Quality ℝ}
    (ro : RelOps ops rival quality) (p : F) (p0 : (0 : ℝ) ≤ FloatP.toK p) (p1 : (FloatP.toK p : ℝ) ≤ 1) :
    ∃ X, ops.best p = .ok X ∧ Pays (FloatP.toK p) (FloatP.toK (FloatP.oneSub p)) (ops.quality X) := by
  obtain ⟨X, L, e1, e2, e3, e4⟩ := ro.best p p0 p1
  obtain ⟨L0, r0, z0⟩ := ro.finest
  obtain ⟨L1, r1, z1⟩ := ro.whole
  refine ⟨X, e1, ?_⟩
  rw [e3]
  exact pays_aux p0 (weights_aux fl p1).1 (weights_aux fl p1).2 e4 (ro.unit L e2) r0 z0 r1 z1

theorem near_aux {P T A : Type} {ops : PartOps ℝ ℝ P T} {rival : List A → Prop} {quality : A → Quality ℝ}
    (ro : RelOps ops rival quality) (p p' : ℝ) (p0 : 0 ≤ p) (p1 : p ≤ 1) (p0' : 0 ≤ p') (p1' : p' ≤ 1) (X X' : P)
    (hX : ops.best p = .ok X) (hX' : ops.best p' = .ok X') :
    worth p' (ops.quality X') ≤ worth p' (ops.quality X) + 2 * |p' - p| := by
  obtain ⟨Y, L, e1, e2, e3, e4⟩ := ro.best p p0 p1
  obtain ⟨Y', L', e1', e2', e3', _⟩ := ro.best p' p0' p1'
  obtain rfl : X = Y := Except.ok.inj (hX.symm.trans e1)
  obtain rfl : X' = Y' := Except.ok.inj (hX'.symm.trans e1')
  rw [e3, e3']
  exact lack_aux e4 e2' (ro.unit L e2) (ro.unit L' e2')

theorem rows_aux (fl : FloatLaws F ℝ u) {P T A R : Type} {ops : PartOps F ℝ P T} {rival : List A → Prop} {quality : A → Quality ℝ}
    (ro : RelOps ops rival quality) {rowFn : T → R} {fuel : Nat} {randMax : ℝ} {t : F} {r : RResult F ℝ R}
    (h : rSearch ops rowFn false fuel randMax id t = .ok r) :
    ∀ q ∈ r.qualities, Pays (FloatP.toK q.parameter) (FloatP.toK (FloatP.oneSub q.parameter)) ⟨q.gain, q.loss⟩ := by
  have z0 : (FloatP.toK (FloatP.zero : F) : ℝ) = 0 := fl.zero
  have z1 : (FloatP.toK (FloatP.oneSub (FloatP.zero : F)) : ℝ) = 1 := fl.oneSub_zero _ z0
  have hlt : (FloatP.toK (FloatP.zero : F) : ℝ) < FloatP.toK (FloatP.oneSub (FloatP.zero : F)) := by rw [z0, z1]; norm_num
  obtain ⟨st, hst, _, _, _, hq⟩ := rSearch_ok h
  obtain ⟨_, _, l3, l4, l5, l6, _, _⟩ := C28.list fl ops ro.partitioner t _ _ z0.ge hlt z1.le fuel _ st hst
  rw [hq, l6]
  intro q hq
  obtain ⟨a, ha, rfl⟩ := List.mem_map.mp hq
  obtain ⟨b, hb, rfl⟩ := List.mem_map.mp ha
  have hr := l3 b.1 (by rw [← l4]; exact List.mem_map_of_mem hb)
  rw [z0, z1] at hr
  obtain ⟨X, e1, e2⟩ := best_aux fl ro b.1 hr.1 hr.2
  obtain rfl : b.2 = X := Except.ok.inj ((l5 b hb).symm.trans e1)
  exact e2

/-! ## The three analyses -/

theorem orderedRel_aux (v : OValues ℝ) (m n : Nat) (V : Nat → Nat → ℝ)
    (hv : OData v m n V) (hn0 : 0 < n) (hn : n ≤ 65535) (hpos : ∀ k i, k < m → i < n → 0 ≤ V k i)
    (hg : gainSeries m (Finset.Icc 0 (n - 1)) V ≠ 0) (hl : lossSeries m (Finset.Icc 0 (n - 1)) V ≠ 0) :
    ∃ q, ((OQualities.ofValues v).computeQualities >>= OQualities.normalize) = .ok ⟨some v, some q⟩ ∧
      ∀ (F : Type) [FloatP F ℝ], RelOps (oOps (F := F) q) (Tiles 0 n) (fun I => (entQ m V (oCells I)).div (entQ m V (oCells (0, n - 1)))) := by
  obtain ⟨q, e, hq⟩ := oq_object hv hn hpos
  obtain ⟨q', e', hq'⟩ := oqNormalize_spec hq hn0
  refine ⟨q', by rw [e]; exact oNormalize_object hv.osize hn0 e', fun F _ => ?_⟩
  have un := fun L (ht : Tiles 0 n L) => C32.square_aux (cells := oCells) (w := (0, n - 1)) (tiles_cuts ht hn0) (by simp [oCells])
    (nonneg_oCells hpos (by omega)) (q' := fun I => (entQ m V (oCells I)).div (entQ m V (oCells (0, n - 1)))) rfl
  refine ⟨⟨.ordered q' n _ hq', ?_, un, un⟩, ⟨(List.range' 0 (n - 0)).map (fun i => (i, i)), singles_tiles n 0 (Nat.zero_le _), ?_⟩,
    ⟨[(0, n - 1)], oSol_tiles (oWhole_sol hn0) 0 rfl (by omega), entOne_aux (cells := oCells) (w := (0, n - 1)) rfl hg hl⟩⟩
  · intro p _ _
    obtain ⟨P, ds, L, e1, _, e3, _, e5⟩ := oBest_lex hq' p
    refine ⟨P, L, e1, oSol_tiles e5.mem 0 rfl (by omega), e3, fun L' hL' => ?_⟩
    obtain ⟨ds', s'⟩ := tiles_oSol hL'
    exact (e5.best ds' L' s').value
  · refine entZero_aux (cells := oCells) (w := (0, n - 1)) rfl ?_
    intro a ha
    obtain ⟨i, _, rfl⟩ := List.mem_map.mp ha
    exact ⟨i, by simp [oCells]⟩

theorem rootCover_aux {leaves : Nat} {parents : List Int} {md : HMeta} (r : RightMeta leaves parents md) :
    LeafCover leaves parents [md.root] := hSol_leafCover r hWhole_sol

theorem hierarchicalRel_aux (leaves : Nat) (parents : List Int) (v : HValues ℝ) (hmd : RightMeta leaves parents v.md)
    (hleaf : leaves < parents.length) (hroot : v.md.root = parents.length - 1) (m : Nat) (V : Nat → Nat → ℝ)
    (hv : HData v m leaves V) (hpos : ∀ k h, k < m → h < leaves → 0 ≤ V k h)
    (hg : gainSeries m (Finset.range leaves) V ≠ 0) (hl : lossSeries m (Finset.range leaves) V ≠ 0) :
    ∃ q, ((HQualities.ofValues v).computeQualities >>= HQualities.normalize) = .ok ⟨some v, some q, v.md⟩ ∧
      ∀ (F : Type) [FloatP F ℝ], RelOps (hOps (F := F) q v.md) (LeafCover leaves parents)
        (fun h => ⟨(entQ m V (leavesUnder leaves parents h)).gain / (entQ m V (leavesUnder leaves parents v.md.root)).gain,
          (entQ m V (leavesUnder leaves parents h)).loss / (entQ m V (leavesUnder leaves parents v.md.root)).loss⟩) := by
  obtain ⟨q, e, hq⟩ := hq_object hmd hleaf hv hpos
  obtain ⟨q', e', hq'⟩ := hqNormalize_spec hq hmd.tree.rootLt
  have hq' := hq'.congr (f := _) (g := fun h => ⟨(entQ m V (leavesUnder leaves parents h)).gain /
      (entQ m V (leavesUnder leaves parents v.md.root)).gain, (entQ m V (leavesUnder leaves parents h)).loss /
      (entQ m V (leavesUnder leaves parents v.md.root)).loss⟩)
    (fun x hx => by unfold nDiv; rw [if_neg (by omega)]; rfl)
  refine ⟨q', by rw [e]; exact hNormalize_object e', fun F _ => ?_⟩
  have un := fun L (hL : LeafCover leaves parents L) => C32.square_aux (cells := leavesUnder leaves parents) (w := v.md.root)
    (leafCover_cuts hmd.tree hL) (leaves_nonempty hmd.tree hmd.tree.rootLt) (nonneg_hCells hpos) (m := m) (V := V) rfl
  refine ⟨⟨.hierarchical leaves parents v.md q' _ hmd hleaf hq', ?_, un, un⟩, ⟨List.range leaves, leaves_cover hmd.tree, ?_⟩,
    ⟨[v.md.root], rootCover_aux hmd, entOne_aux (cells := leavesUnder leaves parents) (w := v.md.root) rfl
      (by rw [leavesUnder_root hmd.tree]; exact hg) (by rw [leavesUnder_root hmd.tree]; exact hl)⟩⟩
  · intro p _ _
    obtain ⟨P, L, o1, o2, _, o4, o5⟩ := C19.optimal leaves parents _ hmd hleaf q' _ hq' p
    exact ⟨P, L, o1, o2, o4, fun L' hL' => (o5 L' hL').1⟩
  · refine entZero_aux (cells := leavesUnder leaves parents) (w := v.md.root) rfl ?_
    intro a ha
    exact ⟨a, leavesUnder_leaf hmd.tree (List.mem_range.mp ha)⟩

/-- All single cells. -/
theorem cellsCover_aux {leaves n : Nat} {parents : List Int} {md : HMeta} (r : RightMeta leaves parents md) (h0 : 0 < n) :
    ∃ L, (CellCover leaves parents n L ∧ CoarseFirst parents L) ∧ ∀ a ∈ L, ∃ x, dCells leaves parents a = {x} := by
  obtain ⟨ds, L, hs, hp⟩ := product_dSol r h0 (M := List.range leaves) (tiling := fun _ => (List.range' 0 (n - 0)).map (fun i => (i, i)))
    (leaves_cover r.tree) (fun _ _ => singles_tiles n 0 (Nat.zero_le _))
  refine ⟨L, ⟨dSol_cellCover r h0 hs, dSol_coarse r h0 hs⟩, fun a ha => ?_⟩
  have ha := hp.mem_iff.mp ha
  simp only [List.mem_flatMap, List.mem_map] at ha
  obtain ⟨l, hl, I, ⟨i, _, rfl⟩, rfl⟩ := ha
  refine ⟨(l, i), ?_⟩
  unfold dCells
  dsimp only
  rw [leavesUnder_leaf r.tree (List.mem_range.mp hl), Finset.Icc_self]
  rfl

theorem spatiotemporalRel_aux (leaves : Nat) (parents : List Int) (v : DValues ℝ) (hmd : RightMeta leaves parents v.md)
    (hleaf : leaves < parents.length) (hroot : v.md.root = parents.length - 1) (m n : Nat) (hn0 : 0 < n) (hn : n ≤ 65535)
    (hb : leaves * n < 2147483648) (V : Nat → Nat × Nat → ℝ) (hv : DData v m leaves n V)
    (hpos : ∀ k h x, k < m → h < leaves → x < n → 0 ≤ V k (h, x))
    (hg : gainSeries m (Finset.range leaves ×ˢ Finset.Icc 0 (n - 1)) V ≠ 0)
    (hl : lossSeries m (Finset.range leaves ×ˢ Finset.Icc 0 (n - 1)) V ≠ 0) :
    ∃ q, ((DQualities.ofValues v).computeQualities >>= DQualities.normalize) = .ok ⟨some v, some q, v.md⟩ ∧
      ∀ (F : Type) [FloatP F ℝ], RelOps (dOps (F := F) q v.md) (fun L => CellCover leaves parents n L ∧ CoarseFirst parents L)
        (fun x => ⟨(entQ m V (dCells leaves parents x)).gain / (entQ m V (dCells leaves parents ⟨v.md.root, 0, n - 1⟩)).gain,
          (entQ m V (dCells leaves parents x)).loss / (entQ m V (dCells leaves parents ⟨v.md.root, 0, n - 1⟩)).loss⟩) := by
  obtain ⟨q, e, hq⟩ := dq_object hmd hleaf hn hb hv hpos
  obtain ⟨q', e', hq'⟩ := dqNormalize_spec hq hmd.tree.rootLt hmd.hsize hn0 hn
  generalize hqual : (fun x => (⟨(entQ m V (dCells leaves parents x)).gain / (entQ m V (dCells leaves parents ⟨v.md.root, 0, n - 1⟩)).gain,
          (entQ m V (dCells leaves parents x)).loss / (entQ m V (dCells leaves parents ⟨v.md.root, 0, n - 1⟩)).loss⟩ : Quality ℝ)) = quality
  have hq' := hq'.congr (g := fun h i j => quality ⟨h, i, j⟩)
    (fun x i j hx _ _ => by rw [← hqual]; unfold nDiv; rw [if_neg (by omega)]; rfl)
  have hrq : rq (fun h i j => quality ⟨h, i, j⟩) = quality := rfl
  have hall : dCells leaves parents ⟨v.md.root, 0, n - 1⟩ = Finset.range leaves ×ˢ Finset.Icc 0 (n - 1) := by
    unfold dCells; rw [leavesUnder_root hmd.tree]
  refine ⟨q', by rw [e]; exact dNormalize_object hv.osize hn0 e', fun F _ => ?_⟩
  have un : ∀ L, (CellCover leaves parents n L ∧ CoarseFirst parents L) →
      0 ≤ gainOf quality L ∧ gainOf quality L ≤ 1 ∧ 0 ≤ lossOf quality L ∧ lossOf quality L ≤ 1 :=
    fun L hcov => C32.square_aux (cells := dCells leaves parents) (w := ⟨v.md.root, 0, n - 1⟩)
        (cellCover_cuts hmd.tree hcov.1 hn0)
        ((leaves_nonempty hmd.tree hmd.tree.rootLt).product (Finset.nonempty_Icc.mpr (Nat.zero_le _)))
        (nonneg_dCells hpos (by omega)) hqual.symm
  obtain ⟨L0, r0, z0⟩ := cellsCover_aux hmd hn0
  have s1 : Sol (dDecs leaves v.md.children n) [(v.md.root, 0)] [0] [⟨v.md.root, 0, n - 1⟩] := dWhole_sol
  refine ⟨⟨.spatiotemporal leaves parents v.md n q' _ hmd hn0 hn hq', ?_, un, un⟩,
    ⟨L0, r0, entZero_aux (cells := dCells leaves parents) (w := ⟨v.md.root, 0, n - 1⟩) hqual.symm z0⟩,
    ⟨[⟨v.md.root, 0, n - 1⟩], ⟨dSol_cellCover hmd hn0 s1, dSol_coarse hmd hn0 s1⟩,
      entOne_aux (cells := dCells leaves parents) (w := ⟨v.md.root, 0, n - 1⟩) hqual.symm (by rw [hall]; exact hg) (by rw [hall]; exact hl)⟩⟩
  intro p hp0 hp1
  obtain ⟨P, ds, L, b1, b2, b3, _, b5⟩ := dBest_first hmd hq' hn0 hn p
  rw [hrq] at b3 b5
  refine ⟨P, L, b1, ⟨dSol_cellCover hmd hn0 b5.mem, dSol_coarse hmd hn0 b5.mem⟩, b3, ?_⟩
  rintro L' ⟨hL', hcf⟩
  obtain ⟨ds', L'', hs, hperm⟩ := coarse_dSol hmd hn0 hL' hcf
  have hg : gainOf quality L'' = gainOf quality L' := by unfold gainOf; rw [(hperm.map _).sum_eq]
  have hl : lossOf quality L'' = lossOf quality L' := by unfold lossOf; rw [(hperm.map _).sum_eq]
  have := (b5.best ds' L'' hs).value
  unfold valueOf at this ⊢
  rw [hg, hl] at this
  exact this

/-- Ordered, non-negative data whose whole has non-zero gain and loss, after `computeQualities()` and `normalize()`: the best partition
of every parameter pays; and with exact parameters, taking the best partition of `p` instead of that of `p'` costs at most
twice the difference of the parameters. -/
theorem ordered (v : OValues ℝ) (m n : Nat) (V : Nat → Nat → ℝ)
    (hv : OData v m n V) (hn0 : 0 < n) (hn : n ≤ 65535) (hpos : ∀ k i, k < m → i < n → 0 ≤ V k i)
    (hg : gainSeries m (Finset.Icc 0 (n - 1)) V ≠ 0) (hl : lossSeries m (Finset.Icc 0 (n - 1)) V ≠ 0) :
    ∃ q, ((OQualities.ofValues v).computeQualities >>= OQualities.normalize) = .ok ⟨some v, some q⟩ ∧
      (∀ (F : Type) [FloatP F ℝ] (u : ℝ), FloatLaws F ℝ u → ∀ p : F, (0 : ℝ) ≤ FloatP.toK p → (FloatP.toK p : ℝ) ≤ 1 →
        ∃ P, oBestPartition q p = .ok P ∧ Pays (FloatP.toK p) (FloatP.toK (FloatP.oneSub p)) P.quality) ∧
      ∀ p p' : ℝ, 0 ≤ p → p ≤ 1 → 0 ≤ p' → p' ≤ 1 → ∀ P P', oBestPartition q p = .ok P → oBestPartition q p' = .ok P' →
        worth p' P'.quality ≤ worth p' P.quality + 2 * |p' - p| := by
  obtain ⟨q, e, ro⟩ := orderedRel_aux v m n V hv hn0 hn hpos hg hl
  exact ⟨q, e, fun F _ u fl p p0 p1 => best_aux fl (ro F) p p0 p1,
    fun p p' p0 p1 p0' p1' P P' hP hP' => near_aux (ro ℝ) p p' p0 p1 p0' p1' P P' hP hP'⟩

/-- Hierarchical data: the same if the root has the highest number (see C12). -/
theorem hierarchical (leaves : Nat) (parents : List Int) (v : HValues ℝ) (hmd : RightMeta leaves parents v.md)
    (hleaf : leaves < parents.length) (hroot : v.md.root = parents.length - 1) (m : Nat) (V : Nat → Nat → ℝ)
    (hv : HData v m leaves V) (hpos : ∀ k h, k < m → h < leaves → 0 ≤ V k h)
    (hg : gainSeries m (Finset.range leaves) V ≠ 0) (hl : lossSeries m (Finset.range leaves) V ≠ 0) :
    ∃ q, ((HQualities.ofValues v).computeQualities >>= HQualities.normalize) = .ok ⟨some v, some q, v.md⟩ ∧
      (∀ (F : Type) [FloatP F ℝ] (u : ℝ), FloatLaws F ℝ u → ∀ p : F, (0 : ℝ) ≤ FloatP.toK p → (FloatP.toK p : ℝ) ≤ 1 →
        ∃ P, hBestPartition q v.md p = .ok P ∧ Pays (FloatP.toK p) (FloatP.toK (FloatP.oneSub p)) P.quality) ∧
      ∀ p p' : ℝ, 0 ≤ p → p ≤ 1 → 0 ≤ p' → p' ≤ 1 → ∀ P P', hBestPartition q v.md p = .ok P → hBestPartition q v.md p' = .ok P' →
        worth p' P'.quality ≤ worth p' P.quality + 2 * |p' - p| := by
  obtain ⟨q, e, ro⟩ := hierarchicalRel_aux leaves parents v hmd hleaf hroot m V hv hpos hg hl
  exact ⟨q, e, fun F _ u fl p p0 p1 => best_aux fl (ro F) p p0 p1,
    fun p p' p0 p1 p0' p1' P P' hP hP' => near_aux (ro ℝ) p p' p0 p1 p0' p1' P P' hP hP'⟩

/-- Spatiotemporal data: the same. -/
theorem spatiotemporal (leaves : Nat) (parents : List Int) (v : DValues ℝ) (hmd : RightMeta leaves parents v.md)
    (hleaf : leaves < parents.length) (hroot : v.md.root = parents.length - 1) (m n : Nat) (hn0 : 0 < n) (hn : n ≤ 65535)
    (hb : leaves * n < 2147483648) (V : Nat → Nat × Nat → ℝ) (hv : DData v m leaves n V)
    (hpos : ∀ k h x, k < m → h < leaves → x < n → 0 ≤ V k (h, x))
    (hg : gainSeries m (Finset.range leaves ×ˢ Finset.Icc 0 (n - 1)) V ≠ 0)
    (hl : lossSeries m (Finset.range leaves ×ˢ Finset.Icc 0 (n - 1)) V ≠ 0) :
    ∃ q, ((DQualities.ofValues v).computeQualities >>= DQualities.normalize) = .ok ⟨some v, some q, v.md⟩ ∧
      (∀ (F : Type) [FloatP F ℝ] (u : ℝ), FloatLaws F ℝ u → ∀ p : F, (0 : ℝ) ≤ FloatP.toK p → (FloatP.toK p : ℝ) ≤ 1 →
        ∃ P, dBestPartition q v.md p = .ok P ∧ Pays (FloatP.toK p) (FloatP.toK (FloatP.oneSub p)) P.quality) ∧
      ∀ p p' : ℝ, 0 ≤ p → p ≤ 1 → 0 ≤ p' → p' ≤ 1 → ∀ P P', dBestPartition q v.md p = .ok P → dBestPartition q v.md p' = .ok P' →
        worth p' P'.quality ≤ worth p' P.quality + 2 * |p' - p| := by
  obtain ⟨q, e, ro⟩ := spatiotemporalRel_aux leaves parents v hmd hleaf hroot m n hn0 hn hb V hv hpos hg hl
  exact ⟨q, e, fun F _ u fl p p0 p1 => best_aux fl (ro F) p p0 p1,
    fun p p' p0 p1 p0' p1' P P' hP hP' => near_aux (ro ℝ) p p' p0 p1 p0' p1' P P' hP hP'⟩

/-! ## The functions called from R -/

/-- `oaggregate`: every row of `Qualities` pays; in particular its loss does not exceed its gain. -/
theorem orderedSheet (fl : FloatLaws F ℝ u) (randMax : ℝ) (t : F) (d0 d1 d2 : Nat) (f : Nat × Nat × Nat → ℝ) (h0 : 0 < d0) (h1 : 0 < d1)
    (h2 : 0 < d2) (h2' : d2 ≤ 65535) (hF : d0 * d1 < 2 ^ 32) (hpos : ∀ i j k, i < d0 → j < d1 → k < d2 → 0 ≤ f (i, j, k)) :
    gain3 d0 d1 (fun i j k => f (i, j, k)) (Finset.Icc 0 (d2 - 1)) ≠ 0 → loss3 d0 d1 (fun i j k => f (i, j, k)) (Finset.Icc 0 (d2 - 1)) ≠ 0 →
    ∀ fuel r, oaggregate false fuel randMax id (rArray d0 d1 d2 f) t = .ok r →
      ∀ q ∈ r.qualities, Pays (FloatP.toK q.parameter) (FloatP.toK (FloatP.oneSub q.parameter)) ⟨q.gain, q.loss⟩ := by
  intro hg hl fuel r hr
  obtain ⟨ops, uo, key⟩ := oSetup (F := F) d0 d1 d2 f h0 h1 h2 h2' hF hpos
  rw [key] at hr
  refine rows_aux fl ⟨uo, ⟨(List.range' 0 (d2 - 0)).map (fun i => (i, i)), singles_tiles d2 0 (Nat.zero_le _), ?_⟩,
    ⟨[(0, d2 - 1)], oSol_tiles (oWhole_sol h2) 0 rfl (by omega), ?_⟩⟩ hr
  · refine entZero_aux (w := (0, d2 - 1)) (C49.rel_aux d0 d1 (fun i j k => f (i, j, k)) (Finset.Icc 0 (d2 - 1)) (fun I : Nat × Nat => Finset.Icc I.1 I.2)) ?_
    intro a ha
    obtain ⟨i, _, rfl⟩ := List.mem_map.mp ha
    exact ⟨i, by simp⟩
  · simp only [gainOf, lossOf, relative, List.map_cons, List.map_nil, List.sum_cons, List.sum_nil, add_zero]
    exact ⟨div_self hg, div_self hl⟩

/-- `haggregate`. -/
theorem hierarchicalSheet (fl : FloatLaws F ℝ u) (randMax : ℝ) (t : F) (d0 d1 d2 : Nat) (f : Nat × Nat × Nat → ℝ) (h : List Int) (h0 : 0 < d0)
    (h1 : 0 < d1) (hF : d1 * d2 < 2 ^ 32) (hpos : ∀ i j k, i < d0 → j < d1 → k < d2 → 0 ≤ f (i, j, k)) :
    let parents := h.map (· - 1)
    IsTree d0 parents (parents.length - 1) → NearestFirst d0 parents → d0 < parents.length →
    gain3 d1 d2 (fun j k l => f (l, j, k)) (Finset.range d0) ≠ 0 → loss3 d1 d2 (fun j k l => f (l, j, k)) (Finset.range d0) ≠ 0 →
    ∀ fuel r, haggregate false fuel randMax id (rArray d0 d1 d2 f) h t = .ok r →
      ∀ q ∈ r.qualities, Pays (FloatP.toK q.parameter) (FloatP.toK (FloatP.oneSub q.parameter)) ⟨q.gain, q.loss⟩ := by
  intro parents tree near hlt hg hl fuel r hr
  obtain ⟨ops, uo, key⟩ := hSetup (F := F) d0 d1 d2 f h h0 h1 hF tree near hlt hpos
  rw [key] at hr
  obtain ⟨md, _, m2, m3⟩ := C03.right d0 parents _ tree near
  refine rows_aux fl ⟨uo, ⟨List.range d0, leaves_cover tree, ?_⟩, ⟨[md.root], rootCover_aux m3, ?_⟩⟩ hr
  · have e := C49.rel_aux d1 d2 (fun j k l => f (l, j, k)) (leavesUnder d0 parents md.root) (leavesUnder d0 parents)
    rw [leavesUnder_root m3.tree] at e
    refine entZero_aux (w := md.root) (cells := leavesUnder d0 parents) (m := d1 * d2) (V := fun k l => f (l, k / d2, k % d2))
      ?_ (fun a ha => ⟨a, leavesUnder_leaf tree (List.mem_range.mp ha)⟩)
    rw [leavesUnder_root m3.tree]; exact e
  · simp only [gainOf, lossOf, relative, List.map_cons, List.map_nil, List.sum_cons, List.sum_nil, add_zero]
    rw [leavesUnder_root m3.tree]
    exact ⟨div_self hg, div_self hl⟩

/-- `daggregate`. -/
theorem spatiotemporalSheet (fl : FloatLaws F ℝ u) (randMax : ℝ) (t : F) (d0 d1 d2 : Nat) (f : Nat × Nat × Nat → ℝ) (h : List Int) (h0 : 0 < d0)
    (h1 : 0 < d1) (h2 : 0 < d2) (h2' : d2 ≤ 65535) (hb : d0 * d2 < 2147483648)
    (hpos : ∀ i j k, i < d0 → j < d1 → k < d2 → 0 ≤ f (i, j, k)) :
    let parents := h.map (· - 1)
    IsTree d0 parents (parents.length - 1) → NearestFirst d0 parents → d0 < parents.length →
    let all := Finset.range d0 ×ˢ Finset.Icc 0 (d2 - 1)
    gain3 d1 1 (fun j _ (c : Nat × Nat) => f (c.1, j, c.2)) all ≠ 0 → loss3 d1 1 (fun j _ (c : Nat × Nat) => f (c.1, j, c.2)) all ≠ 0 →
    ∀ fuel r, daggregate false fuel randMax id (rArray d0 d1 d2 f) h t = .ok r →
      ∀ q ∈ r.qualities, Pays (FloatP.toK q.parameter) (FloatP.toK (FloatP.oneSub q.parameter)) ⟨q.gain, q.loss⟩ := by
  intro parents tree near hlt all hg hl fuel r hr
  obtain ⟨ops, uo, key⟩ := dSetup (F := F) d0 d1 d2 f h h0 h1 h2 h2' hb tree near hlt hpos
  rw [key] at hr
  obtain ⟨md, _, m2, m3⟩ := C03.right d0 parents _ tree near
  obtain ⟨L0, r0, z0⟩ := cellsCover_aux m3 h2
  have s1 : Sol (dDecs d0 md.children d2) [(md.root, 0)] [0] [⟨md.root, 0, d2 - 1⟩] := dWhole_sol
  have hall : dCells d0 parents ⟨md.root, 0, d2 - 1⟩ = all := by
    unfold dCells; rw [leavesUnder_root m3.tree]
  refine rows_aux fl ⟨uo, ⟨L0, r0, ?_⟩, ⟨[⟨md.root, 0, d2 - 1⟩], ⟨dSol_cellCover m3 h2 s1, dSol_coarse m3 h2 s1⟩, ?_⟩⟩ hr
  · refine entZero_aux (w := ⟨md.root, 0, d2 - 1⟩) (cells := dCells d0 parents) (m := d1 * 1)
      (V := fun k c => f (c.1, k / 1, c.2)) ?_ z0
    rw [hall]
    exact C49.rel_aux d1 1 (fun j _ (c : Nat × Nat) => f (c.1, j, c.2)) all (dCells d0 parents)
  · simp only [gainOf, lossOf, relative, List.map_cons, List.map_nil, List.sum_cons, List.sum_nil, add_zero]
    rw [leavesUnder_root m3.tree]
    exact ⟨div_self hg, div_self hl⟩

/-! ## Concrete cases -/

/-- The rows for the table of `C16`: at the parameters 0, 1/4 and 1/2 (exact, threshold 1/10) the gains are 0, 2 and 6 and the losses 0, 1 and 8; the
qualities are not relative there, and the last loss exceeds the gain. -/
example : (computeBestPartitions (oOps C16.exQ) false 10 (1 / 10 : ℚ) 0 1 PState.empty).map
    (fun st => st.qualityList.map (fun e => (e.2.gain, e.2.loss))) = .ok [(0, 0), (2, 1), (6, 8)] := by decide +kernel

/-- `convex`, `slope` and `detour` on it, at 0 and 1. -/
example (X X' Y : OPartition ℚ ℚ) (hX : oBestPartition C16.exQ (0 : ℚ) = .ok X) (hX' : oBestPartition C16.exQ (1 : ℚ) = .ok X')
    (hY : oBestPartition C16.exQ (1 / 2 * 0 + (1 - 1 / 2) * 1 : ℚ) = .ok Y) :
    worth (1 / 2 * 0 + (1 - 1 / 2) * 1) Y.quality ≤ 1 / 2 * worth 0 X.quality + (1 - 1 / 2) * worth 1 X'.quality ∧
    worth 1 X'.quality - worth 1 X.quality ≤ (1 - 0) * ((X'.quality.gain + X'.quality.loss) - (X.quality.gain + X.quality.loss)) :=
  ⟨convex (oOps C16.exQ) (.ordered _ 3 _ C16.exRep) 0 1 (1 / 2) (by norm_num) (by norm_num) X X' Y hX hX' hY,
   (detour (oOps C16.exQ) (.ordered _ 3 _ C16.exRep) 0 1 X X' hX hX').2⟩

/-- The hypotheses of `ordered` are met by the data 1, 0, 2. -/
example : ∃ q, ((OQualities.ofValues (OValuesN1.ofVec ([1, 0, 2] : List ℝ)).toOValues).computeQualities >>= OQualities.normalize) =
      .ok ⟨some (OValuesN1.ofVec [1, 0, 2]).toOValues, some q⟩ ∧
    ∀ p : ℝ, 0 ≤ p → p ≤ 1 → ∃ P, oBestPartition q p = .ok P ∧ P.quality.loss ≤ P.quality.gain := by
  have hp : ∀ k i : Nat, k < 1 → i < 3 → 0 ≤ (fun _ i => if i = 2 then (2 : ℝ) else if i = 1 then 0 else 1) k i :=
    fun k i _ _ => by dsimp only; split_ifs <;> norm_num
  obtain ⟨q, h1, h2, _⟩ := ordered _ 1 3 _
    (OValuesN1.ofVec_holds (O := 3) (fun i => if i = 2 then (2 : ℝ) else if i = 1 then 0 else 1)).data
    (by norm_num) (by norm_num) hp (by
      rw [ne_eq, gainSeries_zero_iff (fun k hk x hx => hp k x hk (by simp at hx; omega))]
      intro h
      have := h 0 (by norm_num) 0 (by norm_num) 2 (by norm_num) (by norm_num) (by norm_num)
      omega) (by
      rw [ne_eq, lossSeries_zero_iff (fun k hk x hx => hp k x hk (by simp at hx; omega))]
      intro h
      have := h 0 (by norm_num) 0 (by norm_num) 2 (by norm_num)
      norm_num at this)
  refine ⟨q, h1, fun p p0 p1 => ?_⟩
  obtain ⟨P, e, hP⟩ := h2 ℝ 0 (exactLaws ℝ) p p0 p1
  exact ⟨P, e, hP.fair⟩

/-- `oaggregate` on the data 1, 0, 2 with IEEE binary32 parameters, any rounding mode and the threshold 1/1024: the call returns, and in every row the
loss is at most the gain. -/
example (R : Rounding) (t : OverReal (B32 R)) (ht : t.1 = 1 / 1024) : ∃ fuel r,
    oaggregate (F := OverReal (B32 R)) false fuel 2147483647 id
      (rArray 1 1 3 (fun x => if x.2.2 = 2 then (2 : ℝ) else if x.2.2 = 1 then 0 else 1)) t = .ok r ∧
    ∀ q ∈ r.qualities, q.loss ≤ q.gain := by
  have t0 : (0 : ℝ) < ((t.1 : ℚ) : ℝ) := by rw [ht]; norm_num
  have hp : ∀ i j k : Nat, 0 ≤ (fun x : Nat × Nat × Nat => if x.2.2 = 2 then (2 : ℝ) else if x.2.2 = 1 then 0 else 1) (i, j, k) := by
    intro i j k; dsimp only; split_ifs <;> norm_num
  obtain ⟨N, h⟩ := C49.ordered (overRealLaws (b32Laws R)) 2147483647 (by norm_num) t t0
    (by show 11 * (((1 / 2 ^ 23 : ℚ)) : ℝ) ≤ ((t.1 : ℚ) : ℝ); rw [ht]; norm_num)
  obtain ⟨n1, n2⟩ := C49.nz_aux (f := fun k => if k = 2 then (2 : ℝ) else if k = 1 then 0 else 1) (s := Finset.Icc 0 2)
    (fun x _ => hp 0 0 x) (a := 0) (b := 2) (c := 0) (d := 1) (by simp) (by simp) (by norm_num) (by norm_num) (by norm_num)
    (by simp) (by simp) (by norm_num)
  obtain ⟨r, e, hr⟩ := h 1 1 3 (fun x => if x.2.2 = 2 then (2 : ℝ) else if x.2.2 = 1 then 0 else 1) (by norm_num) (by norm_num)
    (by norm_num) (by norm_num) (by norm_num) (fun i j k _ _ _ => hp i j k) n1 n2 N (Nat.le_refl _)
  exact ⟨N, r, e, fun q hq => (orderedSheet (overRealLaws (b32Laws R)) 2147483647 t 1 1 3
    (fun x => if x.2.2 = 2 then (2 : ℝ) else if x.2.2 = 1 then 0 else 1) (by norm_num) (by norm_num) (by norm_num) (by norm_num)
    (by norm_num) (fun i j k _ _ _ => hp i j k) n1 n2 N r e q hq).fair⟩

end Lp.C91
