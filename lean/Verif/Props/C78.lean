import Verif.Proofs.Condition
import Verif.Proofs.MachineSheet
import Verif.Props.C49
import Verif.Proofs.Pc

/-!
# C78 — the exported functions in machine arithmetic throughout

C49 and C77 compute gains and losses exactly; C50, C58, C67 and C68 are about single stages in rounded arithmetic.  Here everything is rounded, from
R's array to R's result (`MachineLaws`, `Spec/Machine.lean`), and the result is compared with the true entropy gains and losses of the data,
relative to those of the whole (`NearSheet`).  `κ` bounds the size of the terms (`size3`) by the gain and the loss of the whole: data for which the
whole has almost no gain or loss need a large `κ`.
-/

namespace Lp.C78
open Spec
variable {D F K : Type} [LDLog K] [FloatP F K] {c : RNum D F K} {rnd : K → K} {val : K → ℝ} {vd : D → ℝ} {pv : F → ℚ}
  {u w a b : ℝ} {r : ℚ}

omit [LDLog K] [FloatP F K] in
theorem array_aux (c : RNum D F K) (d0 d1 d2 : Nat) (f : Nat × Nat × Nat → D) :
    c.array (rArray d0 d1 d2 f) = rArray d0 d1 d2 (fun x => c.wide (f x)) := by
  unfold RNum.array rArray
  simp only [List.map_flatMap, List.map_map]
  rfl

theorem hierarchy_aux (h : MachineLaws c rnd val vd pv u w a b r) (l : List D) (zs : List Int) (e : l.map vd = zs.map (fun z : Int => (z : ℝ)))
    (hb : ∀ z ∈ zs, |z| ≤ 2 ^ 31) : c.hierarchy l = zs.map (· - 1) := by
  have key : ∀ (l : List D) (zs : List Int), l.map vd = zs.map (fun z : Int => (z : ℝ)) → (∀ z ∈ zs, |z| ≤ 2 ^ 31) →
      ∀ acc, l.foldl (fun acc x => acc ++ [c.toInt (c.pred x)]) acc = acc ++ zs.map (· - 1) := by
    intro l
    induction l with
    | nil => intro zs e _ acc; cases zs with
      | nil => simp
      | cons z zs => simp at e
    | cons x l ih =>
      intro zs e hb acc
      cases zs with
      | nil => simp at e
      | cons z zs =>
        simp only [List.map_cons, List.cons.injEq] at e
        rw [List.foldl_cons, ih zs e.2 (fun y hy => hb y (List.mem_cons_of_mem _ hy)), h.int x z e.1 (hb z List.mem_cons_self)]
        simp
  have := key l zs e hb []
  simpa [RNum.hierarchy] using this

theorem size_aux {ι : Type} (a b : Nat) (v : Nat → Nat → ι → ℝ) (s : Finset ι) :
    ∑ k ∈ Finset.range (a * b), dataSize s (v (k / b) (k % b)) = size3 a b v s := C49.sum_aux (fun i j => dataSize s (v i j))

/-- The size of the terms is positive, and so are the gain and the loss of the whole. -/
theorem pos_aux {A ι : Type} {m : Nat} {V : Nat → ι → ℝ} {s : Finset ι} {κ : ℝ} (hm : 0 < m) (hs : s.Nonempty) (hv : ∀ k < m, ∀ x ∈ s, 0 ≤ V k x)
    (sX : ∑ k ∈ Finset.range m, dataSize s (V k) ≤ κ * (entQ m V s).gain)
    (sY : ∑ k ∈ Finset.range m, dataSize s (V k) ≤ κ * (entQ m V s).loss) : 0 < (entQ m V s).gain ∧ 0 < (entQ m V s).loss ∧ 0 ≤ κ := by
  have L2 := log2_pos
  have one : ∀ k ∈ Finset.range m, 0 < dataSize s (V k) := by
    intro k hk
    have hT : 0 ≤ ∑ x ∈ s, V k x := Finset.sum_nonneg (fun x hx => hv k (Finset.mem_range.mp hk) x hx)
    have hc : (1 : ℝ) ≤ s.card := by exact_mod_cast hs.card_pos
    have h2 := Real.log_nonneg hc
    have h3 : 0 ≤ max 0 (Real.log (∑ x ∈ s, V k x)) := le_max_left _ _
    unfold dataSize
    refine div_pos ?_ L2
    have := mul_nonneg hT (show 0 ≤ 3 + 2 * max 0 (Real.log (∑ x ∈ s, V k x)) + Real.log s.card by linarith)
    linarith
  have hS : 0 < ∑ k ∈ Finset.range m, dataSize s (V k) := Finset.sum_pos one ⟨0, Finset.mem_range.mpr hm⟩
  have q := entQ_nonneg (m := m) hv
  have g : 0 < (entQ m V s).gain := by
    refine lt_of_le_of_ne q.1 (fun e => ?_)
    rw [← e] at sX
    linarith
  have l : 0 < (entQ m V s).loss := by
    refine lt_of_le_of_ne q.2 (fun e => ?_)
    rw [← e] at sY
    linarith
  exact ⟨g, l, (pos_of_mul_pos_left (lt_of_lt_of_le hS sX) g.le).le⟩

theorem err_aux (h : MachineLaws c rnd val vd pv u w a b r) (k : Nat) {κ : ℝ} (hκ : 0 ≤ κ) : 0 ≤ relErr u w κ k := by
  have f1 := factor_one (u := u) (w := w) h.log.unit_nonneg h.log.acc_nonneg k
  unfold factor at f1
  unfold relErr
  have := mul_nonneg (show 0 ≤ (1 + w) ^ 3 * (1 + u) ^ k - 1 by linarith) hκ
  linarith

theorem within_aux {A : Type} {c c' a b : ℝ} {q : A → Quality ℝ} {L L' : List A} (h : C50.Within c a b q L L') (hc : c ≤ c') :
    C50.Within c' a b q L L' := by
  have s : ∀ M : List A, 0 ≤ C50.size a b q M := fun M => List.sum_nonneg (by
    intro z hz
    obtain ⟨x, _, rfl⟩ := List.mem_map.mp hz
    positivity)
  exact le_trans h (mul_le_mul_of_nonneg_right hc (add_nonneg (s L) (s L')))

theorem allEq_aux {α β : Type} (eq : α → α → Bool) (g : α → β) (h : ∀ x y, g x = g y → eq x y = true) :
    ∀ l m : List α, l.map g = m.map g → l.length = m.length ∧ allEq eq l m = true
  | [], m, e => by
    cases m with
    | nil => exact ⟨rfl, by simp [allEq]⟩
    | cons y m => simp at e
  | x :: l, m, e => by
    cases m with
    | nil => simp at e
    | cons y m =>
      simp only [List.map_cons, List.cons.injEq] at e
      have := allEq_aux eq g h l m e.2
      exact ⟨by simp [this.1], by simp [allEq, h x y e.1, this.2]⟩

/-- One best partition, as `machine_sheet` needs it. -/
theorem best_aux (h : MachineLaws c rnd val vd pv u w a b r) {A ι P T Z : Type} {m N : Nat} {V : Nat → ι → ℝ} {cells : A → Finset ι} {w0 : A}
    {q q' : A → Quality K} {κ : ℝ} (hm : 0 < m) (hn : (cells w0).Nonempty) (hv : ∀ k < m, ∀ x ∈ cells w0, 0 ≤ V k x)
    (hN : (cells w0).card ≤ N)
    (sX : ∑ k ∈ Finset.range m, dataSize (cells w0) (V k) ≤ κ * (entQ m V (cells w0)).gain)
    (sY : ∑ k ∈ Finset.range m, dataSize (cells w0) (V k) ≤ κ * (entQ m V (cells w0)).loss)
    (hc : relErr u w κ (4 * N + m + 3) ≤ 1) {ok : A → Prop}
    (hok : ∀ x, ok x → QClose val (factor u w (3 * N + m + 1)) m V (cells x) (q x) ∧ q' x = (q x).div (q w0)) (ok0 : ok w0)
    {quality : A → Quality ℝ} (hqual : quality = relTo m V cells w0)
    (ops : PartOps F K P (F × T)) (gk lk : F × T → K) (row : F → A → F × T) (out : F × T → Z) (placeOf : A → Z) (p : F) (h0 : 0 ≤ pv p) (h1 : pv p ≤ 1)
    (part rival : List A → Prop) (hpart : ∀ L, part L → Cuts cells L (cells w0) ∧ ∀ x ∈ L, ok x)
    (hrival : ∀ L, rival L → Cuts cells L (cells w0) ∧ ∀ x ∈ L, ok x)
    {X : P} {L : List A} (hbest : ops.best p = .ok X) (hL : part L) (hrows : ops.rows p X = L.map (row p))
    (hrow : ∀ y ∈ L, out (row p y) = placeOf y ∧ gk (row p y) = (q' y).gain ∧ lk (row p y) = (q' y).loss)
    (hQ : C50.NearSum ((1 + u) ^ (L.length - 1) - 1) ⟨val (ops.quality X).gain, val (ops.quality X).loss⟩ (C50.exact val q') L)
    (hin : ∀ L', rival L' → C50.Within ((1 + u) ^ (N + 1) - 1) (val (FloatP.toK p)) (val (FloatP.toK (FloatP.oneSub p))) (C50.exact val q') L L') :
    ∃ P L, ops.best p = .ok P ∧ part L ∧ ops.rows p P = L.map (row p) ∧
      (∀ y ∈ L, out (row p y) = placeOf y ∧
        |val (gk (row p y)) - (quality y).gain| ≤ relErr u w κ (4 * N + m + 3) ∧
        |val (lk (row p y)) - (quality y).loss| ≤ relErr u w κ (4 * N + m + 3) ∧
        0 ≤ (quality y).gain ∧ (quality y).gain ≤ 1 ∧ 0 ≤ (quality y).loss ∧ (quality y).loss ≤ 1) ∧
      |val (ops.quality P).gain - gainOf quality L| ≤ relErr u w κ (4 * N + m + 3) ∧
      |val (ops.quality P).loss - lossOf quality L| ≤ relErr u w κ (4 * N + m + 3) ∧
      (0 ≤ gainOf quality L ∧ gainOf quality L ≤ 1 ∧ 0 ≤ lossOf quality L ∧ lossOf quality L ≤ 1) ∧
      ∀ L', rival L' → (pv p : ℝ) * gainOf quality L' - (pv (FloatP.oneSub p) : ℝ) * lossOf quality L' ≤
        (pv p : ℝ) * gainOf quality L - (pv (FloatP.oneSub p) : ℝ) * lossOf quality L + relErr u w κ (4 * N + m + 3) := by
  obtain ⟨hX, hY, hκ⟩ := pos_aux (A := A) hm hn hv sX sY
  obtain ⟨cuts, okL⟩ := hpart L hL
  have ek : 3 * N + m + 1 + 1 + (N + 1) = 4 * N + m + 3 := by omega
  obtain ⟨_, _, m3, m4, m5, m6⟩ := machine_best (κ := κ) (k := 3 * N + m + 1) (e := N + 1) h.log hn hv hX hY sX sY hκ (by rw [ek]; exact hc)
    (hok w0 ok0).1 cuts (fun x hx => (hok x (okL x hx)).1) (fun x hx => (hok x (okL x hx)).2)
    (by have := cuts.length_le; omega) hQ
  rw [ek, ← hqual] at m3 m4 m5 m6
  obtain ⟨o0, o1⟩ := h.oneSub_unit p h0 h1
  have sq := C32.square_aux cuts hn hv (q' := quality) (by rw [hqual]; rfl)
  refine ⟨X, L, hbest, hL, hrows, ?_, m4, m5, sq, ?_⟩
  · intro y hy
    obtain ⟨r1, r2, r3⟩ := hrow y hy
    obtain ⟨n1, n2⟩ := m3 y hy
    refine ⟨r1, by rw [r2]; exact n1, by rw [r3]; exact n2, ?_⟩
    have nn : ∀ x ∈ L, 0 ≤ (quality x).gain ∧ 0 ≤ (quality x).loss := by
      intro x hx
      have := entQ_nonneg (m := m) (V := V) (s := cells x) (fun k hk z hz => hv k hk z (cuts.sub x hx hz))
      rw [hqual]
      exact ⟨div_nonneg this.1 hX.le, div_nonneg this.2 hY.le⟩
    have one : ∀ {f : A → ℝ}, (∀ x ∈ L, 0 ≤ f x) → f y ≤ (L.map f).sum := by
      intro f hf
      refine List.single_le_sum ?_ _ (List.mem_map_of_mem (f := f) hy)
      intro z hz
      obtain ⟨x, hx, rfl⟩ := List.mem_map.mp hz
      exact hf x hx
    exact ⟨(nn y hy).1, le_trans (one (fun x hx => (nn x hx).1)) sq.2.1, (nn y hy).2, le_trans (one (fun x hx => (nn x hx).2)) sq.2.2.2⟩
  · intro L' hL'
    obtain ⟨cuts', okL'⟩ := hrival L' hL'
    have w1 := hin L' hL'
    rw [h.toK, h.toK] at w1
    exact m6 _ _ (by exact_mod_cast h0) (by exact_mod_cast h1) (by exact_mod_cast o0) (by exact_mod_cast o1) L' cuts'
      (fun x hx => (hok x (okL' x hx)).1) (fun x hx => (hok x (okL' x hx)).2) w1

/-- `oaggregate(micro, th)`. -/
theorem ordered (h : MachineLaws c rnd val vd pv u w a b r) (randMax : K) (hr : 16 ≤ val randMax) (th : D) (ht : 0 < pv (c.toFloat th))
    (hu : 11 * r ≤ pv (c.toFloat th)) :
    ∃ N : Nat, ∀ (d0 d1 d2 : Nat) (f : Nat × Nat × Nat → D) (κ : ℝ), 0 < d0 → 0 < d1 → 0 < d2 → d2 ≤ 65535 → d0 * d1 < 2 ^ 32 →
      (1 + u) ^ d2 ≤ 3 / 2 → (∀ i j k, i < d0 → j < d1 → k < d2 → 0 ≤ vd (f (i, j, k))) →
      let v := fun i j k => vd (f (i, j, k))
      let all := Finset.Icc 0 (d2 - 1)
      size3 d0 d1 v all ≤ κ * gain3 d0 d1 v all → size3 d0 d1 v all ≤ κ * loss3 d0 d1 v all →
      let ε := relErr u w κ (4 * d2 + d0 * d1 + 3)
      ε ≤ 1 →
      ∀ fuel, N ≤ fuel → ∃ t, oaggregateR c false fuel randMax rnd (rArray d0 d1 d2 f) th = .ok t ∧
        NearSheet vd (ε + 2 * b) r (80 * u + 40 * b) (areaErr a b) ORow.parameter ORow.gain ORow.loss
          (fun x => (x.start, x.end)) (fun I : Nat × Nat => ((I.1 : Int) + 1, (I.2 : Int) + 1)) (Tiles 0 d2) (Tiles 0 d2)
          (relative (gain3 d0 d1 v) (loss3 d0 d1 v) all (fun I : Nat × Nat => Finset.Icc I.1 I.2)) t := by
  obtain ⟨N, hN⟩ := machine_sheet h randMax hr (c.toFloat th) ht hu
  refine ⟨N, ?_⟩
  intro d0 d1 d2 f κ h0 h1 h2 h2' hF hs hpos v all sX sY ε hε fuel hf
  have hv : OData (OValuesN3.ofVec (table3 d0 d1 d2 (fun x => c.wide (f x)))).toOValues (d0 * d1) d2 (fun k o => c.wide (f (k / d1, k % d1, o))) :=
    (OValuesN3.ofVec_holds h0 h1 hF (fun x => c.wide (f x))).data
  have hp : ∀ k i, k < d0 * d1 → i < d2 → 0 ≤ val (c.wide (f (k / d1, k % d1, i))) := by
    intro k i hk hi
    rw [h.wide]
    exact hpos _ _ _ (C49.divMod_aux hk).1 (C49.divMod_aux hk).2 hi
  obtain ⟨q, g, e, hq, cell⟩ := C58.ordered_aux h.log h.w_le _ (d0 * d1) d2 _ hv h2' hs hp
  obtain ⟨q', e', hq'⟩ := oqNormalize_spec hq h2
  have hnum : C58.numbers val (fun k o => c.wide (f (k / d1, k % d1, o))) = fun k o => vd (f (k / d1, k % d1, o)) := by
    funext k o; exact h.wide _
  rw [hnum] at cell
  set V : Nat → Nat → ℝ := fun k o => vd (f (k / d1, k % d1, o)) with hV
  have hqual : relative (gain3 d0 d1 v) (loss3 d0 d1 v) all (fun I : Nat × Nat => Finset.Icc I.1 I.2) =
      relTo (d0 * d1) V oCells (0, d2 - 1) := C49.rel_aux d0 d1 v all (fun I : Nat × Nat => Finset.Icc I.1 I.2)
  have hsz : ∑ k ∈ Finset.range (d0 * d1), dataSize (oCells (0, d2 - 1)) (V k) = size3 d0 d1 v all := size_aux d0 d1 v all
  have hg : (entQ (d0 * d1) V (oCells (0, d2 - 1))).gain = gain3 d0 d1 v all := (C49.series_aux d0 d1 v all).1
  have hl : (entQ (d0 * d1) V (oCells (0, d2 - 1))).loss = loss3 d0 d1 v all := (C49.series_aux d0 d1 v all).2
  have ho : IsPartitioner (oOps (F := F) q') := .ordered q' d2 _ hq'
  have key : oaggregateR c false fuel randMax rnd (rArray d0 d1 d2 f) th =
      (rSearch (oOps (F := F) q') (fun (p, s, e, g, l) => (⟨p, s + 1, e + 1, g, l⟩ : ORow F K)) false fuel randMax rnd (c.toFloat th)).map
        (c.result c.oRow) := by
    unfold oaggregateR
    rw [array_aux]
    unfold oaggregate
    rw [convertToMicroModel_rArray]
    simp only [okBind]
    rw [e]
    simp only [okBind]
    rw [oNormalize_object hv.osize h2 e']
    simp only [okBind]
    cases rSearch (oOps (F := F) q') (fun (p, s, e, g, l) => (⟨p, s + 1, e + 1, g, l⟩ : ORow F K)) false fuel randMax rnd (c.toFloat th) <;> rfl
  have hsheet := hN (oOps (F := F) q') ho (fun (p, s, e, g, l) => (⟨p, s + 1, e + 1, g, l⟩ : ORow F K)) c.oRow ORow.parameter ORow.gain ORow.loss
    (fun x => (x.start, x.end)) (fun I : Nat × Nat => ((I.1 : Int) + 1, (I.2 : Int) + 1)) (fun x => x.2.2.2.1) (fun x => x.2.2.2.2)
    (Tiles 0 d2) (Tiles 0 d2) (relative (gain3 d0 d1 v) (loss3 d0 d1 v) all (fun I : Nat × Nat => Finset.Icc I.1 I.2))
    (fun p I => (p, (I.1 : Int), (I.2 : Int), ((g I.1 I.2).div (g 0 (d2 - 1))).gain, ((g I.1 I.2).div (g 0 (d2 - 1))).loss)) ε
    (err_aux h _ (pos_aux (A := Nat) (κ := κ) (Nat.mul_pos h0 h1) (s := oCells (0, d2 - 1)) (by simp [oCells])
        (V := V) (nonneg_oCells (fun k i hk hi => by have := hp k i hk hi; rw [h.wide] at this; exact this) (by omega))
        (by rw [hsz, hg]; exact sX) (by rw [hsz, hl]; exact sY)).2.2) hε
    (by
      intro p P x hx
      simp only [oOps, List.mem_map] at hx
      obtain ⟨y, _, rfl⟩ := hx
      rfl)
    (by rintro ⟨p, s, e, g, l⟩; exact ⟨rfl, rfl, rfl⟩)
    (by
      intro p P p' P' hh
      simp only [oOps, List.map_map] at hh
      have := allEq_aux OPart.eqOp (fun x : OPart K => (x.start + 1, x.end + 1)) (by
        intro x y hxy
        simp only [Prod.mk.injEq] at hxy
        have e1 : x.start = y.start := by omega
        have e2 : x.end = y.end := by omega
        simp [OPart.eqOp, e1, e2]) P.parts P'.parts hh
      simp only [oOps, OPartition.eqOp]
      rw [if_neg (by simp [this.1]), this.2])
    (by
      intro p hp0 hp1
      obtain ⟨X, T, C, ds, L, b1, _, _, b4, _, _⟩ := oBest_spec hq' p
      obtain ⟨X', L', g1, g2, g3, g4, g5⟩ := C50.ordered (F := F) h.log.toRoundedLaws q' d2 _ hq' p
      obtain rfl : X = X' := Except.ok.inj (b1.symm.trans g1)
      have eL : L = L' := by
        rw [b4, List.map_map] at g3
        refine List.map_injective_iff.mpr ?_ g3
        rintro ⟨x1, x2⟩ ⟨y1, y2⟩ hxy
        have hxy : ((x1 : Int), (x2 : Int)) = ((y1 : Int), (y2 : Int)) := hxy
        simp only [Prod.mk.injEq, Nat.cast_inj] at hxy
        rw [hxy.1, hxy.2]
      subst eL
      refine best_aux h (q := fun I : Nat × Nat => g I.1 I.2) (q' := fun I : Nat × Nat => (g I.1 I.2).div (g 0 (d2 - 1))) (cells := oCells)
        (w0 := (0, d2 - 1)) (V := V) (N := d2) (ok := fun I : Nat × Nat => I.1 ≤ I.2 ∧ I.2 < d2) (κ := κ)
        (Nat.mul_pos h0 h1) (by simp [oCells])
        (nonneg_oCells (fun k i hk hi => by have := hp k i hk hi; rw [h.wide] at this; exact this) (by omega))
        (by simp only [oCells, Nat.card_Icc]; omega) (by rw [hsz, hg]; exact sX) (by rw [hsz, hl]; exact sY) hε
        (fun I hI => ⟨(cell I.1 I.2 hI.1 hI.2).2, rfl⟩) ⟨Nat.zero_le _, by omega⟩ hqual (oOps q') (fun x => x.2.2.2.1) (fun x => x.2.2.2.2)
        (fun p I => (p, (I.1 : Int), (I.2 : Int), ((g I.1 I.2).div (g 0 (d2 - 1))).gain, ((g I.1 I.2).div (g 0 (d2 - 1))).loss))
        (fun x => (x.2.1 + 1, x.2.2.1 + 1)) (fun I : Nat × Nat => ((I.1 : Int) + 1, (I.2 : Int) + 1)) p hp0 hp1 (Tiles 0 d2) (Tiles 0 d2)
        (fun M hM => ⟨tiles_cuts hM h2, fun I hI => by have := hM.bounds I hI; omega⟩)
        (fun M hM => ⟨tiles_cuts hM h2, fun I hI => by have := hM.bounds I hI; omega⟩) b1 g2 ?_ ?_ g4 g5
      · simp only [oOps]
        rw [b4, List.map_map]
        rfl
      · intro y _; exact ⟨rfl, rfl, rfl⟩)
    fuel hf
  obtain ⟨res, e1, e2⟩ := hsheet
  exact ⟨_, by rw [key, e1]; rfl, e2⟩

/-- `haggregate(micro, h, th)`, for a hierarchy vector of integers. -/
theorem hierarchical (h : MachineLaws c rnd val vd pv u w a b r) (randMax : K) (hr : 16 ≤ val randMax) (th : D) (ht : 0 < pv (c.toFloat th))
    (hu : 11 * r ≤ pv (c.toFloat th)) :
    ∃ N : Nat, ∀ (d0 d1 d2 : Nat) (f : Nat × Nat × Nat → D) (vec : List D) (zs : List Int) (κ : ℝ), 0 < d0 → 0 < d1 → 0 < d2 → d1 * d2 < 2 ^ 32 →
      d0 < 2147483648 → vec.map vd = zs.map (fun z : Int => (z : ℝ)) → (∀ z ∈ zs, |z| ≤ 2 ^ 31) →
      let parents := zs.map (· - 1)
      IsTree d0 parents (parents.length - 1) → NearestFirst d0 parents → d0 < parents.length →
      (1 + u) ^ d0 ≤ 3 / 2 → (∀ i j k, i < d0 → j < d1 → k < d2 → 0 ≤ vd (f (i, j, k))) →
      let v := fun j k l => vd (f (l, j, k))
      let all := Finset.range d0
      size3 d1 d2 v all ≤ κ * gain3 d1 d2 v all → size3 d1 d2 v all ≤ κ * loss3 d1 d2 v all →
      let ε := relErr u w κ (4 * d0 + d1 * d2 + 3)
      ε ≤ 1 →
      ∀ fuel, N ≤ fuel → ∃ t, haggregateR c false fuel randMax rnd (rArray d0 d1 d2 f) vec th = .ok t ∧
        NearSheet vd (ε + 2 * b) r (80 * u + 40 * b) (areaErr a b) HRow.parameter HRow.gain HRow.loss
          (fun x => (x.node, x.size)) (fun n : Nat => ((n : Int) + 1, ((leavesUnder d0 parents n).card : Int))) (LeafCover d0 parents) (LeafCover d0 parents)
          (relative (gain3 d1 d2 v) (loss3 d1 d2 v) all (leavesUnder d0 parents)) t := by
  obtain ⟨N, hN⟩ := machine_sheet h randMax hr (c.toFloat th) ht hu
  refine ⟨N, ?_⟩
  intro d0 d1 d2 f vec zs κ h0 h1 h2 hF hb hvec hz parents tree near hlt hs hpos v all sX sY ε hε fuel hf
  obtain ⟨md, m1, m2, m3⟩ := C03.right d0 parents _ tree near
  have hc : ∃ o, HValuesN3.ofVec (table3 d0 d1 d2 (fun x => c.wide (f x))) parents = .ok o := by
    unfold HValuesN3.ofVec
    rw [SIZE1_table3, m1]
    exact ⟨_, rfl⟩
  obtain ⟨o, hc⟩ := hc
  obtain ⟨md', m1', hold⟩ := HValuesN3.ofVec_holds h0 h1 hF (fun x => c.wide (f x)) hc
  obtain rfl : md = md' := Except.ok.inj (m1.symm.trans m1')
  have hmd : RightMeta d0 parents o.toHValues.md := by
    show RightMeta d0 parents o.md
    rw [hold.md]; exact m3
  have hroot : o.toHValues.md.root = parents.length - 1 := by
    show o.md.root = _
    rw [hold.md]; exact m2
  have hv : HData o.toHValues (d1 * d2) d0 (fun k l => c.wide (f (l, k / d2, k % d2))) := hold.data
  have hp : ∀ k l, k < d1 * d2 → l < d0 → 0 ≤ val (c.wide (f (l, k / d2, k % d2))) := by
    intro k l hk hl
    rw [h.wide]
    exact hpos _ _ _ hl (C49.divMod_aux hk).1 (C49.divMod_aux hk).2
  obtain ⟨q, g, e, hq, cell⟩ := C58.hierarchical_aux h.log h.w_le d0 parents _ hmd hlt hb (d1 * d2) _ hv hs hp
  obtain ⟨q', e', hq'⟩ := hqNormalize_spec hq hmd.tree.rootLt
  have hnum : C58.numbers val (fun k l => c.wide (f (l, k / d2, k % d2))) = fun k l => vd (f (l, k / d2, k % d2)) := by
    funext k o; exact h.wide _
  rw [hnum] at cell
  set V : Nat → Nat → ℝ := fun k l => vd (f (l, k / d2, k % d2)) with hV
  have hVp : ∀ k l, k < d1 * d2 → l < d0 → 0 ≤ V k l := fun k i hk hi => by have := hp k i hk hi; rw [h.wide] at this; exact this
  have hall := leavesUnder_root hmd.tree
  have hqual : relative (gain3 d1 d2 v) (loss3 d1 d2 v) all (leavesUnder d0 parents) =
      relTo (d1 * d2) V (leavesUnder d0 parents) o.toHValues.md.root := by
    unfold relTo
    rw [hall]
    exact C49.rel_aux d1 d2 v all (leavesUnder d0 parents)
  have hsz : ∑ k ∈ Finset.range (d1 * d2), dataSize (leavesUnder d0 parents o.toHValues.md.root) (V k) = size3 d1 d2 v all := by
    rw [hall]; exact size_aux d1 d2 v all
  have hg : (entQ (d1 * d2) V (leavesUnder d0 parents o.toHValues.md.root)).gain = gain3 d1 d2 v all := by
    rw [hall]; exact (C49.series_aux d1 d2 v all).1
  have hl : (entQ (d1 * d2) V (leavesUnder d0 parents o.toHValues.md.root)).loss = loss3 d1 d2 v all := by
    rw [hall]; exact (C49.series_aux d1 d2 v all).2
  have ho : IsPartitioner (hOps (F := F) q' o.toHValues.md) := .hierarchical d0 parents _ q' _ hmd hlt hq'
  have key : haggregateR c false fuel randMax rnd (rArray d0 d1 d2 f) vec th =
      (rSearch (hOps (F := F) q' o.toHValues.md) (fun (p, n, s, g, l) => (⟨p, (n : Int) + 1, s, g, l⟩ : HRow F K)) false fuel randMax rnd
        (c.toFloat th)).map (c.result c.hRow) := by
    unfold haggregateR
    rw [array_aux, hierarchy_aux h vec zs hvec hz]
    unfold haggregateIn
    rw [convertToMicroModel_rArray]
    simp only [okBind]
    rw [hc]
    simp only [okBind]
    rw [e]
    simp only [okBind]
    rw [hNormalize_object e']
    simp only [okBind]
    cases rSearch (hOps (F := F) q' o.toHValues.md) (fun (p, n, s, g, l) => (⟨p, (n : Int) + 1, s, g, l⟩ : HRow F K)) false fuel randMax rnd
      (c.toFloat th) <;> rfl
  have hne := leaves_nonempty hmd.tree hmd.tree.rootLt
  have hsheet := hN (hOps (F := F) q' o.toHValues.md) ho (fun (p, n, s, g, l) => (⟨p, (n : Int) + 1, s, g, l⟩ : HRow F K)) c.hRow
    HRow.parameter HRow.gain HRow.loss
    (fun x => (x.node, x.size)) (fun n : Nat => ((n : Int) + 1, ((leavesUnder d0 parents n).card : Int))) (fun x => x.2.2.2.1) (fun x => x.2.2.2.2)
    (LeafCover d0 parents) (LeafCover d0 parents) (relative (gain3 d1 d2 v) (loss3 d1 d2 v) all (leavesUnder d0 parents))
    (fun p n => (p, n, o.toHValues.md.sizeOf n, ((g n).div (nDiv (o.toHValues.md.root < n) (g o.toHValues.md.root))).gain,
      ((g n).div (nDiv (o.toHValues.md.root < n) (g o.toHValues.md.root))).loss)) ε
    (err_aux h _ (pos_aux (A := Nat) (κ := κ) (Nat.mul_pos h1 h2) hne (V := V) (nonneg_hCells hVp)
        (by rw [hsz, hg]; exact sX) (by rw [hsz, hl]; exact sY)).2.2) hε
    (by
      intro p P x hx
      simp only [hOps, List.mem_map] at hx
      obtain ⟨y, _, rfl⟩ := hx
      rfl)
    (by rintro ⟨p, s, e, g, l⟩; exact ⟨rfl, rfl, rfl⟩)
    (by
      intro p P p' P' hh
      simp only [hOps, List.map_map] at hh
      have := allEq_aux HPart.eqOp (fun x : HPart K => ((x.h : Int) + 1, (x.size : Int))) (by
        intro x y hxy
        simp only [Prod.mk.injEq] at hxy
        have e1 : x.h = y.h := by omega
        have e2 : x.size = y.size := by omega
        simp [HPart.eqOp, e1, e2]) P.parts P'.parts hh
      simp only [hOps, HPartition.eqOp]
      rw [if_neg (by simp [this.1]), this.2])
    (by
      intro p hp0 hp1
      obtain ⟨X, T, C, ds, L, b1, _, _, b4, _, _⟩ := hBest_spec hmd hlt hq' p
      obtain ⟨X', L', g1, g2, g3, g4, g5⟩ := C50.hierarchical (F := F) h.log.toRoundedLaws d0 parents _ hmd hlt q' _ hq' p
      obtain rfl : X = X' := Except.ok.inj (b1.symm.trans g1)
      have eL : L = L' := by
        rw [b4, List.map_map] at g3
        rw [← g3]
        exact (List.map_id L).symm
      subst eL
      refine best_aux h (q := g) (q' := fun n => (g n).div (nDiv (o.toHValues.md.root < n) (g o.toHValues.md.root))) (cells := leavesUnder d0 parents)
        (w0 := o.toHValues.md.root) (V := V) (N := d0) (ok := fun n => n < parents.length) (κ := κ)
        (Nat.mul_pos h1 h2) hne (nonneg_hCells hVp)
        (by rw [hall, Finset.card_range]) (by rw [hsz, hg]; exact sX) (by rw [hsz, hl]; exact sY) hε
        (fun n hn => ⟨(cell n hn).2, by unfold nDiv; rw [if_neg (by omega)]⟩) hmd.tree.rootLt hqual (hOps q' o.toHValues.md)
        (fun x => x.2.2.2.1) (fun x => x.2.2.2.2)
        (fun p n => (p, n, o.toHValues.md.sizeOf n, ((g n).div (nDiv (o.toHValues.md.root < n) (g o.toHValues.md.root))).gain,
          ((g n).div (nDiv (o.toHValues.md.root < n) (g o.toHValues.md.root))).loss))
        (fun x => ((x.2.1 : Int) + 1, (x.2.2.1 : Int))) (fun n : Nat => ((n : Int) + 1, ((leavesUnder d0 parents n).card : Int))) p hp0 hp1
        (LeafCover d0 parents) (LeafCover d0 parents)
        (fun M hM => ⟨leafCover_cuts hmd.tree hM, hM.1⟩) (fun M hM => ⟨leafCover_cuts hmd.tree hM, hM.1⟩) b1 g2 ?_ ?_ g4 g5
      · simp only [hOps]
        rw [b4, List.map_map]
        rfl
      · intro y hy
        have := hmd.size y (g2.1 y hy)
        refine ⟨?_, rfl, rfl⟩
        simp [HMeta.sizeOf, this])
    fuel hf
  obtain ⟨res, e1, e2⟩ := hsheet
  exact ⟨_, by rw [key, e1]; rfl, e2⟩

/-- `daggregate(micro, h, th)`, for a hierarchy vector of integers; among the coarse-first partitions (see C21). -/
theorem spatiotemporal (h : MachineLaws c rnd val vd pv u w a b r) (randMax : K) (hr : 16 ≤ val randMax) (th : D) (ht : 0 < pv (c.toFloat th))
    (hu : 11 * r ≤ pv (c.toFloat th)) :
    ∃ N : Nat, ∀ (d0 d1 d2 : Nat) (f : Nat × Nat × Nat → D) (vec : List D) (zs : List Int) (κ : ℝ), 0 < d0 → 0 < d1 → 0 < d2 → d2 ≤ 65535 →
      d0 * d2 < 2147483648 → vec.map vd = zs.map (fun z : Int => (z : ℝ)) → (∀ z ∈ zs, |z| ≤ 2 ^ 31) →
      let parents := zs.map (· - 1)
      IsTree d0 parents (parents.length - 1) → NearestFirst d0 parents → d0 < parents.length →
      (1 + u) ^ (d0 * d2) ≤ 3 / 2 → (∀ i j k, i < d0 → j < d1 → k < d2 → 0 ≤ vd (f (i, j, k))) →
      let v := fun j (_ : Nat) (x : Nat × Nat) => vd (f (x.1, j, x.2))
      let all := Finset.range d0 ×ˢ Finset.Icc 0 (d2 - 1)
      size3 d1 1 v all ≤ κ * gain3 d1 1 v all → size3 d1 1 v all ≤ κ * loss3 d1 1 v all →
      let ε := relErr u w κ (4 * (d0 * d2) + d1 + 3)
      ε ≤ 1 →
      ∀ fuel, N ≤ fuel → ∃ t, daggregateR c false fuel randMax rnd (rArray d0 d1 d2 f) vec th = .ok t ∧
        NearSheet vd (ε + 2 * b) r (80 * u + 40 * b) (areaErr a b) DRow.parameter DRow.gain DRow.loss
          (fun x => (x.node, x.size, x.start, x.end))
          (fun x : Rect => ((x.node : Int) + 1, ((leavesUnder d0 parents x.node).card : Int) * (x.last - x.first + 1), (x.first : Int) + 1,
            (x.last : Int) + 1))
          (fun L => CellCover d0 parents d2 L ∧ CoarseFirst parents L) (fun L => CellCover d0 parents d2 L ∧ CoarseFirst parents L)
          (relative (gain3 d1 1 v) (loss3 d1 1 v) all (fun x : Rect => leavesUnder d0 parents x.node ×ˢ Finset.Icc x.first x.last)) t := by
  obtain ⟨N, hN⟩ := machine_sheet h randMax hr (c.toFloat th) ht hu
  refine ⟨N, ?_⟩
  intro d0 d1 d2 f vec zs κ h0 h1 h2 h2' hb hvec hz parents tree near hlt hs hpos v all sX sY ε hε fuel hf
  obtain ⟨md, m1, m2, m3⟩ := C03.right d0 parents _ tree near
  have hc : ∃ o, DValuesN3.ofVec (table3 d0 d1 d2 (fun x => c.wide (f x))) parents = .ok o := by
    unfold DValuesN3.ofVec
    rw [SIZE1_table3, m1]
    exact ⟨_, rfl⟩
  obtain ⟨o, hc⟩ := hc
  obtain ⟨md', m1', hold⟩ := DValuesN3.ofVec_holds h0 h1 (fun x => c.wide (f x)) hc
  obtain rfl : md = md' := Except.ok.inj (m1.symm.trans m1')
  have hmd : RightMeta d0 parents o.toDValues.md := by
    show RightMeta d0 parents o.md
    rw [hold.md]; exact m3
  have hroot : o.toDValues.md.root = parents.length - 1 := by
    show o.md.root = _
    rw [hold.md]; exact m2
  have hv : DData o.toDValues d1 d0 d2 (fun k x => c.wide (f (x.1, k, x.2))) := hold.data
  have hp : ∀ k l x, k < d1 → l < d0 → x < d2 → 0 ≤ val (c.wide (f (l, k, x))) := by
    intro k l x hk hl hx
    rw [h.wide]
    exact hpos _ _ _ hl hk hx
  obtain ⟨q, g, e, hq, cell⟩ := C58.spatiotemporal_aux h.log h.w_le d0 parents _ hmd hlt d1 d2 h2' hb _ hv hs hp
  obtain ⟨q', e', hq'⟩ := dqNormalize_spec hq hmd.tree.rootLt hmd.hsize h2 h2'
  have hnum : C58.numbers val (fun k (x : Nat × Nat) => c.wide (f (x.1, k, x.2))) = fun k x => vd (f (x.1, k, x.2)) := by
    funext k o; exact h.wide _
  rw [hnum] at cell
  set V : Nat → Nat × Nat → ℝ := fun k x => vd (f (x.1, k, x.2)) with hV
  have hVp : ∀ k l x, k < d1 → l < d0 → x < d2 → 0 ≤ V k (l, x) := fun k l x hk hl hx => by
    have := hp k l x hk hl hx; rw [h.wide] at this; exact this
  have hall : dCells d0 parents ⟨o.toDValues.md.root, 0, d2 - 1⟩ = all := by
    unfold dCells; rw [leavesUnder_root hmd.tree]
  have hqual : relative (gain3 d1 1 v) (loss3 d1 1 v) all (fun x : Rect => leavesUnder d0 parents x.node ×ˢ Finset.Icc x.first x.last) =
      relTo d1 V (dCells d0 parents) ⟨o.toDValues.md.root, 0, d2 - 1⟩ := by
    unfold relTo
    rw [hall]
    have := C49.rel_aux d1 1 v all (dCells d0 parents)
    simp only [Nat.mul_one, Nat.div_one] at this
    exact this
  have hsz : ∑ k ∈ Finset.range d1, dataSize (dCells d0 parents ⟨o.toDValues.md.root, 0, d2 - 1⟩) (V k) = size3 d1 1 v all := by
    rw [hall]
    have := size_aux d1 1 v all
    simp only [Nat.mul_one, Nat.div_one] at this
    exact this
  have hg : (entQ d1 V (dCells d0 parents ⟨o.toDValues.md.root, 0, d2 - 1⟩)).gain = gain3 d1 1 v all := by
    rw [hall]
    have := (C49.series_aux d1 1 v all).1
    simp only [Nat.mul_one, Nat.div_one] at this
    exact this
  have hl : (entQ d1 V (dCells d0 parents ⟨o.toDValues.md.root, 0, d2 - 1⟩)).loss = loss3 d1 1 v all := by
    rw [hall]
    have := (C49.series_aux d1 1 v all).2
    simp only [Nat.mul_one, Nat.div_one] at this
    exact this
  have ho : IsPartitioner (dOps (F := F) q' o.toDValues.md) := .spatiotemporal d0 parents _ d2 q' _ hmd h2 h2' hq'
  have key : daggregateR c false fuel randMax rnd (rArray d0 d1 d2 f) vec th =
      (rSearch (dOps (F := F) q' o.toDValues.md)
        (fun (p, n, s, a, b, g, l) => (⟨p, (n : Int) + 1, s, (a : Int) + 1, (b : Int) + 1, g, l⟩ : DRow F K)) false fuel randMax rnd
        (c.toFloat th)).map (c.result c.dRow) := by
    unfold daggregateR
    rw [array_aux, hierarchy_aux h vec zs hvec hz]
    unfold daggregateIn
    rw [convertToMicroModel_rArray]
    simp only [okBind]
    rw [hc]
    simp only [okBind]
    rw [e]
    simp only [okBind]
    rw [dNormalize_object hv.osize h2 e']
    simp only [okBind]
    cases rSearch (dOps (F := F) q' o.toDValues.md)
      (fun (p, n, s, a, b, g, l) => (⟨p, (n : Int) + 1, s, (a : Int) + 1, (b : Int) + 1, g, l⟩ : DRow F K)) false fuel randMax rnd
      (c.toFloat th) <;> rfl
  have hne : (dCells d0 parents ⟨o.toDValues.md.root, 0, d2 - 1⟩).Nonempty :=
    (leaves_nonempty hmd.tree hmd.tree.rootLt).product (Finset.nonempty_Icc.mpr (Nat.zero_le _))
  have hcard : (dCells d0 parents ⟨o.toDValues.md.root, 0, d2 - 1⟩).card ≤ d0 * d2 := by
    rw [hall, Finset.card_product, Finset.card_range, Nat.card_Icc]
    exact Nat.mul_le_mul_left _ (by omega)
  have hcover : ∀ M, CellCover d0 parents d2 M ∧ CoarseFirst parents M →
      Cuts (dCells d0 parents) M (dCells d0 parents ⟨o.toDValues.md.root, 0, d2 - 1⟩) ∧
        ∀ x ∈ M, x.node < parents.length ∧ x.first ≤ x.last ∧ x.last < d2 :=
    fun M hM => ⟨cellCover_cuts hmd.tree hM.1 h2, fun x hx => hM.1.1 x hx⟩
  have hsheet := hN (dOps (F := F) q' o.toDValues.md) ho
    (fun (p, n, s, a, b, g, l) => (⟨p, (n : Int) + 1, s, (a : Int) + 1, (b : Int) + 1, g, l⟩ : DRow F K)) c.dRow
    DRow.parameter DRow.gain DRow.loss (fun x => (x.node, x.size, x.start, x.end))
    (fun x : Rect => ((x.node : Int) + 1, ((leavesUnder d0 parents x.node).card : Int) * (x.last - x.first + 1), (x.first : Int) + 1,
      (x.last : Int) + 1)) (fun x => x.2.2.2.2.2.1) (fun x => x.2.2.2.2.2.2)
    (fun L => CellCover d0 parents d2 L ∧ CoarseFirst parents L) (fun L => CellCover d0 parents d2 L ∧ CoarseFirst parents L)
    (relative (gain3 d1 1 v) (loss3 d1 1 v) all (fun x : Rect => leavesUnder d0 parents x.node ×ˢ Finset.Icc x.first x.last))
    (fun p x => (p, x.node, (dPartOf o.toDValues.md (fun n i j => (g n i j).div (nDiv (o.toDValues.md.root < n) (g o.toDValues.md.root 0 (d2 - 1)))) x).getSize,
      x.first, x.last,
      ((g x.node x.first x.last).div (nDiv (o.toDValues.md.root < x.node) (g o.toDValues.md.root 0 (d2 - 1)))).gain,
      ((g x.node x.first x.last).div (nDiv (o.toDValues.md.root < x.node) (g o.toDValues.md.root 0 (d2 - 1)))).loss)) ε
    (err_aux h _ (pos_aux (A := Nat) (κ := κ) h1 hne (V := V) (nonneg_dCells hVp (by omega))
        (by rw [hsz, hg]; exact sX) (by rw [hsz, hl]; exact sY)).2.2) hε
    (by
      intro p P x hx
      simp only [dOps, List.mem_map] at hx
      obtain ⟨y, _, rfl⟩ := hx
      rfl)
    (by rintro ⟨p, n, s, i, j, g, l⟩; exact ⟨rfl, rfl, rfl⟩)
    (by
      intro p P p' P' hh
      simp only [dOps, List.map_map] at hh
      have hh : P.parts.map (fun x : DPart K => ((x.h : Int) + 1, x.getSize, (x.start : Int) + 1, (x.end : Int) + 1)) =
        P'.parts.map (fun x : DPart K => ((x.h : Int) + 1, x.getSize, (x.start : Int) + 1, (x.end : Int) + 1)) := hh
      have hlen : P.parts.length = P'.parts.length := by have := congrArg List.length hh; simpa using this
      simp only [dOps, DPartition.eqOp]
      rw [if_neg (by simp [hlen]), List.all_eq_true]
      intro x hx
      rw [List.any_eq_true]
      have hm : ((x.h : Int) + 1, x.getSize, (x.start : Int) + 1, (x.end : Int) + 1) ∈
        P'.parts.map (fun x : DPart K => ((x.h : Int) + 1, x.getSize, (x.start : Int) + 1, (x.end : Int) + 1)) := by
        rw [← hh]
        exact List.mem_map.mpr ⟨x, hx, rfl⟩
      obtain ⟨y, hy, hxy⟩ := List.mem_map.mp hm
      refine ⟨y, hy, ?_⟩
      simp only [Prod.mk.injEq] at hxy
      have e1 : x.h = y.h := by omega
      have e2 : x.start = y.start := by omega
      have e3 : x.end = y.end := by omega
      simp [DPart.eqOp, e1, e2, e3, hxy.2.1])
    (by
      intro p hp0 hp1
      obtain ⟨X, T, C, ds, L, b1, _, _, b4, _, _⟩ := dBest_spec hmd hq' h2 h2' p
      obtain ⟨X', L', g1, g2, g2', g3, g4, g5⟩ := C50.spatiotemporal (F := F) h.log.toRoundedLaws d0 parents _ hmd d2 h2 h2' q' _ hq' p
      obtain rfl : X = X' := Except.ok.inj (b1.symm.trans g1)
      have eL : L = L' := by
        rw [b4, List.map_map] at g3
        rw [← g3]
        exact (List.map_id L).symm
      subst eL
      refine best_aux h (q := fun x : Rect => g x.node x.first x.last)
        (q' := fun x : Rect => (g x.node x.first x.last).div (nDiv (o.toDValues.md.root < x.node) (g o.toDValues.md.root 0 (d2 - 1))))
        (cells := dCells d0 parents)
        (w0 := ⟨o.toDValues.md.root, 0, d2 - 1⟩) (V := V) (N := d0 * d2)
        (ok := fun x : Rect => x.node < parents.length ∧ x.first ≤ x.last ∧ x.last < d2) (κ := κ)
        h1 hne (nonneg_dCells hVp (by omega)) hcard (by rw [hsz, hg]; exact sX) (by rw [hsz, hl]; exact sY) hε
        (fun x hx => ⟨(cell x.node x.first x.last hx.1 hx.2.1 hx.2.2).2, by unfold nDiv; rw [if_neg (by omega)]⟩)
        ⟨hmd.tree.rootLt, Nat.zero_le _, by show d2 - 1 < d2; omega⟩ hqual (dOps q' o.toDValues.md)
        (fun x => x.2.2.2.2.2.1) (fun x => x.2.2.2.2.2.2)
        (fun p x => (p, x.node,
          (dPartOf o.toDValues.md (fun n i j => (g n i j).div (nDiv (o.toDValues.md.root < n) (g o.toDValues.md.root 0 (d2 - 1)))) x).getSize,
          x.first, x.last,
          ((g x.node x.first x.last).div (nDiv (o.toDValues.md.root < x.node) (g o.toDValues.md.root 0 (d2 - 1)))).gain,
          ((g x.node x.first x.last).div (nDiv (o.toDValues.md.root < x.node) (g o.toDValues.md.root 0 (d2 - 1)))).loss))
        (fun x => ((x.2.1 : Int) + 1, x.2.2.1, (x.2.2.2.1 : Int) + 1, (x.2.2.2.2.1 : Int) + 1))
        (fun x : Rect => ((x.node : Int) + 1, ((leavesUnder d0 parents x.node).card : Int) * (x.last - x.first + 1), (x.first : Int) + 1,
          (x.last : Int) + 1)) p hp0 hp1
        (fun L => CellCover d0 parents d2 L ∧ CoarseFirst parents L) (fun L => CellCover d0 parents d2 L ∧ CoarseFirst parents L)
        hcover hcover b1 ⟨g2, g2'⟩ ?_ ?_ g4 ?_
      · simp only [dOps]
        rw [b4, List.map_map]
        rfl
      · intro y hy
        have := hmd.size y.node (g2.1 y hy).1
        refine ⟨?_, rfl, rfl⟩
        simp [dPartOf, DPart.getSize, HMeta.sizeOf, this]
      · intro L' hL'
        refine within_aux (g5 L' hL'.1 hL'.2) ?_
        have hle : d0 + d2 ≤ d0 * d2 + 1 := by
          obtain ⟨x, rfl⟩ := Nat.exists_eq_add_of_lt h0
          obtain ⟨y, rfl⟩ := Nat.exists_eq_add_of_lt h2
          nlinarith
        have := pow_le_pow_right₀ (show 1 ≤ 1 + u by linarith [h.log.unit_nonneg]) hle
        linarith)
    fuel hf
  obtain ⟨res, e1, e2⟩ := hsheet
  exact ⟨_, by rw [key, e1]; rfl, e2⟩

/-! ## On a PC -/

/-- Weaker bounds. -/
theorem mono_aux {A R Z : Type} {vd : D → ℝ} {δ δ' r ρ : ℝ} {α : Nat → ℝ} {param gainCol lossCol : R → D} {place : R → Z} {placeOf : A → Z}
    {part rival : List A → Prop} {quality : A → Quality ℝ} {t : RResult D D R}
    (h : NearSheet vd δ r ρ α param gainCol lossCol place placeOf part rival quality t) (hd : δ ≤ δ') :
    NearSheet vd δ' r ρ α param gainCol lossCol place placeOf part rival quality t where
  first := h.first
  sorted := h.sorted
  range := h.range
  grouped := h.grouped
  rows e he := by
    obtain ⟨L, l1, l2, l3, l4, l5, l6, l7, l8, l9, q, q1, q2⟩ := h.rows e he
    exact ⟨L, l1, l2, l3.imp (fun _ _ hh => ⟨hh.1.trans hd, hh.2.trans hd⟩), l4.trans hd, l5.trans hd, l6, l7, l8, l9, q, q1,
      fun L' hL' => (q2 L' hL').trans (by linarith)⟩
  changes := h.changes
  opt := h.opt
  auc := h.auc

theorem pcErr_aux (n m : Nat) (hn : n ≤ 65535) (hm : m ≤ 65535) (κ : ℝ) (hκ : 0 ≤ κ) :
    relErr (1 / 2 ^ 63) (logAccuracy (truncationIn ℝ 63) (truncationIn ℝ 52)) κ (4 * n + m + 3) ≤ κ / 2 ^ 39 ∧ ((1 : ℝ) + 1 / 2 ^ 63) ^ n ≤ 3 / 2 := by
  have hw := C58.x87_accuracy
  have h0 := C58.x87.acc_nonneg
  set w := logAccuracy (truncationIn ℝ 63) (truncationIn ℝ 52)
  have hk : ((4 * n + m + 3 : Nat) : ℝ) ≤ 327678 := by
    have : 4 * n + m + 3 ≤ 327678 := by omega
    exact_mod_cast this
  have h1 := C50.factor (1 / 2 ^ 63 : ℝ) (4 * n + m + 3) (by positivity) (by linarith)
  have h2 : ((1 : ℝ) + 1 / 2 ^ 63) ^ (4 * n + m + 3) ≤ 1 + 1 / 2 ^ 43 := by linarith
  have h3 : (1 + w) ^ 3 ≤ 1 + 1 / 2 ^ 48 := by
    have : (1 + w) ^ 3 ≤ (1 + 1 / 2 ^ 50) ^ 3 := pow_le_pow_left₀ (by linarith) (by linarith) 3
    refine le_trans this ?_
    norm_num
  constructor
  · have h4 : (1 + w) ^ 3 * (1 + 1 / 2 ^ 63) ^ (4 * n + m + 3) - 1 ≤ 1 / 2 ^ 42 := by
      have := mul_le_mul h3 h2 (by positivity) (by norm_num)
      refine le_trans (sub_le_sub_right this 1) ?_
      norm_num
    have := mul_le_mul_of_nonneg_right h4 hκ
    unfold relErr
    norm_num at this ⊢
    linarith
  · have : ((1 : ℝ) + 1 / 2 ^ 63) ^ n ≤ (1 + 1 / 2 ^ 63) ^ (4 * n + m + 3) :=
      pow_le_pow_right₀ (by norm_num) (by omega)
    refine le_trans this (le_trans h2 ?_)
    norm_num

section
variable (S : Rounding64) (R : Rounding)

theorem randMax_aux : 16 ≤ (pcLong 2147483647).val := by
  rw [pcLong_val]
  · norm_num
  · have h : IsB64 (((2147483647 : ℤ)) : ℚ) := isBin_int (by norm_num)
    exact_mod_cast h

/-- What is proved of the results on a PC (see the theorems below): gains and losses up to `κ/2^39 + 2^-51`. -/
abbrev PcSheet {A R Z : Type} (κ : ℝ) (param gainCol lossCol : R → B64) (place : R → Z) (placeOf : A → Z)
    (part rival : List A → Prop) (quality : A → Quality ℝ) (t : RResult B64 B64 R) : Prop :=
  NearSheet (fun d : B64 => ((d.1 : ℚ) : ℝ)) (κ / 2 ^ 39 + 2 * (1 / 2 ^ 52)) ((1 / 2 ^ 23 : ℚ) : ℝ) (80 * (1 / 2 ^ 63) + 40 * (1 / 2 ^ 52))
    (areaErr ((1 + 1 / 2 ^ 63) * (1 + 1 / 2 ^ 23) - 1) (1 / 2 ^ 52)) param gainCol lossCol place placeOf part rival quality t

/-- `oaggregate` on a PC, with any rounding of `float` and `double`: at most 65535 slices and 65535 series. -/
theorem pcOrdered (th : B64) (ht : 11 / 2 ^ 23 ≤ R.rnd th.1) :
    ∃ N : Nat, ∀ (d0 d1 d2 : Nat) (f : Nat × Nat × Nat → B64) (κ : ℝ), 0 < d0 → 0 < d1 → 0 < d2 → d2 ≤ 65535 → d0 * d1 ≤ 65535 →
      (∀ i j k, i < d0 → j < d1 → k < d2 → 0 ≤ (f (i, j, k)).1) →
      let v := fun i j k => (((f (i, j, k)).1 : ℚ) : ℝ)
      let all := Finset.Icc 0 (d2 - 1)
      0 ≤ κ → κ ≤ 2 ^ 39 → size3 d0 d1 v all ≤ κ * gain3 d0 d1 v all → size3 d0 d1 v all ≤ κ * loss3 d0 d1 v all →
      ∀ fuel, N ≤ fuel → ∃ t, oaggregateR (pcNum S R (fun x => b32_b64 x.2)) false fuel (pcLong 2147483647) pcAcc (rArray d0 d1 d2 f) th = .ok t ∧
        PcSheet κ ORow.parameter ORow.gain ORow.loss
          (fun x => (x.start, x.end)) (fun I : Nat × Nat => ((I.1 : Int) + 1, (I.2 : Int) + 1)) (Tiles 0 d2) (Tiles 0 d2)
          (relative (gain3 d0 d1 v) (loss3 d0 d1 v) all (fun I : Nat × Nat => Finset.Icc I.1 I.2)) t := by
  obtain ⟨N, hN⟩ := ordered (pcLaws S R) (pcLong 2147483647) randMax_aux th
    (by show 0 < R.rnd th.1; refine lt_of_lt_of_le ?_ ht; norm_num) (by show 11 * (1 / 2 ^ 23) ≤ R.rnd th.1; refine le_trans ?_ ht; norm_num)
  refine ⟨N, ?_⟩
  intro d0 d1 d2 f κ h0 h1 h2 h2' hm hpos v all k0 k1 sX sY fuel hf
  obtain ⟨e1, e2⟩ := pcErr_aux d2 (d0 * d1) h2' hm κ k0
  have e3 : κ / 2 ^ 39 ≤ 1 := by rw [div_le_one (by positivity)]; exact k1
  obtain ⟨t, t1, t2⟩ := hN d0 d1 d2 f κ h0 h1 h2 h2' (by omega) e2 (fun i j k a b c => by exact_mod_cast hpos i j k a b c) sX sY (e1.trans e3) fuel hf
  exact ⟨t, t1, mono_aux t2 (by linarith)⟩

/-- `haggregate` on a PC: at most 65535 leaves and 65535 series. -/
theorem pcHierarchical (th : B64) (ht : 11 / 2 ^ 23 ≤ R.rnd th.1) :
    ∃ N : Nat, ∀ (d0 d1 d2 : Nat) (f : Nat × Nat × Nat → B64) (vec : List B64) (zs : List Int) (κ : ℝ), 0 < d0 → 0 < d1 → 0 < d2 → d0 ≤ 65535 →
      d1 * d2 ≤ 65535 → vec.map (fun d => d.1) = zs.map (fun z : Int => (z : ℚ)) → (∀ z ∈ zs, |z| ≤ 2 ^ 31) →
      let parents := zs.map (· - 1)
      IsTree d0 parents (parents.length - 1) → NearestFirst d0 parents → d0 < parents.length →
      (∀ i j k, i < d0 → j < d1 → k < d2 → 0 ≤ (f (i, j, k)).1) →
      let v := fun j k l => (((f (l, j, k)).1 : ℚ) : ℝ)
      let all := Finset.range d0
      0 ≤ κ → κ ≤ 2 ^ 39 → size3 d1 d2 v all ≤ κ * gain3 d1 d2 v all → size3 d1 d2 v all ≤ κ * loss3 d1 d2 v all →
      ∀ fuel, N ≤ fuel → ∃ t, haggregateR (pcNum S R (fun x => b32_b64 x.2)) false fuel (pcLong 2147483647) pcAcc (rArray d0 d1 d2 f) vec th = .ok t ∧
        PcSheet κ HRow.parameter HRow.gain HRow.loss
          (fun x => (x.node, x.size)) (fun n : Nat => ((n : Int) + 1, ((leavesUnder d0 parents n).card : Int))) (LeafCover d0 parents)
          (LeafCover d0 parents) (relative (gain3 d1 d2 v) (loss3 d1 d2 v) all (leavesUnder d0 parents)) t := by
  obtain ⟨N, hN⟩ := hierarchical (pcLaws S R) (pcLong 2147483647) randMax_aux th
    (by show 0 < R.rnd th.1; refine lt_of_lt_of_le ?_ ht; norm_num) (by show 11 * (1 / 2 ^ 23) ≤ R.rnd th.1; refine le_trans ?_ ht; norm_num)
  refine ⟨N, ?_⟩
  intro d0 d1 d2 f vec zs κ h0 h1 h2 h0' hm hvec hz parents tree near hlt hpos v all k0 k1 sX sY fuel hf
  obtain ⟨e1, e2⟩ := pcErr_aux d0 (d1 * d2) h0' hm κ k0
  have e3 : κ / 2 ^ 39 ≤ 1 := by rw [div_le_one (by positivity)]; exact k1
  have hvec' : vec.map (fun d : B64 => ((d.1 : ℚ) : ℝ)) = zs.map (fun z : Int => (z : ℝ)) := by
    have := congrArg (List.map (fun q : ℚ => (q : ℝ))) hvec
    rw [List.map_map, List.map_map] at this
    refine this.trans (List.map_congr_left (fun z _ => ?_))
    simp
  obtain ⟨t, t1, t2⟩ := hN d0 d1 d2 f vec zs κ h0 h1 h2 (by omega) (by omega) hvec' hz tree near hlt e2
    (fun i j k a b c => by exact_mod_cast hpos i j k a b c) sX sY (e1.trans e3) fuel hf
  exact ⟨t, t1, mono_aux t2 (by linarith)⟩

/-- `daggregate` on a PC: at most 65535 cells and 65535 series. -/
theorem pcSpatiotemporal (th : B64) (ht : 11 / 2 ^ 23 ≤ R.rnd th.1) :
    ∃ N : Nat, ∀ (d0 d1 d2 : Nat) (f : Nat × Nat × Nat → B64) (vec : List B64) (zs : List Int) (κ : ℝ), 0 < d0 → 0 < d1 → 0 < d2 → d0 * d2 ≤ 65535 →
      d1 ≤ 65535 → vec.map (fun d => d.1) = zs.map (fun z : Int => (z : ℚ)) → (∀ z ∈ zs, |z| ≤ 2 ^ 31) →
      let parents := zs.map (· - 1)
      IsTree d0 parents (parents.length - 1) → NearestFirst d0 parents → d0 < parents.length →
      (∀ i j k, i < d0 → j < d1 → k < d2 → 0 ≤ (f (i, j, k)).1) →
      let v := fun j (_ : Nat) (x : Nat × Nat) => (((f (x.1, j, x.2)).1 : ℚ) : ℝ)
      let all := Finset.range d0 ×ˢ Finset.Icc 0 (d2 - 1)
      0 ≤ κ → κ ≤ 2 ^ 39 → size3 d1 1 v all ≤ κ * gain3 d1 1 v all → size3 d1 1 v all ≤ κ * loss3 d1 1 v all →
      ∀ fuel, N ≤ fuel → ∃ t, daggregateR (pcNum S R (fun x => b32_b64 x.2)) false fuel (pcLong 2147483647) pcAcc (rArray d0 d1 d2 f) vec th = .ok t ∧
        PcSheet κ DRow.parameter DRow.gain DRow.loss
          (fun x => (x.node, x.size, x.start, x.end))
          (fun x : Rect => ((x.node : Int) + 1, ((leavesUnder d0 parents x.node).card : Int) * (x.last - x.first + 1), (x.first : Int) + 1,
            (x.last : Int) + 1))
          (fun L => CellCover d0 parents d2 L ∧ CoarseFirst parents L) (fun L => CellCover d0 parents d2 L ∧ CoarseFirst parents L)
          (relative (gain3 d1 1 v) (loss3 d1 1 v) all (fun x : Rect => leavesUnder d0 parents x.node ×ˢ Finset.Icc x.first x.last)) t := by
  obtain ⟨N, hN⟩ := spatiotemporal (pcLaws S R) (pcLong 2147483647) randMax_aux th
    (by show 0 < R.rnd th.1; refine lt_of_lt_of_le ?_ ht; norm_num) (by show 11 * (1 / 2 ^ 23) ≤ R.rnd th.1; refine le_trans ?_ ht; norm_num)
  refine ⟨N, ?_⟩
  intro d0 d1 d2 f vec zs κ h0 h1 h2 h0' hm hvec hz parents tree near hlt hpos v all k0 k1 sX sY fuel hf
  obtain ⟨e1, e2⟩ := pcErr_aux (d0 * d2) d1 h0' hm κ k0
  have e3 : κ / 2 ^ 39 ≤ 1 := by rw [div_le_one (by positivity)]; exact k1
  have hvec' : vec.map (fun d : B64 => ((d.1 : ℚ) : ℝ)) = zs.map (fun z : Int => (z : ℝ)) := by
    have := congrArg (List.map (fun q : ℚ => (q : ℝ))) hvec
    rw [List.map_map, List.map_map] at this
    refine this.trans (List.map_congr_left (fun z _ => ?_))
    simp
  obtain ⟨t, t1, t2⟩ := hN d0 d1 d2 f vec zs κ h0 h1 h2 (le_trans (Nat.le_mul_of_pos_left _ h0) h0') (by omega) hvec' hz tree near hlt e2
    (fun i j k a b c => by exact_mod_cast hpos i j k a b c) sX sY (e1.trans e3) fuel hf
  exact ⟨t, t1, mono_aux t2 (by linarith)⟩

end

/-! ## Examples -/

/-- The number 0 or 1. -/
def bit (b : Bool) : B64 := if b then ⟨1, isB64_one⟩ else ⟨0, isB64_zero⟩

theorem bit_aux (b : Bool) : (((bit b).1 : ℚ) : ℝ) = if b then 1 else 0 := by
  unfold bit; split <;> simp

/-- An integer. -/
def int64 (z : Int) (h : |z| ≤ 2 ^ 53) : B64 := ⟨z, isBin_int h⟩

/-- 1/1024, a threshold. -/
theorem thr_aux (R : Rounding) (th : B64) (h : th.1 = 1 / 1024) : 11 / 2 ^ 23 ≤ R.rnd th.1 := by
  rw [h, R.fix _ ⟨1, 139, by norm_num, by norm_num⟩]; norm_num

/-- `k` ones among `n` numbers. -/
theorem bits_aux {ι : Type} (s : Finset ι) (v : Nat → Nat → ι → ℝ) (b : ι → Bool) (hv : ∀ x, v 0 0 x = if b x then 1 else 0)
    {k n : Nat} (hk : (s.filter (fun x => b x = true)).card = k) (hn : s.card = n) :
    size3 1 1 v s = (k * (3 + 2 * max 0 (Real.log k) + Real.log n) + 2 * n) / Real.log 2 ∧
    gain3 1 1 v s = k * (Real.log k / Real.log 2) ∧ loss3 1 1 v s = k * (Real.log n / Real.log 2) - k * (Real.log k / Real.log 2) := by
  have hs : ∑ x ∈ s, v 0 0 x = k := by
    rw [← hk, Finset.sum_congr rfl (fun x _ => hv x), Finset.sum_ite]
    simp
  have h0 : ∑ x ∈ s, xlog2 (v 0 0 x) = 0 := by
    refine Finset.sum_eq_zero (fun x _ => ?_)
    rw [hv]
    split <;> simp [xlog2]
  have hg : gainOver s (v 0 0) = k * (Real.log k / Real.log 2) := by
    unfold gainOver
    rw [hs, h0, sub_zero]
    rfl
  refine ⟨?_, ?_, ?_⟩
  · simp only [size3, Finset.sum_range_one, dataSize]
    rw [hs, hn]
  · simp only [gain3, Finset.sum_range_one]
    exact hg
  · simp only [loss3, Finset.sum_range_one, lossOver]
    rw [hg, hs, hn]
    rfl

theorem logs_aux : 1 / 2 ≤ Real.log 2 ∧ Real.log 2 ≤ 1 ∧ Real.log 4 = 2 * Real.log 2 ∧ Real.log 8 = 3 * Real.log 2 := by
  refine ⟨?_, ?_, ?_, ?_⟩
  · have := Real.one_sub_inv_le_log_of_pos (show (0 : ℝ) < 2 by norm_num)
    linarith
  · have := Real.log_le_sub_one_of_pos (show (0 : ℝ) < 2 by norm_num)
    linarith
  · rw [show (4 : ℝ) = 2 ^ 2 by norm_num, Real.log_pow]; norm_num
  · rw [show (8 : ℝ) = 2 ^ 3 by norm_num, Real.log_pow]; norm_num

/-- Two ones among four numbers: `κ = 32` is enough. -/
theorem four_aux {ι : Type} (s : Finset ι) (v : Nat → Nat → ι → ℝ) (b : ι → Bool) (hv : ∀ x, v 0 0 x = if b x then 1 else 0)
    (hk : (s.filter (fun x => b x = true)).card = 2) (hn : s.card = 4) :
    size3 1 1 v s ≤ 32 * gain3 1 1 v s ∧ size3 1 1 v s ≤ 32 * loss3 1 1 v s := by
  obtain ⟨e1, e2, e3⟩ := bits_aux s v b hv hk hn
  obtain ⟨l1, l2, l4, _⟩ := logs_aux
  have L : 0 < Real.log 2 := by linarith
  push_cast at e1 e2 e3
  rw [max_eq_right L.le, l4] at e1
  rw [div_self L.ne'] at e2
  rw [div_self L.ne', l4, mul_div_assoc, div_self L.ne'] at e3
  have : size3 1 1 v s ≤ 36 := by rw [e1, div_le_iff₀ L]; linarith
  constructor <;> linarith

/-- Four ones among eight numbers: `κ = 32` is enough. -/
theorem eight_aux {ι : Type} (s : Finset ι) (v : Nat → Nat → ι → ℝ) (b : ι → Bool) (hv : ∀ x, v 0 0 x = if b x then 1 else 0)
    (hk : (s.filter (fun x => b x = true)).card = 4) (hn : s.card = 8) :
    size3 1 1 v s ≤ 32 * gain3 1 1 v s ∧ size3 1 1 v s ≤ 32 * loss3 1 1 v s := by
  obtain ⟨e1, e2, e3⟩ := bits_aux s v b hv hk hn
  obtain ⟨l1, l2, l4, l8⟩ := logs_aux
  have L : 0 < Real.log 2 := by linarith
  push_cast at e1 e2 e3
  rw [max_eq_right (by linarith), l4, l8] at e1
  rw [l4, mul_div_assoc, div_self L.ne'] at e2
  rw [l4, l8, mul_div_assoc, mul_div_assoc, div_self L.ne'] at e3
  have : size3 1 1 v s ≤ 84 := by rw [e1, div_le_iff₀ L]; linarith
  constructor <;> linarith

/-- What the examples show of the results. -/
theorem result_aux {A R Z : Type} {param gainCol lossCol : R → B64} {place : R → Z} {placeOf : A → Z}
    {part rival : List A → Prop} {quality : A → Quality ℝ} {t : RResult B64 B64 R}
    (h : PcSheet 32 param gainCol lossCol place placeOf part rival quality t) :
    t.qualities ≠ [] ∧ ∀ e ∈ t.qualities, e.gain.1 ≤ 1 + 1 / 2 ^ 33 ∧ -(1 / 2 ^ 33) ≤ e.loss.1 := by
  constructor
  · intro e0
    obtain ⟨p, hp, _⟩ := h.first
    rw [e0] at hp
    simp at hp
  · intro e he
    obtain ⟨L, _, _, _, l4, l5, l6, l7, l8, l9, _⟩ := h.rows e he
    have a := abs_le.mp l4
    have b := abs_le.mp l5
    have a1 : ((e.gain.1 : ℚ) : ℝ) ≤ ((1 + 1 / 2 ^ 33 : ℚ) : ℝ) := by push_cast; norm_num at a ⊢; linarith
    have b1 : ((-(1 / 2 ^ 33) : ℚ) : ℝ) ≤ ((e.loss.1 : ℚ) : ℝ) := by push_cast; norm_num at b ⊢; linarith
    exact ⟨by exact_mod_cast a1, by exact_mod_cast b1⟩

/-- The slices 1, 1, 0, 0. -/
example (S : Rounding64) (R : Rounding) (th : B64) (ht : th.1 = 1 / 1024) : ∃ fuel t,
    oaggregateR (pcNum S R (fun x => b32_b64 x.2)) false fuel (pcLong 2147483647) pcAcc ⟨1, 1, 4, [bit true, bit true, bit false, bit false]⟩ th = .ok t ∧
      t.qualities ≠ [] ∧ ∀ e ∈ t.qualities, e.gain.1 ≤ 1 + 1 / 2 ^ 33 ∧ -(1 / 2 ^ 33) ≤ e.loss.1 := by
  obtain ⟨N, h⟩ := pcOrdered S R th (thr_aux R th ht)
  have k := four_aux (Finset.Icc 0 3) (fun i j k => (((bit (decide (k < 2))).1 : ℚ) : ℝ)) (fun k => decide (k < 2))
    (fun k => bit_aux _) (by decide) (by decide)
  obtain ⟨t, t1, t2⟩ := h 1 1 4 (fun x => bit (decide (x.2.2 < 2))) 32 (by norm_num) (by norm_num) (by norm_num) (by norm_num) (by norm_num)
    (fun i j k _ _ _ => by dsimp only; unfold bit; split <;> norm_num) (by norm_num) (by norm_num) k.1 k.2 N (Nat.le_refl _)
  exact ⟨N, t, by rw [← t1]; rfl, result_aux t2⟩

/-- The vector 5, 5, 6, 6, 7, 7, 0. -/
def vec7 : List B64 := [int64 5 (by decide), int64 5 (by decide), int64 6 (by decide), int64 6 (by decide), int64 7 (by decide),
  int64 7 (by decide), int64 0 (by decide)]

theorem tree_aux : IsTree 4 [4, 4, 5, 5, 6, 6, -1] 6 ∧ NearestFirst 4 [4, 4, 5, 5, 6, 6, -1] := by
  have tree : IsTree 4 [4, 4, 5, 5, 6, 6, -1] 6 :=
    .ofCheck (fun h => if h < 4 then 2 else if h = 6 then 0 else 1) (by decide) (by decide) (by decide) (by decide)
  exact ⟨tree, balanced_nearestFirst tree
    (.ofCheck (fun h => if h < 4 then 0 else if h = 6 then 2 else 1) (by decide) (by decide) (by decide))⟩

/-- The leaves 1, 0, 1, 0. -/
example (S : Rounding64) (R : Rounding) (th : B64) (ht : th.1 = 1 / 1024) : ∃ fuel t,
    haggregateR (pcNum S R (fun x => b32_b64 x.2)) false fuel (pcLong 2147483647) pcAcc ⟨4, 1, 1, [bit true, bit false, bit true, bit false]⟩ vec7 th =
      .ok t ∧ t.qualities ≠ [] ∧ ∀ e ∈ t.qualities, e.gain.1 ≤ 1 + 1 / 2 ^ 33 ∧ -(1 / 2 ^ 33) ≤ e.loss.1 := by
  obtain ⟨N, h⟩ := pcHierarchical S R th (thr_aux R th ht)
  have k := four_aux (Finset.range 4) (fun j k l => (((bit (decide (l % 2 = 0))).1 : ℚ) : ℝ)) (fun l => decide (l % 2 = 0))
    (fun k => bit_aux _) (by decide) (by decide)
  obtain ⟨t, t1, t2⟩ := h 4 1 1 (fun x => bit (decide (x.1 % 2 = 0))) vec7 [5, 5, 6, 6, 7, 7, 0] 32 (by norm_num) (by norm_num) (by norm_num)
    (by norm_num) (by norm_num) rfl (by decide) tree_aux.1 tree_aux.2 (by decide)
    (fun i j k _ _ _ => by dsimp only; unfold bit; split <;> norm_num) (by norm_num) (by norm_num) k.1 k.2 N (Nat.le_refl _)
  exact ⟨N, t, by rw [← t1]; rfl, result_aux t2⟩

/-- The leaves 1, 1, 0, 0 during two slices. -/
example (S : Rounding64) (R : Rounding) (th : B64) (ht : th.1 = 1 / 1024) : ∃ fuel t,
    daggregateR (pcNum S R (fun x => b32_b64 x.2)) false fuel (pcLong 2147483647) pcAcc
      ⟨4, 1, 2, [bit true, bit true, bit false, bit false, bit true, bit true, bit false, bit false]⟩ vec7 th =
      .ok t ∧ t.qualities ≠ [] ∧ ∀ e ∈ t.qualities, e.gain.1 ≤ 1 + 1 / 2 ^ 33 ∧ -(1 / 2 ^ 33) ≤ e.loss.1 := by
  obtain ⟨N, h⟩ := pcSpatiotemporal S R th (thr_aux R th ht)
  have k := eight_aux (Finset.range 4 ×ˢ Finset.Icc 0 1) (fun j k x => (((bit (decide (x.1 < 2))).1 : ℚ) : ℝ)) (fun x => decide (x.1 < 2))
    (fun k => bit_aux _) (by decide) (by decide)
  obtain ⟨t, t1, t2⟩ := h 4 1 2 (fun x => bit (decide (x.1 < 2))) vec7 [5, 5, 6, 6, 7, 7, 0] 32 (by norm_num) (by norm_num) (by norm_num)
    (by norm_num) (by norm_num) rfl (by decide) tree_aux.1 tree_aux.2 (by decide)
    (fun i j k _ _ _ => by dsimp only; unfold bit; split <;> norm_num) (by norm_num) (by norm_num) k.1 k.2 N (Nat.le_refl _)
  exact ⟨N, t, by rw [← t1]; rfl, result_aux t2⟩

end Lp.C78
