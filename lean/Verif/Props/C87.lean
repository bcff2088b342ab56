import Verif.Proofs.RangeSheet
import Verif.Proofs.RangePc
import Verif.Props.C78
import Verif.Props.C84

/-!
# C87 — the exported functions on a machine with bounded exponents

C78 is about machine numbers with exponents of any size; C84 shows for the qualities and the best partition at one parameter that no
intermediate result leaves the range of the machine.  Here the whole call from R runs on a machine with bounded exponents
(`RangeMachine`, `Spec/RangeMachine.lean`): conversions, qualities, normalisation, the search for parameters, `POpt` and `AUC`.  What happens to a
result out of range is left open; for data with room in the range (`FitsNormalized`, C84) the guarantees of C78 hold all the same.
-/

namespace Lp.C87
open Spec C84
variable {D F K' K : Type} [LDLog K'] [LDLog K] [FloatP F K'] {c : RNum D F K'} {rnd : K' → K'} {fin : K' → Prop} {num : K' → K}
  {val : K → ℝ} {vd : D → ℝ} {pv : F → ℚ} {u w a s β : ℝ} {r : ℚ} {b g E Q k G : Nat}

theorem hierarchy_aux (h : RangeMachine c rnd fin num val vd pv u w a s β r b g E Q k G) (l : List D) (zs : List Int) (e : l.map vd = zs.map (fun z : Int => (z : ℝ)))
    (hb : ∀ z ∈ zs, |z| ≤ 2 ^ 31) : c.hierarchy l = zs.map (· - 1) := by
  have key : ∀ (l : List D) (zs : List Int), l.map vd = zs.map (fun z : Int => (z : ℝ)) → (∀ z ∈ zs, |z| ≤ 2 ^ 31) →
      ∀ acc, l.foldl (fun acc x => acc ++ [c.toInt (c.pred x)]) acc = acc ++ zs.map (· - 1) := by
    intro l
    induction l with
    | nil => intro zs e _ acc; cases zs with
      | nil => simp
      | cons z zs => simp at e
    | cons x l ih =>
      intro zs e hb acc
      cases zs with
      | nil => simp at e
      | cons z zs =>
        simp only [List.map_cons, List.cons.injEq] at e
        rw [List.foldl_cons, ih zs e.2 (fun y hy => hb y (List.mem_cons_of_mem _ hy)), h.int x z e.1 (hb z List.mem_cons_self)]
        simp
  have := key l zs e hb []
  simpa [RNum.hierarchy] using this

theorem err_aux (h : RangeMachine c rnd fin num val vd pv u w a s β r b g E Q k G) (n : Nat) {κ : ℝ} (hκ : 0 ≤ κ) : 0 ≤ relErr u w κ n := by
  have f1 := factor_one (u := u) (w := w) h.arith.laws.unit_nonneg h.arith.laws.acc_nonneg n
  unfold factor at f1
  unfold relErr
  have := mul_nonneg (show 0 ≤ (1 + w) ^ 3 * (1 + u) ^ n - 1 by linarith) hκ
  linarith


theorem oneSub_aux (h : RangeMachine c rnd fin num val vd pv u w a s β r b g E Q k G) (p : F) (h0 : 0 ≤ pv p) (h1 : pv p ≤ 1) :
    0 ≤ pv (FloatP.oneSub p) ∧ pv (FloatP.oneSub p) ≤ 1 := by
  have fl := h.float
  constructor
  · rcases h1.lt_or_eq with h1 | h1
    · exact (fl.oneSub_pos p h1).le
    · exact (fl.oneSub_one p h1).ge
  · have z : pv (FloatP.zero : F) = 0 := fl.zero
    have e : pv (FloatP.oneSub (FloatP.zero : F)) = 1 := fl.oneSub_zero _ z
    have : pv (FloatP.oneSub p) ≤ pv (FloatP.oneSub (FloatP.zero : F)) := fl.oneSub_anti FloatP.zero p (by
      show pv (FloatP.zero : F) ≤ pv p
      rw [z]; exact h0)
    rwa [e] at this

theorem weights_aux (h : RangeMachine c rnd fin num val vd pv u w a s β r b g E Q k G) (p : F) (h0 : 0 ≤ pv p) (h1 : pv p ≤ 1) :
    Weights fin num val k p := by
  obtain ⟨o0, o1⟩ := oneSub_aux h p h0 h1
  have key : ∀ p : F, 0 ≤ pv p → pv p ≤ 1 → Held fin num val k 2 (FloatP.toK p) := by
    intro p h0 h1
    obtain ⟨t1, t2, t3⟩ := h.toK p h0 h1
    refine ⟨t1, by rw [t3]; exact t2, ?_⟩
    rw [t3, abs_of_nonneg (by exact_mod_cast h0)]
    have : (pv p : ℝ) ≤ 1 := by exact_mod_cast h1
    linarith
  exact ⟨key p h0 h1, key _ o0 o1⟩

/-- The computed gain and loss of the whole are not 0. -/
theorem whole_aux {A ι : Type} {m n n' : Nat} {V : Nat → ι → ℝ} {cells : A → Finset ι} {w0 : A} {q : A → Quality K} {κ : ℝ}
    (laws : LogLaws val u w) (hm : 0 < m) (hn : (cells w0).Nonempty) (hv : ∀ k < m, ∀ x ∈ cells w0, 0 ≤ V k x)
    (sX : ∑ k ∈ Finset.range m, dataSize (cells w0) (V k) ≤ κ * (entQ m V (cells w0)).gain)
    (sY : ∑ k ∈ Finset.range m, dataSize (cells w0) (V k) ≤ κ * (entQ m V (cells w0)).loss)
    (hc : relErr u w κ n' ≤ 1) (hnn : n ≤ n') (hw0 : QClose val (factor u w n) m V (cells w0) (q w0)) :
    val (q w0).gain ≠ 0 ∧ val (q w0).loss ≠ 0 := by
  obtain ⟨hX, hY, hκ⟩ := C78.pos_aux (A := A) hm hn hv sX sY
  have hu := laws.unit_nonneg
  have hw := laws.acc_nonneg
  have hfk : (factor u w n - 1) * κ ≤ 1 / 8 := by
    have h1 := factor_mono (u := u) (w := w) hu hw hnn
    have h2 : (factor u w n - 1) * κ ≤ (factor u w n' - 1) * κ := mul_le_mul_of_nonneg_right (by linarith) hκ
    unfold relErr at hc
    unfold factor at h2 ⊢
    linarith
  have single := (Cuts.single (cells := cells) hn).series_le hn hv
  simp only [List.map_cons, List.map_nil, List.sum_cons, List.sum_nil, add_zero] at single
  obtain ⟨rg, _⟩ := whole_close hX hw0.1 (le_trans single.1 sX) hfk
  obtain ⟨rl, _⟩ := whole_close hY hw0.2 (le_trans single.2 sY) hfk
  constructor
  · have : 0 < val (q w0).gain := by linarith
    exact this.ne'
  · have : 0 < val (q w0).loss := by linarith
    exact this.ne'

/-- One best partition, as `range_sheet` needs it. -/
theorem best_aux (h : RangeMachine c rnd fin num val vd pv u w a s β r b g E Q k G) {A ι P T Z : Type} {m N : Nat} {V : Nat → ι → ℝ} {cells : A → Finset ι} {w0 : A}
    {A' : Nat} {q q' : A → Quality K'} {κ : ℝ} (hm : 0 < m) (hn : (cells w0).Nonempty) (hv : ∀ k < m, ∀ x ∈ cells w0, 0 ≤ V k x)
    (hN : (cells w0).card ≤ N)
    (sX : ∑ k ∈ Finset.range m, dataSize (cells w0) (V k) ≤ κ * (entQ m V (cells w0)).gain)
    (sY : ∑ k ∈ Finset.range m, dataSize (cells w0) (V k) ≤ κ * (entQ m V (cells w0)).loss)
    (hc : relErr u w κ (4 * N + m + 3) ≤ 1) {ok : A → Prop}
    (hok : ∀ x, ok x → QClose val (factor u w (3 * N + m + 1)) m V (cells x) (inQ num (q x)) ∧
      inQ num (q' x) = (inQ num (q x)).div (inQ num (q w0)) ∧ Kept fin num val A' (q' x).gain ∧ Kept fin num val A' (q' x).loss) (ok0 : ok w0)
    {quality : A → Quality ℝ} (hqual : quality = relTo m V cells w0)
    (ops : PartOps F K' P (F × T)) (gk lk : F × T → K') (row : F → A → F × T) (out : F × T → Z) (placeOf : A → Z) (p : F) (h0 : 0 ≤ pv p) (h1 : pv p ≤ 1)
    (part rival : List A → Prop) (hpart : ∀ L, part L → Cuts cells L (cells w0) ∧ ∀ x ∈ L, ok x)
    (hrival : ∀ L, rival L → Cuts cells L (cells w0) ∧ ∀ x ∈ L, ok x)
    {X : P} {L : List A} (hbest : ops.best p = .ok X) (hL : part L) (hrows : ops.rows p X = L.map (row p))
    (hrow : ∀ y ∈ L, out (row p y) = placeOf y ∧ gk (row p y) = (q' y).gain ∧ lk (row p y) = (q' y).loss)
    (hX' : Kept fin num val A' (ops.quality X).gain ∧ Kept fin num val A' (ops.quality X).loss)
    (hQ : C50.NearSum ((1 + u) ^ (L.length - 1) - 1) ⟨val (num (ops.quality X).gain), val (num (ops.quality X).loss)⟩
      (C50.exact val (fun x => inQ num (q' x))) L)
    (hin : ∀ L', rival L' → C50.Within ((1 + u) ^ (N + 1) - 1) (val (num (FloatP.toK p))) (val (num (FloatP.toK (FloatP.oneSub p))))
      (C50.exact val (fun x => inQ num (q' x))) L L') :
    ∃ P L, ops.best p = .ok P ∧ part L ∧ ops.rows p P = L.map (row p) ∧
      (∀ y ∈ L, out (row p y) = placeOf y ∧
        (Kept fin num val A' (gk (row p y)) ∧ |val (num (gk (row p y))) - (quality y).gain| ≤ relErr u w κ (4 * N + m + 3)) ∧
        (Kept fin num val A' (lk (row p y)) ∧ |val (num (lk (row p y))) - (quality y).loss| ≤ relErr u w κ (4 * N + m + 3)) ∧
        0 ≤ (quality y).gain ∧ (quality y).gain ≤ 1 ∧ 0 ≤ (quality y).loss ∧ (quality y).loss ≤ 1) ∧
      (Kept fin num val A' (ops.quality P).gain ∧ |val (num (ops.quality P).gain) - gainOf quality L| ≤ relErr u w κ (4 * N + m + 3)) ∧
      (Kept fin num val A' (ops.quality P).loss ∧ |val (num (ops.quality P).loss) - lossOf quality L| ≤ relErr u w κ (4 * N + m + 3)) ∧
      (0 ≤ gainOf quality L ∧ gainOf quality L ≤ 1 ∧ 0 ≤ lossOf quality L ∧ lossOf quality L ≤ 1) ∧
      ∀ L', rival L' → (pv p : ℝ) * gainOf quality L' - (pv (FloatP.oneSub p) : ℝ) * lossOf quality L' ≤
        (pv p : ℝ) * gainOf quality L - (pv (FloatP.oneSub p) : ℝ) * lossOf quality L + relErr u w κ (4 * N + m + 3) := by
  obtain ⟨hX, hY, hκ⟩ := C78.pos_aux (A := A) hm hn hv sX sY
  obtain ⟨cuts, okL⟩ := hpart L hL
  have ek : 3 * N + m + 1 + 1 + (N + 1) = 4 * N + m + 3 := by omega
  obtain ⟨_, _, m3, m4, m5, m6⟩ := machine_best (κ := κ) (k := 3 * N + m + 1) (e := N + 1) (q := fun x => inQ num (q x)) (q' := fun x => inQ num (q' x))
    (Q := inQ num (ops.quality X)) h.arith.laws hn hv hX hY sX sY hκ (by rw [ek]; exact hc)
    (hok w0 ok0).1 cuts (fun x hx => (hok x (okL x hx)).1) (fun x hx => (hok x (okL x hx)).2.1)
    (by have := cuts.length_le; omega) hQ
  rw [ek, ← hqual] at m3 m4 m5 m6
  obtain ⟨o0, o1⟩ := oneSub_aux h p h0 h1
  have sq := C32.square_aux cuts hn hv (q' := quality) (by rw [hqual]; rfl)
  refine ⟨X, L, hbest, hL, hrows, ?_, ⟨hX'.1, m4⟩, ⟨hX'.2, m5⟩, sq, ?_⟩
  · intro y hy
    obtain ⟨r1, r2, r3⟩ := hrow y hy
    obtain ⟨n1, n2⟩ := m3 y hy
    obtain ⟨_, _, k1, k2⟩ := hok y (okL y hy)
    refine ⟨r1, by rw [r2]; exact ⟨k1, n1⟩, by rw [r3]; exact ⟨k2, n2⟩, ?_⟩
    have nn : ∀ x ∈ L, 0 ≤ (quality x).gain ∧ 0 ≤ (quality x).loss := by
      intro x hx
      have := entQ_nonneg (m := m) (V := V) (s := cells x) (fun k hk z hz => hv k hk z (cuts.sub x hx hz))
      rw [hqual]
      exact ⟨div_nonneg this.1 hX.le, div_nonneg this.2 hY.le⟩
    have one : ∀ {f : A → ℝ}, (∀ x ∈ L, 0 ≤ f x) → f y ≤ (L.map f).sum := by
      intro f hf
      refine List.single_le_sum ?_ _ (List.mem_map_of_mem (f := f) hy)
      intro z hz
      obtain ⟨x, hx, rfl⟩ := List.mem_map.mp hz
      exact hf x hx
    exact ⟨(nn y hy).1, le_trans (one (fun x hx => (nn x hx).1)) sq.2.1, (nn y hy).2, le_trans (one (fun x hx => (nn x hx).2)) sq.2.2.2⟩
  · intro L' hL'
    obtain ⟨cuts', okL'⟩ := hrival L' hL'
    have w1 := hin L' hL'
    rw [(h.toK p h0 h1).2.2, (h.toK _ o0 o1).2.2] at w1
    exact m6 _ _ (by exact_mod_cast h0) (by exact_mod_cast h1) (by exact_mod_cast o0) (by exact_mod_cast o1) L' cuts'
      (fun x hx => (hok x (okL' x hx)).1) (fun x hx => (hok x (okL' x hx)).2.1) w1


/-- The qualities of ordered data. -/
theorem oCell_aux (ar : RangeArith fin num val u w b g E Q) {a' c e m n : Nat} {X : ℝ} (ft : Fits u E Q a' b g c e m n X)
    (v : OValues K') (V : Nat → Nat → K') (hv : OData v m n V) (hn : n ≤ 65535)
    (hd : ∀ k i, k < m → i < n → Datum fin num val a' X (V k i)) :
    ∃ (q : UTM (Quality K')) (f : Nat → Nat → Quality K'),
      (OQualities.ofValues v).computeQualities = .ok ⟨some v, some q⟩ ∧ q.Rep n f ∧
      ∀ i j, i ≤ j → j < n → Held fin num val (a' + g + 3 + b) (2 ^ e) (f i j).gain ∧ Held fin num val (a' + g + 3 + b) (2 ^ e) (f i j).loss ∧
        C58.Accurate (real num val) u w m V (Finset.Icc i j) (f i j) ∧
        QClose val (factor u w (3 * n + m + 1)) m (C58.numbers (real num val) V) (Finset.Icc i j) (inQ num (f i j)) := by
  obtain ⟨q, f, e0, h1, h2, h3⟩ := oqCompute_sum hv hn
  refine ⟨q, f, ?_, h1, fun i j hij hj =>
    cell_aux ar ft (V := V) (s := Finset.Icc i j) (q := f i j) ⟨i, by simp [hij]⟩ (by rw [Nat.card_Icc]; omega) (by omega)
      (fun k hk x hx => hd k x hk (by rw [Finset.mem_Icc] at hx; omega)) (by
        rcases Nat.lt_or_eq_of_le hij with hlt | rfl
        · right
          rw [← card_Icc i j hij]
          exact h3 i j hlt hj
        · left
          exact ⟨by rw [Nat.card_Icc]; omega, h2 i hj⟩)⟩
  unfold OQualities.computeQualities OQualities.ofValues
  simp only [e0, okBind, pureOk]

/-- The quality of a partition. -/
theorem sum_aux {A : Type} (ar : RangeArith fin num val u w b g E Q) {A' c N : Nat} {M : ℝ} (rm : Room u b E A' c N M) (q : A → Quality K') (L : List A)
    (hl : ∀ x ∈ L, Held fin num val A' M (q x).gain ∧ Held fin num val A' M (q x).loss) (hN : L.length ≤ N) {Y : Quality K'}
    (hY : Y = sumQuality (L.map q)) :
    (Kept fin num val A' Y.gain ∧ Kept fin num val A' Y.loss) ∧
    C50.NearSum ((1 + u) ^ (L.length - 1) - 1) ⟨val (num Y.gain), val (num Y.loss)⟩ (C50.exact val (fun x => inQ num (q x))) L := by
  subst hY
  obtain ⟨h1, h2, h3⟩ := sumQ_num (a := A') ar rm.pos (by have := rm.low; omega) (L.map q) (by
    intro y hy
    obtain ⟨x, hx, rfl⟩ := List.mem_map.mp hy
    exact hl x hx) (rm.cap ar.laws.unit_nonneg (by simpa using hN))
  refine ⟨⟨⟨h2.fin, h2.grid⟩, ⟨h3.fin, h3.grid⟩⟩, ?_⟩
  have := C50.quality_aux ar.laws.toRoundedLaws (fun x => inQ num (q x)) L
  rw [List.map_map] at h1
  change inQ num (sumQuality (L.map q)) = sumQuality (L.map (fun x => inQ num (q x))) at h1
  rw [← h1] at this
  exact this

/-- `oaggregate(micro, th)`. -/
theorem ordered (h : RangeMachine c rnd fin num val vd pv u w a s β r b g E Q k G) (randMax : K') (hrf : fin randMax) (hr : 16 ≤ val (num randMax))
    (th : D) {H : Nat} (sf : SearchFits a r H G (pv (c.toFloat th))) (a' e' : Nat) (hA : 2 * (a' + g + 3 + b + e' + 1 + b) + 4 + b + k ≤ E)
    (hE : 10 ≤ E) :
    ∃ N : Nat, ∀ (d0 d1 d2 : Nat) (f : Nat × Nat × Nat → D) (κ X : ℝ), 0 < d0 → 0 < d1 → 0 < d2 → d2 ≤ 65535 → d0 * d1 < 2 ^ 32 →
      FitsNormalized u E Q a' b g k e' (d0 * d1) d2 X →
      (∀ i j k, i < d0 → j < d1 → k < d2 → Grid a' (vd (f (i, j, k))) ∧ 0 ≤ vd (f (i, j, k)) ∧ vd (f (i, j, k)) ≤ X) →
      let v := fun i j k => vd (f (i, j, k))
      let all := Finset.Icc 0 (d2 - 1)
      size3 d0 d1 v all ≤ κ * gain3 d0 d1 v all → size3 d0 d1 v all ≤ κ * loss3 d0 d1 v all →
      let ε := relErr u w κ (4 * d2 + d0 * d1 + 3)
      ε ≤ 1 →
      ∀ fuel, N ≤ fuel → ∃ t, oaggregateR c false fuel randMax rnd (rArray d0 d1 d2 f) th = .ok t ∧
        NearSheet vd (ε + 2 * β) r (80 * u + 40 * β) (areaErrIn a s β) ORow.parameter ORow.gain ORow.loss
          (fun x => (x.start, x.end)) (fun I : Nat × Nat => ((I.1 : Int) + 1, (I.2 : Int) + 1)) (Tiles 0 d2) (Tiles 0 d2)
          (relative (gain3 d0 d1 v) (loss3 d0 d1 v) all (fun I : Nat × Nat => Finset.Icc I.1 I.2)) t := by
  obtain ⟨N, hN⟩ := range_sheet h randMax hrf hr (c.toFloat th) sf hA hE
  refine ⟨N, ?_⟩
  intro d0 d1 d2 f κ X h0 h1 h2 h2' hF ft hpos v all sX sY ε hε fuel hf
  have hv : OData (OValuesN3.ofVec (table3 d0 d1 d2 (fun x => c.wide (f x)))).toOValues (d0 * d1) d2 (fun k o => c.wide (f (k / d1, k % d1, o))) :=
    (OValuesN3.ofVec_holds h0 h1 hF (fun x => c.wide (f x))).data
  have hp : ∀ k i, k < d0 * d1 → i < d2 → Datum fin num val a' X (c.wide (f (k / d1, k % d1, i))) := by
    intro k i hk hi
    rw [Datum, (h.wide _).2]
    exact ⟨(h.wide _).1, hpos _ _ _ (C49.divMod_aux hk).1 (C49.divMod_aux hk).2 hi⟩
  obtain ⟨q, f', e, hq, cell⟩ := oCell_aux h.arith ft.toFits _ _ hv h2' hp
  obtain ⟨q', en, hq'⟩ := oqNormalize_spec hq h2
  have hnum : C58.numbers (real num val) (fun k o => c.wide (f (k / d1, k % d1, o))) = fun k o => vd (f (k / d1, k % d1, o)) := by
    funext k o; exact (h.wide _).2
  rw [hnum] at cell
  set V : Nat → Nat → ℝ := fun k o => vd (f (k / d1, k % d1, o)) with hV
  have hqual : relative (gain3 d0 d1 v) (loss3 d0 d1 v) all (fun I : Nat × Nat => Finset.Icc I.1 I.2) =
      relTo (d0 * d1) V oCells (0, d2 - 1) := C49.rel_aux d0 d1 v all (fun I : Nat × Nat => Finset.Icc I.1 I.2)
  have hsz : ∑ k ∈ Finset.range (d0 * d1), dataSize (oCells (0, d2 - 1)) (V k) = size3 d0 d1 v all := C78.size_aux d0 d1 v all
  have hg : (entQ (d0 * d1) V (oCells (0, d2 - 1))).gain = gain3 d0 d1 v all := (C49.series_aux d0 d1 v all).1
  have hl : (entQ (d0 * d1) V (oCells (0, d2 - 1))).loss = loss3 d0 d1 v all := (C49.series_aux d0 d1 v all).2
  have w0 := whole_aux (A := Nat × Nat) (cells := oCells) (w0 := (0, d2 - 1)) (q := fun I => inQ num (f' I.1 I.2)) (κ := κ) (V := V) h.arith.laws
    (Nat.mul_pos h0 h1) (by simp [oCells])
    (nonneg_oCells (fun k i hk hi => by have := (hp k i hk hi).2.2.1; rw [(h.wide _).2] at this; exact this) (by omega))
    (by rw [hsz, hg]; exact sX) (by rw [hsz, hl]; exact sY) hε (show 3 * d2 + d0 * d1 + 1 ≤ _ by omega)
    (cell 0 (d2 - 1) (Nat.zero_le _) (by omega)).2.2.2
  have c0 := cell 0 (d2 - 1) (Nat.zero_le _) (by omega)
  have hdiv : ∀ i j, i ≤ j → j < d2 → _ := fun i j hij hj =>
    div_aux h.arith (by have := ft.lowN; omega) ⟨(cell i j hij hj).1, (cell i j hij hj).2.1⟩ ⟨c0.1, c0.2.1⟩ w0.1 w0.2
  have ho : IsPartitioner (oOps (F := F) q') := .ordered q' d2 _ hq'
  have key : oaggregateR c false fuel randMax rnd (rArray d0 d1 d2 f) th =
      (rSearch (oOps (F := F) q') (fun (p, s, e, g, l) => (⟨p, s + 1, e + 1, g, l⟩ : ORow F K')) false fuel randMax rnd (c.toFloat th)).map
        (c.result c.oRow) := by
    unfold oaggregateR
    rw [C78.array_aux]
    unfold oaggregate
    rw [convertToMicroModel_rArray]
    simp only [okBind]
    rw [e]
    simp only [okBind]
    rw [oNormalize_object hv.osize h2 en]
    simp only [okBind]
    cases rSearch (oOps (F := F) q') (fun (p, s, e, g, l) => (⟨p, s + 1, e + 1, g, l⟩ : ORow F K')) false fuel randMax rnd (c.toFloat th) <;> rfl
  have hsheet := hN (oOps (F := F) q') ho (fun (p, s, e, g, l) => (⟨p, s + 1, e + 1, g, l⟩ : ORow F K')) c.oRow ORow.parameter ORow.gain ORow.loss
    (fun x => (x.start, x.end)) (fun I : Nat × Nat => ((I.1 : Int) + 1, (I.2 : Int) + 1)) (fun x => x.2.2.2.1) (fun x => x.2.2.2.2)
    (Tiles 0 d2) (Tiles 0 d2) (relative (gain3 d0 d1 v) (loss3 d0 d1 v) all (fun I : Nat × Nat => Finset.Icc I.1 I.2))
    (fun p I => (p, (I.1 : Int), (I.2 : Int), ((f' I.1 I.2).div (f' 0 (d2 - 1))).gain, ((f' I.1 I.2).div (f' 0 (d2 - 1))).loss)) ε
    (err_aux h _ (C78.pos_aux (A := Nat) (κ := κ) (Nat.mul_pos h0 h1) (s := oCells (0, d2 - 1)) (by simp [oCells])
        (V := V) (nonneg_oCells (fun k i hk hi => by have := (hp k i hk hi).2.2.1; rw [(h.wide _).2] at this; exact this) (by omega))
        (by rw [hsz, hg]; exact sX) (by rw [hsz, hl]; exact sY)).2.2) hε
    (by
      intro p P x hx
      simp only [oOps, List.mem_map] at hx
      obtain ⟨y, _, rfl⟩ := hx
      rfl)
    (by rintro ⟨p, s, e, g, l⟩; exact ⟨rfl, rfl, rfl⟩)
    (by
      intro p P p' P' hh
      simp only [oOps, List.map_map] at hh
      have := C78.allEq_aux OPart.eqOp (fun x : OPart K' => (x.start + 1, x.end + 1)) (by
        intro x y hxy
        simp only [Prod.mk.injEq] at hxy
        have e1 : x.start = y.start := by omega
        have e2 : x.end = y.end := by omega
        simp [OPart.eqOp, e1, e2]) P.parts P'.parts hh
      simp only [oOps, OPartition.eqOp]
      rw [if_neg (by simp [this.1]), this.2])
    (by
      intro p hp0 hp1
      obtain ⟨P, T, C, ds, L, b1, _, _, b4, b5, _⟩ := oBest_spec hq' p
      obtain ⟨P', L', g1, g2, g3, _, g5⟩ := oPart_aux h.arith (roomN_aux ft) hq' (fun i j hij hj => ⟨(hdiv i j hij hj).2.1, (hdiv i j hij hj).2.2⟩) p (weights_aux h p hp0 hp1)
      obtain rfl : P = P' := Except.ok.inj (b1.symm.trans g1)
      have eL : L = L' := by
        rw [b4, List.map_map] at g3
        refine List.map_injective_iff.mpr ?_ g3
        rintro ⟨x1, x2⟩ ⟨y1, y2⟩ hxy
        have hxy : ((x1 : Int), (x2 : Int)) = ((y1 : Int), (y2 : Int)) := hxy
        simp only [Prod.mk.injEq, Nat.cast_inj] at hxy
        rw [hxy.1, hxy.2]
      subst eL
      obtain ⟨sk, sn⟩ := sum_aux h.arith (roomN_aux ft) (fun I : Nat × Nat => (f' I.1 I.2).div (f' 0 (d2 - 1))) L (fun I hI => by
        obtain ⟨_, x2, x3⟩ := g2.bounds I hI
        exact (hdiv I.1 I.2 x2 x3).2) (by have := tiles_length_aux g2; omega) b5
      refine best_aux h (q := fun I : Nat × Nat => f' I.1 I.2) (q' := fun I : Nat × Nat => (f' I.1 I.2).div (f' 0 (d2 - 1))) (cells := oCells)
        (w0 := (0, d2 - 1)) (V := V) (N := d2) (ok := fun I : Nat × Nat => I.1 ≤ I.2 ∧ I.2 < d2) (κ := κ)
        (Nat.mul_pos h0 h1) (by simp [oCells])
        (nonneg_oCells (fun k i hk hi => by have := (hp k i hk hi).2.2.1; rw [(h.wide _).2] at this; exact this) (by omega))
        (by simp only [oCells, Nat.card_Icc]; omega) (by rw [hsz, hg]; exact sX) (by rw [hsz, hl]; exact sY) hε
        (fun I hI => ⟨(cell I.1 I.2 hI.1 hI.2).2.2.2, (hdiv I.1 I.2 hI.1 hI.2).1, ⟨(hdiv I.1 I.2 hI.1 hI.2).2.1.fin, (hdiv I.1 I.2 hI.1 hI.2).2.1.grid⟩,
          (hdiv I.1 I.2 hI.1 hI.2).2.2.fin, (hdiv I.1 I.2 hI.1 hI.2).2.2.grid⟩) ⟨Nat.zero_le _, by omega⟩ hqual (oOps q') (fun x => x.2.2.2.1) (fun x => x.2.2.2.2)
        (fun p I => (p, (I.1 : Int), (I.2 : Int), ((f' I.1 I.2).div (f' 0 (d2 - 1))).gain, ((f' I.1 I.2).div (f' 0 (d2 - 1))).loss))
        (fun x => (x.2.1 + 1, x.2.2.1 + 1)) (fun I : Nat × Nat => ((I.1 : Int) + 1, (I.2 : Int) + 1)) p hp0 hp1 (Tiles 0 d2) (Tiles 0 d2)
        (fun M hM => ⟨tiles_cuts hM h2, fun I hI => by have := hM.bounds I hI; omega⟩)
        (fun M hM => ⟨tiles_cuts hM h2, fun I hI => by have := hM.bounds I hI; omega⟩) b1 g2 ?_ ?_ sk sn g5
      · simp only [oOps]
        rw [b4, List.map_map]
        rfl
      · intro y _; exact ⟨rfl, rfl, rfl⟩)
    fuel hf
  obtain ⟨res, e1, e2⟩ := hsheet
  exact ⟨_, by rw [key, e1]; rfl, e2⟩

/-- `haggregate(micro, h, th)`, for a hierarchy vector of integers. -/
theorem hierarchical (h : RangeMachine c rnd fin num val vd pv u w a s β r b g E Q k G) (randMax : K') (hrf : fin randMax) (hr : 16 ≤ val (num randMax))
    (th : D) {H : Nat} (sf : SearchFits a r H G (pv (c.toFloat th))) (a' e' : Nat) (hA : 2 * (a' + g + 3 + b + e' + 1 + b) + 4 + b + k ≤ E)
    (hE : 10 ≤ E) :
    ∃ N : Nat, ∀ (d0 d1 d2 : Nat) (f : Nat × Nat × Nat → D) (vec : List D) (zs : List Int) (κ X : ℝ), 0 < d0 → 0 < d1 → 0 < d2 → d1 * d2 < 2 ^ 32 →
      d0 < 2147483648 → vec.map vd = zs.map (fun z : Int => (z : ℝ)) → (∀ z ∈ zs, |z| ≤ 2 ^ 31) →
      let parents := zs.map (· - 1)
      IsTree d0 parents (parents.length - 1) → NearestFirst d0 parents → d0 < parents.length →
      FitsNormalized u E Q a' b g k e' (d1 * d2) d0 X →
      (∀ i j k, i < d0 → j < d1 → k < d2 → Grid a' (vd (f (i, j, k))) ∧ 0 ≤ vd (f (i, j, k)) ∧ vd (f (i, j, k)) ≤ X) →
      let v := fun j k l => vd (f (l, j, k))
      let all := Finset.range d0
      size3 d1 d2 v all ≤ κ * gain3 d1 d2 v all → size3 d1 d2 v all ≤ κ * loss3 d1 d2 v all →
      let ε := relErr u w κ (4 * d0 + d1 * d2 + 3)
      ε ≤ 1 →
      ∀ fuel, N ≤ fuel → ∃ t, haggregateR c false fuel randMax rnd (rArray d0 d1 d2 f) vec th = .ok t ∧
        NearSheet vd (ε + 2 * β) r (80 * u + 40 * β) (areaErrIn a s β) HRow.parameter HRow.gain HRow.loss
          (fun x => (x.node, x.size)) (fun n : Nat => ((n : Int) + 1, ((leavesUnder d0 parents n).card : Int))) (LeafCover d0 parents) (LeafCover d0 parents)
          (relative (gain3 d1 d2 v) (loss3 d1 d2 v) all (leavesUnder d0 parents)) t := by
  obtain ⟨N, hN⟩ := range_sheet h randMax hrf hr (c.toFloat th) sf hA hE
  refine ⟨N, ?_⟩
  intro d0 d1 d2 f vec zs κ X h0 h1 h2 hF hb hvec hz parents tree near hlt ft hpos v all sX sY ε hε fuel hf
  obtain ⟨md, m1, m2, m3⟩ := C03.right d0 parents _ tree near
  have hc : ∃ o, HValuesN3.ofVec (table3 d0 d1 d2 (fun x => c.wide (f x))) parents = .ok o := by
    unfold HValuesN3.ofVec
    rw [SIZE1_table3, m1]
    exact ⟨_, rfl⟩
  obtain ⟨o, hc⟩ := hc
  obtain ⟨md', m1', hold⟩ := HValuesN3.ofVec_holds h0 h1 hF (fun x => c.wide (f x)) hc
  obtain rfl : md = md' := Except.ok.inj (m1.symm.trans m1')
  have hmd : RightMeta d0 parents o.toHValues.md := by
    show RightMeta d0 parents o.md
    rw [hold.md]; exact m3
  have hroot : o.toHValues.md.root = parents.length - 1 := by
    show o.md.root = _
    rw [hold.md]; exact m2
  have hv : HData o.toHValues (d1 * d2) d0 (fun k l => c.wide (f (l, k / d2, k % d2))) := hold.data
  have hp : ∀ k l, k < d1 * d2 → l < d0 → Datum fin num val a' X (c.wide (f (l, k / d2, k % d2))) := by
    intro k l hk hl
    rw [Datum, (h.wide _).2]
    exact ⟨(h.wide _).1, hpos _ _ _ hl (C49.divMod_aux hk).1 (C49.divMod_aux hk).2⟩
  obtain ⟨q, f', e, hq, cell⟩ := hCell_aux h.arith ft.toFits parents _ hmd hlt hb _ hv hp
  obtain ⟨q', en, hq'⟩ := hqNormalize_spec hq hmd.tree.rootLt
  have hnum : C58.numbers (real num val) (fun k l => c.wide (f (l, k / d2, k % d2))) = fun k l => vd (f (l, k / d2, k % d2)) := by
    funext k o; exact (h.wide _).2
  rw [hnum] at cell
  set V : Nat → Nat → ℝ := fun k l => vd (f (l, k / d2, k % d2)) with hV
  have hVp : ∀ k l, k < d1 * d2 → l < d0 → 0 ≤ V k l := fun k i hk hi => by have := (hp k i hk hi).2.2.1; rw [(h.wide _).2] at this; exact this
  have hall := leavesUnder_root hmd.tree
  have hqual : relative (gain3 d1 d2 v) (loss3 d1 d2 v) all (leavesUnder d0 parents) =
      relTo (d1 * d2) V (leavesUnder d0 parents) o.toHValues.md.root := by
    unfold relTo
    rw [hall]
    exact C49.rel_aux d1 d2 v all (leavesUnder d0 parents)
  have hsz : ∑ k ∈ Finset.range (d1 * d2), dataSize (leavesUnder d0 parents o.toHValues.md.root) (V k) = size3 d1 d2 v all := by
    rw [hall]; exact C78.size_aux d1 d2 v all
  have hg : (entQ (d1 * d2) V (leavesUnder d0 parents o.toHValues.md.root)).gain = gain3 d1 d2 v all := by
    rw [hall]; exact (C49.series_aux d1 d2 v all).1
  have hl : (entQ (d1 * d2) V (leavesUnder d0 parents o.toHValues.md.root)).loss = loss3 d1 d2 v all := by
    rw [hall]; exact (C49.series_aux d1 d2 v all).2
  have w0 := whole_aux (A := Nat) (cells := leavesUnder d0 parents) (w0 := o.toHValues.md.root) (q := fun n => inQ num (f' n)) (κ := κ) (V := V)
    h.arith.laws (Nat.mul_pos h1 h2) (leaves_nonempty hmd.tree hmd.tree.rootLt) (nonneg_hCells hVp)
    (by rw [hsz, hg]; exact sX) (by rw [hsz, hl]; exact sY) hε (show 3 * d0 + d1 * d2 + 1 ≤ _ by omega) (cell _ hmd.tree.rootLt).2.2.2
  have c0 := cell _ hmd.tree.rootLt
  have hdiv : ∀ n, n < parents.length → _ := fun n hn =>
    div_aux h.arith (by have := ft.lowN; omega) ⟨(cell n hn).1, (cell n hn).2.1⟩ ⟨c0.1, c0.2.1⟩ w0.1 w0.2
  have hlate : ∀ n, n < parents.length → (f' n).div (nDiv (o.toHValues.md.root < n) (f' o.toHValues.md.root)) = (f' n).div (f' o.toHValues.md.root) := by
    intro n hn
    unfold nDiv
    rw [if_neg (by omega)]
  have ho : IsPartitioner (hOps (F := F) q' o.toHValues.md) := .hierarchical d0 parents _ q' _ hmd hlt hq'
  have key : haggregateR c false fuel randMax rnd (rArray d0 d1 d2 f) vec th =
      (rSearch (hOps (F := F) q' o.toHValues.md) (fun (p, n, s, g, l) => (⟨p, (n : Int) + 1, s, g, l⟩ : HRow F K')) false fuel randMax rnd
        (c.toFloat th)).map (c.result c.hRow) := by
    unfold haggregateR
    rw [C78.array_aux, hierarchy_aux h vec zs hvec hz]
    unfold haggregateIn
    rw [convertToMicroModel_rArray]
    simp only [okBind]
    rw [hc]
    simp only [okBind]
    rw [e]
    simp only [okBind]
    rw [hNormalize_object en]
    simp only [okBind]
    cases rSearch (hOps (F := F) q' o.toHValues.md) (fun (p, n, s, g, l) => (⟨p, (n : Int) + 1, s, g, l⟩ : HRow F K')) false fuel randMax rnd
      (c.toFloat th) <;> rfl
  have hne := leaves_nonempty hmd.tree hmd.tree.rootLt
  have hsheet := hN (hOps (F := F) q' o.toHValues.md) ho (fun (p, n, s, g, l) => (⟨p, (n : Int) + 1, s, g, l⟩ : HRow F K')) c.hRow
    HRow.parameter HRow.gain HRow.loss
    (fun x => (x.node, x.size)) (fun n : Nat => ((n : Int) + 1, ((leavesUnder d0 parents n).card : Int))) (fun x => x.2.2.2.1) (fun x => x.2.2.2.2)
    (LeafCover d0 parents) (LeafCover d0 parents) (relative (gain3 d1 d2 v) (loss3 d1 d2 v) all (leavesUnder d0 parents))
    (fun p n => (p, n, o.toHValues.md.sizeOf n, ((f' n).div (nDiv (o.toHValues.md.root < n) (f' o.toHValues.md.root))).gain,
      ((f' n).div (nDiv (o.toHValues.md.root < n) (f' o.toHValues.md.root))).loss)) ε
    (err_aux h _ (C78.pos_aux (A := Nat) (κ := κ) (Nat.mul_pos h1 h2) hne (V := V) (nonneg_hCells hVp)
        (by rw [hsz, hg]; exact sX) (by rw [hsz, hl]; exact sY)).2.2) hε
    (by
      intro p P x hx
      simp only [hOps, List.mem_map] at hx
      obtain ⟨y, _, rfl⟩ := hx
      rfl)
    (by rintro ⟨p, s, e, g, l⟩; exact ⟨rfl, rfl, rfl⟩)
    (by
      intro p P p' P' hh
      simp only [hOps, List.map_map] at hh
      have := C78.allEq_aux HPart.eqOp (fun x : HPart K' => ((x.h : Int) + 1, (x.size : Int))) (by
        intro x y hxy
        simp only [Prod.mk.injEq] at hxy
        have e1 : x.h = y.h := by omega
        have e2 : x.size = y.size := by omega
        simp [HPart.eqOp, e1, e2]) P.parts P'.parts hh
      simp only [hOps, HPartition.eqOp]
      rw [if_neg (by simp [this.1]), this.2])
    (by
      intro p hp0 hp1
      obtain ⟨P, T, C, ds, L, b1, _, _, b4, b5, _⟩ := hBest_spec hmd hlt hq' p
      obtain ⟨P', L', g1, g2, g3, _, g5⟩ := hPart_aux h.arith hmd hlt (roomN_aux ft) hq' (fun n hn => by rw [hlate n hn]; exact ⟨(hdiv n hn).2.1, (hdiv n hn).2.2⟩) p (weights_aux h p hp0 hp1)
      obtain rfl : P = P' := Except.ok.inj (b1.symm.trans g1)
      have eL : L = L' := by
        rw [b4, List.map_map] at g3
        rw [← g3]
        exact (List.map_id L).symm
      subst eL
      obtain ⟨sk, sn⟩ := sum_aux h.arith (roomN_aux ft) (fun n => (f' n).div (nDiv (o.toHValues.md.root < n) (f' o.toHValues.md.root))) L (fun n hn => by
        rw [hlate n (g2.1 n hn)]
        exact (hdiv n (g2.1 n hn)).2) (by
        have := (leafCover_cuts hmd.tree g2).length_le
        rwa [leavesUnder_root hmd.tree, Finset.card_range] at this) b5
      refine best_aux h (q := f') (q' := fun n => (f' n).div (nDiv (o.toHValues.md.root < n) (f' o.toHValues.md.root))) (cells := leavesUnder d0 parents)
        (w0 := o.toHValues.md.root) (V := V) (N := d0) (ok := fun n => n < parents.length) (κ := κ)
        (Nat.mul_pos h1 h2) hne (nonneg_hCells hVp)
        (by rw [hall, Finset.card_range]) (by rw [hsz, hg]; exact sX) (by rw [hsz, hl]; exact sY) hε
        (fun n hn => ⟨(cell n hn).2.2.2, by rw [hlate n hn]; exact ⟨(hdiv n hn).1, ⟨(hdiv n hn).2.1.fin, (hdiv n hn).2.1.grid⟩, (hdiv n hn).2.2.fin, (hdiv n hn).2.2.grid⟩⟩) hmd.tree.rootLt hqual (hOps q' o.toHValues.md)
        (fun x => x.2.2.2.1) (fun x => x.2.2.2.2)
        (fun p n => (p, n, o.toHValues.md.sizeOf n, ((f' n).div (nDiv (o.toHValues.md.root < n) (f' o.toHValues.md.root))).gain,
          ((f' n).div (nDiv (o.toHValues.md.root < n) (f' o.toHValues.md.root))).loss))
        (fun x => ((x.2.1 : Int) + 1, (x.2.2.1 : Int))) (fun n : Nat => ((n : Int) + 1, ((leavesUnder d0 parents n).card : Int))) p hp0 hp1
        (LeafCover d0 parents) (LeafCover d0 parents)
        (fun M hM => ⟨leafCover_cuts hmd.tree hM, hM.1⟩) (fun M hM => ⟨leafCover_cuts hmd.tree hM, hM.1⟩) b1 g2 ?_ ?_ sk sn g5
      · simp only [hOps]
        rw [b4, List.map_map]
        rfl
      · intro y hy
        have := hmd.size y (g2.1 y hy)
        refine ⟨?_, rfl, rfl⟩
        simp [HMeta.sizeOf, this])
    fuel hf
  obtain ⟨res, e1, e2⟩ := hsheet
  exact ⟨_, by rw [key, e1]; rfl, e2⟩

/-- `daggregate(micro, h, th)`, for a hierarchy vector of integers; among the coarse-first partitions (see C21). -/
theorem spatiotemporal (h : RangeMachine c rnd fin num val vd pv u w a s β r b g E Q k G) (randMax : K') (hrf : fin randMax) (hr : 16 ≤ val (num randMax))
    (th : D) {H : Nat} (sf : SearchFits a r H G (pv (c.toFloat th))) (a' e' : Nat) (hA : 2 * (a' + g + 3 + b + e' + 1 + b) + 4 + b + k ≤ E)
    (hE : 10 ≤ E) :
    ∃ N : Nat, ∀ (d0 d1 d2 : Nat) (f : Nat × Nat × Nat → D) (vec : List D) (zs : List Int) (κ X : ℝ), 0 < d0 → 0 < d1 → 0 < d2 → d2 ≤ 65535 →
      d0 * d2 < 2147483648 → vec.map vd = zs.map (fun z : Int => (z : ℝ)) → (∀ z ∈ zs, |z| ≤ 2 ^ 31) →
      let parents := zs.map (· - 1)
      IsTree d0 parents (parents.length - 1) → NearestFirst d0 parents → d0 < parents.length →
      FitsNormalized u E Q a' b g k e' d1 (d0 * d2) X →
      (∀ i j k, i < d0 → j < d1 → k < d2 → Grid a' (vd (f (i, j, k))) ∧ 0 ≤ vd (f (i, j, k)) ∧ vd (f (i, j, k)) ≤ X) →
      let v := fun j (_ : Nat) (x : Nat × Nat) => vd (f (x.1, j, x.2))
      let all := Finset.range d0 ×ˢ Finset.Icc 0 (d2 - 1)
      size3 d1 1 v all ≤ κ * gain3 d1 1 v all → size3 d1 1 v all ≤ κ * loss3 d1 1 v all →
      let ε := relErr u w κ (4 * (d0 * d2) + d1 + 3)
      ε ≤ 1 →
      ∀ fuel, N ≤ fuel → ∃ t, daggregateR c false fuel randMax rnd (rArray d0 d1 d2 f) vec th = .ok t ∧
        NearSheet vd (ε + 2 * β) r (80 * u + 40 * β) (areaErrIn a s β) DRow.parameter DRow.gain DRow.loss
          (fun x => (x.node, x.size, x.start, x.end))
          (fun x : Rect => ((x.node : Int) + 1, ((leavesUnder d0 parents x.node).card : Int) * (x.last - x.first + 1), (x.first : Int) + 1,
            (x.last : Int) + 1))
          (fun L => CellCover d0 parents d2 L ∧ CoarseFirst parents L) (fun L => CellCover d0 parents d2 L ∧ CoarseFirst parents L)
          (relative (gain3 d1 1 v) (loss3 d1 1 v) all (fun x : Rect => leavesUnder d0 parents x.node ×ˢ Finset.Icc x.first x.last)) t := by
  obtain ⟨N, hN⟩ := range_sheet h randMax hrf hr (c.toFloat th) sf hA hE
  refine ⟨N, ?_⟩
  intro d0 d1 d2 f vec zs κ X h0 h1 h2 h2' hb hvec hz parents tree near hlt ft hpos v all sX sY ε hε fuel hf
  obtain ⟨md, m1, m2, m3⟩ := C03.right d0 parents _ tree near
  have hc : ∃ o, DValuesN3.ofVec (table3 d0 d1 d2 (fun x => c.wide (f x))) parents = .ok o := by
    unfold DValuesN3.ofVec
    rw [SIZE1_table3, m1]
    exact ⟨_, rfl⟩
  obtain ⟨o, hc⟩ := hc
  obtain ⟨md', m1', hold⟩ := DValuesN3.ofVec_holds h0 h1 (fun x => c.wide (f x)) hc
  obtain rfl : md = md' := Except.ok.inj (m1.symm.trans m1')
  have hmd : RightMeta d0 parents o.toDValues.md := by
    show RightMeta d0 parents o.md
    rw [hold.md]; exact m3
  have hroot : o.toDValues.md.root = parents.length - 1 := by
    show o.md.root = _
    rw [hold.md]; exact m2
  have hv : DData o.toDValues d1 d0 d2 (fun k x => c.wide (f (x.1, k, x.2))) := hold.data
  have hp : ∀ k l x, k < d1 → l < d0 → x < d2 → Datum fin num val a' X (c.wide (f (l, k, x))) := by
    intro k l x hk hl hx
    rw [Datum, (h.wide _).2]
    exact ⟨(h.wide _).1, hpos _ _ _ hl hk hx⟩
  obtain ⟨q, f', e, hq, cell⟩ := dCell_aux h.arith ft.toFits parents _ hmd hlt h2' hb _ hv hp
  obtain ⟨q', en, hq'⟩ := dqNormalize_spec hq hmd.tree.rootLt hmd.hsize h2 h2'
  have hnum : C58.numbers (real num val) (fun k (x : Nat × Nat) => c.wide (f (x.1, k, x.2))) = fun k x => vd (f (x.1, k, x.2)) := by
    funext k o; exact (h.wide _).2
  rw [hnum] at cell
  set V : Nat → Nat × Nat → ℝ := fun k x => vd (f (x.1, k, x.2)) with hV
  have hVp : ∀ k l x, k < d1 → l < d0 → x < d2 → 0 ≤ V k (l, x) := fun k l x hk hl hx => by
    have := (hp k l x hk hl hx).2.2.1; rw [(h.wide _).2] at this; exact this
  have hall : dCells d0 parents ⟨o.toDValues.md.root, 0, d2 - 1⟩ = all := by
    unfold dCells; rw [leavesUnder_root hmd.tree]
  have hqual : relative (gain3 d1 1 v) (loss3 d1 1 v) all (fun x : Rect => leavesUnder d0 parents x.node ×ˢ Finset.Icc x.first x.last) =
      relTo d1 V (dCells d0 parents) ⟨o.toDValues.md.root, 0, d2 - 1⟩ := by
    unfold relTo
    rw [hall]
    have := C49.rel_aux d1 1 v all (dCells d0 parents)
    simp only [Nat.mul_one, Nat.div_one] at this
    exact this
  have hsz : ∑ k ∈ Finset.range d1, dataSize (dCells d0 parents ⟨o.toDValues.md.root, 0, d2 - 1⟩) (V k) = size3 d1 1 v all := by
    rw [hall]
    have := C78.size_aux d1 1 v all
    simp only [Nat.mul_one, Nat.div_one] at this
    exact this
  have hg : (entQ d1 V (dCells d0 parents ⟨o.toDValues.md.root, 0, d2 - 1⟩)).gain = gain3 d1 1 v all := by
    rw [hall]
    have := (C49.series_aux d1 1 v all).1
    simp only [Nat.mul_one, Nat.div_one] at this
    exact this
  have hl : (entQ d1 V (dCells d0 parents ⟨o.toDValues.md.root, 0, d2 - 1⟩)).loss = loss3 d1 1 v all := by
    rw [hall]
    have := (C49.series_aux d1 1 v all).2
    simp only [Nat.mul_one, Nat.div_one] at this
    exact this
  have w0 := whole_aux (A := Rect) (cells := dCells d0 parents) (w0 := ⟨o.toDValues.md.root, 0, d2 - 1⟩)
    (q := fun x => inQ num (f' x.node x.first x.last)) (κ := κ) (V := V)
    h.arith.laws h1 ((leaves_nonempty hmd.tree hmd.tree.rootLt).product (Finset.nonempty_Icc.mpr (Nat.zero_le _))) (nonneg_dCells hVp (by omega))
    (by rw [hsz, hg]; exact sX) (by rw [hsz, hl]; exact sY) hε (show 3 * (d0 * d2) + d1 + 1 ≤ _ by omega)
    (cell _ 0 (d2 - 1) hmd.tree.rootLt (Nat.zero_le _) (by omega)).2.2.2
  have c0 := cell _ 0 (d2 - 1) hmd.tree.rootLt (Nat.zero_le _) (by omega)
  have hdiv : ∀ n i j, n < parents.length → i ≤ j → j < d2 → _ := fun n i j hn hij hj =>
    div_aux h.arith (by have := ft.lowN; omega) ⟨(cell n i j hn hij hj).1, (cell n i j hn hij hj).2.1⟩ ⟨c0.1, c0.2.1⟩ w0.1 w0.2
  have hlate : ∀ n i j, n < parents.length →
      (f' n i j).div (nDiv (o.toDValues.md.root < n) (f' o.toDValues.md.root 0 (d2 - 1))) = (f' n i j).div (f' o.toDValues.md.root 0 (d2 - 1)) := by
    intro n i j hn
    unfold nDiv
    rw [if_neg (by omega)]
  have ho : IsPartitioner (dOps (F := F) q' o.toDValues.md) := .spatiotemporal d0 parents _ d2 q' _ hmd h2 h2' hq'
  have key : daggregateR c false fuel randMax rnd (rArray d0 d1 d2 f) vec th =
      (rSearch (dOps (F := F) q' o.toDValues.md)
        (fun (p, n, s, a, b, g, l) => (⟨p, (n : Int) + 1, s, (a : Int) + 1, (b : Int) + 1, g, l⟩ : DRow F K')) false fuel randMax rnd
        (c.toFloat th)).map (c.result c.dRow) := by
    unfold daggregateR
    rw [C78.array_aux, hierarchy_aux h vec zs hvec hz]
    unfold daggregateIn
    rw [convertToMicroModel_rArray]
    simp only [okBind]
    rw [hc]
    simp only [okBind]
    rw [e]
    simp only [okBind]
    rw [dNormalize_object hv.osize h2 en]
    simp only [okBind]
    cases rSearch (dOps (F := F) q' o.toDValues.md)
      (fun (p, n, s, a, b, g, l) => (⟨p, (n : Int) + 1, s, (a : Int) + 1, (b : Int) + 1, g, l⟩ : DRow F K')) false fuel randMax rnd
      (c.toFloat th) <;> rfl
  have hne : (dCells d0 parents ⟨o.toDValues.md.root, 0, d2 - 1⟩).Nonempty :=
    (leaves_nonempty hmd.tree hmd.tree.rootLt).product (Finset.nonempty_Icc.mpr (Nat.zero_le _))
  have hcard : (dCells d0 parents ⟨o.toDValues.md.root, 0, d2 - 1⟩).card ≤ d0 * d2 := by
    rw [hall, Finset.card_product, Finset.card_range, Nat.card_Icc]
    exact Nat.mul_le_mul_left _ (by omega)
  have hcover : ∀ M, CellCover d0 parents d2 M ∧ CoarseFirst parents M →
      Cuts (dCells d0 parents) M (dCells d0 parents ⟨o.toDValues.md.root, 0, d2 - 1⟩) ∧
        ∀ x ∈ M, x.node < parents.length ∧ x.first ≤ x.last ∧ x.last < d2 :=
    fun M hM => ⟨cellCover_cuts hmd.tree hM.1 h2, fun x hx => hM.1.1 x hx⟩
  have hsheet := hN (dOps (F := F) q' o.toDValues.md) ho
    (fun (p, n, s, a, b, g, l) => (⟨p, (n : Int) + 1, s, (a : Int) + 1, (b : Int) + 1, g, l⟩ : DRow F K')) c.dRow
    DRow.parameter DRow.gain DRow.loss (fun x => (x.node, x.size, x.start, x.end))
    (fun x : Rect => ((x.node : Int) + 1, ((leavesUnder d0 parents x.node).card : Int) * (x.last - x.first + 1), (x.first : Int) + 1,
      (x.last : Int) + 1)) (fun x => x.2.2.2.2.2.1) (fun x => x.2.2.2.2.2.2)
    (fun L => CellCover d0 parents d2 L ∧ CoarseFirst parents L) (fun L => CellCover d0 parents d2 L ∧ CoarseFirst parents L)
    (relative (gain3 d1 1 v) (loss3 d1 1 v) all (fun x : Rect => leavesUnder d0 parents x.node ×ˢ Finset.Icc x.first x.last))
    (fun p x => (p, x.node, (dPartOf o.toDValues.md (fun n i j => (f' n i j).div (nDiv (o.toDValues.md.root < n) (f' o.toDValues.md.root 0 (d2 - 1)))) x).getSize,
      x.first, x.last,
      ((f' x.node x.first x.last).div (nDiv (o.toDValues.md.root < x.node) (f' o.toDValues.md.root 0 (d2 - 1)))).gain,
      ((f' x.node x.first x.last).div (nDiv (o.toDValues.md.root < x.node) (f' o.toDValues.md.root 0 (d2 - 1)))).loss)) ε
    (err_aux h _ (C78.pos_aux (A := Nat) (κ := κ) h1 hne (V := V) (nonneg_dCells hVp (by omega))
        (by rw [hsz, hg]; exact sX) (by rw [hsz, hl]; exact sY)).2.2) hε
    (by
      intro p P x hx
      simp only [dOps, List.mem_map] at hx
      obtain ⟨y, _, rfl⟩ := hx
      rfl)
    (by rintro ⟨p, n, s, i, j, g, l⟩; exact ⟨rfl, rfl, rfl⟩)
    (by
      intro p P p' P' hh
      simp only [dOps, List.map_map] at hh
      have hh : P.parts.map (fun x : DPart K' => ((x.h : Int) + 1, x.getSize, (x.start : Int) + 1, (x.end : Int) + 1)) =
        P'.parts.map (fun x : DPart K' => ((x.h : Int) + 1, x.getSize, (x.start : Int) + 1, (x.end : Int) + 1)) := hh
      have hlen : P.parts.length = P'.parts.length := by have := congrArg List.length hh; simpa using this
      simp only [dOps, DPartition.eqOp]
      rw [if_neg (by simp [hlen]), List.all_eq_true]
      intro x hx
      rw [List.any_eq_true]
      have hm : ((x.h : Int) + 1, x.getSize, (x.start : Int) + 1, (x.end : Int) + 1) ∈
        P'.parts.map (fun x : DPart K' => ((x.h : Int) + 1, x.getSize, (x.start : Int) + 1, (x.end : Int) + 1)) := by
        rw [← hh]
        exact List.mem_map.mpr ⟨x, hx, rfl⟩
      obtain ⟨y, hy, hxy⟩ := List.mem_map.mp hm
      refine ⟨y, hy, ?_⟩
      simp only [Prod.mk.injEq] at hxy
      have e1 : x.h = y.h := by omega
      have e2 : x.start = y.start := by omega
      have e3 : x.end = y.end := by omega
      simp [DPart.eqOp, e1, e2, e3, hxy.2.1])
    (by
      intro p hp0 hp1
      obtain ⟨P, T, C, ds, L, b1, _, _, b4, b5, _⟩ := dBest_spec hmd hq' h2 h2' p
      obtain ⟨P', L', g1, g2, g2', g3, _, g5⟩ := dPart_aux h.arith hmd h2 h2' (roomN_aux ft) hq'
        (fun n i j hn hij hj => by rw [hlate n i j hn]; exact ⟨(hdiv n i j hn hij hj).2.1, (hdiv n i j hn hij hj).2.2⟩) p (weights_aux h p hp0 hp1)
      obtain rfl : P = P' := Except.ok.inj (b1.symm.trans g1)
      have eL : L = L' := by
        rw [b4, List.map_map] at g3
        rw [← g3]
        exact (List.map_id L).symm
      subst eL
      obtain ⟨sk, sn⟩ := sum_aux h.arith (roomN_aux ft)
        (fun x : Rect => (f' x.node x.first x.last).div (nDiv (o.toDValues.md.root < x.node) (f' o.toDValues.md.root 0 (d2 - 1)))) L (fun x hx => by
        rw [hlate _ _ _ (g2.1 x hx).1]
        exact (hdiv _ _ _ (g2.1 x hx).1 (g2.1 x hx).2.1 (g2.1 x hx).2.2).2) (le_trans (cellCover_cuts hmd.tree g2 h2).length_le hcard) b5
      refine best_aux h (q := fun x : Rect => f' x.node x.first x.last)
        (q' := fun x : Rect => (f' x.node x.first x.last).div (nDiv (o.toDValues.md.root < x.node) (f' o.toDValues.md.root 0 (d2 - 1))))
        (cells := dCells d0 parents)
        (w0 := ⟨o.toDValues.md.root, 0, d2 - 1⟩) (V := V) (N := d0 * d2)
        (ok := fun x : Rect => x.node < parents.length ∧ x.first ≤ x.last ∧ x.last < d2) (κ := κ)
        h1 hne (nonneg_dCells hVp (by omega)) hcard (by rw [hsz, hg]; exact sX) (by rw [hsz, hl]; exact sY) hε
        (fun x hx => ⟨(cell x.node x.first x.last hx.1 hx.2.1 hx.2.2).2.2.2, by
          have d := hdiv x.node x.first x.last hx.1 hx.2.1 hx.2.2
          rw [hlate _ _ _ hx.1]
          exact ⟨d.1, ⟨d.2.1.fin, d.2.1.grid⟩, d.2.2.fin, d.2.2.grid⟩⟩)
        ⟨hmd.tree.rootLt, Nat.zero_le _, by show d2 - 1 < d2; omega⟩ hqual (dOps q' o.toDValues.md)
        (fun x => x.2.2.2.2.2.1) (fun x => x.2.2.2.2.2.2)
        (fun p x => (p, x.node,
          (dPartOf o.toDValues.md (fun n i j => (f' n i j).div (nDiv (o.toDValues.md.root < n) (f' o.toDValues.md.root 0 (d2 - 1)))) x).getSize,
          x.first, x.last,
          ((f' x.node x.first x.last).div (nDiv (o.toDValues.md.root < x.node) (f' o.toDValues.md.root 0 (d2 - 1)))).gain,
          ((f' x.node x.first x.last).div (nDiv (o.toDValues.md.root < x.node) (f' o.toDValues.md.root 0 (d2 - 1)))).loss))
        (fun x => ((x.2.1 : Int) + 1, x.2.2.1, (x.2.2.2.1 : Int) + 1, (x.2.2.2.2.1 : Int) + 1))
        (fun x : Rect => ((x.node : Int) + 1, ((leavesUnder d0 parents x.node).card : Int) * (x.last - x.first + 1), (x.first : Int) + 1,
          (x.last : Int) + 1)) p hp0 hp1
        (fun L => CellCover d0 parents d2 L ∧ CoarseFirst parents L) (fun L => CellCover d0 parents d2 L ∧ CoarseFirst parents L)
        hcover hcover b1 ⟨g2, g2'⟩ ?_ ?_ sk sn ?_
      · simp only [dOps]
        rw [b4, List.map_map]
        rfl
      · intro y hy
        have := hmd.size y.node (g2.1 y hy).1
        refine ⟨?_, rfl, rfl⟩
        simp [dPartOf, DPart.getSize, HMeta.sizeOf, this]
      · intro L' hL'
        refine C78.within_aux (g5 L' hL'.1 hL'.2) ?_
        have hle : d0 + d2 ≤ d0 * d2 + 1 := by
          obtain ⟨x, rfl⟩ := Nat.exists_eq_add_of_lt h0
          obtain ⟨y, rfl⟩ := Nat.exists_eq_add_of_lt h2
          nlinarith
        have := pow_le_pow_right₀ (show 1 ≤ 1 + u by linarith [h.arith.laws.unit_nonneg]) hle
        linarith)
    fuel hf
  obtain ⟨res, e1, e2⟩ := hsheet
  exact ⟨_, by rw [key, e1]; rfl, e2⟩

/-! ## On a PC -/

section
variable (M : PcChoice)

/-- What R may pass: 0, or a number from `2^-970` to `2^990`. -/
def Plain (x : B64) : Prop := x.1 = 0 ∨ (1 / 2 ^ 970 ≤ x.1 ∧ x.1 ≤ 2 ^ 990)

theorem plain_aux {x : B64} (h : Plain x) :
    Grid 1022 ((x.1 : ℚ) : ℝ) ∧ 0 ≤ ((x.1 : ℚ) : ℝ) ∧ ((x.1 : ℚ) : ℝ) ≤ 2 ^ 990 := by
  have g := isB64_grid x.2 (h.imp id And.left)
  rcases h with h | ⟨h1, h2⟩
  · rw [h] at g ⊢
    rw [Rat.cast_zero] at g ⊢
    exact ⟨g, le_refl _, by positivity⟩
  · refine ⟨g, ?_, ?_⟩
    · have : (0 : ℚ) ≤ x.1 := le_trans (by positivity) h1
      exact_mod_cast this
    · have := (Rat.cast_le (K := ℝ)).mpr h2
      rwa [Rat.cast_pow, Rat.cast_ofNat] at this

theorem randMax_aux : Limited.fin (M.long 2147483647) ∧ 16 ≤ (Limited.num (M.long 2147483647) : PcLong).val := by
  exact ⟨⟨_, rfl⟩, C78.randMax_aux⟩

/-- What is proved of the results on a PC. -/
abbrev PcRangeSheet {A R Z : Type} (κ : ℝ) (param gainCol lossCol : R → B64) (place : R → Z) (placeOf : A → Z)
    (part rival : List A → Prop) (quality : A → Quality ℝ) (t : RResult B64 B64 R) : Prop :=
  NearSheet (fun d : B64 => ((d.1 : ℚ) : ℝ)) (κ / 2 ^ 39 + 2 * (1 / 2 ^ 52)) ((1 / 2 ^ 23 : ℚ) : ℝ) (80 * (1 / 2 ^ 63) + 40 * (1 / 2 ^ 52))
    (areaErrIn (1 / 2 ^ 23) (1 / 2 ^ 149) (1 / 2 ^ 52)) param gainCol lossCol place placeOf part rival quality t

/-- `oaggregate` on a PC, whatever it does with results out of range: at most 65535 slices and 65535 series. -/
theorem pcOrdered (th : B64) (ht : 11 / 2 ^ 23 ≤ M.R.rnd th.1) :
    ∃ N : Nat, ∀ (d0 d1 d2 : Nat) (f : Nat × Nat × Nat → B64) (κ : ℝ), 0 < d0 → 0 < d1 → 0 < d2 → d2 ≤ 65535 → d0 * d1 ≤ 65535 →
      (∀ i j k, i < d0 → j < d1 → k < d2 → Plain (f (i, j, k))) →
      let v := fun i j k => (((f (i, j, k)).1 : ℚ) : ℝ)
      let all := Finset.Icc 0 (d2 - 1)
      0 ≤ κ → κ ≤ 2 ^ 39 → size3 d0 d1 v all ≤ κ * gain3 d0 d1 v all → size3 d0 d1 v all ≤ κ * loss3 d0 d1 v all →
      ∀ fuel, N ≤ fuel → ∃ t, oaggregateR M.num false fuel (M.long 2147483647) M.acc (rArray d0 d1 d2 f) th = .ok t ∧
        PcRangeSheet κ ORow.parameter ORow.gain ORow.loss
          (fun x => (x.start, x.end)) (fun I : Nat × Nat => ((I.1 : Int) + 1, (I.2 : Int) + 1)) (Tiles 0 d2) (Tiles 0 d2)
          (relative (gain3 d0 d1 v) (loss3 d0 d1 v) all (fun I : Nat × Nat => Finset.Icc I.1 I.2)) t := by
  obtain ⟨N, hN⟩ := ordered (rangePc M) (M.long 2147483647) (randMax_aux M).1 (randMax_aux M).2 th
    (searchFitsPc (t := M.R.rnd th.1) ht) 1022 1080 (by norm_num) (by norm_num)
  refine ⟨N, ?_⟩
  intro d0 d1 d2 f κ h0 h1 h2 h2' hm hpos v all k0 k1 sX sY fuel hf
  obtain ⟨e1, e2⟩ := C78.pcErr_aux d2 (d0 * d1) h2' hm κ k0
  have e3 : κ / 2 ^ 39 ≤ 1 := by rw [div_le_one (by positivity)]; exact k1
  obtain ⟨t, t1, t2⟩ := hN d0 d1 d2 f κ (2 ^ 990) h0 h1 h2 h2' (by omega) (roomLong (by omega) (by omega))
    (fun i j k a b c => plain_aux (hpos i j k a b c)) sX sY (e1.trans e3) fuel hf
  exact ⟨t, t1, C78.mono_aux t2 (by linarith)⟩

theorem vec_aux {vec : List B64} {zs : List Int} (hvec : vec.map (fun d => d.1) = zs.map (fun z : Int => (z : ℚ))) :
    vec.map (fun d : B64 => ((d.1 : ℚ) : ℝ)) = zs.map (fun z : Int => (z : ℝ)) := by
  have := congrArg (List.map (fun q : ℚ => (q : ℝ))) hvec
  rw [List.map_map, List.map_map] at this
  refine this.trans (List.map_congr_left (fun z _ => ?_))
  simp

/-- `haggregate` on a PC: at most 65535 leaves and 65535 series. -/
theorem pcHierarchical (th : B64) (ht : 11 / 2 ^ 23 ≤ M.R.rnd th.1) :
    ∃ N : Nat, ∀ (d0 d1 d2 : Nat) (f : Nat × Nat × Nat → B64) (vec : List B64) (zs : List Int) (κ : ℝ), 0 < d0 → 0 < d1 → 0 < d2 → d0 ≤ 65535 →
      d1 * d2 ≤ 65535 → vec.map (fun d => d.1) = zs.map (fun z : Int => (z : ℚ)) → (∀ z ∈ zs, |z| ≤ 2 ^ 31) →
      let parents := zs.map (· - 1)
      IsTree d0 parents (parents.length - 1) → NearestFirst d0 parents → d0 < parents.length →
      (∀ i j k, i < d0 → j < d1 → k < d2 → Plain (f (i, j, k))) →
      let v := fun j k l => (((f (l, j, k)).1 : ℚ) : ℝ)
      let all := Finset.range d0
      0 ≤ κ → κ ≤ 2 ^ 39 → size3 d1 d2 v all ≤ κ * gain3 d1 d2 v all → size3 d1 d2 v all ≤ κ * loss3 d1 d2 v all →
      ∀ fuel, N ≤ fuel → ∃ t, haggregateR M.num false fuel (M.long 2147483647) M.acc (rArray d0 d1 d2 f) vec th = .ok t ∧
        PcRangeSheet κ HRow.parameter HRow.gain HRow.loss
          (fun x => (x.node, x.size)) (fun n : Nat => ((n : Int) + 1, ((leavesUnder d0 parents n).card : Int))) (LeafCover d0 parents)
          (LeafCover d0 parents) (relative (gain3 d1 d2 v) (loss3 d1 d2 v) all (leavesUnder d0 parents)) t := by
  obtain ⟨N, hN⟩ := hierarchical (rangePc M) (M.long 2147483647) (randMax_aux M).1 (randMax_aux M).2 th
    (searchFitsPc (t := M.R.rnd th.1) ht) 1022 1080 (by norm_num) (by norm_num)
  refine ⟨N, ?_⟩
  intro d0 d1 d2 f vec zs κ h0 h1 h2 h0' hm hvec hz parents tree near hlt hpos v all k0 k1 sX sY fuel hf
  obtain ⟨e1, e2⟩ := C78.pcErr_aux d0 (d1 * d2) h0' hm κ k0
  have e3 : κ / 2 ^ 39 ≤ 1 := by rw [div_le_one (by positivity)]; exact k1
  obtain ⟨t, t1, t2⟩ := hN d0 d1 d2 f vec zs κ (2 ^ 990) h0 h1 h2 (by omega) (by omega) (vec_aux hvec) hz tree near hlt
    (roomLong (by omega) (by omega)) (fun i j k a b c => plain_aux (hpos i j k a b c)) sX sY (e1.trans e3) fuel hf
  exact ⟨t, t1, C78.mono_aux t2 (by linarith)⟩

/-- `daggregate` on a PC: at most 65535 cells and 65535 series. -/
theorem pcSpatiotemporal (th : B64) (ht : 11 / 2 ^ 23 ≤ M.R.rnd th.1) :
    ∃ N : Nat, ∀ (d0 d1 d2 : Nat) (f : Nat × Nat × Nat → B64) (vec : List B64) (zs : List Int) (κ : ℝ), 0 < d0 → 0 < d1 → 0 < d2 → d0 * d2 ≤ 65535 →
      d1 ≤ 65535 → vec.map (fun d => d.1) = zs.map (fun z : Int => (z : ℚ)) → (∀ z ∈ zs, |z| ≤ 2 ^ 31) →
      let parents := zs.map (· - 1)
      IsTree d0 parents (parents.length - 1) → NearestFirst d0 parents → d0 < parents.length →
      (∀ i j k, i < d0 → j < d1 → k < d2 → Plain (f (i, j, k))) →
      let v := fun j (_ : Nat) (x : Nat × Nat) => (((f (x.1, j, x.2)).1 : ℚ) : ℝ)
      let all := Finset.range d0 ×ˢ Finset.Icc 0 (d2 - 1)
      0 ≤ κ → κ ≤ 2 ^ 39 → size3 d1 1 v all ≤ κ * gain3 d1 1 v all → size3 d1 1 v all ≤ κ * loss3 d1 1 v all →
      ∀ fuel, N ≤ fuel → ∃ t, daggregateR M.num false fuel (M.long 2147483647) M.acc (rArray d0 d1 d2 f) vec th = .ok t ∧
        PcRangeSheet κ DRow.parameter DRow.gain DRow.loss
          (fun x => (x.node, x.size, x.start, x.end))
          (fun x : Rect => ((x.node : Int) + 1, ((leavesUnder d0 parents x.node).card : Int) * (x.last - x.first + 1), (x.first : Int) + 1,
            (x.last : Int) + 1))
          (fun L => CellCover d0 parents d2 L ∧ CoarseFirst parents L) (fun L => CellCover d0 parents d2 L ∧ CoarseFirst parents L)
          (relative (gain3 d1 1 v) (loss3 d1 1 v) all (fun x : Rect => leavesUnder d0 parents x.node ×ˢ Finset.Icc x.first x.last)) t := by
  obtain ⟨N, hN⟩ := spatiotemporal (rangePc M) (M.long 2147483647) (randMax_aux M).1 (randMax_aux M).2 th
    (searchFitsPc (t := M.R.rnd th.1) ht) 1022 1080 (by norm_num) (by norm_num)
  refine ⟨N, ?_⟩
  intro d0 d1 d2 f vec zs κ h0 h1 h2 h0' hm hvec hz parents tree near hlt hpos v all k0 k1 sX sY fuel hf
  obtain ⟨e1, e2⟩ := C78.pcErr_aux (d0 * d2) d1 h0' hm κ k0
  have e3 : κ / 2 ^ 39 ≤ 1 := by rw [div_le_one (by positivity)]; exact k1
  obtain ⟨t, t1, t2⟩ := hN d0 d1 d2 f vec zs κ (2 ^ 990) h0 h1 h2 (le_trans (Nat.le_mul_of_pos_left _ h0) h0') (by omega) (vec_aux hvec) hz
    tree near hlt (roomLong (by omega) (by omega)) (fun i j k a b c => plain_aux (hpos i j k a b c)) sX sY (e1.trans e3) fuel hf
  exact ⟨t, t1, C78.mono_aux t2 (by linarith)⟩

end

/-! ## Examples: the data of C78, on any such PC -/

theorem bit_aux (b : Bool) : Plain (C78.bit b) := by
  cases b
  · exact .inl rfl
  · refine .inr ⟨?_, ?_⟩
    · show (1 : ℚ) / 2 ^ 970 ≤ 1
      rw [div_le_one (by positivity)]
      exact one_le_pow₀ (by norm_num)
    · exact one_le_pow₀ (M₀ := ℚ) (by norm_num)

/-- What the examples show of the results. -/
theorem result_aux {A R Z : Type} {param gainCol lossCol : R → B64} {place : R → Z} {placeOf : A → Z}
    {part rival : List A → Prop} {quality : A → Quality ℝ} {t : RResult B64 B64 R}
    (h : PcRangeSheet 32 param gainCol lossCol place placeOf part rival quality t) :
    t.qualities ≠ [] ∧ ∀ e ∈ t.qualities, e.gain.1 ≤ 1 + 1 / 2 ^ 33 ∧ -(1 / 2 ^ 33) ≤ e.loss.1 := by
  constructor
  · intro e0
    obtain ⟨p, hp, _⟩ := h.first
    rw [e0] at hp
    simp at hp
  · intro e he
    obtain ⟨L, _, _, _, l4, l5, l6, l7, l8, l9, _⟩ := h.rows e he
    have a := abs_le.mp l4
    have b := abs_le.mp l5
    have a1 : ((e.gain.1 : ℚ) : ℝ) ≤ ((1 + 1 / 2 ^ 33 : ℚ) : ℝ) := by push_cast; norm_num at a ⊢; linarith
    have b1 : ((-(1 / 2 ^ 33) : ℚ) : ℝ) ≤ ((e.loss.1 : ℚ) : ℝ) := by push_cast; norm_num at b ⊢; linarith
    exact ⟨by exact_mod_cast a1, by exact_mod_cast b1⟩

/-- The slices 1, 1, 0, 0. -/
example (M : PcChoice) (th : B64) (ht : th.1 = 1 / 1024) : ∃ fuel t,
    oaggregateR M.num false fuel (M.long 2147483647) M.acc ⟨1, 1, 4, [C78.bit true, C78.bit true, C78.bit false, C78.bit false]⟩ th = .ok t ∧
      t.qualities ≠ [] ∧ ∀ e ∈ t.qualities, e.gain.1 ≤ 1 + 1 / 2 ^ 33 ∧ -(1 / 2 ^ 33) ≤ e.loss.1 := by
  obtain ⟨N, h⟩ := pcOrdered M th (C78.thr_aux M.R th ht)
  have k := C78.four_aux (Finset.Icc 0 3) (fun i j k => (((C78.bit (decide (k < 2))).1 : ℚ) : ℝ)) (fun k => decide (k < 2))
    (fun k => C78.bit_aux _) (by decide) (by decide)
  obtain ⟨t, t1, t2⟩ := h 1 1 4 (fun x => C78.bit (decide (x.2.2 < 2))) 32 (by norm_num) (by norm_num) (by norm_num) (by norm_num) (by norm_num)
    (fun i j k _ _ _ => bit_aux _) (by norm_num) (by norm_num) k.1 k.2 N (Nat.le_refl _)
  exact ⟨N, t, by rw [← t1]; rfl, result_aux t2⟩

/-- The leaves 1, 0, 1, 0. -/
example (M : PcChoice) (th : B64) (ht : th.1 = 1 / 1024) : ∃ fuel t,
    haggregateR M.num false fuel (M.long 2147483647) M.acc ⟨4, 1, 1, [C78.bit true, C78.bit false, C78.bit true, C78.bit false]⟩ C78.vec7 th =
      .ok t ∧ t.qualities ≠ [] ∧ ∀ e ∈ t.qualities, e.gain.1 ≤ 1 + 1 / 2 ^ 33 ∧ -(1 / 2 ^ 33) ≤ e.loss.1 := by
  obtain ⟨N, h⟩ := pcHierarchical M th (C78.thr_aux M.R th ht)
  have k := C78.four_aux (Finset.range 4) (fun j k l => (((C78.bit (decide (l % 2 = 0))).1 : ℚ) : ℝ)) (fun l => decide (l % 2 = 0))
    (fun k => C78.bit_aux _) (by decide) (by decide)
  obtain ⟨t, t1, t2⟩ := h 4 1 1 (fun x => C78.bit (decide (x.1 % 2 = 0))) C78.vec7 [5, 5, 6, 6, 7, 7, 0] 32 (by norm_num) (by norm_num) (by norm_num)
    (by norm_num) (by norm_num) rfl (by decide) C78.tree_aux.1 C78.tree_aux.2 (by decide)
    (fun i j k _ _ _ => bit_aux _) (by norm_num) (by norm_num) k.1 k.2 N (Nat.le_refl _)
  exact ⟨N, t, by rw [← t1]; rfl, result_aux t2⟩

/-- The leaves 1, 1, 0, 0 during two slices, on the machine that rounds towards zero. -/
example (th : B64) (ht : th.1 = 1 / 1024) : ∃ fuel t,
    daggregateR PcChoice.chopping.num false fuel (PcChoice.chopping.long 2147483647) PcChoice.chopping.acc
      ⟨4, 1, 2, [C78.bit true, C78.bit true, C78.bit false, C78.bit false, C78.bit true, C78.bit true, C78.bit false, C78.bit false]⟩ C78.vec7 th =
      .ok t ∧ t.qualities ≠ [] ∧ ∀ e ∈ t.qualities, e.gain.1 ≤ 1 + 1 / 2 ^ 33 ∧ -(1 / 2 ^ 33) ≤ e.loss.1 := by
  obtain ⟨N, h⟩ := pcSpatiotemporal PcChoice.chopping th (C78.thr_aux _ th ht)
  have k := C78.eight_aux (Finset.range 4 ×ˢ Finset.Icc 0 1) (fun j k x => (((C78.bit (decide (x.1 < 2))).1 : ℚ) : ℝ)) (fun x => decide (x.1 < 2))
    (fun k => C78.bit_aux _) (by decide) (by decide)
  obtain ⟨t, t1, t2⟩ := h 4 1 2 (fun x => C78.bit (decide (x.1 < 2))) C78.vec7 [5, 5, 6, 6, 7, 7, 0] 32 (by norm_num) (by norm_num) (by norm_num)
    (by norm_num) (by norm_num) rfl (by decide) C78.tree_aux.1 C78.tree_aux.2 (by decide)
    (fun i j k _ _ _ => bit_aux _) (by norm_num) (by norm_num) k.1 k.2 N (Nat.le_refl _)
  exact ⟨N, t, by rw [← t1]; rfl, result_aux t2⟩

end Lp.C87
