import Verif.Proofs.Ragged
import Verif.Props.C76

/-!
# C79 — ragged and empty data

The containers take their dimensions from the first inner vectors.  `computeQualities()` reads exactly the block of that size: it stays inside the
vectors if and only if no element of the block is missing, and elements outside it have no influence.  (A read outside is undefined behaviour; the
model stops with an error.)  The functions called from R have no defined result for an array without elements.
-/

namespace Lp.C79
open Spec
variable {K : Type} [LDLog K]

/-! ## Through the interfaces -/

theorem o_aux {c : OValues K} {R : Nat → Nat → Option K}
    (hR : ∀ k i, k < c.vsize → i < c.osize → oRead c k i = ofOpt (R k i)) (hn : c.osize ≤ 65535) :
    (∃ t, oComputed c = .ok t) ↔ ∀ k i, k < c.vsize → i < c.osize → (R k i).isSome := by
  rw [← oqCompute_iff hR hn]
  unfold oComputed OQualities.computeQualities OQualities.ofValues
  dsimp only
  cases oqCompute c with
  | error e => simp [Except.map]
  | ok q => simp [Except.map]

theorem oSame_aux {c c' : OValues K} (h1 : c.vsize = c'.vsize) (h2 : c.osize = c'.osize)
    (h : ∀ k i, k < c.vsize → i < c.osize → oRead c k i = oRead c' k i) : oComputed c = oComputed c' := by
  unfold oComputed OQualities.computeQualities OQualities.ofValues
  dsimp only
  rw [oqCompute_congr h1 h2 h]
  cases oqCompute c' <;> rfl

theorem h_aux {leaves : Nat} {parents : List Int} {c : HValues K} (r : RightMeta leaves parents c.md) (hlt : leaves < parents.length)
    {R : Nat → Nat → Option K} (hR : ∀ k l, k < c.vsize → l < leaves → c.value l k = ofOpt (R k l)) :
    (∃ t, hComputed c = .ok t) ↔ ∀ k l, k < c.vsize → l < leaves → (R k l).isSome := by
  rw [← hqCompute_iff r hlt hR]
  unfold hComputed HQualities.computeQualities HQualities.ofValues
  dsimp only
  cases hqCompute c c.md with
  | error e => simp [Except.map]
  | ok q => simp [Except.map]

theorem hSame_aux {leaves : Nat} {parents : List Int} {c c' : HValues K} (r : RightMeta leaves parents c.md) (h0 : c.md = c'.md)
    (h1 : c.vsize = c'.vsize) (h : ∀ k l, k < c.vsize → l < leaves → c.value l k = c'.value l k) : hComputed c = hComputed c' := by
  unfold hComputed HQualities.computeQualities HQualities.ofValues
  dsimp only
  rw [hqCompute_congr r h1 h, h0]
  cases hqCompute c' c'.md <;> rfl

theorem d_aux {leaves : Nat} {parents : List Int} {c : DValues K} (r : RightMeta leaves parents c.md) (hlt : leaves < parents.length)
    {R : Nat → Nat → Nat → Option K}
    (hR : ∀ k l i, k < c.vsize → l < leaves → i < c.osize → dRead c l k i = ofOpt (R k l i)) (hn : c.osize ≤ 65535)
    (hb : leaves * c.osize < 2147483648) :
    (∃ t, dComputed c = .ok t) ↔ ∀ k l i, k < c.vsize → l < leaves → i < c.osize → (R k l i).isSome := by
  rw [← dqCompute_iff r hlt hR hn hb]
  unfold dComputed DQualities.computeQualities DQualities.ofValues
  dsimp only
  cases dqCompute c c.md with
  | error e => simp [Except.map]
  | ok q => simp [Except.map]

theorem dSame_aux {leaves : Nat} {parents : List Int} {c c' : DValues K} (r : RightMeta leaves parents c.md) (h0 : c.md = c'.md)
    (h1 : c.vsize = c'.vsize) (h2 : c.osize = c'.osize)
    (h : ∀ k l i, k < c.vsize → l < leaves → i < c.osize → dRead c l k i = dRead c' l k i) : dComputed c = dComputed c' := by
  unfold dComputed DQualities.computeQualities DQualities.ofValues
  dsimp only
  rw [dqCompute_congr r h1 h2 h, h0]
  cases dqCompute c' c'.md <;> rfl

/-! ## Index arithmetic -/

theorem flat3_aux {I J : Nat} {P : Nat → Nat → Prop} :
    (∀ k, k < I * J → P (k / J) (k % J)) ↔ ∀ a b, a < I → b < J → P a b := by
  constructor
  · intro h a b ha hb
    have hJ : 0 < J := by omega
    have hk : a * J + b < I * J := by
      have := Nat.mul_le_mul_right J (show a + 1 ≤ I by omega)
      rw [Nat.add_mul, Nat.one_mul] at this
      omega
    have := h (a * J + b) hk
    have e1 : (a * J + b) / J = a := by
      rw [Nat.mul_comm, Nat.mul_add_div hJ, Nat.div_eq_of_lt hb, Nat.add_zero]
    have e2 : (a * J + b) % J = b := by
      rw [Nat.mul_comm, Nat.mul_add_mod, Nat.mod_eq_of_lt hb]
    rwa [e1, e2] at this
  · intro h k hk
    obtain ⟨h1, h2, _⟩ := flat3 hk
    exact h _ _ h1 h2

theorem flat4_aux {I J Z : Nat} (hF : I * J * Z < 2 ^ 32) {P : Nat → Nat → Nat → Prop} :
    (∀ k, k < I * J * Z → P (toI4 J Z k) (toJ4 J Z k) (toK4 Z k)) ↔ ∀ a b c, a < I → b < J → c < Z → P a b c := by
  have key : ∀ k, k < I * J * Z → (P (toI4 J Z k) (toJ4 J Z k) (toK4 Z k) ↔ P (k / Z / J) (k / Z % J) (k % Z)) := by
    intro k hk
    have hI : 0 < I := by
      rcases Nat.eq_zero_or_pos I with rfl | h
      · simp at hk
      · exact h
    have hle : Z * J < 4294967296 := by
      have := Nat.mul_le_mul_right (J * Z) hI
      rw [Nat.one_mul, ← Nat.mul_assoc] at this
      rw [Nat.mul_comm]
      exact lt_of_le_of_lt this hF
    have e : u32 (Z * J) = Z * J := Nat.mod_eq_of_lt hle
    unfold toI4 toJ4 toK4
    rw [e, Nat.div_div_eq_div_mul]
  calc _ ↔ ∀ k, k < I * J * Z → P (k / Z / J) (k / Z % J) (k % Z) := forall₂_congr key
    _ ↔ ∀ x c, x < I * J → c < Z → P (x / J) (x % J) c := flat3_aux (P := fun x c => P (x / J) (x % J) c)
    _ ↔ ∀ c, c < Z → ∀ x, x < I * J → P (x / J) (x % J) c := by
      constructor
      · exact fun h c hc x hx => h x c hx hc
      · exact fun h x c hx hc => h c hc x hx
    _ ↔ ∀ c, c < Z → ∀ a b, a < I → b < J → P a b c := forall₂_congr (fun c _ => flat3_aux (P := fun a b => P a b c))
    _ ↔ _ := by
      constructor
      · exact fun h a b c ha hb hc => h c hc a b ha hb
      · exact fun h c hc a b ha hb => h a b c ha hb hc

theorem size3_aux (d0 d1 d2 : Nat) (f : Nat × Nat × Nat → K) (h : d0 = 0 ∨ d1 = 0 ∨ d2 = 0) : SIZE3 (table3 d0 d1 d2 f) = 0 := by
  rw [SIZE3_len]
  cases d0 with
  | zero => rfl
  | succ d0 =>
    cases d1 with
    | zero => simp [len3, len2, table3, table2]
    | succ d1 =>
      cases d2 with
      | zero => simp [len3, len2, table3, table2, table1]
      | succ d2 => omega

theorem u32_aux {n : Nat} (h : n < 2 ^ 32) : u32 n = n := Nat.mod_eq_of_lt h

/-! ## Ordered data -/

/-- One vector: nothing can be missing. -/
theorem ordered1 (v : V1 K) (hn : v.length ≤ 65535) : ∃ t, oComputed (OValuesN1.ofVec v).toOValues = .ok t := by
  have hR : ∀ k i, k < (OValuesN1.ofVec v).toOValues.vsize → i < (OValuesN1.ofVec v).toOValues.osize →
      oRead (OValuesN1.ofVec v).toOValues k i = ofOpt v[i]? := fun k i _ _ => vget_ofOpt v i
  rw [o_aux hR hn]
  intro k i _ hi
  have hi : i < v.length := hi
  simp [hi]

/-- Vectors of vectors. -/
theorem ordered2 (v : V2 K) (hn : len2 v ≤ 65535) :
    ((∃ t, oComputed (OValuesN2.ofVec v).toOValues = .ok t) ↔ Filled2 v) ∧
    ∀ w, SameBlock2 v w → oComputed (OValuesN2.ofVec v).toOValues = oComputed (OValuesN2.ofVec w).toOValues := by
  have hR : ∀ (v : V2 K) k i, oRead (OValuesN2.ofVec v).toOValues k i = ofOpt (at2 v k i) := fun v k i => get2_at v k i
  constructor
  · rw [o_aux (fun k i _ _ => hR v k i) (by show SIZE2 v ≤ 65535; rw [SIZE2_len]; exact hn)]
    show (∀ k i, k < v.length → i < SIZE2 v → _) ↔ _
    rw [SIZE2_len]
    rfl
  · rintro w ⟨h1, h2, h⟩
    refine oSame_aux h1 ?_ (fun k i hk hi => ?_)
    · show SIZE2 v = SIZE2 w
      rw [SIZE2_len, SIZE2_len, h2]
    · have hi : i < SIZE2 v := hi
      rw [SIZE2_len] at hi
      rw [hR, hR, h k i hk hi]

theorem read3_aux (v : V3 K) (k i : Nat) :
    oRead (OValuesN3.ofVec v).toOValues k i = ofOpt (at3 v (k / len2 v) (k % len2 v) i) := by
  rw [← get3_at, ← SIZE2_len3]; rfl

/-- Three levels. -/
theorem ordered3 (v : V3 K) (hn : len3 v ≤ 65535) (hF : v.length * len2 v < 2 ^ 32) :
    ((∃ t, oComputed (OValuesN3.ofVec v).toOValues = .ok t) ↔ Filled3 v) ∧
    ∀ w, SameBlock3 v w → oComputed (OValuesN3.ofVec v).toOValues = oComputed (OValuesN3.ofVec w).toOValues := by
  have hv : ∀ v : V3 K, (OValuesN3.ofVec v).toOValues.vsize = u32 (v.length * len2 v) := fun v => by rw [← SIZE2_len3]; rfl
  have ho : ∀ v : V3 K, (OValuesN3.ofVec v).toOValues.osize = len3 v := fun v => by rw [← SIZE3_len]; rfl
  constructor
  · rw [o_aux (fun k i _ _ => read3_aux v k i) (by rw [ho]; exact hn), hv, ho, u32_aux hF]
    unfold Filled3
    rw [← flat3_aux (P := fun a b => ∀ c, c < len3 v → (at3 v a b c).isSome) |>.trans
      ⟨fun h a b c ha hb hc => h a b ha hb c hc, fun h a b ha hb c hc => h a b c ha hb hc⟩]
    exact ⟨fun h k hk i hi => h k i hk hi, fun h k i hk hi => h k hk i hi⟩
  · rintro w ⟨h1, h2, h3, h⟩
    refine oSame_aux (by rw [hv, hv, h1, h2]) (by rw [ho, ho, h3]) (fun k i hk hi => ?_)
    rw [hv, u32_aux hF] at hk
    rw [ho] at hi
    rw [read3_aux, read3_aux, ← h2]
    obtain ⟨g1, g2, _⟩ := flat3 hk
    rw [h _ _ i g1 g2 hi]

theorem read4_aux (v : V4 K) (k i : Nat) : oRead (OValuesN4.ofVec v).toOValues k i =
    ofOpt (at4 v (toI4 (len2 v) (len3 v) k) (toJ4 (len2 v) (len3 v) k) (toK4 (len3 v) k) i) := by
  rw [← get4_at, ← SIZE2_len3, ← SIZE3_len]; rfl

/-- Four levels. -/
theorem ordered4 (v : V4 K) (hn : len4 v ≤ 65535) (hF : v.length * len2 v * len3 v < 2 ^ 32) :
    ((∃ t, oComputed (OValuesN4.ofVec v).toOValues = .ok t) ↔ Filled4 v) ∧
    ∀ w, SameBlock4 v w → oComputed (OValuesN4.ofVec v).toOValues = oComputed (OValuesN4.ofVec w).toOValues := by
  have hv : ∀ v : V4 K, (OValuesN4.ofVec v).toOValues.vsize = u32 (v.length * len2 v * len3 v) := fun v => by
    rw [← SIZE2_len3, ← SIZE3_len]; rfl
  have ho : ∀ v : V4 K, (OValuesN4.ofVec v).toOValues.osize = len4 v := fun v => by rw [← SIZE4_len]; rfl
  constructor
  · rw [o_aux (fun k i _ _ => read4_aux v k i) (by rw [ho]; exact hn), hv, ho, u32_aux hF]
    have := flat4_aux hF (P := fun a b c => ∀ d, d < len4 v → (at4 v a b c d).isSome)
    constructor
    · intro h a b c d ha hb hc hd
      exact this.mp (fun k hk i hi => h k i hk hi) a b c ha hb hc d hd
    · intro h k i hk hi
      exact this.mpr (fun a b c ha hb hc d hd => h a b c d ha hb hc hd) k hk i hi
  · rintro w ⟨h1, h2, h3, h4, h⟩
    refine oSame_aux (by rw [hv, hv, h1, h2, h3]) (by rw [ho, ho, h4]) (fun k i hk hi => ?_)
    rw [hv, u32_aux hF] at hk
    rw [ho] at hi
    rw [read4_aux, read4_aux, ← h2, ← h3]
    have := (flat4_aux hF (P := fun a b c => ofOpt (at4 v a b c i) = ofOpt (at4 w a b c i))).mpr
      (fun a b c ha hb hc => by rw [h a b c i ha hb hc hi])
    exact this k hk

/-! ## Hierarchical data -/

/-- One value for each leaf: nothing can be missing. -/
theorem hierarchical1 (v : V1 K) (parents : List Int) (c : HValuesN1 K) (hc : HValuesN1.ofVec v parents = .ok c)
    (r : RightMeta v.length parents c.md) (hlt : v.length < parents.length) : ∃ t, hComputed c.toHValues = .ok t := by
  unfold HValuesN1.ofVec at hc
  cases hm : mkMeta (SIZE1 v) parents with
  | error e => rw [hm] at hc; simp at hc
  | ok md =>
    rw [hm] at hc
    simp only [okBind, pureOk, Except.ok.injEq] at hc
    subst hc
    rw [h_aux (c := HValuesN1.toHValues ⟨1, md, v⟩) r hlt (R := fun _ l => v[l]?) (fun k l _ _ => vget_ofOpt v l)]
    intro k l _ hl
    simp [hl]

/-- Vectors of vectors. -/
theorem hierarchical2 (v : V2 K) (parents : List Int) (c : HValuesN2 K) (hc : HValuesN2.ofVec v parents = .ok c)
    (r : RightMeta v.length parents c.md) (hlt : v.length < parents.length) :
    ((∃ t, hComputed c.toHValues = .ok t) ↔ Filled2 v) ∧
    ∀ w, SameBlock2 v w → ∃ c', HValuesN2.ofVec w parents = .ok c' ∧ hComputed c.toHValues = hComputed c'.toHValues := by
  have ov : ∀ w : V2 K, HValuesN2.ofVec w parents = (mkMeta w.length parents).map (fun md => ⟨len2 w, md, w⟩) := fun w => by
    unfold HValuesN2.ofVec
    rw [SIZE2_len]
    show (mkMeta w.length parents >>= _) = _
    cases mkMeta w.length parents <;> rfl
  rw [ov] at hc
  cases hm : mkMeta v.length parents with
  | error e => rw [hm] at hc; simp [Except.map] at hc
  | ok md =>
    rw [hm] at hc
    simp only [Except.map, Except.ok.injEq] at hc
    subst hc
    have hR : ∀ (v : V2 K) (md : HMeta) k l, (HValuesN2.toHValues ⟨len2 v, md, v⟩).value l k = ofOpt (at2 v l k) :=
      fun v md k l => get2_at v l k
    constructor
    · rw [h_aux (c := HValuesN2.toHValues ⟨len2 v, md, v⟩) r hlt (fun k l _ _ => hR v md k l)]
      exact ⟨fun h a b ha hb => h b a hb ha, fun h k l hk hl => h l k hl hk⟩
    · rintro w ⟨h1, h2, h⟩
      refine ⟨⟨len2 w, md, w⟩, by rw [ov, ← h1, hm]; rfl, hSame_aux r rfl h2 (fun k l hk hl => ?_)⟩
      rw [hR, hR, h l k hl hk]

/-- Three levels. -/
theorem hierarchical3 (v : V3 K) (parents : List Int) (c : HValuesN3 K) (hc : HValuesN3.ofVec v parents = .ok c)
    (r : RightMeta v.length parents c.md) (hlt : v.length < parents.length) (hF : len2 v * len3 v < 2 ^ 32) :
    ((∃ t, hComputed c.toHValues = .ok t) ↔ Filled3 v) ∧
    ∀ w, SameBlock3 v w → ∃ c', HValuesN3.ofVec w parents = .ok c' ∧ hComputed c.toHValues = hComputed c'.toHValues := by
  have ov : ∀ w : V3 K, HValuesN3.ofVec w parents =
      (mkMeta w.length parents).map (fun md => ⟨u32 (len2 w * len3 w), md, len2 w, len3 w, w⟩) := fun w => by
    unfold HValuesN3.ofVec
    rw [SIZE2_len3, SIZE3_len]
    show (mkMeta w.length parents >>= _) = _
    cases mkMeta w.length parents <;> rfl
  rw [ov] at hc
  cases hm : mkMeta v.length parents with
  | error e => rw [hm] at hc; simp [Except.map] at hc
  | ok md =>
    rw [hm] at hc
    simp only [Except.map, Except.ok.injEq] at hc
    subst hc
    have hR : ∀ (v : V3 K) (md : HMeta) k l, (HValuesN3.toHValues ⟨u32 (len2 v * len3 v), md, len2 v, len3 v, v⟩).value l k =
        ofOpt (at3 v l (k / len3 v) (k % len3 v)) := fun v md k l => by rw [← get3_at]; rfl
    constructor
    · rw [h_aux (c := HValuesN3.toHValues ⟨u32 (len2 v * len3 v), md, len2 v, len3 v, v⟩) r hlt (fun k l _ _ => hR v md k l)]
      show (∀ k l, k < u32 (len2 v * len3 v) → _) ↔ _
      rw [u32_aux hF]
      have := flat3_aux (I := len2 v) (J := len3 v) (P := fun a b => ∀ l, l < v.length → (at3 v l a b).isSome)
      constructor
      · exact fun h l a b hl ha hb => this.mp (fun k hk l hl => h k l hk hl) a b ha hb l hl
      · exact fun h k l hk hl => this.mpr (fun a b ha hb l hl => h l a b hl ha hb) k hk l hl
    · rintro w ⟨h1, h2, h3, h⟩
      refine ⟨⟨u32 (len2 w * len3 w), md, len2 w, len3 w, w⟩, by rw [ov, ← h1, hm]; rfl,
        hSame_aux r rfl (by show u32 _ = u32 _; rw [h2, h3]) (fun k l hk hl => ?_)⟩
      have hk : k < u32 (len2 v * len3 v) := hk
      rw [u32_aux hF] at hk
      rw [hR, hR, ← h3]
      obtain ⟨g1, g2, _⟩ := flat3 hk
      rw [h l _ _ hl g1 g2]

/-- Four levels. -/
theorem hierarchical4 (v : V4 K) (parents : List Int) (c : HValuesN4 K) (hc : HValuesN4.ofVec v parents = .ok c)
    (r : RightMeta v.length parents c.md) (hlt : v.length < parents.length) (hF : len2 v * len3 v * len4 v < 2 ^ 32) :
    ((∃ t, hComputed c.toHValues = .ok t) ↔ Filled4 v) ∧
    ∀ w, SameBlock4 v w → ∃ c', HValuesN4.ofVec w parents = .ok c' ∧ hComputed c.toHValues = hComputed c'.toHValues := by
  have ov : ∀ w : V4 K, HValuesN4.ofVec w parents =
      (mkMeta w.length parents).map (fun md => ⟨u32 (len2 w * len3 w * len4 w), md, len2 w, len3 w, len4 w, w⟩) := fun w => by
    unfold HValuesN4.ofVec
    rw [SIZE2_len3, SIZE3_len, SIZE4_len]
    show (mkMeta w.length parents >>= _) = _
    cases mkMeta w.length parents <;> rfl
  rw [ov] at hc
  cases hm : mkMeta v.length parents with
  | error e => rw [hm] at hc; simp [Except.map] at hc
  | ok md =>
    rw [hm] at hc
    simp only [Except.map, Except.ok.injEq] at hc
    subst hc
    have hR : ∀ (v : V4 K) (md : HMeta) k l,
        (HValuesN4.toHValues ⟨u32 (len2 v * len3 v * len4 v), md, len2 v, len3 v, len4 v, v⟩).value l k =
        ofOpt (at4 v l (toI4 (len3 v) (len4 v) k) (toJ4 (len3 v) (len4 v) k) (toK4 (len4 v) k)) :=
      fun v md k l => by rw [← get4_at]; rfl
    constructor
    · rw [h_aux (c := HValuesN4.toHValues ⟨u32 (len2 v * len3 v * len4 v), md, len2 v, len3 v, len4 v, v⟩) r hlt
        (fun k l _ _ => hR v md k l)]
      show (∀ k l, k < u32 (len2 v * len3 v * len4 v) → _) ↔ _
      rw [u32_aux hF]
      have := flat4_aux hF (P := fun a b e => ∀ l, l < v.length → (at4 v l a b e).isSome)
      constructor
      · exact fun h l a b e hl ha hb he => this.mp (fun k hk l hl => h k l hk hl) a b e ha hb he l hl
      · exact fun h k l hk hl => this.mpr (fun a b e ha hb he l hl => h l a b e hl ha hb he) k hk l hl
    · rintro w ⟨h1, h2, h3, h4, h⟩
      refine ⟨⟨u32 (len2 w * len3 w * len4 w), md, len2 w, len3 w, len4 w, w⟩, by rw [ov, ← h1, hm]; rfl,
        hSame_aux r rfl (by show u32 _ = u32 _; rw [h2, h3, h4]) (fun k l hk hl => ?_)⟩
      have hk : k < u32 (len2 v * len3 v * len4 v) := hk
      rw [u32_aux hF] at hk
      rw [hR, hR, ← h3, ← h4]
      have := (flat4_aux hF (P := fun a b e => ofOpt (at4 v l a b e) = ofOpt (at4 w l a b e))).mpr
        (fun a b e ha hb he => by rw [h l a b e hl ha hb he])
      exact this k hk

/-! ## Spatiotemporal data -/

/-- A series for each leaf. -/
theorem spatiotemporal2 (v : V2 K) (parents : List Int) (c : DValuesN2 K) (hc : DValuesN2.ofVec v parents = .ok c)
    (r : RightMeta v.length parents c.md) (hlt : v.length < parents.length) (hn : len2 v ≤ 65535)
    (hb : v.length * len2 v < 2147483648) :
    ((∃ t, dComputed c.toDValues = .ok t) ↔ Filled2 v) ∧
    ∀ w, SameBlock2 v w → ∃ c', DValuesN2.ofVec w parents = .ok c' ∧ dComputed c.toDValues = dComputed c'.toDValues := by
  have ov : ∀ w : V2 K, DValuesN2.ofVec w parents = (mkMeta w.length parents).map (fun md => ⟨1, len2 w, md, w⟩) := fun w => by
    unfold DValuesN2.ofVec
    rw [SIZE2_len]
    show (mkMeta w.length parents >>= _) = _
    cases mkMeta w.length parents <;> rfl
  rw [ov] at hc
  cases hm : mkMeta v.length parents with
  | error e => rw [hm] at hc; simp [Except.map] at hc
  | ok md =>
    rw [hm] at hc
    simp only [Except.map, Except.ok.injEq] at hc
    subst hc
    have hR : ∀ (v : V2 K) (md : HMeta) k l i, dRead (DValuesN2.toDValues ⟨1, len2 v, md, v⟩) l k i = ofOpt (at2 v l i) :=
      fun v md k l i => get2_at v l i
    constructor
    · rw [d_aux (c := DValuesN2.toDValues ⟨1, len2 v, md, v⟩) r hlt (fun k l i _ _ _ => hR v md k l i) hn hb]
      exact ⟨fun h a b ha hb => h 0 a b Nat.one_pos ha hb, fun h k l i _ hl hi => h l i hl hi⟩
    · rintro w ⟨h1, h2, h⟩
      refine ⟨⟨1, len2 w, md, w⟩, by rw [ov, ← h1, hm]; rfl, dSame_aux r rfl rfl h2 (fun k l i hk hl hi => ?_)⟩
      rw [hR, hR, h l i hl hi]

/-- Three levels. -/
theorem spatiotemporal3 (v : V3 K) (parents : List Int) (c : DValuesN3 K) (hc : DValuesN3.ofVec v parents = .ok c)
    (r : RightMeta v.length parents c.md) (hlt : v.length < parents.length) (hn : len3 v ≤ 65535)
    (hb : v.length * len3 v < 2147483648) :
    ((∃ t, dComputed c.toDValues = .ok t) ↔ Filled3 v) ∧
    ∀ w, SameBlock3 v w → ∃ c', DValuesN3.ofVec w parents = .ok c' ∧ dComputed c.toDValues = dComputed c'.toDValues := by
  have ov : ∀ w : V3 K, DValuesN3.ofVec w parents = (mkMeta w.length parents).map (fun md => ⟨len2 w, len3 w, md, w⟩) := fun w => by
    unfold DValuesN3.ofVec
    rw [SIZE2_len3, SIZE3_len]
    show (mkMeta w.length parents >>= _) = _
    cases mkMeta w.length parents <;> rfl
  rw [ov] at hc
  cases hm : mkMeta v.length parents with
  | error e => rw [hm] at hc; simp [Except.map] at hc
  | ok md =>
    rw [hm] at hc
    simp only [Except.map, Except.ok.injEq] at hc
    subst hc
    have hR : ∀ (v : V3 K) (md : HMeta) k l i, dRead (DValuesN3.toDValues ⟨len2 v, len3 v, md, v⟩) l k i = ofOpt (at3 v l k i) :=
      fun v md k l i => get3_at v l k i
    constructor
    · rw [d_aux (c := DValuesN3.toDValues ⟨len2 v, len3 v, md, v⟩) r hlt (fun k l i _ _ _ => hR v md k l i) hn hb]
      exact ⟨fun h a b e ha hb he => h b a e hb ha he, fun h k l i hk hl hi => h l k i hl hk hi⟩
    · rintro w ⟨h1, h2, h3, h⟩
      refine ⟨⟨len2 w, len3 w, md, w⟩, by rw [ov, ← h1, hm]; rfl, dSame_aux r rfl h2 h3 (fun k l i hk hl hi => ?_)⟩
      rw [hR, hR, h l k i hl hk hi]

/-- Four levels. -/
theorem spatiotemporal4 (v : V4 K) (parents : List Int) (c : DValuesN4 K) (hc : DValuesN4.ofVec v parents = .ok c)
    (r : RightMeta v.length parents c.md) (hlt : v.length < parents.length) (hF : len2 v * len3 v < 2 ^ 32) (hn : len4 v ≤ 65535)
    (hb : v.length * len4 v < 2147483648) :
    ((∃ t, dComputed c.toDValues = .ok t) ↔ Filled4 v) ∧
    ∀ w, SameBlock4 v w → ∃ c', DValuesN4.ofVec w parents = .ok c' ∧ dComputed c.toDValues = dComputed c'.toDValues := by
  have ov : ∀ w : V4 K, DValuesN4.ofVec w parents =
      (mkMeta w.length parents).map (fun md => ⟨u32 (len2 w * len3 w), len4 w, md, len2 w, len3 w, w⟩) := fun w => by
    unfold DValuesN4.ofVec
    rw [SIZE2_len3, SIZE3_len, SIZE4_len]
    show (mkMeta w.length parents >>= _) = _
    cases mkMeta w.length parents <;> rfl
  rw [ov] at hc
  cases hm : mkMeta v.length parents with
  | error e => rw [hm] at hc; simp [Except.map] at hc
  | ok md =>
    rw [hm] at hc
    simp only [Except.map, Except.ok.injEq] at hc
    subst hc
    have hR : ∀ (v : V4 K) (md : HMeta) k l i,
        dRead (DValuesN4.toDValues ⟨u32 (len2 v * len3 v), len4 v, md, len2 v, len3 v, v⟩) l k i =
        ofOpt (at4 v l (k / len3 v) (k % len3 v) i) := fun v md k l i => by rw [← get4_at]; rfl
    constructor
    · rw [d_aux (c := DValuesN4.toDValues ⟨u32 (len2 v * len3 v), len4 v, md, len2 v, len3 v, v⟩) r hlt
        (fun k l i _ _ _ => hR v md k l i) hn hb]
      show (∀ k l i, k < u32 (len2 v * len3 v) → l < v.length → i < len4 v → _) ↔ _
      rw [u32_aux hF]
      have := flat3_aux (I := len2 v) (J := len3 v)
        (P := fun a b => ∀ l i, l < v.length → i < len4 v → (at4 v l a b i).isSome)
      constructor
      · exact fun h l a b i hl ha hb hi => this.mp (fun k hk l i hl hi => h k l i hk hl hi) a b ha hb l i hl hi
      · exact fun h k l i hk hl hi => this.mpr (fun a b ha hb l i hl hi => h l a b i hl ha hb hi) k hk l i hl hi
    · rintro w ⟨h1, h2, h3, h4, h⟩
      refine ⟨⟨u32 (len2 w * len3 w), len4 w, md, len2 w, len3 w, w⟩, by rw [ov, ← h1, hm]; rfl,
        dSame_aux r rfl (by show u32 _ = u32 _; rw [h2, h3]) h4 (fun k l i hk hl hi => ?_)⟩
      have hk : k < u32 (len2 v * len3 v) := hk
      rw [u32_aux hF] at hk
      rw [hR, hR, ← h3]
      obtain ⟨g1, g2, _⟩ := flat3 hk
      rw [h l _ _ i hl g1 g2 hi]

/-! ## Arrays without elements, from R -/

variable {F : Type} [FloatP F K]

/-- `oaggregate`, any arithmetic. -/
theorem emptyOrdered (strict : Bool) (fuel : Nat) (randMax : K) (rnd : K → K) (d0 d1 d2 : Nat) (f : Nat × Nat × Nat → K) (th : F)
    (h : d0 = 0 ∨ d1 = 0 ∨ d2 = 0) :
    oaggregate strict fuel randMax rnd (rArray d0 d1 d2 f) th = .error .outOfBounds := by
  have h3 : SIZE3 (table3 d0 d1 d2 f) = 0 := size3_aux d0 d1 d2 f h
  unfold oaggregate
  rw [convertToMicroModel_rArray]
  simp only [okBind]
  have e : ∃ q, oqCompute (OValuesN3.ofVec (table3 d0 d1 d2 f)).toOValues = .ok q := by
    have ho : (OValuesN3.ofVec (table3 d0 d1 d2 f)).toOValues.osize = 0 := h3
    refine (oqCompute_iff (R := fun _ _ => none) (fun k i _ hi => ?_) (by omega)).mpr (fun k i _ hi => ?_)
    all_goals omega
  obtain ⟨q, e⟩ := e
  unfold OQualities.computeQualities OQualities.ofValues
  simp only [e, okBind, pureOk]
  unfold OQualities.normalize
  have ho : (OValuesN3.ofVec (table3 d0 d1 d2 f)).toOValues.osize = 0 := h3
  simp only [ho, if_true, errBind]

/-- `daggregate`, any arithmetic and any hierarchy vector. -/
theorem emptySpatiotemporal (strict : Bool) (fuel : Nat) (randMax : K) (rnd : K → K) (d0 d1 d2 : Nat) (f : Nat × Nat × Nat → K)
    (h : List Int) (th : F) (hz : d0 = 0 ∨ d1 = 0 ∨ d2 = 0) :
    ∃ e, daggregate strict fuel randMax rnd (rArray d0 d1 d2 f) h th = .error e := by
  have h3 : SIZE3 (table3 d0 d1 d2 f) = 0 := size3_aux d0 d1 d2 f hz
  unfold daggregate daggregateIn
  rw [convertToMicroModel_rArray]
  simp only [okBind]
  cases hc : DValuesN3.ofVec (table3 d0 d1 d2 f) (convertToHierarchy h) with
  | error e => exact ⟨e, rfl⟩
  | ok c =>
    have ho : c.toDValues.osize = 0 := by
      unfold DValuesN3.ofVec at hc
      cases hm : mkMeta (SIZE1 (table3 d0 d1 d2 f)) (convertToHierarchy h) with
      | error e => rw [hm] at hc; simp at hc
      | ok md =>
        rw [hm] at hc
        simp only [okBind, pureOk, Except.ok.injEq] at hc
        subst hc
        exact h3
    unfold DQualities.computeQualities DQualities.ofValues
    simp only [okBind]
    cases dqCompute c.toDValues c.toDValues.md with
    | error e => exact ⟨e, rfl⟩
    | ok q =>
      simp only [okBind, pureOk]
      unfold DQualities.normalize
      simp only [ho, if_true, errBind]
      exact ⟨_, rfl⟩

/-- `haggregate` without leaves, any arithmetic and any hierarchy vector. -/
theorem emptyLeaves (strict : Bool) (fuel : Nat) (randMax : K) (rnd : K → K) (d1 d2 : Nat) (f : Nat × Nat × Nat → K)
    (h : List Int) (th : F) : haggregate strict fuel randMax rnd (rArray 0 d1 d2 f) h th = .error .outOfBounds := by
  unfold haggregate haggregateIn
  rw [convertToMicroModel_rArray]
  simp only [okBind]
  unfold HValuesN3.ofVec mkMeta
  show ((pathLoop _ (0 + _ + 1) 0 (pathInit 0 _) >>= _) >>= _) >>= _ = _
  rw [pathLoop]
  rfl

/-- `haggregate` without values at the leaves, in every arithmetic with NaN: all nodes have gain and loss 0, the normalised ones are NaN, and no optimal
parameter is defined. -/
theorem emptySeries {isNaN : K → Prop} (nl : NaNLaws isNaN) (d0 d1 d2 : Nat) (f : Nat × Nat × Nat → K) (h : List Int) (h0 : 0 < d0)
    (hz : d1 = 0 ∨ d2 = 0) (tree : IsTree d0 (h.map (· - 1)) ((h.map (· - 1)).length - 1)) (near : NearestFirst d0 (h.map (· - 1)))
    (hlt : d0 < (h.map (· - 1)).length) (ha : Apart (FloatP.zero : F) (FloatP.oneSub FloatP.zero)) (fuel : Nat) (randMax : K)
    (rnd : K → K) (th : F) :
    haggregate false (fuel + 1) randMax rnd (rArray d0 d1 d2 f) h th = .error .uninit := by
  generalize hp : h.map (· - 1) = parents at tree near hlt
  obtain ⟨md, m1, m2, m3⟩ := C03.right d0 parents _ tree near
  have hc : HValuesN3.ofVec (table3 d0 d1 d2 f) parents =
      .ok ⟨u32 (SIZE2 (table3 d0 d1 d2 f) * SIZE3 (table3 d0 d1 d2 f)), md, SIZE2 (table3 d0 d1 d2 f), SIZE3 (table3 d0 d1 d2 f), table3 d0 d1 d2 f⟩ := by
    unfold HValuesN3.ofVec
    rw [SIZE1_table3, m1]
    rfl
  have h3 : SIZE3 (table3 d0 d1 d2 f) = 0 := size3_aux d0 d1 d2 f (.inr hz)
  rw [h3, Nat.mul_zero] at hc
  generalize hcc : (⟨u32 0, md, SIZE2 (table3 d0 d1 d2 f), 0, table3 d0 d1 d2 f⟩ : HValuesN3 K) = c at hc
  have hmd : RightMeta d0 parents c.toHValues.md := by subst hcc; exact m3
  have hv : HData c.toHValues 0 d0 (fun _ _ => 0) := ⟨by subst hcc; rfl, fun k _ hk _ => absurd hk (by omega)⟩
  obtain ⟨q, w, e, e0, e1⟩ := C59.hierarchical (F := F) nl d0 parents _ hmd hlt h0 _ _ hv
  obtain ⟨q2, f2, e2, g1, g2, g3⟩ := hqCompute_sum hmd hv hlt
  have hw : w = ⟨0, 0⟩ := by
    have eq : q2 = q := by
      have e : _ = _ := e
      unfold HQualities.computeQualities HQualities.ofValues at e
      simp only [e2, okBind, pureOk] at e
      simpa using Except.ok.inj e
    subst eq
    have := g1.2 _ hmd.tree.rootLt
    rw [e0] at this
    rw [Option.some.inj this]
    by_cases hl : c.toHValues.md.root < d0
    · exact g2 _ hl
    · have := g3 _ hl hmd.tree.rootLt
      generalize f2 c.toHValues.md.root = z at this
      cases this
      rfl
  obtain ⟨q', n1, _, n3⟩ := e1 (by rw [hw]; exact C59.zeroPart_aux nl)
  unfold haggregate haggregateIn
  rw [convertToMicroModel_rArray, convertToHierarchy_map, hp]
  simp only [okBind]
  rw [hc]
  simp only [okBind]
  rw [e]
  simp only [okBind]
  rw [n1]
  exact (C59.search_aux n3 ha _ fuel randMax rnd th).1

/-! ## Cases -/

/-- A second vector that is too short: nothing is computed. -/
example : ¬ ∃ t, oComputed (OValuesN2.ofVec [[1, 2, 3], [4, (5 : ℝ)]]).toOValues = .ok t := by
  rw [(ordered2 [[1, 2, 3], [4, (5 : ℝ)]] (by decide)).1]
  intro h
  have := h 1 2 (by decide) (by decide)
  simp [at2] at this

/-- One that is too long: as without the rest. -/
example : oComputed (OValuesN2.ofVec [[1, 2], [3, 4, (5 : ℝ)]]).toOValues = oComputed (OValuesN2.ofVec [[1, 2], [3, (4 : ℝ)]]).toOValues ∧
    ∃ t, oComputed (OValuesN2.ofVec [[1, 2], [3, 4, (5 : ℝ)]]).toOValues = .ok t := by
  obtain ⟨h1, h2⟩ := ordered2 [[1, 2], [3, 4, (5 : ℝ)]] (by decide)
  constructor
  · refine h2 _ ⟨rfl, rfl, fun a b ha hb => ?_⟩
    have ha : a < 2 := ha
    have hb : b < 2 := hb
    interval_cases a <;> interval_cases b <;> rfl
  · refine h1.mpr (fun a b ha hb => ?_)
    have ha : a < 2 := ha
    have hb : b < 2 := hb
    interval_cases a <;> interval_cases b <;> rfl

/-- A missing inner vector in three levels. -/
example : ¬ ∃ t, oComputed (OValuesN3.ofVec [[[1, 2], [3, 4]], [[5, (6 : ℝ)]]]).toOValues = .ok t := by
  rw [(ordered3 [[[1, 2], [3, 4]], [[5, (6 : ℝ)]]] (by decide) (by decide)).1]
  intro h
  have := h 1 1 0 (by decide) (by decide) (by decide)
  simp [at3, at2] at this

/-- Four leaves, the third one without its second value; and with too many values. -/
example : ∃ c c', HValuesN2.ofVec [[1, 2], [3, 4], [5], [6, (7 : ℝ)]] [4, 4, 5, 5, 6, 6, -1] = .ok c ∧
    DValuesN2.ofVec [[1, 2], [3, 4, 5], [6, 7], [8, (9 : ℝ)]] [4, 4, 5, 5, 6, 6, -1] = .ok c' ∧
    (¬ ∃ t, hComputed c.toHValues = .ok t) ∧ ∃ t, dComputed c'.toDValues = .ok t := by
  obtain ⟨md, e, r⟩ := C57.meta_aux
  have e1 : HValuesN2.ofVec [[1, 2], [3, 4], [5], [6, (7 : ℝ)]] [4, 4, 5, 5, 6, 6, -1] = .ok ⟨2, md, [[1, 2], [3, 4], [5], [6, 7]]⟩ := by
    show (mkMeta 4 _ >>= _) = _
    rw [e]; rfl
  have e2 : DValuesN2.ofVec [[1, 2], [3, 4, 5], [6, 7], [8, (9 : ℝ)]] [4, 4, 5, 5, 6, 6, -1] =
      .ok ⟨1, 2, md, [[1, 2], [3, 4, 5], [6, 7], [8, 9]]⟩ := by
    show (mkMeta 4 _ >>= _) = _
    rw [e]; rfl
  refine ⟨_, _, e1, e2, ?_, ?_⟩
  · rw [(hierarchical2 _ _ _ e1 r (by decide)).1]
    intro h
    have := h 2 1 (by decide) (by decide)
    simp [at2] at this
  · refine (spatiotemporal2 _ _ _ e2 r (by decide) (by decide) (by decide)).1.mpr (fun a b ha hb => ?_)
    have ha : a < 4 := ha
    have hb : b < 2 := hb
    interval_cases a <;> interval_cases b <;> rfl

/-- Two spaces, no types, five slices; and a hierarchy of four leaves without types. -/
example (t : Special ℝ) : oaggregate false 9 (.num 2147483647) id (rArray 2 0 5 (fun _ => (0 : Special ℝ))) t = .error .outOfBounds ∧
    haggregate false 9 (.num 2147483647) id (rArray 4 0 5 (fun _ => (0 : Special ℝ))) [5, 5, 6, 6, 7, 7, 0] t = .error .uninit := by
  refine ⟨emptyOrdered _ _ _ _ _ _ _ _ _ (.inr (.inl rfl)), ?_⟩
  have tr : IsTree 4 [4, 4, 5, 5, 6, 6, -1] 6 :=
    .ofCheck (fun h => if h < 4 then 2 else if h = 6 then 0 else 1) (by decide) (by decide) (by decide) (by decide)
  exact emptySeries (exactNaN ℝ) 4 0 5 _ [5, 5, 6, 6, 7, 7, 0] (by omega) (.inl rfl) tr
    (balanced_nearestFirst tr (.ofCheck (fun h => if h < 4 then 0 else if h = 6 then 2 else 1) (by decide) (by decide) (by decide)))
    (by decide) C76.apart_aux 8 _ _ t

end Lp.C79
