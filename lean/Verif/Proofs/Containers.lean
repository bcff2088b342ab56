import Verif.Proofs.Table

/-!
# The eleven value containers: contents after construction and writes
-/

namespace Lp
open Spec
variable {K : Type}

/-- `c` has the given dimensions and contents. -/
structure OValuesN1.Holds (c : OValuesN1 K) (O : Nat) (f : Nat → K) : Prop where
  vsize : c.vsize = 1
  osize : c.osize = O
  values : c.values = table1 O f

theorem OValuesN1.ofVec_holds {O : Nat}  (f : Nat → K) :
    (OValuesN1.ofVec (table1 O f)).Holds O f := by
  constructor <;> simp only [OValuesN1.ofVec, SIZE1_table1]

theorem OValuesN1.ofDims_holds [Zero K] (O : Nat) : (OValuesN1.ofDims (K := K) O).Holds O (fun _ => 0) := by
  constructor <;> simp only [OValuesN1.ofDims, rep1_table]

theorem OValuesN1.Holds.read {c : OValuesN1 K} {O : Nat} {f : Nat → K} (h0 : c.Holds O f) {o : Nat}
    (ho : o < O) : c.read o = .ok (f o) := by
  unfold OValuesN1.read; rw [h0.values]; exact table1_get _ ho

theorem OValuesN1.Holds.write {c : OValuesN1 K} {O : Nat} {f : Nat → K} (h0 : c.Holds O f) {o : Nat} (v : K)
    (ho : o < O) : ∃ c', c.write o v = .ok c' ∧ c'.Holds O (Function.update f o v) := by
  refine ⟨{ c with values := table1 O (Function.update f o v) }, ?_, h0.vsize, h0.osize, rfl⟩
  unfold OValuesN1.write; rw [h0.values, table1_set _ v ho]; rfl

theorem OValuesN1.Holds.series {c : OValuesN1 K} {O : Nat} {f : Nat → K} (h0 : c.Holds O f) (k : Nat)  :
    c.series k = .ok (table1 O fun o => f o) := by
  unfold OValuesN1.series; rw [h0.values]

theorem OValuesN1.Holds.enum {c : OValuesN1 K} {O : Nat} {f : Nat → K} (h0 : c.Holds O f) :
    (List.range c.vsize).map c.series = [.ok (table1 O fun o => f o)] := by
  rw [h0.vsize]
  simp only [List.range_one, List.map_cons, List.map_nil, h0.series 0]

/-- `c` has the given dimensions and contents. -/
structure OValuesN2.Holds (c : OValuesN2 K) (V O : Nat) (f : Nat × Nat → K) : Prop where
  vsize : c.vsize = V
  osize : c.osize = O
  values : c.values = table2 V O f

theorem OValuesN2.ofVec_holds {V O : Nat} (hV : 0 < V) (f : Nat × Nat → K) :
    (OValuesN2.ofVec (table2 V O f)).Holds V O f := by
  constructor <;> simp only [OValuesN2.ofVec, SIZE1_table2, SIZE2_table2 hV f]

theorem OValuesN2.ofDims_holds [Zero K] (V O : Nat) : (OValuesN2.ofDims (K := K) V O).Holds V O (fun _ => 0) := by
  constructor <;> simp only [OValuesN2.ofDims, rep2_table]

theorem OValuesN2.Holds.read {c : OValuesN2 K} {V O : Nat} {f : Nat × Nat → K} (h0 : c.Holds V O f) {a o : Nat}
    (ha : a < V) (ho : o < O) : c.read a o = .ok (f (a, o)) := by
  unfold OValuesN2.read; rw [h0.values]; exact table2_get _ ha ho

theorem OValuesN2.Holds.write {c : OValuesN2 K} {V O : Nat} {f : Nat × Nat → K} (h0 : c.Holds V O f) {a o : Nat} (v : K)
    (ha : a < V) (ho : o < O) : ∃ c', c.write a o v = .ok c' ∧ c'.Holds V O (Function.update f (a, o) v) := by
  refine ⟨{ c with values := table2 V O (Function.update f (a, o) v) }, ?_, h0.vsize, h0.osize, rfl⟩
  unfold OValuesN2.write; rw [h0.values, table2_set _ v ha ho]; rfl

theorem OValuesN2.Holds.series {c : OValuesN2 K} {V O : Nat} {f : Nat × Nat → K} (h0 : c.Holds V O f) {a : Nat} (ha : a < V) :
    c.series a = .ok (table1 O fun o => f (a, o)) := by
  unfold OValuesN2.series; rw [h0.values]
  exact table2_row _ ha

theorem OValuesN2.Holds.enum {c : OValuesN2 K} {V O : Nat} {f : Nat × Nat → K} (h0 : c.Holds V O f) :
    (List.range c.vsize).map c.series = (List.range V).map fun a => .ok (table1 O fun o => f (a, o)) := by
  rw [h0.vsize]
  apply List.map_congr_left
  intro a ha
  rw [List.mem_range] at ha
  exact h0.series ha

/-- `c` has the given dimensions and contents. -/
structure OValuesN3.Holds (c : OValuesN3 K) (I J O : Nat) (f : Nat × Nat × Nat → K) : Prop where
  vsize : c.vsize = I * J
  osize : c.osize = O
  i : c.i = I
  j : c.j = J
  values : c.values = table3 I J O f

theorem OValuesN3.ofVec_holds {I J O : Nat} (hI : 0 < I) (hJ : 0 < J) (hF : I * J < 2 ^ 32) (f : Nat × Nat × Nat → K) :
    (OValuesN3.ofVec (table3 I J O f)).Holds I J O f := by
  constructor <;> simp only [u32_of_lt hF, OValuesN3.ofVec, SIZE1_table3, SIZE2_table3 hI f, SIZE3_table3 hI hJ f]

theorem OValuesN3.ofDims_holds [Zero K] (I J O : Nat) (hF : I * J < 2 ^ 32) : (OValuesN3.ofDims (K := K) I J O).Holds I J O (fun _ => 0) := by
  constructor <;> simp only [u32_of_lt hF, OValuesN3.ofDims, rep3_table]

theorem OValuesN3.Holds.read {c : OValuesN3 K} {I J O : Nat} {f : Nat × Nat × Nat → K} (h0 : c.Holds I J O f) {a b o : Nat}
    (ha : a < I) (hb : b < J) (ho : o < O) : c.read a b o = .ok (f (a, b, o)) := by
  unfold OValuesN3.read; rw [h0.values]; exact table3_get _ ha hb ho

theorem OValuesN3.Holds.write {c : OValuesN3 K} {I J O : Nat} {f : Nat × Nat × Nat → K} (h0 : c.Holds I J O f) {a b o : Nat} (v : K)
    (ha : a < I) (hb : b < J) (ho : o < O) : ∃ c', c.write a b o v = .ok c' ∧ c'.Holds I J O (Function.update f (a, b, o) v) := by
  refine ⟨{ c with values := table3 I J O (Function.update f (a, b, o) v) }, ?_, h0.vsize, h0.osize, h0.i, h0.j, rfl⟩
  unfold OValuesN3.write; rw [h0.values, table3_set _ v ha hb ho]; rfl

theorem OValuesN3.Holds.series {c : OValuesN3 K} {I J O : Nat} {f : Nat × Nat × Nat → K} (h0 : c.Holds I J O f) {a b : Nat} (ha : a < I) (hb : b < J) :
    c.series (a * J + b) = .ok (table1 O fun o => f (a, b, o)) := by
  unfold OValuesN3.series; rw [h0.values, h0.j]
  obtain ⟨e1, e2⟩ := to3_flat (a := a) hb; rw [e1, e2]
  exact table3_row2 _ ha hb

theorem OValuesN3.Holds.enum {c : OValuesN3 K} {I J O : Nat} {f : Nat × Nat × Nat → K} (h0 : c.Holds I J O f) :
    (List.range c.vsize).map c.series = (List.range I).flatMap fun a => (List.range J).map fun b => .ok (table1 O fun o => f (a, b, o)) := by
  rw [h0.vsize]
  rw [range_mul_map]
  apply List.flatMap_congr
  intro a ha
  apply List.map_congr_left
  intro b hb
  rw [List.mem_range] at ha hb
  exact h0.series ha hb

/-- `c` has the given dimensions and contents. -/
structure OValuesN4.Holds (c : OValuesN4 K) (I J Z O : Nat) (f : Nat × Nat × Nat × Nat → K) : Prop where
  vsize : c.vsize = I * J * Z
  osize : c.osize = O
  i : c.i = I
  j : c.j = J
  k : c.k = Z
  fits : I * J * Z < 2 ^ 32
  values : c.values = table4 I J Z O f

theorem OValuesN4.ofVec_holds {I J Z O : Nat} (hI : 0 < I) (hJ : 0 < J) (hZ : 0 < Z) (hF : I * J * Z < 2 ^ 32) (f : Nat × Nat × Nat × Nat → K) :
    (OValuesN4.ofVec (table4 I J Z O f)).Holds I J Z O f := by
  refine ⟨?_, ?_, ?_, ?_, ?_, hF, ?_⟩ <;> simp only [u32_of_lt hF, OValuesN4.ofVec, SIZE1_table4, SIZE2_table4 hI f, SIZE3_table4 hI hJ f, SIZE4_table4 hI hJ hZ f]

theorem OValuesN4.ofDims_holds [Zero K] (I J Z O : Nat) (hF : I * J * Z < 2 ^ 32) : (OValuesN4.ofDims (K := K) I J Z O).Holds I J Z O (fun _ => 0) := by
  refine ⟨?_, ?_, ?_, ?_, ?_, hF, ?_⟩ <;> simp only [u32_of_lt hF, OValuesN4.ofDims, rep4_table]

theorem OValuesN4.Holds.read {c : OValuesN4 K} {I J Z O : Nat} {f : Nat × Nat × Nat × Nat → K} (h0 : c.Holds I J Z O f) {a b e o : Nat}
    (ha : a < I) (hb : b < J) (he : e < Z) (ho : o < O) : c.read a b e o = .ok (f (a, b, e, o)) := by
  unfold OValuesN4.read; rw [h0.values]; exact table4_get _ ha hb he ho

theorem OValuesN4.Holds.write {c : OValuesN4 K} {I J Z O : Nat} {f : Nat × Nat × Nat × Nat → K} (h0 : c.Holds I J Z O f) {a b e o : Nat} (v : K)
    (ha : a < I) (hb : b < J) (he : e < Z) (ho : o < O) : ∃ c', c.write a b e o v = .ok c' ∧ c'.Holds I J Z O (Function.update f (a, b, e, o) v) := by
  refine ⟨{ c with values := table4 I J Z O (Function.update f (a, b, e, o) v) }, ?_, h0.vsize, h0.osize, h0.i, h0.j, h0.k, h0.fits, rfl⟩
  unfold OValuesN4.write; rw [h0.values, table4_set _ v ha hb he ho]; rfl

theorem OValuesN4.Holds.series {c : OValuesN4 K} {I J Z O : Nat} {f : Nat × Nat × Nat × Nat → K} (h0 : c.Holds I J Z O f) {a b e : Nat} (ha : a < I) (hb : b < J) (he : e < Z) :
    c.series ((a * J + b) * Z + e) = .ok (table1 O fun o => f (a, b, e, o)) := by
  unfold OValuesN4.series; rw [h0.values, h0.j, h0.k]
  obtain ⟨e1, e2, e3⟩ := to4_flat ha hb he h0.fits; rw [e1, e2, e3]
  exact table4_row3 _ ha hb he

theorem OValuesN4.Holds.enum {c : OValuesN4 K} {I J Z O : Nat} {f : Nat × Nat × Nat × Nat → K} (h0 : c.Holds I J Z O f) :
    (List.range c.vsize).map c.series = (List.range I).flatMap fun a => (List.range J).flatMap fun b => (List.range Z).map fun e => .ok (table1 O fun o => f (a, b, e, o)) := by
  rw [h0.vsize]
  rw [range_mul3_map]
  apply List.flatMap_congr
  intro a ha
  apply List.flatMap_congr
  intro b hb
  apply List.map_congr_left
  intro e he
  rw [List.mem_range] at ha hb he
  exact h0.series ha hb he

/-- `c` has the given dimensions and contents. -/
structure HValuesN1.Holds (c : HValuesN1 K) (L : Nat) (md : HMeta) (f : Nat → K) : Prop where
  vsize : c.vsize = 1
  md : c.md = md
  values : c.values = table1 L f

theorem HValuesN1.ofVec_holds {L : Nat}  (f : Nat → K) {ps : List Int} {c : HValuesN1 K}
    (h : HValuesN1.ofVec (table1 L f) ps = .ok c) : ∃ md, mkMeta L ps = .ok md ∧ c.Holds L md f := by
  unfold HValuesN1.ofVec at h
  rw [SIZE1_table1] at h
  cases hm : mkMeta L ps with
  | error e => rw [hm] at h; simp at h
  | ok md =>
    rw [hm] at h
    simp only [okBind, pureOk, Except.ok.injEq] at h
    subst h
    refine ⟨md, rfl, ?_⟩
    constructor <;> rfl

theorem HValuesN1.ofDims_holds [Zero K] {L : Nat} {ps : List Int} {c : HValuesN1 K}
    (h : HValuesN1.ofDims (K := K) L ps = .ok c) : ∃ md, mkMeta L ps = .ok md ∧ c.Holds L md (fun _ => 0) := by
  unfold HValuesN1.ofDims at h
  cases hm : mkMeta L ps with
  | error e => rw [hm] at h; simp at h
  | ok md =>
    rw [hm] at h
    simp only [okBind, pureOk, Except.ok.injEq] at h
    subst h
    refine ⟨md, rfl, ?_⟩
    constructor <;> simp only [rep1_table]

theorem HValuesN1.Holds.read {c : HValuesN1 K} {L : Nat} {md : HMeta} {f : Nat → K} (h0 : c.Holds L md f) {h : Nat}
    (hh : h < L) : c.read h = .ok (f h) := by
  unfold HValuesN1.read; rw [h0.values]; exact table1_get _ hh

theorem HValuesN1.Holds.write {c : HValuesN1 K} {L : Nat} {md : HMeta} {f : Nat → K} (h0 : c.Holds L md f) {h : Nat} (v : K)
    (hh : h < L) : ∃ c', c.write h v = .ok c' ∧ c'.Holds L md (Function.update f h v) := by
  refine ⟨{ c with values := table1 L (Function.update f h v) }, ?_, h0.vsize, h0.md, rfl⟩
  unfold HValuesN1.write; rw [h0.values, table1_set _ v hh]; rfl

theorem HValuesN1.Holds.value {c : HValuesN1 K} {L : Nat} {md : HMeta} {f : Nat → K} (h0 : c.Holds L md f) {h : Nat} (k : Nat) (hh : h < L)  :
    c.value h k = .ok (f h) := by
  unfold HValuesN1.value; rw [h0.values]
  exact table1_get _ hh

theorem HValuesN1.Holds.enum {c : HValuesN1 K} {L : Nat} {md : HMeta} {f : Nat → K} (h0 : c.Holds L md f) {h : Nat} (hh : h < L) :
    (List.range c.vsize).map (c.value h) = [.ok (f h)] := by
  rw [h0.vsize]
  simp only [List.range_one, List.map_cons, List.map_nil, h0.value 0 hh]

/-- `c` has the given dimensions and contents. -/
structure HValuesN2.Holds (c : HValuesN2 K) (L V : Nat) (md : HMeta) (f : Nat × Nat → K) : Prop where
  vsize : c.vsize = V
  md : c.md = md
  values : c.values = table2 L V f

theorem HValuesN2.ofVec_holds {L V : Nat} (hL : 0 < L) (f : Nat × Nat → K) {ps : List Int} {c : HValuesN2 K}
    (h : HValuesN2.ofVec (table2 L V f) ps = .ok c) : ∃ md, mkMeta L ps = .ok md ∧ c.Holds L V md f := by
  unfold HValuesN2.ofVec at h
  rw [SIZE1_table2] at h
  cases hm : mkMeta L ps with
  | error e => rw [hm] at h; simp at h
  | ok md =>
    rw [hm] at h
    simp only [okBind, pureOk, Except.ok.injEq] at h
    subst h
    refine ⟨md, rfl, ?_⟩
    constructor <;> simp only [SIZE2_table2 hL f]

theorem HValuesN2.ofDims_holds [Zero K] {L V : Nat} {ps : List Int} {c : HValuesN2 K}
    (h : HValuesN2.ofDims (K := K) L V ps = .ok c) : ∃ md, mkMeta L ps = .ok md ∧ c.Holds L V md (fun _ => 0) := by
  unfold HValuesN2.ofDims at h
  cases hm : mkMeta L ps with
  | error e => rw [hm] at h; simp at h
  | ok md =>
    rw [hm] at h
    simp only [okBind, pureOk, Except.ok.injEq] at h
    subst h
    refine ⟨md, rfl, ?_⟩
    constructor <;> simp only [rep2_table]

theorem HValuesN2.Holds.read {c : HValuesN2 K} {L V : Nat} {md : HMeta} {f : Nat × Nat → K} (h0 : c.Holds L V md f) {h a : Nat}
    (hh : h < L) (ha : a < V) : c.read h a = .ok (f (h, a)) := by
  unfold HValuesN2.read; rw [h0.values]; exact table2_get _ hh ha

theorem HValuesN2.Holds.write {c : HValuesN2 K} {L V : Nat} {md : HMeta} {f : Nat × Nat → K} (h0 : c.Holds L V md f) {h a : Nat} (v : K)
    (hh : h < L) (ha : a < V) : ∃ c', c.write h a v = .ok c' ∧ c'.Holds L V md (Function.update f (h, a) v) := by
  refine ⟨{ c with values := table2 L V (Function.update f (h, a) v) }, ?_, h0.vsize, h0.md, rfl⟩
  unfold HValuesN2.write; rw [h0.values, table2_set _ v hh ha]; rfl

theorem HValuesN2.Holds.value {c : HValuesN2 K} {L V : Nat} {md : HMeta} {f : Nat × Nat → K} (h0 : c.Holds L V md f) {h a : Nat} (hh : h < L) (ha : a < V) :
    c.value h a = .ok (f (h, a)) := by
  unfold HValuesN2.value; rw [h0.values]
  exact table2_get _ hh ha

theorem HValuesN2.Holds.enum {c : HValuesN2 K} {L V : Nat} {md : HMeta} {f : Nat × Nat → K} (h0 : c.Holds L V md f) {h : Nat} (hh : h < L) :
    (List.range c.vsize).map (c.value h) = (List.range V).map fun a => .ok (f (h, a)) := by
  rw [h0.vsize]
  apply List.map_congr_left
  intro a ha
  rw [List.mem_range] at ha
  exact h0.value hh ha

/-- `c` has the given dimensions and contents. -/
structure HValuesN3.Holds (c : HValuesN3 K) (L I J : Nat) (md : HMeta) (f : Nat × Nat × Nat → K) : Prop where
  vsize : c.vsize = I * J
  md : c.md = md
  i : c.i = I
  j : c.j = J
  values : c.values = table3 L I J f

theorem HValuesN3.ofVec_holds {L I J : Nat} (hL : 0 < L) (hI : 0 < I) (hF : I * J < 2 ^ 32) (f : Nat × Nat × Nat → K) {ps : List Int} {c : HValuesN3 K}
    (h : HValuesN3.ofVec (table3 L I J f) ps = .ok c) : ∃ md, mkMeta L ps = .ok md ∧ c.Holds L I J md f := by
  unfold HValuesN3.ofVec at h
  rw [SIZE1_table3] at h
  cases hm : mkMeta L ps with
  | error e => rw [hm] at h; simp at h
  | ok md =>
    rw [hm] at h
    simp only [okBind, pureOk, Except.ok.injEq] at h
    subst h
    refine ⟨md, rfl, ?_⟩
    constructor <;> simp only [u32_of_lt hF, SIZE2_table3 hL f, SIZE3_table3 hL hI f]

theorem HValuesN3.ofDims_holds [Zero K] {L I J : Nat} {ps : List Int} {c : HValuesN3 K} (hF : I * J < 2 ^ 32)
    (h : HValuesN3.ofDims (K := K) L I J ps = .ok c) : ∃ md, mkMeta L ps = .ok md ∧ c.Holds L I J md (fun _ => 0) := by
  unfold HValuesN3.ofDims at h
  cases hm : mkMeta L ps with
  | error e => rw [hm] at h; simp at h
  | ok md =>
    rw [hm] at h
    simp only [okBind, pureOk, Except.ok.injEq] at h
    subst h
    refine ⟨md, rfl, ?_⟩
    constructor <;> simp only [u32_of_lt hF, rep3_table]

theorem HValuesN3.Holds.read {c : HValuesN3 K} {L I J : Nat} {md : HMeta} {f : Nat × Nat × Nat → K} (h0 : c.Holds L I J md f) {h a b : Nat}
    (hh : h < L) (ha : a < I) (hb : b < J) : c.read h a b = .ok (f (h, a, b)) := by
  unfold HValuesN3.read; rw [h0.values]; exact table3_get _ hh ha hb

theorem HValuesN3.Holds.write {c : HValuesN3 K} {L I J : Nat} {md : HMeta} {f : Nat × Nat × Nat → K} (h0 : c.Holds L I J md f) {h a b : Nat} (v : K)
    (hh : h < L) (ha : a < I) (hb : b < J) : ∃ c', c.write h a b v = .ok c' ∧ c'.Holds L I J md (Function.update f (h, a, b) v) := by
  refine ⟨{ c with values := table3 L I J (Function.update f (h, a, b) v) }, ?_, h0.vsize, h0.md, h0.i, h0.j, rfl⟩
  unfold HValuesN3.write; rw [h0.values, table3_set _ v hh ha hb]; rfl

theorem HValuesN3.Holds.value {c : HValuesN3 K} {L I J : Nat} {md : HMeta} {f : Nat × Nat × Nat → K} (h0 : c.Holds L I J md f) {h a b : Nat} (hh : h < L) (ha : a < I) (hb : b < J) :
    c.value h (a * J + b) = .ok (f (h, a, b)) := by
  unfold HValuesN3.value; rw [h0.values, h0.j]
  obtain ⟨e1, e2⟩ := to3_flat (a := a) hb; rw [e1, e2]
  exact table3_get _ hh ha hb

theorem HValuesN3.Holds.enum {c : HValuesN3 K} {L I J : Nat} {md : HMeta} {f : Nat × Nat × Nat → K} (h0 : c.Holds L I J md f) {h : Nat} (hh : h < L) :
    (List.range c.vsize).map (c.value h) = (List.range I).flatMap fun a => (List.range J).map fun b => .ok (f (h, a, b)) := by
  rw [h0.vsize]
  rw [range_mul_map]
  apply List.flatMap_congr
  intro a ha
  apply List.map_congr_left
  intro b hb
  rw [List.mem_range] at ha hb
  exact h0.value hh ha hb

/-- `c` has the given dimensions and contents. -/
structure HValuesN4.Holds (c : HValuesN4 K) (L I J Z : Nat) (md : HMeta) (f : Nat × Nat × Nat × Nat → K) : Prop where
  vsize : c.vsize = I * J * Z
  md : c.md = md
  i : c.i = I
  j : c.j = J
  k : c.k = Z
  fits : I * J * Z < 2 ^ 32
  values : c.values = table4 L I J Z f

theorem HValuesN4.ofVec_holds {L I J Z : Nat} (hL : 0 < L) (hI : 0 < I) (hJ : 0 < J) (hF : I * J * Z < 2 ^ 32) (f : Nat × Nat × Nat × Nat → K) {ps : List Int} {c : HValuesN4 K}
    (h : HValuesN4.ofVec (table4 L I J Z f) ps = .ok c) : ∃ md, mkMeta L ps = .ok md ∧ c.Holds L I J Z md f := by
  unfold HValuesN4.ofVec at h
  rw [SIZE1_table4] at h
  cases hm : mkMeta L ps with
  | error e => rw [hm] at h; simp at h
  | ok md =>
    rw [hm] at h
    simp only [okBind, pureOk, Except.ok.injEq] at h
    subst h
    refine ⟨md, rfl, ?_⟩
    refine ⟨?_, ?_, ?_, ?_, ?_, hF, ?_⟩ <;> simp only [u32_of_lt hF, SIZE2_table4 hL f, SIZE3_table4 hL hI f, SIZE4_table4 hL hI hJ f]

theorem HValuesN4.ofDims_holds [Zero K] {L I J Z : Nat} {ps : List Int} {c : HValuesN4 K} (hF : I * J * Z < 2 ^ 32)
    (h : HValuesN4.ofDims (K := K) L I J Z ps = .ok c) : ∃ md, mkMeta L ps = .ok md ∧ c.Holds L I J Z md (fun _ => 0) := by
  unfold HValuesN4.ofDims at h
  cases hm : mkMeta L ps with
  | error e => rw [hm] at h; simp at h
  | ok md =>
    rw [hm] at h
    simp only [okBind, pureOk, Except.ok.injEq] at h
    subst h
    refine ⟨md, rfl, ?_⟩
    refine ⟨?_, ?_, ?_, ?_, ?_, hF, ?_⟩ <;> simp only [u32_of_lt hF, rep4_table]

theorem HValuesN4.Holds.read {c : HValuesN4 K} {L I J Z : Nat} {md : HMeta} {f : Nat × Nat × Nat × Nat → K} (h0 : c.Holds L I J Z md f) {h a b e : Nat}
    (hh : h < L) (ha : a < I) (hb : b < J) (he : e < Z) : c.read h a b e = .ok (f (h, a, b, e)) := by
  unfold HValuesN4.read; rw [h0.values]; exact table4_get _ hh ha hb he

theorem HValuesN4.Holds.write {c : HValuesN4 K} {L I J Z : Nat} {md : HMeta} {f : Nat × Nat × Nat × Nat → K} (h0 : c.Holds L I J Z md f) {h a b e : Nat} (v : K)
    (hh : h < L) (ha : a < I) (hb : b < J) (he : e < Z) : ∃ c', c.write h a b e v = .ok c' ∧ c'.Holds L I J Z md (Function.update f (h, a, b, e) v) := by
  refine ⟨{ c with values := table4 L I J Z (Function.update f (h, a, b, e) v) }, ?_, h0.vsize, h0.md, h0.i, h0.j, h0.k, h0.fits, rfl⟩
  unfold HValuesN4.write; rw [h0.values, table4_set _ v hh ha hb he]; rfl

theorem HValuesN4.Holds.value {c : HValuesN4 K} {L I J Z : Nat} {md : HMeta} {f : Nat × Nat × Nat × Nat → K} (h0 : c.Holds L I J Z md f) {h a b e : Nat} (hh : h < L) (ha : a < I) (hb : b < J) (he : e < Z) :
    c.value h ((a * J + b) * Z + e) = .ok (f (h, a, b, e)) := by
  unfold HValuesN4.value; rw [h0.values, h0.j, h0.k]
  obtain ⟨e1, e2, e3⟩ := to4_flat ha hb he h0.fits; rw [e1, e2, e3]
  exact table4_get _ hh ha hb he

theorem HValuesN4.Holds.enum {c : HValuesN4 K} {L I J Z : Nat} {md : HMeta} {f : Nat × Nat × Nat × Nat → K} (h0 : c.Holds L I J Z md f) {h : Nat} (hh : h < L) :
    (List.range c.vsize).map (c.value h) = (List.range I).flatMap fun a => (List.range J).flatMap fun b => (List.range Z).map fun e => .ok (f (h, a, b, e)) := by
  rw [h0.vsize]
  rw [range_mul3_map]
  apply List.flatMap_congr
  intro a ha
  apply List.flatMap_congr
  intro b hb
  apply List.map_congr_left
  intro e he
  rw [List.mem_range] at ha hb he
  exact h0.value hh ha hb he

/-- `c` has the given dimensions and contents. -/
structure DValuesN2.Holds (c : DValuesN2 K) (L O : Nat) (md : HMeta) (f : Nat × Nat → K) : Prop where
  vsize : c.vsize = 1
  osize : c.osize = O
  md : c.md = md
  values : c.values = table2 L O f

theorem DValuesN2.ofVec_holds {L O : Nat} (hL : 0 < L) (f : Nat × Nat → K) {ps : List Int} {c : DValuesN2 K}
    (h : DValuesN2.ofVec (table2 L O f) ps = .ok c) : ∃ md, mkMeta L ps = .ok md ∧ c.Holds L O md f := by
  unfold DValuesN2.ofVec at h
  rw [SIZE1_table2] at h
  cases hm : mkMeta L ps with
  | error e => rw [hm] at h; simp at h
  | ok md =>
    rw [hm] at h
    simp only [okBind, pureOk, Except.ok.injEq] at h
    subst h
    refine ⟨md, rfl, ?_⟩
    constructor <;> simp only [SIZE2_table2 hL f]

theorem DValuesN2.ofDims_holds [Zero K] {L O : Nat} {ps : List Int} {c : DValuesN2 K}
    (h : DValuesN2.ofDims (K := K) L O ps = .ok c) : ∃ md, mkMeta L ps = .ok md ∧ c.Holds L O md (fun _ => 0) := by
  unfold DValuesN2.ofDims at h
  cases hm : mkMeta L ps with
  | error e => rw [hm] at h; simp at h
  | ok md =>
    rw [hm] at h
    simp only [okBind, pureOk, Except.ok.injEq] at h
    subst h
    refine ⟨md, rfl, ?_⟩
    constructor <;> simp only [rep2_table]

theorem DValuesN2.Holds.read {c : DValuesN2 K} {L O : Nat} {md : HMeta} {f : Nat × Nat → K} (h0 : c.Holds L O md f) {h o : Nat}
    (hh : h < L) (ho : o < O) : c.read h o = .ok (f (h, o)) := by
  unfold DValuesN2.read; rw [h0.values]; exact table2_get _ hh ho

theorem DValuesN2.Holds.write {c : DValuesN2 K} {L O : Nat} {md : HMeta} {f : Nat × Nat → K} (h0 : c.Holds L O md f) {h o : Nat} (v : K)
    (hh : h < L) (ho : o < O) : ∃ c', c.write h o v = .ok c' ∧ c'.Holds L O md (Function.update f (h, o) v) := by
  refine ⟨{ c with values := table2 L O (Function.update f (h, o) v) }, ?_, h0.vsize, h0.osize, h0.md, rfl⟩
  unfold DValuesN2.write; rw [h0.values, table2_set _ v hh ho]; rfl

theorem DValuesN2.Holds.series {c : DValuesN2 K} {L O : Nat} {md : HMeta} {f : Nat × Nat → K} (h0 : c.Holds L O md f) {h : Nat} (k : Nat) (hh : h < L)  :
    c.series h k = .ok (table1 O fun o => f (h, o)) := by
  unfold DValuesN2.series; rw [h0.values]
  exact table2_row _ hh

theorem DValuesN2.Holds.enum {c : DValuesN2 K} {L O : Nat} {md : HMeta} {f : Nat × Nat → K} (h0 : c.Holds L O md f) {h : Nat} (hh : h < L) :
    (List.range c.vsize).map (c.series h) = [.ok (table1 O fun o => f (h, o))] := by
  rw [h0.vsize]
  simp only [List.range_one, List.map_cons, List.map_nil, h0.series 0 hh]

/-- `c` has the given dimensions and contents. -/
structure DValuesN3.Holds (c : DValuesN3 K) (L V O : Nat) (md : HMeta) (f : Nat × Nat × Nat → K) : Prop where
  vsize : c.vsize = V
  osize : c.osize = O
  md : c.md = md
  values : c.values = table3 L V O f

theorem DValuesN3.ofVec_holds {L V O : Nat} (hL : 0 < L) (hV : 0 < V) (f : Nat × Nat × Nat → K) {ps : List Int} {c : DValuesN3 K}
    (h : DValuesN3.ofVec (table3 L V O f) ps = .ok c) : ∃ md, mkMeta L ps = .ok md ∧ c.Holds L V O md f := by
  unfold DValuesN3.ofVec at h
  rw [SIZE1_table3] at h
  cases hm : mkMeta L ps with
  | error e => rw [hm] at h; simp at h
  | ok md =>
    rw [hm] at h
    simp only [okBind, pureOk, Except.ok.injEq] at h
    subst h
    refine ⟨md, rfl, ?_⟩
    constructor <;> simp only [SIZE2_table3 hL f, SIZE3_table3 hL hV f]

theorem DValuesN3.ofDims_holds [Zero K] {L V O : Nat} {ps : List Int} {c : DValuesN3 K}
    (h : DValuesN3.ofDims (K := K) L V O ps = .ok c) : ∃ md, mkMeta L ps = .ok md ∧ c.Holds L V O md (fun _ => 0) := by
  unfold DValuesN3.ofDims at h
  cases hm : mkMeta L ps with
  | error e => rw [hm] at h; simp at h
  | ok md =>
    rw [hm] at h
    simp only [okBind, pureOk, Except.ok.injEq] at h
    subst h
    refine ⟨md, rfl, ?_⟩
    constructor <;> simp only [rep3_table]

theorem DValuesN3.Holds.read {c : DValuesN3 K} {L V O : Nat} {md : HMeta} {f : Nat × Nat × Nat → K} (h0 : c.Holds L V O md f) {h a o : Nat}
    (hh : h < L) (ha : a < V) (ho : o < O) : c.read h a o = .ok (f (h, a, o)) := by
  unfold DValuesN3.read; rw [h0.values]; exact table3_get _ hh ha ho

theorem DValuesN3.Holds.write {c : DValuesN3 K} {L V O : Nat} {md : HMeta} {f : Nat × Nat × Nat → K} (h0 : c.Holds L V O md f) {h a o : Nat} (v : K)
    (hh : h < L) (ha : a < V) (ho : o < O) : ∃ c', c.write h a o v = .ok c' ∧ c'.Holds L V O md (Function.update f (h, a, o) v) := by
  refine ⟨{ c with values := table3 L V O (Function.update f (h, a, o) v) }, ?_, h0.vsize, h0.osize, h0.md, rfl⟩
  unfold DValuesN3.write; rw [h0.values, table3_set _ v hh ha ho]; rfl

theorem DValuesN3.Holds.series {c : DValuesN3 K} {L V O : Nat} {md : HMeta} {f : Nat × Nat × Nat → K} (h0 : c.Holds L V O md f) {h a : Nat} (hh : h < L) (ha : a < V) :
    c.series h a = .ok (table1 O fun o => f (h, a, o)) := by
  unfold DValuesN3.series; rw [h0.values]
  exact table3_row2 _ hh ha

theorem DValuesN3.Holds.enum {c : DValuesN3 K} {L V O : Nat} {md : HMeta} {f : Nat × Nat × Nat → K} (h0 : c.Holds L V O md f) {h : Nat} (hh : h < L) :
    (List.range c.vsize).map (c.series h) = (List.range V).map fun a => .ok (table1 O fun o => f (h, a, o)) := by
  rw [h0.vsize]
  apply List.map_congr_left
  intro a ha
  rw [List.mem_range] at ha
  exact h0.series hh ha

/-- `c` has the given dimensions and contents. -/
structure DValuesN4.Holds (c : DValuesN4 K) (L I J O : Nat) (md : HMeta) (f : Nat × Nat × Nat × Nat → K) : Prop where
  vsize : c.vsize = I * J
  osize : c.osize = O
  md : c.md = md
  i : c.i = I
  j : c.j = J
  values : c.values = table4 L I J O f

theorem DValuesN4.ofVec_holds {L I J O : Nat} (hL : 0 < L) (hI : 0 < I) (hJ : 0 < J) (hF : I * J < 2 ^ 32) (f : Nat × Nat × Nat × Nat → K) {ps : List Int} {c : DValuesN4 K}
    (h : DValuesN4.ofVec (table4 L I J O f) ps = .ok c) : ∃ md, mkMeta L ps = .ok md ∧ c.Holds L I J O md f := by
  unfold DValuesN4.ofVec at h
  rw [SIZE1_table4] at h
  cases hm : mkMeta L ps with
  | error e => rw [hm] at h; simp at h
  | ok md =>
    rw [hm] at h
    simp only [okBind, pureOk, Except.ok.injEq] at h
    subst h
    refine ⟨md, rfl, ?_⟩
    constructor <;> simp only [u32_of_lt hF, SIZE2_table4 hL f, SIZE3_table4 hL hI f, SIZE4_table4 hL hI hJ f]

theorem DValuesN4.ofDims_holds [Zero K] {L I J O : Nat} {ps : List Int} {c : DValuesN4 K} (hF : I * J < 2 ^ 32)
    (h : DValuesN4.ofDims (K := K) L I J O ps = .ok c) : ∃ md, mkMeta L ps = .ok md ∧ c.Holds L I J O md (fun _ => 0) := by
  unfold DValuesN4.ofDims at h
  cases hm : mkMeta L ps with
  | error e => rw [hm] at h; simp at h
  | ok md =>
    rw [hm] at h
    simp only [okBind, pureOk, Except.ok.injEq] at h
    subst h
    refine ⟨md, rfl, ?_⟩
    constructor <;> simp only [u32_of_lt hF, rep4_table]

theorem DValuesN4.Holds.read {c : DValuesN4 K} {L I J O : Nat} {md : HMeta} {f : Nat × Nat × Nat × Nat → K} (h0 : c.Holds L I J O md f) {h a b o : Nat}
    (hh : h < L) (ha : a < I) (hb : b < J) (ho : o < O) : c.read h a b o = .ok (f (h, a, b, o)) := by
  unfold DValuesN4.read; rw [h0.values]; exact table4_get _ hh ha hb ho

theorem DValuesN4.Holds.write {c : DValuesN4 K} {L I J O : Nat} {md : HMeta} {f : Nat × Nat × Nat × Nat → K} (h0 : c.Holds L I J O md f) {h a b o : Nat} (v : K)
    (hh : h < L) (ha : a < I) (hb : b < J) (ho : o < O) : ∃ c', c.write h a b o v = .ok c' ∧ c'.Holds L I J O md (Function.update f (h, a, b, o) v) := by
  refine ⟨{ c with values := table4 L I J O (Function.update f (h, a, b, o) v) }, ?_, h0.vsize, h0.osize, h0.md, h0.i, h0.j, rfl⟩
  unfold DValuesN4.write; rw [h0.values, table4_set _ v hh ha hb ho]; rfl

theorem DValuesN4.Holds.series {c : DValuesN4 K} {L I J O : Nat} {md : HMeta} {f : Nat × Nat × Nat × Nat → K} (h0 : c.Holds L I J O md f) {h a b : Nat} (hh : h < L) (ha : a < I) (hb : b < J) :
    c.series h (a * J + b) = .ok (table1 O fun o => f (h, a, b, o)) := by
  unfold DValuesN4.series; rw [h0.values, h0.j]
  obtain ⟨e1, e2⟩ := to3_flat (a := a) hb; rw [e1, e2]
  exact table4_row3 _ hh ha hb

theorem DValuesN4.Holds.enum {c : DValuesN4 K} {L I J O : Nat} {md : HMeta} {f : Nat × Nat × Nat × Nat → K} (h0 : c.Holds L I J O md f) {h : Nat} (hh : h < L) :
    (List.range c.vsize).map (c.series h) = (List.range I).flatMap fun a => (List.range J).map fun b => .ok (table1 O fun o => f (h, a, b, o)) := by
  rw [h0.vsize]
  rw [range_mul_map]
  apply List.flatMap_congr
  intro a ha
  apply List.map_congr_left
  intro b hb
  rw [List.mem_range] at ha hb
  exact h0.series hh ha hb

end Lp
