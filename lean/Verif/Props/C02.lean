import Verif.Proofs.Containers
import Verif.Proofs.Samples

/-!
# C02 — flat index and multi-index of the value containers agree

`tableN dims f` is the rectangular nested vector with value `f x` at position `x` (`Spec/Table.lean`).  In every
result the container is built either from such a vector or from its dimensions (all values 0), then any history
`ws` of writes is made through the multi-index operator.  Then the sizes are as expected, reading a position gives
the value last written there (the original one if there is none), and enumerating the flat index runs through the
remaining dimensions in lexicographic order, each exactly once.
-/

namespace Lp.C02
open Spec
variable {K : Type} [Zero K]

theorem orderedN1 (O : Nat) (f : Nat → K) (c0 : OValuesN1 K)
    (hc : (c0 = OValuesN1.ofVec (table1 O f)) ∨ (c0 = OValuesN1.ofDims O ∧ f = fun _ => 0))
    (ws : List ((Nat) × K)) (hws : ∀ w ∈ ws, w.1 < O) :
    ∃ c, forEach (fun w c => OValuesN1.write c w.1 w.2) ws c0 = .ok c ∧
      c.vsize = 1 ∧ c.osize = O ∧
      (∀ o, o < O → c.read o = .ok (lastWritten f ws o)) ∧
      (List.range c.vsize).map c.series =
        [.ok (table1 O fun o => lastWritten f ws o)] := by
  have h0 : c0.Holds O f := by
    rcases hc with hc | hc
    · subst hc
      exact OValuesN1.ofVec_holds f
    · obtain ⟨rfl, rfl⟩ := hc
      exact OValuesN1.ofDims_holds ..
  obtain ⟨c, e, hc⟩ := writes_hold (fun (c : OValuesN1 K) x v => c.write x v)
    (fun x => x < O) (fun c f => c.Holds O f)
    (fun c f x v hc hx => hc.write v hx) h0 ws hws
  exact ⟨c, e, hc.vsize, hc.osize, fun _ h0 => hc.read h0,
    hc.enum⟩

theorem orderedN2 (V O : Nat) (f : Nat × Nat → K) (c0 : OValuesN2 K)
    (hc : (0 < V ∧ c0 = OValuesN2.ofVec (table2 V O f)) ∨ (c0 = OValuesN2.ofDims V O ∧ f = fun _ => 0))
    (ws : List ((Nat × Nat) × K)) (hws : ∀ w ∈ ws, w.1.1 < V ∧ w.1.2 < O) :
    ∃ c, forEach (fun w c => OValuesN2.write c w.1.1 w.1.2 w.2) ws c0 = .ok c ∧
      c.vsize = V ∧ c.osize = O ∧
      (∀ a o, a < V → o < O → c.read a o = .ok (lastWritten f ws (a, o))) ∧
      (List.range c.vsize).map c.series =
        (List.range V).map fun a => .ok (table1 O fun o => lastWritten f ws (a, o)) := by
  have h0 : c0.Holds V O f := by
    rcases hc with hc | hc
    · obtain ⟨hV, rfl⟩ := hc
      exact OValuesN2.ofVec_holds hV f
    · obtain ⟨rfl, rfl⟩ := hc
      exact OValuesN2.ofDims_holds ..
  obtain ⟨c, e, hc⟩ := writes_hold (fun (c : OValuesN2 K) x v => c.write x.1 x.2 v)
    (fun x => x.1 < V ∧ x.2 < O) (fun c f => c.Holds V O f)
    (fun c f x v hc hx => hc.write v hx.1 hx.2) h0 ws hws
  exact ⟨c, e, hc.vsize, hc.osize, fun _ _ h0 h1 => hc.read h0 h1,
    hc.enum⟩

theorem orderedN3 (I J O : Nat) (hF : I * J < 2 ^ 32) (f : Nat × Nat × Nat → K) (c0 : OValuesN3 K)
    (hc : (0 < I ∧ 0 < J ∧ c0 = OValuesN3.ofVec (table3 I J O f)) ∨ (c0 = OValuesN3.ofDims I J O ∧ f = fun _ => 0))
    (ws : List ((Nat × Nat × Nat) × K)) (hws : ∀ w ∈ ws, w.1.1 < I ∧ w.1.2.1 < J ∧ w.1.2.2 < O) :
    ∃ c, forEach (fun w c => OValuesN3.write c w.1.1 w.1.2.1 w.1.2.2 w.2) ws c0 = .ok c ∧
      c.vsize = I * J ∧ c.osize = O ∧ c.i = I ∧ c.j = J ∧
      (∀ a b o, a < I → b < J → o < O → c.read a b o = .ok (lastWritten f ws (a, b, o))) ∧
      (List.range c.vsize).map c.series =
        (List.range I).flatMap fun a => (List.range J).map fun b => .ok (table1 O fun o => lastWritten f ws (a, b, o)) := by
  have h0 : c0.Holds I J O f := by
    rcases hc with hc | hc
    · obtain ⟨hI, hJ, rfl⟩ := hc
      exact OValuesN3.ofVec_holds hI hJ hF f
    · obtain ⟨rfl, rfl⟩ := hc
      exact OValuesN3.ofDims_holds _ _ _ hF
  obtain ⟨c, e, hc⟩ := writes_hold (fun (c : OValuesN3 K) x v => c.write x.1 x.2.1 x.2.2 v)
    (fun x => x.1 < I ∧ x.2.1 < J ∧ x.2.2 < O) (fun c f => c.Holds I J O f)
    (fun c f x v hc hx => hc.write v hx.1 hx.2.1 hx.2.2) h0 ws hws
  exact ⟨c, e, hc.vsize, hc.osize, hc.i, hc.j, fun _ _ _ h0 h1 h2 => hc.read h0 h1 h2,
    hc.enum⟩

theorem orderedN4 (I J Z O : Nat) (hF : I * J * Z < 2 ^ 32) (f : Nat × Nat × Nat × Nat → K) (c0 : OValuesN4 K)
    (hc : (0 < I ∧ 0 < J ∧ 0 < Z ∧ c0 = OValuesN4.ofVec (table4 I J Z O f)) ∨ (c0 = OValuesN4.ofDims I J Z O ∧ f = fun _ => 0))
    (ws : List ((Nat × Nat × Nat × Nat) × K)) (hws : ∀ w ∈ ws, w.1.1 < I ∧ w.1.2.1 < J ∧ w.1.2.2.1 < Z ∧ w.1.2.2.2 < O) :
    ∃ c, forEach (fun w c => OValuesN4.write c w.1.1 w.1.2.1 w.1.2.2.1 w.1.2.2.2 w.2) ws c0 = .ok c ∧
      c.vsize = I * J * Z ∧ c.osize = O ∧ c.i = I ∧ c.j = J ∧ c.k = Z ∧
      (∀ a b e o, a < I → b < J → e < Z → o < O → c.read a b e o = .ok (lastWritten f ws (a, b, e, o))) ∧
      (List.range c.vsize).map c.series =
        (List.range I).flatMap fun a => (List.range J).flatMap fun b => (List.range Z).map fun e => .ok (table1 O fun o => lastWritten f ws (a, b, e, o)) := by
  have h0 : c0.Holds I J Z O f := by
    rcases hc with hc | hc
    · obtain ⟨hI, hJ, hZ, rfl⟩ := hc
      exact OValuesN4.ofVec_holds hI hJ hZ hF f
    · obtain ⟨rfl, rfl⟩ := hc
      exact OValuesN4.ofDims_holds _ _ _ _ hF
  obtain ⟨c, e, hc⟩ := writes_hold (fun (c : OValuesN4 K) x v => c.write x.1 x.2.1 x.2.2.1 x.2.2.2 v)
    (fun x => x.1 < I ∧ x.2.1 < J ∧ x.2.2.1 < Z ∧ x.2.2.2 < O) (fun c f => c.Holds I J Z O f)
    (fun c f x v hc hx => hc.write v hx.1 hx.2.1 hx.2.2.1 hx.2.2.2) h0 ws hws
  exact ⟨c, e, hc.vsize, hc.osize, hc.i, hc.j, hc.k, fun _ _ _ _ h0 h1 h2 h3 => hc.read h0 h1 h2 h3,
    hc.enum⟩

theorem hierarchicalN1 (L : Nat) (f : Nat → K) (c0 : HValuesN1 K) (parents : List Int)
    (hc : (HValuesN1.ofVec (table1 L f) parents = .ok c0) ∨ (HValuesN1.ofDims L parents = .ok c0 ∧ f = fun _ => 0))
    (ws : List ((Nat) × K)) (hws : ∀ w ∈ ws, w.1 < L) :
    ∃ c, forEach (fun w c => HValuesN1.write c w.1 w.2) ws c0 = .ok c ∧
      c.vsize = 1 ∧ mkMeta L parents = .ok c.md ∧
      (∀ h, h < L → c.read h = .ok (lastWritten f ws h)) ∧
      ∀ h, h < L → (List.range c.vsize).map (c.value h) =
        [.ok (lastWritten f ws h)] := by
  have hm : ∃ md, mkMeta L parents = .ok md ∧ c0.Holds L md f := by
    rcases hc with hc | hc
    · exact HValuesN1.ofVec_holds f hc
    · obtain ⟨hc, rfl⟩ := hc
      exact HValuesN1.ofDims_holds hc
  obtain ⟨md, hmd, h0⟩ := hm
  obtain ⟨c, e, hc⟩ := writes_hold (fun (c : HValuesN1 K) x v => c.write x v)
    (fun x => x < L) (fun c f => c.Holds L md f)
    (fun c f x v hc hx => hc.write v hx) h0 ws hws
  exact ⟨c, e, hc.vsize, by rw [hc.md]; exact hmd, fun _ h0 => hc.read h0,
    fun _ hh => hc.enum hh⟩

theorem hierarchicalN2 (L V : Nat) (f : Nat × Nat → K) (c0 : HValuesN2 K) (parents : List Int)
    (hc : (0 < L ∧ HValuesN2.ofVec (table2 L V f) parents = .ok c0) ∨ (HValuesN2.ofDims L V parents = .ok c0 ∧ f = fun _ => 0))
    (ws : List ((Nat × Nat) × K)) (hws : ∀ w ∈ ws, w.1.1 < L ∧ w.1.2 < V) :
    ∃ c, forEach (fun w c => HValuesN2.write c w.1.1 w.1.2 w.2) ws c0 = .ok c ∧
      c.vsize = V ∧ mkMeta L parents = .ok c.md ∧
      (∀ h a, h < L → a < V → c.read h a = .ok (lastWritten f ws (h, a))) ∧
      ∀ h, h < L → (List.range c.vsize).map (c.value h) =
        (List.range V).map fun a => .ok (lastWritten f ws (h, a)) := by
  have hm : ∃ md, mkMeta L parents = .ok md ∧ c0.Holds L V md f := by
    rcases hc with hc | hc
    · obtain ⟨hL, hc⟩ := hc
      exact HValuesN2.ofVec_holds hL f hc
    · obtain ⟨hc, rfl⟩ := hc
      exact HValuesN2.ofDims_holds hc
  obtain ⟨md, hmd, h0⟩ := hm
  obtain ⟨c, e, hc⟩ := writes_hold (fun (c : HValuesN2 K) x v => c.write x.1 x.2 v)
    (fun x => x.1 < L ∧ x.2 < V) (fun c f => c.Holds L V md f)
    (fun c f x v hc hx => hc.write v hx.1 hx.2) h0 ws hws
  exact ⟨c, e, hc.vsize, by rw [hc.md]; exact hmd, fun _ _ h0 h1 => hc.read h0 h1,
    fun _ hh => hc.enum hh⟩

theorem hierarchicalN3 (L I J : Nat) (hF : I * J < 2 ^ 32) (f : Nat × Nat × Nat → K) (c0 : HValuesN3 K) (parents : List Int)
    (hc : (0 < L ∧ 0 < I ∧ HValuesN3.ofVec (table3 L I J f) parents = .ok c0) ∨ (HValuesN3.ofDims L I J parents = .ok c0 ∧ f = fun _ => 0))
    (ws : List ((Nat × Nat × Nat) × K)) (hws : ∀ w ∈ ws, w.1.1 < L ∧ w.1.2.1 < I ∧ w.1.2.2 < J) :
    ∃ c, forEach (fun w c => HValuesN3.write c w.1.1 w.1.2.1 w.1.2.2 w.2) ws c0 = .ok c ∧
      c.vsize = I * J ∧ c.i = I ∧ c.j = J ∧ mkMeta L parents = .ok c.md ∧
      (∀ h a b, h < L → a < I → b < J → c.read h a b = .ok (lastWritten f ws (h, a, b))) ∧
      ∀ h, h < L → (List.range c.vsize).map (c.value h) =
        (List.range I).flatMap fun a => (List.range J).map fun b => .ok (lastWritten f ws (h, a, b)) := by
  have hm : ∃ md, mkMeta L parents = .ok md ∧ c0.Holds L I J md f := by
    rcases hc with hc | hc
    · obtain ⟨hL, hI, hc⟩ := hc
      exact HValuesN3.ofVec_holds hL hI hF f hc
    · obtain ⟨hc, rfl⟩ := hc
      exact HValuesN3.ofDims_holds hF hc
  obtain ⟨md, hmd, h0⟩ := hm
  obtain ⟨c, e, hc⟩ := writes_hold (fun (c : HValuesN3 K) x v => c.write x.1 x.2.1 x.2.2 v)
    (fun x => x.1 < L ∧ x.2.1 < I ∧ x.2.2 < J) (fun c f => c.Holds L I J md f)
    (fun c f x v hc hx => hc.write v hx.1 hx.2.1 hx.2.2) h0 ws hws
  exact ⟨c, e, hc.vsize, hc.i, hc.j, by rw [hc.md]; exact hmd, fun _ _ _ h0 h1 h2 => hc.read h0 h1 h2,
    fun _ hh => hc.enum hh⟩

theorem hierarchicalN4 (L I J Z : Nat) (hF : I * J * Z < 2 ^ 32) (f : Nat × Nat × Nat × Nat → K) (c0 : HValuesN4 K) (parents : List Int)
    (hc : (0 < L ∧ 0 < I ∧ 0 < J ∧ HValuesN4.ofVec (table4 L I J Z f) parents = .ok c0) ∨ (HValuesN4.ofDims L I J Z parents = .ok c0 ∧ f = fun _ => 0))
    (ws : List ((Nat × Nat × Nat × Nat) × K)) (hws : ∀ w ∈ ws, w.1.1 < L ∧ w.1.2.1 < I ∧ w.1.2.2.1 < J ∧ w.1.2.2.2 < Z) :
    ∃ c, forEach (fun w c => HValuesN4.write c w.1.1 w.1.2.1 w.1.2.2.1 w.1.2.2.2 w.2) ws c0 = .ok c ∧
      c.vsize = I * J * Z ∧ c.i = I ∧ c.j = J ∧ c.k = Z ∧ mkMeta L parents = .ok c.md ∧
      (∀ h a b e, h < L → a < I → b < J → e < Z → c.read h a b e = .ok (lastWritten f ws (h, a, b, e))) ∧
      ∀ h, h < L → (List.range c.vsize).map (c.value h) =
        (List.range I).flatMap fun a => (List.range J).flatMap fun b => (List.range Z).map fun e => .ok (lastWritten f ws (h, a, b, e)) := by
  have hm : ∃ md, mkMeta L parents = .ok md ∧ c0.Holds L I J Z md f := by
    rcases hc with hc | hc
    · obtain ⟨hL, hI, hJ, hc⟩ := hc
      exact HValuesN4.ofVec_holds hL hI hJ hF f hc
    · obtain ⟨hc, rfl⟩ := hc
      exact HValuesN4.ofDims_holds hF hc
  obtain ⟨md, hmd, h0⟩ := hm
  obtain ⟨c, e, hc⟩ := writes_hold (fun (c : HValuesN4 K) x v => c.write x.1 x.2.1 x.2.2.1 x.2.2.2 v)
    (fun x => x.1 < L ∧ x.2.1 < I ∧ x.2.2.1 < J ∧ x.2.2.2 < Z) (fun c f => c.Holds L I J Z md f)
    (fun c f x v hc hx => hc.write v hx.1 hx.2.1 hx.2.2.1 hx.2.2.2) h0 ws hws
  exact ⟨c, e, hc.vsize, hc.i, hc.j, hc.k, by rw [hc.md]; exact hmd, fun _ _ _ _ h0 h1 h2 h3 => hc.read h0 h1 h2 h3,
    fun _ hh => hc.enum hh⟩

theorem spatiotemporalN2 (L O : Nat) (f : Nat × Nat → K) (c0 : DValuesN2 K) (parents : List Int)
    (hc : (0 < L ∧ DValuesN2.ofVec (table2 L O f) parents = .ok c0) ∨ (DValuesN2.ofDims L O parents = .ok c0 ∧ f = fun _ => 0))
    (ws : List ((Nat × Nat) × K)) (hws : ∀ w ∈ ws, w.1.1 < L ∧ w.1.2 < O) :
    ∃ c, forEach (fun w c => DValuesN2.write c w.1.1 w.1.2 w.2) ws c0 = .ok c ∧
      c.vsize = 1 ∧ c.osize = O ∧ mkMeta L parents = .ok c.md ∧
      (∀ h o, h < L → o < O → c.read h o = .ok (lastWritten f ws (h, o))) ∧
      ∀ h, h < L → (List.range c.vsize).map (c.series h) =
        [.ok (table1 O fun o => lastWritten f ws (h, o))] := by
  have hm : ∃ md, mkMeta L parents = .ok md ∧ c0.Holds L O md f := by
    rcases hc with hc | hc
    · obtain ⟨hL, hc⟩ := hc
      exact DValuesN2.ofVec_holds hL f hc
    · obtain ⟨hc, rfl⟩ := hc
      exact DValuesN2.ofDims_holds hc
  obtain ⟨md, hmd, h0⟩ := hm
  obtain ⟨c, e, hc⟩ := writes_hold (fun (c : DValuesN2 K) x v => c.write x.1 x.2 v)
    (fun x => x.1 < L ∧ x.2 < O) (fun c f => c.Holds L O md f)
    (fun c f x v hc hx => hc.write v hx.1 hx.2) h0 ws hws
  exact ⟨c, e, hc.vsize, hc.osize, by rw [hc.md]; exact hmd, fun _ _ h0 h1 => hc.read h0 h1,
    fun _ hh => hc.enum hh⟩

theorem spatiotemporalN3 (L V O : Nat) (f : Nat × Nat × Nat → K) (c0 : DValuesN3 K) (parents : List Int)
    (hc : (0 < L ∧ 0 < V ∧ DValuesN3.ofVec (table3 L V O f) parents = .ok c0) ∨ (DValuesN3.ofDims L V O parents = .ok c0 ∧ f = fun _ => 0))
    (ws : List ((Nat × Nat × Nat) × K)) (hws : ∀ w ∈ ws, w.1.1 < L ∧ w.1.2.1 < V ∧ w.1.2.2 < O) :
    ∃ c, forEach (fun w c => DValuesN3.write c w.1.1 w.1.2.1 w.1.2.2 w.2) ws c0 = .ok c ∧
      c.vsize = V ∧ c.osize = O ∧ mkMeta L parents = .ok c.md ∧
      (∀ h a o, h < L → a < V → o < O → c.read h a o = .ok (lastWritten f ws (h, a, o))) ∧
      ∀ h, h < L → (List.range c.vsize).map (c.series h) =
        (List.range V).map fun a => .ok (table1 O fun o => lastWritten f ws (h, a, o)) := by
  have hm : ∃ md, mkMeta L parents = .ok md ∧ c0.Holds L V O md f := by
    rcases hc with hc | hc
    · obtain ⟨hL, hV, hc⟩ := hc
      exact DValuesN3.ofVec_holds hL hV f hc
    · obtain ⟨hc, rfl⟩ := hc
      exact DValuesN3.ofDims_holds hc
  obtain ⟨md, hmd, h0⟩ := hm
  obtain ⟨c, e, hc⟩ := writes_hold (fun (c : DValuesN3 K) x v => c.write x.1 x.2.1 x.2.2 v)
    (fun x => x.1 < L ∧ x.2.1 < V ∧ x.2.2 < O) (fun c f => c.Holds L V O md f)
    (fun c f x v hc hx => hc.write v hx.1 hx.2.1 hx.2.2) h0 ws hws
  exact ⟨c, e, hc.vsize, hc.osize, by rw [hc.md]; exact hmd, fun _ _ _ h0 h1 h2 => hc.read h0 h1 h2,
    fun _ hh => hc.enum hh⟩

theorem spatiotemporalN4 (L I J O : Nat) (hF : I * J < 2 ^ 32) (f : Nat × Nat × Nat × Nat → K) (c0 : DValuesN4 K) (parents : List Int)
    (hc : (0 < L ∧ 0 < I ∧ 0 < J ∧ DValuesN4.ofVec (table4 L I J O f) parents = .ok c0) ∨ (DValuesN4.ofDims L I J O parents = .ok c0 ∧ f = fun _ => 0))
    (ws : List ((Nat × Nat × Nat × Nat) × K)) (hws : ∀ w ∈ ws, w.1.1 < L ∧ w.1.2.1 < I ∧ w.1.2.2.1 < J ∧ w.1.2.2.2 < O) :
    ∃ c, forEach (fun w c => DValuesN4.write c w.1.1 w.1.2.1 w.1.2.2.1 w.1.2.2.2 w.2) ws c0 = .ok c ∧
      c.vsize = I * J ∧ c.osize = O ∧ c.i = I ∧ c.j = J ∧ mkMeta L parents = .ok c.md ∧
      (∀ h a b o, h < L → a < I → b < J → o < O → c.read h a b o = .ok (lastWritten f ws (h, a, b, o))) ∧
      ∀ h, h < L → (List.range c.vsize).map (c.series h) =
        (List.range I).flatMap fun a => (List.range J).map fun b => .ok (table1 O fun o => lastWritten f ws (h, a, b, o)) := by
  have hm : ∃ md, mkMeta L parents = .ok md ∧ c0.Holds L I J O md f := by
    rcases hc with hc | hc
    · obtain ⟨hL, hI, hJ, hc⟩ := hc
      exact DValuesN4.ofVec_holds hL hI hJ hF f hc
    · obtain ⟨hc, rfl⟩ := hc
      exact DValuesN4.ofDims_holds hF hc
  obtain ⟨md, hmd, h0⟩ := hm
  obtain ⟨c, e, hc⟩ := writes_hold (fun (c : DValuesN4 K) x v => c.write x.1 x.2.1 x.2.2.1 x.2.2.2 v)
    (fun x => x.1 < L ∧ x.2.1 < I ∧ x.2.2.1 < J ∧ x.2.2.2 < O) (fun c f => c.Holds L I J O md f)
    (fun c f x v hc hx => hc.write v hx.1 hx.2.1 hx.2.2.1 hx.2.2.2) h0 ws hws
  exact ⟨c, e, hc.vsize, hc.osize, hc.i, hc.j, by rw [hc.md]; exact hmd, fun _ _ _ _ h0 h1 h2 h3 => hc.read h0 h1 h2 h3,
    fun _ hh => hc.enum hh⟩

/-- Without the bound: a container reports its number of series modulo 2^32, and enumerating it visits only the first ones. -/
theorem wrapped (I J : Nat) :
    (∀ (O : Nat) (f : Nat × Nat × Nat → K), 0 < I → 0 < J → ∀ c, c = OValuesN3.ofVec (table3 I J O f) → c.vsize = I * J % 2 ^ 32 ∧
      (List.range c.vsize).map c.series =
        ((List.range I).flatMap fun a => (List.range J).map fun b => .ok (table1 O fun o => f (a, b, o))).take (I * J % 2 ^ 32)) ∧
    (∀ (L : Nat) (f : Nat × Nat × Nat → K) (parents : List Int), 0 < L → 0 < I → ∀ c, HValuesN3.ofVec (table3 L I J f) parents = .ok c →
      c.vsize = I * J % 2 ^ 32 ∧ ∀ h, h < L → (List.range c.vsize).map (c.value h) =
        ((List.range I).flatMap fun a => (List.range J).map fun b => .ok (f (h, a, b))).take (I * J % 2 ^ 32)) ∧
    (∀ (L O : Nat) (f : Nat × Nat × Nat × Nat → K) (parents : List Int), 0 < L → 0 < I → 0 < J →
      ∀ c, DValuesN4.ofVec (table4 L I J O f) parents = .ok c →
      c.vsize = I * J % 2 ^ 32 ∧ ∀ h, h < L → (List.range c.vsize).map (c.series h) =
        ((List.range I).flatMap fun a => (List.range J).map fun b => .ok (table1 O fun o => f (h, a, b, o))).take (I * J % 2 ^ 32)) := by
  have key : ∀ {β : Type} (g : Nat → β) (G : List β), (List.range (I * J)).map g = G →
      (List.range (I * J % 2 ^ 32)).map g = G.take (I * J % 2 ^ 32) := by
    rintro β g G rfl
    rw [← List.map_take, List.take_range, Nat.min_eq_left (Nat.mod_le _ _)]
  refine ⟨?_, ?_, ?_⟩
  · intro O f hI hJ c hc
    have hv : c.vsize = I * J % 2 ^ 32 := by
      rw [hc]
      simp only [OValuesN3.ofVec, SIZE1_table3, SIZE2_table3 hI f]
      rfl
    have h0 : OValuesN3.Holds { c with vsize := I * J } I J O f := by
      rw [hc]
      constructor <;> simp only [OValuesN3.ofVec, SIZE1_table3, SIZE2_table3 hI f, SIZE3_table3 hI hJ f]
    refine ⟨hv, ?_⟩
    rw [hv]
    exact key _ _ h0.enum
  · intro L f parents hL hI c hc
    unfold HValuesN3.ofVec at hc
    cases hm : mkMeta (SIZE1 (table3 L I J f)) parents with
    | error e => rw [hm] at hc; simp at hc
    | ok md =>
      rw [hm] at hc
      simp only [okBind, pureOk, Except.ok.injEq] at hc
      have hv : c.vsize = I * J % 2 ^ 32 := by
        rw [← hc]
        simp only [SIZE2_table3 hL f, SIZE3_table3 hL hI f]
        rfl
      have h0 : HValuesN3.Holds { c with vsize := I * J } L I J md f := by
        rw [← hc]
        constructor <;> simp only [SIZE2_table3 hL f, SIZE3_table3 hL hI f]
      refine ⟨hv, fun h hh => ?_⟩
      rw [hv]
      exact key _ _ (h0.enum hh)
  · intro L O f parents hL hI hJ c hc
    unfold DValuesN4.ofVec at hc
    cases hm : mkMeta (SIZE1 (table4 L I J O f)) parents with
    | error e => rw [hm] at hc; simp at hc
    | ok md =>
      rw [hm] at hc
      simp only [okBind, pureOk, Except.ok.injEq] at hc
      have hv : c.vsize = I * J % 2 ^ 32 := by
        rw [← hc]
        simp only [SIZE2_table4 hL f, SIZE3_table4 hL hI f]
        rfl
      have h0 : DValuesN4.Holds { c with vsize := I * J } L I J O md f := by
        rw [← hc]
        constructor <;> simp only [SIZE2_table4 hL f, SIZE3_table4 hL hI f, SIZE4_table4 hL hI hJ f]
      refine ⟨hv, fun h hh => ?_⟩
      rw [hv]
      exact key _ _ (h0.enum hh)

/-- The same for the containers with three flattened dimensions, as long as the last two have fewer than 2^32 positions. -/
theorem wrapped4 (I J Z : Nat) (hJZ : J * Z < 2 ^ 32) :
    (∀ (O : Nat) (f : Nat × Nat × Nat × Nat → K), 0 < I → 0 < J → 0 < Z → ∀ c, c = OValuesN4.ofVec (table4 I J Z O f) →
      c.vsize = I * J * Z % 2 ^ 32 ∧ (List.range c.vsize).map c.series =
        ((List.range I).flatMap fun a => (List.range J).flatMap fun b => (List.range Z).map fun e =>
          .ok (table1 O fun o => f (a, b, e, o))).take (I * J * Z % 2 ^ 32)) ∧
    (∀ (L : Nat) (f : Nat × Nat × Nat × Nat → K) (parents : List Int), 0 < L → 0 < I → 0 < J →
      ∀ c, HValuesN4.ofVec (table4 L I J Z f) parents = .ok c →
      c.vsize = I * J * Z % 2 ^ 32 ∧ ∀ h, h < L → (List.range c.vsize).map (c.value h) =
        ((List.range I).flatMap fun a => (List.range J).flatMap fun b => (List.range Z).map fun e =>
          .ok (f (h, a, b, e))).take (I * J * Z % 2 ^ 32)) := by
  have key : ∀ {β : Type} (g : Nat → β) (G : List β), (List.range (I * J * Z)).map g = G →
      (List.range (I * J * Z % 2 ^ 32)).map g = G.take (I * J * Z % 2 ^ 32) := by
    rintro β g G rfl
    rw [← List.map_take, List.take_range, Nat.min_eq_left (Nat.mod_le _ _)]
  have flat : ∀ {a b e : Nat}, b < J → e < Z → toI4 J Z ((a * J + b) * Z + e) = a ∧ toJ4 J Z ((a * J + b) * Z + e) = b ∧
      toK4 Z ((a * J + b) * Z + e) = e := by
    intro a b e hb he
    have h1 := to3_flat (a := a * J + b) he
    have h2 := to3_flat (a := a) hb
    unfold toI3 toJ3 at h1 h2
    unfold toI4 toJ4 toK4
    refine ⟨?_, ?_, h1.2⟩
    · rw [u32_of_lt (by rw [Nat.mul_comm]; exact hJZ), ← Nat.div_div_eq_div_mul, h1.1, h2.1]
    · rw [h1.1, h2.2]
  constructor
  · intro O f hI hJ hZ c hc
    have hv : c.vsize = I * J * Z % 2 ^ 32 := by
      rw [hc]
      simp only [OValuesN4.ofVec, SIZE1_table4, SIZE2_table4 hI f, SIZE3_table4 hI hJ f]
      rfl
    refine ⟨hv, ?_⟩
    rw [hv]
    refine key _ _ ?_
    rw [range_mul3_map]
    refine List.flatMap_congr (fun a ha => List.flatMap_congr (fun b hb => List.map_congr_left (fun e he => ?_)))
    rw [List.mem_range] at ha hb he
    obtain ⟨e1, e2, e3⟩ := flat (a := a) hb he
    rw [hc]
    unfold OValuesN4.series
    simp only [OValuesN4.ofVec, SIZE2_table4 hI f, SIZE3_table4 hI hJ f]
    rw [e1, e2, e3]
    exact table4_row3 _ ha hb he
  · intro L f parents hL hI hJ c hc
    unfold HValuesN4.ofVec at hc
    cases hm : mkMeta (SIZE1 (table4 L I J Z f)) parents with
    | error e => rw [hm] at hc; simp at hc
    | ok md =>
      rw [hm] at hc
      simp only [okBind, pureOk, Except.ok.injEq, SIZE2_table4 hL f, SIZE3_table4 hL hI f, SIZE4_table4 hL hI hJ f] at hc
      have hv : c.vsize = I * J * Z % 2 ^ 32 := by rw [← hc]; rfl
      refine ⟨hv, fun h hh => ?_⟩
      rw [hv]
      refine key _ _ ?_
      rw [range_mul3_map]
      refine List.flatMap_congr (fun a ha => List.flatMap_congr (fun b hb => List.map_congr_left (fun e he => ?_)))
      rw [List.mem_range] at ha hb he
      obtain ⟨e1, e2, e3⟩ := flat (a := a) hb he
      rw [← hc]
      unfold HValuesN4.value
      rw [e1, e2, e3]
      exact table4_get _ hh ha hb he

/-- If they have more, and not a multiple of 2^32, another series than the right one is seen: index `w`, the number of positions of the last two
dimensions modulo 2^32, is read at first coordinate 1 instead of 0. -/
theorem displaced4 (I J Z O : Nat) (f : Nat × Nat × Nat × Nat → K) (hI : 1 < I) (hJ : 0 < J) (hZ : 0 < Z) (hJZ : 2 ^ 32 ≤ J * Z)
    (hw : 0 < J * Z % 2 ^ 32) (c : OValuesN4 K) (hc : c = OValuesN4.ofVec (table4 I J Z O f)) :
    let w := J * Z % 2 ^ 32
    w < J * Z ∧ c.series w = .ok (table1 O fun o => f (1, w / Z, w % Z, o)) ∧
      c.values[0]?.map (fun x => get2 x (w / Z) (w % Z)) = some (.ok (table1 O fun o => f (0, w / Z, w % Z, o))) := by
  intro w
  have hlt : w < J * Z := lt_of_lt_of_le (Nat.mod_lt _ (by norm_num)) hJZ
  have hd : w / Z < J := by rw [Nat.div_lt_iff_lt_mul hZ]; exact hlt
  have hm : w % Z < Z := Nat.mod_lt _ hZ
  have e1 : toI4 J Z w = 1 := by
    unfold toI4 u32
    rw [Nat.mul_comm Z J]
    exact Nat.div_self hw
  have e2 : toJ4 J Z w = w / Z := by
    unfold toJ4
    exact Nat.mod_eq_of_lt hd
  refine ⟨hlt, ?_, ?_⟩
  · rw [hc]
    unfold OValuesN4.series
    simp only [OValuesN4.ofVec, SIZE2_table4 (show 0 < I by omega) f, SIZE3_table4 (show 0 < I by omega) hJ f]
    rw [e1, e2]
    exact table4_row3 _ hI hd hm
  · rw [hc]
    have : (table4 I J Z O f)[0]? = some (table3 J Z O fun y => f (0, y)) := by
      simp [table4, show 0 < I by omega]
    show (table4 I J Z O f)[0]?.map _ = _
    rw [this]
    simp only [Option.map_some, Option.some.injEq]
    exact table3_row2 _ hd hm

/-- 65536 times 65536 series: none of them is seen. -/
example (O : Nat) (f : Nat × Nat × Nat → Int) : (OValuesN3.ofVec (table3 65536 65536 O f)).vsize = 0 :=
  ((wrapped 65536 65536).1 O f (by norm_num) (by norm_num) _ rfl).1

/-- Two times 65537 times 65536 series: index 65536 is read at first coordinate 1. -/
example (f : Nat × Nat × Nat × Nat → Int) : (OValuesN4.ofVec (table4 2 65537 65536 3 f)).series 65536 = .ok (table1 3 fun o => f (1, 1, 0, o)) :=
  (displaced4 2 65537 65536 3 f (by norm_num) (by norm_num) (by norm_num) (by norm_num) (by norm_num) _ rfl).2.1

/-- A concrete history on a 2 x 2 x 3 container. -/
example : ∃ c, forEach (fun w c => OValuesN3.write c w.1.1 w.1.2.1 w.1.2.2 w.2) [((1, 0, 2), 7), ((1, 0, 2), 9), ((0, 1, 1), 5)]
    (OValuesN3.ofDims (K := Int) 2 2 3) = .ok c ∧ (List.range c.vsize).map c.series =
      [.ok [0, 0, 0], .ok [0, 5, 0], .ok [0, 0, 9], .ok [0, 0, 0]] := by
  obtain ⟨c, e, -, -, -, -, -, h⟩ := orderedN3 (K := Int) 2 2 3 (by norm_num) (fun _ => 0) _ (Or.inr ⟨rfl, rfl⟩)
    [((1, 0, 2), 7), ((1, 0, 2), 9), ((0, 1, 1), 5)] (by decide)
  exact ⟨c, e, by rw [h]; decide⟩

/-- A hierarchical container with two leaves and two series; one value is overwritten. -/
example : ∃ c0 c, HValuesN2.ofVec (table2 2 2 fun x => 10 * (x.1 : Int) + x.2) [2, 2, -1] = .ok c0 ∧
    c0.write 1 0 5 = .ok c ∧ (List.range c.vsize).map (c.value 1) = [.ok 5, .ok 11] := by
  refine ⟨_, _, rfl, rfl, ?_⟩
  decide

/-! ## The hypotheses are met by concrete inputs (`Proofs/Samples.lean`) -/

example := orderedN1 3 (fun o => (o : ℚ)) _ (.inl rfl) [(1, 7), (2, 8), (1, 9)] (by decide)
example := orderedN2 2 3 (fun x => (x.1 + x.2 : ℚ)) _ (.inl ⟨by decide, rfl⟩) [((1, 2), 7), ((0, 1), 8)] (by decide)
example := orderedN4 2 2 2 3 (by decide) (fun x => (x.1 + x.2.2.2 : ℚ)) _ (.inl ⟨by decide, by decide, by decide, rfl⟩) [((1, 0, 1, 2), 7)] (by decide)
example := hierarchicalN1 4 (fun l => (l : ℚ)) ⟨1, Sample.md, table1 4 (fun l => (l : ℚ))⟩ Sample.tree
  (.inl (by unfold HValuesN1.ofVec; rw [SIZE1_table1, Sample.mk]; rfl)) [(3, 7), (0, 8), (3, 9)] (by decide)
example := hierarchicalN2 4 2 (fun x => (x.1 + x.2 : ℚ)) ⟨2, Sample.md, table2 4 2 (fun x => (x.1 + x.2 : ℚ))⟩ Sample.tree
  (.inl ⟨by decide, by unfold HValuesN2.ofVec; rw [SIZE1_table2, SIZE2_table2 (by decide), Sample.mk]; rfl⟩) [((3, 1), 7)] (by decide)
example := hierarchicalN3 4 2 2 (by decide) (fun _ => (0 : ℚ)) ⟨4, Sample.md, 2, 2, table3 4 2 2 (fun _ => (0 : ℚ))⟩ Sample.tree
  (.inr ⟨by unfold HValuesN3.ofDims; rw [Sample.mk]; rfl, rfl⟩) [((3, 1, 0), 7)] (by decide)
example := hierarchicalN4 4 2 2 2 (by decide) (fun _ => (0 : ℚ)) ⟨8, Sample.md, 2, 2, 2, table4 4 2 2 2 (fun _ => (0 : ℚ))⟩ Sample.tree
  (.inr ⟨by unfold HValuesN4.ofDims; rw [Sample.mk]; rfl, rfl⟩) [((3, 1, 0, 1), 7)] (by decide)
example := spatiotemporalN2 4 3 (fun x => (x.1 + x.2 : ℚ)) ⟨1, 3, Sample.md, table2 4 3 (fun x => (x.1 + x.2 : ℚ))⟩ Sample.tree
  (.inl ⟨by decide, by unfold DValuesN2.ofVec; rw [SIZE1_table2, SIZE2_table2 (by decide), Sample.mk]; rfl⟩) [((3, 2), 7)] (by decide)
example := spatiotemporalN3 4 2 3 (fun _ => (0 : ℚ)) ⟨2, 3, Sample.md, table3 4 2 3 (fun _ => (0 : ℚ))⟩ Sample.tree
  (.inr ⟨by unfold DValuesN3.ofDims; rw [Sample.mk]; rfl, rfl⟩) [((3, 1, 2), 7)] (by decide)
example := spatiotemporalN4 4 2 2 3 (by decide) (fun _ => (0 : ℚ)) ⟨4, 3, Sample.md, 2, 2, table4 4 2 2 3 (fun _ => (0 : ℚ))⟩ Sample.tree
  (.inr ⟨by unfold DValuesN4.ofDims; rw [Sample.mk]; rfl, rfl⟩) [((3, 1, 0, 2), 7)] (by decide)
example := (wrapped4 (K := ℚ) 65536 65536 1 (by decide)).1 3 (fun x => (x.1 + x.2.2.2 : ℚ)) (by decide) (by decide) (by decide) _ rfl

end Lp.C02
