import Verif.Proofs.RangeArea
import Verif.Proofs.MachineSheet
import Verif.Proofs.SearchCost
import Verif.Proofs.Reading

/-!
# The result of a call from R on a machine with bounded exponents
-/

namespace Lp
open Spec

theorem search_mono {F K P T : Type} [FloatP F K] (ops : PartOps F K P T) (strict : Bool) (fuel d : Nat) (t lo hi : F) (st st' : PState F K P T)
    (h : computeBestPartitions ops strict fuel t lo hi st = .ok st') : computeBestPartitions ops strict (fuel + d) t lo hi st = .ok st' := by
  rw [← computeBestPartitionsC_fst] at h ⊢
  cases hC : computeBestPartitionsC ops strict fuel t lo hi st with
  | error e => rw [hC] at h; cases h
  | ok x =>
    have : computeBestPartitionsC ops strict (fuel + d) t lo hi st = .ok x := by
      induction d with
      | zero => exact hC
      | succ d ih => exact computeBestPartitionsC_mono _ _ _ _ _ _ _ _ ih
    rw [this]
    rw [hC] at h
    exact h

/-- Number of parameters of a search, whatever the arithmetic of the qualities: `2^H` thresholds (less the rounding) cover the range. -/
theorem search_count {F K P T : Type} [FloatP F K] {pv : F → ℚ} {r : ℚ} (fl : FloatLaws (Reading F pv) ℚ r) {ops : PartOps F K P T} {B : F → P}
    (so : SearchOps ops B) (t lo hi : F)
    (h0 : 0 ≤ pv lo) (hlt : pv lo < pv hi) (h1 : pv hi ≤ 1) (H : Nat) (hH : pv hi - pv lo ≤ 2 ^ H * (pv t - 6 * r) + 5 * r)
    (fuel : Nat) (st st' : PState F K P T) (h : computeBestPartitions ops false fuel t lo hi st = .ok st') :
    st'.pList.length ≤ 2 ^ H + 1 := by
  have so' := so.read (val := pv)
  obtain ⟨s1, e⟩ := addBest_depth fl so' H (lo : Reading F pv) hi h0 hlt.le h1 hH ⟨[lo], [lo].map (fun p => (p, B p))⟩
  have c := addBest_tree so' t H (lo : Reading F pv) hi _ _ e
  obtain ⟨S, st3, f0, f1, _, _, f4, _⟩ := search_ok_list fl so' (st := PState.empty) h0 hlt h1 e
  obtain ⟨pmin, pmax, a, d, hs, rfl⟩ := steps_of h
  have hr := ((steps_read (val := pv) ops false fuel t lo hi pmin pmax a d).mp hs).search PState.empty
  have a1 := search_mono _ _ _ (H + 1) _ _ _ _ _ hr
  have a2 := search_mono _ _ _ fuel _ _ _ _ _ f1
  rw [Nat.add_comm, a2] at a1
  have e3 : st3.pList = d.pList := congrArg PState.pList (Except.ok.inj a1)
  have k : st3.pList.length ≤ List.length S + 2 := by
    rw [f4]
    refine (keep_sublist _).length_le.trans (le_of_eq ?_)
    exact congrArg (· + 1) (List.length_append (as := S) (bs := [hi]))
  rw [f0] at c
  change List.length S + 1 + 1 ≤ 1 + 2 ^ H at c
  rw [e3] at k
  change d.pList.length ≤ 2 ^ H + 1
  exact k.trans (by omega)

/-- A finite multiple of `2^-A`. -/
def Kept {K' K : Type} (fin : K' → Prop) (num : K' → K) (val : K → ℝ) (A : Nat) (x : K') : Prop := fin x ∧ Grid A (val (num x))

section
variable {D F K' K : Type} [LDLog K'] [LDLog K] [FloatP F K'] {c : RNum D F K'} {rnd : K' → K'} {fin : K' → Prop} {num : K' → K}
  {val : K → ℝ} {vd : D → ℝ} {pv : F → ℚ} {u w a s β : ℝ} {r : ℚ} {b g E Q k G : Nat}

theorem NearUnit.held {A' : Nat} {x : K'} (h : NearUnit (Kept fin num val A') (fun x => val (num x)) x) : Held fin num val A' 2 x :=
  ⟨h.1.1, h.1.2, abs_le.mpr ⟨by have := h.2.1; linarith, h.2.2⟩⟩

/-- `machine_sheet` with bounded exponents. -/
theorem range_sheet (h : RangeMachine c rnd fin num val vd pv u w a s β r b g E Q k G) (randMax : K') (hrf : fin randMax) (hr : 16 ≤ val (num randMax))
    (t : F) {A' H : Nat} (sf : SearchFits a r H G (pv t)) (hA : 2 * A' + 4 + b + k ≤ E) (hE : 10 ≤ E) :
    ∃ N : Nat, ∀ {P T A R R' Z : Type} (ops : PartOps F K' P (F × T)), IsPartitioner ops →
      ∀ (rowFn : F × T → R) (rowR : R → R') (param gainCol lossCol : R' → D) (place : R' → Z) (placeOf : A → Z) (gk lk : F × T → K')
        (part rival : List A → Prop) (quality : A → Quality ℝ) (row : F → A → F × T) (ε : ℝ), 0 ≤ ε → ε ≤ 1 →
      (∀ p P, ∀ x ∈ ops.rows p P, x.1 = p) →
      (∀ x, param (rowR (rowFn x)) = c.ofFloat x.1 ∧ gainCol (rowR (rowFn x)) = c.narrow (gk x) ∧
        lossCol (rowR (rowFn x)) = c.narrow (lk x)) →
      (∀ p P p' P', (ops.rows p P).map (fun x => place (rowR (rowFn x))) = (ops.rows p' P').map (fun x => place (rowR (rowFn x))) →
        ops.same P P' = true) →
      (∀ p, 0 ≤ pv p → pv p ≤ 1 → ∃ P L, ops.best p = .ok P ∧ part L ∧ ops.rows p P = L.map (row p) ∧
        (∀ y ∈ L, place (rowR (rowFn (row p y))) = placeOf y ∧
          (Kept fin num val A' (gk (row p y)) ∧ |val (num (gk (row p y))) - (quality y).gain| ≤ ε) ∧ (Kept fin num val A' (lk (row p y)) ∧ |val (num (lk (row p y))) - (quality y).loss| ≤ ε) ∧
          0 ≤ (quality y).gain ∧ (quality y).gain ≤ 1 ∧ 0 ≤ (quality y).loss ∧ (quality y).loss ≤ 1) ∧
        (Kept fin num val A' (ops.quality P).gain ∧ |val (num (ops.quality P).gain) - gainOf quality L| ≤ ε) ∧
        (Kept fin num val A' (ops.quality P).loss ∧ |val (num (ops.quality P).loss) - lossOf quality L| ≤ ε) ∧
        (0 ≤ gainOf quality L ∧ gainOf quality L ≤ 1 ∧ 0 ≤ lossOf quality L ∧ lossOf quality L ≤ 1) ∧
        ∀ L', rival L' → (pv p : ℝ) * gainOf quality L' - (pv (FloatP.oneSub p) : ℝ) * lossOf quality L' ≤
          (pv p : ℝ) * gainOf quality L - (pv (FloatP.oneSub p) : ℝ) * lossOf quality L + ε) →
      ∀ fuel, N ≤ fuel → ∃ res, rSearch ops rowFn false fuel randMax rnd t = .ok res ∧
        NearSheet vd (ε + 2 * β) r (80 * u + 40 * β) (areaErrIn a s β) param gainCol lossCol place placeOf part rival quality (c.result rowR res) := by
  have bn := h.β_nonneg
  have u0 := h.arith.laws.unit_nonneg
  have z0 : pv (FloatP.zero : F) = 0 := h.float.zero
  have z1 : pv (FloatP.oneSub (FloatP.zero : F)) = 1 := h.float.oneSub_zero _ z0
  have hlt : pv (FloatP.zero : F) < pv (FloatP.oneSub (FloatP.zero : F)) := by rw [z0, z1]; norm_num
  have a0 : 0 ≤ a := le_trans u0 h.le
  have s0 := h.s_nonneg
  -- the state after a search
  have state : ∀ {P T : Type} (ops : PartOps F K' P T), IsPartitioner ops → ∀ fuel st,
      computeBestPartitions ops false fuel t FloatP.zero (FloatP.oneSub FloatP.zero) PState.empty = .ok st →
      (∀ e ∈ st.qualityList, NearUnit (Kept fin num val A') (fun x => val (num x)) e.2.gain ∧ NearUnit (Kept fin num val A') (fun x => val (num x)) e.2.loss) →
      ∃ q : F → Quality K', st.pList ≠ [] ∧ st.pList.length ≤ 2 ^ H + 1 ∧ st.qualityList = st.pList.map (fun p => (p, q p)) ∧
        (∀ p ∈ st.pList, mapDeref p st.qualityList = .ok (q p)) ∧
        ∀ p ∈ st.pList, Held fin num val A' 2 (q p).gain ∧ Held fin num val A' 2 (q p).loss := by
    intro P T ops ho fuel st hst hun
    obtain ⟨B, so⟩ := isPartitioner_ops ho
    obtain ⟨S, hc, hb, e1, hs, e2, e3, e4⟩ := search_any h.float so z0.ge hlt z1.le hst
    refine ⟨fun p => ops.quality (B p), by rw [e1]; simp [keep], ?_, e3, ?_, ?_⟩
    · exact search_count h.float so t _ _ z0.ge hlt z1.le H (by rw [z0, z1, sub_zero]; exact sf.depth) fuel _ st hst
    · intro p hp
      rw [e3]
      exact deref_any (val := pv) h.float (fun p => ops.quality (B p)) hp
    · intro p hp
      have := hun (p, ops.quality (B p)) (by rw [e3]; exact List.mem_map_of_mem (f := fun p => (p, ops.quality (B p))) hp)
      exact ⟨this.1.held, this.2.held⟩
  exact sheet_core (c := c) (rnd := rnd) (vd := vd) (u := u) (b := β) (val := fun x => val (num x)) (good := Kept fin num val A')
    (α := areaErrIn a s β) h.float u0 h.u_le bn h.β_le
    h.ofFloat h.oneSub (by
      intro x hx
      refine h.narrow x hx.held.fin (le_trans hx.held.mag ?_)
      exact le_self_pow₀ (by norm_num) (by have := h.two; omega)) randMax t sf.pos sf.res
    (by
      intro P T ops ho fuel st hst hun
      obtain ⟨q, q1, q2, q3, q4, q5⟩ := state ops ho fuel st hst hun
      have q2' : (st.pList.length : ℝ) ≤ 2 ^ H + 1 := by exact_mod_cast q2
      obtain ⟨au, a1, a2, a3, a4⟩ := h.area hA hE st q q1 q4 q5
        (le_trans (pow_le_pow_right₀ (by linarith) (by omega)) sf.grow) (le_trans (by linarith) sf.top)
      have pts : C68.points (fun x => val (num x)) st = st.pList.map (fun p => pointOf (fun x => val (num x)) (q p)) := by
        unfold C68.points; rw [q3, List.map_map]; rfl
      rw [← pts] at a4
      refine ⟨au, (1 + a) ^ (2 * st.pList.length + 4) * (1 + st.pList.length * s) - 1, a1, ?_, a4, h.narrow au a2 a3, ?_⟩
      · have h1 := one_le_pow₀ (n := 2 * st.pList.length + 4) (show 1 ≤ 1 + a by linarith)
        have h2 : (0 : ℝ) ≤ st.pList.length * s := by positivity
        nlinarith
      · unfold areaErrIn; ring)
    (by
      intro P T ops ho fuel st hst hun hm
      obtain ⟨q, q1, q2, q3, q4, q5⟩ := state ops ho fuel st hst hun
      obtain ⟨e, he, hle⟩ := hm
      rw [q3] at he
      obtain ⟨p, hp, rfl⟩ := List.mem_map.mp he
      obtain ⟨po, o1, o2, o3⟩ := h.optimum (by omega) hE st q q4 q5 randMax hrf ⟨p, hp, le_trans hle hr⟩
      refine ⟨po, q po, o2, by rw [q3]; exact List.mem_map_of_mem (f := fun p => (p, q p)) o1, ?_⟩
      intro e he
      rw [q3] at he
      obtain ⟨p, hp, rfl⟩ := List.mem_map.mp he
      exact o3 p hp)
end

end Lp
