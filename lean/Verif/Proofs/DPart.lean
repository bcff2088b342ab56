import Verif.Proofs.Path
import Verif.Proofs.MRep
import Verif.Proofs.Dp
import Verif.Proofs.HPart
import Verif.Model.DPartition
import Verif.Spec.Cover

/-!
# The spatiotemporal partitioner as a greedy derivation
-/

namespace Lp
open Spec
variable {F K : Type} [LD K] [FloatP F K]
variable {leaves : Nat} {parents : List Int} {md : HMeta}

/-- Candidates of one cell: whole, children (inner nodes), cuts. `S` is the children sum, `next c` the stored
tradeoff of `(c,j)`. -/
def dRow (inner : Bool) (f : Nat → Nat → Quality K) (p : F) (S : Tradeoff K) (next : Nat → Tradeoff K)
    (i j hi : Nat) : Tradeoff K × Int :=
  firstBest Tradeoff.gt (Tradeoff.set (f i j) p, (j : Int))
    ((if inner then [(S, -1)] else []) ++
      (List.range' i (hi - i)).map (fun c =>
        ((Tradeoff.zero.add (Tradeoff.set (f i c) p)).add (next (c + 1)), (c : Int))))

theorem dRow_congr {inner : Bool} {f : Nat → Nat → Quality K} {p : F} {S S' : Tradeoff K}
    {next next' : Nat → Tradeoff K} {i j hi : Nat} (hS : inner = true → S = S')
    (h : ∀ c, i < c → c ≤ hi → next c = next' c) :
    dRow inner f p S next i j hi = dRow inner f p S' next' i j hi := by
  unfold dRow
  congr 1
  congr 1
  · cases inner with
    | true => simp [hS rfl]
    | false => rfl
  · apply List.map_congr_left
    intro c hc
    have := List.mem_range'_1.mp hc
    rw [h (c + 1) (by omega) (by omega)]

/-- Contents of the three working tables. -/
structure DRep (N n : Nat) (s : DBest K) (ft fs : Nat → Nat → Nat → Tradeoff K) (fc : Nat → Nat → Nat → Int) :
    Prop where
  tr : MRep s.tr N n ft
  ch : MRep s.ch N n fs
  cuts : MRep s.cuts N n fc

variable {q : List (UTM (Quality K))} {Q : Nat → Nat → Nat → Quality K} {p : F} {N n : Nat} {s : DBest K}
  {ft fs : Nat → Nat → Nat → Tradeoff K} {fc : Nat → Nat → Nat → Int}

/-- The cut loop. -/
theorem dbCuts_spec (hq : MRep q N n Q) (d : DRep N n s ft fs fc) {h i j : Nat} (hh : h < N) (hij : i ≤ j)
    (hj : j < n) {inner : Bool} {S : Tradeoff K} {ft0 : Nat → Nat → Nat → Tradeoff K} {fc0 : Nat → Nat → Nat → Int}
    (same : ∀ x a b, ¬ (x = h ∧ a = i ∧ b ≤ j) → ft x a b = ft0 x a b)
    (samec : ∀ x a b, ¬ (x = h ∧ a = i ∧ b = j) → fc x a b = fc0 x a b)
    (start : (ft h i j, fc h i j) = dRow inner (Q h) p S (fun c => ft0 h c j) i j i) :
    ∃ s' ft' fc', forUp i j (fun c s => dbCut q p h i j c s) s = .ok s' ∧ DRep N n s' ft' fs fc' ∧
      (∀ x a b, ¬ (x = h ∧ a = i ∧ b ≤ j) → ft' x a b = ft0 x a b) ∧
      (∀ x a b, ¬ (x = h ∧ a = i ∧ b = j) → fc' x a b = fc0 x a b) ∧
      (ft' h i j, fc' h i j) = dRow inner (Q h) p S (fun c => ft0 h c j) i j j := by
  obtain ⟨s', h1, ft', fc', h2⟩ := forUp_inv (f := fun c s => dbCut q p h i j c s) (lo := i) (hi := j) (s := s)
    (fun c s => ∃ ft' fc', DRep N n s ft' fs fc' ∧
      (∀ x a b, ¬ (x = h ∧ a = i ∧ b ≤ j) → ft' x a b = ft0 x a b) ∧
      (∀ x a b, ¬ (x = h ∧ a = i ∧ b = j) → fc' x a b = fc0 x a b) ∧
      (ft' h i j, fc' h i j) = dRow inner (Q h) p S (fun c => ft0 h c j) i j c) hij
    ⟨ft, fc, d, same, samec, start⟩ (by
      rintro c s hc1 hc2 ⟨ft', fc', d', e1, e2, e3⟩
      unfold dbCut
      rw [hq.get hh hc1 (by omega)]
      obtain ⟨tr, g1, g2⟩ := d'.tr.set (Tradeoff.set (Q h i c) p) hh hc1 (show c < n by omega)
      simp only [okBind, g1]
      rw [g2.get hh hc1 (by omega), g2.get hh (show c + 1 ≤ j by omega) hj, g2.get hh hij hj]
      simp only [okBind, mupd_same]
      rw [mupd_ne (show ¬ (h = h ∧ c + 1 = i ∧ j = c) by omega), mupd_ne (show ¬ (h = h ∧ i = i ∧ j = c) by omega),
        e1 h (c + 1) j (by omega)]
      have e4 : dRow inner (Q h) p S (fun c => ft0 h c j) i j (c + 1) =
          if Tradeoff.gt ((Tradeoff.zero.add (Tradeoff.set (Q h i c) p)).add (ft0 h (c + 1) j)) (ft' h i j)
          then ((Tradeoff.zero.add (Tradeoff.set (Q h i c) p)).add (ft0 h (c + 1) j), (c : Int))
          else (ft' h i j, fc' h i j) := by
        have : c + 1 - i = (c - i) + 1 := by omega
        unfold dRow at e3 ⊢
        rw [this, List.range'_concat, List.map_append, List.map_cons, List.map_nil, ← List.append_assoc,
          firstBest_append, ← e3]
        simp only [one_mul]
        have : i + (c - i) = c := by omega
        rw [this]
      have e1' : ∀ x a b, ¬ (x = h ∧ a = i ∧ b ≤ j) →
          mupd ft' h i c (Tradeoff.set (Q h i c) p) x a b = ft0 x a b := by
        intro x a b hn
        rw [mupd_ne (by intro hc; apply hn; omega)]
        exact e1 x a b hn
      by_cases hg : Tradeoff.gt ((Tradeoff.zero.add (Tradeoff.set (Q h i c) p)).add (ft0 h (c + 1) j))
          (ft' h i j) = true
      · obtain ⟨cuts, k1, k2⟩ := d'.cuts.set (c : Int) hh hij hj
        obtain ⟨tr', k3, k4⟩ := g2.set ((Tradeoff.zero.add (Tradeoff.set (Q h i c) p)).add (ft0 h (c + 1) j))
          hh hij hj
        simp only [hg, if_true, k1, k3, okBind, pureOk]
        refine ⟨_, rfl, _, _, ⟨k4, d'.ch, k2⟩, ?_, ?_, ?_⟩
        · intro x a b hn
          rw [mupd_ne (by intro hc; apply hn; omega)]
          exact e1' x a b hn
        · intro x a b hn
          rw [mupd_ne hn]; exact e2 x a b hn
        · rw [e4]; simp [hg]
      · simp only [hg, pureOk]
        refine ⟨_, rfl, _, _, ⟨g2, d'.ch, d'.cuts⟩, e1', e2, ?_⟩
        rw [e4, mupd_ne (by omega)]; simp [hg])
  exact ⟨s', ft', fc', h1, h2⟩

/-- Effect of one cell. `pa` is the parent to which the result is pushed, if any. -/
theorem dbCell_spec (hq : MRep q N n Q) (d : DRep N n s ft fs fc) {k h i j : Nat} (hh : h < N) (hij : i ≤ j)
    (hj : j < n) {pa : Option Nat} (hpa : ∀ x, pa = some x → x < N ∧ md.parentOf h = .ok x)
    (hpush : k < md.hsize - 1 ↔ pa.isSome = true) :
    ∃ s' ft' fs' fc', dbCell q p md k h i j s = .ok s' ∧ DRep N n s' ft' fs' fc' ∧
      (∀ x a b, ¬ (x = h ∧ a = i ∧ b ≤ j) → ft' x a b = ft x a b) ∧
      (∀ x a b, ¬ (x = h ∧ a = i ∧ b = j) → fc' x a b = fc x a b) ∧
      (ft' h i j, fc' h i j) = dRow (decide (md.leaveSize ≤ k)) (Q h) p (fs h i j) (fun c => ft h c j) i j j ∧
      (∀ x a b, fs' x a b = if pa = some x ∧ a = i ∧ b = j then (fs x a b).add (ft' h i j) else fs x a b) := by
  unfold dbCell
  obtain ⟨cuts, a1, a2⟩ := d.cuts.set (j : Int) hh hij hj
  rw [a1, hq.get hh hij hj]
  simp only [okBind]
  obtain ⟨tr, b1, b2⟩ := d.tr.set (Tradeoff.set (Q h i j) p) hh hij hj
  rw [b1]
  simp only [okBind]
  -- the choice between the whole and the children
  have hsel : ∃ s1 ft1 fc1, (if md.leaveSize ≤ k then do
        let c ← mget s.ch h i j
        let cur ← mget tr h i j
        if c.gt cur then do
          let cuts ← mset cuts h i j (-1 : Int)
          let tr ← mset tr h i j c
          return ⟨cuts, tr, s.ch⟩
        else return ⟨cuts, tr, s.ch⟩
      else return ⟨cuts, tr, s.ch⟩ : Res (DBest K)) = .ok s1 ∧ DRep N n s1 ft1 fs fc1 ∧
      (∀ x a b, ¬ (x = h ∧ a = i ∧ b ≤ j) → ft1 x a b = ft x a b) ∧
      (∀ x a b, ¬ (x = h ∧ a = i ∧ b = j) → fc1 x a b = fc x a b) ∧
      (ft1 h i j, fc1 h i j) = dRow (decide (md.leaveSize ≤ k)) (Q h) p (fs h i j) (fun c => ft h c j) i j i := by
    by_cases hk : md.leaveSize ≤ k
    · simp only [hk, if_true, d.ch.get hh hij hj, b2.get hh hij hj, okBind, mupd_same]
      by_cases hg : Tradeoff.gt (fs h i j) (Tradeoff.set (Q h i j) p) = true
      · obtain ⟨cuts', c1, c2⟩ := a2.set (-1 : Int) hh hij hj
        obtain ⟨tr', c3, c4⟩ := b2.set (fs h i j) hh hij hj
        simp only [hg, if_true, c1, c3, okBind, pureOk]
        refine ⟨_, _, _, rfl, ⟨c4, d.ch, c2⟩, ?_, ?_, ?_⟩
        · intro x a b hn
          rw [mupd_ne (by intro hc; apply hn; omega), mupd_ne (by intro hc; apply hn; omega)]
        · intro x a b hn
          rw [mupd_ne hn, mupd_ne hn]
        · simp [dRow, firstBest, hg]
      · simp only [hg, pureOk]
        refine ⟨_, _, _, rfl, ⟨b2, d.ch, a2⟩, ?_, ?_, ?_⟩
        · intro x a b hn
          rw [mupd_ne (by intro hc; apply hn; omega)]
        · intro x a b hn
          rw [mupd_ne hn]
        · simp [dRow, firstBest, hg]
    · simp only [hk, if_false, pureOk]
      refine ⟨_, _, _, rfl, ⟨b2, d.ch, a2⟩, ?_, ?_, ?_⟩
      · intro x a b hn
        rw [mupd_ne (by intro hc; apply hn; omega)]
      · intro x a b hn
        rw [mupd_ne hn]
      · simp [dRow, firstBest]
  obtain ⟨s1, ft1, fc1, e1, e2, e3, e4, e5⟩ := hsel
  simp only [e1, okBind]
  obtain ⟨s2, ft2, fc2, g1, g2, g3, g4, g5⟩ := dbCuts_spec (p := p) hq e2 hh hij hj e3 e4 e5
  simp only [g1, okBind]
  by_cases hk : k < md.hsize - 1
  · obtain ⟨x, hx⟩ := Option.isSome_iff_exists.mp (hpush.mp hk)
    obtain ⟨hxN, hxp⟩ := hpa x hx
    obtain ⟨ch, k1, k2⟩ := g2.ch.set ((fs x i j).add (ft2 h i j)) hxN hij hj
    simp only [hk, if_true, hxp, okBind, g2.ch.get hxN hij hj, g2.tr.get hh hij hj, k1, pureOk]
    refine ⟨_, _, _, _, rfl, ⟨g2.tr, k2, g2.cuts⟩, g3, g4, g5, ?_⟩
    intro y a b
    unfold mupd
    subst hx
    by_cases hc : y = x ∧ a = i ∧ b = j
    · obtain ⟨rfl, rfl, rfl⟩ := hc; simp
    · rw [if_neg hc, if_neg]
      rintro ⟨h1, h2⟩
      exact hc ⟨(Option.some.inj h1).symm, h2⟩
  · simp only [hk, if_false, pureOk]
    refine ⟨_, _, _, _, rfl, g2, g3, g4, g5, ?_⟩
    intro y a b
    have : pa = none := by
      cases pa with
      | none => rfl
      | some x => exact absurd (hpush.mpr rfl) hk
    simp [this]

/-- Effect of one row on the last column: only cell `(h,i,n-1)` (and the parent's sum) changes. -/
theorem dbRow_spec (hq : MRep q N n Q) (d : DRep N n s ft fs fc) {k h i : Nat} (hh : h < N) (hi : i < n)
    {pa : Option Nat} (hpa : ∀ x, pa = some x → x < N ∧ md.parentOf h = .ok x)
    (hpush : k < md.hsize - 1 ↔ pa.isSome = true) :
    ∃ s' ft' fs' fc', forUp i n (fun j s => dbCell q p md k h i j s) s = .ok s' ∧ DRep N n s' ft' fs' fc' ∧
      (∀ x a, ¬ (x = h ∧ a = i) → ft' x a (n - 1) = ft x a (n - 1)) ∧
      (∀ x a, ¬ (x = h ∧ a = i) → fc' x a (n - 1) = fc x a (n - 1)) ∧
      (ft' h i (n - 1), fc' h i (n - 1)) =
        dRow (decide (md.leaveSize ≤ k)) (Q h) p (fs h i (n - 1)) (fun c => ft h c (n - 1)) i (n - 1) (n - 1) ∧
      (∀ x a, fs' x a (n - 1) =
        if pa = some x ∧ a = i then (fs x a (n - 1)).add (ft' h i (n - 1)) else fs x a (n - 1)) := by
  obtain ⟨s1, h1, ft1, fs1, fc1, h2, h3, h4, h5⟩ := forUp_inv (f := fun j s => dbCell q p md k h i j s) (lo := i)
    (hi := n - 1) (s := s)
    (fun _ s => ∃ ft' fs' fc', DRep N n s ft' fs' fc' ∧
      (∀ x a, ft' x a (n - 1) = ft x a (n - 1)) ∧ (∀ x a, fc' x a (n - 1) = fc x a (n - 1)) ∧
      (∀ x a, fs' x a (n - 1) = fs x a (n - 1))) (by omega)
    ⟨ft, fs, fc, d, fun _ _ => rfl, fun _ _ => rfl, fun _ _ => rfl⟩ (by
      rintro j s hj1 hj2 ⟨ft1, fs1, fc1, d1, e1, e2, e3⟩
      obtain ⟨s', ft', fs', fc', g1, g2, g3, g4, g5, g6⟩ :=
        dbCell_spec (p := p) hq d1 hh hj1 (show j < n by omega) hpa hpush
      refine ⟨s', g1, ft', fs', fc', g2, ?_, ?_, ?_⟩
      · intro x a; rw [g3 x a (n - 1) (by omega), e1]
      · intro x a; rw [g4 x a (n - 1) (by omega), e2]
      · intro x a
        rw [g6, if_neg (by omega), e3])
  obtain ⟨s2, ft2, fs2, fc2, g1, g2, g3, g4, g5, g6⟩ :=
    dbCell_spec (p := p) hq h2 hh (show i ≤ n - 1 by omega) (show n - 1 < n by omega) hpa hpush
  refine ⟨s2, ft2, fs2, fc2, ?_, g2, ?_, ?_, ?_, ?_⟩
  · have hn : n = (n - 1) + 1 := by omega
    conv_lhs => rw [hn]
    have : forUp i (n - 1 + 1) (fun j s => dbCell q p md k h i j s) s =
        (forUp i (n - 1) (fun j s => dbCell q p md k h i j s) s >>= fun s => dbCell q p md k h i (n - 1) s) :=
      forUp_succ (by omega)
    rw [this, h1]
    exact g1
  · intro x a hn
    rw [g3 x a (n - 1) (by intro hc; exact hn ⟨hc.1, hc.2.1⟩), h3]
  · intro x a hn
    rw [g4 x a (n - 1) (by intro hc; exact hn ⟨hc.1, hc.2.1⟩), h4]
  · rw [g5, h5]
    apply dRow_congr (fun _ => rfl)
    intro c _ _
    exact h3 h c
  · intro x a
    rw [g6, h5]
    by_cases hc : pa = some x ∧ a = i
    · rw [if_pos ⟨hc.1, hc.2, rfl⟩, if_pos hc]
    · rw [if_neg (fun h' => hc ⟨h'.1, h'.2.1⟩), if_neg hc]

end Lp
