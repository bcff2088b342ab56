import Verif.Proofs.MRep
import Verif.Model.OQualities

/-!
# What the loops of `normalize` compute, for any arithmetic

The divisor is an element of the table that the loop overwrites: elements processed after it are divided by
`divisor / divisor`.
-/

namespace Lp
variable {K : Type} [LD K]

/-- The divisor seen by an element: `R` up to the divisor itself, `R / R` after it. -/
def nDiv (late : Prop) [Decidable late] (R : Quality K) : Quality K := if late then R.div R else R

theorem norm_flat {d : List (Quality K)} {N m : Nat} {f : Nat → Quality K} (hd : VRep d N f) (hm : m < N) :
    ∃ d', forUp 0 N (fun i d => do
        let x ← vget d i
        let mx ← vget d m
        vset d i (x.div mx)) d = .ok d' ∧ VRep d' N (fun i => (f i).div (nDiv (m < i) (f m))) := by
  obtain ⟨d', e, h⟩ := forUp_inv (lo := 0) (hi := N) (s := d) (f := fun i d => do
        let x ← vget d i
        let mx ← vget d m
        vset d i (x.div mx))
    (fun k d => VRep d N (fun i => if i < k then (f i).div (nDiv (m < i) (f m)) else f i)) (Nat.zero_le _)
    (hd.congr (fun i _ => by simp)) (by
      intro k s _ hk hs
      obtain ⟨v', e, hv⟩ := hs.set ((f k).div (if m < k then (f m).div (nDiv (m < m) (f m)) else f m)) hk
      refine ⟨v', ?_, hv.congr (fun i hi => ?_)⟩
      · rw [hs.get hk]
        simp only [okBind]
        rw [hs.get hm]
        simp only [okBind]
        rw [if_neg (lt_irrefl k)]
        exact e
      by_cases h1 : i = k
      · subst h1
        simp only [vupd_same, Nat.lt_succ_self, if_true]
        unfold nDiv
        simp
      · rw [vupd_ne h1]
        have : (i < k) ↔ (i < k + 1) := by omega
        simp only [this])
  exact ⟨d', e, h.congr (fun i hi => by simp [hi])⟩

theorem oqNormalize_spec {n : Nat} {q : UTM (Quality K)} {f : Nat → Nat → Quality K} (hq : q.Rep n f) (h0 : 0 < n) :
    ∃ q', oqNormalize n q = .ok q' ∧ q'.Rep n (fun i j => (f i j).div (f 0 (n - 1))) := by
  have hlast : UTM.index n 0 (n - 1) < UTM.elements n := UTM.index_lt hq.le (Nat.zero_le _) (by omega)
  have hcell := hq.cell 0 (n - 1) (Nat.zero_le _) (by omega)
  have hd : VRep q.data (UTM.elements n) (fun s => (q.data[s]?).getD (f 0 0)) :=
    ⟨hq.len, fun i hi => by simp [hq.len, hi]⟩
  obtain ⟨d', e, h⟩ := norm_flat hd hlast
  refine ⟨{ q with data := d' }, ?_, hq.le, hq.size, h.len, ?_⟩
  · unfold oqNormalize
    dsimp only
    rw [hq.size, vget_eq_ok.mpr hcell]
    simp only [okBind, UTM.getElements, hq.size]
    rw [e]
    rfl
  · intro i j hij hj
    have hi := UTM.index_lt hq.le hij hj
    simp only
    rw [h.cell _ hi]
    simp only [hq.cell i j hij hj, hcell, Option.getD_some, Option.some.injEq]
    unfold nDiv
    rw [UTM.index_last hq.le h0] at hlast ⊢
    rw [if_neg (by omega)]

theorem hqNormalize_spec {N : Nat} {md : HMeta} {q : List (Quality K)} {f : Nat → Quality K} (hq : VRep q N f)
    (hr : md.root < N) :
    ∃ q', hqNormalize md q = .ok q' ∧ VRep q' N (fun h => (f h).div (nDiv (md.root < h) (f md.root))) := by
  obtain ⟨d', e, h⟩ := norm_flat hq hr
  refine ⟨d', ?_, h⟩
  unfold hqNormalize
  rw [hq.get hr]
  simp only [okBind, hq.len]
  exact e

theorem MRep.fget {α : Type} {m : List (UTM α)} {N n : Nat} {f : Nat → Nat → Nat → α} (r : MRep m N n f) {h i j : Nat}
    (hh : h < N) (hij : i ≤ j) (hj : j < n) : Lp.fget m h (UTM.index n i j) = .ok (f h i j) := by
  rw [← r.get hh hij hj]
  obtain ⟨t, h1, h2⟩ := r.cell h hh
  unfold Lp.fget mget UTM.get
  rw [vget_eq_ok.mpr h1]
  simp only [okBind, h2.size]

theorem MRep.fset {α : Type} {m : List (UTM α)} {N n : Nat} {f : Nat → Nat → Nat → α} (r : MRep m N n f) {h i j : Nat} (x : α)
    (hh : h < N) (hij : i ≤ j) (hj : j < n) :
    ∃ m', Lp.fset m h (UTM.index n i j) x = .ok m' ∧ MRep m' N n (mupd f h i j x) := by
  obtain ⟨m', e, hm⟩ := r.set x hh hij hj
  refine ⟨m', ?_, hm⟩
  rw [← e]
  obtain ⟨t, h1, h2⟩ := r.cell h hh
  unfold Lp.fset mset UTM.set
  rw [vget_eq_ok.mpr h1]
  simp only [okBind, h2.size]
  cases vset t.data (UTM.index n i j) x <;> rfl

theorem dqNormalize_spec {N n : Nat} {md : HMeta} {q : List (UTM (Quality K))} {f : Nat → Nat → Nat → Quality K}
    (hq : MRep q N n f) (hr : md.root < N) (hh : md.hsize = N) (h0 : 0 < n) (hn : n ≤ 65535) :
    ∃ q', dqNormalize md n q = .ok q' ∧
      MRep q' N n (fun h i j => (f h i j).div (nDiv (md.root < h) (f md.root 0 (n - 1)))) := by
  obtain ⟨t, ht, hrep⟩ := hq.cell md.root hr
  have hlast := UTM.index_last hn h0
  obtain ⟨q', e, h⟩ := forUp_inv (lo := 0) (hi := N) (s := q) (f := fun h d => do
      let t ← vget d h
      forUp 0 t.getElements (fun i d => do
        let x ← fget d h i
        let mx ← fget d md.root (UTM.index n 0 (n - 1))
        fset d h i (x.div mx)) d)
    (fun k d => MRep d N n (fun h i j => if h < k then (f h i j).div (nDiv (md.root < h) (f md.root 0 (n - 1))) else f h i j))
    (Nat.zero_le _) (hq.congr (fun h i j _ _ _ => by simp)) (by
      intro k s _ hk hs
      obtain ⟨t, ht, hrep⟩ := hs.cell k hk
      simp only [vget_eq_ok.mpr ht, okBind, UTM.getElements, hrep.size]
      obtain ⟨s', e, h⟩ := forUp_inv (lo := 0) (hi := UTM.elements n) (s := s) (f := fun i d => do
          let x ← fget d k i
          let mx ← fget d md.root (UTM.index n 0 (n - 1))
          fset d k i (x.div mx))
        (fun c d => MRep d N n (fun h i j => if h < k ∨ (h = k ∧ UTM.index n i j < c)
          then (f h i j).div (nDiv (md.root < h) (f md.root 0 (n - 1))) else f h i j))
        (Nat.zero_le _) (hs.congr (fun h i j _ _ _ => by simp)) (by
          intro c d _ hc hd
          obtain ⟨i, j, hij, hj, rfl⟩ := UTM.index_surj hn hc
          obtain ⟨d', e, hd'⟩ := hd.fset ((if k < k ∨ k = k ∧ UTM.index n i j < UTM.index n i j then
            (f k i j).div (nDiv (md.root < k) (f md.root 0 (n - 1))) else f k i j).div
              (if md.root < k ∨ md.root = k ∧ UTM.index n 0 (n - 1) < UTM.index n i j then
                (f md.root 0 (n - 1)).div (nDiv (md.root < md.root) (f md.root 0 (n - 1)))
                else f md.root 0 (n - 1))) hk hij hj
          refine ⟨d', ?_, hd'.congr (fun h a b hh hab hb => ?_)⟩
          · rw [hd.fget hk hij hj]
            rw [okBind]
            rw [hd.fget hr (Nat.zero_le _) (show n - 1 < n by omega)]
            exact e
          by_cases h1 : h = k ∧ a = i ∧ b = j
          · obtain ⟨rfl, rfl, rfl⟩ := h1
            have : ¬ (UTM.index n 0 (n - 1) < UTM.index n a b) := by rw [hlast]; omega
            rw [mupd_same]
            unfold nDiv
            simp [this]
          · rw [mupd_ne h1]
            have : (h < k ∨ h = k ∧ UTM.index n a b < UTM.index n i j) ↔
                (h < k ∨ h = k ∧ UTM.index n a b < UTM.index n i j + 1) := by
              constructor
              · rintro (h2 | h2)
                · exact Or.inl h2
                · exact Or.inr ⟨h2.1, by omega⟩
              · rintro (h2 | h2)
                · exact Or.inl h2
                · refine Or.inr ⟨h2.1, ?_⟩
                  rcases Nat.lt_succ_iff_lt_or_eq.mp h2.2 with h3 | h3
                  · exact h3
                  · have := UTM.index_inj hn hab hb hij hj h3
                    exact absurd ⟨h2.1, this⟩ h1
            simp only [this])
      refine ⟨s', e, h.congr (fun a i j _ hij hj => ?_)⟩
      have : (a < k ∨ a = k ∧ UTM.index n i j < UTM.elements n) ↔ a < k + 1 := by
        have := UTM.index_lt hn hij hj
        omega
      simp only [this])
  refine ⟨q', ?_, h.congr (fun a i j ha _ _ => by simp [ha])⟩
  unfold dqNormalize
  simp only [vget_eq_ok.mpr ht, okBind, hrep.size, vget_eq_ok.mpr (hrep.cell 0 (n - 1) (Nat.zero_le _) (by omega)), hh]
  exact e

end Lp

namespace Lp

section
variable {K : Type} [Field K] [LinearOrder K]

theorem Quality.div_self' {q : Quality K} (hg : q.gain ≠ 0) (hl : q.loss ≠ 0) : q.div q = (⟨1, 1⟩ : Quality K) := by
  show (⟨_, _⟩ : Quality K) = ⟨1, 1⟩
  congr 1
  · exact _root_.div_self hg
  · exact _root_.div_self hl

theorem Quality.div_one' (q : Quality K) : q.div (⟨1, 1⟩ : Quality K) = q := by
  cases q with
  | mk g l =>
    show (⟨_, _⟩ : Quality K) = ⟨g, l⟩
    congr 1
    · exact _root_.div_one g
    · exact _root_.div_one l
end

section
variable {K : Type} [LD K]

theorem oNormalize_object {v : OValues K} {n : Nat} (hv : v.osize = n) (h0 : 0 < n) {q q' : UTM (Quality K)}
    (e : oqNormalize n q = .ok q') : (OQualities.mk (some v) (some q)).normalize = .ok ⟨some v, some q'⟩ := by
  unfold OQualities.normalize
  dsimp only
  rw [hv, if_neg (show ¬ n = 0 by omega), e]
  rfl

theorem hNormalize_object {v : Option (HValues K)} {md : HMeta} {q q' : List (Quality K)}
    (e : hqNormalize md q = .ok q') : (HQualities.mk v (some q) md).normalize = .ok ⟨v, some q', md⟩ := by
  unfold HQualities.normalize
  dsimp only
  rw [e]
  rfl

theorem dNormalize_object {v : DValues K} {md : HMeta} {n : Nat} (hv : v.osize = n) (h0 : 0 < n)
    {q q' : List (UTM (Quality K))} (e : dqNormalize md n q = .ok q') :
    (DQualities.mk (some v) (some q) md).normalize = .ok ⟨some v, some q', md⟩ := by
  unfold DQualities.normalize
  dsimp only
  rw [hv, if_neg (show ¬ n = 0 by omega), e]
  rfl
end

end Lp
