import Verif.Proofs.HeapH
import Verif.Model.DPartition

/-!
# The spatiotemporal search with shared objects
-/

namespace Lp
variable {F K : Type}

section
variable {α : Type}

/-- The cell with storage index `k` of matrix `h`. -/
def cell (ms : List (UTM α)) (h k : Nat) : Option α := (ms[h]?).bind (fun t => t.data[k]?)

/-- All matrices have size `n`. -/
def Shp (n : Nat) (ms : List (UTM α)) : Prop := ∀ t ∈ ms, t.size = n

theorem mget_cell {n : Nat} {ms : List (UTM α)} (hs : Shp n ms) (h i j : Nat) :
    mget ms h i j = match cell ms h (UTM.index n i j) with
      | some x => .ok x
      | none => .error .outOfBounds := by
  unfold mget cell
  cases e : ms[h]? with
  | none => unfold vget; rw [e]; rfl
  | some t =>
    rw [vget_eq_ok.2 e]
    simp only [okBind, Option.bind_some]
    unfold UTM.get vget
    rw [hs t (List.mem_of_getElem? e)]
    cases t.data[UTM.index n i j]? <;> rfl

theorem mset_cell_none {n : Nat} {ms : List (UTM α)} (hs : Shp n ms) {h i j : Nat} (x : α)
    (hn : cell ms h (UTM.index n i j) = none) : mset ms h i j x = .error .outOfBounds := by
  unfold mset
  unfold cell at hn
  cases e : ms[h]? with
  | none => unfold vget; rw [e]; rfl
  | some t =>
    rw [vget_eq_ok.2 e]
    rw [e, Option.bind_some] at hn
    have : t.data.length ≤ UTM.index n i j := List.getElem?_eq_none_iff.1 hn
    simp only [okBind]
    unfold UTM.set vset
    rw [hs t (List.mem_of_getElem? e), if_neg (by omega)]
    rfl

theorem mset_cell_some {n : Nat} {ms : List (UTM α)} (hs : Shp n ms) {h i j : Nat} (x : α) {u : α}
    (hn : cell ms h (UTM.index n i j) = some u) : ∃ ms', mset ms h i j x = .ok ms' ∧ Shp n ms' ∧
      ∀ h' k', cell ms' h' k' = if h' = h ∧ k' = UTM.index n i j then some x else cell ms h' k' := by
  unfold mset
  unfold cell at hn
  cases e : ms[h]? with
  | none => rw [e] at hn; cases hn
  | some t =>
    rw [vget_eq_ok.2 e]
    rw [e, Option.bind_some] at hn
    have hk : UTM.index n i j < t.data.length := (List.getElem?_eq_some_iff.1 hn).1
    have hh : h < ms.length := (List.getElem?_eq_some_iff.1 e).1
    simp only [okBind]
    have hsz := hs t (List.mem_of_getElem? e)
    refine ⟨ms.set h ⟨n, t.data.set (UTM.index n i j) x⟩, ?_, ?_, ?_⟩
    · unfold UTM.set vset
      rw [hsz, if_pos hk]
      simp only [okBind, pureOk]
      rw [if_pos hh]
    · intro t' ht'
      rcases List.mem_or_eq_of_mem_set ht' with ht' | rfl
      · exact hs t' ht'
      · rfl
    · intro h' k'
      unfold cell
      by_cases e1 : h' = h
      · subst e1
        rw [List.getElem?_set_self hh, e]
        simp only [Option.bind_some, true_and]
        by_cases e2 : k' = UTM.index n i j
        · subst e2
          rw [List.getElem?_set_self hk, if_pos rfl]
        · rw [List.getElem?_set_ne (Ne.symm e2), if_neg e2]
      · rw [List.getElem?_set_ne (Ne.symm e1), if_neg (by tauto)]

end

section
variable [LD K]

/-- The state with shared objects against the state with copies: the accumulators of the children have their own
objects; nothing is said about the contents of `tr`. -/
structure DRel (m0 : Heap K) (n : Nat) (s : SDBest K) (t : DBest K) : Prop where
  keeps : Keeps m0 s.mem
  cuts : t.cuts = s.cuts
  str : Shp n s.tr
  ttr : Shp n t.tr
  sch : Shp n s.ch
  tch : Shp n t.ch
  dom : ∀ h k, (cell s.tr h k).isSome = (cell t.tr h k).isSome
  range : ∀ h k u, cell s.tr h k = some u → u.ptr < s.mem.length
  ch : ∀ h k, cell t.ch h k = (cell s.ch h k).map (STr.view s.mem)
  fresh : ∀ h k u, cell s.ch h k = some u → m0.length ≤ u.ptr ∧ u.ptr < s.mem.length
  dist : ∀ h k u h' k' u', cell s.ch h k = some u → cell s.ch h' k' = some u' → u.ptr = u'.ptr → h = h' ∧ k = k'

/-- The tradeoff of node `h` with storage index `k` is right, and no accumulator of another node has its object. -/
def Good (h k : Nat) (s : SDBest K) (t : DBest K) : Prop :=
  ∀ u, cell s.tr h k = some u → cell t.tr h k = some (u.view s.mem) ∧
    ∀ h' k' c, h' ≠ h → cell s.ch h' k' = some c → c.ptr ≠ u.ptr

/-- `DRel`, and the cells of node `h` in `G` are right. -/
def DG (m0 : Heap K) (n h : Nat) (G : Nat → Prop) (s : SDBest K) (t : DBest K) : Prop :=
  DRel m0 n s t ∧ ∀ k, G k → Good h k s t

/-- A change of the memory that no tradeoff sees. -/
theorem DG.mem {m0 : Heap K} {n h : Nat} {G : Nat → Prop} {s : SDBest K} {t : DBest K} (r : DG m0 n h G s t)
    {m' : Heap K} (hl : s.mem.length ≤ m'.length) (hk : Keeps m0 m')
    (ht : ∀ h k u, cell s.tr h k = some u → deref m' u.ptr = deref s.mem u.ptr)
    (hc : ∀ h k u, cell s.ch h k = some u → deref m' u.ptr = deref s.mem u.ptr) (cuts : List (UTM Int)) :
    DG m0 n h G ⟨m', cuts, s.tr, s.ch⟩ ⟨cuts, t.tr, t.ch⟩ := by
  obtain ⟨r, g⟩ := r
  refine ⟨⟨hk, rfl, r.str, r.ttr, r.sch, r.tch, r.dom, ?_, ?_, ?_, r.dist⟩, ?_⟩
  · intro h k u hu
    exact lt_of_lt_of_le (r.range h k u hu) hl
  · intro h k
    simp only
    rw [r.ch h k]
    cases e : cell s.ch h k with
    | none => rfl
    | some u => simp only [Option.map_some]; rw [view_congr (hc h k u e)]
  · intro h k u hu
    exact ⟨(r.fresh h k u hu).1, lt_of_lt_of_le (r.fresh h k u hu).2 hl⟩
  · intro k hk u hu
    obtain ⟨h1, h2⟩ := g k hk u hu
    exact ⟨by rw [view_congr (ht h k u hu)]; exact h1, h2⟩

/-- New objects. -/
theorem DG.keeps {m0 : Heap K} {n h : Nat} {G : Nat → Prop} {s : SDBest K} {t : DBest K} (r : DG m0 n h G s t)
    {m' : Heap K} (hk : Keeps s.mem m') (cuts : List (UTM Int)) :
    DG m0 n h G ⟨m', cuts, s.tr, s.ch⟩ ⟨cuts, t.tr, t.ch⟩ :=
  r.mem hk.1 (r.1.keeps.trans hk) (fun h k u hu => hk.2 _ (r.1.range h k u hu))
    (fun h k u hu => hk.2 _ (r.1.fresh h k u hu).2) cuts

/-- An assignment to a tradeoff of node `h`. -/
theorem DG.setTr {m0 : Heap K} {n h : Nat} {G : Nat → Prop} {s : SDBest K} {t : DBest K} (r : DG m0 n h G s t)
    {u : STr K} {x : Tradeoff K} (hu : u.ptr < s.mem.length) (hx : u.view s.mem = x)
    (hn : ∀ h' k' c, h' ≠ h → cell s.ch h' k' = some c → c.ptr ≠ u.ptr) (i j : Nat) (cuts : List (UTM Int)) :
    RelRes (fun tr tr' => DG m0 n h (fun k => G k ∨ k = UTM.index n i j) ⟨s.mem, cuts, tr, s.ch⟩ ⟨cuts, tr', t.ch⟩ ∧
        ∀ h k v, cell tr h k = some v → v = u ∨ cell s.tr h k = some v)
      (mset s.tr h i j u) (mset t.tr h i j x) := by
  obtain ⟨r, g⟩ := r
  have hd := r.dom h (UTM.index n i j)
  cases e : cell s.tr h (UTM.index n i j) with
  | none =>
    rw [e] at hd
    rw [mset_cell_none r.str _ e, mset_cell_none r.ttr _ (by simpa using hd.symm)]
    rfl
  | some v =>
    rw [e] at hd
    obtain ⟨w, hw⟩ := Option.isSome_iff_exists.1 (by simpa using hd.symm)
    obtain ⟨a, ea, sa, ca⟩ := mset_cell_some r.str u e
    obtain ⟨b, eb, sb, cb⟩ := mset_cell_some r.ttr x hw
    rw [ea, eb]
    refine ⟨⟨⟨r.keeps, rfl, sa, sb, r.sch, r.tch, ?_, ?_, r.ch, r.fresh, r.dist⟩, ?_⟩, ?_⟩
    · intro h' k'
      simp only [ca, cb]
      split
      · rfl
      · exact r.dom h' k'
    · intro h' k' u' hu'
      simp only [ca] at hu'
      split at hu'
      · rw [← Option.some.inj hu']; exact hu
      · exact r.range h' k' u' hu'
    · intro k hk u' hu'
      simp only [ca] at hu'
      simp only [cb]
      by_cases e2 : k = UTM.index n i j
      · rw [if_pos ⟨trivial, e2⟩] at hu' ⊢
        rw [← Option.some.inj hu']
        exact ⟨by rw [hx], hn⟩
      · rw [if_neg (by tauto)] at hu' ⊢
        exact g k (by tauto) u' hu'
    · intro h' k' v' hv'
      simp only [ca] at hv'
      split at hv'
      · exact .inl (Option.some.inj hv').symm
      · exact .inr hv'

/-- Reading a tradeoff that is right. -/
theorem DG.getTr {m0 : Heap K} {n h : Nat} {G : Nat → Prop} {s : SDBest K} {t : DBest K} (r : DG m0 n h G s t)
    {i j : Nat} (hg : G (UTM.index n i j)) :
    RelRes (fun (u : STr K) v => cell s.tr h (UTM.index n i j) = some u ∧ u.ptr < s.mem.length ∧ v = u.view s.mem)
      (mget s.tr h i j) (mget t.tr h i j) := by
  obtain ⟨r, g⟩ := r
  rw [mget_cell r.str, mget_cell r.ttr]
  have hd := r.dom h (UTM.index n i j)
  cases e : cell s.tr h (UTM.index n i j) with
  | none =>
    rw [e] at hd
    have : cell t.tr h (UTM.index n i j) = none := by simpa using hd.symm
    rw [this]; rfl
  | some u =>
    rw [(g _ hg u e).1]
    exact ⟨rfl, r.range _ _ _ e, rfl⟩

/-- Reading an accumulator. -/
theorem DG.getCh {m0 : Heap K} {n h : Nat} {G : Nat → Prop} {s : SDBest K} {t : DBest K} (r : DG m0 n h G s t)
    (h' i j : Nat) :
    RelRes (fun (u : STr K) v => cell s.ch h' (UTM.index n i j) = some u ∧ v = u.view s.mem)
      (mget s.ch h' i j) (mget t.ch h' i j) := by
  obtain ⟨r, g⟩ := r
  rw [mget_cell r.sch, mget_cell r.tch, r.ch]
  cases e : cell s.ch h' (UTM.index n i j) with
  | none => rfl
  | some u => exact ⟨rfl, rfl⟩

theorem mget_ptr_rel {m0 : Heap K} {q : List (UTM Ptr)} (hq : ∀ t ∈ q, ∀ a ∈ t.data, a < m0.length) (h i j : Nat) :
    RelRes (fun a x => x = deref m0 a ∧ a < m0.length) (mget q h i j) (mget (q.map (UTM.deref m0)) h i j) := by
  unfold mget
  apply RelRes.bind (R := fun (a : UTM Ptr) b => b = a.deref m0 ∧ ∀ x ∈ a.data, x < m0.length)
  · apply vget_rel (by simp)
    intro a x ha hx
    rw [List.getElem?_map, ha] at hx
    exact ⟨by simpa using hx.symm, hq a (List.mem_of_getElem? ha)⟩
  rintro a _ ⟨rfl, ha⟩
  exact utm_get_rel ha

theorem DG.weaken {m0 : Heap K} {n h : Nat} {G G' : Nat → Prop} {s : SDBest K} {t : DBest K} (r : DG m0 n h G s t)
    (hg : ∀ k, G' k → G k) : DG m0 n h G' s t := ⟨r.1, fun k hk => r.2 k (hg k hk)⟩
end

section
variable [LD K] [FloatP F K]

theorem sdbCut_rel {m0 : Heap K} {n : Nat} {q : List (UTM Ptr)} (hq : ∀ t ∈ q, ∀ a ∈ t.data, a < m0.length) (p : F)
    {h i j c : Nat} {G : Nat → Prop} (g1 : G (UTM.index n (c + 1) j)) (g2 : G (UTM.index n i j))
    {s : SDBest K} {t : DBest K} (r : DG m0 n h G s t) :
    RelRes (DG m0 n h G) (sdbCut q p h i j c s) (dbCut (q.map (UTM.deref m0)) p h i j c t) := by
  unfold sdbCut dbCut
  simp only [STr.new]
  apply RelRes.bind (mget_ptr_rel hq h i c)
  rintro a x ⟨rfl, ha⟩
  have k1 : Keeps s.mem (s.mem ++ [Quality.zero]) := keeps_append _ _
  have ham : a < s.mem.length := lt_of_lt_of_le ha r.1.keeps.1
  have hda : deref (s.mem ++ [Quality.zero]) a = deref m0 a := by rw [k1.2 a ham, r.1.keeps.2 a ha]
  rw [STr.set_spec (lt_of_lt_of_le ham k1.1), hda]
  simp only [okBind]
  have hv := STr.set_view (F := F) (s.mem ++ [Quality.zero]) (deref m0 a) p
  have hlen : (s.mem ++ [Quality.zero]).length = s.mem.length + 1 := by simp
  set m1 : Heap K := s.mem ++ [Quality.zero] ++ [deref m0 a] with hm1
  have k2 : Keeps s.mem m1 := k1.trans (keeps_append _ _)
  have hl1 : m1.length = s.mem.length + 2 := by simp [hm1]
  have hz : deref m1 s.mem.length = Quality.zero := by
    rw [hm1, deref_append (by simp), deref_last]
  have r1 := r.keeps k2 s.cuts
  have hset := r1.setTr (u := (⟨Tradeoff.pic p (deref m0 a).gain (deref m0 a).loss, (s.mem ++ [Quality.zero]).length⟩ : STr K))
    (x := Tradeoff.set (deref m0 a) p)
    (by simp only [hlen, hl1]; exact Nat.lt_succ_self _) hv (by
      intro h' k' c' _ hc'
      have := (r.1.fresh h' k' c' hc').2
      rw [hlen]
      exact Nat.ne_of_lt (Nat.lt_succ_of_lt this)) i c s.cuts
  apply RelRes.bind hset
  rintro tr tr' ⟨r2, hcell⟩
  have g2' : (fun k => G k ∨ k = UTM.index n i c) (UTM.index n i j) := .inl g2
  apply RelRes.bind (r2.getTr (i := i) (j := c) (.inr rfl))
  rintro u _ ⟨hu0, hu, rfl⟩
  apply RelRes.bind (r2.getTr (i := c + 1) (j := j) (.inl g1))
  rintro v _ ⟨hv0, hvr, rfl⟩
  simp only at hu hvr hu0 hv0
  -- no tradeoff has the object of `tradeoff_t`
  have htr : ∀ h k w, cell tr h k = some w → w.ptr ≠ s.mem.length := by
    intro h k w hw
    rcases hcell h k w hw with rfl | hw
    · rw [hlen]; exact Nat.succ_ne_self _
    · exact Nat.ne_of_lt (r.1.range h k w hw)
  have hch : ∀ h k w, cell s.ch h k = some w → w.ptr ≠ s.mem.length := fun h k w hw => Nat.ne_of_lt (r.1.fresh h k w hw).2
  have hin : s.mem.length < m1.length := by rw [hl1]; exact Nat.lt_succ_of_lt (Nat.lt_succ_self _)
  obtain ⟨m2, e2, l2, d2, v2⟩ := STr.addTo_spec (m := m1) (t := ⟨0, s.mem.length⟩) (u := u) hin hu
  rw [e2]
  simp only [okBind]
  obtain ⟨m3, e3, l3, d3, v3⟩ := STr.addTo_spec (m := m2) (t := ⟨0 + u.value, s.mem.length⟩) (u := v)
    (by rw [l2]; exact hin) (by rw [l2]; exact hvr)
  rw [e3]
  simp only [okBind]
  have hvz : STr.view m1 ⟨0, s.mem.length⟩ = Tradeoff.zero := by unfold STr.view; simp only [hz]; rfl
  rw [v2, hvz, view_congr (d2 _ (htr _ _ _ hv0))] at v3
  -- the writes
  have hder : ∀ b, b ≠ s.mem.length → deref m3 b = deref m1 b := fun b hb => by rw [d3 b hb, d2 b hb]
  have k3 : Keeps m0 m3 := keeps_addTo (keeps_addTo (r.1.keeps.trans k2) r.1.keeps.1 l2 d2) r.1.keeps.1 l3 d3
  have hl3 : m3.length = m1.length := by rw [l3, l2]
  have r3 := r2.mem (m' := m3) (by rw [hl3]) k3 (fun h k w hw => hder _ (htr h k w hw))
    (fun h k w hw => hder _ (hch h k w hw)) s.cuts
  simp only at r3
  have hcur : (fun k => G k ∨ k = UTM.index n i c) (UTM.index n i j) := .inl g2
  apply RelRes.bind (R := fun (w : STr K) y => w.ptr < m3.length ∧ y = w.view m3)
    ((r3.getTr hcur).mono (by rintro w y ⟨h0, h1, h2⟩; exact ⟨h1, h2⟩))
  rintro w _ ⟨hw, rfl⟩
  rw [STr.read_spec (by rw [hl3]; exact hin), STr.read_spec hw]
  simp only [okBind]
  rw [v3]
  split
  · apply RelRes.bind (R := fun a b => b = a)
    · rw [r.1.cuts]; exact (relRes_refl _).mono (fun _ _ h => h.symm)
    rintro _ cuts rfl
    apply RelRes.bind (r3.setTr (u := ⟨0 + u.value + v.value, s.mem.length⟩) (by rw [hl3]; exact hin) v3
      (by intro h' k' c' _ hc'; exact hch _ _ _ hc') i j cuts)
    rintro tr2 tr2' ⟨r4, -⟩
    exact r4.weaken (fun k hk => .inl (.inl hk))
  · rw [r.1.cuts]
    exact r3.weaken (fun k hk => .inl hk)

theorem sdbCell_rel {m0 : Heap K} {n : Nat} {q : List (UTM Ptr)} (hq : ∀ t ∈ q, ∀ a ∈ t.data, a < m0.length) (p : F)
    (md : HMeta) {k h i j : Nat} (hpa : ∀ pa, md.parentOf h = .ok pa → pa ≠ h) {G : Nat → Prop}
    (g1 : ∀ c, i ≤ c → c < j → G (UTM.index n (c + 1) j))
    {s : SDBest K} {t : DBest K} (r : DG m0 n h G s t) :
    RelRes (DG m0 n h (fun k => G k ∨ k = UTM.index n i j)) (sdbCell q p md k h i j s)
      (dbCell (q.map (UTM.deref m0)) p md k h i j t) := by
  unfold sdbCell dbCell
  apply RelRes.bind (R := fun a b => b = a)
  · rw [r.1.cuts]; exact (relRes_refl _).mono (fun _ _ h => h.symm)
  rintro _ cuts rfl
  apply RelRes.bind (mget_ptr_rel hq h i j)
  rintro a x ⟨rfl, ha⟩
  have ham : a < s.mem.length := lt_of_lt_of_le ha r.1.keeps.1
  rw [STr.set_spec ham, r.1.keeps.2 a ha]
  simp only [okBind]
  have hv := STr.set_view (F := F) s.mem (deref m0 a) p
  have k1 : Keeps s.mem (s.mem ++ [deref m0 a]) := keeps_append _ _
  apply RelRes.bind ((r.keeps k1 cuts).setTr (u := ⟨Tradeoff.pic p (deref m0 a).gain (deref m0 a).loss, s.mem.length⟩)
    (by simp) hv (fun h' k' c' _ hc' => Nat.ne_of_lt (r.1.fresh h' k' c' hc').2) i j cuts)
  rintro tr tr' ⟨r1, -⟩
  simp only at r1
  apply RelRes.bind (R := DG m0 n h (fun k => G k ∨ k = UTM.index n i j))
  · split
    · apply RelRes.bind (r1.getCh h i j)
      rintro c _ ⟨hc, rfl⟩
      apply RelRes.bind (r1.getTr (i := i) (j := j) (.inr rfl))
      rintro u _ ⟨-, hu, rfl⟩
      simp only at hc hu ⊢
      have hf := (r1.1.fresh _ _ _ hc).2
      rw [STr.read_spec hf, STr.read_spec hu]
      simp only [okBind]
      split
      · apply RelRes.bind (relRes_refl _)
        rintro cuts2 _ rfl
        apply RelRes.bind (r1.setTr (u := c) hf rfl (by
          intro h' k' c' hne hc' he
          exact hne (r1.1.dist _ _ _ _ _ _ hc' hc he).1) i j cuts2)
        rintro tr2 tr2' ⟨r4, -⟩
        exact r4.weaken (fun k hk => .inl hk)
      · exact r1
    · exact r1
  intro s1 t1 r2
  apply RelRes.bind (R := DG m0 n h (fun k => G k ∨ k = UTM.index n i j))
  · apply forUp_relC (DG m0 n h (fun k => G k ∨ k = UTM.index n i j)) r2
    intro c s t h1 h2 r
    exact sdbCut_rel hq p (.inl (g1 c h1 h2)) (.inr rfl) r
  intro s2 t2 r3
  split
  · cases ep : md.parentOf h with
    | error e => rfl
    | ok pa =>
      simp only [okBind]
      have hne := hpa pa ep
      apply RelRes.bind (r3.getCh pa i j)
      rintro c _ ⟨hc, rfl⟩
      apply RelRes.bind (r3.getTr (i := i) (j := j) (.inr rfl))
      rintro u _ ⟨-, hu, rfl⟩
      have hf := r3.1.fresh _ _ _ hc
      obtain ⟨m', e, hl, hd, hvw⟩ := STr.addTo_spec (m := s2.mem) (t := c) (u := u) hf.2 hu
      rw [e]
      simp only [okBind]
      obtain ⟨ch, e1, sh1, c1⟩ := mset_cell_some r3.1.sch (⟨c.value + u.value, c.ptr⟩ : STr K) hc
      obtain ⟨ch', e2, sh2, c2⟩ := mset_cell_some r3.1.tch ((c.view s2.mem).add (u.view s2.mem))
        (by rw [r3.1.ch, hc]; rfl)
      rw [e1, e2]
      simp only [okBind]
      obtain ⟨r3, g3⟩ := r3
      have hcp : ∀ h' k' w, cell ch h' k' = some w → ∃ w', cell s2.ch h' k' = some w' ∧ w.ptr = w'.ptr := by
        intro h' k' w hw
        rw [c1] at hw
        split at hw
        · rename_i hh; rw [← Option.some.inj hw, hh.1, hh.2]; exact ⟨c, hc, rfl⟩
        · exact ⟨w, hw, rfl⟩
      refine ⟨⟨keeps_addTo r3.keeps hf.1 hl hd, r3.cuts, r3.str, r3.ttr, sh1, sh2, r3.dom, ?_, ?_, ?_, ?_⟩, ?_⟩
      · intro h' k' w hw
        simp only [hl]; exact r3.range h' k' w hw
      · intro h' k'
        simp only [c1, c2]
        split
        · rw [← hvw]; rfl
        · rename_i hn
          rw [r3.ch]
          cases ew : cell s2.ch h' k' with
          | none => rfl
          | some w =>
            simp only [Option.map_some]
            rw [view_congr (hd _ _)]
            intro he
            exact hn (r3.dist _ _ _ _ _ _ ew hc he)
      · intro h' k' w hw
        obtain ⟨w', hw', e⟩ := hcp h' k' w hw
        simp only [hl, e]; exact r3.fresh h' k' w' hw'
      · intro h1 k1 w1 h2 k2 w2 hw1 hw2 he
        obtain ⟨x1, hx1, e1⟩ := hcp h1 k1 w1 hw1
        obtain ⟨x2, hx2, e2⟩ := hcp h2 k2 w2 hw2
        exact r3.dist _ _ _ _ _ _ hx1 hx2 (by rw [← e1, ← e2]; exact he)
      · intro k hk w hw
        obtain ⟨h1, h2⟩ := g3 k hk w hw
        refine ⟨?_, ?_⟩
        · simp only
          rw [view_congr (hd _ _)]
          · exact h1
          · intro he
            exact h2 pa _ c hne hc he.symm
        · intro h' k' x hx hx'
          obtain ⟨x', hx1, e1⟩ := hcp h' k' x hx'
          rw [e1]; exact h2 h' k' x' hx hx1
  · exact r3

theorem sdbNode_rel {m0 : Heap K} {n : Nat} {q : List (UTM Ptr)} (hq : ∀ t ∈ q, ∀ a ∈ t.data, a < m0.length) (p : F)
    (md : HMeta) {k h : Nat} (hpa : ∀ pa, md.parentOf h = .ok pa → pa ≠ h)
    {s : SDBest K} {t : DBest K} (r : DRel m0 n s t) :
    RelRes (DRel m0 n) (sdbNode q p md n k h s) (dbNode (q.map (UTM.deref m0)) p md n k h t) := by
  unfold sdbNode dbNode
  refine RelRes.mono (forDown_rel (fun i => DG m0 n h (fun k => ∃ a b, i ≤ a ∧ a ≤ b ∧ b < n ∧ k = UTM.index n a b))
    n s t ⟨r, ?_⟩ ?_) (fun _ _ h => h.1)
  · rintro k ⟨a, b, h1, h2, h3, -⟩; omega
  · intro i s t hi r
    refine RelRes.mono (forUp_rel (fun j => DG m0 n h (fun k => (∃ a b, i + 1 ≤ a ∧ a ≤ b ∧ b < n ∧ k = UTM.index n a b) ∨
      ∃ b, i ≤ b ∧ b < j ∧ k = UTM.index n i b)) (by omega) (r.weaken ?_) ?_) (fun _ _ h => h.weaken ?_)
    · rintro k (h | ⟨b, h1, h2, -⟩)
      · exact h
      · omega
    · intro j s t h1 h2 r
      refine RelRes.mono (sdbCell_rel hq p md hpa (G := _) ?_ r) (fun _ _ h => h.weaken ?_)
      · intro c hc hc'
        exact .inl ⟨c + 1, j, by omega, by omega, h2, rfl⟩
      · rintro k (h | ⟨b, h1, h2, h3⟩)
        · exact .inl (.inl h)
        · rcases Nat.lt_or_ge b j with h4 | h4
          · exact .inl (.inr ⟨b, h1, h4, h3⟩)
          · have : b = j := by omega
            subst this; exact .inr h3
    · rintro k ⟨a, b, h1, h2, h3, h4⟩
      rcases Nat.lt_or_ge i a with h5 | h5
      · exact .inl ⟨a, b, h5, h2, h3, h4⟩
      · have : a = i := by omega
        subst this; exact .inr ⟨b, h2, h3, h4⟩

theorem sdbPath_rel {m0 : Heap K} {n : Nat} {q : List (UTM Ptr)} (hq : ∀ t ∈ q, ∀ a ∈ t.data, a < m0.length) (p : F)
    (md : HMeta) (hpa : ∀ h pa, md.parentOf h = .ok pa → pa ≠ h) : ∀ (cnt k : Nat)
    {s : SDBest K} {t : DBest K}, DRel m0 n s t →
    RelRes (DRel m0 n) (sdbPath q p md n cnt k s) (dbPath (q.map (UTM.deref m0)) p md n cnt k t) := by
  intro cnt
  induction cnt with
  | zero =>
    intro k s t r
    unfold sdbPath dbPath
    apply RelRes.bind (relRes_refl _)
    rintro _ _ rfl
    exact r
  | succ cnt ih =>
    intro k s t r
    unfold sdbPath dbPath
    apply RelRes.bind (relRes_refl _)
    rintro h _ rfl
    apply RelRes.bind (sdbNode_rel hq p md (hpa h) r)
    intro s t r
    split
    · exact r
    · exact ih (k + 1) r

omit [FloatP F K] in
/-- What `newMats` makes. -/
theorem newMats_spec (osize : Nat) : ∀ (n : Nat) (m : Heap K), Keeps m (STr.newMats osize n m).1 ∧
    Shp osize (STr.newMats osize n m).2 ∧
    (∀ h k, (cell (STr.newMats osize n m).2 h k).map (STr.view (STr.newMats osize n m).1) =
      cell (List.replicate n (UTM.mk' osize (Tradeoff.zero : Tradeoff K))) h k) ∧
    (∀ h k u, cell (STr.newMats osize n m).2 h k = some u → m.length ≤ u.ptr ∧ u.ptr < (STr.newMats osize n m).1.length) ∧
    (∀ h k u h' k' u', cell (STr.newMats osize n m).2 h k = some u → cell (STr.newMats osize n m).2 h' k' = some u' →
      u.ptr = u'.ptr → h = h' ∧ k = k') := by
  intro n
  induction n with
  | zero =>
    intro m
    refine ⟨Keeps.refl m, by simp [Shp, STr.newMats], ?_, ?_, ?_⟩ <;> intros <;> simp_all [cell, STr.newMats]
  | succ n ih =>
    intro m
    obtain ⟨a1, a2, a3, a4, a5⟩ := ih (STr.news m (UTM.elements osize)).1
    have k := keeps_news m (UTM.elements osize)
    have c0 : ∀ k, cell (STr.newMats osize (n + 1) m).2 0 k = (STr.news m (UTM.elements osize)).2[k]? := fun k => rfl
    have c1 : ∀ h k, cell (STr.newMats osize (n + 1) m).2 (h + 1) k =
      cell (STr.newMats osize n (STr.news m (UTM.elements osize)).1).2 h k := fun h k => rfl
    have hm : (STr.newMats osize (n + 1) m).1 = (STr.newMats osize n (STr.news m (UTM.elements osize)).1).1 := rfl
    have h0 : ∀ k u, (STr.news m (UTM.elements osize)).2[k]? = some u → u.ptr = m.length + k ∧
        u.ptr < (STr.news m (UTM.elements osize)).1.length := by
      intro k u hu
      have h2 := (news_ptr (List.mem_of_getElem? hu)).2
      rw [news_length]
      refine ⟨?_, h2⟩
      unfold STr.news at hu
      simp only [List.getElem?_map] at hu
      have hk : k < UTM.elements osize := by
        by_contra hk
        rw [List.getElem?_eq_none (by simp; omega)] at hu
        cases hu
      rw [List.getElem?_range hk] at hu
      simp only [Option.map_some, Option.some.injEq] at hu
      rw [← hu]
    rw [hm]
    refine ⟨k.trans a1, ?_, ?_, ?_, ?_⟩
    · intro t ht
      rcases List.mem_cons.1 ht with rfl | ht
      · rfl
      · exact a2 t ht
    · intro h k
      cases h with
      | zero =>
        rw [c0]
        have e : cell (List.replicate (n + 1) (UTM.mk' osize (Tradeoff.zero : Tradeoff K))) 0 k =
          (List.replicate (UTM.elements osize) (Tradeoff.zero : Tradeoff K))[k]? := rfl
        rw [e, ← news_view m (UTM.elements osize), List.getElem?_map]
        cases eu : (STr.news m (UTM.elements osize)).2[k]? with
        | none => rfl
        | some u =>
          simp only [Option.map_some]
          rw [a1.view (h0 k u eu).2]
      | succ h =>
        rw [c1, a3]
        rfl
    · intro h k u hu
      cases h with
      | zero =>
        rw [c0] at hu
        have := h0 k u hu
        exact ⟨by rw [this.1]; exact Nat.le_add_right _ _, lt_of_lt_of_le this.2 a1.1⟩
      | succ h =>
        rw [c1] at hu
        have h4 := a4 h k u hu
        refine ⟨le_trans ?_ h4.1, h4.2⟩
        rw [news_length]; exact Nat.le_add_right _ _
    · intro h k u h' k' u' hu hu' he
      cases h with
      | zero =>
        rw [c0] at hu
        have b1 := h0 k u hu
        cases h' with
        | zero =>
          rw [c0] at hu'
          have b2 := h0 k' u' hu'
          refine ⟨rfl, ?_⟩
          rw [b1.1, b2.1] at he
          exact Nat.add_left_cancel he
        | succ h' =>
          rw [c1] at hu'
          have b2 := a4 h' k' u' hu'
          exact absurd (lt_of_lt_of_le b1.2 b2.1) (by rw [he]; exact lt_irrefl _)
      | succ h =>
        rw [c1] at hu
        cases h' with
        | zero =>
          rw [c0] at hu'
          have b1 := h0 k' u' hu'
          have b2 := a4 h k u hu
          exact absurd (lt_of_lt_of_le b1.2 b2.1) (by rw [he]; exact lt_irrefl _)
        | succ h' =>
          rw [c1] at hu'
          obtain ⟨e1, e2⟩ := a5 _ _ _ _ _ _ hu hu' he
          exact ⟨by rw [e1], e2⟩

theorem sdbLoop_rel (m : Heap K) {q : List (UTM Ptr)} (hq : ∀ t ∈ q, ∀ a ∈ t.data, a < m.length) (p : F) (md : HMeta)
    (hpa : ∀ h pa, md.parentOf h = .ok pa → pa ≠ h) :
    RelRes (fun s t => t.cuts = s.cuts ∧ Keeps m s.mem) (sdbLoop m q p md) (dbLoop (q.map (UTM.deref m)) p md) := by
  unfold sdbLoop dbLoop
  apply RelRes.bind (R := fun (a : UTM Ptr) b => b.size = a.size)
  · apply vget_rel (by simp)
    intro a x ha hx
    rw [List.getElem?_map, ha] at hx
    simp only [Option.map_some, Option.some.injEq] at hx
    rw [← hx]; rfl
  intro a b hab
  simp only [hab]
  refine RelRes.mono (sdbPath_rel (n := a.size) hq p md hpa md.hsize 0 ?_) (fun s t r => ⟨r.cuts, r.keeps⟩)
  obtain ⟨a1, a2, a3, a4, a5⟩ := newMats_spec (K := K) a.size md.hsize m
  obtain ⟨b1, b2, b3, b4, b5⟩ := newMats_spec (K := K) a.size md.hsize (STr.newMats a.size md.hsize m).1
  have hz : Shp a.size (List.replicate md.hsize (UTM.mk' a.size (Tradeoff.zero : Tradeoff K))) := by
    intro t ht
    rw [(List.mem_replicate.1 ht).2]; rfl
  refine ⟨a1.trans b1, rfl, a2, hz, b2, hz, ?_, ?_, ?_, ?_, b5⟩
  · intro h k
    simp only
    rw [← a3 h k]; simp
  · intro h k u hu
    exact lt_of_lt_of_le (a4 h k u hu).2 b1.1
  · intro h k
    exact (b3 h k).symm
  · intro h k u hu
    exact ⟨a1.1.trans (b4 h k u hu).1, (b4 h k u hu).2⟩

/-- What a list of parts with pointers says about the list of parts with copies. -/
def DPartsRel (m0 : Heap K) (q : List (UTM Ptr)) (a : List SDPart) (b : List (DPart K)) : Prop :=
  b = a.map (fun x => ⟨x.h, x.hsize, x.start, x.end, deref m0 x.quality⟩) ∧
    ∀ x ∈ a, x.quality < m0.length ∧ mget q x.h x.start x.end = .ok x.quality

omit [FloatP F K] in
theorem sdSubPart_rel {m0 : Heap K} {q : List (UTM Ptr)} (hq : ∀ t ∈ q, ∀ a ∈ t.data, a < m0.length)
    (cuts : List (UTM Int)) (md : HMeta) :
    ∀ (fuel h i j : Nat) (a : List SDPart) (b : List (DPart K)), DPartsRel m0 q a b →
      RelRes (DPartsRel m0 q) (sdSubPart cuts q md fuel h i j a)
        (dSubPart cuts (q.map (UTM.deref m0)) md fuel h i j b) := by
  intro fuel
  induction fuel with
  | zero => intro h i j a b _; rfl
  | succ fuel ih =>
    intro h i j a b hab
    unfold sdSubPart dSubPart
    apply RelRes.bind (relRes_refl _)
    rintro c _ rfl
    split
    · apply RelRes.bind (relRes_refl _)
      rintro ch _ rfl
      apply forEach_rel (DPartsRel m0 q) _ _ _ hab
      intro c a b _ hab
      exact ih c i j a b hab
    · apply RelRes.bind (relRes_refl _)
      rintro c _ rfl
      cases ex : mget q h i c with
      | error e =>
        have := mget_ptr_rel hq h i c
        rw [ex] at this
        cases h2 : mget (q.map (UTM.deref m0)) h i c with
        | error e' => rw [h2] at this; exact this
        | ok y => rw [h2] at this; exact this.elim
      | ok x =>
        have := mget_ptr_rel hq h i c
        rw [ex] at this
        obtain ⟨y, hy, rfl, hx⟩ := this.ok_left
        rw [hy]
        simp only [okBind]
        have hn : DPartsRel m0 q (a ++ [⟨h, md.sizeOf h, i, c, x⟩]) (b ++ [⟨h, md.sizeOf h, i, c, deref m0 x⟩]) := by
          refine ⟨by rw [hab.1]; simp, ?_⟩
          intro z hz
          rcases List.mem_append.1 hz with hz | hz
          · exact hab.2 z hz
          · simp only [List.mem_singleton] at hz
            subst hz; exact ⟨hx, ex⟩
        split
        · exact ih h (c + 1) j _ _ hn
        · exact hn

/-- The search with shared objects computes what the search with copies computes. -/
theorem sdBest_rel (m : Heap K) {q : List (UTM Ptr)} (hq : ∀ t ∈ q, ∀ a ∈ t.data, a < m.length) (md : HMeta)
    (hpa : ∀ h pa, md.parentOf h = .ok pa → pa ≠ h) (p : F) :
    RelRes (fun (r : Heap K × SDPartition F) (P : DPartition F K) =>
        Keeps m r.1 ∧ P = ⟨r.2.parameter, r.2.cuts,
          r.2.parts.map (fun x => ⟨x.h, x.hsize, x.start, x.end, deref r.1 x.quality⟩), deref r.1 r.2.quality⟩ ∧
        (∀ x ∈ r.2.parts, x.quality < m.length ∧ mget q x.h x.start x.end = .ok x.quality) ∧
        m.length ≤ r.2.quality ∧ r.2.quality < r.1.length)
      (sdBestPartition m q md p) (dBestPartition (q.map (UTM.deref m)) md p) := by
  unfold sdBestPartition dBestPartition
  apply RelRes.bind (sdbLoop_rel m hq p md hpa)
  rintro s t ⟨hcuts, keeps⟩
  unfold mkDPartition
  rw [hcuts]
  apply RelRes.bind (R := fun (a : UTM Ptr) b => b.size = a.size)
  · apply vget_rel (by simp)
    intro a x ha hx
    rw [List.getElem?_map, ha] at hx
    simp only [Option.map_some, Option.some.injEq] at hx
    rw [← hx]; rfl
  intro a b hab
  rw [hab]
  split
  · rfl
  apply RelRes.bind (sdSubPart_rel hq s.cuts md _ md.root 0 _ [] [] ⟨rfl, by simp⟩)
  rintro parts _ ⟨rfl, hp⟩
  obtain ⟨m', e, k, hlt, hd⟩ := sSumQuality_spec (m := s.mem) (l := parts.map SDPart.quality) (by
    intro a ha
    obtain ⟨x, hx, rfl⟩ := List.mem_map.1 ha
    exact lt_of_lt_of_le (hp x hx).1 keeps.1)
  rw [e]
  simp only [okBind]
  have k' := keeps.trans k
  refine ⟨k', ?_, hp, keeps.1, hlt⟩
  simp only
  rw [hd]
  have h1 : parts.map (fun x => (⟨x.h, x.hsize, x.start, x.end, deref m' x.quality⟩ : DPart K)) =
      parts.map (fun x => ⟨x.h, x.hsize, x.start, x.end, deref m x.quality⟩) := by
    apply List.map_congr_left; intro x hx; rw [k'.2 _ (hp x hx).1]
  rw [h1]
  congr 1
  congr 1
  simp only [List.map_map]
  apply List.map_congr_left; intro x hx
  simp only [Function.comp]
  rw [keeps.2 _ (hp x hx).1]
end
end Lp
