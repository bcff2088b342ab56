import Verif.Proofs.Dump
import Verif.Props.C54
import Verif.Props.C55

/-!
# C69 — from the lines of a dump to the aggregation

`parsepjdump(file)` and what `pjdump2micro` makes of it.  What a line says is in `Spec/Dump.lean`.
-/

namespace Lp.C69
open Spec
variable {N K : Type} [LinearOrder N] [Field K] [LinearOrder K]

/-- Every line of a state gives one row, in order, with the container, the times and the value that it says; every line of a
container gives one row of the resources.  Needed: times are numbers, names are kept as they are (`Kept`), and the name of some
container is not a number, or there are no counters. -/
theorem states (T : Texts N K) (lines : List (Line N)) (trace : List (TState N N K)) (cs : List (Container N))
    (hs : Say (SaysState T) .state lines trace) (hc : Say (SaysContainer T) .container lines cs) (ht : Times T lines)
    (k0 : Kept T lines .state 0) (k6 : Kept T lines .state 6) (c0 : Kept T lines .container 0) (c5 : Kept T lines .container 5)
    (hv : (∃ l ∈ lines, IsText T 5 l) ∨ ∀ l ∈ lines, l.nature ≠ .variable) :
    ∃ d, parsepjdump T lines = .ok d ∧ d.resources = cs ∧ d.states T = .ok trace := by
  obtain ⟨f, e, hf, hval⟩ := setValues_other hv
  unfold parsepjdump
  rw [e]
  simp only [okBind]
  have er : resourcesOf T f = .ok cs := by
    refine resourcesOf_spec hc c0 c5 ?_ ?_ ?_ <;> rw [hf] <;> rfl
  rw [er]
  refine ⟨_, rfl, rfl, ?_⟩
  unfold Dump.states
  dsimp only
  have ev : allOk (selectRows f.nature .state (f.value.names T)) = .ok (trace.map (fun r => r.value)) := by
    have en : f.nature = lines.map (·.nature) := by rw [hf]; rfl
    rw [en]
    have fin : ∀ g : Line N → Res N, (∀ l ∈ lines, l.nature = .state → g l = .ok (l.field T 6)) →
        allOk (selectRows (lines.map (·.nature)) .state (lines.map g)) = .ok (trace.map (fun r => r.value)) := by
      intro g hg
      rw [selectRows_map, say_map hs g (fun r => .ok r.value) (fun l r hl hm hr => by rw [hg l hl hm, ← textAt_eq, hr.value])]
      exact allOk_map (fun x _ => rfl)
    rcases hval with ⟨_, c, e1, e2⟩ | ⟨hn, c, e1, e2, _⟩
    · rw [e1]
      change allOk (selectRows _ _ (List.map _ (List.map _ lines))) = _
      rw [List.map_map]
      refine fin _ (fun l hl hm => ?_)
      simp [e2 l hl (by rw [hm]; decide)]
    · rw [e1]
      change allOk (selectRows _ _ (List.map _ (List.map _ lines))) = _
      rw [List.map_map]
      refine fin _ (fun l hl hm => ?_)
      obtain ⟨x, hx, ex⟩ := (k6.resolve_left (by push Not; exact hn)) l hl hm
      rw [textAt_eq] at ex
      simp only [Function.comp_apply, e2 l hl (by rw [hm]; decide), hx.readNum, Option.elim_some, ex]
  rw [ev]
  rw [hf]
  dsimp only [readTable]
  rw [kept_names k0 hs (fun r => r.resource) (fun l r h => h.resource),
    times_numbers ht (by simp) .state hs (fun r => r.start) (fun l r h => h.start),
    times_numbers ht (by simp) .state hs (fun r => r.end) (fun l r h => h.end),
    times_numbers ht (by simp) .state hs (fun r => r.duration) (fun l r h => h.duration)]
  simp only [okBind]
  rw [zip_map_map, zip_map_map, zip_map_map, zip_map_map, List.map_map]
  exact congrArg Except.ok (List.map_id _)

/-- Every line of a counter gives one row, in order, with the container, the type, the times and the value that it says.  Needed, beyond the
above: the name of some container is not a number, and no line of the file has a text in the field where states have their value. -/
theorem counters (T : Texts N K) (lines : List (Line N)) (trace : List (TCounter N N K)) (cs : List (Container N))
    (hs : Say (SaysCounter T) .variable lines trace) (hc : Say (SaysContainer T) .container lines cs) (ht : Times T lines)
    (k0 : Kept T lines .variable 0) (k1 : Kept T lines .variable 1) (c0 : Kept T lines .container 0)
    (c5 : ∃ l ∈ lines, IsText T 5 l) (hv : ∀ l ∈ lines, ¬ IsText T 6 l) :
    ∃ d, parsepjdump T lines = .ok d ∧ d.resources = cs ∧ d.counters T = .ok trace := by
  obtain ⟨f, e, hf, hval⟩ := setValues_other (T := T) (Or.inl c5)
  unfold parsepjdump
  rw [e]
  simp only [okBind]
  have er : resourcesOf T f = .ok cs := by
    refine resourcesOf_spec hc c0 (Or.inl c5) ?_ ?_ ?_ <;> rw [hf] <;> rfl
  rw [er]
  refine ⟨_, rfl, rfl, ?_⟩
  unfold Dump.counters
  dsimp only
  have ev : allOk (selectRows f.nature .variable f.value.numbers) = .ok (trace.map (fun r => r.value.2)) := by
    have en : f.nature = lines.map (·.nature) := by rw [hf]; rfl
    rw [en]
    rcases hval with ⟨⟨l, hl, h6⟩, _⟩ | ⟨_, c, e1, _, e2⟩
    · exact absurd h6 (hv l hl)
    · rw [e1]
      change allOk (selectRows _ _ (List.map _ (List.map _ lines))) = _
      rw [List.map_map, selectRows_map, say_map hs _ (fun r => .ok r.value.2) (fun l r hl hm hr => by
        simp [e2 l hl hm, hr.value.readNum])]
      exact allOk_map (fun x _ => rfl)
  rw [ev]
  rw [hf]
  dsimp only [readTable]
  rw [kept_names k0 hs (fun r => r.resource) (fun l r h => h.resource),
    kept_names k1 hs (fun r => r.value.1) (fun l r h => h.type),
    times_numbers ht (by simp) .variable hs (fun r => r.start) (fun l r h => h.start),
    times_numbers ht (by simp) .variable hs (fun r => r.end) (fun l r h => h.end),
    times_numbers ht (by simp) .variable hs (fun r => r.duration) (fun l r h => h.duration)]
  simp only [okBind]
  rw [zip_map_map, zip_map_map, zip_map_map, zip_map_map, zip_map_map, List.map_map]
  exact congrArg Except.ok (List.map_id _)

/-- Counters that cannot be read: if a file with counters has a text in the field where states have their value (say, a state), or
the names of all its containers are numbers, then making the counters into data fails. -/
theorem lost (T : Texts N K) (lines : List (Line N)) (l : Line N) (hl : l ∈ lines) (hm : l.nature = .variable)
    (h : (∃ l ∈ lines, IsText T 6 l) ∨ ∀ l ∈ lines, ¬ IsText T 5 l) (n : Nat) (enable : Bool) :
    ∃ e, fileCounters T lines n enable = .error e := by
  have key : ∀ d, parsepjdump T lines = .ok d →
      ∃ e, allOk (selectRows d.data.nature .variable d.data.value.numbers) = .error e := by
    intro d hd
    unfold parsepjdump at hd
    have hmem : ∀ g : Line N → Res K, (∀ y, g l ≠ .ok y) → ∃ e, allOk (selectRows (lines.map (·.nature)) .variable (lines.map g)) = .error e := by
      intro g hg
      rw [selectRows_map]
      exact allOk_error (x := g l) (List.mem_map.mpr ⟨l, by rw [List.mem_filter]; exact ⟨hl, by simpa using hm⟩, rfl⟩) hg
    -- the columns after line 122
    have hcol : ∀ f, setValues T (readTable T lines) = .ok f → f.nature = lines.map (·.nature) ∧
        ((∃ c : List (Option N), c.length = lines.length ∧ f.value = .fac c) ∨
          (∃ c : Line N → Option K, f.value = .num (lines.map c) ∧ c l = none)) := by
      intro f hf
      unfold setValues at hf
      cases hd : depthNumbers T (readTable T lines).nature (readTable T lines).depth with
      | error e => rw [hd] at hf; cases hf
      | ok v =>
        rw [hd] at hf
        simp only [okBind] at hf
        have en : (readTable T lines).nature = lines.map (·.nature) := rfl
        by_cases h6 : ∃ l ∈ lines, IsText T 6 l
        · have e : (readTable T lines).value = .fac (lines.map (fun l => some (l.field T 6))) := readCol_fac h6
          rw [e] at hf
          dsimp only at hf
          obtain rfl := Except.ok.inj hf
          refine ⟨rfl, Or.inl ⟨_, ?_, rfl⟩⟩
          have : ∀ (ms : List Nature) (xs v : List (Option N)), (replaceAt .variable ms xs v).length = xs.length := by
            intro ms
            induction ms with
            | nil => intro xs v; rfl
            | cons m ms ih =>
              intro xs v
              cases xs with
              | nil => rfl
              | cons x xs =>
                unfold replaceAt
                split
                · split <;> simp [ih]
                · simp [ih]
          rw [this]; simp
        · have h5 := h.resolve_left h6
          push Not at h6
          have e : (readTable T lines).value = .num (lines.map (fun l => readNum T (l.field T 6))) := readCol_num h6
          rw [e] at hf
          dsimp only at hf
          obtain rfl := Except.ok.inj hf
          refine ⟨rfl, Or.inr ?_⟩
          rw [depthNumbers_num h5] at hd
          unfold emptyIndex at hd
          dsimp only at hd
          have hv : v = (lines.filter (fun l => l.nature = .variable)).map (fun _ => none) := by
            split at hd
            · rename_i h0
              rw [List.map_eq_nil_iff] at h0
              rw [h0]
              exact (Except.ok.inj hd).symm
            · split at hd
              · cases hd
              · rw [List.map_map] at hd
                exact (Except.ok.inj hd).symm
          refine ⟨fun l => if l.nature = .variable then none else readNum T (l.field T 6), ?_, by simp [hm]⟩
          rw [hv, en, replaceAt_map]
    cases hs : setValues T (readTable T lines) with
    | error e => rw [hs] at hd; cases hd
    | ok f =>
      rw [hs] at hd
      simp only [okBind] at hd
      cases hr : resourcesOf T f with
      | error e => rw [hr] at hd; cases hd
      | ok r =>
        rw [hr] at hd
        obtain rfl := Except.ok.inj hd
        dsimp only
        obtain ⟨en, hc | ⟨c, hc, hn⟩⟩ := hcol f hs
        · obtain ⟨c, hlen, hc⟩ := hc
          rw [en, hc]
          have : (RCol.fac c : RCol N K).numbers = lines.map (fun _ => .error .outOfBounds) := by
            change c.map _ = _
            rw [List.map_const', List.map_const', hlen]
          rw [this]
          exact hmem _ (by intro y; simp)
        · rw [en, hc]
          change ∃ e, allOk (selectRows _ _ (List.map _ (List.map c lines))) = _
          rw [List.map_map]
          exact hmem _ (by intro y; simp [hn])
  unfold fileCounters
  cases hp : parsepjdump T lines with
  | error e => exact ⟨e, rfl⟩
  | ok d =>
    obtain ⟨e, he⟩ := key d hp
    simp only [okBind]
    have : ∃ e, d.counters T = .error e := by
      unfold Dump.counters
      rw [he]
      rcases allOk (selectRows d.data.nature .variable (d.data.resource.names T)) with e1 | x1 <;> [exact ⟨e1, rfl⟩; skip]
      rcases allOk (selectRows d.data.nature .variable (d.data.type.names T)) with e1 | x2 <;> [exact ⟨e1, rfl⟩; skip]
      rcases allOk (selectRows d.data.nature .variable d.data.start.numbers) with e1 | x3 <;> [exact ⟨e1, rfl⟩; skip]
      rcases allOk (selectRows d.data.nature .variable d.data.end.numbers) with e1 | x4 <;> [exact ⟨e1, rfl⟩; skip]
      rcases allOk (selectRows d.data.nature .variable d.data.duration.numbers) with e1 | x5 <;> [exact ⟨e1, rfl⟩; skip]
      exact ⟨e, rfl⟩
    obtain ⟨e, he⟩ := this
    rw [he]
    exact ⟨e, rfl⟩

/-- Files that cannot be read at all, states included: the names of all containers are numbers, and a counter has a value of at most -1, or
all the counters (there is one) have values between -1 and 1. -/
theorem unreadable [IsStrictOrderedRing K] (T : Texts N K) (lines : List (Line N)) (h : ∀ l ∈ lines, ¬ IsText T 5 l)
    (hv : (∃ l ∈ lines, l.nature = .variable ∧ ∃ y, IsNum T 5 l y ∧ y ≤ -1) ∨
      ((∃ l ∈ lines, l.nature = .variable) ∧
        ∀ l ∈ lines, l.nature = .variable → ∃ y, IsNum T 5 l y ∧ |y| < 1)) :
    parsepjdump T lines = .error .outOfBounds := by
  have key : emptyIndex ((lines.filter (fun l => l.nature = .variable)).map (fun l => readNum T (l.field T 5))) =
      .error .outOfBounds := by
    unfold emptyIndex
    dsimp only
    rw [if_neg, if_pos]
    · rcases hv with ⟨l, hl, hm, y, hy, h1⟩ | ⟨_, hall⟩
      · rw [Bool.or_eq_true, Bool.or_eq_true]
        refine Or.inl (Or.inl ?_)
        rw [List.any_eq_true]
        refine ⟨some y, ?_, by simpa using lt_of_le_of_lt h1 (by norm_num)⟩
        rw [List.mem_filter]
        refine ⟨List.mem_map.mpr ⟨l, by rw [List.mem_filter]; exact ⟨hl, by simpa using hm⟩, hy.readNum⟩, ?_⟩
        simpa using le_abs'.mpr (Or.inl h1)
      · rw [Bool.or_eq_true, Bool.or_eq_true]
        refine Or.inl (Or.inr ?_)
        rw [decide_eq_true_eq, List.length_eq_zero_iff, List.filter_eq_nil_iff]
        intro x hx
        obtain ⟨l, hl, rfl⟩ := List.mem_map.mp hx
        rw [List.mem_filter] at hl
        obtain ⟨y, hy, h1⟩ := hall l hl.1 (by simpa using hl.2)
        rw [hy.readNum]
        simpa using h1
    · rw [List.map_eq_nil_iff, List.filter_eq_nil_iff]
      push Not
      rcases hv with ⟨l, hl, hm, _⟩ | ⟨⟨l, hl, hm⟩, _⟩ <;> exact ⟨l, hl, by simpa using hm⟩
  unfold parsepjdump setValues
  rw [depthNumbers_num h, key]
  rfl

/-- What `pjdump2micro` makes of the states of the file is what it makes of the states and containers that the lines say: everything
C53 and C54 say about a trace holds for the file. -/
theorem fromStates (T : Texts N K) (lines : List (Line N)) (trace : List (TState N N K)) (cs : List (Container N))
    (hs : Say (SaysState T) .state lines trace) (hc : Say (SaysContainer T) .container lines cs) (ht : Times T lines)
    (k0 : Kept T lines .state 0) (k6 : Kept T lines .state 6) (c0 : Kept T lines .container 0) (c5 : Kept T lines .container 5)
    (hv : (∃ l ∈ lines, IsText T 5 l) ∨ ∀ l ∈ lines, l.nature ≠ .variable) (n : Nat) (enable : Bool) :
    fileStates T lines n enable = pjdump2micro trace cs n enable := by
  obtain ⟨d, h1, h2, h3⟩ := states T lines trace cs hs hc ht k0 k6 c0 c5 hv
  unfold fileStates
  rw [h1]
  simp only [okBind]
  rw [h3, h2]
  rfl

/-- The same for counters, and C55. -/
theorem fromCounters (T : Texts N K) (lines : List (Line N)) (trace : List (TCounter N N K)) (cs : List (Container N))
    (hs : Say (SaysCounter T) .variable lines trace) (hc : Say (SaysContainer T) .container lines cs) (ht : Times T lines)
    (k0 : Kept T lines .variable 0) (k1 : Kept T lines .variable 1) (c0 : Kept T lines .container 0)
    (c5 : ∃ l ∈ lines, IsText T 5 l) (hv : ∀ l ∈ lines, ¬ IsText T 6 l) (n : Nat) (enable : Bool) :
    fileCounters T lines n enable = pjdump2microC trace cs n enable := by
  obtain ⟨d, h1, h2, h3⟩ := counters T lines trace cs hs hc ht k0 k1 c0 c5 hv
  unfold fileCounters
  rw [h1]
  simp only [okBind]
  rw [h3, h2]
  rfl

/-- All the way from the file: `hmacro` of `haggregate` of `pjdump2micro` of `parsepjdump`.  If the lines say a right trace with right
containers, then for each parameter the nodes kept are a partition of the containers without children, with the gain and loss in
`Qualities`, optimal for the parameter, and each of its nodes is described, for each value and slice, by the sum of the shares of
time that the lines say about the containers below the node. -/
theorem described {F : Type} [FloatP F ℝ] {u : ℝ} (fl : FloatLaws F ℝ u) (randMax : ℝ) (hr : 2 ≤ randMax) (t : F)
    (ht : (0 : ℝ) < FloatP.toK t) (hu : 11 * u ≤ FloatP.toK t) :
    ∃ M : Nat, ∀ (T : Texts N ℝ) (lines : List (Line N)) (trace : List (TState N N ℝ)) (first total : ℝ) (n : Nat)
      (cs : List (Container N)) (root : N) (m : Micro N N ℝ) (share : Nat → Nat → Nat → ℝ),
      Say (SaysState T) .state lines trace → Say (SaysContainer T) .container lines cs → Times T lines →
      Kept T lines .state 0 → Kept T lines .state 6 → Kept T lines .container 0 → (∃ l ∈ lines, IsText T 5 l) →
      RightInput trace first total n cs root → SameDepth cs root → (∀ c ∈ cs, root ≤ c.parent) →
      fileStates T lines n true = .ok m →
      (∀ (i j k : Nat) (s : N) (y : N), m.space[i]? = some s → m.type[j]? = some y → k < m.time.length →
        share i j k = timeIn trace first total n s y k / total) →
      let parents := m.hierarchy.map (· - 1)
      let gain := gain3 m.type.length m.time.length (fun j k l => share l j k)
      let loss := loss3 m.type.length m.time.length (fun j k l => share l j k)
      let all := Finset.range m.space.length
      m.type.length * m.time.length < 2 ^ 32 → gain all ≠ 0 → loss all ≠ 0 →
      let quality := relative gain loss all (leavesUnder m.space.length parents)
      ∀ fuel, M ≤ fuel → ∃ r, haggregate false fuel randMax id m.data m.hierarchy t = .ok r ∧
        ∀ e ∈ r.qualities, ∃ L out, LeafCover m.space.length parents L ∧ e.gain = gainOf quality L ∧ e.loss = lossOf quality L ∧
          (∀ L', LeafCover m.space.length parents L' →
            valueOf (FloatP.toK e.parameter) (FloatP.toK (FloatP.oneSub e.parameter)) quality L' ≤
              valueOf (FloatP.toK e.parameter) (FloatP.toK (FloatP.oneSub e.parameter)) quality L) ∧
          hmacro m.names m.hierarchy
            ((rowsAt HRow.parameter e.parameter r.partitions).map (fun x => (x.node, x.size)))
            (melt m.space m.type m.time.length (fun x => share x.1 x.2.1 x.2.2)) = .ok out ∧
          (out.map (fun r => (r.space, r.type, r.time))).Nodup ∧
          ∀ (x j k : Nat) (a : N) (y : N), x ∈ L → m.names[x]? = some a → m.type[j]? = some y → k < m.time.length →
            ∃ r ∈ out, r.space = a ∧ r.type = y ∧ r.time = k + 1 ∧
              r.value = ∑ l ∈ leavesUnder m.space.length parents x, share l j k := by
  obtain ⟨M, hM⟩ := C54.described (S := N) (Y := N) fl randMax hr t ht hu
  refine ⟨M, ?_⟩
  intro T lines trace first total n cs root m share h1 h2 h3 h4 h5 h6 h7 h8 h9 h10 h11
  rw [fromStates T lines trace cs h1 h2 h3 h4 h5 h6 (.inl h7) (.inl h7)] at h11
  exact hM trace first total n cs root m share h8 h9 h10 h11

/-! ## Concrete cases

Texts are natural numbers: those below 100 are read as numbers, 100 is the empty text and the others are names. -/

def texts (K : Type) [Field K] : Texts Nat K := ⟨fun x => if x < 100 then some (x : K) else none, fun _ => 0, 100⟩

/-- Two cores 201 and 202 of a machine 200; core 201 works (301) from 0 to 1 and waits (302) from 1 to 4, core 202 works from 0 to
2. -/
def file : List (Line Nat) :=
  [⟨.container, [200, 150, 0, 4, 4, 200]⟩, ⟨.container, [200, 150, 0, 4, 4, 201]⟩, ⟨.container, [200, 150, 0, 4, 4, 202]⟩,
   ⟨.state, [201, 151, 0, 1, 1, 0, 301]⟩, ⟨.state, [201, 151, 1, 4, 3, 0, 302]⟩, ⟨.other, [200]⟩, ⟨.state, [202, 151, 0, 2, 2, 0, 301]⟩]

/-- Readings of counter 160 on cores 201 and 202. -/
def fileC : List (Line Nat) :=
  [⟨.container, [200, 150, 0, 4, 4, 200]⟩, ⟨.container, [200, 150, 0, 4, 4, 201]⟩, ⟨.container, [200, 150, 0, 4, 4, 202]⟩,
   ⟨.variable, [201, 160, 0, 2, 2, 7]⟩, ⟨.variable, [201, 160, 2, 4, 2, 9]⟩, ⟨.variable, [202, 160, 0, 3, 3, 5]⟩,
   ⟨.variable, [202, 160, 3, 4, 1, 6]⟩]

def fileTrace (K : Type) [Field K] : List (TState Nat Nat K) := [⟨201, 0, 1, 1, 301⟩, ⟨201, 1, 4, 3, 302⟩, ⟨202, 0, 2, 2, 301⟩]

def fileReadings (K : Type) [Field K] : List (TCounter Nat Nat K) :=
  [⟨201, 0, 2, 2, (160, 7)⟩, ⟨201, 2, 4, 2, (160, 9)⟩, ⟨202, 0, 3, 3, (160, 5)⟩, ⟨202, 3, 4, 1, (160, 6)⟩]

def fileContainers : List (Container Nat) := [⟨200, 200⟩, ⟨200, 201⟩, ⟨200, 202⟩]

/-- The hypotheses of `states`, `fromStates` and those of `described` about the lines. -/
example : Say (SaysState (texts ℝ)) .state file (fileTrace ℝ) ∧ Say (SaysContainer (texts ℝ)) .container file fileContainers ∧
    Times (texts ℝ) file ∧ Kept (texts ℝ) file .state 0 ∧ Kept (texts ℝ) file .state 6 ∧ Kept (texts ℝ) file .container 0 ∧
    ∃ l ∈ file, IsText (texts ℝ) 5 l := by
  refine ⟨?_, ?_, ?_, .inl ?_, .inl ?_, .inl ?_, ?_⟩
  · refine .cons ?_ (.cons ?_ (.cons ?_ .nil)) <;> constructor <;> norm_num [IsNum, textAt, texts]
  · refine .cons ?_ (.cons ?_ (.cons ?_ .nil)) <;> constructor <;> rfl
  · simp [Times, file, IsText, textAt, texts]
  all_goals simp [file, IsText, textAt, texts]

/-- The hypotheses of `counters` and `fromCounters`. -/
example : Say (SaysCounter (texts ℝ)) .variable fileC (fileReadings ℝ) ∧ Say (SaysContainer (texts ℝ)) .container fileC fileContainers ∧
    Times (texts ℝ) fileC ∧ Kept (texts ℝ) fileC .variable 0 ∧ Kept (texts ℝ) fileC .variable 1 ∧ Kept (texts ℝ) fileC .container 0 ∧
    (∃ l ∈ fileC, IsText (texts ℝ) 5 l) ∧ ∀ l ∈ fileC, ¬ IsText (texts ℝ) 6 l := by
  refine ⟨?_, ?_, ?_, .inl ?_, .inl ?_, .inl ?_, ?_, ?_⟩
  · refine .cons ?_ (.cons ?_ (.cons ?_ (.cons ?_ .nil))) <;> constructor <;> norm_num [IsNum, textAt, texts]
  · refine .cons ?_ (.cons ?_ (.cons ?_ .nil)) <;> constructor <;> rfl
  · simp [Times, fileC, IsText, textAt, texts]
  all_goals simp [fileC, IsText, textAt, texts]

/-- What comes out of the files. -/
example : ((fileStates (texts ℚ) file 2 true).map (fun m => (m.type, m.names, m.hierarchy, m.data.mem))) =
    .ok ([301, 302], [201, 202, 200], [3, 3, 0], [1 / 4, 1 / 2, 1 / 4, 0, 0, 0, 1 / 2, 0]) := by
  decide +kernel

example : ((fileCounters (texts ℚ) fileC 1 true).map (fun m => (m.type, m.names, m.hierarchy, m.data.mem))) =
    .ok ([160], [201, 202, 200], [3, 3, 0], [9 / 13, 4 / 13]) := by
  decide +kernel

/-- Both files in one: the states are read as before, the counters are lost. -/
example : (fileStates (texts ℚ) (file ++ fileC) 2 true).toOption.isSome ∧ ∀ n b, ∃ e, fileCounters (texts ℚ) (file ++ fileC) n b = .error e := by
  refine ⟨by decide +kernel, fun n b => ?_⟩
  exact lost (texts ℚ) _ ⟨.variable, [201, 160, 0, 2, 2, 7]⟩ (by decide) rfl
    (.inl ⟨⟨.state, [201, 151, 0, 1, 1, 0, 301]⟩, by decide, by simp [IsText, textAt, texts]⟩) n b

/-- Containers 1, 2 and 3 with numbers for names, one state, and counters with the given values. -/
def fileN (values : List Nat) : List (Line Nat) :=
  [⟨.container, [1, 150, 0, 4, 4, 1]⟩, ⟨.container, [1, 150, 0, 4, 4, 2]⟩, ⟨.container, [1, 150, 0, 4, 4, 3]⟩,
   ⟨.state, [2, 151, 0, 1, 1, 0, 301]⟩] ++ values.map (fun v => ⟨.variable, [2, 160, 0, 2, 2, v]⟩)

/-- With the values 0 and 0 the file cannot be read; with 5 and 6 it can, as well as with 5 and 0, but not with 5, 6 and 0. -/
example : parsepjdump (texts ℚ) (fileN [0, 0]) = .error .outOfBounds :=
  unreadable (texts ℚ) (fileN [0, 0]) (by simp [fileN, IsText, textAt, texts])
    (.inr ⟨⟨⟨.variable, [2, 160, 0, 2, 2, 0]⟩, by simp [fileN], rfl⟩, by
      simp [fileN, IsNum, textAt, texts]⟩)

example : (parsepjdump (texts ℚ) (fileN [5, 6])).toOption.isSome ∧ (parsepjdump (texts ℚ) (fileN [5, 0])).toOption.isSome ∧
    (parsepjdump (texts ℚ) (fileN [5, 6, 0])).toOption.isSome = false := by decide +kernel

/-- Texts below 100 read as the numbers from -50 to 49. -/
def textsN (K : Type) [Field K] : Texts Nat K := ⟨fun x => if x < 100 then some (x - 50 : K) else none, fun _ => 0, 100⟩

/-- A counter with the value -43. -/
example : parsepjdump (textsN ℚ) (fileN [60, 7]) = .error .outOfBounds :=
  unreadable (textsN ℚ) (fileN [60, 7]) (by simp [fileN, IsText, textAt, textsN])
    (.inl ⟨⟨.variable, [2, 160, 0, 2, 2, 7]⟩, by simp [fileN], rfl, -43, by norm_num [IsNum, textAt, textsN], by norm_num⟩)

end Lp.C69
