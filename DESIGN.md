# Formal model of lpaggreg in Lean 4 — design

Contents: 1 architecture; 2 how the C++ is represented; 3 plan and method per property; 4 trusted base;
5 what is modelled and what is not; 6 what was found out about the code; 7 tests of the theorems against wrong programs.

## 1. Architecture (`lean/Verif`)

* `Base/` – `Res α = Except Fault α`: undefined behaviour, wrap-around where it matters, missing data and
  non-termination are explicit outcomes (`outOfBounds`, `nullDeref`, `uninit`, `intOverflow`, `outOfFuel`, ...); checked vector
  accesses (`vget`, `vset`), the `for` loops of the code, and rules for reasoning about them.
* `Model/` – the code, function by function; every definition cites file and lines of `/repo` and says what it simplifies.
* `Spec/` – the small definitions needed to read the theorem statements. They do not use the model's helpers: interval tilings,
  covers of the leaves, rectangles covering the cells, trees, entropy, tables, containers, float formats, memory, R arrays.
* `Proofs/` – lemmas. `Props/Cxx.lean` – the theorems of property `Cxx`, each with a concrete, non-trivial case beside it
  (usually evaluated by the kernel on rational data).
* `tools/mkmanifest.py` regenerates `lean/Verif.lean` and `MANIFEST.json`; `tools/mklog.py` generates `seeded/LOG.jsonl`.

## 2. How the C++ is represented

*Numbers.* `lp_quality_type` (long double), `double` and integers converted to them are one type `K` with the operations the code
uses and no laws (`class LD K`); the parameter type `float` is a type `F` with its own operations (`class FloatP F K`).
Structural theorems (tilings and covers, absence of out-of-range accesses, termination, object life cycles, sharing) hold for
*every* `K` and `F`: no law is assumed, so IEEE rounding, infinities and NaN are covered. Theorems about optimality are about exact
qualities (`K` a linearly ordered field) but *any* rounding of the two weights `p` and `1-p`. Theorems about entropies are over ℝ; C57 treats
the same computations without laws and C58 with rounding (the three logarithms the code takes are separate operations of `LDLog K`, since which
overload of `log` is called depends on the headers).
Theorems about the parameter search are for every `F` satisfying `FloatLaws` (`Spec/Float.lean`): exact reals are one instance,
binary32 with *any* monotone rounding is another (`Spec/Binary.lean`, `Spec/BinaryReal.lean`; 24 bit significand, exponents not
bounded, which is harmless in [0,1] above the subnormals).

*Integers.* Indices of the triangular matrix and products of container dimensions use 32-bit wrap-around; the product `leaves*slices` of
`DQualities` is a checked signed product. Other index arithmetic cannot wrap below these limits and is in ℕ / ℤ.

*Loops and recursion.* Bounded `for` loops are folds in `Res`. `while` loops and recursions get a step budget; for each of them it is
proved that a sufficient budget exists (C04, C15, C18, C20, C26) or that none does (C26 `never`, C37 `endless`), and the
theorems are stated so that the budget is irrelevant (`budgetIrrelevant`, "for every large enough budget").

*Memory.* The main model copies values. `Model/Heap.lean` and `Model/Objects.lean` model `shared_ptr<Quality>` explicitly (a
growing list of objects, pointers are positions); C42 and C46 relate the two.

*Iterators.* The de-duplication loop of `Partitioner` decrements an iterator invalidated by `erase`. Both readings are modelled: the
lenient one (what the usual library does) is used everywhere, the strict one is the subject of C39.

## 3. Plan and method per property

| id | what is modelled | how it is proved |
|---|---|---|
| C01 | `UTM` with 32-bit arithmetic | position in an enumeration of diagonals; bijection by arithmetic; wrap-around for every size from 65536 |
| C02 | the 11 value containers | div/mod arithmetic, histories of writes as `lastWritten` |
| C03 | `Metadata`/`setPath` | loop invariant with the multiset of pending nodes ordered by distance; exact iff; counterexample tree |
| C04 | the same, arbitrary vectors | every round visits a fresh node: pigeonhole |
| C05–C07 | `computeQualities` of the 11 classes | loop invariants to closed forms, then ℝ; induction over the tree |
| C08–C10 | entropy over ℝ | super-additivity of x log x, strict concavity of log (log-sum inequality with equality cases) |
| C11–C12 | `normalize` re-reading its divisor from the table | the divisor is the last cell written; exact description also when it is not |
| C13, C44 | life cycle of the qualities objects | induction over the calls; faults as outcomes |
| C14 | qualities + partitioners | homogeneity of x log x, comparisons unchanged |
| C15–C17 | `OPartitioner`/`OPartition` | loop invariants to the equations of dynamic programming, then induction |
| C18–C19 | `HPartitioner`/`HPartition` | the same over the tree in the visiting order |
| C20–C21 | `DPartitioner`/`DPartition` | the same for (node, interval); exactly the coarse-first partitions are explored; counterexamples outside |
| C22–C25 | consequences of optimality | exchange arguments with cone combinations of weights |
| C26–C30 | `Partitioner::computeBestPartitions` | strong induction on the width of the range; invariants; state machine for histories |
| C31–C33 | `getP`, `computeAUC`, tuples | list induction |
| C34–C35 | operators | order algebra; counterexamples |
| C36–C37 | aggregation classes | sums; three-way classification of what H/D aggregates report |
| C38–C39 | equality of partitions; erase loop | decoding of cuts is injective; second, strict model |
| C40–C41 | qualities + partitioners | algebra |
| C42 | explicit memory of searches and `normalize` | simulation relation between memory and value model |
| C43 | single-node hierarchies | evaluation for all data |
| C45 | quality curve | convexity from optimality at two parameters |
| C46 | programs over `Tradeoff`/`Quality` variables | simulation, separation invariant |
| C47 | the three analyses compared | closed forms of C05–C07, optimality; one leaf: both dynamic programs follow each other (`chain_follows`) |
| C48 | restriction to a suffix / subtree | uniqueness of the solution of the dynamic program |
| C49 | the C++ functions embedded in `R/lpaggreg.R` | composition of the above, for exact and binary32 parameters |
| C50 | partitioners over rounded qualities (`RoundedLaws`) | error analysis of the decision systems: `RDp`, `Near` (`Proofs/Near`, `Proofs/NearPart`) |
| C51 | `getpath`, `hmacro` (`Model/RMacro`) | simulation of the library's path; invariant over the path: rows of a node = sum over its leaves (`Proofs/GetPath`, `Proofs/HMacro`) |
| C52 | `omacro` (`Model/RMacro`) | marking loop over a tiling, grouping (`Proofs/OMacro`) |
| C53 | `slicerstate`, `pjdump2micro` for states (`Model/RSlice`, `Model/RMicro`) | the pipeline stage by stage (join, group sums, filling, array); additivity of interval overlaps (`Proofs/Slicer`, `Proofs/Overlap`, `Proofs/Micro`) |
| C54 | hierarchy part of `pjdump2micro` (`Model/RMicro`) | loop invariant of the parent column; transport of the container tree to the vector; composition with C49, C51 (`Proofs/Hierarchy`) |
| C55 | `slicerprvcounter`, `pjdump2micro` for counters (`Model/RCounter`) | consecutive readings of a group as pieces; overlap of pieces and slices telescopes; same grid lemma as C53; composition with C49, C54 (`Proofs/Counter`) |
| C56 | `oplot_stacked_state`, `hplot_treemap_state`, `hplot_treemap_perfcounter`, `melt` of an array (`Model/RPlot`) | grouping of rows known up to order (`Proofs/Plot`); composition with C51, C52, C53 |
| C57 | the three `computeQualities` over a type `K` without laws | loop invariants with `SumOf` (each position once, order open): `Proofs/{O,H,D}Sum` |
| C58 | the same, with rounding (`LogLaws`), then `normalize` and the partitioners | error propagation (`Close`, `Proofs/QError`), composition with C57 and C50 (`Proofs/RoundedLog`) |
| C59 | `normalize`, the partitioners, the search and the R functions over an arithmetic with NaN (`NaNLaws`, `Special K`) | law-free specifications of the loops (`oBest_spec`, `hBest_spec`, `dBest_spec`), NaN never wins `>` and always loses `<` (`Proofs/NaN`); C57 for the data |
| C60 | the H/D partitioners, qualities and search for two parent vectors related by `Renumbering` | tables agree by induction on the visiting path; `Greedy.transportPerm`; two related searches run alike (`search_rel`), equality of partitions by C38 |
| C61 | the ordered partitioner and both quality computations on mirrored tables; the search for two partitioners with equal curves | `Greedy` choices agree in (value, gain, loss) by LexFirst on mirrored tilings; `search_rel`; D counterexample from C21's data and optimality |
| C62 | the three `normalize` and partitioners | weights in proportion give the same first-optimal solution (`LexFirst.reweight`, `ValFirst.reweight`) and uniqueness |
| C63 | the search with the list of its calls of `computeBestPartition` (`Model/SearchCalls.lean`) | induction on the depth: midpoints ≤ depth × changes of the partition; depth from the width of the range |
| C64 | nothing new (metadata, partitioners, qualities on arbitrary vectors) | partial correctness: what a returning run has read (`Walked`) ⇒ path is a permutation, root last; covering by induction on the recursion |
| C65 | programs over tradeoffs and qualities (`Model/Objects.lean`, with `Tradeoff.bin`, `Tradeoff.binFree`) | C46 gives value semantics; invariant `value = pIC` by induction on the program |
| C66 | two runs of `computeBestPartitions` (`Model/Partitioner.lean`) with thresholds `t' ≤ t` | the recursion tree for `t` is a subtree of that for `t'` (sublist of samples, by induction on the depth); de-duplication keeps a representative; concavity (C45) gives the area |
| C67 | nothing new; the search over an arithmetic without laws (`Spec/Reading.lean`: parameters read as rationals) | the sampling and the clean-up use only the parameter operations: transfer to the exact search that forgets the qualities |
| C68 | nothing new; `computeAUC` and `computePOpt` over rounded arithmetic (`Spec/RoundedArea.lean`) | running error bound by induction over the sum; relative bounds of each score |
| C69 | `parsepjdump` with the columns of `read.table` as numbers or factors (`Model/RParse.lean`; what lines say: `Spec/Dump.lean`) | maps over filtered rows; composition with C53–C55 |
| C70 | nothing new (`pjdump2microC`, `haggregate`, `daggregate`, `hmacro`; inputs: `Spec/CounterInput.lean`) | C55, `hierarchy_tree`, `hierarchy_balanced`, then C49, C51, C69 |
| C71 | `qualplot`, `string2colorRandom`, `color_generator`, `color_generator_Clusters`, the colours of tiles, with the hash as a parameter (`Model/RColor.lean`) | from `RightSheet` (C49): supporting lines; induction on the doubling of the name |
| C72 | the filters of the example scripts before `pjdump2micro` (`Model/RFilter.lean`); cells by name (`Spec/Cell.lean`) | from the cell formulas of C53/C55: filters commute with the sums, overlaps are additive in both intervals |
| C73 | qualities + partitioners + search, O and D; the finer data (`Spec/Stretch.lean`) | the `c` interleaved samples of a partition of the finer data are partitions of the coarse data; Jensen; simulation of the decisions (`Proofs/{Stretch,Simulate,Resolution,ResolutionD,SearchShift}`) |
| C74 | nothing new (qualities + partitioners, O, H and D) | equal cells are exchanged; the average of the pulled-back partitions is at least as good (`Proofs/Copies.lean`, Jensen), so every part has the same sums in all of them (`Proofs/Together*.lean`); H: replacing the parts below the node by the node, then C19 |
| C75 | nothing new (qualities + partitioners + search) | C09 (merging grows) and C19 (coarsest best) compared at `p` and `p'` below each part (`Proofs/Nested.lean`); a strict chain divides a strictly falling set of inner nodes; counterexample 1, 2, 5 by bounds on log₂ 3, 5, 7 (`Proofs/NotNested.lean`); after normalize() the same with merged gain and loss divided by those of the whole, and the rows of `haggregate` by `hTable` (`Proofs/RSetup.lean`) |
| C76 | nothing new (`entropyReduction`, `divergence` over `NaNLaws` and `Special ℝ`) | each value is used in each sum (C57), so NaN spreads; a NaN node compares as smaller: the decisions equal those for the real table with value -1 there (`Proofs/Missing.lean`), then C19 |
| C77 | `Model/RNumbers.lean`: the exported functions with conversions from and to `double` | C49, then each clause carried through a monotone rounding with bounded error (`Proofs/Double.lean`); binary64 over the reals, any rounding mode (`Spec/Double.lean`) |
| C78 | as C77, with rounded quality arithmetic, parameters and area (`MachineLaws`, `NearSheet` in `Spec/Machine.lean`) | the error bounds of C58 (qualities), C50 (best partitions), C67 (search), C68 (optimum, area) and of the conversions composed; relative to the whole by a condition number `κ` (`Proofs/Condition.lean`, `Proofs/MachineSheet.lean`); a PC's numbers satisfy the laws (`Spec/Pc.lean`, `Proofs/Pc.lean`) |
| C79 | nothing new (containers, `computeQualities`, the R functions on arbitrary nested vectors; block: `Spec/Ragged.lean`) | the loops read position by position: congruence of loops (same reads, same result) and failure of one step fails the loop (`Proofs/Ragged.lean`); C59 for the NaN case |
| C80 | nothing new (`MoreLevels` in `Spec/Subsystems.lean`) | C81 with one part |
| C81 | nothing new (`MadeOf`, `worth` in `Spec/Subsystems.lean`) | best partitions of the parts are put together to one partition of the system (`Proofs/Glue.lean`), which is coarse-first if they are; C16, C19, C21 for optimality; counterexample from C21 |
| C82 | nothing new (`finerTree`, `finerS` in `Spec/Space.lean`) | the averaging argument of C73 with the c copies of the hierarchy (`Proofs/ResolutionH.lean`, `ResolutionS*.lean`): a partition of the finer hierarchy restricted to the copies gives c partitions of the old one; the finer hierarchy again satisfies the conditions of C03 (`SpaceTree`, `SpaceNear`) |
| C83 | nothing new (`Beats` in the file) | C58 turned round; C16, C19, C21 for exact arithmetic |
| C84 | an arithmetic that is only reliable in a range of magnitudes (`Spec/Range`), instantiated by `Spec/Limited` | every intermediate number is a multiple of a fixed power of two and bounded, hence in range; then it is the number of C58 (`Proofs/Range*`) |
| C85 | bits of a list of amounts (`Spec/Description`) | summing the closed forms of C08/C17/C18 over the parts; optimality from C16, C19, C21 |
| C86 | nothing new (`Known`, `LittleHarm` in the file) | uniform continuity of x log2 x on [0,B] gives a modulus for every cell (`Proofs/Continuity`), then the optimality of both results |
| C87 | the machine of C78 with the bounded range of C84, and an accumulator with smallest and largest numbers (`Spec/RangeMachine`, `Spec/RangePc`) | the search keeps few enough parameters (`search_count`), so that the sums of distances and areas stay in range (`Proofs/RangeArea`); the table is then that of C78 with an absolute error per addition (`Proofs/RangeSheet`) |
| C88 | nothing new (`SameAnswer`, `Settled`, `score` in the file) | the qualities of best partitions lie in a finite set (`Proofs/Finite`), so list lengths have a maximum over the thresholds; below it C66 makes the curves equal; completeness from C26, C27 at a smaller threshold and a gap argument |
| C89 | nothing new (`ComplementErr` in the file; `UnitOps` in `Proofs/RSetup`) | consecutive samples have equal partitions or differ by at most t + u (`search_full`); the regret of the left and right sample at p are affine in p, and the smaller one is at most a quarter of the product (`min_quarter`) |
| C90 | nothing new | consecutive listed qualities belong to samples at most t + u apart (`narrow_gaps`); between them the finer curve lies below a tent (`excess`), whose area a potential function bounds (`tent`, `area_gap` in `Proofs/AreaGap`); squares of the gaps add up to at most S² |
| C91 | nothing new (`worth`, `Pays`, `RelOps` in the file) | `convex`, `slope`, `detour` from optimality at two parameters. Relative qualities: the finest partition is worth 0 and the one-part partition `p - w`; both are rivals of the returned one, which gives `Pays` (in particular loss ≤ gain) for every parameter, and for every row of the sheets through `UnitOps` |
| C92 | `Spec/Summed.lean` (`Summed`, `Proportional`, `AllProportional`) | `Proofs/Summed.lean`: log-sum inequality with its case of equality (Jensen for `x log x`), summed over the positions of a part and over the groups; `gain + loss` of a part does not depend on the grouping. Optimality (C16, C19, C21) for the best values; `hides` is a concrete pair. |
| C93 | nothing new (`Beats` of C83; `Fits`, `Datum` of C84) | near-optimality on the bounded machine (C84) contradicts `Beats`; margins on a PC from the bounds of C58. |
| C94 | `Spec/SameArray.lean`: series rewritten in another unit, order, multiplicity, with empty ones | the tables of qualities of the two runs are equal (`Proofs/RInvariant.lean`), so the searches are; renumbering and reversal from C60, C61, single space from C47. |
| C95 | `Spec/Thresholds.lean`: what two results have in common, `NothingMissing` | C66 and C88 for the searches of the three functions (`Proofs/RSetup.lean`), termination from C49. |
| C96 | `Spec/Means.lean`: `IntervalMeans`, `NodeMeans` | `Proofs/Average.lean`: the means keep the sums of whole parts, so gains and losses of coarser partitions shift by the same amounts; C74 for the means; first optimum of both. |
| C97 | `ordered`, `padded`, `hierarchical`, `spatiotemporal` over the data | `Proofs/Silent*.lean`: cutting silent cells off keeps the gain and lowers the loss; exchange of a stretch of a best tiling; order of the ties by codes of tilings. |
| C98 | `eachLeaf`, `timeAlone`, `spaceAlone`, `array` over the data; `worth` of `Spec/Subsystems.lean` | `Proofs/Jointly.lean`: partitions of the leaves into nodes with a tiling of time each are among the rivals of the spatiotemporal optimum; the qualities of the joined series are sums. |
| C99 | `ordered`, `hierarchical`, `spatiotemporal` over the data; `Spec/Uniform.lean`: `withUniform`, `coarseness` | `Proofs/Uniform.lean`: a uniform series adds `c N log₂ N` to each gain; exchange of the two optima; the whole is at least 1 above every other partition in `Σ N log₂ N`. |
| C100 | `ordered`, `hierarchical`, `spatiotemporal` over the data and over each series; `conflict` | `Proofs/Separately.lean`: tables of the whole are sums of tables (`gainOf_series`); a common optimum ties in gain and loss (`series_tie`), the first one wins on both sides; `series_part`: exchange below a common part. |
| C101 | the best partition with a counter of comparisons (`Model/BestCount.lean`): `ordered`, `hierarchical`, `spatiotemporal`, and whole searches with C63 | `Proofs/BestCount.lean`: loops with a counter return the result of the loop and the sum of the counts |
| C102 | `slicerprvcounter` with R's 0/0 (`Model/RCounterNaN.lean`): `cube`, `nothing`, `nothingIff`; `ordered`, `withHierarchy` | `microOf` is modelled for any values; both arrays are read off the same rows (`counters_filled`), then C76 |
| C103 | `anyTable`, `table`, `data`, `dataNormalized` over both partitioners | with one slice both choose among the same derivations (`toD_aux`, `toH_aux`); first optimum of one order against first optimum of the other |
| C104 | `given`, `data` over both searches | `C47.oneLeafSame` for every parameter, hence related runs (`opsRel_curve`, `search_rel`) |

Later properties (C105 …) are described in `properties.jsonl` and in the header of their file.

Beside the theorems, `example`s show that concrete inputs meet the hypotheses: either the function is evaluated by the kernel on a
literal, or the theorem is applied to the tree of seven nodes, the tables, the data with two series and the searches of
`Proofs/Samples.lean`, `Proofs/SampleBest.lean` and `Proofs/SampleRuns.lean`.

No property is "not applicable"; those whose first formulation is false of the code (C03, C12, C21, C23, C29, C35, C37, C39) were
restated to what the code does, and the failure of the first formulation is itself a theorem.

## 4. Trusted base

* Lean's kernel (4.33.0), and for the `decide +kernel` examples its reduction of closed terms.
* Axioms: at most `propext`, `Classical.choice`, `Quot.sound` (the standard ones of Mathlib); no axiom is added.
* The model is tied to the C++ text only by reading: the line citations are meant for checking that.
* For theorems over ℝ: that real arithmetic is an acceptable idealisation of `long double`; for those with `FloatLaws`: that the
  machine's `float` is binary32 with a monotone rounding.

## 5. What is modelled and what is not

Modelled: `quality`, `tradeoff`, `uppertriangularmatrix`, `complexity`, `hierarchicalmetadata`/`metadata`, all
value classes (`ovalues`, `hvalues`, `dvalues`), all qualities classes, `opartition`, `hpartition`, `dpartition` and their
parts, the three partitioners and their base class, all aggregation classes, the C++ embedded in `R/lpaggreg.R`; of
`R/lpaggreg_pjdump.R`: `parsepjdump`, `slicerstate`, `slicerprvcounter`, `pjdump2micro` (for `State` and `Counter`), `getpath`, `omacro`, `hmacro`, `string2colorRandom`, `color_generator`, and the data
frames and colours of `qualplot`, `oplot_stacked_state`, `hplot_treemap_state`, `hplot_treemap_perfcounter`.

Not modelled, or simplified:

* plain getters and the `ostream` operator; allocation failure; freeing of memory (every object is made by `new` inside a `shared_ptr`; there is no
  `delete`, destructor, `weak_ptr` or stored raw pointer, and no object reaches itself, so freeing cannot change what is observed);
* R code other than the above (drawing by `ggplot2` and `treemap`, the example scripts except their trace filters, C72, and `color_generator_Clusters`, C71); R data frames are lists of rows; the conversions of
  arguments and returned columns from and to `double` are in C77, C78 and C87 only; the conversion of a `double` to `int` outside 32 bits is undefined in C++ and unbounded here;
* products of the dimensions inside the containers wrap at 2^32 (C02 `wrapped`); single dimensions are natural numbers;
* aggregates computed in `double` are computed in `K`; the rounding of the AUC accumulator is in C68, C78 and C87 only;
* the machine numbers of C50, C58, C67, C68 and C78 have bounded relative errors and no overflow or underflow of `long double` (C84 proves that there is
  none in the computation of qualities and best partitions, for data in range, and C87 for the whole call from R); the PC of C78 has
  significands of 64, 53 and 24 bits, `float` and `double` with subnormals and unbounded exponents;
* `read.table` has cut the lines at commas; columns are numeric or factors (R before 4.0; with later versions `levels` of a text column is
  `NULL` and line 122 would fail or give `NA`); logical columns and the text `NA` are not considered;
* division by a zero whole gives NaN in C++; the theorems about normalised qualities in exact arithmetic assume a non-zero whole gain and loss,
  the other case is C59 (an arithmetic with NaN);
* explicit memory: objects are never freed, positions follow the order of allocation, the contents of new tables are stated at
  the end of `computeQualities`;
* binary `operator+ - * /` on `Tradeoff`: declared in namespace `lpaggreg`, defined outside it, hence never linkable; the text of
  the definitions is modelled (`Tradeoff.binFree`, C65);
* the compile option `PARTITION_COMPARE_QUALITY` (off; with it on `dpartition.cpp` does not compile).

## 6. What was found out about the code

* The triangular matrix wraps for sizes from 65536 (C01, C15).
* `setPath` misreads trees in which the first leaf-to-root distances are not strictly increasing towards the root (C03).
* `normalize` of hierarchical/spatiotemporal qualities leaves nodes numbered above the root unnormalised (C12).
* A hierarchy of one node makes qualities and partitioner access memory out of range (C43).
* Hierarchical/spatiotemporal aggregates are right only for parents of leaves: 0 for leaves, endless for higher nodes (C37).
* `DPartitioner` is optimal only among coarse-first partitions (C21), hence may be dominated (C23).
* `HPartitioner` compares values only (`operator<`): at p=1 it may return a dominated partition (C23).
* `operator==` of `Quality` tests the gain twice and never the loss (C35); `Tradeoff` assignment shares its quality (C46).
* `normalize()` on ordered/spatiotemporal objects built from ready-made qualities dereferences null (C44); after `normalize()` parts
  of earlier partitions change while their totals do not (C42).
* The erase loop uses an invalidated iterator (C39); `computeBestPartitions(t,p,p)` loses the partition (C29); a threshold
  below float resolution or ≤ 0 never returns (C26).
* `slicerstate` drops trailing slices, and resources, that only states without length touch at the end of the trace (C53).
* `slicerprvcounter` never uses the first reading of a counter and drops the interval of its last reading, so that trailing slices may be missing; negative means become 0; a type that counts nothing gives `NaN` (C55).
* `pjdump2micro` needs the root container first, and makes childless inner nodes of parents whose children have no data (C54).
* `parsepjdump` puts the values of counters into the column of the values of states: counters are lost if the file also has states, or if the
  names of all containers are numbers; in the latter case values of counters up to -1, or all between -1 and 1, make the whole file unreadable (C69).
* The products of sizes in the value containers wrap at 2^32: the flat enumeration of series is then too short (C02).
* A larger parameter need not give a coarser ordered or spatiotemporal partition: the intervals may cross (C75); hierarchical ones do become coarser.
* Neighbouring slices that are all zero may end up in different parts (ties prefer earlier cuts, C74): before and within the data such
  slices are parts of one slice each, while those at the end are one part (C97).
* `string2colorRandom` compares two-letter texts with the numbers 230 and 30 as texts: all colours whose three components are
  at least 0x24 are avoided, not only the nearly white ones (C71).
* The constant `ln = log(2.0)` of `complexity.h` is a `double`, and unqualified `log` of a `long double` may be the `double` version: the
  `long double` qualities are only accurate to about 2^-50 of the sizes of their terms (C58).
* After `normalize()` of data whose whole has no gain or no loss every comparison is with NaN: ordered and spatiotemporal partitioners give the
  whole, the hierarchical one all the leaves, and `getP(P_OPT)` reads an uninitialised variable, also from R (C59).
* With one slice the spatiotemporal and the hierarchical partitioner agree for p < 1 but not at p = 1: `operator<` ignores the loss on equal
  values, `operator>` does not (C103).
* One NaN or infinite value anywhere in the data has the same effect (C76); `pjdump2micro` makes such values itself for a counter that counts nothing
  (C102): one idle counter, and nothing can be said about all others.  Without `normalize()` the hierarchical partitioner is robust.
* The parameters returned to R are `float`s: a decimal parameter such as 0.1, typed in R, selects no row of the results (C77).
* The spatiotemporal partition depends on the direction of time: reversing the data may give a strictly better partition (C61); analysing
  two periods separately may also be strictly better than analysing both together (C81).
* Four-dimensional containers read values of a wrong series when the last two dimensions have 2^32 positions or more (C02 `displaced4`).
* The lengths of inner vectors are not checked: a shorter one than the first is read past its end, what is longer is ignored; an array from R with a
  zero dimension makes the functions read outside a vector or an uninitialised variable (C79).
* No check of the parent vector: childless inner nodes (which `pjdump2micro` can create, C54), forests and numbers out of range make the
  computations read past the end of `path`; cycles, leaves given as parents and trees with a late child can give a wrong result silently (C64).

## 7. Tests against wrong programs

`seeded/LOG.jsonl` lists the attempts: an edit of one model definition in a scratch copy, the claim it breaks, the theorems whose
proofs failed (and the property files that no longer build), and what was tightened. Edits that change no behaviour are
marked as equivalent.

## 8. Conformance

`tools/conformance.txt` runs the model's own definitions with `Float`/`Float32` on the data of the shipped tests
(`opartitioner_{1,2,3,4}d_advanced`): it reproduces the qualities expected there (0; 0.388/0.0345; 1.359/0.612; 1.466/0.856, times
1, 2, 4, 8) and the four significant parameters.  This is a test of the model, not a proof.  The shipped test
`hpartitioner_1d_standard` calls `getP(P_OPT)` before any search, which C31 (`before`) shows to be undefined.
