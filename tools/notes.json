{
 "C01": {
  "status": "proved",
  "note": "layout and readsLastWrite for sizes up to 65535, byPosition for operator[] and getSize, wraps for every size from 65536"
 },
 "C03": {
  "status": "proved",
  "note": "rightIff: exact characterisation of the trees with right metadata (restated: the original claim for all trees is false, wrongRoot); balanced trees and a class of unbalanced ones are right."
 },
 "C04": {
  "status": "proved",
  "note": "all inputs; the step budget of the model is irrelevant"
 },
 "C15": {
  "status": "proved",
  "note": "arbitrary arithmetic; sizes up to 65535; wrapped shows the fault at 65536"
 },
 "C16": {
  "status": "proved",
  "note": "exact qualities, arbitrary rounding of the two weights"
 },
 "C18": {
  "status": "proved",
  "note": "arbitrary arithmetic; right metadata with at least one inner node (single-node hierarchies: C43)"
 },
 "C19": {
  "status": "proved",
  "note": "exact qualities, arbitrary rounding of the two weights; right metadata with at least one inner node"
 },
 "C20": {
  "status": "proved",
  "note": "arbitrary arithmetic; interval size 1..65535; right metadata"
 },
 "C21": {
  "status": "proved",
  "note": "`optimal` (coarse-first partitions, `Spec/CoarseFirst.lean`), `optimalProducts`, `optimalOneSlice`; the failure of optimality among all partitions is proved in `notOptimal` (given table) and `notOptimalData` (qualities computed from data)."
 },
 "C17": {
  "status": "proved",
  "note": "every partition object (any cuts), any arithmetic"
 },
 "C23": {
  "status": "proved",
  "note": "`ordered`, `hierarchical`, `hierarchicalData`, `spatiotemporal`; the restrictions are necessary: `hierarchicalAtOne`, `hierarchicalAtOneData`, `spatiotemporalDominated`."
 },
 "C24": {
  "status": "proved",
  "note": "exact qualities, any monotone rounding of 1-p exact at 0 and 1"
 },
 "C25": {
  "status": "proved",
  "note": "exact qualities, any monotone rounding of 1-p exact at 0 and 1"
 },
 "C38": {
  "status": "proved",
  "note": "any arithmetic, tables and parameters"
 },
 "C26": {
  "status": "proved",
  "note": "every partitioner; returns for every threshold >= 11 ulp-of-1 with a recursion bound depending on the threshold only (binary32 laws proved for any monotone rounding); never returns for threshold <= 0 between different partitions (exact) or for < 2^-24 on [1/2,1] (binary32)"
 },
 "C27": {
  "status": "proved",
  "note": "every partitioner, any parameter arithmetic satisfying FloatLaws (binary32 with any monotone rounding), exact qualities, lenient iterator reading (C39)"
 },
 "C28": {
  "status": "proved",
  "note": "as C27"
 },
 "C29": {
  "status": "proved",
  "note": "restated to what the code does: the maps end up empty"
 },
 "C30": {
  "status": "proved",
  "note": "all histories of public calls; the heap side is C42"
 },
 "C31": {
  "status": "proved",
  "note": "exact scores; any RAND_MAX"
 },
 "C32": {
  "status": "proved",
  "note": "accumulator not rounded (rnd = id); termination of the search: C29"
 },
 "C33": {
  "status": "proved",
  "note": "the three row formats; sums in part order"
 },
 "C34": {
  "status": "proved",
  "note": "exact order; lt/ge/==/!= look at the values only"
 },
 "C35": {
  "status": "proved",
  "note": "restated to what the code does: losses are not compared"
 },
 "C39": {
  "status": "proved",
  "note": "restated: exact characterisation of when the strict reading is defined"
 },
 "C02": {
  "status": "proved",
  "note": "all eleven container classes, built from a flat vector or from dimensions and then any history of writes; arbitrary value type"
 },
 "C05": {
  "status": "proved",
  "note": "real-number idealisation of the arithmetic; non-negative data: entropy formula; arbitrary sign: formula with the code's guarded log; sizes up to 65535"
 },
 "C06": {
  "status": "proved",
  "note": "as C05; right metadata with at least one inner node (single-node hierarchies: C43)"
 },
 "C07": {
  "status": "proved",
  "note": "as C06; interval size up to 65535 and leaves*slices < 2^31 (the code multiplies them as int)"
 },
 "C08": {
  "status": "proved",
  "note": "non-negative real data; ordered, hierarchical, spatiotemporal"
 },
 "C09": {
  "status": "proved",
  "note": "non-negative real data; every part and every subdivision of it, for the three kinds"
 },
 "C10": {
  "status": "proved",
  "note": "non-negative real data; both directions of both equivalences"
 },
 "C11": {
  "status": "proved",
  "note": "any arithmetic for the division itself; [0,1] and idempotence over the reals"
 },
 "C12": {
  "status": "proved",
  "note": "any arithmetic for the division itself; [0,1] and idempotence over the reals; the failure for nodes above the root is part of the statement"
 },
 "C13": {
  "status": "proved",
  "note": "every sequence of calls"
 },
 "C43": {
  "status": "proved",
  "note": "all data, all parameters"
 },
 "C44": {
  "status": "proved",
  "note": "all ways of building the objects"
 },
 "C14": {
  "status": "proved",
  "note": "non-negative real data; any rounding of the weights"
 },
 "C22": {
  "status": "proved",
  "note": "non-negative real data; parameter arithmetic exact at 0 and 1"
 },
 "C40": {
  "status": "proved",
  "note": "every p >= 0, any rounding of 1-p"
 },
 "C41": {
  "status": "proved",
  "note": "data of any sign; the two tables are identical"
 },
 "C36": {
  "status": "proved",
  "note": "All four ordered aggregate classes; one aggregate, all aggregates of a tiling (sums add up to the total), and end to end with computeBestPartition. Exact arithmetic."
 },
 "C37": {
  "status": "proved",
  "note": "Three-way classification for all seven classes (restated to what the code does), rightIff, rootEndless, leavesZero. Exact arithmetic, right metadata (C03)."
 },
 "C42": {
  "status": "proved",
  "note": "Explicit-memory model of the three searches and the three normalize functions (Model/Heap.lean), simulation proofs against the copy-based model; normalize after a search; new tables; stale totals in exact arithmetic; counterexample for a table that holds one object twice."
 },
 "C45": {
  "status": "proved",
  "note": "Curve shape for every partitioner and every search; concavity from optimality at the middle parameter; AUC >= 1/2 for normalized data from the chord bound. hierarchicalFlat shows that the strict form needs hi < 1 for hierarchical partitioners. Exact arithmetic on qualities, any monotone rounding of 1-p."
 },
 "C46": {
  "status": "proved",
  "note": "Programs over named variables on an explicit memory; simulation of the value semantics for every sequence whose writes are unshared, which includes every sequence without sharing calls; exact effect of a write after an assignment. The binary Tradeoff operators are declared in the namespace but defined outside it, so a caller cannot link to them; they are not modelled."
 },
 "C47": {
  "status": "proved",
  "note": "From the closed forms of C05-C07 for data of any sign (exact arithmetic) and, for one slice, from the optimality of the partitioners (see C103 for when the partitions are the same). For one leaf the spatiotemporal derivation follows the ordered one step by step (Proofs/Chain.lean): oneLeafSame, oneLeafData."
 },
 "C48": {
  "status": "proved",
  "note": "ordered/spatiotemporal/hierarchical: tables, any arithmetic (ties and rounding included); orderedData, spatiotemporalData, hierarchicalData: real data of any sign."
 },
 "C49": {
  "status": "proved",
  "note": "C++ embedded in R/lpaggreg.R modelled (Model/RBinding.lean): column-major conversion, 1-based rows, pipeline values-qualities-normalize-search. Exact real qualities; any FloatLaws parameter arithmetic, in particular IEEE binary32 with any rounding (Spec/BinaryReal.lean). Iterators read as in libstdc++ (see C26). The bound on the recursion depth depends on the threshold only. Narrowing to double/float of the returned columns and of AUC is not modelled."
 },
 "C50": {
  "status": "proved",
  "note": "Standard model of floating-point arithmetic (RoundedLaws, Spec/Rounded.lean): relative error per operation, monotone addition, no overflow/underflow. Instances: truncation to any number of significant bits; exact arithmetic with u=0."
 },
 "C51": {
  "status": "proved",
  "note": "path: getpath = library path counted from 1; rows: exact rows of hmacro; total: values add up; result: composed with haggregate (C49); wrongPath: the numbering condition is needed. R's factors and row order of aggregate/sqldf are abstracted; numbers exact."
 },
 "C52": {
  "status": "proved",
  "note": "rows: exact rows of omacro; total: weighted means add up; result: composed with oaggregate (C49). Row order of aggregate abstracted; numbers exact."
 },
 "C53": {
  "status": "proved",
  "note": "Model of slicerstate and of pjdump2micro without hierarchy over any ordered field. Finding shown by a concrete case: when only a state without length ends with the trace, the trailing slices and the resource of that state are missing from the result."
 },
 "C54": {
  "status": "proved",
  "note": "Model of the hierarchy part of pjdump2micro, composed with C49 and C51. Findings shown by concrete cases: a parent whose children have no data becomes a childless inner node; if the root is not the first container listed, another container is taken for the root."
 },
 "C55": {
  "status": "proved",
  "note": "Model of slicerprvcounter and of pjdump2micro for counters over exact ordered-field arithmetic. Not considered: NaN and Inf from a type that counts nothing or from an interval without length (the theorems assume a length; for a type that counts nothing the normalization theorem has a hypothesis). Findings: the first reading of a counter is never used and the interval of its last reading is dropped, so that trailing slices may be missing; negative means are replaced by 0."
 },
 "C56": {
  "status": "proved",
  "note": "Model of the data frames given to ggplot and treemap (Model/RPlot); the drawing packages, colours and titles are not modelled. `states` composes the plot with pjdump2micro and melt of its array."
 },
 "C57": {
  "status": "proved",
  "note": "ordered, hierarchical and spatiotemporal data, no law of arithmetic assumed; SumOf leaves the order of the additions open (orderMatters shows that the order can matter, exactSum that in exact arithmetic it does not)."
 },
 "C58": {
  "status": "proved",
  "note": "Laws: the standard model of rounding without overflow and underflow (LogLaws), met by RoundedLog R D (in particular 64-bit significands with logarithms in 53 bits: x87) and by exact arithmetic. Competitors for hierarchy x time are coarse-first (C21). Normalised hierarchical tables: root with the highest number (C12)."
 },
 "C59": {
  "status": "proved",
  "note": "NaN is any predicate with the IEEE laws (Spec/Special.lean: NaNLaws); the reals extended by infinities and NaN are an instance. orderedTable/hierarchicalTable/spatiotemporalTable are about tables, ordered/hierarchical/spatiotemporal about data, singleSlice and *Zero say when the whole is zero in any arithmetic, *Exact give the whole in exact arithmetic, zeroArray/singleSliceArray/exactArray/equalArray are about the R functions. Whether rounding makes the loss of homogeneous data exactly zero on a given machine is not claimed."
 },
 "C60": {
  "status": "proved",
  "note": "Exact sums (any arithmetic with order-independent sums for given qualities; reals for the data). The relation of two runs of the search is general (Proofs/SearchRel). numberingMatters: the negative side."
 },
 "C61": {
  "status": "proved",
  "note": "exact arithmetic on qualities (any ordered field), any rounding of parameters; ties and directionMatters show that the mirrored-partition clause and the restriction to ordered partitions are needed"
 },
 "C62": {
  "status": "proved",
  "note": "exact arithmetic for qualities and parameter; aboveRoot shows that the condition on the root is needed"
 },
 "C63": {
  "status": "proved",
  "note": "computeBestPartitionsC records the calls; recorded proves that its results are those of computeBestPartitions; exact qualities, parameters with FloatLaws"
 },
 "C64": {
  "status": "proved",
  "note": "hierarchical, spatiotemporal, hQualities, dQualities: a result implies OneRoot; levelled(*): with a level function the metadata is right; treeCover(*): any tree, fault or cover; caught, leafParent, cycle, lateChild: concrete witnesses on both sides."
 },
 "C65": {
  "status": "proved",
  "note": "componentwise (any arithmetic), consistent (any call sequence), additive, undo, binary (exact arithmetic); product and assigned show which calls break the agreement. Found by automatic mutation: Tradeoff.mul had no theorem."
 },
 "C66": {
  "status": "proved",
  "note": "Both searches must return (C26). The parameters listed may move down with the smaller threshold, the partitions do not disappear. Exact arithmetic on qualities, any FloatLaws parameter arithmetic."
 },
 "C67": {
  "status": "proved",
  "note": "Libstdc++ reading of the erase loop (strict = false), see C39. Nothing is assumed of the arithmetic on qualities; the parameters are read as rational numbers."
 },
 "C68": {
  "status": "proved",
  "note": "area: error bound of the computed area for every arithmetic with AreaLaws; unitSquare: absolute error at most (8n+16)w; optimum: the computed optimum is nearly the closest listed point; bits: AreaLaws hold for truncation to any numbers of significant bits; exHyps, exRun: an instance with 4 and 3 bits, evaluated."
 },
 "C69": {
  "status": "proved",
  "note": "lines are cut at commas beforehand; columns as in R before 4.0 (factors); logical columns and the text NA are not considered"
 },
 "C70": {
  "status": "proved",
  "note": "real arithmetic for the data; parameters in any arithmetic with FloatLaws"
 },
 "C71": {
  "status": "proved",
  "note": "the hash function is a parameter; what ggplot draws from the data is not modelled"
 },
 "C72": {
  "status": "proved",
  "note": "The example scripts filters (hideStates, keepTypes) are modelled on the rows of one Nature. The condition that the filtered trace begins and ends with the trace is needed: an example shows other slices without it."
 },
 "C73": {
  "status": "proved",
  "note": "Exact arithmetic of values and any FloatLaws arithmetic of the parameter. The averaging argument: the c interleaved samples of a partition of the finer data are partitions of the coarse data, whose average is at least as good (Jensen), with equality only for unions of whole slices when no slice is empty. The hierarchical analysis has no time. A data set with an empty slice may be cut inside that slice, which the theorem allows (only the quality is then determined)."
 },
 "C74": {
  "status": "proved",
  "note": "From the data to the best partition. Proof: exchanging equal cells gives partitions whose gains and losses are on the average at least as good (Jensen), so all are best and the parts have equal sums. Qualities are exact reals; p and 1-p may be rounded. That zeros may be separated is shown by a concrete case."
 },
 "C75": {
  "status": "proved",
  "note": "From the data to the partitions; qualities are exact reals, p and 1-p may be rounded. Proof: below a part for the larger parameter the parts for the smaller one and the part itself are compared (C09, C19); strict chains of partitions are counted by the inner nodes they divide. The two counterexamples are theorems about real logarithms (bounds on log2 of 3, 5 and 7), with exact parameters."
 },
 "C76": {
  "status": "proved",
  "note": "Over NaNLaws (any arithmetic) for NaN; over exact numbers with infinities and NaN for infinite values and hierarchicalAvoids. Minus infinity and negative values are not considered."
 },
 "C77": {
  "status": "proved",
  "note": "Model/RNumbers.lean, Spec/Double.lean (RNumLaws, DoubleSheet, binary64). ordered, hierarchical, spatiotemporal, plotted, typed, fractions. Quality arithmetic (long double) exact, AUC accumulated exactly (its rounding: C68)."
 },
 "C78": {
  "status": "proved",
  "note": "Spec/Machine.lean (MachineLaws, NearSheet, relErr, areaErr), Spec/Pc.lean (the numbers of a PC), Proofs/Condition, MachineSheet, Pc. ordered, hierarchical, spatiotemporal for any arithmetic with the laws; pcOrdered, pcHierarchical, pcSpatiotemporal for binary64/binary32/64-bit significands (no overflow or underflow of long double). Spatiotemporal: rivals are the coarse-first partitions."
 },
 "C79": {
  "status": "proved",
  "note": "Block = what the first inner vectors span (len2, len3, len4 in Spec/Ragged.lean). The equivalences assume the sizes the index arithmetic supports (at most 65535 slices, products below 2^32, leaves times slices below 2^31)."
 },
 "C80": {
  "status": "proved",
  "note": "Qualities in exact arithmetic, weights p and 1-p under any rounding. Spatiotemporal: optimum among the coarse-first partitions, see C21."
 },
 "C81": {
  "status": "proved",
  "note": "Qualities in exact arithmetic, weights p and 1-p under any rounding. notPeriods is the counterexample for spatiotemporal periods."
 },
 "C82": {
  "status": "proved",
  "note": "Exact arithmetic of values and any FloatLaws arithmetic of the parameter. The order in which the library lists the parts depends on the order of siblings, so the partitions are compared as permutations."
 },
 "C83": {
  "status": "proved",
  "note": "Consequence of C58, whose spatiotemporal theorems now also state that the returned partition is coarse-first. In the hierarchical comparison with exact arithmetic, partitions are the same if their parts hold the same leaves (a chain of single children gives several nodes with the same leaves)."
 },
 "C84": {
  "status": "proved",
  "note": "The finiteness, accuracy and near-optimality theorems for the three kinds of data, with and without normalisation, for any arithmetic that is reliable in range; `long`, `roomLong` and `weights` instantiate them for the numbers of a PC (any behaviour out of range), `double` and `roomDouble` where long double is double."
 },
 "C85": {
  "status": "proved",
  "note": "`ordered`, `hierarchical`, `spatiotemporal`; `textbook` restates a cell with shares of a positive total (entropy and divergence in bits)."
 },
 "C86": {
  "status": "proved",
  "note": "`ordered`, `hierarchical`, `spatiotemporal`; exact real arithmetic (rounding is C58, C83, C84). The precision exists by uniform continuity; no explicit formula for it."
 },
 "C87": {
  "status": "proved",
  "note": "Spec/RangeMachine.lean (RangeMachine, SearchFits, areaErrIn), Spec/RangePc.lean (PcChoice: roundings and behaviour out of range are arbitrary), Proofs/RangeArea, RangeSheet, RangePc. ordered, hierarchical, spatiotemporal for any machine with the laws; pcOrdered, pcHierarchical, pcSpatiotemporal for a PC. Spatiotemporal: rivals are the coarse-first partitions."
 },
 "C88": {
  "status": "proved",
  "note": "Counts by exhibiting a finite set of qualities (subsets of cut points / nodes / rectangles; Proofs/Finite.lean); settles by maximising the list length and C66; interval via C27.wideExact at a smaller threshold; everywhere by a gap argument over the finite list; allOrdered/allSpatiotemporal by their gain-first tie rule. Exact arithmetic on the qualities."
 },
 "C89": {
  "status": "proved",
  "note": "nearlyAll is the statement for all three partitioners; exact, ordered, hierarchical and spatiotemporal are its readings; the spatiotemporal rivals are the coarse-first partitions (C21). An example shows that the factor 1/4 is nearly attained."
 },
 "C90": {
  "status": "proved",
  "note": "area is the statement for all three partitioners; exact, ordered, hierarchical and spatiotemporal are its readings. An example shows that the factor 1/8 is nearly attained. With C88 the smaller threshold can be one that finds the whole curve."
 },
 "C91": {
  "status": "proved",
  "note": "convex/slope/detour: exact qualities and parameters, every partitioner. ordered/hierarchical/spatiotemporal: normalised objects, every p; *Sheet: every row returned to R. Pays.fair is loss <= gain. With rounded 1-p the weights of the criterion are p and the rounded 1-p (Pays)."
 },
 "C92": {
  "status": "proved",
  "note": "Log-sum inequality with its case of equality, summed over parts and groups; optimality (C16, C19, C21) gives the comparison of best values. Exact arithmetic of the qualities, any rounding of the weights."
 },
 "C93": {
  "status": "proved",
  "note": "C84's near-optimality turned round (as C83 does with C58); explicit margins on a PC by the bounds of C58."
 },
 "C94": {
  "status": "proved",
  "note": "Exact arithmetic for the qualities and search, any parameter arithmetic. The results are compared as results of the modelled R functions, so the theorems also cover searches that stop for lack of fuel; C49 gives the fuel for which both return. Reversal and single space compare the table of qualities, optimal parameter and area: the rows of the partitions may differ where several partitions are equally good."
 },
 "C95": {
  "status": "proved",
  "note": "Exact arithmetic for the qualities. Part (3) is for exact parameters: with binary32 parameters thresholds below their resolution never return (C26), and what can be missed is bounded by C89 and C90."
 },
 "C96": {
  "status": "proved",
  "note": "Ordered and hierarchical partitions; the statement does not speak of spatiotemporal ones. Proof: by C74 the best partition of the means is not finer than P anywhere; for all partitions made of whole parts of P the gain and the loss of the data and of the means differ by the same amounts; and both results are the first among the best. Slices without any positive value are excluded because the ordered algorithm may separate them (C74)."
 },
 "C97": {
  "status": "proved",
  "note": "From the data to the best partition. Proof: cutting silent cells off a part keeps the gain and lowers the loss, so it would be better; ties among silent slices are decided by the first cut, which the code takes as early as possible except that the interval up to the last slice comes first of all. Hierarchical parts at p = 1 are not covered: there the loss does not count and ties give the coarser part."
 },
 "C98": {
  "status": "proved",
  "note": "From the data (and, in array, from the containers) to the best partitions. Qualities as computeQualities() gives them, before normalize(). The bound is for p*gain-(1-p)*loss only: neither the gain nor the loss alone compares. Slices analysed one by one are not bounded in this way (C81)."
 },
 "C99": {
  "status": "proved",
  "note": "From the data to the best partitions. Proof: the uniform series adds c*N*log2(N) to the gain of a part of N cells and nothing to the loss; two partitions, each best for its own c, compared with each other; partitions into more than one part have at least 1 less than the whole in this sum."
 },
 "C100": {
  "status": "proved",
  "note": "From the data to the best partitions. Proof: the tables of the whole are the sums of those of the series; sums of optima; two lists of decisions that are each before the other are equal; a node replaced in the cover of every series. conflict: a concrete case where the inequality is strict."
 },
 "C101": {
  "status": "proved",
  "note": "Model/BestCount.lean repeats computeBestPartition with a counter of the comparisons; orderedSame, hierarchicalSame, spatiotemporalSame prove that its results are those of the functions without counter. The search theorems use the bound of C63 (exact qualities, parameters with FloatLaws)."
 },
 "C102": {
  "status": "proved",
  "note": "The division of the shares is IEEE's (Special: numbers, infinities, NaN); the steps before only divide by positive numbers. cube gives the array, nothing and nothingIff say which types count nothing, ordered and withHierarchy compose with C76 (exact numbers with NaN and infinities)."
 },
 "C103": {
  "status": "proved",
  "note": "anyTable for all tables, table where merging does not lower gain or loss (MergeGrows of C75), data and dataNormalized for data that are not negative. Exact quality arithmetic; parameters in any arithmetic. The difference at p = 1 is an evaluated example."
 },
 "C104": {
  "status": "proved",
  "note": "given for tables of qualities, data from the values. C47.oneLeafSame makes the two searches related runs (Proofs/SearchRel.lean). Exact arithmetic for the qualities; parameters in any arithmetic."
 }
}