{
 "claims": [
  {
   "property": "C01",
   "status": "proved",
   "theorems": [
    "Lp.C01.layout",
    "Lp.C01.readsLastWrite",
    "Lp.C01.byPosition",
    "Lp.C01.wraps"
   ],
   "note": "layout and readsLastWrite for sizes up to 65535, byPosition for operator[] and getSize, wraps for every size from 65536"
  },
  {
   "property": "C02",
   "status": "proved",
   "theorems": [
    "Lp.C02.orderedN1",
    "Lp.C02.orderedN2",
    "Lp.C02.orderedN3",
    "Lp.C02.orderedN4",
    "Lp.C02.hierarchicalN1",
    "Lp.C02.hierarchicalN2",
    "Lp.C02.hierarchicalN3",
    "Lp.C02.hierarchicalN4",
    "Lp.C02.spatiotemporalN2",
    "Lp.C02.spatiotemporalN3",
    "Lp.C02.spatiotemporalN4",
    "Lp.C02.wrapped",
    "Lp.C02.wrapped4",
    "Lp.C02.displaced4"
   ],
   "note": "all eleven container classes, built from a flat vector or from dimensions and then any history of writes; arbitrary value type"
  },
  {
   "property": "C03",
   "status": "proved",
   "theorems": [
    "Lp.C03.rightIff",
    "Lp.C03.right",
    "Lp.C03.balanced",
    "Lp.C03.unbalancedRight",
    "Lp.C03.wrongRoot",
    "Lp.C03.readings"
   ],
   "note": "rightIff: exact characterisation of the trees with right metadata (restated: the original claim for all trees is false, wrongRoot); balanced trees and a class of unbalanced ones are right."
  },
  {
   "property": "C04",
   "status": "proved",
   "theorems": [
    "Lp.C04.terminates",
    "Lp.C04.budgetIrrelevant"
   ],
   "note": "all inputs; the step budget of the model is irrelevant"
  },
  {
   "property": "C05",
   "status": "proved",
   "theorems": [
    "Lp.C05.ordered",
    "Lp.C05.orderedAnySign",
    "Lp.C05.singletons",
    "Lp.C05.containers"
   ],
   "note": "real-number idealisation of the arithmetic; non-negative data: entropy formula; arbitrary sign: formula with the code's guarded log; sizes up to 65535"
  },
  {
   "property": "C06",
   "status": "proved",
   "theorems": [
    "Lp.C06.hierarchical",
    "Lp.C06.hierarchicalAnySign",
    "Lp.C06.hierarchicalN2",
    "Lp.C06.containers"
   ],
   "note": "as C05; right metadata with at least one inner node (single-node hierarchies: C43)"
  },
  {
   "property": "C07",
   "status": "proved",
   "theorems": [
    "Lp.C07.spatiotemporal",
    "Lp.C07.spatiotemporalAnySign",
    "Lp.C07.spatiotemporalN2",
    "Lp.C07.containers"
   ],
   "note": "as C06; interval size up to 65535 and leaves*slices < 2^31 (the code multiplies them as int)"
  },
  {
   "property": "C08",
   "status": "proved",
   "theorems": [
    "Lp.C08.ordered",
    "Lp.C08.hierarchical",
    "Lp.C08.spatiotemporal",
    "Lp.C08.negativeData"
   ],
   "note": "non-negative real data; ordered, hierarchical, spatiotemporal"
  },
  {
   "property": "C09",
   "status": "proved",
   "theorems": [
    "Lp.C09.ordered",
    "Lp.C09.hierarchical",
    "Lp.C09.spatiotemporal"
   ],
   "note": "non-negative real data; every part and every subdivision of it, for the three kinds"
  },
  {
   "property": "C10",
   "status": "proved",
   "theorems": [
    "Lp.C10.ordered",
    "Lp.C10.hierarchical",
    "Lp.C10.spatiotemporal"
   ],
   "note": "non-negative real data; both directions of both equivalences"
  },
  {
   "property": "C11",
   "status": "proved",
   "theorems": [
    "Lp.C11.divides",
    "Lp.C11.idempotent",
    "Lp.C11.unitInterval"
   ],
   "note": "any arithmetic for the division itself; [0,1] and idempotence over the reals"
  },
  {
   "property": "C12",
   "status": "proved",
   "theorems": [
    "Lp.C12.hierarchical",
    "Lp.C12.hierarchicalExact",
    "Lp.C12.hierarchicalUnit",
    "Lp.C12.spatiotemporal",
    "Lp.C12.spatiotemporalExact",
    "Lp.C12.spatiotemporalUnit"
   ],
   "note": "any arithmetic for the division itself; [0,1] and idempotence over the reals; the failure for nodes above the root is part of the statement"
  },
  {
   "property": "C13",
   "status": "proved",
   "theorems": [
    "Lp.C13.ordered",
    "Lp.C13.hierarchical",
    "Lp.C13.spatiotemporal",
    "Lp.C13.recompute",
    "Lp.C13.readyMade"
   ],
   "note": "every sequence of calls"
  },
  {
   "property": "C14",
   "status": "proved",
   "theorems": [
    "Lp.C14.ordered",
    "Lp.C14.hierarchical",
    "Lp.C14.spatiotemporal",
    "Lp.C14.orderedSearch",
    "Lp.C14.hierarchicalSearch",
    "Lp.C14.spatiotemporalSearch"
   ],
   "note": "non-negative real data; any rounding of the weights"
  },
  {
   "property": "C15",
   "status": "proved",
   "theorems": [
    "Lp.C15.tiling",
    "Lp.C15.everyIndexOnce",
    "Lp.C15.wrapped"
   ],
   "note": "arbitrary arithmetic; sizes up to 65535; wrapped shows the fault at 65536"
  },
  {
   "property": "C16",
   "status": "proved",
   "theorems": [
    "Lp.C16.optimal",
    "Lp.C16.optimal_exact"
   ],
   "note": "exact qualities, arbitrary rounding of the two weights"
  },
  {
   "property": "C17",
   "status": "proved",
   "theorems": [
    "Lp.C17.ordered",
    "Lp.C17.hierarchical",
    "Lp.C17.spatiotemporal",
    "Lp.C17.returned"
   ],
   "note": "every partition object (any cuts), any arithmetic"
  },
  {
   "property": "C18",
   "status": "proved",
   "theorems": [
    "Lp.C18.cover",
    "Lp.C18.coverTree"
   ],
   "note": "arbitrary arithmetic; right metadata with at least one inner node (single-node hierarchies: C43)"
  },
  {
   "property": "C19",
   "status": "proved",
   "theorems": [
    "Lp.C19.optimal",
    "Lp.C19.optimal_exact"
   ],
   "note": "exact qualities, arbitrary rounding of the two weights; right metadata with at least one inner node"
  },
  {
   "property": "C20",
   "status": "proved",
   "theorems": [
    "Lp.C20.cover",
    "Lp.C20.coverTree"
   ],
   "note": "arbitrary arithmetic; interval size 1..65535; right metadata"
  },
  {
   "property": "C21",
   "status": "proved",
   "theorems": [
    "Lp.C21.optimal",
    "Lp.C21.optimalProducts",
    "Lp.C21.optimalOneSlice",
    "Lp.C21.notOptimal",
    "Lp.C21.notOptimalData"
   ],
   "note": "`optimal` (coarse-first partitions, `Spec/CoarseFirst.lean`), `optimalProducts`, `optimalOneSlice`; the failure of optimality among all partitions is proved in `notOptimal` (given table) and `notOptimalData` (qualities computed from data)."
  },
  {
   "property": "C22",
   "status": "proved",
   "theorems": [
    "Lp.C22.ordered",
    "Lp.C22.hierarchical",
    "Lp.C22.spatiotemporal"
   ],
   "note": "non-negative real data; parameter arithmetic exact at 0 and 1"
  },
  {
   "property": "C23",
   "status": "proved",
   "theorems": [
    "Lp.C23.ordered",
    "Lp.C23.hierarchical",
    "Lp.C23.hierarchicalData",
    "Lp.C23.spatiotemporal",
    "Lp.C23.hierarchicalAtOne",
    "Lp.C23.hierarchicalAtOneData",
    "Lp.C23.spatiotemporalDominated"
   ],
   "note": "`ordered`, `hierarchical`, `hierarchicalData`, `spatiotemporal`; the restrictions are necessary: `hierarchicalAtOne`, `hierarchicalAtOneData`, `spatiotemporalDominated`."
  },
  {
   "property": "C24",
   "status": "proved",
   "theorems": [
    "Lp.C24.ordered",
    "Lp.C24.hierarchical",
    "Lp.C24.spatiotemporal"
   ],
   "note": "exact qualities, any monotone rounding of 1-p exact at 0 and 1"
  },
  {
   "property": "C25",
   "status": "proved",
   "theorems": [
    "Lp.C25.ordered",
    "Lp.C25.hierarchical",
    "Lp.C25.spatiotemporal"
   ],
   "note": "exact qualities, any monotone rounding of 1-p exact at 0 and 1"
  },
  {
   "property": "C26",
   "status": "proved",
   "theorems": [
    "Lp.C26.terminates",
    "Lp.C26.never",
    "Lp.C26.exactNever",
    "Lp.C26.binary32",
    "Lp.C26.binary32Never"
   ],
   "note": "every partitioner; returns for every threshold >= 11 ulp-of-1 with a recursion bound depending on the threshold only (binary32 laws proved for any monotone rounding); never returns for threshold <= 0 between different partitions (exact) or for < 2^-24 on [1/2,1] (binary32)"
  },
  {
   "property": "C27",
   "status": "proved",
   "theorems": [
    "Lp.C27.complete",
    "Lp.C27.wide",
    "Lp.C27.wideExact"
   ],
   "note": "every partitioner, any parameter arithmetic satisfying FloatLaws (binary32 with any monotone rounding), exact qualities, lenient iterator reading (C39)"
  },
  {
   "property": "C28",
   "status": "proved",
   "theorems": [
    "Lp.C28.list"
   ],
   "note": "as C27"
  },
  {
   "property": "C29",
   "status": "proved",
   "theorems": [
    "Lp.C29.degenerate",
    "Lp.C29.afterwards"
   ],
   "note": "restated to what the code does: the maps end up empty"
  },
  {
   "property": "C30",
   "status": "proved",
   "theorems": [
    "Lp.C30.history",
    "Lp.C30.search"
   ],
   "note": "all histories of public calls; the heap side is C42"
  },
  {
   "property": "C31",
   "status": "proved",
   "theorems": [
    "Lp.C31.minimum",
    "Lp.C31.before",
    "Lp.C31.maximum",
    "Lp.C31.optimum"
   ],
   "note": "exact scores; any RAND_MAX"
  },
  {
   "property": "C32",
   "status": "proved",
   "theorems": [
    "Lp.C32.before",
    "Lp.C32.value",
    "Lp.C32.unitSquare",
    "Lp.C32.orderedNormalized",
    "Lp.C32.hierarchicalNormalized",
    "Lp.C32.spatiotemporalNormalized"
   ],
   "note": "accumulator not rounded (rnd = id); termination of the search: C29"
  },
  {
   "property": "C33",
   "status": "proved",
   "theorems": [
    "Lp.C33.ordered",
    "Lp.C33.hierarchical",
    "Lp.C33.spatiotemporal"
   ],
   "note": "the three row formats; sums in part order"
  },
  {
   "property": "C34",
   "status": "proved",
   "theorems": [
    "Lp.C34.greater",
    "Lp.C34.strictOrder",
    "Lp.C34.addCompatible",
    "Lp.C34.valueOnly",
    "Lp.C34.asymmetric"
   ],
   "note": "exact order; lt/ge/==/!= look at the values only"
  },
  {
   "property": "C35",
   "status": "proved",
   "theorems": [
    "Lp.C35.meaning",
    "Lp.C35.similarity",
    "Lp.C35.gains",
    "Lp.C35.lossIgnored",
    "Lp.C35.notTransitive"
   ],
   "note": "restated to what the code does: losses are not compared"
  },
  {
   "property": "C36",
   "status": "proved",
   "theorems": [
    "Lp.C36.meanTimesSize",
    "Lp.C36.aggregateN1",
    "Lp.C36.aggregateN2",
    "Lp.C36.aggregateN3",
    "Lp.C36.aggregateN4",
    "Lp.C36.partitionN1",
    "Lp.C36.partitionN2",
    "Lp.C36.partitionN3",
    "Lp.C36.partitionN4",
    "Lp.C36.bestPartitionN2",
    "Lp.C36.bestPartitionN1",
    "Lp.C36.bestPartitionN3",
    "Lp.C36.bestPartitionN4"
   ],
   "note": "All four ordered aggregate classes; one aggregate, all aggregates of a tiling (sums add up to the total), and end to end with computeBestPartition. Exact arithmetic."
  },
  {
   "property": "C37",
   "status": "proved",
   "theorems": [
    "Lp.C37.cases",
    "Lp.C37.aggregateN1",
    "Lp.C37.aggregateN2",
    "Lp.C37.aggregateN3",
    "Lp.C37.aggregateN4",
    "Lp.C37.dAggregateN2",
    "Lp.C37.dAggregateN3",
    "Lp.C37.dAggregateN4",
    "Lp.C37.rightIff",
    "Lp.C37.partitionEndless",
    "Lp.C37.rootEndless",
    "Lp.C37.leavesZero",
    "Lp.C37.rightIffN2",
    "Lp.C37.partitionN2",
    "Lp.C37.rightIffN3",
    "Lp.C37.partitionN3",
    "Lp.C37.rightIffN4",
    "Lp.C37.partitionN4",
    "Lp.C37.dRightIffN2",
    "Lp.C37.dPartitionN2",
    "Lp.C37.dRightIffN3",
    "Lp.C37.dPartitionN3",
    "Lp.C37.dRightIffN4",
    "Lp.C37.dPartitionN4"
   ],
   "note": "Three-way classification for all seven classes (restated to what the code does), rightIff, rootEndless, leavesZero. Exact arithmetic, right metadata (C03)."
  },
  {
   "property": "C38",
   "status": "proved",
   "theorems": [
    "Lp.C38.equivalence",
    "Lp.C38.ordered",
    "Lp.C38.hierarchical",
    "Lp.C38.spatiotemporal",
    "Lp.C38.unequalParts",
    "Lp.C38.orderedUnequal",
    "Lp.C38.hierarchicalUnequal",
    "Lp.C38.spatiotemporalUnequal"
   ],
   "note": "any arithmetic, tables and parameters"
  },
  {
   "property": "C39",
   "status": "proved",
   "theorems": [
    "Lp.C39.strict",
    "Lp.C39.equalEnds"
   ],
   "note": "restated: exact characterisation of when the strict reading is defined"
  },
  {
   "property": "C40",
   "status": "proved",
   "theorems": [
    "Lp.C40.ordered",
    "Lp.C40.hierarchical",
    "Lp.C40.spatiotemporal"
   ],
   "note": "every p >= 0, any rounding of 1-p"
  },
  {
   "property": "C41",
   "status": "proved",
   "theorems": [
    "Lp.C41.ordered",
    "Lp.C41.hierarchical",
    "Lp.C41.spatiotemporal"
   ],
   "note": "data of any sign; the two tables are identical"
  },
  {
   "property": "C42",
   "status": "proved",
   "theorems": [
    "Lp.C42.ordered",
    "Lp.C42.hierarchical",
    "Lp.C42.spatiotemporal",
    "Lp.C42.noSelfParent",
    "Lp.C42.unaffected",
    "Lp.C42.twoSearches",
    "Lp.C42.twoSearchesH",
    "Lp.C42.twoSearchesD",
    "Lp.C42.normalizeOrdered",
    "Lp.C42.normalizeHierarchical",
    "Lp.C42.normalizeSpatiotemporal",
    "Lp.C42.newTables",
    "Lp.C42.staleOrdered"
   ],
   "note": "Explicit-memory model of the three searches and the three normalize functions (Model/Heap.lean), simulation proofs against the copy-based model; normalize after a search; new tables; stale totals in exact arithmetic; counterexample for a table that holds one object twice."
  },
  {
   "property": "C43",
   "status": "proved",
   "theorems": [
    "Lp.C43.onlyCase",
    "Lp.C43.metadata",
    "Lp.C43.hierarchicalQualities",
    "Lp.C43.hierarchicalPartition",
    "Lp.C43.spatiotemporalQualities",
    "Lp.C43.spatiotemporalPartition"
   ],
   "note": "all data, all parameters"
  },
  {
   "property": "C44",
   "status": "proved",
   "theorems": [
    "Lp.C44.beforeCompute",
    "Lp.C44.readyMade",
    "Lp.C44.afterCompute",
    "Lp.C44.afterComputeH",
    "Lp.C44.afterComputeD",
    "Lp.C44.noSlice"
   ],
   "note": "all ways of building the objects"
  },
  {
   "property": "C45",
   "status": "proved",
   "theorems": [
    "Lp.C45.identifies",
    "Lp.C45.increasing",
    "Lp.C45.strict",
    "Lp.C45.strictOrdered",
    "Lp.C45.strictSpatiotemporal",
    "Lp.C45.bends",
    "Lp.C45.half",
    "Lp.C45.orderedHalf",
    "Lp.C45.hierarchicalHalf",
    "Lp.C45.spatiotemporalHalf",
    "Lp.C45.hierarchicalFlat"
   ],
   "note": "Curve shape for every partitioner and every search; concavity from optimality at the middle parameter; AUC >= 1/2 for normalized data from the chord bound. hierarchicalFlat shows that the strict form needs hi < 1 for hierarchical partitioners. Exact arithmetic on qualities, any monotone rounding of 1-p."
  },
  {
   "property": "C46",
   "status": "proved",
   "theorems": [
    "Lp.C46.valueSemantics",
    "Lp.C46.withoutAssignment",
    "Lp.C46.shared",
    "Lp.C46.witness"
   ],
   "note": "Programs over named variables on an explicit memory; simulation of the value semantics for every sequence whose writes are unshared, which includes every sequence without sharing calls; exact effect of a write after an assignment. The binary Tradeoff operators are declared in the namespace but defined outside it, so a caller cannot link to them; they are not modelled."
  },
  {
   "property": "C47",
   "status": "proved",
   "theorems": [
    "Lp.C47.leaf",
    "Lp.C47.slice",
    "Lp.C47.oneSlice",
    "Lp.C47.oneLeaf",
    "Lp.C47.oneLeafSame",
    "Lp.C47.oneLeafData"
   ],
   "note": "From the closed forms of C05-C07 for data of any sign (exact arithmetic) and, for one slice, from the optimality of the partitioners (see C103 for when the partitions are the same). For one leaf the spatiotemporal derivation follows the ordered one step by step (Proofs/Chain.lean): oneLeafSame, oneLeafData."
  },
  {
   "property": "C48",
   "status": "proved",
   "theorems": [
    "Lp.C48.ordered",
    "Lp.C48.spatiotemporal",
    "Lp.C48.hierarchical",
    "Lp.C48.orderedData",
    "Lp.C48.spatiotemporalData",
    "Lp.C48.hierarchicalData"
   ],
   "note": "ordered/spatiotemporal/hierarchical: tables, any arithmetic (ties and rounding included); orderedData, spatiotemporalData, hierarchicalData: real data of any sign."
  },
  {
   "property": "C49",
   "status": "proved",
   "theorems": [
    "Lp.C49.ordered",
    "Lp.C49.hierarchical",
    "Lp.C49.spatiotemporal"
   ],
   "note": "C++ embedded in R/lpaggreg.R modelled (Model/RBinding.lean): column-major conversion, 1-based rows, pipeline values-qualities-normalize-search. Exact real qualities; any FloatLaws parameter arithmetic, in particular IEEE binary32 with any rounding (Spec/BinaryReal.lean). Iterators read as in libstdc++ (see C26). The bound on the recursion depth depends on the threshold only. Narrowing to double/float of the returned columns and of AUC is not modelled."
  },
  {
   "property": "C50",
   "status": "proved",
   "theorems": [
    "Lp.C50.ordered",
    "Lp.C50.hierarchical",
    "Lp.C50.spatiotemporal",
    "Lp.C50.factor",
    "Lp.C50.longDouble",
    "Lp.C50.rounding_matters"
   ],
   "note": "Standard model of floating-point arithmetic (RoundedLaws, Spec/Rounded.lean): relative error per operation, monotone addition, no overflow/underflow. Instances: truncation to any number of significant bits; exact arithmetic with u=0."
  },
  {
   "property": "C51",
   "status": "proved",
   "theorems": [
    "Lp.C51.path",
    "Lp.C51.rows",
    "Lp.C51.total",
    "Lp.C51.result",
    "Lp.C51.wrongPath"
   ],
   "note": "path: getpath = library path counted from 1; rows: exact rows of hmacro; total: values add up; result: composed with haggregate (C49); wrongPath: the numbering condition is needed. R's factors and row order of aggregate/sqldf are abstracted; numbers exact."
  },
  {
   "property": "C52",
   "status": "proved",
   "theorems": [
    "Lp.C52.rows",
    "Lp.C52.total",
    "Lp.C52.result"
   ],
   "note": "rows: exact rows of omacro; total: weighted means add up; result: composed with oaggregate (C49). Row order of aggregate abstracted; numbers exact."
  },
  {
   "property": "C53",
   "status": "proved",
   "theorems": [
    "Lp.C53.rows",
    "Lp.C53.conserved",
    "Lp.C53.full",
    "Lp.C53.slices",
    "Lp.C53.cube",
    "Lp.C53.invariant",
    "Lp.C53.aggregated"
   ],
   "note": "Model of slicerstate and of pjdump2micro without hierarchy over any ordered field. Finding shown by a concrete case: when only a state without length ends with the trace, the trailing slices and the resource of that state are missing from the result."
  },
  {
   "property": "C54",
   "status": "proved",
   "theorems": [
    "Lp.C54.hierarchy",
    "Lp.C54.unknown",
    "Lp.C54.tree",
    "Lp.C54.readable",
    "Lp.C54.aggregated",
    "Lp.C54.aggregatedTime",
    "Lp.C54.described"
   ],
   "note": "Model of the hierarchy part of pjdump2micro, composed with C49 and C51. Findings shown by concrete cases: a parent whose children have no data becomes a childless inner node; if the root is not the first container listed, another container is taken for the root."
  },
  {
   "property": "C55",
   "status": "proved",
   "theorems": [
    "Lp.C55.rows",
    "Lp.C55.conserved",
    "Lp.C55.normalized",
    "Lp.C55.share",
    "Lp.C55.cube",
    "Lp.C55.hierarchy",
    "Lp.C55.aggregated"
   ],
   "note": "Model of slicerprvcounter and of pjdump2micro for counters over exact ordered-field arithmetic. Not considered: NaN and Inf from a type that counts nothing or from an interval without length (the theorems assume a length; for a type that counts nothing the normalization theorem has a hypothesis). Findings: the first reading of a counter is never used and the interval of its last reading is dropped, so that trailing slices may be missing; negative means are replaced by 0."
  },
  {
   "property": "C56",
   "status": "proved",
   "theorems": [
    "Lp.C56.bars",
    "Lp.C56.area",
    "Lp.C56.stacked",
    "Lp.C56.states",
    "Lp.C56.treemap",
    "Lp.C56.treemapTotal",
    "Lp.C56.counterTreemap",
    "Lp.C56.counterTotal"
   ],
   "note": "Model of the data frames given to ggplot and treemap (Model/RPlot); the drawing packages, colours and titles are not modelled. `states` composes the plot with pjdump2micro and melt of its array."
  },
  {
   "property": "C57",
   "status": "proved",
   "theorems": [
    "Lp.C57.ordered",
    "Lp.C57.hierarchical",
    "Lp.C57.spatiotemporal",
    "Lp.C57.exactSum",
    "Lp.C57.orderMatters"
   ],
   "note": "ordered, hierarchical and spatiotemporal data, no law of arithmetic assumed; SumOf leaves the order of the additions open (orderMatters shows that the order can matter, exactSum that in exact arithmetic it does not)."
  },
  {
   "property": "C58",
   "status": "proved",
   "theorems": [
    "Lp.C58.ordered",
    "Lp.C58.hierarchical",
    "Lp.C58.spatiotemporal",
    "Lp.C58.orderedNormalized",
    "Lp.C58.hierarchicalNormalized",
    "Lp.C58.spatiotemporalNormalized",
    "Lp.C58.x87",
    "Lp.C58.x87_accuracy",
    "Lp.C58.longDouble",
    "Lp.C58.longDouble3",
    "Lp.C58.exactCase"
   ],
   "note": "Laws: the standard model of rounding without overflow and underflow (LogLaws), met by RoundedLog R D (in particular 64-bit significands with logarithms in 53 bits: x87) and by exact arithmetic. Competitors for hierarchy x time are coarse-first (C21). Normalised hierarchical tables: root with the highest number (C12)."
  },
  {
   "property": "C59",
   "status": "proved",
   "theorems": [
    "Lp.C59.orderedTable",
    "Lp.C59.spatiotemporalTable",
    "Lp.C59.hierarchicalTable",
    "Lp.C59.ordered",
    "Lp.C59.hierarchical",
    "Lp.C59.spatiotemporal",
    "Lp.C59.singleSlice",
    "Lp.C59.orderedZero",
    "Lp.C59.hierarchicalZero",
    "Lp.C59.spatiotemporalZero",
    "Lp.C59.orderedExact",
    "Lp.C59.hierarchicalExact",
    "Lp.C59.spatiotemporalExact",
    "Lp.C59.zeroArray",
    "Lp.C59.singleSliceArray",
    "Lp.C59.exactArray",
    "Lp.C59.equalArray",
    "Lp.C59.realZeroLaws"
   ],
   "note": "NaN is any predicate with the IEEE laws (Spec/Special.lean: NaNLaws); the reals extended by infinities and NaN are an instance. orderedTable/hierarchicalTable/spatiotemporalTable are about tables, ordered/hierarchical/spatiotemporal about data, singleSlice and *Zero say when the whole is zero in any arithmetic, *Exact give the whole in exact arithmetic, zeroArray/singleSliceArray/exactArray/equalArray are about the R functions. Whether rounding makes the loss of homogeneous data exactly zero on a given machine is not claimed."
  },
  {
   "property": "C60",
   "status": "proved",
   "theorems": [
    "Lp.C60.hierarchicalGiven",
    "Lp.C60.spatiotemporalGiven",
    "Lp.C60.hierarchical",
    "Lp.C60.spatiotemporal",
    "Lp.C60.strategies",
    "Lp.C60.exRenumbering",
    "Lp.C60.numberingMatters"
   ],
   "note": "Exact sums (any arithmetic with order-independent sums for given qualities; reals for the data). The relation of two runs of the search is general (Proofs/SearchRel). numberingMatters: the negative side."
  },
  {
   "property": "C61",
   "status": "proved",
   "theorems": [
    "Lp.C61.curve",
    "Lp.C61.orderedGiven",
    "Lp.C61.ordered",
    "Lp.C61.spatiotemporalQualities",
    "Lp.C61.ties",
    "Lp.C61.exOrdered",
    "Lp.C61.directionMatters"
   ],
   "note": "exact arithmetic on qualities (any ordered field), any rounding of parameters; ties and directionMatters show that the mirrored-partition clause and the restriction to ordered partitions are needed"
  },
  {
   "property": "C62",
   "status": "proved",
   "theorems": [
    "Lp.C62.parameter",
    "Lp.C62.ordered",
    "Lp.C62.hierarchical",
    "Lp.C62.spatiotemporal",
    "Lp.C62.orderedFamily",
    "Lp.C62.hierarchicalFamily",
    "Lp.C62.spatiotemporalFamily",
    "Lp.C62.exFamily",
    "Lp.C62.aboveRoot"
   ],
   "note": "exact arithmetic for qualities and parameter; aboveRoot shows that the condition on the root is needed"
  },
  {
   "property": "C63",
   "status": "proved",
   "theorems": [
    "Lp.C63.recorded",
    "Lp.C63.work",
    "Lp.C63.workExact",
    "Lp.C63.workBinary32",
    "Lp.C63.exWork"
   ],
   "note": "computeBestPartitionsC records the calls; recorded proves that its results are those of computeBestPartitions; exact qualities, parameters with FloatLaws"
  },
  {
   "property": "C64",
   "status": "proved",
   "theorems": [
    "Lp.C64.hierarchical",
    "Lp.C64.spatiotemporal",
    "Lp.C64.hQualities",
    "Lp.C64.dQualities",
    "Lp.C64.levelled",
    "Lp.C64.levelledSpatiotemporal",
    "Lp.C64.treeCover",
    "Lp.C64.treeCoverSpatiotemporal",
    "Lp.C64.caught",
    "Lp.C64.leafParent",
    "Lp.C64.cycle",
    "Lp.C64.lateChild"
   ],
   "note": "hierarchical, spatiotemporal, hQualities, dQualities: a result implies OneRoot; levelled(*): with a level function the metadata is right; treeCover(*): any tree, fault or cover; caught, leafParent, cycle, lateChild: concrete witnesses on both sides."
  },
  {
   "property": "C65",
   "status": "proved",
   "theorems": [
    "Lp.C65.componentwise",
    "Lp.C65.consistent",
    "Lp.C65.additive",
    "Lp.C65.undo",
    "Lp.C65.binary",
    "Lp.C65.product",
    "Lp.C65.assigned"
   ],
   "note": "componentwise (any arithmetic), consistent (any call sequence), additive, undo, binary (exact arithmetic); product and assigned show which calls break the agreement. Found by automatic mutation: Tradeoff.mul had no theorem."
  },
  {
   "property": "C66",
   "status": "proved",
   "theorems": [
    "Lp.C66.found",
    "Lp.C66.curve",
    "Lp.C66.more",
    "Lp.C66.auc",
    "Lp.C66.optimum",
    "Lp.C66.exRuns"
   ],
   "note": "Both searches must return (C26). The parameters listed may move down with the smaller threshold, the partitions do not disappear. Exact arithmetic on qualities, any FloatLaws parameter arithmetic."
  },
  {
   "property": "C67",
   "status": "proved",
   "theorems": [
    "Lp.C67.terminates",
    "Lp.C67.list",
    "Lp.C67.complete",
    "Lp.C67.queries",
    "Lp.C67.binary32",
    "Lp.C67.exPartitioner",
    "Lp.C67.exRun"
   ],
   "note": "Libstdc++ reading of the erase loop (strict = false), see C39. Nothing is assumed of the arithmetic on qualities; the parameters are read as rational numbers."
  },
  {
   "property": "C68",
   "status": "proved",
   "theorems": [
    "Lp.C68.area",
    "Lp.C68.unitSquare",
    "Lp.C68.optimum",
    "Lp.C68.bits",
    "Lp.C68.exHyps",
    "Lp.C68.exRun"
   ],
   "note": "area: error bound of the computed area for every arithmetic with AreaLaws; unitSquare: absolute error at most (8n+16)w; optimum: the computed optimum is nearly the closest listed point; bits: AreaLaws hold for truncation to any numbers of significant bits; exHyps, exRun: an instance with 4 and 3 bits, evaluated."
  },
  {
   "property": "C69",
   "status": "proved",
   "theorems": [
    "Lp.C69.states",
    "Lp.C69.counters",
    "Lp.C69.lost",
    "Lp.C69.unreadable",
    "Lp.C69.fromStates",
    "Lp.C69.fromCounters",
    "Lp.C69.described"
   ],
   "note": "lines are cut at commas beforehand; columns as in R before 4.0 (factors); logical columns and the text NA are not considered"
  },
  {
   "property": "C70",
   "status": "proved",
   "theorems": [
    "Lp.C70.tree",
    "Lp.C70.readable",
    "Lp.C70.aggregated",
    "Lp.C70.aggregatedTime",
    "Lp.C70.described",
    "Lp.C70.fromFile"
   ],
   "note": "real arithmetic for the data; parameters in any arithmetic with FloatLaws"
  },
  {
   "property": "C71",
   "status": "proved",
   "theorems": [
    "Lp.C71.shown",
    "Lp.C71.concave",
    "Lp.C71.names",
    "Lp.C71.same",
    "Lp.C71.visible",
    "Lp.C71.empty",
    "Lp.C71.found",
    "Lp.C71.tiles",
    "Lp.C71.clusters"
   ],
   "note": "the hash function is a parameter; what ggplot draws from the data is not modelled"
  },
  {
   "property": "C72",
   "status": "proved",
   "theorems": [
    "Lp.C72.hidden",
    "Lp.C72.cut",
    "Lp.C72.finer",
    "Lp.C72.kept"
   ],
   "note": "The example scripts filters (hideStates, keepTypes) are modelled on the rows of one Nature. The condition that the filtered trace begins and ends with the trace is needed: an example shows other slices without it."
  },
  {
   "property": "C73",
   "status": "proved",
   "theorems": [
    "Lp.C73.ordered",
    "Lp.C73.spatiotemporal",
    "Lp.C73.orderedSearch",
    "Lp.C73.spatiotemporalSearch"
   ],
   "note": "Exact arithmetic of values and any FloatLaws arithmetic of the parameter. The averaging argument: the c interleaved samples of a partition of the finer data are partitions of the coarse data, whose average is at least as good (Jensen), with equality only for unions of whole slices when no slice is empty. The hierarchical analysis has no time. A data set with an empty slice may be cut inside that slice, which the theorem allows (only the quality is then determined)."
  },
  {
   "property": "C74",
   "status": "proved",
   "theorems": [
    "Lp.C74.ordered",
    "Lp.C74.spatiotemporalSlices",
    "Lp.C74.spatiotemporalLeaves",
    "Lp.C74.hierarchical"
   ],
   "note": "From the data to the best partition. Proof: exchanging equal cells gives partitions whose gains and losses are on the average at least as good (Jensen), so all are best and the parts have equal sums. Qualities are exact reals; p and 1-p may be rounded. That zeros may be separated is shown by a concrete case."
  },
  {
   "property": "C75",
   "status": "proved",
   "theorems": [
    "Lp.C75.table",
    "Lp.C75.tableSearch",
    "Lp.C75.hierarchical",
    "Lp.C75.hierarchicalNormalized",
    "Lp.C75.hierarchicalSheet",
    "Lp.C75.orderedNot",
    "Lp.C75.spatiotemporalNot"
   ],
   "note": "From the data to the partitions; qualities are exact reals, p and 1-p may be rounded. Proof: below a part for the larger parameter the parts for the smaller one and the part itself are compared (C09, C19); strict chains of partitions are counted by the inner nodes they divide. The two counterexamples are theorems about real logarithms (bounds on log2 of 3, 5 and 7), with exact parameters."
  },
  {
   "property": "C76",
   "status": "proved",
   "theorems": [
    "Lp.C76.ordered",
    "Lp.C76.hierarchical",
    "Lp.C76.spatiotemporal",
    "Lp.C76.missingArray",
    "Lp.C76.infiniteArray",
    "Lp.C76.hierarchicalAvoids"
   ],
   "note": "Over NaNLaws (any arithmetic) for NaN; over exact numbers with infinities and NaN for infinite values and hierarchicalAvoids. Minus infinity and negative values are not considered."
  },
  {
   "property": "C77",
   "status": "proved",
   "theorems": [
    "Lp.C77.ordered",
    "Lp.C77.hierarchical",
    "Lp.C77.spatiotemporal",
    "Lp.C77.typed",
    "Lp.C77.plotted",
    "Lp.C77.fractions"
   ],
   "note": "Model/RNumbers.lean, Spec/Double.lean (RNumLaws, DoubleSheet, binary64). ordered, hierarchical, spatiotemporal, plotted, typed, fractions. Quality arithmetic (long double) exact, AUC accumulated exactly (its rounding: C68)."
  },
  {
   "property": "C78",
   "status": "proved",
   "theorems": [
    "Lp.C78.ordered",
    "Lp.C78.hierarchical",
    "Lp.C78.spatiotemporal",
    "Lp.C78.pcOrdered",
    "Lp.C78.pcHierarchical",
    "Lp.C78.pcSpatiotemporal"
   ],
   "note": "Spec/Machine.lean (MachineLaws, NearSheet, relErr, areaErr), Spec/Pc.lean (the numbers of a PC), Proofs/Condition, MachineSheet, Pc. ordered, hierarchical, spatiotemporal for any arithmetic with the laws; pcOrdered, pcHierarchical, pcSpatiotemporal for binary64/binary32/64-bit significands (no overflow or underflow of long double). Spatiotemporal: rivals are the coarse-first partitions."
  },
  {
   "property": "C79",
   "status": "proved",
   "theorems": [
    "Lp.C79.ordered1",
    "Lp.C79.ordered2",
    "Lp.C79.ordered3",
    "Lp.C79.ordered4",
    "Lp.C79.hierarchical1",
    "Lp.C79.hierarchical2",
    "Lp.C79.hierarchical3",
    "Lp.C79.hierarchical4",
    "Lp.C79.spatiotemporal2",
    "Lp.C79.spatiotemporal3",
    "Lp.C79.spatiotemporal4",
    "Lp.C79.emptyOrdered",
    "Lp.C79.emptySpatiotemporal",
    "Lp.C79.emptyLeaves",
    "Lp.C79.emptySeries"
   ],
   "note": "Block = what the first inner vectors span (len2, len3, len4 in Spec/Ragged.lean). The equivalences assume the sizes the index arithmetic supports (at most 65535 slices, products below 2^32, leaves times slices below 2^31)."
  },
  {
   "property": "C80",
   "status": "proved",
   "theorems": [
    "Lp.C80.hierarchical",
    "Lp.C80.spatiotemporal",
    "Lp.C80.hierarchicalNormalized",
    "Lp.C80.spatiotemporalNormalized",
    "Lp.C80.strict"
   ],
   "note": "Qualities in exact arithmetic, weights p and 1-p under any rounding. Spatiotemporal: optimum among the coarse-first partitions, see C21."
  },
  {
   "property": "C81",
   "status": "proved",
   "theorems": [
    "Lp.C81.ordered",
    "Lp.C81.hierarchical",
    "Lp.C81.spatiotemporal",
    "Lp.C81.notPeriods"
   ],
   "note": "Qualities in exact arithmetic, weights p and 1-p under any rounding. notPeriods is the counterexample for spatiotemporal periods."
  },
  {
   "property": "C82",
   "status": "proved",
   "theorems": [
    "Lp.C82.read",
    "Lp.C82.hierarchical",
    "Lp.C82.spatiotemporal",
    "Lp.C82.hierarchicalSearch",
    "Lp.C82.spatiotemporalSearch"
   ],
   "note": "Exact arithmetic of values and any FloatLaws arithmetic of the parameter. The order in which the library lists the parts depends on the order of siblings, so the partitions are compared as permutations."
  },
  {
   "property": "C83",
   "status": "proved",
   "theorems": [
    "Lp.C83.ordered",
    "Lp.C83.hierarchical",
    "Lp.C83.spatiotemporal",
    "Lp.C83.orderedNormalized",
    "Lp.C83.hierarchicalNormalized",
    "Lp.C83.spatiotemporalNormalized",
    "Lp.C83.orderedExact",
    "Lp.C83.hierarchicalExact",
    "Lp.C83.spatiotemporalExact"
   ],
   "note": "Consequence of C58, whose spatiotemporal theorems now also state that the returned partition is coarse-first. In the hierarchical comparison with exact arithmetic, partitions are the same if their parts hold the same leaves (a chain of single children gives several nodes with the same leaves)."
  },
  {
   "property": "C84",
   "status": "proved",
   "theorems": [
    "Lp.C84.ordered",
    "Lp.C84.hierarchical",
    "Lp.C84.spatiotemporal",
    "Lp.C84.orderedNormalized",
    "Lp.C84.hierarchicalNormalized",
    "Lp.C84.spatiotemporalNormalized",
    "Lp.C84.long",
    "Lp.C84.double",
    "Lp.C84.roomLong",
    "Lp.C84.roomDouble",
    "Lp.C84.weights"
   ],
   "note": "The finiteness, accuracy and near-optimality theorems for the three kinds of data, with and without normalisation, for any arithmetic that is reliable in range; `long`, `roomLong` and `weights` instantiate them for the numbers of a PC (any behaviour out of range), `double` and `roomDouble` where long double is double."
  },
  {
   "property": "C85",
   "status": "proved",
   "theorems": [
    "Lp.C85.ordered",
    "Lp.C85.hierarchical",
    "Lp.C85.spatiotemporal",
    "Lp.C85.textbook"
   ],
   "note": "`ordered`, `hierarchical`, `spatiotemporal`; `textbook` restates a cell with shares of a positive total (entropy and divergence in bits)."
  },
  {
   "property": "C86",
   "status": "proved",
   "theorems": [
    "Lp.C86.ordered",
    "Lp.C86.hierarchical",
    "Lp.C86.spatiotemporal"
   ],
   "note": "`ordered`, `hierarchical`, `spatiotemporal`; exact real arithmetic (rounding is C58, C83, C84). The precision exists by uniform continuity; no explicit formula for it."
  },
  {
   "property": "C87",
   "status": "proved",
   "theorems": [
    "Lp.C87.ordered",
    "Lp.C87.hierarchical",
    "Lp.C87.spatiotemporal",
    "Lp.C87.pcOrdered",
    "Lp.C87.pcHierarchical",
    "Lp.C87.pcSpatiotemporal"
   ],
   "note": "Spec/RangeMachine.lean (RangeMachine, SearchFits, areaErrIn), Spec/RangePc.lean (PcChoice: roundings and behaviour out of range are arbitrary), Proofs/RangeArea, RangeSheet, RangePc. ordered, hierarchical, spatiotemporal for any machine with the laws; pcOrdered, pcHierarchical, pcSpatiotemporal for a PC. Spatiotemporal: rivals are the coarse-first partitions."
  },
  {
   "property": "C88",
   "status": "proved",
   "theorems": [
    "Lp.C88.countOrdered",
    "Lp.C88.countHierarchical",
    "Lp.C88.countSpatiotemporal",
    "Lp.C88.settles",
    "Lp.C88.threshold",
    "Lp.C88.interval",
    "Lp.C88.everywhere",
    "Lp.C88.allOrdered",
    "Lp.C88.allSpatiotemporal"
   ],
   "note": "Counts by exhibiting a finite set of qualities (subsets of cut points / nodes / rectangles; Proofs/Finite.lean); settles by maximising the list length and C66; interval via C27.wideExact at a smaller threshold; everywhere by a gap argument over the finite list; allOrdered/allSpatiotemporal by their gain-first tie rule. Exact arithmetic on the qualities."
  },
  {
   "property": "C89",
   "status": "proved",
   "theorems": [
    "Lp.C89.nearby",
    "Lp.C89.nearlyAll",
    "Lp.C89.exact",
    "Lp.C89.ordered",
    "Lp.C89.hierarchical",
    "Lp.C89.spatiotemporal",
    "Lp.C89.binary32",
    "Lp.C89.unrounded"
   ],
   "note": "nearlyAll is the statement for all three partitioners; exact, ordered, hierarchical and spatiotemporal are its readings; the spatiotemporal rivals are the coarse-first partitions (C21). An example shows that the factor 1/4 is nearly attained."
  },
  {
   "property": "C90",
   "status": "proved",
   "theorems": [
    "Lp.C90.area",
    "Lp.C90.exact",
    "Lp.C90.ordered",
    "Lp.C90.hierarchical",
    "Lp.C90.spatiotemporal"
   ],
   "note": "area is the statement for all three partitioners; exact, ordered, hierarchical and spatiotemporal are its readings. An example shows that the factor 1/8 is nearly attained. With C88 the smaller threshold can be one that finds the whole curve."
  },
  {
   "property": "C91",
   "status": "proved",
   "theorems": [
    "Lp.C91.convex",
    "Lp.C91.slope",
    "Lp.C91.detour",
    "Lp.C91.ordered",
    "Lp.C91.hierarchical",
    "Lp.C91.spatiotemporal",
    "Lp.C91.orderedSheet",
    "Lp.C91.hierarchicalSheet",
    "Lp.C91.spatiotemporalSheet"
   ],
   "note": "convex/slope/detour: exact qualities and parameters, every partitioner. ordered/hierarchical/spatiotemporal: normalised objects, every p; *Sheet: every row returned to R. Pays.fair is loss <= gain. With rounded 1-p the weights of the criterion are p and the rounded 1-p (Pays)."
  },
  {
   "property": "C92",
   "status": "proved",
   "theorems": [
    "Lp.C92.ordered",
    "Lp.C92.hierarchical",
    "Lp.C92.spatiotemporal",
    "Lp.C92.hides"
   ],
   "note": "Log-sum inequality with its case of equality, summed over parts and groups; optimality (C16, C19, C21) gives the comparison of best values. Exact arithmetic of the qualities, any rounding of the weights."
  },
  {
   "property": "C93",
   "status": "proved",
   "theorems": [
    "Lp.C93.ordered",
    "Lp.C93.hierarchical",
    "Lp.C93.spatiotemporal",
    "Lp.C93.orderedNormalized",
    "Lp.C93.hierarchicalNormalized",
    "Lp.C93.spatiotemporalNormalized",
    "Lp.C93.orderedPc",
    "Lp.C93.hierarchicalPc",
    "Lp.C93.spatiotemporalPc"
   ],
   "note": "C84's near-optimality turned round (as C83 does with C58); explicit margins on a PC by the bounds of C58."
  },
  {
   "property": "C94",
   "status": "proved",
   "theorems": [
    "Lp.C94.ordered",
    "Lp.C94.hierarchical",
    "Lp.C94.spatiotemporal",
    "Lp.C94.renumbered",
    "Lp.C94.renumberedTime",
    "Lp.C94.reversed",
    "Lp.C94.oneSpace"
   ],
   "note": "Exact arithmetic for the qualities and search, any parameter arithmetic. The results are compared as results of the modelled R functions, so the theorems also cover searches that stop for lack of fuel; C49 gives the fuel for which both return. Reversal and single space compare the table of qualities, optimal parameter and area: the rows of the partitions may differ where several partitions are equally good."
  },
  {
   "property": "C95",
   "status": "proved",
   "theorems": [
    "Lp.C95.ordered",
    "Lp.C95.orderedSettles",
    "Lp.C95.orderedAll",
    "Lp.C95.hierarchical",
    "Lp.C95.hierarchicalSettles",
    "Lp.C95.hierarchicalAll",
    "Lp.C95.spatiotemporal",
    "Lp.C95.spatiotemporalSettles",
    "Lp.C95.spatiotemporalAll"
   ],
   "note": "Exact arithmetic for the qualities. Part (3) is for exact parameters: with binary32 parameters thresholds below their resolution never return (C26), and what can be missed is bounded by C89 and C90."
  },
  {
   "property": "C96",
   "status": "proved",
   "theorems": [
    "Lp.C96.ordered",
    "Lp.C96.hierarchical"
   ],
   "note": "Ordered and hierarchical partitions; the statement does not speak of spatiotemporal ones. Proof: by C74 the best partition of the means is not finer than P anywhere; for all partitions made of whole parts of P the gain and the loss of the data and of the means differ by the same amounts; and both results are the first among the best. Slices without any positive value are excluded because the ordered algorithm may separate them (C74)."
  },
  {
   "property": "C97",
   "status": "proved",
   "theorems": [
    "Lp.C97.ordered",
    "Lp.C97.padded",
    "Lp.C97.paddedSearch",
    "Lp.C97.hierarchical",
    "Lp.C97.spatiotemporal"
   ],
   "note": "From the data to the best partition. Proof: cutting silent cells off a part keeps the gain and lowers the loss, so it would be better; ties among silent slices are decided by the first cut, which the code takes as early as possible except that the interval up to the last slice comes first of all. Hierarchical parts at p = 1 are not covered: there the loss does not count and ties give the coarser part."
  },
  {
   "property": "C98",
   "status": "proved",
   "theorems": [
    "Lp.C98.eachLeaf",
    "Lp.C98.timeAlone",
    "Lp.C98.spaceAlone",
    "Lp.C98.array"
   ],
   "note": "From the data (and, in array, from the containers) to the best partitions. Qualities as computeQualities() gives them, before normalize(). The bound is for p*gain-(1-p)*loss only: neither the gain nor the loss alone compares. Slices analysed one by one are not bounded in this way (C81)."
  },
  {
   "property": "C99",
   "status": "proved",
   "theorems": [
    "Lp.C99.ordered",
    "Lp.C99.hierarchical",
    "Lp.C99.spatiotemporal"
   ],
   "note": "From the data to the best partitions. Proof: the uniform series adds c*N*log2(N) to the gain of a part of N cells and nothing to the loss; two partitions, each best for its own c, compared with each other; partitions into more than one part have at least 1 less than the whole in this sum."
  },
  {
   "property": "C100",
   "status": "proved",
   "theorems": [
    "Lp.C100.ordered",
    "Lp.C100.hierarchical",
    "Lp.C100.spatiotemporal",
    "Lp.C100.conflict"
   ],
   "note": "From the data to the best partitions. Proof: the tables of the whole are the sums of those of the series; sums of optima; two lists of decisions that are each before the other are equal; a node replaced in the cover of every series. conflict: a concrete case where the inequality is strict."
  },
  {
   "property": "C101",
   "status": "proved",
   "theorems": [
    "Lp.C101.orderedSame",
    "Lp.C101.hierarchicalSame",
    "Lp.C101.spatiotemporalSame",
    "Lp.C101.ordered",
    "Lp.C101.hierarchical",
    "Lp.C101.spatiotemporal",
    "Lp.C101.searchOrdered",
    "Lp.C101.searchHierarchical",
    "Lp.C101.searchSpatiotemporal",
    "Lp.C101.hierarchicalData"
   ],
   "note": "Model/BestCount.lean repeats computeBestPartition with a counter of the comparisons; orderedSame, hierarchicalSame, spatiotemporalSame prove that its results are those of the functions without counter. The search theorems use the bound of C63 (exact qualities, parameters with FloatLaws)."
  },
  {
   "property": "C102",
   "status": "proved",
   "theorems": [
    "Lp.C102.cube",
    "Lp.C102.nothing",
    "Lp.C102.nothingIff",
    "Lp.C102.ordered",
    "Lp.C102.withHierarchy"
   ],
   "note": "The division of the shares is IEEE's (Special: numbers, infinities, NaN); the steps before only divide by positive numbers. cube gives the array, nothing and nothingIff say which types count nothing, ordered and withHierarchy compose with C76 (exact numbers with NaN and infinities)."
  },
  {
   "property": "C103",
   "status": "proved",
   "theorems": [
    "Lp.C103.anyTable",
    "Lp.C103.table",
    "Lp.C103.data",
    "Lp.C103.dataNormalized"
   ],
   "note": "anyTable for all tables, table where merging does not lower gain or loss (MergeGrows of C75), data and dataNormalized for data that are not negative. Exact quality arithmetic; parameters in any arithmetic. The difference at p = 1 is an evaluated example."
  },
  {
   "property": "C104",
   "status": "proved",
   "theorems": [
    "Lp.C104.given",
    "Lp.C104.data"
   ],
   "note": "given for tables of qualities, data from the values. C47.oneLeafSame makes the two searches related runs (Proofs/SearchRel.lean). Exact arithmetic for the qualities; parameters in any arithmetic."
  }
 ]
}