{"id": "C01", "title": "Triangular matrix cells are independent", "statement": "For a triangular matrix of size n <= 65535, every cell (i,j) with i<=j<n is stored in range, two different cells never share storage, every storage slot belongs to a cell, the last slot is cell (0,n-1), and reading (i,j) returns the last value written to (i,j) whatever other cells were written in between. Reading by position, m[s], is defined exactly for the n(n+1)/2 positions and gives what reading the cell stored there gives. For n >= 65536 the 32-bit arithmetic wraps and this no longer holds.", "quantifier": "all sizes, all cells, all write sequences", "why_tests_cant": "the number of cells and of write orders is unbounded; the wrap-around only shows for sizes no test allocates", "anchors": ["src/lpaggreg/sources/uppertriangularmatrix.cpp: operator(), constructors"]}
{"id": "C02", "title": "Value containers: flat index and multi-index agree", "statement": "For rectangular data of any dimensions with fewer than 2^32 series, enumerating the flat series index 0..getVsize()-1 of OValuesN1-4, HValuesN1-4, DValuesN2-4 visits every (a,b,c) exactly once and yields exactly the value given by the multi-index accessor; the sizes reported match; reading a cell after writing it returns the written value and leaves every other cell unchanged. With more series the reported number is the number modulo 2^32 and only the first series are seen; in the containers with three flattened dimensions this holds as long as the last two have fewer than 2^32 positions, otherwise wrong series are read.", "quantifier": "all dimensions and all data", "why_tests_cant": "dimensions are unbounded; tests use a few square shapes", "anchors": ["src/lpaggreg/sources/ovaluesn.cpp", "src/lpaggreg/sources/hvaluesn.cpp", "src/lpaggreg/sources/dvaluesn.cpp", "src/lpaggreg/headers/lpglobal.h: SIZE1..SIZE4"]}
{"id": "C03", "title": "Exactly which hierarchies get right metadata", "statement": "For every parent vector describing a tree whose leaves are 0..leaves-1 the metadata constructor succeeds, and what it reports (true root, visiting path listing every node once with children before parents, true children of every node, number of leaves below every node) is right if and only if for every node the nearest leaf below each child is strictly nearer than the nearest leaf below the node itself (distance first, ties by leaf number). In particular it is right for every tree whose leaves all have the same depth, and for some but not all other trees: renumbering the leaves of one tree can turn right metadata into wrong ones (wrong root). Parents and subtree sizes read from right metadata are the true ones.", "quantifier": "all parent vectors that describe a tree", "why_tests_cant": "tests use two balanced trees; the traversal depends on leaf order and depth of arbitrary trees", "anchors": ["src/lpaggreg/sources/hvalues.cpp: HValuesMetaData::setPath"]}
{"id": "C04", "title": "Hierarchy metadata construction never loops for ever", "statement": "For every leaf count and every parent vector whatsoever (including cyclic, out-of-range or empty ones) constructing the metadata stops: it either succeeds or performs an out-of-range access; it never runs for ever.", "quantifier": "all leaf counts and integer vectors", "why_tests_cant": "malformed inputs are unbounded and non-termination cannot be observed by a test", "anchors": ["src/lpaggreg/sources/hvalues.cpp: HValuesMetaData::setPath"]}
{"id": "C05", "title": "Ordered qualities are the entropy measures", "statement": "After computeQualities on ordered data, the gain of interval [i,j] is the sum over the series of (S log2 S - sum v log2 v) and the loss is the sum over the series of (S log2 n - (S log2 S - sum v log2 v)), where v ranges over the values in the interval, S is their sum, n=j-i+1; singletons have gain and loss 0; no access is out of range.", "quantifier": "all ordered data sets with non-negative values of any dimension, all intervals", "why_tests_cant": "closed form must hold for all sizes and data", "anchors": ["src/lpaggreg/sources/oqualities.cpp: computeQualities", "src/lpaggreg/sources/complexity.cpp"]}
{"id": "C06", "title": "Hierarchical qualities are the entropy measures", "statement": "After computeQualities on hierarchical data (metadata right), the gain and loss of every node are those entropy measures over the leaves below the node; leaves have (0,0).", "quantifier": "all hierarchies, all data", "why_tests_cant": "closed form must hold for all trees and data", "anchors": ["src/lpaggreg/sources/hqualities.cpp: computeQualities"]}
{"id": "C07", "title": "Spatiotemporal qualities are the entropy measures", "statement": "After computeQualities on two-dimensional data, the gain and loss of every (node, interval) are those entropy measures over the leaves below the node and the slices in the interval, with n = leaves x slices.", "quantifier": "all hierarchies, all interval sizes, all data", "why_tests_cant": "closed form must hold for all trees, sizes and data", "anchors": ["src/lpaggreg/sources/dqualities.cpp: computeQualities"]}
{"id": "C08", "title": "Gain and loss are never negative", "statement": "For non-negative data every gain and every loss computed by computeQualities (ordered, hierarchical, spatiotemporal) is >= 0, hence the quality of every partition is non-negative too.", "quantifier": "all non-negative data", "why_tests_cant": "an inequality over all real-valued data", "anchors": ["src/lpaggreg/sources/oqualities.cpp", "src/lpaggreg/sources/hqualities.cpp", "src/lpaggreg/sources/dqualities.cpp", "src/lpaggreg/sources/complexity.cpp"]}
{"id": "C09", "title": "Merging never lowers gain or loss", "statement": "For non-negative data, replacing parts by the part that is their union never lowers the gain and never lowers the loss; in particular the single whole part has the largest gain and the largest loss among all partitions, and the finest partition has gain 0 and loss 0.", "quantifier": "all data, all pairs of a part and a subdivision of it", "why_tests_cant": "an inequality over all data and subdivisions", "anchors": ["src/lpaggreg/sources/oqualities.cpp", "src/lpaggreg/sources/hqualities.cpp", "src/lpaggreg/sources/dqualities.cpp"]}
{"id": "C10", "title": "Zero loss means homogeneous", "statement": "For non-negative data, a part has loss 0 exactly when in every series all its values are equal (a lossless aggregation), and gain 0 exactly when in every series at most one value is positive.", "quantifier": "all data, all parts", "why_tests_cant": "equality case of an inequality over all data", "anchors": ["src/lpaggreg/sources/complexity.cpp", "src/lpaggreg/sources/oqualities.cpp"]}
{"id": "C11", "title": "Normalization of ordered qualities", "statement": "normalize() on ordered qualities divides the gain and the loss of every interval by those of the whole interval (also the cells processed after the divisor itself), so for non-negative data with a non-zero whole, all gains and losses lie in [0,1] and the whole gets (1,1); a second normalize() changes nothing.", "quantifier": "all qualities with non-zero whole", "why_tests_cant": "the divisor is a reference into the structure being modified: correctness depends on visiting order for all sizes", "anchors": ["src/lpaggreg/sources/oqualities.cpp: normalize", "src/lpaggreg/sources/uppertriangularmatrix.cpp", "src/lpaggreg/sources/quality.cpp: operator/="]}
{"id": "C12", "title": "Normalization of hierarchical and spatiotemporal qualities", "statement": "normalize() on hierarchical / spatiotemporal qualities divides gain and loss of every node (interval) up to and including the root's number by those of the root (whole interval). The nodes numbered above the root are divided by root/root, so they keep their values: the result is right for every quality exactly when the root has the highest number. In that case, for non-negative data and a non-zero root, everything lies in [0,1]; a second normalize() changes nothing.", "quantifier": "all qualities with non-zero root, all positions of the root", "why_tests_cant": "the root's quality is overwritten during the loop; the result depends on the root's index", "anchors": ["src/lpaggreg/sources/hqualities.cpp: normalize", "src/lpaggreg/sources/dqualities.cpp: normalize"]}
{"id": "C13", "title": "Qualities object life cycle", "statement": "Starting with computeQualities(), on non-negative data whose whole has non-zero gain and loss: whatever sequence of computeQualities() and normalize() calls is made on a qualities object built from values, a computeQualities() always brings back exactly the raw qualities of the data, and normalize() calls after it give exactly the normalized ones no matter how many; an object built from ready-made qualities ignores computeQualities().", "quantifier": "all non-negative data with a non-zero whole, all call sequences", "why_tests_cant": "histories are unbounded", "anchors": ["src/lpaggreg/sources/oqualities.cpp", "src/lpaggreg/sources/hqualities.cpp", "src/lpaggreg/sources/dqualities.cpp"]}
{"id": "C14", "title": "Scale invariance", "statement": "Multiplying all the (non-negative) data by a constant c>0 multiplies every gain and loss by c and therefore leaves the best partition unchanged for every parameter; a search inside [0,1] finds the same list of parameters, with all qualities multiplied by c.", "quantifier": "all non-negative data, all c>0, all p", "why_tests_cant": "metamorphic property over all data", "anchors": ["src/lpaggreg/sources/oqualities.cpp", "src/lpaggreg/sources/opartitioner.cpp", "src/lpaggreg/sources/hpartitioner.cpp"]}
{"id": "C15", "title": "Ordered partition is a tiling, whatever the numbers", "statement": "For every quality matrix of size n <= 65535 and every parameter, with any arithmetic (rounding, infinities, NaN), computeBestPartition terminates without out-of-range access and the returned parts are non-empty consecutive intervals covering 0..n-1 exactly once in order.", "quantifier": "all matrices, parameters and arithmetics", "why_tests_cant": "includes every rounding behaviour and NaN; sizes unbounded", "anchors": ["src/lpaggreg/sources/opartitioner.cpp: computeBestPartition", "src/lpaggreg/sources/opartition.cpp: computeParts"]}
{"id": "C16", "title": "Ordered partition is optimal", "statement": "In exact arithmetic, for every p the partition returned by computeBestPartition maximizes p*gain-(1-p)*loss over all interval partitions of 0..n-1; among those it maximizes gain and, among those, minimizes loss.", "quantifier": "all quality matrices, all p, all competing partitions (2^(n-1))", "why_tests_cant": "exponentially many competitors for unbounded n", "anchors": ["src/lpaggreg/sources/opartitioner.cpp: computeBestPartition", "src/lpaggreg/sources/tradeoff.cpp: operator>"]}
{"id": "C17", "title": "Quality of a partition is the sum over its parts", "statement": "For every partition object (ordered, hierarchical, spatiotemporal), getQuality() is the component-wise sum of the qualities of getParts(), and each part carries the quality of its own interval/node, as stored in the qualities given.", "quantifier": "all partitions", "why_tests_cant": "all inputs", "anchors": ["src/lpaggreg/sources/opartition.cpp: computeQuality", "src/lpaggreg/sources/hpartition.cpp: computeQuality", "src/lpaggreg/sources/dpartition.cpp: computeQuality"]}
{"id": "C18", "title": "Hierarchical partition covers every leaf exactly once, whatever the numbers", "statement": "With right metadata, for every parameter and any arithmetic, computeBestPartition terminates without out-of-range access and every leaf is below exactly one returned part; each part reports the number of leaves below it.", "quantifier": "all hierarchies, qualities, parameters, arithmetics", "why_tests_cant": "sizes, trees and arithmetic behaviours unbounded", "anchors": ["src/lpaggreg/sources/hpartitioner.cpp: computeBestPartition", "src/lpaggreg/sources/hpartition.cpp: computeSubPart"]}
{"id": "C19", "title": "Hierarchical partition is optimal and coarsest", "statement": "In exact arithmetic the returned hierarchical partition maximizes p*gain-(1-p)*loss over all sets of nodes covering every leaf exactly once, and every other optimal partition is a refinement of it.", "quantifier": "all trees, qualities, p, competing partitions", "why_tests_cant": "exponentially many competitors", "anchors": ["src/lpaggreg/sources/hpartitioner.cpp: computeBestPartition", "src/lpaggreg/sources/tradeoff.cpp: operator<"]}
{"id": "C20", "title": "Spatiotemporal partition covers every cell exactly once, whatever the numbers", "statement": "With right metadata, for every parameter and any arithmetic, computeBestPartition terminates without out-of-range access and every (leaf, slice) belongs to exactly one returned part.", "quantifier": "all hierarchies, sizes, qualities, parameters, arithmetics", "why_tests_cant": "unbounded", "anchors": ["src/lpaggreg/sources/dpartitioner.cpp: computeBestPartition", "src/lpaggreg/sources/dpartition.cpp: computeSubPart"]}
{"id": "C21", "title": "How far the spatiotemporal partition is optimal", "statement": "In exact arithmetic the returned spatiotemporal partition covers every (leaf, slice) cell once, and maximizes p*gain-(1-p)*loss (ties: more gain, then less loss) among all such partitions into (node, interval) rectangles in which a rectangle of a node always ends before a rectangle of a proper descendant of that node begins; it is one of these. These include every partition of the leaves with a separate tiling of time for each of its nodes, and all partitions when there is one slice. Optimality among all rectangle partitions does not hold: there are data for which a partition that is finer first and coarser later is strictly better than the one returned.", "quantifier": "all trees, sizes, qualities, p, competing partitions", "why_tests_cant": "exponentially many competitors", "anchors": ["src/lpaggreg/sources/dpartitioner.cpp: computeBestPartition"]}
{"id": "C22", "title": "Extreme parameters", "statement": "For entropy qualities of non-negative data: at p=0 the returned partition has loss 0 (nothing is lost) and no lossless partition (spatiotemporal: no lossless coarse-first partition, see C21) has more gain; at p=1 it has the gain of the whole (maximal), the hierarchical partition is the single root, and the ordered (spatiotemporal) one has the least loss among those of that gain (spatiotemporal: among the coarse-first ones).", "quantifier": "all data", "why_tests_cant": "all data", "anchors": ["src/lpaggreg/sources/opartitioner.cpp", "src/lpaggreg/sources/hpartitioner.cpp", "src/lpaggreg/sources/dpartitioner.cpp"]}
{"id": "C23", "title": "No better partition in both gain and loss", "statement": "In exact arithmetic no partition has gain at least and loss at most those of the returned partition with one of them strictly better: ordered data, every p in [0,1]; hierarchical data, every p in (0,1), and also p=0 when the qualities come from non-negative data; spatiotemporal data, every p in [0,1], among the partitions of C21 (a node's rectangles end before those of its proper descendants begin). At p=1 the hierarchical partitioner can return a dominated partition (the coarser of two with the same gain), and the spatiotemporal one can be dominated by partitions outside that set.", "quantifier": "all qualities, all p in [0,1], all competitors", "why_tests_cant": "exponentially many competitors, tie cases", "anchors": ["src/lpaggreg/sources/opartitioner.cpp", "src/lpaggreg/sources/hpartitioner.cpp", "src/lpaggreg/sources/tradeoff.cpp"]}
{"id": "C24", "title": "Gain and loss grow with the parameter", "statement": "In exact arithmetic of the qualities, for 0<=p<p'<=1 the gain and the loss of the partition returned for p' are at least those of the partition returned for p.", "quantifier": "all qualities, all pairs of parameters", "why_tests_cant": "relates two runs over all inputs", "anchors": ["src/lpaggreg/sources/opartitioner.cpp", "src/lpaggreg/sources/hpartitioner.cpp", "src/lpaggreg/sources/dpartitioner.cpp"]}
{"id": "C25", "title": "Equal partitions at two parameters mean the same partition in between", "statement": "If computeBestPartition returns the same parts for p1<p2 in [0,1], it returns the same parts for every p in [p1,p2] (this is what justifies that the search for significant parameters skips such an interval). Holds for every monotone rounding of 1-p.", "quantifier": "all qualities, all p1<p<p2", "why_tests_cant": "infinitely many intermediate parameters, depends on tie-breaking everywhere", "anchors": ["src/lpaggreg/sources/opartitioner.cpp: addBestQualities", "src/lpaggreg/sources/hpartitioner.cpp: addBestQualities", "src/lpaggreg/sources/dpartitioner.cpp: addBestQualities"]}
{"id": "C26", "title": "The parameter search terminates for a sensible threshold", "statement": "computeBestPartitions terminates for every threshold larger than a small multiple of the float resolution, for every data set and range 0<=min<max<=1; with threshold <= 0 and different partitions at the ends it never terminates; with a threshold below the float resolution it may never terminate.", "quantifier": "all qualities, thresholds, ranges", "why_tests_cant": "non-termination cannot be tested", "anchors": ["src/lpaggreg/sources/opartitioner.cpp: addBestQualities", "src/lpaggreg/sources/hpartitioner.cpp", "src/lpaggreg/sources/dpartitioner.cpp"]}
{"id": "C27", "title": "The parameter search misses nothing wider than the threshold", "statement": "After computeBestPartitions(threshold,min,max) with 0<=min<max<=1 (exact qualities, any admissible rounding of the parameters): every partition that is the best one at two parameters of [min,max] more than threshold apart is in getPartitions(); more precisely for every p in [min,max], either the partition of p is one of those returned, or p lies strictly between two sampled parameters at most threshold apart.", "quantifier": "all qualities, thresholds, p", "why_tests_cant": "infinitely many p", "anchors": ["src/lpaggreg/sources/opartitioner.cpp: computeBestPartitions, addBestQualities", "src/lpaggreg/sources/hpartitioner.cpp", "src/lpaggreg/sources/dpartitioner.cpp"]}
{"id": "C28", "title": "The list of significant parameters is strictly increasing and free of repetitions", "statement": "After computeBestPartitions with 0<=min<max<=1 (exact qualities, any admissible rounding of the parameters): getPList() is strictly increasing, starts with min, stays within [min,max]; getPartitions() and getQualityList() have exactly these keys; each maps p to computeBestPartition(p) and its quality; the partitions are pairwise different; the last one equals the partition at max.", "quantifier": "all qualities, thresholds", "why_tests_cant": "all inputs", "anchors": ["src/lpaggreg/sources/opartitioner.cpp: computeBestPartitions", "src/lpaggreg/sources/hpartitioner.cpp", "src/lpaggreg/sources/dpartitioner.cpp"]}
{"id": "C29", "title": "A degenerate range min=max loses the partition", "statement": "computeBestPartitions(threshold,p,p) leaves getPList()=[p] but empty getPartitions(), getQualityList() and getPartitionsTuples(); afterwards getP(P_MAX)=p, getP(P_OPT) dereferences a null pointer and computeAUC() is 1. (Under the strict reading of the standard the call itself is undefined.)", "quantifier": "all qualities, all p", "why_tests_cant": "corner case of an API with default arguments, for all data", "anchors": ["src/lpaggreg/sources/opartitioner.cpp: computeBestPartitions"]}
{"id": "C30", "title": "Repeated searches do not influence each other", "statement": "The results of computeBestPartitions depend only on the qualities and the arguments of the last call, not on earlier calls; computeBestPartition does not modify the partitioner at all.", "quantifier": "all call histories", "why_tests_cant": "histories are unbounded", "anchors": ["src/lpaggreg/sources/opartitioner.cpp: computeBestPartitions", "src/lpaggreg/sources/hpartitioner.cpp", "src/lpaggreg/sources/dpartitioner.cpp"]}
{"id": "C31", "title": "getP strategies", "statement": "After a search, getP(P_MAX) is the largest significant parameter, getP(P_OPT) is a significant parameter minimizing (gain-1)^2+loss^2, the largest such one, provided the best score is at most RAND_MAX; getP(P_MIN) and unknown strategies give 0; before any search P_MAX and P_OPT read outside / uninitialized memory.", "quantifier": "all quality lists", "why_tests_cant": "all inputs, ties", "anchors": ["src/lpaggreg/sources/partitioner.cpp: getP, computePOpt"]}
{"id": "C32", "title": "Area under the quality curve", "statement": "computeAUC() after a search is 1 minus the trapezoid area of loss as a function of gain over the reported qualities; for normalized entropy qualities of non-negative data with a non-zero whole (hierarchical and spatiotemporal: root numbered last) it lies in [0,1]. With no search made it reads out of range.", "quantifier": "all data", "why_tests_cant": "all inputs", "anchors": ["src/lpaggreg/sources/partitioner.cpp: computeAUC"]}
{"id": "C33", "title": "Partition table agrees with the partitions", "statement": "getPartitionsTuples() lists, by increasing parameter and in part order, exactly one row per part of every partition of getPartitions(), with the part's bounds/node/size, gain and loss; the gains and losses of the rows of one parameter sum to the entry of getQualityList().", "quantifier": "all results", "why_tests_cant": "all inputs", "anchors": ["src/lpaggreg/sources/opartitioner.cpp", "src/lpaggreg/sources/hpartitioner.cpp", "src/lpaggreg/sources/dpartitioner.cpp"]}
{"id": "C34", "title": "Tradeoff comparison operators", "statement": "operator> on tradeoffs is the strict lexicographic order (value, then gain, then smaller loss): irreflexive, transitive, total up to equality of all three, compatible with +=; operator<= is its negation. operator< compares values only, so a<b is not the same as b>a when values tie.", "quantifier": "all triples of tradeoffs", "why_tests_cant": "order laws over all values", "anchors": ["src/lpaggreg/sources/tradeoff.cpp"]}
{"id": "C35", "title": "Quality equality", "statement": "operator== on qualities holds exactly when the two are identical or the gains differ by less than 1e-13 times the larger of the mean gain and the mean loss: it is reflexive and symmetric, != is its negation, equal qualities have gains that agree to that precision; but the losses are never compared (non-negative qualities with the same gain are always equal) and it is not transitive.", "quantifier": "all pairs of qualities", "why_tests_cant": "all real pairs", "anchors": ["src/lpaggreg/sources/quality.cpp: operator=="]}
{"id": "C36", "title": "Ordered aggregates", "statement": "For every part of an ordered partition the aggregate's sum is the exact sum of the data over the part for every series, the mean times the part size is the sum, and the sums over all parts of a partition add up to the total of the data.", "quantifier": "all data, all partitions", "why_tests_cant": "all inputs", "anchors": ["src/lpaggreg/sources/oaggregationn.cpp"]}
{"id": "C37", "title": "Hierarchical and spatiotemporal aggregates are right exactly for parents of leaves", "statement": "For a hierarchy with at least two nodes, the hierarchical (spatiotemporal) aggregate of a part is, for every series, the exact sum of the data over the leaves below the part's node (and the slices of the part), with mean sum/size, exactly when the part's node is an inner node all of whose children are leaves. For a part that is a single leaf the reported sum and mean are 0 whatever the data, and for a part whose node has a child that is not a leaf the constructor never returns; consequently the aggregation of the one-part partition of a hierarchy with more than two levels never returns, and that of the all-leaves partition reports only zeros.", "quantifier": "all trees, nodes, data of every dimension, recursion budgets", "why_tests_cant": "depends on the shape of the tree below the part; one shape makes the recursion endless, which no finite run shows", "anchors": ["src/lpaggreg/sources/haggregationn.cpp: subSum", "src/lpaggreg/sources/daggregationn.cpp: subSum"]}
{"id": "C38", "title": "Partition equality", "statement": "Two partitions computed from the same structure compare equal (==) exactly when they have the same parts (as sets), and unequal (!=) exactly when they do not; it is an equivalence relation; for ordered and hierarchical partitions it does not depend on qualities or parameter. Two parts are != exactly when their bounds, nodes or sizes differ, whatever their qualities.", "quantifier": "all pairs of partitions", "why_tests_cant": "all inputs; the spatiotemporal comparison is one-sided", "anchors": ["src/lpaggreg/sources/opartition.cpp: operator==, operator!=", "src/lpaggreg/sources/hpartition.cpp: operator==, operator!=", "src/lpaggreg/sources/dpartition.cpp: operator==, operator!="]}
{"id": "C39", "title": "Removing duplicates from the result list", "statement": "The loop that removes repeated partitions decrements an iterator that erase has invalidated: under the strict reading of the standard a search has a defined result exactly when no two consecutive sampled partitions are equal, and then nothing is removed; a search whose two ends have the same partition is always undefined.", "quantifier": "all partitioners, thresholds and ranges", "why_tests_cant": "undefined behaviour that happens to work is invisible to tests", "anchors": ["src/lpaggreg/sources/opartitioner.cpp:28-34", "src/lpaggreg/sources/hpartitioner.cpp:29-35", "src/lpaggreg/sources/dpartitioner.cpp:28-34"]}
{"id": "C40", "title": "Homogeneous data give one part", "statement": "If in every series all values are equal (zero allowed), computeBestPartition returns the single whole part for every p >= 0, whatever the rounding of 1-p (ordered, hierarchical and spatiotemporal).", "quantifier": "all sizes, all p", "why_tests_cant": "all sizes and parameters", "anchors": ["src/lpaggreg/sources/opartitioner.cpp", "src/lpaggreg/sources/hpartitioner.cpp", "src/lpaggreg/sources/dpartitioner.cpp"]}
{"id": "C41", "title": "Series order and empty series do not matter", "statement": "Permuting the series (type dimension) or adding an all-zero series does not change any quality, hence no partition.", "quantifier": "all data, all permutations", "why_tests_cant": "all inputs", "anchors": ["src/lpaggreg/sources/oqualities.cpp", "src/lpaggreg/sources/hqualities.cpp", "src/lpaggreg/sources/dqualities.cpp"]}
{"id": "C42", "title": "Shared quality objects: harmless inside the searches, visible after normalize()", "statement": "Tradeoffs, parts and tables share quality objects through pointers. For every memory and every table of pointers (the same object may even occur several times) computeBestPartition of the three partitioners has the same outcome as if every tradeoff had its own copy (spatiotemporal: if no node is its own parent, which holds for every tree), modifies no object that existed before, returns parts that hold the very objects of the table, and a partition whose own quality is a new object. So later searches and later computeQualities() calls (which make new tables of new, distinct objects) leave earlier partitions unchanged. But normalize() on the table's objects changes what the parts of an already returned partition report: each part then reports the normalized entry of the table, while the partition's own quality, parameter and cuts stay as they were; for exact ordered qualities the parts then sum to the partition's own quality divided by that of the whole interval, i.e. the partition's own quality is out of date.", "quantifier": "all memories, tables of pointers (with any sharing), arithmetics, parameters, metadata (spatiotemporal: without self-parents), and the call orders search/search, search/computeQualities, search/normalize", "why_tests_cant": "aliasing effects depend on the interleaving of reads and writes over unbounded loops", "anchors": ["src/lpaggreg/sources/tradeoff.cpp", "src/lpaggreg/sources/opartitioner.cpp: computeBestPartition", "src/lpaggreg/sources/hpartitioner.cpp: computeBestPartition", "src/lpaggreg/sources/dpartitioner.cpp: computeBestPartition", "src/lpaggreg/sources/opartition.cpp", "src/lpaggreg/sources/hpartition.cpp", "src/lpaggreg/sources/dpartition.cpp", "src/lpaggreg/sources/oqualities.cpp: normalize", "src/lpaggreg/sources/hqualities.cpp: normalize", "src/lpaggreg/sources/dqualities.cpp: normalize"]}
{"id": "C43", "title": "Degenerate hierarchies", "statement": "A hierarchy consisting of a single node gets right metadata but cannot be analysed: computing its hierarchical or spatiotemporal qualities and its best hierarchical partition access memory out of range for every data and every parameter; only the spatiotemporal partitioner on ready-made qualities handles it.", "quantifier": "the single-node hierarchy, all data", "why_tests_cant": "undefined behaviour is invisible to tests", "anchors": ["src/lpaggreg/sources/hqualities.cpp: computeQualities", "src/lpaggreg/sources/hpartitioner.cpp: computeBestPartition", "src/lpaggreg/sources/dqualities.cpp"]}
{"id": "C44", "title": "Life cycle errors of the qualities objects", "statement": "normalize() and size() before computeQualities() dereference a null pointer on a qualities object built from values; so does normalize() on an ordered or spatiotemporal qualities object built from ready-made qualities (hierarchical ones can be normalized). After computeQualities() on data with at least one slice (and, for hierarchies, right metadata with at least one inner node) normalize() and size() are always defined, whatever calls of computeQualities() and normalize() follow. On data without any slice normalize() accesses memory out of range, although computeQualities() and size() work.", "quantifier": "all ways of building the object, all data, all sequences of computeQualities() and normalize() calls", "why_tests_cant": "undefined behaviour is invisible to tests", "anchors": ["src/lpaggreg/sources/oqualities.cpp: normalize", "src/lpaggreg/sources/dqualities.cpp: normalize"]}
{"title": "Shape of the quality curve", "statement": "After a search on a range inside [0,1], the qualities in getQualityList(), in the order of the parameters, form a strictly monotone concave curve: gain and loss never fall and no two entries are equal (both rise strictly for ordered and spatiotemporal partitioners, and for hierarchical ones when the range leaves out 0 and 1), and for any three entries the second step buys no more gain per loss than the first. Two parameters whose results have equal gain and loss have equal partitions. Consequently, for non-negative data whose normalized qualities are right, a search from 0 gives computeAUC() between 1/2 and 1.", "quantifier": "all qualities tables (and, for the last part, all non-negative data), all hierarchies with right metadata, all ranges 0 <= min < max <= 1, thresholds and histories, any monotone rounding of 1-p; exact arithmetic on the qualities", "why_tests_cant": "concavity is a statement about every triple of results over all tables and ranges; a test checks one curve", "anchors": ["src/lpaggreg/headers/partitioner.h: computeBestPartitions, computeAUC, getQualityList", "src/lpaggreg/sources/opartitioner.cpp: computeBestPartition", "src/lpaggreg/sources/hpartitioner.cpp: computeBestPartition", "src/lpaggreg/sources/dpartitioner.cpp: computeBestPartition"], "id": "C45"}
{"title": "Tradeoff and Quality arithmetic, and what assignment shares", "statement": "The compound operators += -= *= /= on Quality and Tradeoff act on gain, loss and value separately, also when both operands are the same object; the constructors and set() copy the quality they are given. Any sequence of calls without pointer copies, getQuality() and Tradeoff assignment, and more generally any sequence in which every write goes to an object with no other user, behaves as if each variable held its own numbers. After t1=t2 a compound operator on t1 also changes the gain and loss of t2, but not t2's value, so t2's value no longer fits its quality.", "quantifier": "all numbers of variables, all sequences of calls, all contents, any arithmetic", "why_tests_cant": "ranges over every sequence of calls and every aliasing pattern; the library's tests contain no aliased sequence at all", "anchors": ["src/lpaggreg/sources/tradeoff.cpp: Tradeoff, set, computePIC, operator+=, operator-=, operator*=, operator/=, getQuality", "src/lpaggreg/sources/quality.cpp: Quality, setGain, setLoss, addToGain, addToLoss, operator+=, operator-=, operator*=, operator/="], "id": "C46"}
{"title": "The three analyses agree where they overlap", "statement": "The spatiotemporal qualities of a leaf over all intervals equal the ordered qualities of that leaf's series, and the spatiotemporal qualities of all nodes at a single slice equal the hierarchical qualities of that slice's values, for data of any sign. With one slice the spatiotemporal partitioner returns a partition of the leaves into nodes with the same value p*gain-(1-p)*loss as the hierarchical partitioner. With one leaf it returns the same tiling of the slices, part by part and in the same order, with the same gain and loss as the ordered partitioner, for every parameter and data of any sign.", "quantifier": "all data, all hierarchies with right metadata, all leaves, slices, parameters (exact arithmetic)", "why_tests_cant": "relates three separate implementations on every input; a test compares them on one data set", "anchors": ["src/lpaggreg/sources/dqualities.cpp: computeQualities", "src/lpaggreg/sources/oqualities.cpp: computeQualities", "src/lpaggreg/sources/hqualities.cpp: computeQualities", "src/lpaggreg/sources/dpartitioner.cpp: computeBestPartition", "src/lpaggreg/sources/hpartitioner.cpp: computeBestPartition", "src/lpaggreg/sources/opartitioner.cpp: computeBestPartition"], "id": "C47"}
{"title": "Locality: a part of the result depends only on the data it concerns", "statement": "If the ordered best partition has a part that starts at slice k, that part and all later ones are exactly the best partition of the data from slice k on (indices shifted, same qualities). What follows a part of the whole hierarchy ending with slice k-1 in the spatiotemporal best partition is exactly the best partition of the data from slice k on. If two data sets on the same hierarchy agree on the leaves below a node h and neither hierarchical best partition has a part strictly above h, the parts below h are the same in both. For tables of qualities these hold under any arithmetic.", "quantifier": "all tables of qualities in any arithmetic; all real data of any sign, all k, all nodes, all parameters", "why_tests_cant": "compares the results for every data set with those for every change of the rest of the data", "anchors": ["src/lpaggreg/sources/opartitioner.cpp: computeBestPartition", "src/lpaggreg/sources/dpartitioner.cpp: computeBestPartition", "src/lpaggreg/sources/hpartitioner.cpp: computeBestPartition", "src/lpaggreg/sources/opartition.cpp: OPartition", "src/lpaggreg/sources/dpartition.cpp: computeSubPart", "src/lpaggreg/sources/hpartition.cpp: computeSubPart"], "id": "C48"}
{"title": "The functions called from R return right sheets, end to end", "statement": "For every three-dimensional non-negative R array (first index fastest; at least one and at most 65535 slices, fewer than 2^32 series, whole with non-zero gain and loss) and, for haggregate and daggregate, every 1-based parent vector of a hierarchy with right metadata whose root (parent 0) is the last node, and every positive threshold of at least 11 rounding units, oaggregate/haggregate/daggregate return: the parameters of Qualities start at 0, increase strictly and are at most 1; Partitions consists of the rows of these parameters in order; the rows of each parameter are, with numbers from 1, a tiling of the slices / a set of nodes covering every leaf once / rectangles covering every cell once, carrying the entropy gain and loss of the data relative to the whole and the right sizes; they are optimal for p*gain-(1-p)*loss among all tilings / all covers / all coarse-first partitions; Gain and Loss of Qualities are their sums, lie in [0,1] and grow from row to row; POpt is the parameter nearest to gain 1, loss 0; AUC is between 1/2 and 1.", "quantifier": "all array dimensions and contents, all hierarchies, thresholds, rounding modes of the parameter arithmetic", "why_tests_cant": "the claim is about every array, hierarchy and threshold and compares with all partitions", "anchors": ["R/lpaggreg.R: convertToMicroModel, convertToHierarchy, oaggregate, haggregate, daggregate", "src/lpaggreg/sources/opartitioner.cpp: computeBestPartitions", "src/lpaggreg/sources/partitioner.cpp: getP, computeAUC"], "id": "C49"}
{"title": "With rounded quality arithmetic the partitions are nearly optimal", "statement": "If every addition, subtraction and multiplication of qualities is rounded with relative error at most u (monotone rounding, no overflow or underflow; 2^-63 for the 64-bit significand of long double), then for any table of qualities and any parameter no competing partition beats the returned one by more than ((1+u)^k-1) times the sum over the parts of both partitions of |p*gain|+|(1-p)*loss|, all taken exactly; k is elements+1 for ordered data (all tilings compete), leaves+1 for hierarchies (all leaf covers), leaves+slices for space-time (all coarse-first covers). The reported gain and loss are the exact sums up to a relative error (1+u)^(parts-1)-1. With u=2^-63 and at most 65535 elements the ordered factor is below 2^-46. Rounding really can change the returned partition.", "quantifier": "all qualities, parameters, hierarchies, sizes, roundings, competing partitions", "why_tests_cant": "exponentially many competitors, all rounding patterns", "anchors": ["src/lpaggreg/sources/opartitioner.cpp: computeBestPartition", "src/lpaggreg/sources/hpartitioner.cpp: computeBestPartition", "src/lpaggreg/sources/dpartitioner.cpp: computeBestPartition", "src/lpaggreg/sources/tradeoff.cpp", "src/lpaggreg/headers/lpglobal.h: lp_quality_type"], "id": "C50"}
{"title": "hmacro describes the data by the nodes of a partition", "statement": "For micro data over a hierarchy whose numbering the library reads right (C03) with distinct node and type names, hmacro(df, micro, p) returns exactly one row per node listed in df for p, per type and per slice; its value is the sum of the micro values of the leaves below the node, Parent is the name of the parent node (the root names itself) and Size is that of df. The values of each type and slice add up to the total over all leaves. Composed with haggregate: for every parameter in Qualities the rows describe a partition with that gain and loss that is optimal for the parameter. getpath visits every node once, children before parents, root last.", "quantifier": "all trees satisfying the numbering condition, all node/type names, positive numbers of types and slices, all real data, all partitions (and, for getpath, all such trees); fewer than 2^32 series in the arrays given to the library", "why_tests_cant": "trees, names and partitions are unbounded; a test shows one plot", "anchors": ["R/lpaggreg_pjdump.R: getpath, hmacro", "R/lpaggreg.R: haggregate"], "id": "C51"}
{"title": "omacro describes the data by the parts of an ordered partition", "statement": "For micro data with distinct space and type names and a partition of the slices into consecutive intervals, omacro(df, micro, p) returns exactly one row per space, type and interval, whose value is the mean of the micro values over the slices of the interval; the means weighted by the numbers of slices add up to the total over all slices. Composed with oaggregate: for every parameter in Qualities the rows describe a partition with that gain and loss that is optimal for the parameter.", "quantifier": "all array dimensions, names, real data and interval partitions; for the composition all non-negative data that are not trivial and every parameter found; fewer than 2^32 series in the arrays given to the library", "why_tests_cant": "array sizes and partitions are unbounded; a test shows one plot", "anchors": ["R/lpaggreg_pjdump.R: omacro", "R/lpaggreg.R: oaggregate"], "id": "C52"}
{"title": "A trace of states becomes exact shares of equal time slices", "statement": "Cut into n slices by slicerstate / pjdump2micro (State, no hierarchy), a trace of states gives one row per resource that overlaps a slice, value and slice up to the last slice any state overlaps: Sum is the time the resource spends in that value during that slice and Normalized is its share of the whole time of the trace. The Sum column of a resource and value adds up to the durations of its states; a resource that is always in exactly one state has shares adding up to 1/n in every slice; all n slices exist when a state of positive length ends with the trace; the array never fails to be built, has sorted, duplicate-free dimension names, and its cells are these shares; the order of the states, the unit and the origin of time do not matter; oaggregate applied to the array returns a right result about the shares.", "quantifier": "all traces of states with right durations and positive total time, all numbers of slices, all resources, values and slices, any ordered field of time stamps (reals for the aggregation); fewer than 2^32 series in the arrays given to the library", "why_tests_cant": "States may begin, end and overlap slices at any real position, in any number and order; tests sample a few traces and cannot show conservation of time for all of them.", "anchors": ["R/lpaggreg_pjdump.R: slicerstate, pjdump2micro", "R/lpaggreg_pjdump.R: expand.grid / summarize in slicerstate"], "id": "C53"}
{"title": "The containers of a trace become the hierarchy that the library reads, end to end", "statement": "For a trace whose containers form a tree listed root first, pjdump2micro with hierarchy succeeds; its names are the childless containers with data in increasing order followed by the containers with children in decreasing order, and the hierarchy vector gives the one-based place of each name's parent and 0 for the root. If every childless container has data, the vector is a tree whose leaves are the spaces of the array, whose descendant relation is that of the containers, with the root last when its name is least; if all childless containers have the same depth, the library reads that tree correctly, so that, with the root last, haggregate and daggregate applied to the result are right about the shares of time and hmacro describes the optimal partitions by the sums of shares below each node. A state or parent that is no container makes the function fail.", "quantifier": "all traces with right durations, all container tables, all numbers of slices, all names with a linear order; fewer than 2^32 series in the arrays given to the library", "why_tests_cant": "The places of the parents depend on the sorting of arbitrary names and on which containers have data; tests sample a few trees and cannot show that descendants are preserved for all of them.", "anchors": ["R/lpaggreg_pjdump.R: pjdump2micro, parsepjdump, hmacro", "R/lpaggreg.R: haggregate, daggregate", "src/lpaggreg/sources/hvalues.cpp: HValuesMetaData::setPath"], "id": "C54"}
{"title": "Counters become shares of what is counted, end to end", "statement": "slicerprvcounter gives exactly one row for each resource that has a counter with two readings, each type of such a counter and each slice up to the last one in which a counter is known. Mean is the mean per unit of time of the counter during the slice, each reading but the first being spread evenly over the interval of the reading before it (0 where unknown or negative); mean times known time summed over the slices gives back exactly what the readings count; Normalized is the share of the mean in all means of this type, sums to 1 for each type that counts something, and equals the share of the counts when the counters are known all the time. pjdump2micro puts these shares at their resource, type and slice, with the hierarchy of the containers, and oaggregate applied to the array is right about them.", "quantifier": "all traces of counters whose counting intervals have a length, all numbers of slices, all container tables; fewer than 2^32 series in the arrays given to the library", "why_tests_cant": "Intervals cross slice boundaries arbitrarily and the conservation of the counts holds only over all slices; tests check a few cuts of a few traces.", "anchors": ["R/lpaggreg_pjdump.R: slicerprvcounter, pjdump2micro", "R/lpaggreg.R: oaggregate"], "id": "C55"}
{"title": "What the plots show", "statement": "oplot_stacked_state applied to omacro draws one bar for each type and part of the ordered partition, exactly over the slices of the part up to the gap hspace, with the mean of the data over the spaces and the slices of the part as height; the area of each type does not depend on the partition; if the data of each space and slice add up to c over the types all stacks have height c, in particular 1/n for a trace whose resources are always in exactly one of their states. hplot_treemap_state applied to hmacro shows one tile for each node and type below the name of the parent, with the data below the node averaged over the slices as area, so that the total area of a type does not depend on the partition; hplot_treemap_perfcounter shows the number of leaves as area and the mean over the leaves below the node and the slices as value, the areas of a type adding up to the number of leaves.", "quantifier": "all data arrays, all tilings and all partitions of the leaves, all names, all gaps; all traces whose resources are always in exactly one state", "why_tests_cant": "What is conserved must hold for every partition that the algorithm may return; a plot of one data set shows one partition.", "anchors": ["R/lpaggreg_pjdump.R: oplot_stacked_state, hplot_treemap_state, hplot_treemap_perfcounter, omacro, hmacro"], "id": "C56"}
{"title": "Every value of a part is used exactly once, in every arithmetic", "statement": "computeQualities() on ordered, hierarchical and spatiotemporal data gives each part a gain and a loss built, one series after another, from one sum of the values of the part and one sum of their x log x measures; each value of the part occurs exactly once in each sum and no other value occurs. Only the order of the additions is open. The quality of a single value is exactly zero. This holds whatever the arithmetic does (rounding, infinities, NaN).", "quantifier": "every arithmetic (no law assumed), every data container of the three kinds with any number of series, up to 65535 elements or slices (leaves times slices below 2^31), every right hierarchy with an inner node, every part", "why_tests_cant": "the tests compare a few decimals of a few data sets; a value counted twice or left out can be invisible there", "anchors": ["src/lpaggreg/sources/oqualities.cpp: OQualities::computeQualities", "src/lpaggreg/sources/hqualities.cpp: HQualities::computeQualities", "src/lpaggreg/sources/dqualities.cpp: DQualities::computeQualities", "src/lpaggreg/sources/complexity.cpp"], "id": "C57"}
{"title": "Rounding errors from the data to the partition", "statement": "With rounded arithmetic (relative error u per operation, accuracy w of the logarithms) and data that are not negative, the computed gain and loss of a part with N values and m series differ from the true entropy gain and loss by at most (1+w)^3(1+u)^(3N+m+1)-1 times the sizes of their terms, and no partition (for hierarchy x time: no coarse-first partition) beats the returned one, measured with the true gain and loss, by more than (1+w)^3(1+u)^k-1 times the sizes of the terms of both (k = 4n+m+2 for n elements or leaves, 3ln+m+1+l+n for l leaves and n slices). After normalize() (hierarchies: the root has the largest number, see C12) the same holds with one more rounding and the weights divided by the computed gain and loss of the whole. For the x87 long double with logarithms in double, up to 65535 elements and series, the fraction is at most 2^-42.", "quantifier": "every rounding with relative error u and accuracy w <= 1/2 such that (1+u)^(number of values) <= 3/2, all non-negative data, all parameters p, all competing partitions", "why_tests_cant": "rounding errors accumulate over all sums and comparisons; a test sees one data set", "anchors": ["src/lpaggreg/sources/oqualities.cpp", "src/lpaggreg/sources/hqualities.cpp", "src/lpaggreg/sources/dqualities.cpp", "src/lpaggreg/sources/complexity.cpp", "src/lpaggreg/headers/complexity.h", "src/lpaggreg/sources/opartitioner.cpp", "src/lpaggreg/sources/hpartitioner.cpp", "src/lpaggreg/sources/dpartitioner.cpp"], "id": "C58"}
{"title": "Normalising a whole without gain or without loss gives NaN: whole, finest and an undefined optimum", "statement": "In every arithmetic with IEEE NaN: if the computed gain or the computed loss of the whole is zero, then after normalize() the ordered and the spatiotemporal partitioner return the single whole for every parameter, while the hierarchical partitioner returns the finest partition (all leaves) for every parameter; computeBestPartitions keeps only the lower bound, and getP(P_OPT) reads an uninitialised variable, so oaggregate, haggregate and daggregate, which always normalise, have no defined result. This is the case for a single slice, for all-zero data, and, in exact arithmetic, for exactly the data not covered by the right-result property C49 (homogeneous data, or at most one non-zero value in each series).", "quantifier": "all arithmetics satisfying the IEEE laws of NaN, all values, sizes, hierarchies with right metadata, parameters, ranges, thresholds and recursion budgets; fewer than 2^32 series in the arrays given to the library", "why_tests_cant": "the claim ranges over all data with a degenerate whole, every parameter and every arithmetic; a test of one NaN run shows one parameter and an accidental value of the uninitialised variable", "anchors": ["src/lpaggreg/sources/oqualities.cpp: normalize", "src/lpaggreg/sources/hqualities.cpp: normalize", "src/lpaggreg/sources/dqualities.cpp: normalize", "src/lpaggreg/sources/opartitioner.cpp: computeBestPartition", "src/lpaggreg/sources/hpartitioner.cpp: computeBestPartition", "src/lpaggreg/sources/dpartitioner.cpp: computeBestPartition", "src/lpaggreg/sources/partitioner.cpp: computePOpt", "src/lpaggreg/sources/tradeoff.cpp: operator<, operator>", "R/lpaggreg.R: oaggregate, haggregate, daggregate"], "id": "C59"}
{"title": "The numbering of the hierarchy does not matter", "statement": "Give the same hierarchy to the library under two numberings (any one-to-one renumbering of leaves, inner nodes and root that the library reads right) and move the leaves' values accordingly. Then renumbered nodes get the same gains and losses, computeBestPartition returns for every parameter the same partition up to the renumbering and the order in which parts are listed (same sizes, part qualities and total quality), and a search returns the same parameters, the same quality list, the same partitions and the same table rows up to order, or ends in the same fault; hence getP and computeAUC agree. In particular the visiting order and the order of children do not matter. A numbering that the library misreads (C03) gives a different outcome for the same hierarchy.", "quantifier": "all hierarchies, all renumberings read right, all values of any sign (or any node qualities in any arithmetic whose sums do not depend on the order), all parameters, thresholds, ranges and previous histories", "why_tests_cant": "The renumberings of an n-node hierarchy grow like n!, and the claim ranges over all trees, data and parameters; the code's visiting path and child order depend on the numbering.", "anchors": ["src/lpaggreg/sources/hvalues.cpp: HValuesMetaData::setPath", "src/lpaggreg/sources/hpartitioner.cpp: computeBestPartition, computeBestPartitions", "src/lpaggreg/sources/dpartitioner.cpp: computeBestPartition, computeBestPartitions", "src/lpaggreg/sources/hqualities.cpp: computeQualities", "src/lpaggreg/sources/dqualities.cpp: computeQualities"], "id": "C60"}
{"title": "Reversing time: ordered results are mirrored, spatiotemporal ones may not be", "statement": "Give the ordered library the same data in reversed order. Then the gain and loss of elements i..j are those of the mirrored interval, the best partition for every parameter has the same gain and loss (and is the mirrored partition unless another one has exactly the same gain and loss), and every search returns the same parameters and the same quality list, hence the same getP and AUC, or ends in the same fault. More generally two partitioners of any kind whose best partitions have equal gain and loss for every parameter return the same parameters and qualities. Spatiotemporal qualities are mirrored too, but the spatiotemporal partition may be strictly better for one direction of time than for the other.", "quantifier": "every number of elements up to 65535, every data of any sign and any number of series, every table of qualities, every parameter, threshold and search interval; every hierarchy", "why_tests_cant": "a test compares one series with its reversal, the claim is about all data, all parameters and all searches", "anchors": ["src/lpaggreg/sources/opartitioner.cpp OPartitioner::computeBestPartition", "src/lpaggreg/sources/dpartitioner.cpp DPartitioner::computeBestPartition", "src/lpaggreg/headers/partitioner.h: computeBestPartitions", "src/lpaggreg/sources/oqualities.cpp OQualities::computeQualities", "src/lpaggreg/sources/dqualities.cpp DQualities::computeQualities"], "id": "C61"}
{"title": "Normalising only changes the scale of the parameter", "statement": "If the whole has positive gain G and loss L, the best partition of normalised qualities for p consists of the same parts as the best partition of the qualities before normalize() for p' = pL/(pL+(1-p)G), with gains divided by G and losses by L. p -> p' is a strictly increasing bijection of [0,1] fixing 0 and 1, so that exactly the same partitions are obtained with and without normalisation. For hierarchies the root must have the highest node number; otherwise normalising does change the partitions.", "quantifier": "every ordered, hierarchical and spatiotemporal table of qualities with positive whole, every non-negative data with whole of non-zero gain and loss, every parameter in [0,1]; exact arithmetic", "why_tests_cant": "a test compares a few parameters for a few data sets; the claim is about the whole interval of parameters and all data", "anchors": ["src/lpaggreg/sources/oqualities.cpp OQualities::normalize", "src/lpaggreg/sources/hqualities.cpp HQualities::normalize", "src/lpaggreg/sources/dqualities.cpp DQualities::normalize", "src/lpaggreg/sources/opartitioner.cpp OPartitioner::computeBestPartition", "src/lpaggreg/sources/hpartitioner.cpp HPartitioner::computeBestPartition", "src/lpaggreg/sources/dpartitioner.cpp DPartitioner::computeBestPartition"], "id": "C62"}
{"title": "How much work a search does", "statement": "A search over [min,max] computes a best partition at most once per parameter, only for parameters of the range, and includes every parameter it returns. If 2^N thresholds (less the rounding of the parameters) cover the range, it computes at most 2 + N*(k-1) partitions, where k is the number of parameters returned, and never more than 2^N + 1. With float parameters and a threshold of at least 0.001 that is at most 2 + 10*(k-1).", "quantifier": "every partitioner of the three kinds, every table of qualities, every range in [0,1], every threshold, every rounding mode of binary32 parameters", "why_tests_cant": "a test measures the cost of single searches; the bound is for all data, thresholds and rounding modes", "anchors": ["src/lpaggreg/sources/opartitioner.cpp OPartitioner::addBestQualities", "src/lpaggreg/sources/hpartitioner.cpp HPartitioner::addBestQualities", "src/lpaggreg/sources/dpartitioner.cpp DPartitioner::addBestQualities"], "id": "C63"}
{"title": "Which bad hierarchies are noticed", "statement": "For every parent vector whatsoever (any integers, any declared number of leaves): if metadata and then a partition (hierarchical or spatiotemporal) or qualities are computed without leaving defined behaviour, then exactly one entry is -1, namely that of the reported root, all others are node numbers, and every inner node has a leaf below it; so forests, numbers out of range and childless inner nodes never yield a result. If in addition a level function exists (0 on leaves, +1 from node to parent) all metadata is right. For every tree, even one the constructor misreads, a partition that is returned covers every leaf (every leaf and slice) exactly once. Cycles, leaves given as parents, and trees with a late child can be processed silently with a wrong result (witnesses).", "quantifier": "all integer parent vectors, leaf counts, quality tables, parameters and arithmetics; all trees for the covering part", "why_tests_cant": "The space of malformed parent vectors is infinite and a test only shows that one of them crashes; that every result implies a sound hierarchy is a statement about all of them.", "anchors": ["src/lpaggreg/sources/hvalues.cpp: HValuesMetaData::setPath", "src/lpaggreg/sources/hpartitioner.cpp: HPartitioner::computeBestPartition", "src/lpaggreg/sources/dpartitioner.cpp: DPartitioner::computeBestPartition", "src/lpaggreg/sources/hqualities.cpp: HQualities::computeQualities", "src/lpaggreg/sources/dqualities.cpp: DQualities::computeQualities"], "id": "C64"}
{"title": "The arithmetic of tradeoffs keeps value and quality together", "statement": "The compound operators on tradeoffs and qualities act on value, gain and loss separately. In exact arithmetic, in every sequence of calls without pointer copies in which tradeoffs are set and recomputed with one parameter p and combined by += and -=, every tradeoff reports value = p*gain - (1-p)*loss of its own gain and loss; the tradeoff of a sum (difference) of qualities is the sum (difference) of the tradeoffs; -= undoes += and /= undoes *=. Products, quotients and assignments break the agreement (witnesses).", "quantifier": "all arithmetics (componentwise), all sequences of calls on any number of variables, all parameters and qualities", "why_tests_cant": "It is an invariant of all call sequences of unbounded length, including self-arguments; a test runs finitely many sequences on finitely many numbers.", "anchors": ["src/lpaggreg/sources/tradeoff.cpp: operator+=, operator-=, operator*=, operator/=, computePIC, set", "src/lpaggreg/sources/quality.cpp: operator+=, operator-=, operator*=, operator/="], "id": "C65"}
{"title": "A smaller threshold only adds", "statement": "Two searches with the same ends and thresholds t' <= t that both return: every partition found with t is found with t', listed under the same or a smaller parameter; the points of the quality curve for t appear in the same order among those for t', so there are at least as many significant parameters; computeAUC() is not smaller; and the quality at getP(P_OPT) is at least as near to (gain 1, loss 0).", "quantifier": "all qualities tables, all hierarchies with right metadata, all three partitioners, all ranges 0 <= min < max <= 1, all pairs of thresholds and histories, any monotone rounding of the parameters (binary32 included); exact arithmetic on the qualities", "why_tests_cant": "It compares two unbounded recursions for every pair of thresholds and every table; a test compares two runs.", "anchors": ["src/lpaggreg/sources/opartitioner.cpp: computeBestPartitions, addBestQualities", "src/lpaggreg/sources/hpartitioner.cpp: computeBestPartitions, addBestQualities", "src/lpaggreg/sources/dpartitioner.cpp: computeBestPartitions, addBestQualities", "src/lpaggreg/sources/partitioner.cpp: computeAUC, computePOpt, getP"], "id": "C66"}
{"title": "The search in machine arithmetic", "statement": "Whatever arithmetic is used for gains, losses and values (rounded, overflowing, with NaN): for a threshold above the resolution of the float parameters every search on 0 <= min < max <= 1 returns within a depth that depends on the threshold only. Its list of parameters starts with min, is strictly increasing and stays in the range; each parameter is listed with its best partition, this partition's quality and rows; consecutive partitions differ; the last one is that of max; each change of partition is located within the threshold below the listed parameter; every parameter of the range lies between two parameters whose partitions are returned and are equal or not more than the threshold apart. After it getP(P_MAX) is the last parameter, getP(P_OPT) is a listed one unless no score compares as at most RAND_MAX, computeAUC() returns.", "quantifier": "all arithmetics on the qualities (no law assumed), all float arithmetics on the parameters that satisfy the laws of C26 (binary32 with every monotone rounding), all tables, hierarchies with right metadata, ranges, thresholds and histories", "why_tests_cant": "A test runs one machine arithmetic on a few tables; the claim is for every arithmetic, table, range and threshold, including NaN in the table.", "anchors": ["src/lpaggreg/sources/opartitioner.cpp: computeBestPartitions, addBestQualities", "src/lpaggreg/sources/hpartitioner.cpp: computeBestPartitions, addBestQualities", "src/lpaggreg/sources/dpartitioner.cpp: computeBestPartitions, addBestQualities", "src/lpaggreg/sources/partitioner.cpp: getP, computePOpt, computeAUC"], "id": "C67"}
{"title": "Rounding in the area and in the optimum", "statement": "With rounded arithmetic on the qualities (relative error u per operation) and a float accumulator (relative error w), computeAUC() after a search is 1 minus the area below the polygon through the listed (gain, loss) points up to ((1+w)^(2n+4)-1) times the sum of the sizes of the terms, n the number of listed parameters; if the points lie in the unit square with non-decreasing gains the absolute error is at most (8n+16)w. getP(P_OPT) is a listed parameter whose point is nearly closest to gain 1 and loss 0: no listed point has a squared distance smaller by more than the factor ((1-u)/(1+u))^4.", "quantifier": "all arithmetics with the stated relative errors (every number of significant bits), all float arithmetics on the parameters with the laws of C26, all tables, hierarchies with right metadata, ranges, thresholds, histories and numbers of listed parameters", "why_tests_cant": "The error bound is for every table of numbers and every length of the list; a test observes the error of single runs and has no exact value to compare with.", "anchors": ["src/lpaggreg/sources/partitioner.cpp: computeAUC, computePOpt, getP"], "id": "C68"}
{"title": "From the lines of a dump to the aggregation", "statement": "parsepjdump(file) followed by pjdump2micro uses exactly what the lines say: each State line gives one row with its container, times and value, each Variable line one reading with its type and value, each Container line one container with its parent, all in the order of the file, other lines nothing; hence the array, names and hierarchy (and, for a right trace with right containers, the optimal partitions and their description by hmacro) are those of the trace the lines state. Exception: if a file with Variable lines also has a text in the field where states have their value (e.g. any state), or the names of all its containers are numbers, making the counters into data always fails. If all container names are numbers and a counter has a value of at most -1, or all counters have values strictly between -1 and 1, the file cannot be read at all, states included.", "quantifier": "all files (lists of lines of any length, any mix and order of natures, any texts, any reading of texts as numbers, missing fields), whose times are numbers and whose names R keeps as they are (a text somewhere in the column, or numbers in R's notation); all numbers of slices; fewer than 2^32 series in the arrays given to the library", "why_tests_cant": "What R does with a column depends on all the lines of the file at once; a test reads a few files.", "anchors": ["R/lpaggreg_pjdump.R: parsepjdump, pjdump2micro, slicerstate, slicerprvcounter", "R/lpaggreg_pjdump.R: hmacro", "R/lpaggreg.R: haggregate"], "id": "C69"}
{"title": "Counters with a hierarchy, end to end", "statement": "For right counters and right containers, pjdump2micro(trace, n, \"Counter\", TRUE) returns a vector of parents that is a tree whose leaves are exactly the containers without children (the spaces of the array) and in which a node is below another exactly if its container descends from the other; if the childless containers have the same depth it is one that the library reads correctly, and if moreover the root's name is the least of those with children, haggregate / daggregate give right results about the shares of the means of the counters; hmacro then describes each node of each optimal partition by the sums of the shares below it. The same from the lines of the file.", "quantifier": "all counter traces (any number of readings, resources and types), all container trees with a container per reading and a counter read twice for every childless container, all numbers of slices, thresholds and float arithmetics with the laws of C26, all files that say such a trace; fewer than 2^32 series in the arrays given to the library", "why_tests_cant": "Traces, trees and slicings are unbounded; a test compares a few of them.", "anchors": ["R/lpaggreg_pjdump.R: slicerprvcounter, pjdump2micro, parsepjdump, hmacro", "R/lpaggreg.R: haggregate, daggregate"], "id": "C70"}
{"title": "The quality plot and the colours", "statement": "qualplot of a right result draws the listed (loss, gain) points in the order of the parameters, to the right and upwards inside the unit square, as a concave line, with exactly one red point, which is nearest to gain 1 and loss 0. color_generator gives one colour of six hexadecimal digits for each name in sorted order; a name has the same colour in every plot; the name for aggregates is black, and every other colour has a component of at most 0x23 and one of at least 0x30 (the decimal bounds 230 and 30 are compared as texts). It returns exactly if there is a name and doubling each name eventually gives a hash that is not too plain. A tile of hplot_treemap_state, whose colour is taken by position, has the colour of its type if the levels of the factor are exactly the types that occur, in increasing order. color_generator_Clusters of the examples gives its named entries in the order of the names, each with its colour in the table of clusters, and black to all other names.", "quantifier": "all right results of oaggregate, haggregate and daggregate (any size); all lists of names, all hash functions with 32 hexadecimal digits", "why_tests_cant": "Shape and colour statements are for all results, names and hash values; a test looks at a few plots.", "anchors": ["R/lpaggreg_pjdump.R: qualplot, string2colorRandom, color_generator, hplot_treemap_state", "R/lpaggreg.R: oaggregate, haggregate, daggregate", "R/example_nemo_cluster.R: color_generator_Clusters"], "id": "C71"}
{"title": "Filtering a trace, cutting states and refining slices", "statement": "If a trace still begins and ends at the same times, hiding some values of states (as the example scripts do before pjdump2micro) removes exactly these types from the array: every remaining cell keeps its value and every cell that is not 0 and not hidden remains; keeping only some counter types does the same for counters, with unchanged shares. Cutting a state into two consecutive ones changes nothing at all. Asking for c times as many slices keeps resources, types, node names and hierarchy, and every old cell is the sum of the c cells it is divided into (cells beyond the last slice count as 0).", "quantifier": "all traces of states with right durations or of counters with intervals of positive length, all lists of values or types, all cut times, all numbers of slices and factors, with or without hierarchy, any ordered field of time stamps", "why_tests_cant": "Relates two runs on arbitrary traces; tests see a few traces and a few slice numbers.", "anchors": ["R/lpaggreg_pjdump.R: slicerstate, slicerprvcounter, pjdump2micro", "R/example_cholesky.R", "R/example_alya_counter.R", "R/example.R"], "id": "C72"}
{"title": "The resolution of time does not matter", "statement": "Cutting every time slice into c equal slices (each value divided by c) keeps the loss of every interval and adds to its gain only the sum of its values times log2 c; hence for every parameter in [0,1] the best partition of the finer data has the same loss and a gain larger by the constant S*log2 c (S the sum of all values), and if no (leaf,) slice is empty it is the same partition, every part cut into the pieces of its slices. A search inside [0,1] finds the same list of parameters on both resolutions, with the qualities shifted by that constant. Both for ordered and for spatiotemporal data.", "quantifier": "all non-negative data, all numbers of series, slices and pieces (up to the 16-bit limit), all hierarchies, all p in [0,1] in any float arithmetic with the stated laws, all thresholds and ranges in [0,1]", "why_tests_cant": "metamorphic property over all data and all refinements; a test compares two particular resolutions", "anchors": ["src/lpaggreg/sources/oqualities.cpp", "src/lpaggreg/sources/dqualities.cpp", "src/lpaggreg/sources/opartitioner.cpp", "src/lpaggreg/sources/dpartitioner.cpp:computeBestPartition", "src/lpaggreg/sources/partitioner.cpp"], "id": "C73"}
{"title": "What is equal stays together", "statement": "For non-negative data and every p in [0,1]: if two neighbouring slices have the same values in every series, no part of the ordered best partition ends between them, unless these values are all zero; no part of the spatiotemporal best partition below a node ends between two slices that are the same at all leaves below that node, unless the values of the part there are all zero; a node whose leaves all have the same series is not divided: the hierarchical best partition has no part strictly below it, and every spatiotemporal part below it has all its leaves or covers only slices in which all its values are zero.", "quantifier": "all data (any number of series), all trees that are read right, all neighbouring slices, all nodes, all p in [0,1], any float arithmetic for p and 1-p with the stated laws", "why_tests_cant": "It compares the returned partition with infinitely many data sets and parameters; the argument needs the convexity of x log x and the tie-breaking of the algorithms.", "anchors": ["src/lpaggreg/sources/opartitioner.cpp: computeBestPartition", "src/lpaggreg/sources/hpartitioner.cpp: computeBestPartition", "src/lpaggreg/sources/dpartitioner.cpp: computeBestPartition", "src/lpaggreg/sources/oqualities.cpp: computeQualities", "src/lpaggreg/sources/hqualities.cpp: computeQualities", "src/lpaggreg/sources/dqualities.cpp: computeQualities"], "id": "C74"}
{"title": "Hierarchical partitions become coarser as p grows; ordered and spatiotemporal ones need not", "statement": "For non-negative hierarchical data and p <= p', every part of the best partition for p lies below (or is) a part of the best partition for p'. Hence every search lists a chain of partitions, each refining all later ones, and lists at most one partition more than the hierarchy has inner nodes, whatever the threshold and the bounds in [0,1]. The same holds after normalize() when the root has the highest number, and so of the sheets that haggregate() returns in R: the node of every row lies below (or is) the node of a row of every listed parameter that is not smaller. This is not so for ordered and spatiotemporal data: for the values 1, 2, 5 the best intervals are [0,1] [2,2] at p = 1/8 and [0,0] [1,2] at p = 1/5.", "quantifier": "all trees that are read right, all non-negative data (any number of series), all pairs p <= p', all searches that return (threshold, bounds, earlier state), any float arithmetic for p and 1-p with the stated laws; the counterexamples with exact parameters", "why_tests_cant": "It compares the partitions of infinitely many parameters and data sets; the argument needs that merging never lowers gain or loss and which of several best partitions is returned.", "anchors": ["src/lpaggreg/sources/hpartitioner.cpp: computeBestPartition, computeBestPartitions", "src/lpaggreg/sources/hqualities.cpp: computeQualities, normalize", "src/lpaggreg/sources/opartitioner.cpp: computeBestPartition", "src/lpaggreg/sources/dpartitioner.cpp: computeBestPartition", "R/lpaggreg.R: haggregate"], "id": "C75"}
{"title": "Missing and infinite values in the data", "statement": "If a value of the data is NaN, every part of more than one cell that contains it has loss NaN. Normalised or not, the ordered and spatiotemporal partitioners then return the single whole at every parameter, the search keeps nothing else, and reading the optimal parameter after it reads an uninitialised variable; after normalize() the hierarchical partitioner returns all the leaves, with the same consequences for the search. Without normalize() the hierarchical partitioner only avoids the nodes above leaves with a value that is not a number: the qualities are numbers, and the partition is optimal, and coarsest, among all that avoid these nodes. The three functions exported to R read an uninitialised variable for every array with a NaN, and for every array of non-negative numbers with an infinite value.", "quantifier": "all sizes, hierarchies, data and parameters; NaN in any arithmetic with the IEEE laws of NaN; infinite values, and the optimality in the hierarchical case, in exact arithmetic with infinities and NaN", "why_tests_cant": "The claims are for every position of the missing value, every hierarchy and parameter, and every rounding; tests sample a few.", "anchors": ["src/lpaggreg/sources/complexity.cpp: entropyReduction, divergence", "src/lpaggreg/sources/hpartitioner.cpp: computeBestPartition", "src/lpaggreg/sources/opartitioner.cpp: computeBestPartition", "src/lpaggreg/sources/dpartitioner.cpp: computeBestPartition", "src/lpaggreg/sources/tradeoff.cpp: operator<, operator>", "R/lpaggreg.R: oaggregate, haggregate, daggregate"], "id": "C76"}
{"title": "The results in R's own numbers", "statement": "The functions exported to R take and return numbers of type double. With the conversions they make, for every non-negative array whose whole has a gain and a loss and every integer hierarchy vector: the parameters in Qualities are floats, start at 0, increase strictly and are at most 1; the rows of Partitions with one of these parameters (compared in R) describe a partition; the gain and loss in Qualities are in [0,1], differ from those of the partition by at most the rounding u of one number and from the sums of the rows' columns by at most (rows + 1) u; no rival partition is better by more than 2u; gain and loss do not fall from row to row; POpt is a parameter of Qualities and none is nearer to gain 1 and loss 0 by more than 8u; AUC is in [1/2,1]. The quality plot goes through the points in the order of the rows and has one red point. A parameter that is not a float (such as 0.1 typed in R) selects no row. Fractions in the hierarchy vector are rounded down from 1 on; a fraction between 0 and 1 makes the first leaf the parent. For IEEE binary64 and binary32 with any rounding mode u is 2^-53.", "quantifier": "all dimensions, arrays and hierarchy vectors of doubles, all thresholds above 11 units of float rounding; every conversion with the stated laws, in particular every rounding mode of binary64 and binary32; long double arithmetic taken as exact", "why_tests_cant": "Rounding differs for every value; the claim is for all data, sizes and rounding modes.", "anchors": ["R/lpaggreg.R: oaggregate, haggregate, daggregate, convertToMicroModel, convertToHierarchy", "R/lpaggreg_pjdump.R: qualplot"], "id": "C77"}
{"title": "The results in R with every number rounded", "statement": "With rounding everywhere - conversion of the array, gains and losses and their logarithms, normalisation, the search's parameters, the best partitions, the distances, the area, and the conversion of the results - the three functions exported to R return, for every non-negative array and integer hierarchy vector, and any kappa such that the size of the terms of the data is at most kappa times the gain and kappa times the loss of the whole: parameters in Qualities that start at 0, increase strictly and are at most 1; for each of them rows in Partitions that describe a partition, with the gains and losses of the true entropy of the parts relative to the whole up to a stated error; gain and loss in Qualities right up to the same error; no rival partition better by more than that error for weights p and q with q within r of 1-p; consecutive parameters with different partitions; POpt among the parameters, and none nearer to gain 1 and loss 0 by more than a stated error; AUC right up to a stated error. On a PC (binary64, binary32, 64-bit significands, logarithms in double), with at most 65535 cells and 65535 series, the error of gains and losses is at most kappa/2^39 + 2^-51.", "quantifier": "all dimensions, arrays and hierarchy vectors, all thresholds above 11 units of float rounding, all arithmetics with the stated error bounds, in particular every rounding mode of binary32 and binary64", "why_tests_cant": "Rounding errors of a whole run differ for every array; a bound valid for all data and sizes needs an error analysis of every stage.", "anchors": ["R/lpaggreg.R: oaggregate, haggregate, daggregate, convertToMicroModel, convertToHierarchy", "src/lpaggreg/sources/complexity.cpp: entropyReduction, divergence", "src/lpaggreg/sources/oqualities.cpp: computeQualities, normalize", "src/lpaggreg/sources/hqualities.cpp: computeQualities, normalize", "src/lpaggreg/sources/dqualities.cpp: computeQualities, normalize", "src/lpaggreg/sources/opartitioner.cpp: computeBestPartition", "src/lpaggreg/sources/hpartitioner.cpp: computeBestPartition", "src/lpaggreg/sources/dpartitioner.cpp: computeBestPartition"], "id": "C78"}
{"id": "C79", "title": "Ragged and empty data", "statement": "The containers take their dimensions from the first inner vectors. For every nested vector given to a container (ordered with 1-4 levels, hierarchical with 1-4, spatiotemporal with 2-4), computeQualities() stays inside the vectors and returns if and only if no element of the block with these dimensions is missing, i.e. every inner vector it visits is at least as long as the first one of its level; longer ones are allowed: two nested vectors with the same first lengths and the same elements in the block give the same qualities (or the same fault). An array from R with a dimension of 0 has no defined result: oaggregate and daggregate leave the vectors (normalize() takes the quality of a whole that does not exist), haggregate leaves the path if there is no leaf, and if there are leaves but no values it reads an uninitialised optimal parameter.", "quantifier": "all nested vectors of any shape, in every arithmetic; all hierarchies that the library reads right; all arrays with a zero dimension, thresholds and hierarchy vectors", "why_tests_cant": "a test shows single shapes, and a read outside a vector often goes unnoticed in a test; the equivalence is about all shapes", "anchors": ["src/lpaggreg/headers/lpglobal.h: SIZE1, SIZE2, SIZE3, SIZE4", "src/lpaggreg/sources/ovaluesn.cpp: OValuesN2, OValuesN3, OValuesN4", "src/lpaggreg/sources/hvaluesn.cpp: HValuesN2, HValuesN3, HValuesN4", "src/lpaggreg/sources/dvaluesn.cpp: DValuesN2, DValuesN3, DValuesN4", "src/lpaggreg/sources/oqualities.cpp: computeQualities, normalize", "src/lpaggreg/sources/hqualities.cpp: computeQualities", "src/lpaggreg/sources/dqualities.cpp: computeQualities, normalize", "R/lpaggreg.R: oaggregate, haggregate, daggregate"]}
{"title": "More levels in the hierarchy never lower the optimum", "statement": "Take the same data under two hierarchies such that every group of leaves that is a node of the first is also a node of the second. Then, for every parameter p, the value p*gain-(1-p)*loss of the best hierarchical (spatiotemporal) partition under the second is at least that under the first, without normalisation and also with normalised qualities when both roots have the highest node number. It can be strictly larger.", "quantifier": "all pairs of hierarchies over the same leaves with this relation (of any sizes and depths, in any numbering that the library reads right), all data, all p", "why_tests_cant": "the claim compares two optimisations over exponentially many partitions for every pair of hierarchies and every data set", "anchors": ["src/lpaggreg/sources/hpartitioner.cpp: computeBestPartition", "src/lpaggreg/sources/dpartitioner.cpp: computeBestPartition", "src/lpaggreg/sources/hqualities.cpp: computeQualities, normalize", "src/lpaggreg/sources/dqualities.cpp: computeQualities, normalize"], "id": "C80"}
{"title": "Analysing the parts of a system separately never beats analysing the whole", "statement": "If a system is made of parts - hierarchies of their own whose leaves are together all the leaves of the system, each once, and whose nodes are nodes of the system - then for every p the best partition of the system is worth (p*gain-(1-p)*loss) at least the sum of what the best partitions of the parts are worth, for hierarchical and for spatiotemporal data. The same holds for ordered data cut into two consecutive periods. It is false for spatiotemporal data cut into periods: there are data of two slices which, analysed slice by slice, are worth more than the partition found for both.", "quantifier": "all systems made of any number of parts, all data, all p; all ordered data and places to cut", "why_tests_cant": "compares optimisations over exponentially many partitions for all systems and data", "anchors": ["src/lpaggreg/sources/opartitioner.cpp: computeBestPartition", "src/lpaggreg/sources/hpartitioner.cpp: computeBestPartition", "src/lpaggreg/sources/dpartitioner.cpp: computeBestPartition", "src/lpaggreg/sources/oqualities.cpp: computeQualities", "src/lpaggreg/sources/hqualities.cpp: computeQualities", "src/lpaggreg/sources/dqualities.cpp: computeQualities"], "id": "C81"}
{"title": "The resolution of space does not matter", "statement": "If every leaf of the hierarchy is divided into the same number c of new leaves, which become its children and share its values equally, then the library reads the new hierarchy right if it read the old one right, every old node (and node and period) keeps its loss, and its gain grows by its total value times log2(c). For every p in [0,1] the best partition of the finer data has the loss of the best partition of the given data and its gain plus the grand total times log2(c); for hierarchical data it consists of exactly the same nodes (no leaf is ever divided), for spatiotemporal data it consists of exactly the same nodes and periods if c is at least 2 and no leaf is empty in any slice. The searches find the same parameters.", "quantifier": "all hierarchies read right, all non-negative data, all c, all p in [0,1], all search intervals and thresholds", "why_tests_cant": "compares optimisations over exponentially many partitions of two different hierarchies, for all data and all factors", "anchors": ["src/lpaggreg/sources/hpartitioner.cpp: computeBestPartition", "src/lpaggreg/sources/dpartitioner.cpp: computeBestPartition", "src/lpaggreg/sources/hqualities.cpp: computeQualities", "src/lpaggreg/sources/dqualities.cpp: computeQualities", "src/lpaggreg/sources/hvalues.cpp: HValuesMetaData::setPath"], "id": "C82"}
{"title": "A clear winner survives rounding", "statement": "With rounded arithmetic (relative error u per operation, accuracy w of the logarithms) and data that are not negative: if a partition W, measured with the true gain and loss, beats every partition that is not acceptable to the user by more than the fraction (1+w)^3(1+u)^k-1 of the sizes of the terms of both (k as in C58), then the partition returned is acceptable, whatever acceptable means. In particular, if the partition that exact arithmetic returns beats every other one by more than this, the rounded arithmetic returns the same partition. For hierarchy x time W and its rivals are coarse-first. The first part also holds after normalize(), with the weights divided by the computed gain and loss of the whole.", "quantifier": "every rounding with relative error u and accuracy w <= 1/2 such that (1+u)^(number of values) <= 3/2, all non-negative data, all parameters, all partitions W and all sets of acceptable partitions", "why_tests_cant": "compares the result with exponentially many partitions for every rounding behaviour", "anchors": ["src/lpaggreg/sources/opartitioner.cpp: computeBestPartition", "src/lpaggreg/sources/hpartitioner.cpp: computeBestPartition", "src/lpaggreg/sources/dpartitioner.cpp: computeBestPartition", "src/lpaggreg/sources/oqualities.cpp: computeQualities", "src/lpaggreg/sources/hqualities.cpp: computeQualities", "src/lpaggreg/sources/dqualities.cpp: computeQualities"], "id": "C83"}
{"title": "Bounded exponents: nothing overflows or underflows", "statement": "On a machine whose arithmetic is reliable only while every result is 0 or between 2^-E and 2^E in magnitude (arguments of logarithms between 2^-Q and 2^Q) and does anything at all outside, data that are multiples of 2^-a, not negative and not larger than D give finite gains and losses for every part, a finite quality for every best partition, and the same accuracy and near-optimality as with unbounded exponents, provided the range has room for the number of elements and of series. The same after normalisation, if the gain and the loss of the whole are not 0. On a PC (64-bit significands, 15-bit exponents, logarithms in double) there is room for every double that is 0 or between 2^-970 and 2^990, for every float parameter between 0 and 1 and for all sizes up to 2^31 - 1; where long double is double there is room for multiples of 2^-52 up to 2^100.", "quantifier": "all machine arithmetics satisfying the laws, whatever they do to results out of range; all data in range, sizes, hierarchies, parameters and competing partitions; all three kinds of data; with and without normalisation", "why_tests_cant": "Overflow or underflow of one intermediate product, logarithm or difference happens only for particular combinations of magnitudes and sizes; a test covers some magnitudes, the theorem shows that no intermediate result leaves the range.", "anchors": ["src/lpaggreg/sources/complexity.cpp: entropy, entropyReduction, divergence", "src/lpaggreg/sources/oqualities.cpp: computeQualities", "src/lpaggreg/sources/hqualities.cpp: computeQualities", "src/lpaggreg/sources/dqualities.cpp: computeQualities", "src/lpaggreg/sources/opartitioner.cpp: computeBestPartition", "src/lpaggreg/sources/hpartitioner.cpp: computeBestPartition", "src/lpaggreg/sources/dpartitioner.cpp: computeBestPartition"], "id": "C84"}
{"title": "What gain, loss and the best partition mean, in bits", "statement": "For data that are not negative: the gain of a part is, summed over the series, its total times the Shannon entropy (in bits) of the shares its elements have of the total, and its loss is its total times the Kullback-Leibler divergence of these shares from equal shares; gain + loss = total x log2(number of elements). The gain of a partition is the bits needed to write down all values minus the bits needed to write down one sum per part; its loss is the divergence of the values from the part averages. Hence the partition returned for p is one that minimises p x (bits of the aggregated description) + (1-p) x (divergence from the averages) among all partitions (hierarchy x time: among the coarse-first ones).", "quantifier": "all non-negative data, sizes, hierarchies, series counts, parameters and competing partitions; all three kinds of data", "why_tests_cant": "An identity between the incremental formulas of the library and information-theoretic definitions, over all real data and all partitions", "anchors": ["src/lpaggreg/sources/complexity.cpp: entropyReduction, divergence", "src/lpaggreg/sources/oqualities.cpp: computeQualities", "src/lpaggreg/sources/hqualities.cpp: computeQualities", "src/lpaggreg/sources/dqualities.cpp: computeQualities", "src/lpaggreg/sources/opartitioner.cpp: computeBestPartition", "src/lpaggreg/sources/hpartitioner.cpp: computeBestPartition", "src/lpaggreg/sources/dpartitioner.cpp: computeBestPartition"], "id": "C85"}
{"title": "Small errors in the data do little harm", "statement": "For every size of the data, every bound B on the values and every tolerance eta there is a precision delta, which depends neither on the data nor on p, such that if the values are known up to delta: gain and loss of every part are right up to eta; the partition computed from the inexact values is, for the true values, at most eta worse than any other one (hierarchy x time: any coarse-first one); the reported p x gain - (1-p) x loss is right up to eta; and if some partition is better than all unacceptable ones by more than eta, the partition returned is acceptable.", "quantifier": "all sizes, hierarchies, numbers of series, bounds and tolerances; all pairs of non-negative data that close; all p between 0 and 1; all partitions and all notions of acceptable", "why_tests_cant": "Uniform continuity over a continuum of data, and near-optimality against exponentially many partitions", "anchors": ["src/lpaggreg/sources/complexity.cpp: entropyReduction, divergence", "src/lpaggreg/sources/oqualities.cpp: computeQualities", "src/lpaggreg/sources/hqualities.cpp: computeQualities", "src/lpaggreg/sources/dqualities.cpp: computeQualities", "src/lpaggreg/sources/opartitioner.cpp: computeBestPartition", "src/lpaggreg/sources/hpartitioner.cpp: computeBestPartition", "src/lpaggreg/sources/dpartitioner.cpp: computeBestPartition"], "id": "C86"}
{"title": "The results in R on a machine with bounded exponents", "statement": "On a machine whose long double arithmetic is reliable only while every result is 0 or between 2^-E and 2^E (arguments of logarithms between 2^-Q and 2^Q), whose float accumulator has a smallest and a largest number, and which does anything at all with results out of range and with too large numbers in conversions, the three functions exported to R still return what is promised for unbounded exponents - sorted parameters starting at 0, near-optimal partitions at each, gains, losses, POpt and AUC up to stated errors - if the data are multiples of 2^-a, not negative and at most X, with room in the range. On a PC (binary64, binary32 with subnormals, long double with 15-bit exponents, logarithms in double, any roundings) this covers every array whose values are 0 or between 2^-970 and 2^990, with at most 65535 cells and 65535 series and every threshold of at least 11/2^23: nothing overflows or underflows in conversion, entropy, normalisation, search, POpt or AUC in a way that matters, and gains and losses are right up to kappa/2^39 + 2^-51.", "quantifier": "all machines satisfying the laws, whatever they do out of range; all dimensions, arrays in range, integer hierarchy vectors and thresholds above the resolution", "why_tests_cant": "One intermediate product out of range among all stages and all arrays suffices for a wrong table, NaN or an infinite value; tests cover a few magnitudes and one compiler's behaviour.", "anchors": ["R/lpaggreg.R: oaggregate, haggregate, daggregate, convertToMicroModel, convertToHierarchy", "src/lpaggreg/sources/complexity.cpp: entropyReduction, divergence", "src/lpaggreg/sources/oqualities.cpp: computeQualities, normalize", "src/lpaggreg/sources/hqualities.cpp: computeQualities, normalize", "src/lpaggreg/sources/dqualities.cpp: computeQualities, normalize", "src/lpaggreg/sources/opartitioner.cpp: computeBestPartition", "src/lpaggreg/sources/hpartitioner.cpp: computeBestPartition", "src/lpaggreg/sources/dpartitioner.cpp: computeBestPartition", "src/lpaggreg/headers/partitioner.h: computeBestPartitions"], "id": "C87"}
{"title": "There is a threshold below which the parameter search finds everything", "statement": "A search for significant parameters, whatever its ends 0 <= lo < hi <= 1 and its threshold, lists at most 2^(n-1) parameters on an ordered table of n slices, at most 2^nodes on a hierarchy and at most 2^(nodes*n*n) on a spatiotemporal table. Hence from some threshold on a smaller one changes nothing: all searches that return with thresholds not above it have the same quality curve, equal partitions in the same order, the same computeAUC and the same partition at getP(P_OPT) (for every rounding of the parameters). With exact parameters this threshold is positive, and searches at or below it find every partition that is best at two different parameters of the range; for ordered and spatiotemporal partitions they find the best partition of every single parameter of the range; for hierarchical ones the best partition of a parameter is found or two different partitions found are as good there.", "quantifier": "all partitioners (three kinds), tables of qualities, ranges, thresholds, earlier contents, parameter roundings (first part), parameters of the range", "why_tests_cant": "the claims compare infinitely many thresholds and quantify over every real parameter of the range; a test runs a few thresholds and samples parameters", "anchors": ["src/lpaggreg/sources/opartitioner.cpp: computeBestPartitions, addBestQualities", "src/lpaggreg/sources/hpartitioner.cpp: computeBestPartitions, addBestQualities", "src/lpaggreg/sources/dpartitioner.cpp: computeBestPartitions, addBestQualities", "src/lpaggreg/sources/partitioner.cpp: computeAUC, computePOpt, getP"], "id": "C88"}
{"title": "The threshold bounds how much value the search can miss", "statement": "A search with threshold t may skip partitions, but never much value: at every number p of the searched range (not only at parameters that were tried), some listed partition has a value p*gain-(1-p)*loss that is below that of the best partition at p by at most (t + rounding) * S / 4, plus the rounding of 1-x times the spread of the loss, where S is the difference of gain+loss between the last listed partition and the first one. For oaggregate, haggregate and daggregate on non-negative data whose whole has non-zero gain and loss, whose qualities are relative, this is at most half the threshold (up to rounding, which in IEEE binary32 is below 2^-23 in every rounding mode), against every rival partition.", "quantifier": "every quality table of the three partitioners and every non-negative R array whose whole has non-zero gain and loss, every threshold >= 0, every range inside [0,1], every number p of the range, every rival partition, every rounding of the parameters", "why_tests_cant": "A test compares the list with the best partitions at a few parameters; the guarantee is about all real parameters between the sampled ones, all rivals and all data.", "anchors": ["src/lpaggreg/sources/opartitioner.cpp: computeBestPartitions, addBestQualities", "src/lpaggreg/sources/hpartitioner.cpp: computeBestPartitions, addBestQualities", "src/lpaggreg/sources/dpartitioner.cpp: computeBestPartitions, addBestQualities", "src/lpaggreg/sources/partitioner.cpp: computeAUC, computePOpt, getP", "R/lpaggreg.R: convertToMicroModel, convertToHierarchy, oaggregate, haggregate, daggregate", "src/lpaggreg/sources/opartitioner.cpp: computeBestPartitions", "src/lpaggreg/sources/partitioner.cpp: getP, computeAUC"], "id": "C89"}
{"title": "The threshold bounds how much of the area under the curve is missed", "statement": "Two searches over the same range with thresholds t' <= t: computeAUC for t' is at least that for t and exceeds it by at most (t + rounding) * S^2 / 8, plus the rounding of 1-x times the spread of loss times S, where S is the difference of gain+loss between the best partitions at the two ends. Hence for oaggregate, haggregate and daggregate on non-negative data whose whole has non-zero gain and loss the AUC for any smaller threshold exceeds the reported one by at most half the threshold, up to rounding of the parameters.", "quantifier": "every quality table of the three partitioners and every non-negative R array whose whole has non-zero gain and loss, all thresholds t' <= t with t >= 0, every range inside [0,1], every rounding of the parameters", "why_tests_cant": "Tests compare AUC values of a few data sets and thresholds; the bound must hold for all data and all smaller thresholds.", "anchors": ["src/lpaggreg/sources/opartitioner.cpp: computeBestPartitions, addBestQualities", "src/lpaggreg/sources/hpartitioner.cpp: computeBestPartitions, addBestQualities", "src/lpaggreg/sources/dpartitioner.cpp: computeBestPartitions, addBestQualities", "src/lpaggreg/sources/partitioner.cpp: computeAUC, computePOpt, getP", "R/lpaggreg.R: convertToMicroModel, convertToHierarchy, oaggregate, haggregate, daggregate", "src/lpaggreg/sources/opartitioner.cpp: computeBestPartitions", "src/lpaggreg/sources/partitioner.cpp: getP, computeAUC"], "id": "C90"}
{"title": "The best value as a function of the parameter; no reported partition loses more than it gains", "statement": "What the best partition is worth, p*gain-(1-p)*loss, is a convex function of p whose slope at p is gain+loss of the partition returned for p; whoever takes the partition of p when the parameter should have been p' is worse off by at most |p'-p| times the difference of gain+loss of the two. For normalised qualities of non-negative data whose whole has non-zero gain and loss (hierarchical and spatiotemporal: root numbered last), for every p in [0,1] the partition returned is worth at least 0, at least 2p-1 and at most p, its relative loss never exceeds its relative gain, and taking the partition of p instead of that of p' costs at most 2|p'-p|. Hence in every row of Qualities returned by oaggregate, haggregate and daggregate the loss is at most the gain, whatever the rounding of the parameters.", "quantifier": "all tables of exact qualities and all pairs of parameters for the first part; all non-negative data of any size with non-zero whole, all parameters in [0,1], all roundings of 1-p allowed by FloatLaws, all thresholds for the rest", "why_tests_cant": "The claim compares the returned partition with the finest and the coarsest one at every real parameter and for all data; a test sees finitely many.", "anchors": ["R/lpaggreg.R: convertToMicroModel, convertToHierarchy, oaggregate, haggregate, daggregate", "src/lpaggreg/sources/opartitioner.cpp: computeBestPartitions", "src/lpaggreg/sources/partitioner.cpp: getP, computeAUC"], "id": "C91"}
{"title": "Adding series up hides loss; proportional series count as one", "statement": "Replace the series of non-negative data by sums of them (each old series goes into one of the new ones). For every part - interval of slices, node, or node times interval - the gain of aggregating it never falls and the loss never grows: exactly the same amount moves from the loss to the gain, and that amount is 0 exactly when the series added up are proportional to each other on the part. So for every p the best partition of the summed data is worth (p*gain-(1-p)*loss) at least the best partition of the data with separate series, and if the series added up are proportional everywhere (copies of one series, for instance) all qualities, hence all results, are the same. The difference can be total: the series 1 0 and 0 1 stay in two parts at p=1/2, their sum 1 1 becomes one part without loss.", "quantifier": "all non-negative ordered, hierarchical and spatiotemporal data of any size with any number of series, all ways of adding series up, all parts, all p in [0,1]", "why_tests_cant": "It is an inequality between two analyses for all data and all groupings, with its case of equality; a test compares two tables of numbers.", "anchors": ["src/lpaggreg/sources/oqualities.cpp", "src/lpaggreg/sources/hqualities.cpp", "src/lpaggreg/sources/dqualities.cpp"], "id": "C92"}
{"title": "A clear winner is found on a machine with bounded exponents", "statement": "On a machine with bounded exponents that may do anything to results out of range (C84): if a partition W, measured with the true gain and loss, beats every partition that is not acceptable to the user by more than the fraction (1+w)^3(1+u)^k-1 of the sizes of the terms of both, then the partition returned is acceptable and has a finite quality - for ordered and hierarchical data, for hierarchy x time with coarse-first W and rivals, and after normalize() with the weights divided by the computed gain and loss of the whole. On a PC, for data that are multiples of 2^-1022 and at most 2^990, every float parameter from 0 to 1 and every rounding of floats, a margin of 2^-42 of the sizes of the terms is enough for ordered and hierarchical data (up to 65535 slices or leaves and series), and 2^-34 for hierarchy x time (up to 2^25 cells).", "quantifier": "all machines satisfying the laws, whatever they do out of range; all data in range, sizes, hierarchies, parameters, partitions W and sets of acceptable partitions", "why_tests_cant": "It ranges over all data, partitions and over machines with any behaviour outside their range.", "anchors": ["src/lpaggreg/sources/complexity.cpp: entropy, entropyReduction, divergence", "src/lpaggreg/sources/oqualities.cpp: computeQualities", "src/lpaggreg/sources/hqualities.cpp: computeQualities", "src/lpaggreg/sources/dqualities.cpp: computeQualities", "src/lpaggreg/sources/opartitioner.cpp: computeBestPartition", "src/lpaggreg/sources/hpartitioner.cpp: computeBestPartition", "src/lpaggreg/sources/dpartitioner.cpp: computeBestPartition"], "id": "C93"}
{"title": "What the results in R do not depend on", "statement": "In exact arithmetic, for data whose whole has a non-zero gain and loss: (1) oaggregate, haggregate and daggregate return the very same result (qualities, partitions, optimal parameter, area) when the array is rewritten in another unit, with its series in another order, with every series repeated the same number of times, and with series that are zero everywhere added; a series is what a space and a type show over time for oaggregate, what a type and a slice show over the leaves for haggregate, what a type shows over leaves and slices for daggregate. (2) When the nodes of the hierarchy are numbered differently and the data moved with the leaves, haggregate and daggregate return the same qualities, optimal parameter and area, and the same partition rows up to their order and the numbers of the nodes. (3) Reversing time leaves the qualities, the optimal parameter and the area of oaggregate unchanged. (4) For an array with one space and any chain of nodes above it, daggregate returns the qualities, optimal parameter and area of oaggregate.", "quantifier": "all array dimensions and non-negative contents (fewer than 2^32 series, at most 65535 slices), all hierarchies with right metadata before and after the renumbering, all positive units and repetitions, all thresholds, parameter arithmetics and search lengths", "why_tests_cant": "it compares two runs on every array and every rearrangement of it; ties between equally good partitions could break it on inputs no test has", "anchors": ["R/lpaggreg.R: convertToMicroModel, convertToHierarchy, oaggregate, haggregate, daggregate", "src/lpaggreg/sources/opartitioner.cpp: computeBestPartitions", "src/lpaggreg/sources/partitioner.cpp: getP, computeAUC", "src/lpaggreg/sources/oqualities.cpp: computeQualities, normalize", "src/lpaggreg/sources/hqualities.cpp: computeQualities, normalize", "src/lpaggreg/sources/dqualities.cpp: computeQualities, normalize"], "id": "C94"}
{"title": "The threshold in R: a smaller one only adds, and a small enough one misses nothing", "statement": "For non-negative data whose whole has a non-zero gain and loss (haggregate and daggregate: any hierarchy with right metadata whose root is numbered last). (1) Two calls of oaggregate, haggregate or daggregate that return, with thresholds t' <= t: the (Gain, Loss) rows of Qualities for t appear in the same order among those for t', AUC is not smaller, and the row of POpt is at least as near to gain 1 and loss 0. (2) If some call returns there is a threshold, with which the call returns, such that every call that returns with a smaller one has the same (Gain, Loss) rows, AUC and gain and loss at POpt, whatever the rounding of the parameters. (3) With exact parameters there is a positive threshold such that for every smaller positive one the call returns and nothing is missing: for every number p between 0 and 1 some row is worth at least as much, p*gain-(1-p)*loss, as every tiling of the slices (every leaf cover, every coarse-first partition).", "quantifier": "all array dimensions and contents, all hierarchies, all pairs of thresholds, all real p in [0,1], all rival partitions, all parameter arithmetics satisfying the laws of C26 for (1) and (2)", "why_tests_cant": "it compares the results for all thresholds and with all partitions at all real parameters", "anchors": ["R/lpaggreg.R: convertToMicroModel, convertToHierarchy, oaggregate, haggregate, daggregate", "src/lpaggreg/sources/opartitioner.cpp: computeBestPartitions", "src/lpaggreg/sources/partitioner.cpp: getP, computeAUC", "src/lpaggreg/sources/hpartitioner.cpp: computeBestPartitions, addBestQualities", "src/lpaggreg/sources/dpartitioner.cpp: computeBestPartitions, addBestQualities"], "id": "C95"}
{"title": "Aggregating aggregated data changes nothing", "statement": "Let P be the best ordered or hierarchical partition of non-negative data at p in [0,1] (for ordered data with a positive value in some series in every slice). Replace every value, in every series, by the mean of its series over its part of P. Then computeQualities() and computeBestPartition(p) on these means succeed and return the same parts in the same order: the same intervals, or the same nodes. The loss of the new partition is 0 and its gain is the gain plus the loss of P.", "quantifier": "all data (any number of series), all lengths up to 65535, all trees that are read right, all p in [0,1], any float arithmetic for p and 1-p with the stated laws, exact qualities", "why_tests_cant": "It relates the result for one data set to the result for another that depends on the first result; a test sees a few data sets, where ties and coarser competitors may not occur.", "anchors": ["src/lpaggreg/sources/opartitioner.cpp: computeBestPartition", "src/lpaggreg/sources/hpartitioner.cpp: computeBestPartition", "src/lpaggreg/sources/oqualities.cpp: computeQualities", "src/lpaggreg/sources/hqualities.cpp: computeQualities"], "id": "C96"}
{"title": "Silent slices and leaves", "statement": "Call a slice or cell silent if its value is 0 in every series. In the best partitions of non-negative data at p in [0,1]: (ordered, spatiotemporal) a part with a positive value has one in its first and one in its last slice. (ordered) A part without a positive value is a single slice or the last part, and if the last part has none and does not begin at 0, the slice before it has one. (ordered) If some value is positive, c silent slices are put before the data and d silent slices after it (if d > 0, the last slice of the data is not silent), then the best partition consists of the c slices as parts of one slice each, the parts of the best partition of the data moved by c, and, if d > 0, one part of the d slices; its quality is the same, and searches inside [0,1] find the same parameters with the same qualities on both data. (hierarchical, p < 1) If the node g of a part has a positive value and a node c under g lacks some leaf of g, some leaf of g not under c has a positive value. (spatiotemporal) The same for the last part of a node g, a child c of g and the slices of the part.", "quantifier": "all data (any number of series), all lengths up to 65535, all numbers of silent slices before and after, all trees that are read right, all p in [0,1] (hierarchical: below 1), any float arithmetic for p and 1-p with the stated laws, exact qualities", "why_tests_cant": "It is decided by ties between partitions of equal quality, for any number and place of the zeros and any partition of the rest; tests use a few positive data sets.", "anchors": ["src/lpaggreg/sources/opartitioner.cpp: computeBestPartition", "src/lpaggreg/sources/hpartitioner.cpp: computeBestPartition", "src/lpaggreg/sources/dpartitioner.cpp: computeBestPartition", "src/lpaggreg/sources/oqualities.cpp: computeQualities", "src/lpaggreg/sources/hqualities.cpp: computeQualities", "src/lpaggreg/sources/dqualities.cpp: computeQualities"], "id": "C97"}
{"title": "Space and time together are worth at least either alone", "statement": "For the same values, at every p, what the best spatiotemporal partition is worth (p*gain-(1-p)*loss, qualities not normalised) is at least: (leaves) the sum of what the best partitions of the leaves are worth, each leaf taken as ordered data of its own; (time) what the best ordered partition is worth for the data whose series are all series of all leaves - which is at most that sum; (space) what the best hierarchical partition is worth for the data whose series are all series in all slices. In particular for one leaf x series x slice array stored in OValuesN3, HValuesN3 and DValuesN3.", "quantifier": "all data of any sign (any number of series), all lengths up to 65535 (leaves times slices below 2^31), all trees that are read right, all p without restriction, any float arithmetic for p and 1-p, exact qualities", "why_tests_cant": "Compares optima over exponentially many partitions of three different analyses, for all data and parameters.", "anchors": ["src/lpaggreg/sources/opartitioner.cpp: computeBestPartition", "src/lpaggreg/sources/hpartitioner.cpp: computeBestPartition", "src/lpaggreg/sources/dpartitioner.cpp: computeBestPartition", "src/lpaggreg/sources/oqualities.cpp: computeQualities", "src/lpaggreg/sources/hqualities.cpp: computeQualities", "src/lpaggreg/sources/dqualities.cpp: computeQualities"], "id": "C98"}
{"title": "A uniform series makes the best partitions coarser", "statement": "Let the last series of non-negative data have the same value c >= 0 everywhere, and raise c to c' > c. At the same p in [0,1]: (hierarchical) every part of the old best partition lies below a part of the new one; (ordered, spatiotemporal) the sum of N*log2(N) over the numbers N of cells of the parts does not fall, and if the old best partition is one part, so is the new one. In all three: if p*c' is at least (1-p) times the loss of the whole without the uniform series, the new best partition is one part.", "quantifier": "all data (any number of series), all c < c', all lengths up to 65535, all trees that are read right, all p in [0,1], any float arithmetic for p and 1-p with the stated laws, exact qualities (not normalised)", "why_tests_cant": "Compares the optima for two data sets over exponentially many partitions, for all data and all p.", "anchors": ["src/lpaggreg/sources/opartitioner.cpp: computeBestPartition", "src/lpaggreg/sources/hpartitioner.cpp: computeBestPartition", "src/lpaggreg/sources/dpartitioner.cpp: computeBestPartition", "src/lpaggreg/sources/oqualities.cpp: computeQualities", "src/lpaggreg/sources/hqualities.cpp: computeQualities", "src/lpaggreg/sources/dqualities.cpp: computeQualities"], "id": "C99"}
{"title": "The series analysed together and one by one", "statement": "Take data with several series, and each series as data of its own. At every p the value p*gain-(1-p)*loss of the best partition of the whole is at most the sum of the values of the best partitions of the single series, and it is exactly the sum if and only if some partition is as good for every series as that series' best one (ordered: any tiling; hierarchical: any cover of the leaves by nodes; spatiotemporal: any coarse-first partition, see C21). If all single series have the same best partition, the whole has exactly that partition, also where there are ties. A node of the hierarchy that is a part of the best hierarchical partition of every single series lies inside one part of the whole's. The inequality can be strict: 1 1 and 1 0 at p = 1/2 are worth 1 and 0 alone and 1/2 together.", "quantifier": "all data of any sign, any number of series, all lengths up to 65535, all trees that are read right, all p, any float arithmetic for p and 1-p, exact qualities (not normalised)", "why_tests_cant": "Compares optima of several data sets over exponentially many partitions, for all data and all p, including ties.", "anchors": ["src/lpaggreg/sources/opartitioner.cpp: computeBestPartition", "src/lpaggreg/sources/hpartitioner.cpp: computeBestPartition", "src/lpaggreg/sources/dpartitioner.cpp: computeBestPartition", "src/lpaggreg/sources/oqualities.cpp: computeQualities", "src/lpaggreg/sources/hqualities.cpp: computeQualities", "src/lpaggreg/sources/dqualities.cpp: computeQualities"], "id": "C100"}
{"title": "How much work one best partition takes", "statement": "computeBestPartition compares two tradeoffs a number of times that depends only on the sizes: n(n-1)/2 times for n slices (ordered), once for each inner node (hierarchical), and for n slices and a hierarchy (n^3-n)/6 times for each node and n(n+1)/2 times more for each inner node (spatiotemporal), whatever the qualities, the parameter and the arithmetic. A whole search that returns k partitions, with 2^N thresholds (less the rounding) covering the range, makes at most 2 + N*(k-1) times as many comparisons. For hierarchical data that are not negative it makes at most (2 + N*I)*I, with I the number of inner nodes, whatever it finds.", "quantifier": "all tables of up to 65535 slices, all hierarchies with right metadata, all qualities, parameters and arithmetics (NaN included); for the search all ranges in [0,1], thresholds and monotone roundings of the parameters", "why_tests_cant": "A test measures the time of single runs; the count is exact for all sizes and independent of all values.", "anchors": ["src/lpaggreg/sources/opartitioner.cpp: computeBestPartition", "src/lpaggreg/sources/hpartitioner.cpp: computeBestPartition", "src/lpaggreg/sources/dpartitioner.cpp: computeBestPartition"], "id": "C101"}
{"title": "A counter that counts nothing spoils the whole analysis", "statement": "In R, 0/0 is NaN. If no reading but the first of each of its counters is positive, a type of counters counts nothing, and then slicerprvcounter and pjdump2micro give NaN in every cell of this type: at every resource and in every slice, also at resources that have no such counter; all other cells, and the resources, types, slices, names and hierarchy, are what they would be with 0/0 = 0. If no reading is negative these are the only types that count nothing. One such type is enough to spoil the analysis of all the others: oaggregate, haggregate and daggregate of the array read an uninitialised variable, for every threshold and every data of the other counters.", "quantifier": "all traces of counters whose counting intervals have a length, with at least one type that counts nothing and has two readings somewhere; all numbers of slices up to 65535, all container tables (for the hierarchy: trees with all leaves at the same depth whose root has the least name); fewer than 2^32 series in the array; all thresholds, all random generators", "why_tests_cant": "Whether one idle counter spoils every other result, for every trace and threshold, depends on comparisons with NaN in every loop of the three partitioners; a test shows one array.", "anchors": ["R/lpaggreg_pjdump.R: slicerprvcounter, pjdump2micro", "R/lpaggreg.R: oaggregate, haggregate, daggregate"], "id": "C102"}
{"title": "One slice: the spatiotemporal partition is the hierarchical one, except at p = 1", "statement": "With one slice, spatiotemporal and hierarchical analysis answer the same question, but the two partitioners treat ties differently. For any qualities of the nodes and any p, the spatiotemporal partition has the same value p*gain-(1-p)*loss as the hierarchical one, refines it, has at least its gain, and is the same if gain and loss are the same. For data that are not negative, before and after normalize() (root with the highest number, whole with gain and loss), both are the same partition, part by part and in the same order, for every p with 1-p not 0. At p = 1 they may differ: of two leaves with the values 1 and 0 the hierarchical partitioner makes one part, the spatiotemporal one two.", "quantifier": "all trees with right metadata and an inner node, all tables of qualities; all non-negative data of one slice, with fewer than 2^31 leaves; all parameters, in every parameter arithmetic", "why_tests_cant": "The two programs differ in every loop and comparison; that they agree on all data but only below p = 1 is a statement about ties, which random data never show.", "anchors": ["src/lpaggreg/sources/dpartitioner.cpp: computeBestPartition", "src/lpaggreg/sources/hpartitioner.cpp: computeBestPartition", "src/lpaggreg/sources/tradeoff.cpp: operator>, operator<"], "id": "C103"}
{"title": "With one leaf a spatiotemporal search is an ordered search", "statement": "A spatiotemporal container with one leaf and an ordered container with the data of that leaf give the same whole search: for every range of parameters and every threshold both calls of computeBestPartitions end in the same fault or find the same parameters, with the same qualities, for each of them the same tiling of the slices part by part in the same order, and a table with the same rows once the columns of the node are dropped; getP and computeAUC give the same answers.", "quantifier": "all trees with one leaf below any chain of inner nodes, data of any sign, any number of values per cell, n between 1 and 65535 slices, all thresholds, parameter ranges and earlier states, with either loop that drops repeated partitions", "why_tests_cant": "Two different programs run different recursions whose depth depends on the data; a test compares them on a few series only.", "anchors": ["src/lpaggreg/sources/dpartitioner.cpp: computeBestPartition", "src/lpaggreg/sources/opartitioner.cpp: computeBestPartition", "src/lpaggreg/headers/partitioner.h: computeBestPartitions"], "id": "C104"}
