{
 "p6": {
  "claim": "none: equivalent mutant. Every value inserted under a key is the best partition of the same object for that key, so keeping the old value equals overwriting it",
  "verdict": "equivalent mutant: behaviour unchanged, theorems rightly still hold"
 },
 "dp12": "DROP",
 "s5": {
  "claim": "none: behaviour preserving (each set allocates a fresh object)",
  "verdict": "proof of the refinement step fails, no claim becomes false"
 },
 "s6": {
  "claim": "none: behaviour preserving",
  "verdict": "proof of the refinement step fails, no claim becomes false"
 },
 "q6": {
  "claim": "Quality operator- subtracts gain from gain and loss from loss",
  "verdict": "not caught at first: no property spoke of operator-",
  "tightened": [
   "C46.valueSemantics, C46.withoutAssignment (binary operators on Quality added to the calls)"
  ]
 },
 "ob20": {
  "claim": "C16 (optimality for all sizes), C48; at the time C47 did not speak of the ordered partitioner",
  "claims": [
   "C16",
   "C48"
  ],
  "tightened": [
   "C47.oneLeaf added: the spatiotemporal partitioner with one leaf agrees with the ordered one"
  ],
  "note": "run before C47.oneLeaf existed"
 },
 "ob21": {
  "claim": "C16 (which of several optimal partitions is chosen)",
  "claims": [
   "C16"
  ]
 },
 "sl1": "DROP",
 "sl2": "DROP",
 "sl3": "DROP",
 "sl4": "DROP",
 "sl7": "DROP",
 "sl9": "DROP",
 "sl10": "DROP",
 "sl11": "DROP",
 "sm8": {
  "claim": "none: no property speaks of the columns TsStart and TsEnd",
  "verdict": "a step lemma fails, no claim becomes false"
 },
 "rc8": {
  "claim": "none: no property speaks of the columns TsStart and TsEnd",
  "verdict": "a step lemma fails, no claim becomes false"
 },
 "rm2": {
  "claim": "none: equivalent mutant",
  "verdict": "the proof of the loop fails, no claim becomes false"
 },
 "dump13": {
  "claim": "none: equivalent mutant",
  "verdict": "behaviour unchanged; a proof step fails, no claim becomes false"
 },
 "dump14": {
  "claim": "none: equivalent mutant",
  "verdict": "behaviour unchanged; a proof step fails, no claim becomes false"
 },
 "dump15": {
  "tightened": [
   "C69.states",
   "C69.counters",
   "C69.lost"
  ],
  "note": "caught by the example only: the specification used the model's Line.field; it now reads fields with its own textAt, and the theorems fail"
 },
 "n13d2": {
  "tightened": [
   "C13.readyMade"
  ],
  "note": "C13 still proved (another property's proof failed); its theorem on ready-made tables now gives the values read, and fails"
 },
 "n13m1": {
  "tightened": [
   "C03.readings"
  ],
  "note": "C03 still proved; C03.readings (parents and sizes read from right metadata) was added, and fails"
 },
 "n13u1": {
  "tightened": [
   "C01.readsLastWrite"
  ],
  "note": "C01 still proved; readsLastWrite now also gives the size and the number of elements, and fails"
 },
 "n13v5": {
  "claim": "C07",
  "claims": [
   "C07"
  ],
  "note": "swaps the sizes seen by the qualities, which is C07's claim (all three containers), not C02's"
 },
 "n14d2": {
  "claims": [
   "C20"
  ]
 },
 "n14h2": {
  "claims": [
   "C18"
  ]
 },
 "n14n1": "DROP"
}