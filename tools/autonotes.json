{
"Call": {
"claim": "none: names of two binders exchanged",
"verdict": "not a change of the program"
},
"forEach": {
"claim": "none: the edited line is a proof step",
"verdict": "not a change of the program"
},
"DPart.eqOp": {
"claim": "none: equality of parts is symmetric",
"verdict": "equivalent mutant"
},
"DPartition.eqOp": {
"claim": "none: equality of parts is symmetric",
"verdict": "equivalent mutant"
},
"mul": {
"claim": "C65: the arithmetic operators of Tradeoff act on each component",
"tightened": [
"C65.componentwise, C65.undo, C65.binary"
],
"note": "not caught at first, C65 was added; caught since"
},
"sub": {
"claim": "C65: the arithmetic operators of Tradeoff act on each component",
"tightened": [
"C65.componentwise, C65.undo, C65.binary"
],
"note": "not caught at first, C65 was added; caught since"
},
"div": {
"claim": "C65: the arithmetic operators of Tradeoff act on each component",
"tightened": [
"C65.componentwise, C65.undo, C65.binary"
],
"note": "not caught at first, C65 was added; caught since"
},
"emptyIndex": {
"claim": "C69: files with numeric container names and a counter of at most -1 cannot be read",
"tightened": [
"C69.unreadable"
],
"note": "not caught at first, C69.unreadable was added; the same edit is caught since (ei1)"
},
"intoFactor": {
"claim": "none: a factor column cannot be averaged, so the counters are lost whatever is put into it",
"verdict": "equivalent for every claim"
},
"rMin": {
"claim": "none: the theorems assume a non-empty trace, where this branch is not reached",
"verdict": "not reached"
},
"rMax": {
"claim": "none: the theorems assume a non-empty trace, where this branch is not reached",
"verdict": "not reached"
},
"pathStep": {
"claim": "none: the default is not used, every node has a size here",
"verdict": "equivalent mutant"
}
}