import Verif.Base.Hardware
import Verif.Model.RBinding
import Verif.Model.Aggregation
open Lp
instance : LDLog Float where
  log := Float.log
  ofInt z := Float.ofInt z
def data : List Float := [50.0/355.0, 100.0/355.0, 0.0, 200.0/355.0, 5.0/355.0]
def showQ (q : UTM (Quality Float)) : IO Unit := do
  for p in [(0.0:Float32), 0.09, 0.38, 0.70] do
    match (oBestPartition q p) with
    | .ok P => IO.println s!"{p} {P.quality.gain} {P.quality.loss} {P.parts.map (fun x => (x.start, x.end))}"
    | .error _ => IO.println "error"
  match computeBestPartitions (oOps (F := Float32) q) false 1000 (0.001:Float32) 0 1 PState.empty with
  | .ok st => IO.println s!"{st.pList} "
  | .error _ => IO.println "error"
def run (vals : OValues Float) : IO Unit := do
  match (OQualities.ofValues vals).computeQualities with
  | .ok q => match q.qualities with
    | some q => showQ q
    | none => IO.println "null"
  | .error _ => IO.println "error"
#eval run (OValuesN1.ofVec data).toOValues
#eval run (OValuesN2.ofVec [data,data]).toOValues
#eval run (OValuesN3.ofVec [[data,data],[data,data]]).toOValues
#eval run (OValuesN4.ofVec [[[data,data],[data,data]],[[data,data],[data,data]]]).toOValues
