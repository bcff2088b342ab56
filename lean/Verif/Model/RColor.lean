import Verif.Model.RPlot
import Mathlib.Data.List.Sort

/-!
# Colours and the quality plot (R/lpaggreg_pjdump.R: `string2colorRandom`, `color_generator`, `qualplot`)

A text is a list of letters; hexadecimal texts are lists of digits 0..15.  The hash function of the package `digest` is a parameter.
Texts of hexadecimal digits are compared letter by letter, digits before `a`..`f`, which is how R compares them.
-/

namespace Lp

/-- The package `digest` and the letters of the texts. -/
structure Hash (A : Type) where
  digest : List A → List Nat
  digits : List Nat → List A
  sep : List A

/-- `substr(digested,a,b)` as a text and hashed, then its first two digits: `R/lpaggreg_pjdump.R:14-21`. -/
def Hash.component {A : Type} (H : Hash A) (string : List A) (a : Nat) : List Nat :=
  (H.digest (H.digits (((H.digest string).drop a).take 10))).take 2

/-- `(r>230&g>230&b>230)|(r<30&g<30&b<30)` for texts `r`, `g`, `b`: the numbers become texts: `R/lpaggreg_pjdump.R:23`. -/
def tooPlain (r g b : List Nat) : Bool :=
  (decide ([2, 3, 0] < r) && decide ([2, 3, 0] < g) && decide ([2, 3, 0] < b)) || (decide (r < [3, 0]) && decide (g < [3, 0]) && decide (b < [3, 0]))

/-- `string2colorRandom(string)`: `R/lpaggreg_pjdump.R:12-27`. -/
def string2color {A : Type} (H : Hash A) : Nat → List A → Res (List Nat)
  | 0, _ => .error .outOfFuel
  | fuel + 1, string =>
    if tooPlain (H.component string 0) (H.component string 10) (H.component string 20) then
      string2color H fuel (string ++ H.sep ++ string)
    else .ok (H.component string 0 ++ H.component string 10 ++ H.component string 20)

/-- `as.hexmode` of a text of hexadecimal digits: `R/lpaggreg_pjdump.R:41`. -/
def hexValue (l : List Nat) : Nat := l.foldl (fun n d => 16 * n + d) 0

/-- `format(..., width=6)` of a number below `16^6`: `R/lpaggreg_pjdump.R:41`. -/
def hexText (n : Nat) : List Nat := [n / 1048576 % 16, n / 65536 % 16, n / 4096 % 16, n / 256 % 16, n / 16 % 16, n % 16]

/-- The colour of one name: `R/lpaggreg_pjdump.R:34-39`, `:41-42`. -/
def nameColor {A : Type} [DecidableEq A] (H : Hash A) (fuel : Nat) (agg string : List A) : Res (List Nat) :=
  if string = agg then .ok (hexText 0)
  else match string2color H fuel string with
    | .error e => .error e
    | .ok h => .ok (hexText (hexValue h))

/-- `color_generator(stringlist, aggString)`: names with colours; the loop `1:length(sorted)` does not work for an empty list:
`R/lpaggreg_pjdump.R:30-45`. -/
def colorGenerator {A : Type} [LinearOrder (List A)] [DecidableEq A] (H : Hash A) (fuel : Nat) (stringlist : List (List A)) (agg : List A) :
    Res (List (List A × List Nat)) :=
  if stringlist = [] then .error .outOfBounds
  else forEach (fun s acc => match nameColor H fuel agg s with
    | .error e => .error e
    | .ok c => .ok (acc ++ [(s, c)])) (stringlist.insertionSort (· ≤ ·)) []

/-- `v[name]=c` for a vector of texts with names: the first entry with that name, or a new one at the end (R's assignment by name): used in
`R/example_nemo_cluster.R:15-27`. -/
def setNamed (v : List (String × String)) (name c : String) : List (String × String) :=
  match v with
  | [] => [(name, c)]
  | x :: l => if x.1 = name then (name, c) :: l else x :: setNamed l name c

/-- `names(v)=l`: the entries after the last name of `l` have no name (R's `NA`): used in `R/example_nemo_cluster.R:28`. -/
def setNames (v : List (String × String)) (l : List String) : List (Option String × String) :=
  match v, l with
  | [], _ => []
  | x :: v, [] => (none, x.2) :: setNames v []
  | x :: v, s :: l => (some s, x.2) :: setNames v l

/-- `color_generator_Clusters(stringlist)`: `R/example_nemo_cluster.R:12-30`, `R/example.R:34-52`.  Its second argument is not used. -/
def colorGeneratorClusters (stringlist : List String) : List (Option String × String) :=
  let colors := stringlist.map (fun s => (s, "black"))
  let colors := setNamed colors "Cluster 1" "green"
  let colors := setNamed colors "Cluster 2" "yellow"
  let colors := setNamed colors "Cluster 3" "red"
  let colors := setNamed colors "Cluster 4" "darkgreen"
  let colors := setNamed colors "Cluster 5" "deeppink"
  let colors := setNamed colors "Cluster 6" "darkviolet"
  let colors := setNamed colors "Cluster 7" "navajowhite1"
  let colors := setNamed colors "Cluster 8" "orange"
  let colors := setNamed colors "Cluster 9" "cyan"
  let colors := setNamed colors "Cluster 10" "darkolivegreen2"
  let colors := setNamed colors "Cluster 11" "peru"
  let colors := setNamed colors "Duration Filtered" "black"
  let colors := setNamed colors "Noise" "grey"
  setNames colors stringlist

/-- `vcolors[agg$Type]` for a row of the given type: `agg$Type` is a factor (made by `melt`), so the entry is taken by the position of the type
among the levels, not by its name: `R/lpaggreg_pjdump.R:295`. -/
def colorOfRow {N C : Type} [DecidableEq N] (levels : List N) (vcolors : List (N × C)) (type : N) : Option C :=
  (vcolors[levels.idxOf type]?).map Prod.snd

/-- What `qualplot` shows: a line and points for the qualities, the line in the order of `Loss`, and red points: `R/lpaggreg_pjdump.R:265-278`. -/
structure QualPlot (F K : Type) where
  line : List (K × K)
  points : List (K × K)
  red : List (K × K)

/-- `qualplot(results)`: `R/lpaggreg_pjdump.R:265-278`.  Points are (loss, gain); `geom_line` orders by the first coordinate and keeps the
order of rows with the same one. -/
def qualplot {F K R : Type} [DecidableEq F] [LinearOrder K] (r : RResult F K R) : QualPlot F K :=
  let point := fun e : QRow F K => (e.loss, e.gain)
  ⟨(r.qualities.map point).insertionSort (fun a b => a.1 ≤ b.1), r.qualities.map point,
    (r.qualities.filter (fun e => e.parameter = r.pOpt)).map point⟩

end Lp
