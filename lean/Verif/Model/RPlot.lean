import Verif.Model.RMacro
import Verif.Model.RBinding

/-!
# What the plots show (R/lpaggreg_pjdump.R: `oplot_stacked_state`, `hplot_treemap_state`, `hplot_treemap_perfcounter`)

The data frames that are given to `ggplot` and `treemap`; colours, titles and the layout made by these packages are not modelled.
Simplifications as in `RMacro`.
-/

namespace Lp
variable {S Y K : Type} [DecidableEq S] [DecidableEq Y] [Field K]

/-- `melt(a)` for an array with the given names: one row for each element in the order of the memory; the slices are numbered from 1:
`R/lpaggreg_pjdump.R:230`, `:243`. -/
def meltArray (space : List S) (type : List Y) (a : RArray K) : List (MRow S Y K) :=
  a.mem.zipIdx.filterMap (fun x =>
    match space[x.2 % a.d0]?, type[x.2 / a.d0 % a.d1]? with
    | some s, some y => some ⟨s, y, x.2 / (a.d0 * a.d1) + 1, x.1⟩
    | _, _ => none)

/-- A bar of `geom_bar`: `aes(x=..., y=value, width=..., fill=Type)`: `R/lpaggreg_pjdump.R:284`. -/
structure Bar (Y K : Type) where
  type : Y
  x : K
  width : K
  value : K

/-- `x=Start+((End-Start)/2)+0.5-(hspace/2)` and `width=Duration-hspace` with `Duration=End-Start+1`: `R/lpaggreg_pjdump.R:282`, `:284`. -/
def barOf (hspace : K) (type : Y) (start last value : K) : Bar Y K :=
  ⟨type, start + (last - start) / 2 + 1 / 2 - hspace / 2, last - start + 1 - hspace, value⟩

/-- `oplot_stacked_state(agg)`: `R/lpaggreg_pjdump.R:280-290`. -/
def oplotStacked (hspace : K) (agg : List (OMacro S Y K)) : List (Bar Y K) :=
  (groupRows (fun r : OMacro S Y K => (r.type, r.start, r.end)) agg).map                                          -- 281
    (fun g => barOf hspace g.1.1 (g.1.2.1 : K) (g.1.2.2 : K) (rMean (g.2.map (fun r => r.value))))

/-- A tile of `treemap`: `index=c("Parent", "Space", "Type")`, area `vSize`, colour by `vColor`. -/
structure Tile (S Y K : Type) where
  parent : Option S
  space : S
  type : Y
  area : K
  value : K

/-- `hplot_treemap_state(agg)`: `R/lpaggreg_pjdump.R:292-297`; the colour is that of the type. -/
def hplotState (agg : List (HMacro S Y K)) : List (Tile S Y K) :=
  (groupRows (fun r : HMacro S Y K => (r.space, r.type, r.parent)) agg).map (fun g =>                             -- 293
    ⟨g.1.2.2, g.1.1, g.1.2.1, rMean (g.2.map (fun r => r.value)), rMean (g.2.map (fun r => r.value))⟩)

/-- `hplot_treemap_perfcounter(agg)`: `R/lpaggreg_pjdump.R:299-303`. -/
def hplotCounter (agg : List (HMacro S Y K)) : List (Tile S Y K) :=
  (groupRows (fun r : HMacro S Y K => (r.space, r.type, r.size, r.parent)) agg).map (fun g =>                     -- 300
    ⟨g.1.2.2.2, g.1.1, g.1.2.1, (g.1.2.2.1 : K), rMean (g.2.map (fun r => r.value)) / (g.1.2.2.1 : K)⟩)             -- 301

end Lp
