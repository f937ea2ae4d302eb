import Verif.Py.Float
import Verif.Py.Broadcast
import Verif.Spec.Vec
import Mathlib.Analysis.SpecialFunctions.Trigonometric.Arctan
import Mathlib.Analysis.SpecialFunctions.Trigonometric.Inverse

/-!
# Model of `geoana/earthquake/oksar.py`: attributes, plot data, line of sight, simulation grid

An object is its instance dictionary: a map from private names (`_title`, ...) to values.  Reading a name that was never
written raises `AttributeError`.  Not modelled: the drawing calls.  The displacement formulas (`_dc3d3`) are
in `Model/Okada`.
-/

namespace Verif.Earthquake

open Classical

/-- What a caller may assign: an ordinary object, or a `datetime` (`D` is the type of datetimes). -/
inductive Arg (D : Type) where
  | obj (o : Obj)
  | date (d : D)

/-- The parts of Python left open: `str(value)` (which may raise), the grammar of `int` literals, the two `strptime` formats
of oksar.py:36-39, and what numpy's cast makes of a non-finite float. -/
class Conversions (D : Type) where
  str : Arg D → Option String
  parseInt : String → Option ℤ
  parseDay : String → Option D
  parseStamp : String → Option D
  castNonfinite : ℤ

/-- The values an attribute can hold. -/
inductive Val (D : Type) where
  | float (x : PyFloat)
  | text (s : String)
  | int (n : ℤ)
  | array (a : NArr PyFloat)
  | ints (l : List ℤ)
  | intArray (a : NArr ℤ)
  | date (d : D)

/-- The instance dictionary. -/
abbrev Slots (D : Type) := String → Option (Val D)

variable {D : Type}

/-- `self.<slot> = value` -/
def Slots.write (s : Slots D) (slot : String) (v : Val D) : Slots D := fun k => if k = slot then some v else s k

/-- `return self.<slot>` -/
def Slots.read (s : Slots D) (slot : String) : Py (Val D) :=
  match s slot with
  | some v => .ok v
  | none => .error .attributeError

/-! ## Conversions -/

section conversions

variable [FloatGrammar] [Conversions D]

/-- `float(var)`, any failure becoming `TypeError`: oksar.py:271-274 and the other float setters. -/
def toFloatVal : Arg D → Py PyFloat
  | .date _ => .error .typeError
  | .obj o =>
    match o.toFloat with
    | .error _ => .error .typeError
    | .ok x => .ok x

/-- `str(var)`, any failure becoming `TypeError`: oksar.py:127-130 and the other string setters. -/
def toStrVal (a : Arg D) : Py (Val D) :=
  match Conversions.str a with
  | some s => .ok (.text s)
  | none => .error .typeError

/-- Truncation of a float to an integer; infinities and NaN raise. -/
noncomputable def truncInt : PyFloat → Option ℤ
  | .fin x => some (if 0 ≤ x then ⌊x⌋ else ⌈x⌉)
  | _ => none

/-- `int(var)`: a float truncates, a string is parsed, a one-element array converts. -/
noncomputable def intOf (D : Type) [Conversions D] : Obj → Option ℤ
  | .num x => truncInt x
  | .str s => Conversions.parseInt D s
  | .ndarray a => if a.size = 1 then truncInt (a.get (a.shape.map fun _ => 0)) else none
  | _ => none

/-- oksar.py:175-178. -/
noncomputable def toIntVal : Arg D → Py (Val D)
  | .date _ => .error .typeError
  | .obj o =>
    match intOf D o with
    | some n => .ok (.int n)
    | none => .error .typeError

/-- The rows of an array along its first axis. -/
def rows (a : NArr PyFloat) : List (NArr PyFloat) :=
  (List.range (a.shape.headD 0)).map fun k => ⟨a.shape.tail, fun i => a.get (k :: i)⟩

/-- `tuple(int(v) for v in var)`: strings iterate over characters, arrays over rows (a 0-d array does not iterate), a list
over its items, which must be numbers.  oksar.py:197-200. -/
noncomputable def intTuple (D : Type) [Conversions D] : Obj → Option (List ℤ)
  | .str s => s.toList.mapM fun c => Conversions.parseInt D (String.ofList [c])
  | .ndarray a => if a.shape = [] then none else (rows a).mapM fun r => intOf D (.ndarray r)
  | .seq a => if a.shape.length ≠ 1 then none else (rows a).mapM fun r => truncInt (r.get [])
  | _ => none

/-- The `shape` setter of an interferogram: oksar.py:197-205. -/
noncomputable def toShapeVal : Arg D → Py (Val D)
  | .date _ => .error .typeError
  | .obj o =>
    match intTuple D o with
    | none => .error .typeError
    | some l => if l.length ≠ 2 then .error .valueError else .ok (.ints l)

/-- `np.asarray(var, dtype=float)`, any failure becoming `TypeError`: oksar.py:106-109. -/
def toArray : Arg D → Py (NArr PyFloat)
  | .date _ => .error .typeError
  | .obj o =>
    match o.asFloatArray with
    | .error _ => .error .typeError
    | .ok a => .ok a

/-- The same followed by `np.squeeze` and the `(2,)` check, raising `wrongShape`: oksar.py:147-157, 221-227, 245-253 and
960-966, 983-991, 1008-1014, 1032-1038. -/
def toPair (wrongShape : PyErr) (v : Arg D) : Py (Val D) :=
  match toArray v with
  | .error e => .error e
  | .ok a =>
    let a := a.squeeze
    if a.shape ≠ [2] then .error wrongShape else .ok (.array a)

/-- `_date_time_from_json` on a string: oksar.py:36-39. -/
def dateOfString (s : String) : Option D :=
  if s.length = 10 then Conversions.parseDay (s.replace "-" "/") else Conversions.parseStamp s

/-- A date setter: oksar.py:584-592. -/
def toDateVal : Arg D → Py (Val D)
  | .date d => .ok (.date d)
  | .obj (.str s) =>
    match dateOfString s with
    | some d => .ok (.date d)
    | none => .error .typeError
  | .obj _ => .error .typeError

/-- The cast of one element by `astype(int)`. -/
noncomputable def castInt (D : Type) [Conversions D] (x : PyFloat) : ℤ :=
  (truncInt x).getD (Conversions.castNonfinite D)

/-- The `shape` setter of `Oksar`: oksar.py:1266-1274.  `np.array` of a nested list refuses non-finite entries; `len` of a 0-d
array raises `TypeError`, like every other failure here. -/
noncomputable def toShapeArray : Arg D → Py (Val D)
  | .obj (.ndarray a) =>
    if a.shape.head? = some 2 then .ok (.intArray ⟨a.shape, fun i => castInt D (a.get i)⟩) else .error .typeError
  | .obj (.seq a) =>
    if (∀ i, InShape a.shape i → (truncInt (a.get i)).isSome) ∧ a.shape.head? = some 2 then
      .ok (.intArray ⟨a.shape, fun i => castInt D (a.get i)⟩)
    else .error .typeError
  | _ => .error .typeError

end conversions

/-! ## `EarthquakeInterferogram` -/

/-- The attributes. -/
inductive IAttr where
  | data | title | location | location_UTM_zone | shape | pixel_size | ref | ref_incidence | scaling
  | satellite_fringe_interval | satellite_azimuth | satellite_altitude | local_earth_radius | local_rigidity
  | processed_by | description | satellite_name | copyright | data_source | event_gcmt_id | event_name
  | event_country | date1 | date2 | processed_date | event_date
  deriving DecidableEq

/-- The name each setter writes: oksar.py:111, 131, 159, 180, 205, 229, 255, 276, 297, 318, 339, 360, 381, 402, 423, 443,
464, 485, 506, 527, 548, 569, 592, 615, 637, 660. -/
def IAttr.setSlot : IAttr → String
  | .data => "_data"
  | .title => "_title"
  | .location => "_location"
  | .location_UTM_zone => "_location_UTM_zone"
  | .shape => "_shape"
  | .pixel_size => "_pixel_size"
  | .ref => "_ref"
  | .ref_incidence => "_ref_incidence"
  | .scaling => "_scaling"
  | .satellite_fringe_interval => "_satellite_fringe_interval"
  | .satellite_azimuth => "_satellite_azimuth"
  | .satellite_altitude => "_satellite_altitude"
  | .local_earth_radius => "_local_earth_radius"
  | .local_rigidity => "_rigidity"
  | .processed_by => "_processed_by"
  | .description => "_description"
  | .satellite_name => "_satellite_name"
  | .copyright => "_copyright"
  | .data_source => "_data_source"
  | .event_gcmt_id => "_event_gcmt_id"
  | .event_name => "_event_name"
  | .event_country => "_event_country"
  | .date1 => "_date1"
  | .date2 => "_date2"
  | .processed_date => "_processed_date"
  | .event_date => "_event_date"

/-- The name each getter reads: oksar.py:102, 123, 143, 171, 193, 217, 241, 267, 288, 309, 330, 351, 372, 393, 414, 435,
455, 476, 497, 518, 539, 560, 580, 603, 625, 648. -/
def IAttr.getSlot : IAttr → String
  | .data => "_data"
  | .title => "_title"
  | .location => "_location"
  | .location_UTM_zone => "_location_UTM_zone"
  | .shape => "_shape"
  | .pixel_size => "_pixel_size"
  | .ref => "_ref"
  | .ref_incidence => "_ref_incidence"
  | .scaling => "_scaling"
  | .satellite_fringe_interval => "_satellite_fringe_interval"
  | .satellite_azimuth => "_satellite_azimuth"
  | .satellite_altitude => "_satellite_altitude"
  | .local_earth_radius => "_local_earth_radius"
  | .local_rigidity => "_local_rigidity"
  | .processed_by => "_processed_by"
  | .description => "_description"
  | .satellite_name => "_satellite_name"
  | .copyright => "_copyright"
  | .data_source => "_data_source"
  | .event_gcmt_id => "_event_gcmt_id"
  | .event_name => "_event_name"
  | .event_country => "_event_country"
  | .date1 => "_date1"
  | .date2 => "_date2"
  | .processed_date => "_processed_date"
  | .event_date => "_processed_date"

section interferogram

variable [FloatGrammar] [Conversions D]

/-- `float(var)` as an attribute value. -/
def toFloatAttr (v : Arg D) : Py (Val D) :=
  match toFloatVal v with
  | .error e => .error e
  | .ok x => .ok (.float x)

/-- The conversion each setter makes: the line ranges of `IAttr.setSlot`. -/
noncomputable def IAttr.convert : IAttr → Arg D → Py (Val D)
  | .data, v =>
    match toArray v with
    | .error e => .error e
    | .ok a => .ok (.array a)
  | .title, v | .processed_by, v | .description, v | .satellite_name, v | .copyright, v | .data_source, v
  | .event_gcmt_id, v | .event_name, v | .event_country, v => toStrVal v
  | .location, v | .ref, v => toPair .valueError v
  | .pixel_size, v => toPair .typeError v
  | .location_UTM_zone, v => toIntVal v
  | .shape, v => toShapeVal v
  | .ref_incidence, v | .scaling, v | .satellite_fringe_interval, v | .satellite_azimuth, v | .satellite_altitude, v
  | .local_earth_radius, v | .local_rigidity, v => toFloatAttr v
  | .date1, v | .date2, v | .processed_date, v | .event_date, v => toDateVal v

/-- `obj.a = v` -/
noncomputable def IAttr.set (s : Slots D) (op : IAttr × Arg D) : SetResult (Slots D) :=
  match op.1.convert op.2 with
  | .error e => (s, some e)
  | .ok v => (s.write op.1.setSlot v, none)

/-- `obj.a` -/
def IAttr.get (a : IAttr) (s : Slots D) : Py (Val D) := s.read a.getSlot

/-- Assignments in sequence, stopping at the first exception. -/
noncomputable def assignAll : List (IAttr × Arg D) → Slots D → SetResult (Slots D)
  | [], s => (s, none)
  | o :: l, s => (IAttr.set s o).andThen (assignAll l)

/-- The order of the assignments in the constructor: oksar.py:65-88. -/
def IAttr.initOrder : List IAttr :=
  [.data, .title, .location, .location_UTM_zone, .shape, .pixel_size, .ref, .ref_incidence, .satellite_azimuth,
   .satellite_altitude, .processed_by, .scaling, .satellite_fringe_interval, .local_earth_radius, .local_rigidity,
   .description, .event_country, .event_name, .copyright, .data_source, .satellite_name, .event_gcmt_id, .date1,
   .date2, .processed_date, .event_date]

/-- The default of each parameter: oksar.py:58-61. -/
noncomputable def IAttr.default : IAttr → Option (Arg D)
  | .scaling => some (.obj (.num (.fin 1.0)))
  | .satellite_fringe_interval => some (.obj (.num (.fin 0.028333)))
  | .local_earth_radius => some (.obj (.num (.fin 6371000)))
  | .local_rigidity => some (.obj (.num (.fin 3e10)))
  | _ => none

/-- The parameters without a default: oksar.py:47-57. -/
def IAttr.required : IAttr → Bool
  | .data | .title | .location | .location_UTM_zone | .shape | .pixel_size | .ref | .ref_incidence | .satellite_azimuth
  | .satellite_altitude | .processed_by => true
  | _ => false

/-- The assignments the constructor makes for the keyword arguments `given`. -/
noncomputable def initAssignments (given : IAttr → Option (Arg D)) : List (IAttr × Arg D) :=
  IAttr.initOrder.filterMap fun a => ((given a).or a.default).map fun v => (a, v)

/-- The constructor: oksar.py:45-90.  A missing required argument is a `TypeError`. -/
noncomputable def newInterferogram (given : IAttr → Option (Arg D)) : Py (Slots D) :=
  if ∃ a : IAttr, a.required = true ∧ given a = none then .error .typeError
  else
    match assignAll (initAssignments given) (fun _ => none) with
    | (s, none) => .ok s
    | (_, some e) => .error e

end interferogram

/-! ### Plot data -/

/-- `np.r_[0, np.cumsum((step,) * n)]` at position `i`. -/
noncomputable def edge (step : PyFloat) : ℕ → PyFloat
  | 0 => .fin 0
  | 1 => step
  | i + 2 => edge step (i + 1) + step

/-- What `_get_plot_data` returns. -/
structure PlotData where
  vectorNx : NArr PyFloat
  vectorNy : NArr PyFloat
  data : NArr PyFloat

/-- `_get_plot_data`: oksar.py:662-686, for a shape without negative entries.  `reshape` raises `ValueError` on a size
mismatch; `self.data.copy()` keeps the stored array unchanged. -/
noncomputable def plotData (data : NArr PyFloat) (location pixel : PyFloat × PyFloat) (nx ny : ℕ) (scaling : PyFloat) :
    Py PlotData :=
  if data.size ≠ nx * ny then .error .valueError
  else
    let d := data.flattenF
    .ok
      { vectorNx := ⟨[nx + 1], fun i => edge pixel.1 (i.headD 0) + location.1⟩
        vectorNy := ⟨[ny + 1], fun i => edge pixel.2 (i.headD 0) + location.2 - pixel.2 * .fin ny⟩
        data := ⟨[ny, nx], fun i =>
          -- `reshape(shape, order='F')` puts sample `k` at `[k % nx, k // nx]`, `.T` swaps, `flipud` reverses the rows
          let x := d.get [i.getD 1 0 + nx * (ny - 1 - i.getD 0 0)]
          (if x = .fin 0 then .nan else x) * scaling⟩ }

/-! ### Line of sight -/

/-- `np.deg2rad` -/
noncomputable def deg2rad (x : ℝ) : ℝ := x * (Real.pi / 180)

/-- `np.rad2deg` -/
noncomputable def rad2deg (x : ℝ) : ℝ := x * (180 / Real.pi)

/-- `np.arccos`; `none` is NaN. -/
noncomputable def npArccos (x : ℝ) : Option ℝ := if x < -1 ∨ 1 < x then none else some (Real.arccos x)

/-- `np.arcsin`; `none` is NaN. -/
noncomputable def npArcsin (x : ℝ) : Option ℝ := if x < -1 ∨ 1 < x then none else some (Real.arcsin x)

/-- `Ngc`: oksar.py:867-888. -/
noncomputable def trackNormal (origx origy satAzimuth : ℝ) : V3 ℝ :=
  let satAzimuth := deg2rad satAzimuth
  let origx := deg2rad origx
  let origy := deg2rad origy
  ⟨Real.sin satAzimuth * Real.sin origy * Real.cos origx - Real.cos satAzimuth * Real.sin origx,
   Real.sin satAzimuth * Real.sin origy * Real.sin origx + Real.cos satAzimuth * Real.cos origx,
   -Real.sin satAzimuth * Real.cos origy⟩

/-- `cartxy`: oksar.py:871-895. -/
noncomputable def geocentric (x y : ℝ) : V3 ℝ :=
  let x := deg2rad x
  let y := deg2rad y
  ⟨Real.cos x * Real.cos y, Real.sin x * Real.cos y, Real.sin y⟩

/-- `_ang_to_gc` at one point: oksar.py:859-908. -/
noncomputable def angToGc (x y origx origy satAzimuth : ℝ) : Option ℝ :=
  let n := trackNormal origx origy satAzimuth
  let c := geocentric x y
  let angdist := n.x * c.x + n.y * c.y + n.z * c.z
  match npArccos angdist with
  | none => none
  | some t => some (rad2deg t - 90)

/-- `np.arctan(num / den)`; the division follows IEEE, `0/0` being NaN. -/
noncomputable def npArctanDiv (num den : ℝ) : Option ℝ :=
  if den = 0 then
    if num = 0 then none else if 0 < num then some (Real.pi / 2) else some (-(Real.pi / 2))
  else some (Real.arctan (num / den))

/-- The scalar attributes `get_LOS_vector` uses: oksar.py:803-808. -/
structure Geometry where
  ref : ℝ × ℝ
  altitude : ℝ
  azimuth : ℝ
  incidence : ℝ
  earthRadius : ℝ

/-- The pointing vector for the angular distance `angdist` of a point, given `beta` in degrees: oksar.py:836-854. -/
noncomputable def pointing (g : Geometry) (beta angdist : ℝ) : Option (V3 ℝ) :=
  let rad := Real.pi / 180
  let beta2 := (beta - angdist) * rad
  match npArctanDiv (Real.sin beta2) (Real.cos beta2 - g.earthRadius / (g.earthRadius + g.altitude)) with
  | none => none
  | some alpha2 =>
    let alpha2 := alpha2 / rad
    let satIncidence := 90 - alpha2
    let satAzimuth := 360 - g.azimuth
    some ⟨-Real.cos (satAzimuth * rad) * Real.cos (satIncidence * rad),
      -Real.sin (satAzimuth * rad) * Real.cos (satIncidence * rad),
      Real.sin (satIncidence * rad)⟩

/-- `beta`: oksar.py:810-814. -/
noncomputable def refBeta (g : Geometry) : Option ℝ :=
  let rad := Real.pi / 180
  let alpha := g.incidence * rad
  match npArcsin (g.earthRadius / (g.altitude + g.earthRadius) * Real.sin alpha) with
  | none => none
  | some b => some ((alpha - b) / rad)

/-- `get_LOS_vector` at each of a list of locations: oksar.py:786-856.  `latlon` stands for `utm.to_latlon` in the object's
zone.  A NaN vector is `none`.  The radius and altitude are Python floats, so their division can raise. -/
noncomputable def losVector (latlon : ℝ × ℝ → ℝ × ℝ) (g : Geometry) (locations : List (ℝ × ℝ)) :
    Py (List (Option (V3 ℝ))) :=
  if g.altitude + g.earthRadius = 0 then .error .zeroDivisionError
  else
    let o := latlon g.ref
    .ok (locations.map fun u =>
      let p := latlon u
      match refBeta g, angToGc p.2 p.1 o.2 o.1 g.azimuth with
      | some beta, some angdist => pointing g beta angdist
      | _, _ => none)

/-! ## `Oksar` -/

/-- The attributes. -/
inductive OAttr where
  | O | U | V | center | depth_top | depth_bottom | strike | dip | rake | slip | length | beta | mu | shape
  deriving DecidableEq

/-- The name each setter writes: oksar.py:967, 992, 1015, 1039, 1063, 1087, 1111, 1135, 1159, 1183, 1207, 1228, 1249,
1274. -/
def OAttr.setSlot : OAttr → String
  | .O => "_O"
  | .U => "_U"
  | .V => "_V"
  | .center => "_center"
  | .depth_top => "_depth_top"
  | .depth_bottom => "_depth_bottom"
  | .strike => "_strike"
  | .dip => "_dip"
  | .rake => "_rake"
  | .slip => "_slip"
  | .length => "_length"
  | .beta => "_beta"
  | .mu => "_mu"
  | .shape => "_shape"

/-- The name each getter reads: oksar.py:956, 979, 1004, 1028, 1051, 1075, 1099, 1123, 1147, 1171, 1195, 1219, 1240,
1262. -/
def OAttr.getSlot : OAttr → String
  | .O => "_O"
  | .U => "_U"
  | .V => "_location"
  | .center => "_center"
  | .depth_top => "_depth_top"
  | .depth_bottom => "_depth_bottom"
  | .strike => "_strike"
  | .dip => "_dip"
  | .rake => "_rake"
  | .slip => "_slip"
  | .length => "_length"
  | .beta => "_beta"
  | .mu => "_mu"
  | .shape => "_shape"

/-- `obj.a` -/
def OAttr.get (a : OAttr) (s : Slots D) : Py (Val D) := s.read a.getSlot

section oksar

variable [FloatGrammar] [Conversions D]

/-- `float(var)` followed by the rejection of the values for which `bad` holds. -/
noncomputable def floatUnless (bad : PyFloat → Prop) (v : Arg D) : Py (Val D) :=
  match toFloatVal v with
  | .error e => .error e
  | .ok x => if bad x then .error .valueError else .ok (.float x)

/-- The conversion and check each setter makes; `depth_bottom` consults the current `depth_top`: oksar.py:959-1274. -/
noncomputable def OAttr.convert (s : Slots D) : OAttr → Arg D → Py (Val D)
  | .O, v | .U, v | .V, v | .center, v => toPair .valueError v
  | .depth_top, v => floatUnless (· < .fin 0) v
  | .depth_bottom, v =>
    match toFloatVal v with
    | .error e => .error e
    | .ok x =>
      match OAttr.get .depth_top s with
      | .ok (.float t) => if x < t then .error .valueError else .ok (.float x)
      | .ok _ => .error .typeError
      | .error e => .error e
  | .strike, v => floatUnless (fun x => x < .fin 0 ∨ x > .fin 360) v
  | .dip, v => floatUnless (fun x => x < .fin 0 ∨ x > .fin 90) v
  | .rake, v => floatUnless (fun x => x < .fin (-180) ∨ x > .fin 180) v
  | .slip, v => floatUnless (· < .fin 0) v
  | .length, v => floatUnless (· < .fin 0) v
  | .beta, v | .mu, v => toFloatAttr v
  | .shape, v => toShapeArray v

/-- `obj.a = v` -/
noncomputable def OAttr.set (s : Slots D) (op : OAttr × Arg D) : SetResult (Slots D) :=
  match op.1.convert s op.2 with
  | .error e => (s, some e)
  | .ok v => (s.write op.1.setSlot v, none)

/-- Assignments in sequence, stopping at the first exception. -/
noncomputable def assignAllO : List (OAttr × Arg D) → Slots D → SetResult (Slots D)
  | [], s => (s, none)
  | o :: l, s => (OAttr.set s o).andThen (assignAllO l)

/-- The defaults: oksar.py:920-928. -/
noncomputable def OAttr.default : OAttr → Arg D
  | .depth_bottom => .obj (.num (.fin 1e4))
  | .strike => .obj (.num (.fin 0))
  | .dip => .obj (.num (.fin 45))
  | .rake => .obj (.num (.fin 90))
  | .slip => .obj (.num (.fin 0.5))
  | .length => .obj (.num (.fin 1e4))
  | .beta => .obj (.num (.fin 3e10))
  | .mu => .obj (.num (.fin 3e10))
  | .shape => .obj (.seq (NArr.ofList [.fin 300, .fin 300] .nan))
  | _ => .obj .none

/-- The constructor: oksar.py:913-944.  `O`, `U`, `V`, `center` and `depth_top` have no default. -/
noncomputable def newOksar (given : OAttr → Option (Arg D)) : Py (Slots D) :=
  if given .O = none ∨ given .U = none ∨ given .V = none ∨ given .center = none ∨ given .depth_top = none then
    .error .typeError
  else
    let arg := fun a => (a, (given a).getD (OAttr.default a))
    match assignAllO ([.O, .U, .V, .center, .depth_top, .depth_bottom, .strike, .dip, .rake, .slip, .length, .beta, .mu,
      .shape].map arg) (fun _ => none) with
    | (s, none) => .ok s
    | (_, some e) => .error e

end oksar

/-- `np.linspace(0, 1, n)[i]` -/
noncomputable def linspace01 (n i : ℕ) : ℝ := if n = 1 then 0 else i * (1 / ((n : ℝ) - 1))

/-- `simulation_grid` from the attribute values it reads: oksar.py:1287-1295.  `meshgrid` makes position `k` of the flattened
squares hold `(x[k % n], y[k // n])`; row `i` of `R` is contracted with it. A negative count makes `linspace` raise
`ValueError`. -/
noncomputable def gridOf (shape : ℤ × ℤ) (o u v : PyFloat × PyFloat) : Py (NArr PyFloat) :=
  if shape.1 < 0 ∨ shape.2 < 0 then .error .valueError
  else
    let n := shape.1.toNat
    let m := shape.2.toNat
    .ok ⟨[m * n, 2], fun i =>
      let s : PyFloat := .fin (linspace01 n (i.getD 0 0 % n))
      let t : PyFloat := .fin (linspace01 m (i.getD 0 0 / n))
      if i.getD 1 0 = 0 then o.1 + (u.1 * s + u.2 * t) else o.2 + (v.1 * s + v.2 * t)⟩

/-- The first two entries of a pair attribute. -/
def pairOf (a : NArr PyFloat) : PyFloat × PyFloat := (a.get [0], a.get [1])

/-- `simulation_grid`: oksar.py:1285-1295, reading `shape`, `O`, `U`, `V` in this order. A shape with more than one axis makes
`linspace` raise `TypeError`. -/
noncomputable def simulationGrid (s : Slots D) : Py (NArr PyFloat) :=
  match OAttr.get .shape s with
  | .error e => .error e
  | .ok sh =>
    match OAttr.get .O s with
    | .error e => .error e
    | .ok o =>
      match OAttr.get .U s with
      | .error e => .error e
      | .ok u =>
        match OAttr.get .V s with
        | .error e => .error e
        | .ok v =>
          match sh, o, u, v with
          | .intArray sh, .array o, .array u, .array v =>
            if sh.shape ≠ [2] then .error .typeError
            else gridOf (sh.get [0], sh.get [1]) (pairOf o) (pairOf u) (pairOf v)
          | _, _, _, _ => .error .typeError

end Verif.Earthquake
