import Verif.Py.Err
import Verif.Spec.Vec
import Mathlib.Analysis.SpecialFunctions.Trigonometric.Arctan
import Mathlib.Analysis.SpecialFunctions.Log.Basic

/-!
# Model of `Oksar._dc3d3` (geoana/earthquake/oksar.py:1355-1532): surface displacement of a rectangular fault

Exact real arithmetic.  Where numpy divides by zero and the code then overwrites the entry, the overwriting is modelled; elsewhere the
checks that precede a division exclude a zero divisor.  `PI2 = 6.283185307179586` is modelled as `2π`.
-/

namespace Verif.Okada

open Real

/-- The arguments of `_dc3d3` apart from the stations: oksar.py:1355. -/
structure Fault where
  alpha : ℝ
  dip : ℝ
  al1 : ℝ
  al2 : ℝ
  aw1 : ℝ
  aw2 : ℝ
  disl1 : ℝ
  disl2 : ℝ

/-- `EPS`: oksar.py:1360. -/
noncomputable def eps : ℝ := 1 / 10 ^ 6

/-- `1e-14`, the tolerance of the checks at oksar.py:1438 and 1475. -/
noncomputable def tiny : ℝ := 1 / 10 ^ 14

/-- `pl8`: oksar.py:1369. -/
noncomputable def pl8 : ℝ := 17453292519943 / 10 ^ 15

/-- `c0_sd` and `c0_cd` after oksar.py:1370-1380. -/
noncomputable def dipConstants (dip : ℝ) : ℝ × ℝ :=
  let sd := sin (dip * pl8)
  let cd := cos (dip * pl8)
  if |cd| < eps then
    let cd := 0
    let sd := if sd > 0 then 1 else sd
    let sd := if sd < 0 then -1 else sd
    (sd, cd)
  else (sd, cd)

/-- One entry of the masked assignments of oksar.py:1414-1418. -/
noncomputable def snap (dcMax v : ℝ) : ℝ := if |v / dcMax| < eps ∨ |v| < eps then 0 else v

/-- `xi`, `et` and `q` at one station, seen from one corner. -/
structure Corner where
  xi : ℝ
  et : ℝ
  q : ℝ

namespace Corner

variable (k : Corner) (sd cd alp3 : ℝ)

/-- `c2_r`: oksar.py:1423. -/
noncomputable def r : ℝ := √(k.xi * k.xi + k.et * k.et + k.q * k.q)

/-- `c2_y`: oksar.py:1428. -/
def y : ℝ := k.et * cd + k.q * sd

/-- `c2_d`: oksar.py:1429. -/
def d : ℝ := k.et * sd - k.q * cd

open Classical in
/-- `c2_tt`: oksar.py:1430-1431. -/
noncomputable def tt : ℝ := if k.q = 0 then 0 else arctan (k.xi * k.et / (k.q * k.r))

open Classical in
/-- `c2_x11`: oksar.py:1433-1435. -/
noncomputable def x11 : ℝ := if k.xi < 0 ∧ k.q = 0 ∧ k.et = 0 then 0 else 1 / (k.r * (k.r + k.xi))

/-- `ret`: oksar.py:1437. -/
noncomputable def ret : ℝ := k.r + k.et

open Classical in
/-- `c2_ale`: oksar.py:1443-1453. -/
noncomputable def ale : ℝ := if k.et < 0 ∧ k.q = 0 ∧ k.xi = 0 then -log (k.r - k.et) else log k.ret

open Classical in
/-- `c2_y11`: oksar.py:1444, 1454. -/
noncomputable def y11 : ℝ := if k.et < 0 ∧ k.q = 0 ∧ k.xi = 0 then 0 else 1 / (k.r * k.ret)

/-- `rd`: oksar.py:1474. -/
noncomputable def rd : ℝ := k.r + k.d sd cd

open Classical in
/-- `ai4`: oksar.py:1482-1491, 1497. -/
noncomputable def ai4 : ℝ :=
  if cd ≠ 0 then
    let xx := √(k.xi * k.xi + k.q * k.q)
    if k.xi = 0 then 0 else
      1 / (cd * cd) * (k.xi / k.rd sd cd * (sd * cd) +
        2 * arctan ((k.et * (xx + k.q * cd) + xx * (k.r + xx) * sd) / (k.xi * (k.r + xx) * cd)))
  else
    let rd2 := k.rd sd cd * k.rd sd cd
    k.xi * k.y sd cd / rd2 / 2

open Classical in
/-- `ai3`: oksar.py:1493, 1496. -/
noncomputable def ai3 : ℝ :=
  if cd ≠ 0 then (k.y sd cd * cd / k.rd sd cd - k.ale + sd * log (k.rd sd cd)) / (cd * cd)
  else
    let rd2 := k.rd sd cd * k.rd sd cd
    (k.et / k.rd sd cd + k.y sd cd * k.q / rd2 - k.ale) / 2

/-- `ai1`: oksar.py:1499. -/
noncomputable def ai1 : ℝ := -k.xi / k.rd sd cd * cd - k.ai4 sd cd * sd

/-- `ai2`: oksar.py:1500. -/
noncomputable def ai2 : ℝ := log (k.rd sd cd) + k.ai3 sd cd * sd

/-- `du2` of the strike-slip part: oksar.py:1502-1509. -/
noncomputable def strikeSlip : V3 ℝ :=
  let qy := k.q * k.y11
  ⟨-k.xi * qy - k.tt - alp3 * k.ai1 sd cd * sd,
   -k.q / k.r + alp3 * k.y sd cd / k.rd sd cd * sd,
   k.q * qy - alp3 * k.ai2 sd cd * sd⟩

/-- `du2` of the dip-slip part: oksar.py:1501, 1516-1519. -/
noncomputable def dipSlip : V3 ℝ :=
  let qx := k.q * k.x11
  ⟨-k.q / k.r + alp3 * k.ai3 sd cd * (sd * cd),
   -k.et * qx - k.tt - alp3 * k.xi / k.rd sd cd * (sd * cd),
   k.q * qx + alp3 * k.ai4 sd cd * (sd * cd)⟩

end Corner

/-! ## Arrays -/

/-- The arrays that are added up: of shape `(3,)`, or of shape `(3, n)` as three rows. -/
inductive Arr where
  | vector (v : V3 ℝ)
  | matrix (rows : V3 (List ℝ))

/-- Sum of two one-dimensional arrays under numpy's broadcasting. -/
noncomputable def rowAdd (a b : List ℝ) : Py (List ℝ) :=
  if a.length = b.length then .ok (List.zipWith (· + ·) a b)
  else match a, b with
    | [x], b => .ok (b.map (x + ·))
    | a, [y] => .ok (a.map (· + y))
    | _, _ => .error .valueError

/-- The rows of an array when it is combined with one of shape `(3, n)`. -/
def Arr.asRows : Arr → V3 (List ℝ)
  | .vector v => ⟨[v.x, v.y, v.z], [v.x, v.y, v.z], [v.x, v.y, v.z]⟩
  | .matrix m => m

/-- `a + b` -/
noncomputable def Arr.add : Arr → Arr → Py Arr
  | .vector a, .vector b => .ok (.vector (a + b))
  | a, b => do
    let x ← rowAdd a.asRows.x b.asRows.x
    let y ← rowAdd a.asRows.y b.asRows.y
    let z ← rowAdd a.asRows.z b.asRows.z
    .ok (.matrix ⟨x, y, z⟩)

/-- `-a` -/
def Arr.neg : Arr → Arr
  | .vector a => .vector (-a)
  | .matrix m => .matrix (m.map fun r => r.map (-·))

/-- One value of `du2 * (disl / PI2)` for each station. -/
noncomputable def columns (f : Corner → V3 ℝ) (disl : ℝ) (ks : List Corner) : Arr :=
  .matrix ⟨ks.map fun k => (f k).x * (disl / (2 * π)), ks.map fun k => (f k).y * (disl / (2 * π)),
    ks.map fun k => (f k).z * (disl / (2 * π))⟩

/-- The change of axes at oksar.py:1524-1527. -/
noncomputable def Arr.turn (sd cd : ℝ) : Arr → Arr
  | .vector v => .vector ⟨v.x, v.y * cd - v.z * sd, v.y * sd + v.z * cd⟩
  | .matrix m => .matrix ⟨m.x, List.zipWith (fun b c => b * cd - c * sd) m.y m.z, List.zipWith (fun b c => b * sd + c * cd) m.y m.z⟩

open Classical in
/-- `dub`: oksar.py:1505-1520. -/
noncomputable def dub (f : Fault) (sd cd alp3 : ℝ) (ks : List Corner) : Py Arr :=
  let a := if f.disl1 ≠ 0 then columns (fun k => k.strikeSlip sd cd alp3) f.disl1 ks else .vector 0
  if f.disl2 ≠ 0 then a.add (columns (fun k => k.dipSlip sd cd alp3) f.disl2 ks) else .ok a

/-- A station: its coordinates along and across the strike. -/
structure Station where
  X : ℝ
  Y : ℝ

/-- `np.max(np.abs(np.c_[xi, et, q]))`: oksar.py:1410. -/
noncomputable def dcMax : List Corner → ℝ
  | [] => 0
  | k :: ks => max (max |k.xi| (max |k.et| |k.q|)) (dcMax ks)

/-- What an exception message formed with `'%f' % array` ends in: a conversion that fails unless there is one entry. -/
def formatted (n : ℕ) : PyErr := if n = 1 then .exception else .typeError

open Classical in
/-- One turn of the inner loop: oksar.py:1400-1531.  `q` and `et` are overwritten in place, so they are returned for the next turn. -/
noncomputable def turn (f : Fault) (sd cd : ℝ) (st : List Station) (j k : ℕ) (et q : List ℝ) (u : Arr) : Py (List ℝ × List ℝ × Arr) :=
  let alp3 := (1 - f.alpha) / f.alpha
  let xi := st.map fun s => s.X - (if j = 1 then f.al1 else f.al2)
  let ks := List.zipWith (fun x (eq : ℝ × ℝ) => (⟨x, eq.1, eq.2⟩ : Corner)) xi (List.zip et q)
  if ks = [] then .error .valueError else
  let m := dcMax ks
  let ks := ks.map fun k => (⟨snap m k.xi, snap m k.et, snap m k.q⟩ : Corner)
  if ∃ k ∈ ks, k.r = 0 then .error .exception
  else if ∃ k ∈ ks, k.ret < tiny then .error (formatted ks.length)
  else if ∃ p ∈ List.zip st ks, p.2.q = 0 ∧
      (((p.1.X - f.al1) * (p.1.X - f.al2) ≤ 0 ∧ p.2.et = 0) ∨
       ((p.1.Y * cd - f.aw1) * (p.1.Y * cd - f.aw2) ≤ 0 ∧ p.2.xi = 0)) ∨ p.2.r = 0 then .error .exception
  else if ∃ k ∈ ks, k.rd sd cd < tiny then .error (formatted ks.length)
  else do
    let du ← dub f sd cd alp3 ks
    let du := du.turn sd cd
    let u ← if j + k ≠ 3 then du.add u else du.neg.add u
    .ok (ks.map Corner.et, ks.map Corner.q, u)

/-- `_dc3d3`: oksar.py:1355-1532. -/
noncomputable def dc3d3 (f : Fault) (st : List Station) : Py Arr := do
  let (sd, cd) := dipConstants f.dip
  let q := st.map fun s => s.Y * sd
  let u := Arr.vector 0
  let et := st.map fun s => s.Y * cd - f.aw1
  let (et, q, u) ← turn f sd cd st 1 1 et q u
  let (_, q, u) ← turn f sd cd st 2 1 et q u
  let et := st.map fun s => s.Y * cd - f.aw2
  let (et, q, u) ← turn f sd cd st 1 2 et q u
  let (_, _, u) ← turn f sd cd st 2 2 et q u
  .ok u

end Verif.Okada
