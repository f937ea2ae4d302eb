# Formal model of geoana: design

## 1. Trusted base

* Lean 4.33.0's kernel. Every theorem named in MANIFEST.json depends on no axioms other than `propext`, `Classical.choice` and
  `Quot.sound` (some on fewer). No axioms are added; no `sorry`, no `native_decide`, no `bv_decide`.
* Mathlib's definitions (reals, complex numbers, derivatives, integrals, trigonometry, Lebesgue measure).
* The specifications in `Verif/Spec` (vectors, gradient/curl/divergence, Biot–Savart, elliptic and Bessel integrals, `erf`, layered waves).
* The reading of /repo by which the definitions under `Verif/Model` were written. Each definition carries the file and lines it models
  and says what it simplifies. Nothing checks mechanically that a definition agrees with the Python text.

### What is idealised, everywhere

* **Numbers.** numpy `float64`/`complex128` arithmetic is exact arithmetic in `ℝ`/`ℂ`, except in `Model/Rounded` and `Model/RoundedPrism` (C116), where
  every operation of a few methods may err by a relative error `u`. Overflow and underflow are not modelled,
  except that of the Bessel functions in C138 and of the operations in C145 (where nothing is known about a result out of range).
  Where special values matter (validation in setters, options of the plot function) the type `PyFloat` (finite real, +inf, -inf, nan) is
  used, with IEEE comparison and IEEE rules for special operands over exact finite arithmetic. The text accepted by `float("…")` is a
  parameter (`FloatGrammar`), so the theorems hold for any grammar.
* **Division by zero.** Lean's `x / 0 = 0` is not numpy's. Theorems about formulas with denominators carry the hypothesis that the
  denominators do not vanish ("the observation point is not the source"), or the model returns `none` where numpy would produce a row that
  is not finite (circular loop), or it uses `PyFloat`.
* **Arrays.** Elementwise numpy expressions without masks or axis tricks are modelled at one observation point and one frequency or time.
  That the many-point and many-frequency versions are these values point by point is a property of its own: shapes and broadcasting in
  `Model/Utils` (C01–C04), masks in `Model/Masks` (C66: batches are lists of rows in row-major order), layer arrays in `Model/Reflection`,
  shapes of the layered properties in `Model/LayeredState`, and the whole array code of the field methods, with shapes, new axes, stacking and
  squeezing, in `Model/DipoleGeometry`, `Model/FieldArrays`, `Model/HalfspaceArrays`, `Model/StaticArrays` and `Model/SpatialArrays` (C97–C101).
* **Exceptions** are values of `Except PyErr` or, for setters, a pair of the object afterwards and the exception: a setter that fails
  halfway leaves its partial effect visible.
* **Mutable state.** Histories are lists of operations, errors swallowed. Where sharing of numpy buffers matters there is a heap (`Model/Aliasing`, `Model/PointAliasing`, `Model/SharedArrays`).
* **scipy and friends.** `ellipk`, `ellipe`, `erf`, `ive` (real argument), `iv`, `kv` (complex argument, right half plane) are their integrals.
  The digital filter of `libdlf` is an arbitrary list of taps: the theorems hold for any coefficients. `scipy.spatial.Rotation` is the
  quaternion formula. `mu_0`, `G`, `epsilon_0` are positive parameters (the C++ kernel's `4e-7 π` and `scipy.constants.mu_0` differ in the last
  digits; C51 compares the kernels for equal constants).
* **Dictionaries** keep no order.

### What is not modelled

Drawing inside matplotlib (which data, limits, levels and layers reach it is modelled: C67, C84, C140), file download and reading, documentation, performance,
floating-point error other than C116, C145 and C152, memory management of the compiled kernels other than index ranges.

## 2. Layout

* `Verif/Py/*`: Python/numpy semantics (errors, `PyFloat`, arrays, broadcasting, truth values).
* `Verif/Spec/*`: independent specifications. Nothing there mentions geoana code.
* `Verif/Model/*`: definitions that transcribe code, with citations.
* `Verif/Lemmas/*`: helper lemmas.
* `Verif/Props/*`: the property theorems (docstrings begin with the property's id), with `example`s showing that the hypotheses are met.

## 3. Properties: what is modelled and how it is proved

*False* means that the code violates the property: the negation is proved on a concrete witness (or exactly where it fails is proved) and the
theorems ending in `_partial`, with the others listed in the manifest, say what does hold.

| id | model | proof |
|----|----|----|
| C01 mkvc, C02 ndgrid, C03 check_xyz_dim, C04 append_ndim, C05 requires | `Model/Utils`: arrays of any rank as shape + multi-index function | induction on shapes, index arithmetic |
| C06–C09 coordinates | `Model/Spatial`: the four branches, `arctan2`, `arccos` | trigonometry. C09 *false*, see 4 |
| C10–C12 rotations, metric helpers | `Model/Spatial`: quaternion construction, masks for (anti)parallel vectors | polynomial identities; exact outside the tolerance band, error bound inside |
| C13–C16 point mass, sphere | `Model/Gravity` | radial calculus; the surface by two-sided gluing of derivatives |
| C17 sphere attributes | `Model/Setters` over `PyFloat` | induction on histories. *False* in two corners |
| C18–C22 gravity prism | `Model/PrismKernels` (Python and Cython branch structure), `Model/Prism` | derivative chain through the nine kernels; arctan addition for Poisson; telescoping for additivity |
| C23 prism corners | `Model/Setters` | *false* via setters and NaN |
| C81 prism as a volume integral, potential and field at every point | `Model/Prism` | triple fundamental theorem with a countable exceptional set; integrability of `1/r²`; continuity of the branches |
| C82 tensor and magnetic field as volume integrals off the closed prism | `Model/Prism` | the same theorem with Laplace's kernel; differentiation under the integral carries C18, C19, C24, C25 to every point off the surface |
| C83 conversions and refusals of the earthquake setters | `Model/Earthquake` | case analysis over every kind of assigned object, against a separate specification of truncation |
| C84 exception classes and unchanged state of refused calls; options handed to the drawing calls | `Model/HalfspaceState`, `Model/LayeredState`, `Model/Plot2D` | case analysis |
| C85 harmonic and transient electric dipole | `Model/Fdem`, `Model/Tdem`, `Spec/StepOff` | Laplace transforms of `exp(-a²/4t)/t^(n+1/2)` for real exponents from antiderivatives with `erf`, recursion by parts, analytic continuation to the imaginary axis |
| C86 harmonic and transient plane waves | the same | the same; valid for `z < 0` only: above, the transient decays upwards and the harmonic wave grows (`PlaneWave.pulse_above`) |
| C87 loop and vertical dipole on a halfspace in both domains | `Model/FdemHalfspace`, `Model/TdemSimple`, `Spec/StepOff` | the same; the horizontal components by a product formula for Bessel functions, continued to complex arguments (`Lemmas/RadialStepOff`) |
| C88 attributes of spheres, wires, point masses, magnetised prisms | `Model/SourceState` | induction on histories. *False* in corners, see 4 |
| C89 memory shared by point currents | `Model/PointAliasing`: explicit heap | simulation of a copying world, induction on histories. *False* if float arrays are passed |
| C90 layered earth and halfspace formulas agree | `Model/FdemHalfspace`, Hankel integral of `fieldAt` over one tap | Weber and Lipschitz integrals, expansion of the reflection coefficient, analytic continuation in the wavenumber, `I_n K_n` as a Laplace transform (`Lemmas/Hankel*`, `Lemmas/Bessel*`) |
| C91 displacement of a fault is Volterra's integral | `Model/Okada`: the arithmetic of `_dc3d3` on real lists | `Spec/Elastic`: Hooke's law, surface force, Volterra; mixed second derivative of the corner term equals the dislocation, fundamental theorem twice (`Lemmas/OkadaCorner`, `OkadaField`), on the line of the trace as a limit from the side (`OkadaTrace`), the run (`OkadaRun`); the specification is checked in `Props/Elastic` |
| C92 any number of stations | `Model/Okada`: `Arr.add` broadcasts as numpy does | negation: lengths other than one and three cannot be added to the array of three zeros |
| C93 displacements add up | `Model/Okada` | from the closed form of the run |
| C94 Ampere's law for wires | `Model/StaticWholeSpace` | curl and divergence of one segment (`Lemmas/LineAmpere`); the ends of consecutive segments cancel |
| C95 loop has neither curl nor divergence | `Model/CircularLoop` | derivatives of the elliptic integrals in cylindrical coordinates, then any orientation (`Lemmas/LoopMaxwell`) |
| C96 displacement vector | `Model/Displacement`: angles, rectangle, stations, turn of the axes, indexing; `Spec/Fault`: strike, dip and rake | covariance of Volterra's integrand under turns about the vertical (`Lemmas/ElasticTurn`); negations: always raises, rows read for columns |
| C97 geometric helpers | `Model/DipoleGeometry`: arrays with any number of axes | broadcasting with a last axis of three; iff theorems for the refused shapes |
| C98 arrays of frequencies and points | `Model/FieldArrays`: every method as operations on whole arrays; `Spec/Rows`: arrays of vectors, pairs | a relation between arrays that broadcast to one shape and functions of (frequency, point, component), preserved by every operation (`Lemmas/Layout`) |
| C99 arrays on and above a half-space | `Model/HalfspaceArrays`: slicing, new axes, stacking, squeezing, the flattened filter abscissae | entry by entry against the models at one frequency and point; negation for plain numbers |
| C100 arrays of points for static sources and bodies | `Model/StaticArrays`: columns, stacking, broadcasting, reused working arrays, flattening in row-major order, rows read through masks | every step carries the values at each point (`Lemmas/PointArrays`); induction over the segments of a wire and over the shapes |
| C101 arrays of points and vectors in other coordinates | `Model/SpatialArrays`: indexing, broadcasting, stacking | every step carries the values at each position; *false* for flattened vectors |
| C102 far field and bounds of prisms | the prism methods as volume integrals (C81, C82) | estimates of the kernels between a point of the box and its centre, the first-order term cancels at the centroid |
| C103 no preferred axes | every field method of dipoles, wires, loops, spheres, masses, half-space sources, plane waves, prisms | rotations preserve lengths, dot and cross products; a loop in its own frame; prisms through their volume integrals and uniqueness of derivatives |
| C104 reciprocity | all point sources in a whole space, wires, loops | algebra with the distance symmetric; wires and loops by Neumann's double integral and Fubini (`Spec/AlongWire`) |
| C105 static and diffusive limits | whole-space harmonic and transient dipoles, transient plane wave (`Spec/StaticLimit`) | continuity of the closed forms in the wavenumber, decay of exp against powers, limits of erf |
| C106 small sources are dipoles | wires, loops, poles (`Spec/SmallSource`) | Biot–Savart integrals expanded about a centre with a bound on the remainder; moments of a polyline by telescoping sums |
| C107 points in line with a wire | `Model/WireFinite`: flux density with `none` for a division by zero | the integral of 1/\|t-s\| by logarithms on both sides of the segment; induction over the segments |
| C108 static fields where they are singular | `Py/FloatOps`, `Model/SpecialValues`: the formulas in IEEE arithmetic with infinities and NaN | the float result is the embedded real result off the singular set; explicit special values on it |
| C109 transient fields at time zero | `Model/StartValues`: the formulas in IEEE arithmetic | theta is infinite at time zero; evaluation of every term |
| C110 harmonic fields at the source and at frequency zero | `Py/ComplexOps`, `Model/HarmonicFloats`: the formulas in complex arithmetic with special values | the result is the embedded complex result where every divisor is nonzero; NaN spreads through the remaining formulas |
| C111–C113 units | `Spec/Units`: a change of the four base units multiplies each quantity by the factor of its dimension; all models as they are | the inputs are scaled and the formulas simplified; recursion over layers by induction; logarithms of the prism kernels cancel in the sum over corners; Volterra's integral by substitution |
| C114 heights of sources | `Model/SurfaceSource`: constructor checks and setters as a machine over python values | invariant over every history; the location setter breaks it (witness) |
| C115 superposition | all source models as they are | each field is unfolded and is a linear form in the moment; wires by induction over nodes |
| C116 rounding | `Model/Rounded`: the methods with every `+ - * / sqrt exp erf` replaced by an operation of an arbitrary arithmetic `Spec/Rounding.Arith u`, whose results are within relative error `u`; powers as repeated products | factors between `(1-u)^k` and `(1-u)^-k` multiply; sums by the size of their terms. *False* for differences: concrete arithmetics which differ from exact in one operation. `Model/RoundedPrism`: the prism, with logarithm and arctangent rounded too |
| C117 late times | the transients of `Model/Tdem*` | L'Hôpital for the shape functions of `θ a → 0` (`Lemmas/LateTimes`), composed with `θ = √(μσ/4t)` |
| C118 jump at the trace | `volterra` (C91) and `Model/Okada.dc3d3` | corner by corner: below the surface the arc tangent jumps by half a turn and the rest is continuous; on the surface each singular factor equals a continuous one off the trace. *Raises* on the trace itself |
| C119 mirror images | the models of every class (C103) | `Spec/Mirror`: reflection in `y = 0` followed by a rigid motion, polar and axial vectors; every plane reflection is of this kind (`plane_mirror`). Prisms through the integrals of C20–C25 and the measure-preserving reflection; fault corner by corner, the part that is not odd or even cancels between the ends |
| C120 a ball as the sum of its parts | `gravity.Sphere`, `PointMass`, `Prism` | volume integral over the ball in slices and polar coordinates about the axis through the station (`integral_ball`, `radial_integral`), carried to any direction by a measure-preserving rotation; comparison with prisms by monotonicity of the integral |
| C121 sign reversals | `em/tdem/simple_functions.py`, `ElectricDipoleWholeSpace` | each factor is a function of `θ r` alone that starts at zero, falls and rises (its derivative is a polynomial times a Gaussian), so it has one zero (`one_zero`); `I₁ > I₂` by one integration by parts |
| C122 limiting contrasts | `em/static/sphere.py` | the formulas as functions of the contrast |
| C123 thick and thin layers | `rTE_forward`, `MagneticDipoleLayeredHalfSpace` | the recursion above the layer is differentiable in the admittance at its top; the step of the layer is a differentiable function of `exp(-2uh)`; the digital filter is a finite sum |
| C124 polygon and circle | `LineCurrentWholeSpace`, `CircularLoopWholeSpace` | both are line integrals (C30, C74); the sum over the sides is one integral over the unit interval along a piecewise linear path, and dominated convergence applies because the path and its velocity tend to those of the circle |
| C125 far from a fault | `_dc3d3` | the displacement is the Volterra integral over the fault (C91); the 27 derivatives of the Cerruti and Boussinesq fields are homogeneous, with explicit bounds of size and rate of change in the half-space |
| C126 energy | harmonic and transient whole-space sources | `div (E × H) = H·curl E − E·curl H` with Faraday's and Ampère's laws (C44–C46, C55, C56); the radial flux of a dipole is an explicit polynomial in `Re k r` and `Im k r` times the square of the moment |
| C127 skin effect | reflection recursion, layered-earth dipole, `skin_depth` | a passive layer takes the lower half-plane of admittances to itself and the reflection coefficient maps it into the unit disc, so Schwarz's lemma (Mathlib) bounds the effect of a change of admittance by a Möbius-invariant distance; one layer shrinks that distance to `2√2·e/(1 − e)` |
| C128 plane totals | gravity bodies, magnetic dipole, pole and prism, point currents | polar coordinates in the plane and explicit antiderivatives for a point source; Fubini over the volume integrals of C81, C82, C120 for bodies |
| C129 induced dipoles | spheres in a uniform field | Newton's theorem (C120) for the integral of dipole potentials over a ball; the excess is zero outside it; oddness about the centre for the charges |
| C130 Poisson's relation | gravity and magnetic prisms, point sources, spheres | algebra on the formulas (prisms: kernels generalised; spheres: the two cases) |
| C131 Euler's equation | point mass, ball, dipole, pole, point current | scaling along the ray through the source, differentiated at 1; algebra where the package returns the tensor |
| C132 impedance | harmonic and transient plane wave | `k² = -iωμσ̂` and the quadrant of `k` (C42) |
| C133 low induction numbers | layered, half-space, loop | derivative of the scaled admittance recursion at frequency zero; exponential series to fourth order |
| C134 Gauss's law for boxes | gravity, poles, electrodes | `Outflow` (sum of six face integrals) in Spec/Outflow; solid angle of a rectangle by `arctan`, superposition over the source by Fubini |
| C135 coils | Fdem/Tdem wholespace, plane waves, wires | Stokes on a parallelogram (Mathlib's divergence theorem on rectangles); `circulation`, `flux`, `coil`, `crate` in Spec/Coil |
| C136 paths | gravity, poles, wires, electrodes | `work` along a list of nodes in Spec/Work; fundamental theorem of calculus on each piece |
| C137 Ampère around a wire | `Spec/Crossing` counts how often the node path crosses a rectangle; `Lemmas/Ampere` gives the field of a piece regular off the piece and Gauss's law for rectangular boxes in any direction | The piece is split just above the rectangle: the upper part by Stokes, the lower part by Stokes on the five other faces of a box with the end of the part inside, plus Gauss's law for that box |
| C138 Range of doubles | `Spec/DoubleRange` says what a library Bessel function returns in and out of range; the float models of C92 get such functions | Bounds on I and K from their integrals (`Lemmas/BesselRange`), the Wronskian shows that I₁ or I₂ overflows where K underflows; inf·0 = nan |
| C139 Weakening | `Spec/Energy` gives the size of a complex vector; models of `Model/Fdem` | The squared size is a polynomial in 1/r times exp(2 Im k r); it is monotone by an explicit sum of squares. In the quasistatic setting it is a polynomial in r/δ times an exponential, whose derivative is computed |
| C140 maps | `Model/PlotGrid`: grid, interpolation weights, reshaping, mask, hill shading; `Spec/Interpolation` says what nearest and linear interpolation and a lit surface are | lists and indices; trigonometry turns the slope and aspect formula into a scalar product. *False* for the shading |
| C141 electrode arrays | `Model/StaticHalfspace`; geometric factors in `Spec/Electrodes` | closed form of the voltage; the distance to the images grows without bound |
| C142 next to a wire | `Model/LineCurrent` | closed form of one piece, in which the cancellation is carried out; the other pieces are continuous |
| C143 axis of a loop | `Model/CircularLoop` | closed form on the axis (C38), fundamental theorem of calculus, derivatives of the closed form |
| C144 depth rules | `Model/Gravity`, `Model/StaticWholeSpace`, `Model/StaticHalfspace`; survey line in `Spec/Profile` | closed forms along the line, monotonicity of powers |
| C145 accuracy with the limited range of double precision | `Model/Rounded` over any operations; `Spec/Range`: operations that are only correct for normal results | sizes of all intermediate results; agreement with an arithmetic of unlimited range |
| C146 objects change only by assignment | `Model/SharedArrays`: explicit heap, keeping and copying setters, getters | ownership of arrays is an invariant of every history that does not expose them. *False* in general |
| C147 what a survey can tell | potentials and vertical fields on a plane | proportional squared distances are equal; for dipoles, coprime polynomials along a line |
| C148 wide prisms are plates | prism field, gradient, magnetic field | Newton's integral layer by layer: a piece of a layer gives at most 2π, a disc of radius L all but 2πh/L; arctangents at the corners |
| C149 what errors in the positions do | point mass, sphere, electrode in a halfspace, magnetic pole and dipole | inversion in the unit sphere; the image is not nearer than the electrode; work integral |
| C150 stations as lists, tuples and arrays of any kind of number | `Model/Stations`: kinds of Python objects and of numpy types, common type of a stack, conversion to floats | case analysis; induction on shapes. *False* for complex numbers |
| C151 action and reaction, mean values, no equilibrium | `Prism.newton_box`, `Ball.newton_ball` | Fubini on the singular kernels 1/r and 1/r² (bounded on balls uniformly); a mean value property excludes strict extrema |
| C152 computed numbers to the last bit | `Model/Rounded`, `Model/RoundedPrism`; `Spec/Nearest`: correctly rounded operations, rounding to 53 digits | signs pass through every operation; monotonicity of rounding; the counterexample is computed with `nearest_eq`. *False* for the tensor of a point mass |
| C153 | inside a prism H = -N M with N symmetric, trace one, diagonal in (0,1); closed form at the centre; cube one third | signs of the eight corner terms, trace from Poisson's equation (C19) |
| C154 | dipole field by latitude, dip, strength, field lines; tides; strongest field and highest potential of a ball | vector algebra in an orthonormal pair of directions, derivative of the field line, case analysis on the surface |
| C155 | sums of prisms against `Sphere` and against other sums of prisms | volume integrals of C81 and C120 over the symmetric difference, split at the distance `a` from the station; cubes within the ball cover all but a shell |
| C156 shortest rotations | `Spatial.rotationUnit`, `fromQuat` | Rodrigues' formula from the quaternion; a rotation satisfies trace ≤ 1 + 2 a·(Qa), because Q + Qᵀ − (trace − 1) squares to a multiple of itself |
| C157 torques | `GravPrism.gravitationalField`, `Sphere.gravitationalField`, `PointMass.gravitationalField`, `MagDipole.magneticFluxDensity` | Fubini for the kernel (r×(x−c))·(q−x)/|q−x|³, which changes sign when x and q are exchanged; the gradient of m·B in closed form |
| C158 forces between wires | `LineCurrent.magneticFluxDensity`, `Loop.magneticFluxDensity` | Biot–Savart (C30, C74); virtual work of a rigid motion: the sum of the two kernels is a derivative along each of the curves, so what is missing sits at the ends of the pieces and telescopes |
| C159 larger bodies | `GravPrism.gravitationalPotential`, `Sphere.gravitationalPotential` and fields | the Newton integrals (C81, C120) are monotone in the body; exchanging the volume outside a ball about the station for the same volume inside it raises the potential |
| C160 layered and hollow balls | `Sphere.gravitationalField`, `Sphere.gravitationalPotential`, `Sphere.gravitationalGradient` | the mass within a distance as a volume integral; induction over the list of balls |
| C161 near the axis of a loop | `Loop.fluxRhoZ`, `Loop.potentialPhi` | bounds for the integrands expanded in the distance from the axis, integrated around the wire, against the coefficients in the code |
| C162 rounding of coordinate conversions | `Rounded.cylToCart`, `Rounded.cartToCyl`, `Rounded.cylToCartVec`, `Rounded.cartToCylVec`, `Rounded.sphToCart`, `Rounded.cartToSph` | the formulas with every operation rounded; relative errors are propagated, and errors of angles bounded by that of their sine and cosine |
| C163 rounding of scales and totals | `Rounded.omega`, `Rounded.skinDepth`, `Rounded.peakTime`, `Rounded.diffusionDistance`, `Rounded.theta`, `Rounded.Box.volume`, `Rounded.Box.location`, `Rounded.GravPrism.mass`, `Rounded.MagPrism.moment` | the formulas with every operation rounded; products of relative errors; a witness arithmetic for the cancellation |
| C164 energy of balls | `Sphere.gravitationalPotential`, `Sphere.gravitationalField`, `Sphere.mass` | integrals over ℝ³ of functions of the distance by Mathlib's polar coordinates; the mean value of the potential of a point mass for two balls |
| C165 mean field around a body | `PointMass.gravitationalField`, `Sphere.gravitationalField`, `GravPrism.gravitationalField`, `Box.location` | the reaction of a homogeneous ball (C151), whose field inside is linear, and the first moments of boxes and balls |
| C24–C25 magnetic prism | `Model/Prism` | from the kernel chain |
| C26–C28 static dipole, pole, coordinate flag | `Model/StaticWholeSpace` | radial calculus |
| C29–C31 line current | `Model/StaticWholeSpace`: fold over nodes, rotation to the local frame | rotation equivariance, fundamental theorem of calculus for Biot–Savart, list induction |
| C32, C34 DC halfspace | `Model/StaticHalfspace` | image charges; algebra |
| C33 DC halfspace attributes | `Model/HalfspaceState`: nested sub-objects updated in order, partial failure | simulation argument over histories. *False* for infinite `rho` and `(3, n)` locations |
| C35–C37, C68 spheres in a uniform field | `Model/StaticSphere` | derivative of the modelled potential per region. C35–C37 *false* outside the sphere |
| C38, C39, C74 circular loop | `Model/CircularLoop`: elliptic integrals, small-rho series, frame | differentiation of elliptic integrals; line integrals by substitution. C38 *false* at two points |
| C40, C54, C65 attributes of EM objects | `Model/Setters` | induction on histories, exact acceptance conditions (`vec3_spec`, `*_assignment`). *False* for NaN and others |
| C41 sharing of arrays | `Model/Aliasing`: heap | *false*; frame property for histories without sharing |
| C42, C43, C47 wavenumber, skin depth | `Model/Fdem` | branch of the complex root. C43, C47 *false* in part |
| C44–C46 harmonic sources in a whole space | `Model/Fdem` | radial calculus over ℂ. C45 *false* for displacement currents |
| C48–C50, C69, C70 layered reflection | `Model/Reflection`: recursion over layers, reverse sweep | induction on layers; derivative of the recursion; admittances in the right half plane; uniqueness of the decaying solution of the ODE system |
| C51 C++ kernels | `Model/CppLoops`, `Model/ReflectionCpp`: flat buffers, `size_t` wrap-around, fuel | loop invariants; every access in range, every cell written once |
| C52 layered attributes | `Model/LayeredState` | invariants over histories. *False* |
| C53, C75, C77–C79 dipoles and loops over an earth | `Model/FdemHalfspace` | algebra; asymptotics along rays; dominated convergence and Laplace's method for `I_n`, `K_n`; Bessel's equation for `J_n`. C78 *false* |
| C80 reference formulas | `Model/TdemReference` | algebra with the surface dipole of `Model/TdemSimple`; C80 *false* for the vertical derivative, which has the wrong sign |
| C55–C57 transient sources in a whole space | `Model/Tdem` | differentiation; unimodality |
| C58, C59, C75, C76 transient sources on a halfspace | `Model/TdemSimple` | differentiation under the integral; limits |
| C60 wrappers | all classes | algebra |
| C61–C64, C72, C73 earthquake | `Model/Earthquake`: instance dictionaries, conversions, plot data, line of sight, grid | case analysis, induction on histories, vector algebra. C61, C63, C64 *false* in part |
| C66 batches | `Model/Masks`: gather, compute, scatter | list induction |
| C67 plot options | `Model/Plot2D`: options as finite maps, mutated | case analysis. *False* for the caller's dictionary |
| C71 prism totals | `Model/Prism` against Lebesgue integrals over the box | Fubini |

## 4. Findings: where the code does not have the property

Each is a theorem about the model with a concrete witness. Line numbers are in /repo/geoana.

* C09 `spatial.py:306` uses `cos(theta)` where `cos(phi)` is meant; `spatial.py:400` overwrites `phi` before it is read.
* C17 `gravity.Sphere` with radius 0 is accepted by the setter but cannot be constructed; an infinite radius makes an assigned mass read back NaN.
  The constructor's `mass` keyword is ignored.
* C23 `shapes.BasePrism`: the setters do not compare the corners; NaN corners pass the constructor's check.
* C33 `em/static/halfspace.py`: an infinite `rho`, or a location of shape `(3, n)`, is rejected after the attribute was overwritten, so the fields
  no longer belong to the readable attributes.
* C35–C37 `em/static/sphere.py:337-338` and `837-838` use `radius/r^4` for `radius^3/r^5`: outside, the field is not the gradient of the potential and the normal
  flux jumps, unless the radius is 1.
* C38 `em/static/wholespace.py`: the loop's vector potential on the axis is NaN at heights ±radius/2. C39 near the axis the two truncated series
  disagree: B is not curl A there.
* C40 NaN passes every bound check of `em/base.py`; `rho = 0` raises `ZeroDivisionError`; an infinite `sigma` is accepted and `rho * sigma` is NaN.
* C41 `em/base.py:209-224` normalises the caller's float array in place and keeps a reference; zero vectors become NaN.
* C43 without `quasistatic`, `skin_depth` (`em/fdem/base.py:127-130`) is not the decay length. C45 Faraday's law fails for the electric dipole with
  displacement currents. C47 truthy values other than `True` select different approximations in different functions.
* C52 `em/fdem/layered.py`: an accepted thickness or frequency of another length leaves stale property arrays, so `magnetic_field` raises; the
  `sigma_hat` property raises for most sizes, is transposed quasistatically, and otherwise pairs the wrong frequency with a layer.
* C54 zero and NaN frequencies and times pass. C65 strings other than `X`, `Y` are stored as orientation; the zero vector becomes NaN.
* C61 `earthquake/oksar.py`: `local_rigidity`, `event_date` and `V` read another slot than they write. C63 NaN, and the order of depths after assignments.
  C64 `simulation_grid` always raises.
* C67 `plotting_utils.plot2Ddata` removes `vmin` and `vmax` from the caller's dictionary, so the second identical call draws with other limits; contour lines
  over vectors, and saving into given axes, always raise.
* C78 `MagneticDipoleHalfSpace` ignores `mu`.
* C80 `em/tdem/reference.py:27-34`: `dhz_from_vert_4_70` is minus the time derivative of `hz_from_vert_4_69a`.
* C88 `em/static/sphere.py`: NaN passes the bounds; `len(vec) != 3` accepts arrays of shape `(3, n)`. `em/base.py:475-488` accepts an array without
  rows, and `n_segments` is then -1.
* C89 `em/base.py:478` keeps the caller's float array and `em/static/wholespace.py:1125` writes into it: moving a point current overwrites the array it was
  built from, and moves every other source built from that array.
* C92 `earthquake/oksar.py:1362`: the sums start from an array of three zeros, so `_dc3d3` raises with slip unless there are one or three stations.
* C91 `earthquake/oksar.py:1437-1441, 1474-1478`: a station on the line of the trace level with an end of the fault raises however deep the fault is; the message is formed with `%f` from arrays, so for several stations a `TypeError` replaces the intended exception (`above_end_raises`, `at_end_error`).
  The branch of lines 1446-1454 made for such stations is never reached.
* C96 `displacement_vector` always raises (C64). After the grid, lines 1349-1351 index the `(3, n)` array of displacements as if it were `(n, 3)`, and the
  replacement of a zero depth at line 1336 comes after its last use.
  `three_points_wrong` gives a thrust fault and three points for which three wrong rows come back without an error.
* C98 `em/fdem/wholespace.py`: the docstrings promise that the output is squeezed when there is one frequency or one location; it never is.
* C99 `em/fdem/halfspace.py:97-98` indexes `k[:, None]`, so a frequency given as a plain number raises `IndexError` for any array of several points.
* C101 `spatial.py:66-68` and the docstrings of the other conversions accept the vectors flattened in column-major order. The cylindrical
  conversions raise `ValueError` for them, the spherical ones convert the first three numbers for every point. One vector for many points is
  refused by the cylindrical conversions and accepted by the spherical ones. The assertion of `repeat_scalar` (552) never fails.
* C107 `em/static/wholespace.py:1018`: the flux density of a line current is NaN at points in line with one of its segments, although the field is finite there.
* C108 `em/static/sphere.py:515`: `charge_density` with `dr` larger than twice the radius is NaN at the centre of the sphere.
* C109 `em/tdem/base.py:173` accepts time zero, where `electric_field`, `magnetic_field` and their rates of a transient dipole, the plane wave, the loop's rate of change and the dipole on a half-space are NaN instead of the steady field or zero.
* C110 `em/fdem/simple_functions.py:85`, `em/fdem/halfspace.py:105`, `em/fdem/wholespace.py:1282`: NaN at frequency zero, which is accepted; the loop's field has a limit there. `em/fdem/layered.py:408`: NaN at points straight above or below the dipole, where the field is finite.
* C111 `em/fdem/base.py` `skin_depth`, `quasistatic=False`: the value is a time squared over a length, not a length.
* C111 `em/tdem/wholespace.py`: the `amplitude` of the transient plane wave is documented as an electric field; the formulas need a field times a time.
* C112 `em/static/sphere.py:325-341, 825-841`: the field outside has the radius to the first power over `r⁴` where `R³/r⁵` is needed, so its value depends on the unit of length. `em/static/wholespace.py:609`: the series of the vector potential near the axis of a loop lacks a power of a length. On a wire and on an edge of a prism, where the true value is infinite, the code returns a finite number that depends on the unit of length.
* C113 `earthquake/oksar.py:1414-1418, 1438, 1475`: tolerances are absolute, so the result depends on the unit of length when coordinates are small. `spatial.py:400-406`: the polar component depends on the unit of the vector.
* C114 `em/fdem/halfspace.py:17-21`, `em/fdem/layered.py:49-53`: the height of the source is checked in the constructor only; `source.location = …` afterwards accepts a point off or below the ground, and the half-space field is then that of a dipole on the ground. `location[2] < 0.0` lets a NaN height through.

* C116 `em/tdem/simple_functions.py:79-83, 327-330`: at late times the fields of the loop and of the vertical dipole are computed as differences
  of terms that grow like powers of the time while the field tends to zero: an arithmetic whose error function (or constant) is off by `u` gives
  errors that grow without bound (`loopField_late`, `dipoleVertical_late`).
* C116 `gravity.py:621-698` (`Prism`): potential, field and gradient are alternating sums of eight node values which do not fade with the distance, the results do; far
  from the prism one rounding of one arctangent exceeds any multiple of the result. The diagonal of the gradient is accurate relative to `4 π G rho`.
* C116 `em/static/sphere.py:251`: the secondary potential is total minus primary; far away one rounding of the total potential exceeds any multiple of the
  secondary potential (`Electro.secondary_loses_accuracy`).
* C116 `gravity.py:562-566`: the side of the surface of a ball is decided with the rounded distance; the gradient jumps there, so near the surface the result may be from
  the wrong side (`Sphere.gradient_wrong_side`); `Sphere.gradient_accurate_partial` away from it.
* C118 `earthquake/oksar.py:1414-1450`: distances under 1e-6 are rounded to zero and a station there, between the ends of a fault that reaches the surface, raises, so
  that the one-sided displacements at the trace cannot be evaluated (`on_trace_raises`).
* C126 with displacement currents (`quasistatic=False`) the harmonic electric dipole (see C45) brings energy from nowhere: the divergence of its energy flux exceeds
  the balance by `w² mu epsilon / (2 sigma) |H|²` (`energy_from_nowhere`).
- **C135**: with `quasistatic=False` the voltage that `ElectricDipoleWholeSpace.electric_field` induces around a coil is larger than what
  the flux of `magnetic_flux_density` through the coil induces by the factor `(σ + iωε)/σ` (`coil_voltage_factor`; same cause as C45). Proved for
  `quasistatic=True` (`coil_faraday_partial`), refuted at every place with a field otherwise (`coil_faraday_fails_at`).
- C138: `MagneticDipoleHalfSpace.magnetic_field` (em/fdem/halfspace.py) multiplies `iv` by `kv` of the argument `i k r / 2`. `iv` grows and
  `kv` decays exponentially with `r`: beyond about 1500 skin depths (740 m at 1 MHz over ground of 1 S/m) `iv` is `inf` or `nan` and `kv` is
  zero, so that the horizontal components of a vertical dipole and the vertical component of a horizontal one are `nan`. The exact field
  there only decays like a power of `r`. The scaled functions `ive` and `kve` have a product of ordinary size. `dhp_from_vert_4_74`
  (em/tdem/reference.py) uses `iv` in the same way, next to functions that use `ive`.
* C140 `plotting_utils.py:237-250`: the hill shading takes its light from the wrong side (mirrored north to south), because rows of the interpolation grid run
  north and the copied formula expects rows of an image; with the default azimuth of -45 the light comes from the south-west. Its slopes are differences
  between neighbouring nodes, so the shading changes with `nx` and `ny`.
* C146 `gravity.py:90`, `shapes.py:60` and `87`, `em/static/freespace.py:53`, `em/fdem/base.py:210`, `em/tdem/base.py:168` keep the caller's float array,
  and every getter returns the stored array: overwriting an array turns a prism inside out, makes frequencies and times negative, moves two masses at once, or
  lifts the shown location of a half-space electrode out of the ground while its source and image stay (`Verif.SharedArrays.prism_turns_inside_out`,
  `frequency_and_time_turn_negative`, `masses_move_together`, `electrode_leaves_the_ground`, `not_changesOnlyByAssignment`).
* **C150.** Complex stations are refused with `TypeError` in lists, but an array of complex numbers, or a tuple with complex coordinates, is accepted with a warning
  of numpy at most, and the imaginary parts are dropped (`Verif.Stations.complex_dropped`, `tuple_complex`). A tuple of three stations is transposed
  without notice (`tuple_of_stations`).
* **C152.** `gravity.py:278` forms `3 * r_hat[..., None] * r_hat[..., None, :]` from left to right, so that the computed tensor of a point mass is not exactly symmetric:
  at (3, 4, 0) from a unit mass the entries xy and yx differ in the last bit (`Verif.Rounded.pointMass_tensor_asymmetric`).
- **C161**: close to its axis `CircularLoopWholeSpace.vector_potential` uses `A ≈ π C (ρ a²/(4T³) + 3 a² ρ³ / (a² - 4z²) / (32 T⁷))`
  (`em/static/wholespace.py`, 605-612); the term of third order of the series is `3 a² ρ³ (a² - 4z²) / (32 T⁷)`. The code divides by the factor it
  has to multiply by, so near the heights `z = ± a/2` the result exceeds any bound (`potential_unbounded`). What remains true is
  `potential_close_partial`. The series of the flux density is right (`flux_close`).
- **C163**: `skin_depth` with `quasistatic=False` contains `sqrt(1 + (σ/ωε)²) - 1` (`em/fdem/base.py`, 130). Where `σ` is small against `ωε`
  (by `√u`, in double precision about `1.5e-8`) the difference may come out as zero and with it the skin depth (`skinDepth_loses_accuracy`).

## 5. Testing the theorems

`seeded/LOG.jsonl` records edits of the model in a scratch copy (by hand, and drawn at random over all definitions), the theorems that failed, and, for
edits that survived, what was strengthened or why the edited program is equivalent.
