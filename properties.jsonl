{"id": "C01", "title": "mkvc flattens in column-major order and pads trailing axes", "statement": "utils.mkvc(x, n) for n in {1,2,3} returns an array of shape (prod(x.shape),) followed by n-1 axes of length one, and the element of x at multi-index (i0,...,ik) is found at flat position i0 + s0*(i1 + s1*(i2 + ...)); every element of x appears exactly once. For n outside {1,2,3} the function returns None.", "quantifier": "every array shape (any number of axes, any lengths) and every n_dims", "why_tests_cant": "the claim is about all shapes and all ranks; tests try a handful of shapes", "anchors": ["geoana/utils.py:mkvc"]}
{"id": "C02", "title": "ndgrid enumerates the full tensor grid with the first axis fastest", "statement": "utils.ndgrid(x1[,x2[,x3]]) returns, with vector=True, exactly len(x1)*len(x2)*len(x3) rows; row i1 + n1*(i2 + n2*i3) is (x1[i1], x2[i2], x3[i3]); with vector=False the returned arrays flattened column-major give the same columns; one vector is returned unchanged; zero or more than three vectors return None. The keyword vector must be a bool, True if left out; other keywords are refused.", "quantifier": "all vectors of all lengths (including empty), both values of vector", "why_tests_cant": "quantifies over all lengths and all index combinations", "anchors": ["geoana/utils.py:ndgrid", "geoana/utils.py:mkvc"]}
{"id": "C03", "title": "check_xyz_dim accepts exactly arrays whose last axis has the requested length", "statement": "utils.check_xyz_dim(xyz, dim) returns the same array when the last axis has length dim, raises ValueError when it is different, raises IndexError for a 0-d array; a tuple of equal-shape arrays is stacked along a new last axis first, so component k of the tuple becomes [..., k]. Applying it twice is the same as applying it once.", "quantifier": "all array shapes, all dims, all tuples of component arrays", "why_tests_cant": "all shapes and ranks", "anchors": ["geoana/utils.py:check_xyz_dim"]}
{"id": "C04", "title": "append_ndim puts the frequency/time axis in front", "statement": "utils.append_ndim(arr, n) adds n trailing axes of length one, keeps the values, and composes additively; consequently broadcasting append_ndim(f, xyz.ndim) of a 1-d f of length nf against a (...,3) array always succeeds, gives shape (nf, ..., 3), and entry (i, j..., c) combines f[i] with xyz[j..., c] only; for a 0-d f the shape of xyz is kept.", "quantifier": "all shapes of observation arrays, all numbers of frequencies/times", "why_tests_cant": "all shapes and ranks", "anchors": ["geoana/utils.py:append_ndim", "geoana/em/fdem/wholespace.py:ElectricDipoleWholeSpace.electric_field", "geoana/em/tdem/wholespace.py:ElectricDipoleWholeSpace.electric_field"]}
{"id": "C05", "title": "requires runs the function iff no dependency is False", "statement": "A function decorated by utils.requires(modules) is the original function when no value in modules is False; otherwise calling it with any arguments never runs the original, prints the list of exactly the missing keys in order, and returns None.", "quantifier": "all dependency tables, all functions and arguments", "why_tests_cant": "all dictionaries and functions", "anchors": ["geoana/utils.py:requires"]}
{"id": "C06", "title": "Cylindrical point conversion round-trips", "statement": "cylindrical_to_cartesian(cartesian_to_cylindrical(p)) = p for every Cartesian point, including points on the axis and both sides of the branch cut; cartesian_to_cylindrical(cylindrical_to_cartesian(q)) = q for every q=(r,t,z) with r>0 and -pi<t<=pi; the radius is nonnegative and the angle lies in (-pi,pi]. Both 2-column and 3-column grids.", "quantifier": "every point of the plane / space", "why_tests_cant": "a continuum of points with branch-cut special cases", "anchors": ["geoana/spatial.py:cylindrical_to_cartesian", "geoana/spatial.py:cartesian_to_cylindrical"]}
{"id": "C07", "title": "Cylindrical vector conversion is a rotation and round-trips", "statement": "For every grid point, converting vectors cartesian->cylindrical and back (with the matching grid) is the identity in both orders; vector length and dot products are preserved; the radial direction maps to (1,0,0) and the azimuthal direction to (0,1,0).", "quantifier": "every point and every vector", "why_tests_cant": "continuum of inputs", "anchors": ["geoana/spatial.py:cylindrical_to_cartesian", "geoana/spatial.py:cartesian_to_cylindrical"]}
{"id": "C08", "title": "Spherical point conversion round-trips", "statement": "spherical_to_cartesian(cartesian_to_spherical(p)) = p for every Cartesian point including the origin and the z axis; the converse holds for r>0, -pi<phi<=pi, 0<theta<pi; output satisfies r>=0, phi in (-pi,pi], theta in [0,pi].", "quantifier": "every point", "why_tests_cant": "continuum of points with degenerate axes", "anchors": ["geoana/spatial.py:spherical_to_cartesian", "geoana/spatial.py:cartesian_to_spherical"]}
{"id": "C09", "title": "Spherical vector conversion is a rotation and round-trips", "statement": "At every point, spherical_to_cartesian(grid_sph, vec) and cartesian_to_spherical(grid, vec) are mutually inverse, preserve vector length, and use the orthonormal frame (e_r, e_phi, e_theta) of the point.", "quantifier": "every point and every vector", "why_tests_cant": "continuum of inputs; the unit tests only probe axis points and purely radial vectors", "anchors": ["geoana/spatial.py:spherical_to_cartesian", "geoana/spatial.py:cartesian_to_spherical"]}
{"id": "C10", "title": "rotation_matrix_from_normals returns a proper rotation taking v0 to v1", "statement": "For all nonzero v0, v1 (no normalisation required) the returned matrix R satisfies R^T R = I, det R = 1, and R v0/|v0| = v1/|v1| (exactly outside the tolerance band 0 < |v0^ x v1^| < tol, and up to a small multiple of tol inside it); parallel inputs give the identity; anti-parallel inputs are handled; inputs that are not length 3 raise ValueError.", "quantifier": "all pairs of nonzero 3-vectors, all tolerances between 0 and 1 (outside that range some anti-parallel pairs are refused)", "why_tests_cant": "continuum of vectors with degenerate (anti)parallel cases", "anchors": ["geoana/spatial.py:rotation_matrix_from_normals"]}
{"id": "C11", "title": "rotate_points_from_normals is a rigid motion about x0", "statement": "rotate_points_from_normals(xyz, n0, n1, x0) preserves all pairwise distances, fixes x0, and sends x0 + t*n0/|n0| to x0 + t*n1/|n1| for all real t (exactly, except within 1e-20 of parallel or anti-parallel, where the error is at most 4e-20 |t|); arrays that are not N by 3 are rejected.", "quantifier": "all point sets, all centres, all normals", "why_tests_cant": "continuum of inputs", "anchors": ["geoana/spatial.py:rotate_points_from_normals"]}
{"id": "C12", "title": "Distance and dot helpers satisfy their defining laws", "statement": "vector_distance(xyz, o) returns xyz - o row by row; distance is the Euclidean metric (nonnegative, zero iff equal to the origin argument, triangle inequality); vector_dot is the dot product with the first three columns; arrays that are too narrow and vectors that do not have three elements raise, as do other widths for the distances; repeat_scalar(s, dim) returns shape (len(s), dim) with entry (i,j) = s[i].", "quantifier": "all point sets, origins, vectors, lengths", "why_tests_cant": "all lengths and all reals", "anchors": ["geoana/spatial.py:vector_distance", "geoana/spatial.py:distance", "geoana/spatial.py:vector_dot", "geoana/spatial.py:vector_magnitude", "geoana/spatial.py:repeat_scalar"]}
{"id": "C13", "title": "PointMass field is the gradient of its potential", "statement": "For every mass, location and observation point different from the location, PointMass.gravitational_field(p) is the gradient of PointMass.gravitational_potential at p, points toward a positive mass, and has magnitude G m / r^2.", "quantifier": "all masses, locations and observation points off the source", "why_tests_cant": "a derivative identity over a continuum", "anchors": ["geoana/gravity.py:PointMass"]}
{"id": "C14", "title": "PointMass gradient tensor is the Jacobian of the field", "statement": "gravitational_gradient(p)[i][j] = d g_i / d x_j for every p off the source; the tensor is symmetric and trace-free (Laplace).", "quantifier": "all masses, locations and observation points off the source", "why_tests_cant": "a derivative identity over a continuum", "anchors": ["geoana/gravity.py:PointMass.gravitational_gradient"]}
{"id": "C15", "title": "Gravity Sphere: field is the gradient of the potential everywhere", "statement": "For every radius > 0, density and centre, Sphere.gravitational_field is the gradient of Sphere.gravitational_potential at every point: inside, outside, at the centre and on the surface; potential and field are continuous across the surface.", "quantifier": "all spheres, all points of space", "why_tests_cant": "boundary behaviour on a measure-zero surface and derivative identity", "anchors": ["geoana/gravity.py:Sphere"]}
{"id": "C16", "title": "Gravity Sphere: exterior equals point mass, interior obeys Poisson", "statement": "Outside, the Sphere methods agree with a PointMass of the same mass and centre; the gradient tensor is the Jacobian of the field strictly inside and strictly outside, its trace is -4 pi G rho inside and 0 outside; on the surface it is NaN.", "quantifier": "all spheres, all points", "why_tests_cant": "continuum; surface points are never hit by random tests", "anchors": ["geoana/gravity.py:Sphere"]}
{"id": "C17", "title": "Sphere mass, density and radius stay consistent over any history", "statement": "After any sequence of assignments to radius, rho, mass and location (successful or rejected) on a gravity Sphere, mass = 4/3 pi radius^3 rho; setting mass to m at radius > 0 makes mass read m and leaves radius unchanged; a rejected assignment changes nothing; radius is never negative. Constructing a Sphere accepts every non-negative radius, as the radius setter does.", "quantifier": "all histories of assignments, all values including NaN and infinities", "why_tests_cant": "unbounded operation sequences and special float values", "anchors": ["geoana/gravity.py:Sphere", "geoana/gravity.py:PointMass"]}
{"id": "C18", "title": "Gravity Prism: field is the gradient of the potential and the tensor is the Jacobian of the field", "statement": "For every prism, density and observation point off the planes of the prism faces, Prism.gravitational_field is the gradient of Prism.gravitational_potential and Prism.gravitational_gradient is the Jacobian of Prism.gravitational_field; the tensor is symmetric.", "quantifier": "all prisms, all densities, all observation points off the face planes", "why_tests_cant": "derivative identity over a continuum", "anchors": ["geoana/gravity.py:Prism", "geoana/shapes.py:BasePrism._eval_def_int", "geoana/kernels/potential_field_prism.py:prism_f"]}
{"id": "C19", "title": "Gravity Prism obeys Poisson's equation", "statement": "The trace of Prism.gravitational_gradient is -4 pi G rho at every interior point, 0 at every point outside the closed prism, and -2 pi G rho on open faces (and -pi G rho on edges, -pi/2 G rho at corners).", "quantifier": "all prisms, all observation points without exception", "why_tests_cant": "a global topological identity over a continuum and measure-zero boundary cases", "anchors": ["geoana/gravity.py:Prism.gravitational_gradient", "geoana/shapes.py:BasePrism._eval_def_int", "geoana/kernels/potential_field_prism.py:prism_fzz"]}
{"id": "C20", "title": "Python and Cython prism kernels agree", "statement": "For each of the nine prism kernels the pure-Python version and the compiled (Cython) version return the same real number for every (x,y,z), including all degenerate cases with zero coordinates.", "quantifier": "all (x,y,z) in R^3", "why_tests_cant": "continuum with many zero-coordinate branches", "anchors": ["geoana/kernels/potential_field_prism.py:_prism_f..._prism_fxyz", "geoana/kernels/_extensions/potential_field_prism.pyx:prism_f...prism_fxyz"]}
{"id": "C21", "title": "Prism responses are additive under subdivision", "statement": "Cutting a prism by an axis-aligned plane into two prisms, the sum of the two responses (gravity potential, field, gradient; magnetic potential, field, field gradient) equals the response of the whole prism at every observation point, including points on the cut.", "quantifier": "all prisms, all cuts, all observation points, and any number of cuts", "why_tests_cant": "continuum and unbounded number of cells", "anchors": ["geoana/shapes.py:BasePrism._eval_def_int", "geoana/gravity.py:Prism", "geoana/em/static/freespace.py:MagneticPrism"]}
{"id": "C22", "title": "Prism responses respect the symmetries of the box", "statement": "Relabelling the axes cyclically permutes field and gradient components accordingly; translating prism and observer together changes nothing; mirroring through a plane of symmetry mirrors the gravity response.", "quantifier": "all prisms and observation points", "why_tests_cant": "continuum", "anchors": ["geoana/shapes.py:BasePrism._eval_def_int", "geoana/gravity.py:Prism"]}
{"id": "C23", "title": "A prism always has max > min", "statement": "At every point of any history of construction and assignment, BasePrism.max_location > BasePrism.min_location componentwise, so volume > 0.", "quantifier": "all histories of construction and assignments, all float values", "why_tests_cant": "unbounded histories; the constructor checks but the setters are separate", "anchors": ["geoana/shapes.py:BasePrism"]}
{"id": "C24", "title": "MagneticPrism: H is the gradient of the scalar potential and B has the right jump", "statement": "For every prism and magnetization, off the face planes, magnetic_field is the gradient of scalar_potential; magnetic_flux_density = mu_0 (H + M) for points in the closed box and mu_0 H outside; the divergence of B is zero at every point off the face planes.", "quantifier": "all prisms, magnetizations, observation points", "why_tests_cant": "derivative identities over a continuum", "anchors": ["geoana/em/static/freespace.py:MagneticPrism"]}
{"id": "C25", "title": "MagneticPrism gradient tensor is the Jacobian of H", "statement": "magnetic_field_gradient is the Jacobian of magnetic_field off the face planes, is symmetric, and is trace-free.", "quantifier": "all prisms, magnetizations, observation points off face planes", "why_tests_cant": "derivative identity with ten cycled kernel calls", "anchors": ["geoana/em/static/freespace.py:MagneticPrism.magnetic_field_gradient"]}
{"id": "C26", "title": "Static magnetic dipole satisfies Maxwell's equations", "statement": "Off the dipole, magnetic_flux_density is the curl of vector_potential, is divergence-free, magnetic_field = flux/mu is curl-free; fields are linear in moment and in orientation.", "quantifier": "all dipoles, all observation points off the source", "why_tests_cant": "derivative identities over a continuum", "anchors": ["geoana/em/static/wholespace.py:MagneticDipoleWholeSpace"]}
{"id": "C27", "title": "Static magnetic pole field is divergence- and curl-free", "statement": "Off the pole, MagneticPoleWholeSpace.magnetic_field is minus the gradient of moment/(4 pi r), hence divergence-free and curl-free.", "quantifier": "all poles, all points off the source", "why_tests_cant": "derivative identity over a continuum", "anchors": ["geoana/em/static/wholespace.py:MagneticPoleWholeSpace"]}
{"id": "C28", "title": "coordinates='cylindrical' returns the same physical vector", "statement": "For the static dipole, pole and loop, calling a method with coordinates='cylindrical' on the cylindrical coordinates of a point returns the cylindrical components at that point of the vector returned with coordinates='cartesian'; the flag is case-insensitive and any other string is rejected.", "quantifier": "all points, all sources, all strings", "why_tests_cant": "continuum of points and all strings", "anchors": ["geoana/em/static/wholespace.py:MagneticDipoleWholeSpace", "geoana/em/static/wholespace.py:MagneticPoleWholeSpace", "geoana/em/static/wholespace.py:CircularLoopWholeSpace"]}
{"id": "C29", "title": "Grounded line current: E is minus the gradient of the potential", "statement": "For every node list and conductivity, off the end nodes, LineCurrentWholeSpace.electric_field = -grad scalar_potential and is divergence-free; current_density = sigma * E; both vanish identically when the first and last node coincide; a single node acts as a point source.", "quantifier": "all node lists of any length, all points off the electrodes", "why_tests_cant": "derivative identity; unbounded node lists", "anchors": ["geoana/em/static/wholespace.py:LineCurrentWholeSpace"]}
{"id": "C30", "title": "Line current: B equals the Biot-Savart integral and the curl of A", "statement": "For every polyline, off the lines through its segments, magnetic_flux_density equals mu I/(4 pi) times the sum over segments of the Biot-Savart line integral, and equals the curl of vector_potential, which is mu I/(4 pi) times the integral of dl/r along the wire.", "quantifier": "all polylines of any length, all observation points off the segment lines", "why_tests_cant": "integral and derivative identity over a continuum through data-dependent rotations", "anchors": ["geoana/em/static/wholespace.py:LineCurrentWholeSpace.magnetic_flux_density", "geoana/em/static/wholespace.py:LineCurrentWholeSpace.vector_potential", "geoana/spatial.py:rotation_matrix_from_normals"]}
{"id": "C31", "title": "Line current fields superpose over segments", "statement": "magnetic_flux_density of a concatenated wire is the sum over its pieces; inserting a node inside a segment does not change the field; reversing the node order or the sign of the current negates the field.", "quantifier": "all node lists of any length, all observation points (inserting and reversing: off the straight lines through the segments)", "why_tests_cant": "unbounded node lists", "anchors": ["geoana/em/static/wholespace.py:LineCurrentWholeSpace"]}
{"id": "C32", "title": "Point current in a halfspace satisfies the surface boundary condition", "statement": "For every source at or below the surface and every observation point with z<=0 off the source, electric_field = -grad potential, current_density = electric_field/rho, the vertical field is zero at z=0, and the potential equals primary plus mirror image; points or sources above the surface are rejected.", "quantifier": "all sources and observation points", "why_tests_cant": "continuum and boundary plane", "anchors": ["geoana/em/static/halfspace.py:PointCurrentHalfSpace", "geoana/em/static/wholespace.py:PointCurrentWholeSpace"]}
{"id": "C33", "title": "Halfspace sources stay synchronised over any history", "statement": "After any sequence of assignments to current, rho and location(s) of PointCurrentHalfSpace / DipoleHalfSpace, with rejected assignments allowed, the fields returned are those of a freshly built object with the currently readable attribute values.", "quantifier": "all histories, all values incl. NaN/inf and wrong shapes", "why_tests_cant": "unbounded operation sequences with failures in the middle", "anchors": ["geoana/em/static/halfspace.py:PointCurrentHalfSpace", "geoana/em/static/halfspace.py:DipoleHalfSpace", "geoana/em/static/wholespace.py:PointCurrentWholeSpace"]}
{"id": "C34", "title": "DC dipole-dipole reciprocity and antisymmetry", "statement": "DipoleHalfSpace.potential(m,n) is unchanged when the current electrodes (a,b) and potential electrodes (m,n) are exchanged, changes sign when a and b are swapped or when m and n are swapped, scales linearly with current and rho, and potential(m) - potential(n) = potential(m,n).", "quantifier": "all electrode positions, currents and resistivities", "why_tests_cant": "continuum", "anchors": ["geoana/em/static/halfspace.py:DipoleHalfSpace"]}
{"id": "C35", "title": "Electrostatic sphere: E is minus the gradient of V", "statement": "For every sphere and primary field, at every point off the surface, ElectrostaticSphere.electric_field(total) = -grad potential(total); the potential is continuous across the surface; total = primary + secondary for potential, field and current density.", "quantifier": "all radii, conductivities, fields and points", "why_tests_cant": "continuum; tests compare against a re-typed copy of the same formula", "anchors": ["geoana/em/static/sphere.py:ElectrostaticSphere"]}
{"id": "C36", "title": "Magnetostatic sphere: H is minus the gradient of V", "statement": "For every sphere and primary field, at every point off the surface, MagnetostaticSphere.magnetic_field(total) = -grad potential(total); the potential is continuous across the surface; total = primary + secondary; B = mu(r) H.", "quantifier": "all radii, permeabilities, fields and points", "why_tests_cant": "continuum; tests compare against a re-typed copy of the same formula", "anchors": ["geoana/em/static/sphere.py:MagnetostaticSphere"]}
{"id": "C37", "title": "Spheres conserve normal current / flux through the surface", "statement": "The normal component of the total current density (flux density) is continuous across the sphere surface: the interior value equals the limit of the exterior value.", "quantifier": "all spheres, all surface points", "why_tests_cant": "limit on a measure-zero surface", "anchors": ["geoana/em/static/sphere.py:ElectrostaticSphere.current_density", "geoana/em/static/sphere.py:MagnetostaticSphere.magnetic_flux_density"]}
{"id": "C38", "title": "Circular loop on its axis", "statement": "On the axis of the loop the flux density is mu I a^2/(2 (a^2+z^2)^(3/2)) along the orientation, and the vector potential is zero and finite at every axis point.", "quantifier": "all loops, all axis points", "why_tests_cant": "continuum; a removable singularity at one height only", "anchors": ["geoana/em/static/wholespace.py:CircularLoopWholeSpace"]}
{"id": "C39", "title": "Circular loop: B is the curl of A off the axis", "statement": "Off the near-axis series region and off the wire, CircularLoopWholeSpace.magnetic_flux_density is the curl of vector_potential.", "quantifier": "all loops, all points off the wire", "why_tests_cant": "derivative identity of complete elliptic integrals", "anchors": ["geoana/em/static/wholespace.py:CircularLoopWholeSpace"]}
{"id": "C40", "title": "EM properties are validated over every history", "statement": "At every point of any history of construction and assignment, sigma > 0, mu > 0, epsilon >= 0, dipole length > 0, loop radius > 0, and rho * sigma = 1; a rejected assignment raises TypeError/ValueError and leaves the object unchanged; assigning rho = v (v > 0 finite) reads back v.", "quantifier": "all histories and all values, including strings, NaN and infinities", "why_tests_cant": "unbounded histories and special floats", "anchors": ["geoana/em/base.py:BaseEM", "geoana/em/base.py:BaseElectricDipole", "geoana/em/static/wholespace.py:CircularLoopWholeSpace"]}
{"id": "C41", "title": "Dipole orientation is always a unit vector and the caller's arrays are left alone", "statement": "After any history, orientation has length one and is a positive multiple of the last accepted vector; location equals the last accepted value; assigning an orientation or location never modifies the array passed in, and modifying that array later never changes the object.", "quantifier": "all histories of assignments and external array writes", "why_tests_cant": "aliasing across unbounded histories", "anchors": ["geoana/em/base.py:BaseDipole.orientation", "geoana/em/base.py:BaseDipole.location"]}
{"id": "C42", "title": "Wavenumber solves the dispersion relation with the decaying root", "statement": "wavenumber(f, sigma, mu, eps)^2 = w^2 mu eps - i w mu sigma (= -i w mu sigma_hat), with Re k >= 0 and Im k <= 0, strictly negative for f>0, so exp(-i k r) is bounded by 1 and decays with distance; quasistatic drops the eps term.", "quantifier": "all positive frequencies and physical properties", "why_tests_cant": "branch choice of the complex square root over a continuum", "anchors": ["geoana/em/fdem/base.py:wavenumber", "geoana/em/fdem/base.py:sigma_hat", "geoana/em/fdem/base.py:omega"]}
{"id": "C43", "title": "skin_depth is the 1/e decay length", "statement": "For every positive frequency, conductivity, permeability (and permittivity), |exp(-i k d)| = 1/e where d = skin_depth and k = wavenumber with the same flag.", "quantifier": "all positive parameters, both flag values", "why_tests_cant": "relation between two functions over a continuum; tests compare the formula with a copy of itself", "anchors": ["geoana/em/fdem/base.py:skin_depth", "geoana/em/fdem/base.py:wavenumber"]}
{"id": "C44", "title": "HarmonicPlaneWave satisfies Maxwell's equations", "statement": "For every frequency > 0, horizontal unit orientation and properties: curl E = -i w B, curl H = sigma_hat E, both fields are divergence-free and horizontal, E.H = 0, and the wave decays downward.", "quantifier": "all frequencies, properties, orientations, points", "why_tests_cant": "derivative identities over a continuum", "anchors": ["geoana/em/fdem/wholespace.py:HarmonicPlaneWave"]}
{"id": "C45", "title": "Harmonic electric dipole satisfies Maxwell's equations", "statement": "Off the source: H = curl A, J = curl H (total current), div H = 0, div E = 0 and Faraday's law curl E = -i w mu H.", "quantifier": "all frequencies, properties, orientations, flag values, points", "why_tests_cant": "derivative identities over a continuum", "anchors": ["geoana/em/fdem/wholespace.py:ElectricDipoleWholeSpace"]}
{"id": "C46", "title": "Harmonic magnetic dipole satisfies Maxwell's equations", "statement": "Off the source: E = -curl F, curl E = -i w mu H, curl H = sigma_hat E, div H = 0, div E = 0; B = mu H.", "quantifier": "all frequencies, properties, orientations, flag values, points", "why_tests_cant": "derivative identities over a continuum", "anchors": ["geoana/em/fdem/wholespace.py:MagneticDipoleWholeSpace"]}
{"id": "C47", "title": "The quasistatic flag means the same everywhere", "statement": "For any truthy/falsy value given for quasistatic, wavenumber, sigma_hat and skin_depth all use the same approximation.", "quantifier": "all Python values usable as flags", "why_tests_cant": "flag values such as 1 or numpy.True_ are outside the tested set", "anchors": ["geoana/em/fdem/base.py:wavenumber", "geoana/em/fdem/base.py:sigma_hat", "geoana/em/fdem/base.py:skin_depth"]}
{"id": "C48", "title": "Reflection coefficient is invariant under layer splitting", "statement": "rTE_forward gives the same result when a layer of thickness h1+h2 is replaced by two layers of thickness h1 and h2 with the same properties, when a zero-thickness layer is inserted, and when the basement is split by an interface.", "quantifier": "all layer stacks of any depth, all frequencies and wavenumbers where the admittances are defined", "why_tests_cant": "unbounded number of layers", "anchors": ["geoana/kernels/tranverse_electric_reflections.py:_rTE_forward", "geoana/kernels/_extensions/_rTE.cpp:rTE"]}
{"id": "C49", "title": "A uniform stack reflects like a halfspace; air reflects nothing", "statement": "If all layers have the same sigma and mu, rTE_forward equals the one-layer value whatever the thicknesses; with sigma = 0 and mu = mu_0 (and lamb > 0) it is zero.", "quantifier": "all numbers of layers and thicknesses", "why_tests_cant": "unbounded number of layers", "anchors": ["geoana/kernels/tranverse_electric_reflections.py:_rTE_forward"]}
{"id": "C50", "title": "rTE_gradient is the exact derivative of rTE_forward", "statement": "For every layer k, rTE_gradient's outputs are the complex derivatives of rTE_forward with respect to sigma_k, mu_k and thickness_k.", "quantifier": "all layer stacks of any depth, every layer, where defined", "why_tests_cant": "reverse-mode differentiation over unbounded depth", "anchors": ["geoana/kernels/tranverse_electric_reflections.py:_rTE_gradient", "geoana/kernels/tranverse_electric_reflections.py:_rTE_forward", "geoana/kernels/_extensions/_rTE.cpp:rTEgrad"]}
{"id": "C51", "title": "The C++ reflection kernels compute the Python ones within bounds", "statement": "Run on arrays that pass the wrapper's shape checks, the C++ loops (unsigned wrap-around indices, Fortran-ordered flat arrays) read and write only in-range positions, terminate, write every output entry exactly once, and produce entry (layer,freq,filter) equal to the Python kernel's, for equal mu_0.", "quantifier": "all n_layer >= 1, n_frequency, n_filter, all array contents", "why_tests_cant": "unbounded sizes and wrap-around loop bounds", "anchors": ["geoana/kernels/_extensions/_rTE.cpp:rTE", "geoana/kernels/_extensions/_rTE.cpp:rTEgrad", "geoana/kernels/_extensions/rTE.pyx:rTE_forward"]}
{"id": "C52", "title": "Layered halfspace properties always match the layer and frequency counts", "statement": "After any accepted history of assignments to thickness, frequency, sigma, mu and epsilon, the arrays used by magnetic_field have shape (n_layer, n_frequency) and satisfy the physical bounds; sigma_hat has shape (n_layer, n_frequency) with entry sigma[l,f] + i w_f eps[l,f].", "quantifier": "all histories, all numbers of layers and frequencies", "why_tests_cant": "unbounded histories and shapes; broadcasting coincidences", "anchors": ["geoana/em/fdem/layered.py:MagneticDipoleLayeredHalfSpace"]}
{"id": "C53", "title": "Halfspace dipole fields: total = secondary + primary, linear, reciprocal", "statement": "For the layered and homogeneous halfspace dipoles the total field minus the secondary field is the free-space dipole field; fields are linear in moment and orientation and rotate with the horizontal geometry; the coupling of source direction a to field component b equals that of b to a with source and receiver exchanged.", "quantifier": "all earth models, source and receiver positions", "why_tests_cant": "continuum; unbounded layers", "anchors": ["geoana/em/fdem/layered.py:MagneticDipoleLayeredHalfSpace.magnetic_field", "geoana/em/fdem/halfspace.py:MagneticDipoleHalfSpace.magnetic_field"]}
{"id": "C54", "title": "Frequency and time are validated over every history", "statement": "After any history, every stored frequency (time) is positive and at most one-dimensional; anything else raises and leaves the object unchanged.", "quantifier": "all histories, all arrays", "why_tests_cant": "unbounded histories; boundary value zero, NaN", "anchors": ["geoana/em/fdem/base.py:BaseFDEM.frequency", "geoana/em/tdem/base.py:BaseTDEM.time"]}
{"id": "C55", "title": "Transient electric dipole satisfies the diffusive Maxwell equations", "statement": "Off the source and for t>0: H = curl A, sigma E = curl H, curl E = -mu dH/dt, div H = 0, div E = 0, and magnetic_field_time_deriv is the time derivative of magnetic_field; fluxes are mu times fields.", "quantifier": "all sources, properties, points, times > 0", "why_tests_cant": "derivative identities over a continuum", "anchors": ["geoana/em/tdem/wholespace.py:ElectricDipoleWholeSpace"]}
{"id": "C56", "title": "TransientPlaneWave satisfies the diffusive Maxwell equations", "statement": "For t>0: curl E = -dB/dt, curl H = sigma E, fields are horizontal and divergence-free.", "quantifier": "all properties, orientations, points, times > 0", "why_tests_cant": "derivative identities over a continuum", "anchors": ["geoana/em/tdem/wholespace.py:TransientPlaneWave"]}
{"id": "C57", "title": "peak_time is when the transient plane-wave field peaks", "statement": "At depth z, |E(t)| of TransientPlaneWave over t>0 has its unique global maximum at t = peak_time(z, sigma, mu); diffusion_distance, theta and peak_time satisfy their exact mutual relations.", "quantifier": "all depths, properties, times", "why_tests_cant": "optimum over a continuum", "anchors": ["geoana/em/tdem/base.py:peak_time", "geoana/em/tdem/base.py:diffusion_distance", "geoana/em/tdem/base.py:theta", "geoana/em/tdem/wholespace.py:TransientPlaneWave"]}
{"id": "C58", "title": "Loop transient derivative functions are the true derivatives", "statement": "vertical_magnetic_flux_time_deriv_horizontal_loop and the field version are the time derivatives of the corresponding flux / field functions for all t>0, and all are linear in current and turns.", "quantifier": "all t>0, properties, radii, currents, turns", "why_tests_cant": "derivative identity over a continuum", "anchors": ["geoana/em/tdem/simple_functions.py:vertical_magnetic_flux_time_deriv_horizontal_loop", "geoana/em/tdem/simple_functions.py:vertical_magnetic_field_horizontal_loop"]}
{"id": "C59", "title": "Vertical dipole transient derivative functions are the true derivatives", "statement": "magnetic_field_time_deriv_magnetic_dipole is the time derivative of magnetic_field_vertical_magnetic_dipole, component by component, for all t>0 off the source.", "quantifier": "all t>0, positions off the source, properties", "why_tests_cant": "derivative identity involving modified Bessel functions", "anchors": ["geoana/em/tdem/simple_functions.py:magnetic_field_time_deriv_magnetic_dipole", "geoana/em/tdem/simple_functions.py:magnetic_field_vertical_magnetic_dipole"]}
{"id": "C60", "title": "Flux and field, current density and electric field wrappers are consistent", "statement": "Wherever a class offers both, magnetic_flux_density = mu * magnetic_field, current_density = sigma * electric_field (= E/rho), and time-derivative versions likewise.", "quantifier": "all classes offering both, all inputs", "why_tests_cant": "continuum of inputs", "anchors": ["geoana/em/fdem/wholespace.py:ElectricDipoleWholeSpace", "geoana/em/tdem/wholespace.py:ElectricDipoleWholeSpace", "geoana/em/tdem/halfspace.py:VerticalMagneticDipoleHalfSpace", "geoana/em/static/wholespace.py:MagneticDipoleWholeSpace"]}
{"id": "C61", "title": "EarthquakeInterferogram and Oksar attributes read back what was assigned", "statement": "For every attribute of EarthquakeInterferogram and Oksar, reading it after any history returns the (converted) value of the last accepted assignment to that same attribute.", "quantifier": "all attributes, all histories", "why_tests_cant": "every attribute and every history; tests touch a few", "anchors": ["geoana/earthquake/oksar.py:EarthquakeInterferogram", "geoana/earthquake/oksar.py:Oksar"]}
{"id": "C62", "title": "Line-of-sight vectors are unit vectors and angular distance is well defined", "statement": "get_LOS_vector returns vectors of length one for every geometry; the great-circle normal is a unit vector so the arccos argument lies in [-1,1]; every point on the great circle of the satellite track has angular distance 0, and the result lies in [-90,90] degrees.", "quantifier": "all geometries and locations", "why_tests_cant": "continuum", "anchors": ["geoana/earthquake/oksar.py:EarthquakeInterferogram.get_LOS_vector", "geoana/earthquake/oksar.py:EarthquakeInterferogram._ang_to_gc"]}
{"id": "C63", "title": "Oksar fault parameters are validated over every history", "statement": "At every point of any history, depth_top >= 0, depth_bottom >= depth_top, 0<=strike<=360, 0<=dip<=90, -180<=rake<=180, slip >= 0, length >= 0.", "quantifier": "all histories and values", "why_tests_cant": "unbounded histories", "anchors": ["geoana/earthquake/oksar.py:Oksar"]}
{"id": "C64", "title": "Oksar simulation grid spans O, O+U, O+V, O+U+V", "statement": "simulation_grid consists of the points O + s U + t V for s,t on the uniform grid, with the four corners O, O+U, O+V and O+U+V.", "quantifier": "all O,U,V and grid shapes", "why_tests_cant": "all shapes and vectors", "anchors": ["geoana/earthquake/oksar.py:Oksar.simulation_grid", "geoana/earthquake/oksar.py:Oksar.V"]}
{"id": "C65", "title": "Plane-wave orientation is always a horizontal unit vector", "statement": "After any history of assignments to orientation of HarmonicPlaneWave / TransientPlaneWave the stored orientation is a unit vector with zero z component; anything else is rejected.", "quantifier": "all histories and all strings and arrays", "why_tests_cant": "all strings and arrays", "anchors": ["geoana/em/fdem/wholespace.py:HarmonicPlaneWave.orientation", "geoana/em/tdem/wholespace.py:TransientPlaneWave.orientation"]}
{"id": "C66", "title": "Batch evaluation is pointwise", "statement": "For the array methods that split points by region with boolean masks (gravity Sphere, electrostatic and magnetostatic spheres, MagneticPrism flux, charge density, circular loop), the result at each point equals the result of evaluating that point alone, in the same order, for any batch.", "quantifier": "all batches of any length, all mask patterns", "why_tests_cant": "unbounded batch sizes and mask patterns", "anchors": ["geoana/gravity.py:Sphere", "geoana/em/static/sphere.py:ElectrostaticSphere", "geoana/em/static/freespace.py:MagneticPrism.magnetic_flux_density"]}
{"id": "C67", "title": "plot2Ddata colour limits are resolved consistently and inputs are not modified", "statement": "The colour limits used are clim's min/max when given, else contourOpts' vmin/vmax, else the data range; conflicting values raise; dictionaries passed by the caller are not modified.", "quantifier": "all combinations of options and values", "why_tests_cant": "all option combinations and histories of repeated calls with the same dict", "anchors": ["geoana/plotting_utils.py:plot2Ddata"]}
{"id": "C68", "title": "Sphere potentials solve the interface problem and charge density is the field jump", "statement": "For every sphere in a uniform field the total potential is harmonic inside and outside, its conductivity- (permeability-) weighted normal derivative is continuous across the surface, the secondary potential vanishes far away, and ElectrostaticSphere.charge_density on the surface is epsilon_0 times the jump of the normal field, zero off the shell.", "quantifier": "all spheres, all directions, all shell widths", "why_tests_cant": "second-order derivative identities and limits over a continuum", "anchors": ["geoana/em/static/sphere.py:ElectrostaticSphere", "geoana/em/static/sphere.py:MagnetostaticSphere"]}
{"id": "C69", "title": "The layered reflection recursion is always defined and passive", "statement": "For positive frequency, real positive permeabilities, non-negative thicknesses and conducting layers (or non-negative real conductivities with a positive wavenumber), rTE_forward never divides by zero, for any number of layers, and without a dielectric part |rTE| <= 1.", "quantifier": "all layer counts, thicknesses and properties in the stated ranges", "why_tests_cant": "unbounded number of layers and continuum of properties; a zero denominator is a measure-zero event no sample hits", "anchors": ["geoana/kernels/tranverse_electric_reflections.py:_rTE_forward"]}
{"id": "C70", "title": "rTE_forward is the reflection coefficient of Maxwell's equations", "statement": "For every physical layered earth, rTE_forward is the unique r such that the field exp(-lamb z) + r exp(lamb z) in the air continues into the earth as a solution of E'' = (lamb^2 + i w mu sigma) E in each layer, with E and E'/mu continuous across interfaces, that dies out at depth.", "quantifier": "all layer counts, thicknesses and properties in the stated ranges", "why_tests_cant": "existence and uniqueness for a boundary-value problem over a continuum", "anchors": ["geoana/kernels/tranverse_electric_reflections.py:_rTE_forward"]}
{"id": "C71", "title": "Prism volume, centre, mass and moment are the integrals over the box", "statement": "For a prism with max_location > min_location, volume is the Lebesgue measure of the box and positive, location is the mean position over the box, mass of a gravity Prism is the density integrated over the box, and moment of a MagneticPrism is the magnetization integrated over the box.", "quantifier": "all boxes, densities and magnetizations", "why_tests_cant": "a continuum of boxes", "anchors": ["geoana/shapes.py:BasePrism.volume", "geoana/shapes.py:BasePrism.location", "geoana/gravity.py:Prism.mass", "geoana/em/static/freespace.py:MagneticPrism.moment"]}
{"id": "C72", "title": "Interferogram plot data puts every sample in its own pixel", "statement": "For data of nx*ny samples, sample i of line j is drawn in the pixel [x0 + i px, x0 + (i+1) px] x [y0 - (j+1) py, y0 - j py], where (x0, y0) is location and (px, py) pixel_size: lines run from the top down. Its value is multiplied by the scaling, and zero samples become NaN. A data array of any other size is rejected with a ValueError.", "quantifier": "all grid sizes, data arrays, locations, pixel sizes and scalings", "why_tests_cant": "an orientation or off-by-one error in reshape/transpose/flip is invisible on symmetric samples; all sizes must be covered", "anchors": ["geoana/earthquake/oksar.py:EarthquakeInterferogram._get_plot_data"]}
{"id": "C73", "title": "The line of sight points at the satellite", "statement": "Every line-of-sight vector is sin(a) times the horizontal direction to the left of the flight direction plus cos(a) upwards for some incidence angle a in [-90, 90] degrees, and at the reference location a is the reference incidence for every positive altitude and earth radius and |incidence| < 90.", "quantifier": "all geometries, reference points and coordinate projections", "why_tests_cant": "a continuum of geometries; the spherical-earth correction must cancel exactly at the reference", "anchors": ["geoana/earthquake/oksar.py:EarthquakeInterferogram.get_LOS_vector"]}
{"id": "C74", "title": "The loop's fields are the line integrals around the wire", "statement": "Off the wire and outside the near-axis series region, vector_potential is mu I/(4 pi) times the integral of dl/r and magnetic_flux_density is mu I/(4 pi) times the Biot-Savart integral of dl x r/r^3 over the circle of the given radius about location, run counterclockwise about orientation; the component of the flux density along the orientation is that integral at every point off the wire.", "quantifier": "all loops, orientations, observation points off the wire", "why_tests_cant": "elliptic integrals against line integrals over a continuum of points", "anchors": ["geoana/em/static/wholespace.py:CircularLoopWholeSpace.vector_potential", "geoana/em/static/wholespace.py:CircularLoopWholeSpace.magnetic_flux_density"]}
{"id": "C75", "title": "The loop functions are superpositions of the dipole functions", "statement": "A horizontal loop is a disc of vertical dipoles: the derivative with respect to the radius of the vertical field at the loop's centre equals 2 pi a I N times the vertical field, at distance a, of a unit vertical dipole on the same halfspace, in the frequency domain (total and secondary) and in the time domain.", "quantifier": "all radii, frequencies or times, conductivities, permeabilities, currents, turns", "why_tests_cant": "an identity between two independently written formulas over a continuum of arguments", "anchors": ["geoana/em/fdem/simple_functions.py:vertical_magnetic_field_horizontal_loop", "geoana/em/fdem/halfspace.py:MagneticDipoleHalfSpace.magnetic_field", "geoana/em/tdem/simple_functions.py:vertical_magnetic_field_horizontal_loop", "geoana/em/tdem/simple_functions.py:magnetic_field_vertical_magnetic_dipole"]}
{"id": "C76", "title": "Transients start at the static field and decay to nothing", "statement": "For a loop or a vertical dipole switched off at t = 0, the field tends to the static field as t -> 0+ and to zero as t -> infinity; the loop's field is strictly decreasing in time and always strictly between zero and the static field.", "quantifier": "all times, properties and geometries", "why_tests_cant": "limits and monotonicity over a continuum", "anchors": ["geoana/em/tdem/simple_functions.py:vertical_magnetic_field_horizontal_loop", "geoana/em/tdem/simple_functions.py:magnetic_field_vertical_magnetic_dipole"]}
{"id": "C77", "title": "Halfspace dipole and loop fields have the right limits in frequency", "statement": "As the frequency tends to zero the secondary field tends to zero; as it tends to infinity the total field tends to that of a source on a perfect conductor: twice the static horizontal field, no vertical field, and no field at the centre of a loop. The horizontal surface field has a potential (no vertical current), and the loop's field is linear in current and turns with flux = mu * field.", "quantifier": "all sources, points and properties", "why_tests_cant": "limits over a continuum of frequencies", "anchors": ["geoana/em/fdem/halfspace.py:MagneticDipoleHalfSpace.magnetic_field", "geoana/em/fdem/simple_functions.py:vertical_magnetic_field_horizontal_loop", "geoana/em/fdem/simple_functions.py:vertical_magnetic_flux_horizontal_loop"]}
{"id": "C78", "title": "The halfspace dipole uses the permeability of its medium", "statement": "magnetic_field of MagneticDipoleHalfSpace is computed with the wavenumber of its own medium, including the permeability mu given to it.", "quantifier": "all media", "why_tests_cant": "all combinations of properties", "anchors": ["geoana/em/fdem/halfspace.py:MagneticDipoleHalfSpace.magnetic_field"]}
{"id": "C79", "title": "Each partial wave over a layered earth satisfies the field equations in air", "statement": "The secondary field over a layered earth is the sum over the filter's taps of partial waves, and each partial wave, with the Bessel functions of the Hankel transform as weights, is minus the gradient of a potential and free of divergence. Layers of air have no secondary field, splitting a layer changes nothing, and points below the surface are refused.", "quantifier": "all sources, layer counts, points and wave numbers", "why_tests_cant": "differential identities over a continuum, unbounded numbers of layers and taps", "anchors": ["geoana/em/fdem/layered.py:MagneticDipoleLayeredHalfSpace.magnetic_field"]}
{"id": "C80", "title": "Reference formulas for a transient dipole agree with the package's field functions", "statement": "The Ward-and-Hohmann reference functions for a vertical dipole on a halfspace agree with the package's own field and time-derivative functions up to the sign convention of the radial component, and each reference time derivative is the time derivative of the corresponding reference field.", "quantifier": "every moment, positive time, conductivity and permeability and every distance from the source", "why_tests_cant": "The test suite uses the reference functions to check the field functions at a handful of times and negates three of the four results by hand, so it cannot tell a convention from an error.", "anchors": ["geoana/em/tdem/reference.py: hz_from_vert_4_69a", "geoana/em/tdem/reference.py: dhz_from_vert_4_70", "geoana/em/tdem/reference.py: hp_from_vert_4_72", "geoana/em/tdem/reference.py: dhp_from_vert_4_74", "geoana/em/tdem/simple_functions.py: magnetic_field_vertical_magnetic_dipole"]}
{"id": "C81", "title": "A prism's potential and field are the volume integrals they stand for, at every point", "statement": "For a prism of uniform density the gravitational potential is the integral of G rho / |q - p| over the prism, the field is the integral of G rho (q - p) / |q - p|^3, and for a uniformly magnetised prism the scalar potential is the integral of M . (q - p) / (4 pi |q - p|^3).  This holds at every observation point p: outside, inside, on faces, edges, corners and their extensions.", "quantifier": "every prism with min < max in each direction, every density or magnetisation, every observation point", "why_tests_cant": "The kernels take special branches on edges and face planes, and a sampled comparison with quadrature cannot establish an improper integral at every point.", "anchors": ["geoana/gravity.py: Prism.gravitational_potential", "geoana/gravity.py: Prism.gravitational_field", "geoana/em/static/freespace.py: MagneticPrism.scalar_potential", "geoana/kernels/potential_field_prism.py"]}
{"id": "C82", "title": "Outside a prism its gradient tensor and magnetic field are the volume integrals they stand for", "statement": "At every point off the closed prism the gravity gradient tensor is the integral of G rho (3 d d^T / |d|^5 - I / |d|^3) with d = q - p over the prism, the magnetic field is the integral of the fields of the dipoles M dq, and the flux density is mu_0 times the magnetic field.  The points include those on the planes of the faces and on the lines of the edges.", "quantifier": "every prism with min < max in each direction, every density or magnetisation, every point off the closed prism", "why_tests_cant": "The kernels take special branches on the planes and lines, a null set that random sampling misses.", "anchors": ["geoana/gravity.py: Prism.gravitational_gradient", "geoana/em/static/freespace.py: MagneticPrism.magnetic_field", "geoana/em/static/freespace.py: MagneticPrism.magnetic_flux_density", "geoana/kernels/potential_field_prism.py"]}
{"id": "C83", "title": "Every setter of the earthquake classes converts as documented and refuses with the documented exception", "statement": "Number attributes store float(value), text attributes str(value), the UTM zone and the interferogram shape integers truncated toward zero (a shape has exactly two), locations arrays that squeeze to two entries, dates datetimes or strings in one of two formats. Everything else is refused, with TypeError for values of the wrong kind and ValueError for a wrong count or range (pixel_size and the Oksar shape: TypeError), and a refused assignment leaves the object unchanged. Constructors raise TypeError if a required argument is missing and otherwise succeed exactly when every given argument is acceptable.", "quantifier": "all attributes, all assigned objects, all object states", "why_tests_cant": "tests try a handful of values per setter; the claim is about every object that can be assigned and which exception it produces", "anchors": ["geoana/earthquake/oksar.py: EarthquakeInterferogram setters and __init__", "geoana/earthquake/oksar.py: Oksar setters and __init__"]}
{"id": "C84", "title": "Refused assignments and plots raise the exception of the documented kind and leave everything as it was", "statement": "On the halfspace current sources, a current or resistivity that is no number raises TypeError, a non-positive resistivity ValueError, a location that is no array TypeError, one with another number of entries or above the surface ValueError; on the layered halfspace, frequencies, thicknesses and properties of the wrong kind or shape raise TypeError and values out of range ValueError. In each case no attribute of the object changes. An empty clim raises ValueError, a limit option that is no number next to clim TypeError. A plot that is drawn receives exactly the caller's options plus the defaults for the keys the caller left out.", "quantifier": "all objects in any state, all assigned values, all option dictionaries", "why_tests_cant": "tests check a few bad values; the claim covers every rejected value and the complete state afterwards", "anchors": ["geoana/em/static/halfspace.py: setters", "geoana/em/fdem/layered.py: setters", "geoana/plotting_utils.py: plot2Ddata"]}
{"id": "C85", "title": "The transient and the harmonic fields of an electric dipole in a whole space are Fourier transforms of each other", "statement": "For every frequency f >= 0, the quasistatic harmonic vector potential, electric field, current density, magnetic field and flux density of an ElectricDipoleWholeSpace equal the transform over (0, infinity) of minus the time derivative of the corresponding transient of the same dipole (the step switched off at t = 0), and the transients decay to zero.", "quantifier": "every dipole, conductivity and permeability, every frequency f >= 0, every point off the dipole", "why_tests_cant": "The two modules were written from different formulas; a test compares at most a few numbers after numerical quadrature of an oscillating improper integral.", "anchors": ["geoana/em/fdem/wholespace.py: ElectricDipoleWholeSpace", "geoana/em/tdem/wholespace.py: TransientElectricDipoleWholeSpace"]}
{"id": "C86", "title": "Transient and harmonic plane waves are Fourier transforms of each other below z = 0", "statement": "For every frequency f > 0 and every point with z < 0 the quasistatic harmonic electric field, current density, flux density and magnetic field of a plane wave equal the transforms over (0, infinity) of the transients of the plane wave with the same attributes. For z > 0 the transient's transform is minus the harmonic field at the mirrored point.", "quantifier": "every plane wave, every frequency f > 0, every point with z < 0 (and z > 0 for the mirrored statement)", "why_tests_cant": "an identity between an oscillating improper integral and a closed form over a continuum of arguments", "anchors": ["geoana/em/fdem/wholespace.py: HarmonicPlaneWave", "geoana/em/tdem/wholespace.py: TransientPlaneWave"]}
{"id": "C87", "title": "Transient and harmonic fields of a loop and of a vertical dipole on a halfspace are Fourier transforms of each other", "statement": "The harmonic field and flux at the centre of a horizontal loop on a halfspace, and all components of the harmonic field of a vertical magnetic dipole, equal for every frequency f > 0 the transform over (0, infinity) of minus the time derivative of the corresponding transient after switch-off.", "quantifier": "every loop and dipole, every conductivity and permeability, every frequency f > 0, every distance r > 0", "why_tests_cant": "an identity between an oscillating improper integral and a closed form; the two modules share no code", "anchors": ["geoana/em/fdem/simple_functions.py: vertical_magnetic_field_horizontal_loop", "geoana/em/tdem/simple_functions.py: vertical_magnetic_field_horizontal_loop", "geoana/em/tdem/simple_functions.py: magnetic_field_vertical_magnetic_dipole", "geoana/em/fdem/halfspace.py: MagneticDipoleHalfSpace.magnetic_field"]}
{"id": "C88", "title": "Attributes of spheres in a uniform field, wires, point masses and magnetised prisms are validated over every history", "statement": "After any sequence of constructions and assignments, successful or refused, an ElectrostaticSphere or MagnetostaticSphere has a non-negative radius, positive properties and two vectors of three numbers; a wire has nodes of shape (n, 3), n - 1 segments and valid electromagnetic properties; point masses and magnetised prisms store exactly what converts to a number or to three numbers. A refused assignment changes nothing.", "quantifier": "all constructor arguments, all histories of assignments, all assigned objects", "why_tests_cant": "a claim about every history and every object that can be assigned", "anchors": ["geoana/em/static/sphere.py: ElectrostaticSphere and MagnetostaticSphere setters and __init__", "geoana/em/base.py: BaseLineCurrent", "geoana/gravity.py: PointMass", "geoana/em/static/freespace.py: MagneticPrism.magnetization"]}
{"id": "C89", "title": "Moving a point current moves nothing else", "statement": "Assigning location to a PointCurrentWholeSpace changes that source and neither the caller's arrays nor any other source, whatever was passed to constructors and setters before.", "quantifier": "all histories of creating arrays, building sources and assigning nodes and locations", "why_tests_cant": "aliasing shows only in particular histories of shared arrays", "anchors": ["geoana/em/static/wholespace.py: PointCurrentWholeSpace.location", "geoana/em/base.py: BaseLineCurrent.nodes"]}
{"id": "C90", "title": "The layered earth and the halfspace formulas are the same physics", "statement": "For an earth of any number of equal layers with the permeability of free space, the secondary field of MagneticDipoleLayeredHalfSpace, with its digital filter replaced by the Hankel integral the filter approximates, tends to the secondary field of MagneticDipoleHalfSpace with the same attributes when source and point come down to the ground, for every orientation and every point off the axis. The closed formula for the field in the centre of a loop on a halfspace is the corresponding Hankel integral of the same reflection coefficient.", "quantifier": "every frequency f > 0, complex conductivity with positive real part, orientation, moment and point off the axis; any number of layers; every way of approaching the ground", "why_tests_cant": "The closed formulas and the integrals of the reflection coefficient share no code; agreement of the numbers in a test is limited by the filter and by the sampled points.", "anchors": ["geoana/em/fdem/layered.py: MagneticDipoleLayeredHalfSpace.magnetic_field", "geoana/em/fdem/halfspace.py: MagneticDipoleHalfSpace.magnetic_field", "geoana/em/fdem/simple_functions.py: vertical_magnetic_field_horizontal_loop", "geoana/kernels/tranverse_electric_reflections.py: rTE_forward"]}
{"id": "C91", "title": "The surface displacement of a rectangular fault is Volterra's integral", "statement": "For every rectangular fault anywhere below the surface, every dip, every slip in the plane of the fault and every elastic halfspace, the closed formula that Oksar evaluates at the four corners equals the integral over the fault of the displacement of an elementary dislocation, at every station the code does not round to a corner or to the line of the fault's trace, and at every station exactly on that line that is not level with an end of the fault. The elementary dislocation is obtained from the field of a unit force on the surface, which satisfies the equations of elasticity, leaves the surface free and balances a unit force.", "quantifier": "every fault, dip and slip, every pair of elastic parameters, every station off the trace that is not rounded", "why_tests_cant": "an identity between a double integral and a closed form with twelve transcendental terms per corner; a test compares a few stations with a table", "anchors": ["geoana/earthquake/oksar.py: Oksar._dc3d3"]}
{"id": "C92", "title": "The surface displacement is computed for any number of stations off the fault", "statement": "For every list of stations none of which lies on the fault the displacement is computed, with one column for each station.", "quantifier": "all lists of stations, all buried faults", "why_tests_cant": "a claim about every list of stations; tests use one grid", "anchors": ["geoana/earthquake/oksar.py: Oksar._dc3d3"]}
{"id": "C93", "title": "Displacements of slips and of parts of a fault add up", "statement": "The displacement for a sum of slips is the sum of the displacements, that for a multiple is the multiple, dividing a fault along its strike or its dip into two leaves the sum unchanged, moving fault and stations along the strike changes nothing, and without slip the result is zero.", "quantifier": "every fault, every dip, every slip, every point of division, every station that is not rounded", "why_tests_cant": "an identity for all faults, slips, points of division and stations", "anchors": ["geoana/earthquake/oksar.py: Oksar._dc3d3"]}
{"id": "C94", "title": "Wires satisfy Ampere's law together with the currents they feed into the ground", "statement": "For every polygonal wire with at least one segment, grounded or closed, and every point off the lines through its segments, the curl of magnetic_field is current_density and its divergence is zero.", "quantifier": "every wire, every current, conductivity and permeability, every point off the lines through the segments", "why_tests_cant": "a relation between the derivatives of one method and the values of another, at every point and for every wire", "anchors": ["geoana/em/static/wholespace.py: LineCurrentWholeSpace.magnetic_field", "geoana/em/static/wholespace.py: LineCurrentWholeSpace.current_density"]}
{"id": "C95", "title": "The flux density of a circular loop has neither curl nor divergence off the wire", "statement": "For every circular loop and every point off the wire and outside the narrow cone around the axis where a series is used, the curl and the divergence of magnetic_flux_density and of magnetic_field are zero.", "quantifier": "every loop of any position, orientation, radius and current, every such point", "why_tests_cant": "an identity between derivatives of elliptic integrals at every point", "anchors": ["geoana/em/static/wholespace.py: CircularLoopWholeSpace.magnetic_flux_density", "geoana/em/static/wholespace.py: CircularLoopWholeSpace.magnetic_field"]}
{"id": "C96", "title": "The displacement vector is the one that the attributes of the earthquake stand for", "statement": "displacement_vector has one row for each point of the simulation grid: the displacement of that point, by Volterra's formula, for slip with the given rake on the rectangle of the given strike, dip, length and depths below the given centre of its trace.", "quantifier": "every earthquake, every grid", "why_tests_cant": "conventions for four angles enter with signs and a turn of the axes that cancel only for some of the choices; tests compare with stored numbers, if at all", "anchors": ["geoana/earthquake/oksar.py: Oksar.displacement_vector", "geoana/earthquake/oksar.py: Oksar._dc3d3"]}
{"id": "C97", "title": "The geometric helpers of dipoles and loops act on each vector of an array", "statement": "For an array of shape (..., 3), vector_distance subtracts the source location from each vector, distance is its length, dot_orientation and cross_orientation are the products of each vector with the orientation; the shape of the array is kept, the distance is zero only at the source, and the squares of the lengths along and across the axis add up to the square of the distance.", "quantifier": "arrays with any number of axes of any lengths, every location and orientation; arrays of any other shape", "why_tests_cant": "tests use one or two fixed shapes; the claim is about every number of axes", "anchors": ["geoana/em/base.py: BaseDipole.vector_distance", "geoana/em/base.py: BaseDipole.distance", "geoana/em/base.py: BaseDipole.dot_orientation", "geoana/em/base.py: BaseDipole.cross_orientation"]}
{"id": "C98", "title": "With arrays of frequencies or times and arrays of points every pair is computed on its own", "statement": "For harmonic and transient whole-space dipoles and plane waves, frequencies (times) of shape F and points of shape (..., 3), or a tuple of three arrays, every field method returns an array of shape F + (..., 3) whose vector at each frequency and point is the field of the source at that one frequency and that one point. Any other shape of the points is refused.", "quantifier": "every number and length of axes of the points, every number of frequencies or times including plain numbers, every source", "why_tests_cant": "the result depends on how shapes combine; tests use a few shapes, in which axes of equal or unit length can hide a mix-up", "anchors": ["geoana/em/fdem/wholespace.py: ElectricDipoleWholeSpace", "geoana/em/fdem/wholespace.py: MagneticDipoleWholeSpace", "geoana/em/fdem/wholespace.py: HarmonicPlaneWave", "geoana/em/tdem/wholespace.py: ElectricDipoleWholeSpace", "geoana/em/tdem/wholespace.py: TransientPlaneWave", "geoana/utils.py: append_ndim"]}
{"id": "C99", "title": "On and above a half-space, too, every pair of a frequency or time and a point is computed on its own", "statement": "For n frequencies (or one) and points of shape (..., 2 or more), MagneticDipoleHalfSpace.magnetic_field returns the fields of all pairs, with axes of length one removed; so does MagneticDipoleLayeredHalfSpace.magnetic_field for points of shape (n, 3) not below the surface, each frequency with its own column of layer properties; and the functions and methods for a transient vertical dipole return an array of shape (times) + (...) + (3,). Other arguments are refused.", "quantifier": "every number of frequencies or times and of points, every number of axes of the points, every source and layering", "why_tests_cant": "the result depends on how shapes combine, on flattening and unflattening, and on which axes are removed; tests use a few shapes", "anchors": ["geoana/em/fdem/halfspace.py: MagneticDipoleHalfSpace.magnetic_field", "geoana/em/fdem/layered.py: MagneticDipoleLayeredHalfSpace.magnetic_field", "geoana/em/tdem/simple_functions.py: magnetic_field_vertical_magnetic_dipole", "geoana/em/tdem/halfspace.py: VerticalMagneticDipoleHalfSpace"]}
{"id": "C100", "title": "With an array of points static sources, spheres, point masses and prisms treat every point on its own", "statement": "For points of shape (..., 3), or a tuple of three arrays, in Cartesian or (where supported) cylindrical coordinates, every method of static dipoles, poles, wires, loops, point currents and electrode pairs, of conductive and permeable spheres, and of gravity and magnetic point masses, spheres and prisms returns an array with the axes of the points followed by those of the value, which holds at each point what the method gives for that point alone. The same exception is raised as for a single point. Two arrays of potential electrodes are combined by numpy's broadcasting rules.", "quantifier": "every number and length of axes of the points, every source or body, every pair of shapes of the electrodes", "why_tests_cant": "working arrays are reused between the segments of a wire, points are flattened, rotated and put back, boolean masks read and write rows; tests use a few shapes", "anchors": ["geoana/em/static/wholespace.py", "geoana/em/static/halfspace.py", "geoana/em/static/sphere.py", "geoana/em/static/freespace.py: MagneticPrism", "geoana/gravity.py", "geoana/shapes.py: BasePrism._eval_def_int"]}
{"id": "C101", "title": "Conversions between coordinate systems act on each point and vector of an array", "statement": "The four conversions between Cartesian, cylindrical and spherical coordinates convert each point of an array of shape (..., 3), and each vector of an array of vectors at its point; the same numbers flattened in column-major order are accepted in place of the vectors. With two columns the cylindrical conversions are those of the plane. Converting an array there and back returns it; rows that are too short are refused; the older names are the same functions. vector_magnitude and repeat_scalar act on each vector or number.", "quantifier": "arrays with any number of axes of any lengths, all points, vectors and pairs of shapes", "why_tests_cant": "how shapes combine, and the documented second layout of the vectors, must hold for every shape; tests use one", "anchors": ["geoana/spatial.py: cylindrical_to_cartesian", "geoana/spatial.py: cartesian_to_cylindrical", "geoana/spatial.py: spherical_to_cartesian", "geoana/spatial.py: cartesian_to_spherical", "geoana/spatial.py: vector_magnitude", "geoana/spatial.py: repeat_scalar"]}
{"id": "C102", "title": "Far from a prism its response is that of a point at its centre; everywhere its sign and size are bounded", "statement": "Outside the sphere about a prism, its gravitational potential, field and gradient differ from those of a PointMass with the prism's mass at its location by at most an explicit amount that falls off faster than the response; for the potential the relative error falls off with the square of the distance. The same holds for a magnetic prism and a magnetic dipole with the prism's moment at its location. If all points of the prism are at distances between r and R, its potential is between G m / R and G m / r; the potential of a positive density is positive at every point, and on or beyond a face the field across that face points to the prism.", "quantifier": "every box, density, magnetization and observation point", "why_tests_cant": "closed forms with sums of eight nearly cancelling terms; tests compare a few points", "anchors": ["geoana/gravity.py: Prism", "geoana/gravity.py: PointMass", "geoana/em/static/freespace.py: MagneticPrism", "geoana/em/static/wholespace.py: MagneticDipoleWholeSpace", "geoana/shapes.py: BasePrism.location"]}
{"id": "C103", "title": "Results do not depend on where the origin is and how the axes point", "statement": "Shifting and turning the whole arrangement - location, orientation or primary field, nodes of a wire, observation points - turns every vector result, and both sides of every tensor, in the same way, and leaves potentials, charges and exceptions as they were. This holds for dipoles, poles, wires, loops, spheres and point masses under every rigid motion; for sources over a half-space and plane waves under every motion that keeps the surface; for prisms under every motion that takes the prism to a prism.", "quantifier": "every rigid motion, every source and every observation point", "why_tests_cant": "a wrong component, sign or axis in one direction can agree with the others on the axes the tests use; there are infinitely many directions", "anchors": ["geoana/em/static/wholespace.py", "geoana/em/static/halfspace.py", "geoana/em/static/sphere.py", "geoana/em/static/freespace.py", "geoana/em/fdem", "geoana/em/tdem", "geoana/gravity.py", "geoana/shapes.py"]}
{"id": "C104", "title": "Source and receiver can be exchanged", "statement": "In one medium what a receiver picks up from a source does not change when the two are exchanged: the forces between masses and between poles are opposite and equal; the coupling of two static magnetic dipoles, two point currents, two harmonic electric or magnetic dipoles, two transient electric dipoles is symmetric, and that of an electric to a magnetic dipole is so with the sign of Lorentz' theorem; the mutual inductance of two wires and of two loops, the mutual resistance of two grounded wires are symmetric, and a dipole's moment times the flux density of a wire or loop is the current times the flux of the dipole through it.", "quantifier": "every pair of sources of the kinds named, every medium, frequency or time, location, direction and strength; for wires any number of nodes", "why_tests_cant": "relates two evaluations with roles exchanged, for fluxes an integral over a whole wire; tests evaluate one source at a time", "anchors": ["geoana/gravity.py: PointMass", "geoana/em/static/wholespace.py", "geoana/em/fdem/wholespace.py", "geoana/em/tdem/wholespace.py"]}
{"id": "C105", "title": "Slow sources are static and fast fields do not get far", "statement": "As the frequency goes to zero the fields of a harmonic electric dipole in a whole space go to those of a steady current element, those of a harmonic magnetic dipole to those of the static magnetic dipole of the same moment, and its induced electric field to nothing. In the quasi-static mode all fields vanish at any distance as the frequency grows. A transient electric dipole, switched off at time zero, starts from the fields of the steady element and decays to nothing, and its rates of change vanish at both ends; the transient plane wave is not felt anywhere below the surface right after the source acts and has gone everywhere late.", "quantifier": "every conductivity, permeability, permittivity, moment, direction and observation point other than the source", "why_tests_cant": "limits: tests can only compare at some small or large frequency or time with a tolerance", "anchors": ["geoana/em/fdem/wholespace.py", "geoana/em/fdem/base.py: wavenumber", "geoana/em/tdem/wholespace.py", "geoana/em/tdem/simple_functions.py", "geoana/em/static/wholespace.py: MagneticDipoleWholeSpace"]}
{"id": "C106", "title": "Small and distant sources are dipoles", "statement": "At a point further away than the extent of the source, a closed wire differs from a magnetic dipole whose moment is the current times the vector area of the wire, a circular loop from one whose moment is current times area along the orientation, two opposite poles from one whose moment is strength times separation, by at most an explicit amount of second order in the extent, in vector potential and flux density. An open wire has to first order the magnetic field of the current element that joins its ends; potential and electric field of a grounded wire are to second order those of this element.", "quantifier": "every wire with any number of nodes, every loop, every pair of poles, every point outside the sphere about the source", "why_tests_cant": "an estimate for every wire and point; fixes the relative sign and size of independent implementations, which tests compare at a few points with a loose tolerance", "anchors": ["geoana/em/static/wholespace.py: LineCurrentWholeSpace", "geoana/em/static/wholespace.py: CircularLoopWholeSpace", "geoana/em/static/wholespace.py: MagneticDipoleWholeSpace", "geoana/em/static/wholespace.py: MagneticPoleWholeSpace"]}
{"id": "C107", "title": "Off the wire the field of a wire is defined", "statement": "At every point that is not on the wire, also at points in line with one of its segments, vector_potential of a line current is mu I/(4 pi) times the integral of dl/|q-s| along the wire and magnetic_flux_density is finite and follows the law of Biot and Savart.", "quantifier": "every polyline and every point off it, in particular the lines through its segments", "why_tests_cant": "the points in line with a segment form a null set that random test points never meet, although grids do (every side of a rectangular loop)", "anchors": ["geoana/em/static/wholespace.py: LineCurrentWholeSpace.magnetic_flux_density", "geoana/em/static/wholespace.py: LineCurrentWholeSpace.vector_potential", "geoana/kernels/potential_field_prism.py: prism_fzy"]}
{"id": "C108", "title": "Static fields are finite off their sources", "statement": "In floating point arithmetic with infinities and NaN the fields, potentials and gradients of point masses, solid spheres, magnetic dipoles and poles, of electrodes and grounded wires in a whole space or half-space, and of conducting or permeable spheres are the finite values of their formulas at every point off the singular set of the field; the result there is infinite or NaN, never a finite number. Inside and on spheres everything is finite, the charge density included; only the gradient tensor of a massive sphere is NaN on its surface, where it jumps.", "quantifier": "every source with positive material constants, every observation point, the singular points included", "why_tests_cant": "the singular points form a null set; every spurious NaN would be at a point nobody tries", "anchors": ["geoana/gravity.py", "geoana/em/static/wholespace.py", "geoana/em/static/halfspace.py", "geoana/em/static/sphere.py: ElectrostaticSphere.charge_density"]}
{"id": "C109", "title": "Transient fields are finite from time zero on", "statement": "Time zero is accepted by the setter of time and by the functions for loops and dipoles on a half-space. There the results are the fields of the steady source just before switch-off, and rates are zero; at every later time all results are finite off the source.", "quantifier": "every transient source, medium, observation point off the source and time from zero on", "why_tests_cant": "one special value of the time for every source; a test picks positive times", "anchors": ["geoana/em/tdem/base.py: BaseTDEM.time", "geoana/em/tdem/wholespace.py", "geoana/em/tdem/simple_functions.py"]}
{"id": "C110", "title": "Harmonic fields are finite off their sources at every frequency from zero on", "statement": "Frequency zero is accepted by the setter of frequency. At every frequency from zero on and at every point other than the source, straight above or below it included, the fields and potentials of harmonic dipoles in a whole space, on a half-space and over layers, of the plane wave and at the centre of a loop are finite, in floating point arithmetic with infinities and NaN the values of their formulas; at the source they are NaN, never a finite number. The skin depth is infinite at frequency zero.", "quantifier": "every harmonic source, medium, frequency and observation point", "why_tests_cant": "special frequencies and positions that test grids avoid", "anchors": ["geoana/em/fdem/base.py: BaseFDEM.frequency", "geoana/em/fdem/wholespace.py", "geoana/em/fdem/halfspace.py: MagneticDipoleHalfSpace.magnetic_field", "geoana/em/fdem/layered.py: MagneticDipoleLayeredHalfSpace.magnetic_field", "geoana/em/fdem/simple_functions.py"]}
{"id": "C111", "title": "Harmonic and transient fields do not depend on the system of units", "statement": "If every input is expressed in another system of units (its number multiplied by the factor of its dimension), then every result is the same quantity in that system: fields, flux densities and current densities of dipoles, loops and plane waves in a whole space, on a half-space and over layers, their rates of change, wavenumber, impedance, skin depth, peak time and diffusion distance; the reflection coefficient of a stack of layers is a pure number and its derivatives have the reciprocal dimensions of the layer properties.", "quantifier": "every source, medium, stack of layers and observation point, every positive change of the units of length, mass, time and current", "why_tests_cant": "a term with a wrong power of a length or a time is invisible in tests whose inputs are of order one, and one test fixes one system of units", "anchors": ["geoana/em/fdem/base.py: BaseFDEM.skin_depth", "geoana/em/fdem/wholespace.py", "geoana/em/fdem/halfspace.py", "geoana/em/fdem/layered.py", "geoana/em/fdem/simple_functions.py", "geoana/em/tdem/base.py", "geoana/em/tdem/wholespace.py", "geoana/em/tdem/simple_functions.py", "geoana/kernels/tranverse_electric_reflections.py"]}
{"id": "C112", "title": "Static and gravity fields do not depend on the system of units", "statement": "If every input is expressed in another system of units that keeps the constants of nature used by the code, then every result is the same quantity in that system: potentials, fields, gradients and charge densities of point masses, balls, prisms, magnetic dipoles, poles, loops and prisms, line currents, electrodes and spheres.", "quantifier": "every source and observation point, every positive change of the units of length, mass, time and current", "why_tests_cant": "a term with a wrong power of a length is invisible in tests with unit radius, and a threshold on a length only shows at another scale", "anchors": ["geoana/gravity.py", "geoana/shapes.py", "geoana/kernels/potential_field_prism.py", "geoana/em/static/freespace.py", "geoana/em/static/wholespace.py", "geoana/em/static/halfspace.py", "geoana/em/static/sphere.py"]}
{"id": "C113", "title": "Fault displacements and coordinates do not depend on the unit of length", "statement": "Expressing the fault, its slip and the stations in another unit of length changes the computed displacement by that factor only. Converting points to cylindrical or spherical coordinates and back changes distances by the factor and leaves angles alone; components of vectors change by the factor of their own unit.", "quantifier": "every fault, station, point and vector, every positive change of units", "why_tests_cant": "the tolerances of the fault code are absolute numbers; a mix-up of an angle and a component only shows when the unit of the vector changes", "anchors": ["geoana/earthquake/oksar.py: Oksar._dc3d3", "geoana/spatial.py: cartesian_to_spherical", "geoana/spatial.py: cylindrical_to_cartesian"]}
{"id": "C114", "title": "A dipole over the ground stands where its formula needs it for its whole life", "statement": "A dipole for the half-space formula stands exactly on the ground and a dipole for the layered formula is not below it: a source with another location cannot be made, and no later assignment moves it to one; a rejected assignment changes nothing.", "quantifier": "every constructor call and every sequence of assignments of moment, location and orientation, including values that are not numbers and NaN", "why_tests_cant": "the state space of a mutable source under every sequence of assignments is unbounded; tests assign once", "anchors": ["geoana/em/fdem/halfspace.py: MagneticDipoleHalfSpace", "geoana/em/fdem/layered.py: MagneticDipoleLayeredHalfSpace", "geoana/em/base.py: BaseDipole.location", "geoana/em/base.py: BaseMagneticDipole.moment"]}
{"id": "C115", "title": "Fields are linear in the strength and direction of their source", "statement": "If the moment vector (or current, mass, density, magnetization, background field, slip) of a source is a combination of those of two others that are alike otherwise, every field it produces is the same combination of their fields; where one source raises or has no value, so do the others.", "quantifier": "every pair of coefficients, every source of every class with any strengths and directions, every observation point", "why_tests_cant": "superposition quantifies over pairs of sources and coefficients; a normalisation, clamp or absolute value on the strength breaks it only for some of them", "anchors": ["geoana/gravity.py", "geoana/shapes.py", "geoana/em/static/freespace.py", "geoana/em/static/wholespace.py", "geoana/em/static/halfspace.py", "geoana/em/static/sphere.py", "geoana/em/fdem/wholespace.py", "geoana/em/fdem/halfspace.py", "geoana/em/fdem/layered.py", "geoana/em/tdem/wholespace.py", "geoana/em/tdem/simple_functions.py", "geoana/earthquake/oksar.py"]}
{"id": "C116", "title": "Results are accurate to a few units in the last place", "statement": "If every single floating-point operation has a small relative error u, each returned value differs from the exact value of the formula by a fixed small multiple of u, relative to the value or, for sums, to the size of the terms of the physical quantity (field strength, not its difference with another field).", "quantifier": "every arithmetic whose operations have relative error at most u, every source, every observation point and time (no overflow or underflow)", "why_tests_cant": "the rounding errors and inputs are unbounded sets; cancellation strikes only at particular points or far away, and a test compares with another floating-point result", "anchors": ["geoana/gravity.py: PointMass", "geoana/gravity.py: Prism", "geoana/gravity.py: Sphere", "geoana/em/static/freespace.py: MagneticPoleWholeSpace", "geoana/em/static/freespace.py: MagneticDipoleWholeSpace", "geoana/em/static/wholespace.py: PointCurrentWholeSpace", "geoana/em/static/halfspace.py: PointCurrentHalfSpace", "geoana/em/static/sphere.py", "geoana/em/tdem/simple_functions.py"]}
{"id": "C117", "title": "Transients decay with the known late-time power laws", "statement": "Long after switch-off every transient falls off with a fixed power of time whose coefficient follows from conductivity, permeability and geometry: t^(-3/2) for the field at the centre of a loop and above a dipole on a half-space, t^(-5/2) for their time derivatives, and the corresponding laws for the electric dipole in a whole-space and the plane wave.", "quantifier": "every positive conductivity, permeability and radius, every station apart from the source, the limit of time to infinity", "why_tests_cant": "a limit: at any finite time a test sees only an approximation, and at late times the terms cancel so far that floating point shows noise", "anchors": ["geoana/em/tdem/simple_functions.py", "geoana/em/tdem/wholespace.py"]}
{"id": "C118", "title": "Where a fault reaches the surface its sides are displaced by the slip", "statement": "Approaching the surface trace of a fault that reaches the surface from both sides, the displacements differ by exactly the slip vector, the side above the fault moving with it; beyond the ends of the fault and above a buried fault they do not differ.", "quantifier": "every fault, slip, elastic medium and station on the trace line, the limit from both sides", "why_tests_cant": "a statement about limits at a line where the formula itself is singular; single terms jump in all cases and only their sum does not", "anchors": ["geoana/earthquake/oksar.py: Oksar"]}
{"id": "C119", "title": "Mirrored arrangements give mirrored results", "statement": "If source and observation points are replaced by their mirror image in any plane (for sources over the ground: any vertical plane), electric fields, currents, gravity and displacements are mirrored as arrows, magnetic moments and magnetic fields as senses of rotation, and scalars stay, except the magnetic scalar potential, which changes sign. A fault reflected across its strike gives the reflected displacement, and so does a vertical fault reflected in its own plane.", "quantifier": "every plane, every source of every class with any strength, direction and position, every observation point where the result is defined", "why_tests_cant": "the set of planes, sources and points is unbounded; a swapped sign in a single component or a wrong order of a cross product breaks it only for oblique arrangements", "anchors": ["geoana/gravity.py", "geoana/em/static/freespace.py", "geoana/em/static/wholespace.py", "geoana/em/static/halfspace.py", "geoana/em/static/sphere.py", "geoana/em/fdem/wholespace.py", "geoana/em/fdem/halfspace.py", "geoana/em/fdem/layered.py", "geoana/em/tdem/wholespace.py", "geoana/em/tdem/simple_functions.py", "geoana/earthquake/oksar.py"]}
{"id": "C120", "title": "A ball attracts as the sum of its parts", "statement": "The potential and the field of a homogeneous sphere are, at every point, outside, on and inside it, the sums (volume integrals) of the potentials and fields of its mass elements taken as point masses of the same API, and its mass is the sum of theirs. Consequently a prism of the same density inside the ball has no larger potential and one around it no smaller one, and the mean potential of a point mass over a ball not containing it is the value at the centre.", "quantifier": "every density, radius and centre, every observation point, every prism inside or around the ball", "why_tests_cant": "relates an infinite family of point masses to a closed form; a test can only sum finitely many elements and cannot tell an error smaller than its discretisation", "anchors": ["geoana/gravity.py: Sphere, PointMass, Prism"]}
{"id": "C121", "title": "Transients reverse their sign as often as they should", "statement": "The vertical field of a vertical magnetic dipole on a conducting ground points against the moment up to a time c mu sigma r^2, with one number c for all media and distances, vanishes then and points along the moment ever after (the circle where it vanishes runs outwards with the square root of time); its rate of change reverses exactly once, while the field is already positive; the horizontal field is radial and never reverses. The electric field of an electric dipole in a whole space never reverses on its axis and exactly once beside it, again at a fixed multiple of mu sigma r^2.", "quantifier": "every time, conductivity, permeability, position and moment", "why_tests_cant": "the absence of further sign changes is a statement about all times, and the existence of one number for all media cannot be sampled", "anchors": ["geoana/em/tdem/simple_functions.py", "geoana/em/tdem/wholespace.py: ElectricDipoleWholeSpace"]}
{"id": "C122", "title": "Spheres without contrast, very good and very poor conductors behave as such", "statement": "A sphere of the material of its surroundings has no secondary potential, field or current and no charge. Inside any sphere the field is parallel to the primary field and weaker than 3/2 of it, the current (or flux) density parallel and weaker than three times the primary one; a better conductor weakens the field and strengthens the current, a poorer one the reverse. As the conductivity grows, potential and field inside vanish and the current tends to three times the primary one; as it goes to zero the current inside vanishes and the field tends to 3/2 of the primary one. The same for permeabilities.", "quantifier": "every radius, contrast, background, primary field and point (the limits: every point inside or on the sphere)", "why_tests_cant": "limits and bounds over all contrasts; equality of materials must give exactly zero at every point", "anchors": ["geoana/em/static/sphere.py"]}
{"id": "C123", "title": "Thick layers hide what is below them, thin layers do not matter", "statement": "As a layer of a layered earth gets thicker, the reflection coefficient and the field of a dipole above the earth tend to those of the earth that ends with the material of this layer, the difference of the reflection coefficients falling at least like exp(-2 Re(u) h); as a layer gets thinner they tend to those of the earth without it.", "quantifier": "every number of layers, conductivities, permeabilities, thicknesses, frequency, wave number, dipole and station, every layer", "why_tests_cant": "limits; with floating point tanh saturates and hides how fast the deeper layers fade", "anchors": ["geoana/kernels/tranverse_electric_reflections.py: rTE_forward", "geoana/em/fdem/layered.py: MagneticDipoleLayeredHalfSpace"]}
{"id": "C124", "title": "A polygonal wire with many sides has the field of the circular loop", "statement": "The vector potential and the magnetic flux density of a line current through n equally spaced points of a circle, ending where it began, come as close as desired to those of the circular loop with the same current, radius, centre and axis, for all large enough n.", "quantifier": "every loop radius, position, orientation and current, every direction of the first corner, every station off the wire (and off the lines through the sides), every accuracy", "why_tests_cant": "a limit between two independent implementations (closed forms of straight segments; elliptic integrals)", "anchors": ["geoana/em/static/wholespace.py: LineCurrentWholeSpace, CircularLoopWholeSpace"]}
{"id": "C125", "title": "Far from a fault the displacements fade like those of a point source", "statement": "The size of the computed surface displacement is at most 4 + 6 mu/(lambda + mu) times slip times area of the fault over the square of the distance from the fault. From three half diagonals of the fault on, it differs from the displacement of a point dislocation at the centre of the fault with the same slip times area by at most a constant of the material times slip, area and half diagonal over the cube of the distance.", "quantifier": "every fault below the surface, slip, elastic medium with shear stiffness and station that is resolved by the tolerances of the code", "why_tests_cant": "bounds over unbounded ranges of distances, with one constant for all faults and stations", "anchors": ["geoana/earthquake/oksar.py: Oksar._dc3d3"]}
{"id": "C126", "title": "Energy is conserved", "statement": "Around harmonic magnetic dipoles, quasistatic electric dipoles and plane waves the divergence of the time-averaged Poynting vector of the returned fields is minus sigma |E|^2 / 2. Around transient electric dipoles and plane waves the divergence of the Poynting vector is minus sigma |E|^2 minus the rate of change of mu |H|^2 / 2. On average the energy of a harmonic dipole flows away from it at every point off its axis, and that of plane waves flows straight down.", "quantifier": "every source, frequency or time, medium and point off the source", "why_tests_cant": "an identity between derivatives of two products of separately computed fields, and the sign of a flux at every point", "anchors": ["geoana/em/fdem/wholespace.py: electric_field, magnetic_field", "geoana/em/tdem/wholespace.py: electric_field, magnetic_field"]}
{"id": "C127", "title": "The skin effect", "statement": "Above a layered earth of real conductivities, what lies below a layer changes the reflection coefficient at every wave number by at most 4 sqrt(2) / (exp(2h/d) - 1), where h is the thickness of the layer and d the skin depth that the library returns for its conductivity, permeability and the frequency. So at high frequencies the field above the earth differs ever less from the field above the earth that ends with any of its layers.", "quantifier": "every number of layers, conductivities, permeabilities and thicknesses, every layer, frequency, wave number, station, and digital filter", "why_tests_cant": "a bound with one constant for all earths, and a limit", "anchors": ["geoana/em/fdem/layered.py: MagneticDipoleLayeredHalfSpace.magnetic_field", "geoana/kernels/tranverse_electric_reflections.py: rTE_forward", "geoana/em/fdem/base.py: skin_depth"]}
{"id": "C128", "title": "A whole plane of measurements adds up to the mass", "statement": "Over every horizontal plane the vertical gravity of a ball or a prism can be integrated and adds up to 2 pi G times the mass above the plane less the mass below it, also when the plane cuts the body; for a point mass to 2 pi G M below and - 2 pi G M above it. All entries of the gravity gradients of point masses and prisms, and all components of the magnetic fields of dipoles and magnetised prisms, add up to nothing over every plane off the source. Half the flux of a magnetic pole and half the current of a point source in a whole space pass the plane above. All the current injected into a half-space passes every plane below the electrode and none passes a plane above it.", "quantifier": "every source and every horizontal plane off it", "why_tests_cant": "integrals over an unbounded plane", "anchors": ["geoana/gravity.py: PointMass, Sphere, Prism", "geoana/em/static/freespace.py: MagneticPrism", "geoana/em/static/wholespace.py: MagneticDipoleWholeSpace, MagneticPoleWholeSpace, PointCurrentWholeSpace", "geoana/em/static/halfspace.py: PointCurrentHalfSpace.current_density"]}
{"id": "C129", "title": "What a sphere adds to the field is due to what is induced in it", "statement": "The secondary potential of a sphere in a uniform electric or magnetic field is, at every point inside, on and outside it, the integral over all space of the dipole potentials of the current density in excess of sigma_background E (of the flux density in excess of mu_background H), computed from the total fields the same object returns. Outside, the sum of that excess is the moment of the dipole that the sphere is. The charges on the sphere add up to nothing whatever the width of the shell they are drawn in.", "quantifier": "every radius, contrast, background field, location and point", "why_tests_cant": "an integral equation over all space at every point", "anchors": ["geoana/em/static/sphere.py: ElectrostaticSphere, MagnetostaticSphere"]}
{"id": "C130", "title": "Poisson's relation between gravity, magnetics and direct currents", "statement": "The scalar potential of a magnetised prism is the attraction of a gravity prism with the same corners along the magnetisation over 4 pi G rho, and its magnetic field the gravity gradient applied to the magnetisation over the same number; likewise for a magnetic dipole, a magnetic pole or a point current and a point mass, and for the secondary potential of a sphere in a uniform field and a ball.", "quantifier": "every source, every density or mass but zero, every point", "why_tests_cant": "an identity between classes at every point", "anchors": ["geoana/gravity.py: PointMass, Sphere, Prism", "geoana/em/static/freespace.py: MagneticPrism", "geoana/em/static/wholespace.py: MagneticDipoleWholeSpace, MagneticPoleWholeSpace, PointCurrentWholeSpace", "geoana/em/static/sphere.py: ElectrostaticSphere.potential, MagnetostaticSphere.potential"]}
{"id": "C131", "title": "Euler's equation holds with the structural index of the source", "statement": "The gravity gradient of a point mass (or a ball, outside it) applied to the vector from the source is minus twice the attraction, and the attraction times that vector minus the potential; inside a ball the gradient gives the attraction itself. The Jacobian of the flux density of a magnetic dipole applied to that vector is minus three times the flux density, of a pole minus twice. The electric field of a point current, in a whole space or at the surface of a half-space, times that vector is the potential.", "quantifier": "every source and every point off it", "why_tests_cant": "an identity between derivatives and values at every point", "anchors": ["geoana/gravity.py: PointMass, Sphere", "geoana/em/static/wholespace.py: MagneticDipoleWholeSpace, MagneticPoleWholeSpace, PointCurrentWholeSpace", "geoana/em/static/halfspace.py: PointCurrentHalfSpace"]}
{"id": "C132", "title": "The resistivity can be read off plane waves", "statement": "The horizontal components of the two fields of a harmonic plane wave have one ratio at every point, with positive real and imaginary part, whose square is i omega mu / sigma_hat; without displacement currents the electric field leads by 45 degrees and |E|^2 / (omega mu |H|^2) is the resistivity. In a transient plane wave E / B is the depth over twice the time.", "quantifier": "every medium, frequency or time, amplitude, orientation and point", "why_tests_cant": "a relation between two fields at every point", "anchors": ["geoana/em/fdem/wholespace.py: HarmonicPlaneWave", "geoana/em/tdem/wholespace.py: TransientPlaneWave", "geoana/em/fdem/base.py: wavenumber, sigma_hat"]}
{"id": "C133", "title": "At low frequencies the response is proportional to the conductivity", "statement": "As the frequency tends to zero, the secondary field of a dipole above a layered earth with the permeability of free space, divided by the frequency, tends to a sum over the layers of the conductivity times R(depth of the top) - R(depth of the bottom), where the curve R depends on the positions of source and receiver only and vanishes at depth. On a homogeneous half-space the ratio of secondary to primary field of two horizontal coils, and of two upright coplanar coils, is i omega mu0 sigma r^2 / 4 to first order; at the centre of a loop it is - i omega mu sigma a^2 / 4.", "quantifier": "every number of layers, all thicknesses and conductivities, every filter with positive abscissae, every source and receiver", "why_tests_cant": "a limit, and a curve common to infinitely many earths", "anchors": ["geoana/em/fdem/layered.py: MagneticDipoleLayeredHalfSpace.magnetic_field", "geoana/kernels/tranverse_electric_reflections.py: rTE_forward", "geoana/em/fdem/halfspace.py: MagneticDipoleHalfSpace.magnetic_field", "geoana/em/fdem/simple_functions.py: vertical_magnetic_field_horizontal_loop"]}
{"id": "C134", "title": "What leaves a box is what is inside (Gauss's law)", "statement": "The flux of the gravitational field out of a box with sides along the axes is -4 pi G times the mass inside the box: for a point mass, for a ball and for a prism, also when faces of the box cut through the ball or the prism or coincide with faces of the prism. The flux out of a box around a magnetic pole is its moment times mu; the current leaving a box around a point electrode in a whole space is the current of the electrode, and nothing leaves a box elsewhere. In a half-space the whole current leaves every box in the ground around the electrode, also one whose lid is the surface.", "quantifier": "every box, every position of the source off the faces, all sizes of balls and prisms", "why_tests_cant": "a statement about integrals over faces for all boxes", "anchors": ["geoana/gravity.py: PointMass.gravitational_field", "geoana/gravity.py: Sphere.gravitational_field", "geoana/gravity.py: Prism.gravitational_field", "geoana/em/static/wholespace.py: MagneticPoleWholeSpace.magnetic_flux_density", "geoana/em/static/wholespace.py: PointCurrentWholeSpace.current_density", "geoana/em/static/halfspace.py: PointCurrentHalfSpace.current_density"]}
{"id": "C135", "title": "Coils obey Faraday's and Amp\u00e8re's laws", "statement": "Around every flat four-sided coil that does not touch the source, the electric field of a harmonic source integrates to -i omega times the magnetic flux through the coil, and the magnetic field integrates to the current through it; in the time domain the voltage is minus the time derivative of the flux. For a wire of straight pieces from a first to a last node the magnetic field around a coil is the current that the difference of two point currents at its ends sends through the coil, zero for a closed wire. No flux and no current is lost in a box, also when the box contains the source.", "quantifier": "all coils (position, sides, orientation), all times and frequencies, all media, all wires", "why_tests_cant": "integral laws for a continuum of coils", "anchors": ["geoana/em/fdem/wholespace.py: ElectricDipoleWholeSpace", "geoana/em/fdem/wholespace.py: MagneticDipoleWholeSpace", "geoana/em/fdem/wholespace.py: HarmonicPlaneWave", "geoana/em/tdem/wholespace.py: TransientElectricDipoleWholeSpace", "geoana/em/tdem/wholespace.py: TransientPlaneWave", "geoana/em/static/wholespace.py: MagneticDipoleWholeSpace", "geoana/em/static/wholespace.py: LineCurrentWholeSpace"]}
{"id": "C136", "title": "The voltage does not depend on the path", "statement": "Along every path made of straight pieces the field of a point mass, a ball, a prism or a magnetic pole does the work that the difference of the potentials at the ends says; for balls and prisms also through the body. Between two potential electrodes in or on a half-space the voltage returned for a pair of current electrodes is the integral of the electric field along every path through the ground that avoids the current electrodes. Around closed paths the work is zero.", "quantifier": "all paths of any number of straight pieces, all sources and positions", "why_tests_cant": "every path between two points; integrals", "anchors": ["geoana/gravity.py: PointMass", "geoana/gravity.py: Sphere", "geoana/gravity.py: Prism", "geoana/em/static/freespace.py: MagneticPrism.scalar_potential", "geoana/em/static/wholespace.py: MagneticPoleWholeSpace", "geoana/em/static/wholespace.py: LineCurrentWholeSpace.scalar_potential", "geoana/em/static/halfspace.py: PointCurrentHalfSpace.potential", "geoana/em/static/halfspace.py: DipoleHalfSpace.potential"]}
{"id": "C137", "title": "Amp\u00e8re's law around a wire", "statement": "Once around a rectangle in any position and direction, the magnetic field of a wire adds up to the current of the wire times the number of times the wire runs through the rectangle (minus one for every time it runs through in the other direction) plus the current that flows through the rectangle in the ground. For a closed wire the ground carries nothing, so the result is the current times the number of times the wire is linked with the rectangle.", "quantifier": "all wires with any number of straight pieces, grounded or closed, all currents, all rectangles whose edges stay off the lines through the pieces and whose inside the wire meets only by running through", "why_tests_cant": "integrals over every rectangle; wires of any shape", "anchors": ["geoana/em/static/wholespace.py: LineCurrentWholeSpace.magnetic_field", "geoana/em/static/wholespace.py: LineCurrentWholeSpace.current_density"]}
{"id": "C138", "title": "Results far from a source stay numbers", "statement": "In double precision, whose numbers end near 1.8e308 and 5e-324, the magnetic field of a dipole on a half-space is a number at every offset and frequency, and so is the reference formula for the rate of change of the radial field. (False of the code: both multiply a Bessel function that overflows, without scaling, by a factor that is correspondingly small. Beyond about 1500 skin depths the half-space field contains nan although the exact field there is an ordinary number that decays like a power of the distance; within 1386 skin depths it is finite.)", "quantifier": "all dipoles, offsets, frequencies and conductivities with offsets up to a million skin depths; all library Bessel functions that are finite where the exact value is well in range, infinite beyond it and zero far below it", "why_tests_cant": "needs bounds on Bessel functions of complex arguments over unbounded ranges", "anchors": ["geoana/em/fdem/halfspace.py: MagneticDipoleHalfSpace.magnetic_field", "geoana/em/tdem/reference.py: dhp_from_vert_4_74"]}
{"id": "C139", "title": "Harmonic dipole fields weaken with distance and with induction", "statement": "Along every ray from a harmonic electric or magnetic dipole the size of the electric field and of the magnetic field decreases strictly, whether displacement currents are included or not. In the quasistatic setting the magnetic field of an electric dipole is weaker everywhere at a higher frequency or in a more conductive or permeable medium, and so is the magnetic field on the axis of a magnetic dipole. In the plane across a magnetic dipole the magnetic field first grows with frequency, conductivity and permeability, up to a distance of 1.618 (the golden ratio) skin depths, and decreases beyond.", "quantifier": "all dipoles in a whole space, all directions, distances, frequencies, conductivities and permeabilities", "why_tests_cant": "strict inequalities between values at all pairs of distances, frequencies and media", "anchors": ["geoana/em/fdem/wholespace.py: ElectricDipoleWholeSpace.electric_field", "geoana/em/fdem/wholespace.py: ElectricDipoleWholeSpace.magnetic_field", "geoana/em/fdem/wholespace.py: MagneticDipoleWholeSpace.electric_field", "geoana/em/fdem/wholespace.py: MagneticDipoleWholeSpace.magnetic_field"]}
{"id": "C140", "title": "Maps show the data where they were measured, and are shaded as if lit", "statement": "plot2Ddata spans the rectangle around the stations with nx by ny evenly spaced nodes; row i and column j of what is drawn is the value interpolated at the ordinate of the row and the abscissa of the column. With the nearest method a node shows the datum and the mask of a closest station; linear data are shown without error by the linear method; colours stay within the range of the data. The shading of a node is the brightness of a surface with the normal of the map under a light at the given azimuth and altitude, whatever the number of nodes; it is between 0 and 255 and uniform on planes. Shading lies above the colours, contour lines above the shading, stream lines above the contour lines.", "quantifier": "every set of stations, data, numbers of nodes, azimuths, altitudes and options", "why_tests_cant": "all arrangements of stations and all data; a transposed or mirrored picture looks plausible", "anchors": ["geoana/plotting_utils.py: plot2Ddata", "geoana/plotting_utils.py: hillshade"]}
{"id": "C141", "title": "Electrode arrays read the resistivity of a uniform ground", "statement": "For any two current electrodes and any two potential electrodes in or on the ground the voltage returned by DipoleHalfSpace, divided by the current and multiplied by the geometric factor of the array, is the resistivity of the ground, unless the voltage is zero. For the Wenner, Schlumberger, dipole-dipole, pole-pole and pole-dipole arrays along any line the factors are the textbook ones. Deep in the ground the voltage tends to that of the same electrodes in a whole space.", "quantifier": "all positions, spacings, directions, currents and resistivities", "why_tests_cant": "the geometry ranges over all arrays; a test checks a few", "anchors": ["geoana/em/static/halfspace.py: DipoleHalfSpace.potential", "geoana/em/static/halfspace.py: PointCurrentHalfSpace.potential", "geoana/em/static/wholespace.py: PointCurrentWholeSpace.potential"]}
{"id": "C142", "title": "Close to a wire the magnetic field is that of a long straight wire", "statement": "Next to any interior point of any piece of a LineCurrentWholeSpace, and whatever the other pieces are, magnetic_field times the distance from the wire tends to current/2\u03c0 as the distance goes to zero, in the direction given by the right-hand rule.", "quantifier": "all wires, all interior points of all pieces, all directions perpendicular to the wire", "why_tests_cant": "it is a limit; near the wire the sum of the pieces is dominated by cancellation, where tests have no reference values", "anchors": ["geoana/em/static/wholespace.py: LineCurrentWholeSpace.magnetic_field", "geoana/em/static/wholespace.py: LineCurrentWholeSpace.magnetic_flux_density"]}
{"id": "C143", "title": "Along the axis of a loop the field adds up to the current; Helmholtz pairs", "statement": "Along its whole axis the magnetic_field of a CircularLoopWholeSpace is defined and its integral is the current. For two equal loops on a common axis with equal currents, all odd derivatives of the field vanish half-way between them, the second derivative vanishes exactly when the loops are one radius apart, and the field there is then 8 I/(5 sqrt(5) a).", "quantifier": "all radii, currents, orientations, locations and distances of the loops", "why_tests_cant": "an integral over an infinite line and derivatives; a test can only sample the axis", "anchors": ["geoana/em/static/wholespace.py: CircularLoopWholeSpace.magnetic_field", "geoana/em/static/wholespace.py: CircularLoopWholeSpace.magnetic_flux_density"]}
{"id": "C144", "title": "Depth rules", "statement": "On a straight survey line at height h above a PointMass or a buried Sphere the vertical attraction is largest above the body, decreases on both sides, and is half of its largest value at 0.766 to 0.767 times h. The vertical gradient of a PointMass and the vertical component of a vertical MagneticDipoleWholeSpace are zero exactly at the distance sqrt(2) h. On the ground above an electrode buried at depth h (PointCurrentHalfSpace) the potential is largest above it, decreases on both sides and is half of its largest value exactly at sqrt(3) h.", "quantifier": "all strengths, depths, positions and directions of the line", "why_tests_cant": "a test checks a few depths; the rules are about the whole profile", "anchors": ["geoana/gravity.py: PointMass.gravitational_field", "geoana/gravity.py: PointMass.gravitational_gradient", "geoana/gravity.py: Sphere.gravitational_field", "geoana/em/static/wholespace.py: MagneticDipoleWholeSpace.magnetic_flux_density", "geoana/em/static/halfspace.py: PointCurrentHalfSpace.potential"]}
{"id": "C145", "title": "Accuracy with the limited range of double precision", "statement": "If the coordinates of the point relative to the source and the strengths (mass, density, radius, moment, permeability, current, resistivity) are zero or between 1e-30 and 1e30 in size, no intermediate result of the distance, of the potential and field of a PointMass, of the field of a gravity Sphere, of the field of a MagneticPoleWholeSpace, of the potential and electric field of a PointCurrentWholeSpace and of the potential of a PointCurrentHalfSpace overflows or becomes too small to be a normal double precision number, so that the results have relative errors of a few units in the last place. Some limit is necessary: at a distance of 2**-600 the squares underflow and the computed distance may be zero.", "quantifier": "all points, sources and strengths in the stated range, all arithmetics that round normal results to one unit in the last place, whatever they return for other results", "why_tests_cant": "a test tries a few magnitudes; overflow and underflow appear only for extreme ones", "anchors": ["geoana/em/base.py: BaseDipole.distance", "geoana/gravity.py: PointMass.gravitational_potential", "geoana/gravity.py: PointMass.gravitational_field", "geoana/gravity.py: Sphere.gravitational_field", "geoana/em/static/wholespace.py: MagneticPoleWholeSpace.magnetic_flux_density", "geoana/em/static/wholespace.py: PointCurrentWholeSpace.potential", "geoana/em/static/wholespace.py: PointCurrentWholeSpace.electric_field", "geoana/em/static/halfspace.py: PointCurrentHalfSpace.potential"]}
{"id": "C146", "title": "An object changes only when one of its attributes is assigned", "statement": "An array attribute of an object (the location of a PointMass or gravity Sphere, the corners of a prism, the magnetization of a MagneticPrism, the frequencies and times of sources, the location of a PointCurrentHalfSpace, the location and primary field of an electrostatic or magnetostatic sphere, the frequencies and thicknesses of a layered half-space) holds the value last assigned to it, the constructor's argument to begin with, whatever the caller does afterwards with its own arrays and with other objects; in particular the value has always passed the check of the setter, and the source and image of a PointCurrentHalfSpace are where its location says.", "quantifier": "all histories of creating and overwriting arrays, building objects, assigning attributes and reading attributes, of any length, with any number of arrays and objects", "why_tests_cant": "which arrays share memory depends on the type of the argument and on the whole history; a test sees a few histories", "anchors": ["geoana/gravity.py: PointMass.location", "geoana/shapes.py: BasePrism.min_location", "geoana/shapes.py: BasePrism.max_location", "geoana/em/static/freespace.py: MagneticPrism.magnetization", "geoana/em/fdem/base.py: BaseFDEM.frequency", "geoana/em/tdem/base.py: BaseTDEM.time", "geoana/em/static/halfspace.py: PointCurrentHalfSpace.location", "geoana/em/static/sphere.py: ElectrostaticSphere.location", "geoana/em/static/sphere.py: ElectrostaticSphere.primary_field", "geoana/em/static/sphere.py: MagnetostaticSphere.location", "geoana/em/fdem/layered.py: MagneticDipoleLayeredHalfSpace.frequency", "geoana/em/fdem/layered.py: MagneticDipoleLayeredHalfSpace.thickness"]}
{"id": "C147", "title": "What a survey on a plane can tell", "statement": "If the potential, or the vertical gravity, of two PointMass objects agrees at all points of a horizontal plane above both, they have the same mass and location, depth included. The vertical field on such a plane determines a MagneticPoleWholeSpace and a MagneticDipoleWholeSpace in the same way, up to the product of strength and permeability. The potential on the surface determines the location and depth of a PointCurrentHalfSpace and the product of current and resistivity, and nothing else: sources with the same product have the same potential and electric field, and the current density does not depend on the resistivity. Vertical gravity determines the centre and mass of a gravity Sphere and nothing else: spheres with the same centre and mass agree everywhere outside. Electrostatic and magnetostatic spheres with the same product of contrast factor and cubed radius have the same potential outside.", "quantifier": "all pairs of sources below the plane, all strengths and orientations", "why_tests_cant": "no finite set of sources can show that no other source fits the data", "anchors": ["geoana/gravity.py: PointMass.gravitational_potential", "geoana/gravity.py: PointMass.gravitational_field", "geoana/gravity.py: Sphere.gravitational_potential", "geoana/gravity.py: Sphere.gravitational_field", "geoana/gravity.py: Sphere.gravitational_gradient", "geoana/em/static/wholespace.py: MagneticDipoleWholeSpace.magnetic_flux_density", "geoana/em/static/wholespace.py: MagneticPoleWholeSpace.magnetic_flux_density", "geoana/em/static/halfspace.py: PointCurrentHalfSpace.potential", "geoana/em/static/halfspace.py: PointCurrentHalfSpace.electric_field", "geoana/em/static/halfspace.py: PointCurrentHalfSpace.current_density", "geoana/em/static/sphere.py: ElectrostaticSphere.potential", "geoana/em/static/sphere.py: MagnetostaticSphere.potential"]}
{"id": "C148", "title": "Wide prisms are plates (Bouguer)", "statement": "At every point, inside or outside, the attraction of a gravity Prism across two opposite faces is at most 2 pi G times its density times their distance, the attraction of the infinite plate between these faces. If the prism reaches at least L to all sides of the station, its vertical attraction differs from that of the plate, 2 pi G rho times the thickness above less the thickness below the station, by at most the fraction H/L of the attraction of the plate, H being the vertical distance to the farther face; as it grows the attraction tends to the Bouguer formula. Errors in the station's position change the potential at most by these attractions times the displacement. The vertical gradient of a wide prism tends to -4 pi G rho inside, half of this on the faces and nothing above and below. The field of a wide MagneticPrism magnetised across its faces tends to minus the magnetisation inside and to nothing outside, and its flux density across the faces to nothing on both sides; the scalar potential of a MagneticPrism is at most half of magnetisation times size, summed over the axes.", "quantifier": "all prisms, densities and magnetisations, all stations inside, outside and on the faces", "why_tests_cant": "bounds over all stations and sizes, and limits of ever wider prisms, cannot be sampled", "anchors": ["geoana/gravity.py: Prism.gravitational_potential", "geoana/gravity.py: Prism.gravitational_field", "geoana/gravity.py: Prism.gravitational_gradient", "geoana/em/static/freespace.py: MagneticPrism.scalar_potential", "geoana/em/static/freespace.py: MagneticPrism.magnetic_field", "geoana/em/static/freespace.py: MagneticPrism.magnetic_flux_density", "geoana/shapes.py: BasePrism._eval_def_int"]}
{"id": "C149", "title": "What errors in the positions do", "statement": "If the station of a point mass, or the mass, is shifted, the potential changes at most by G|m| times the shift over the product of the two distances, and the attraction at most by G|m| times the shift times 1/(r^2 r') + 1/(r r'^2). For a homogeneous sphere the potential changes at most by the attraction at the surface times the shift and the attraction at most by 2GM/R^3 times the shift, wherever the two stations are, inside or outside; no factor below 2 will do. For an electrode in a halfspace the same bounds hold, with rho I / (2 pi), for potential and electric field at all stations in the ground, and for a magnetic pole for its flux density. Each component of the flux density of a magnetic dipole changes at most by 24 times the shift over r^4 times moment mu/(4 pi) times the sum of the sizes of the components of its orientation, if both places are at least r away.", "quantifier": "all masses, radii, resistivities, currents, moments and orientations, all pairs of stations off the source, near or far", "why_tests_cant": "the bounds hold between every two places; finite differences at samples do not bound the change in between", "anchors": ["geoana/gravity.py: PointMass.gravitational_potential", "geoana/gravity.py: PointMass.gravitational_field", "geoana/gravity.py: Sphere.gravitational_potential", "geoana/gravity.py: Sphere.gravitational_field", "geoana/em/static/halfspace.py: PointCurrentHalfSpace.potential", "geoana/em/static/halfspace.py: PointCurrentHalfSpace.electric_field", "geoana/em/static/wholespace.py: MagneticDipoleWholeSpace.magnetic_flux_density", "geoana/em/static/wholespace.py: MagneticPoleWholeSpace.magnetic_flux_density"]}
{"id": "C150", "title": "Stations as lists, tuples and arrays of any kind of number", "statement": "Real numbers given as stations are read as they are, whether in nested lists, in arrays of booleans, integers, floats or objects, or as a tuple of coordinate arrays of these, also of different kinds. None becomes NaN, text is parsed and refused if it is no number; lists that do not fit together, a bare number and a last axis of the wrong length are refused. Complex coordinates are refused. (False: in an array of complex numbers and in a tuple they are accepted, and the imaginary parts have no effect; they are refused in lists and arrays of objects, and in tuples if anything in these is text or None.) A tuple of stations is refused unless there are three, which are transposed: a tuple always is one of coordinates.", "quantifier": "all shapes, all mixtures of booleans, integers, floats (with infinities and NaN), complex numbers, text and None, all float grammars", "why_tests_cant": "any mixture of kinds, shapes and containers", "anchors": ["geoana/utils.py: check_xyz_dim"]}
{"id": "C151", "title": "Action equals reaction, mean values and no equilibrium in free space", "statement": "Between any two of prism, sphere and point mass, apart or overlapping, the force on the one is opposite to the force on the other in every direction, and the potential energy is the same whichever is taken as the source; no prism or sphere exerts a force on itself. The mean of the potential and of every component of the field of a point mass or prism over a ball in free space is the value at the centre. So the potential of a point mass, of a prism outside it, and of an electrode in the ground has no strict maximum or minimum: in every ball around a point there are other points where it is no smaller, and others where it is no larger.", "quantifier": "all sizes, densities (of any sign), positions and directions, balls of every radius that do not reach into the body", "why_tests_cant": "integrals over whole bodies and balls; all pairs of bodies", "anchors": ["geoana/gravity.py: PointMass, Sphere, Prism", "geoana/em/static/halfspace.py: PointCurrentHalfSpace.potential"]}
{"id": "C152", "title": "What holds for the computed numbers to the last bit", "statement": "With operations that are rounded as IEEE 754 demands the following hold exactly and not only up to rounding errors. Results depend on stations and sources only through the exact differences of their coordinates. Stations mirrored about a point mass, sphere, magnetic pole, dipole or electrode give the same potential and mirrored field and tensor. Electrode and station can be exchanged, exchanged electrodes of a wire and reversed masses, moments and currents reverse the result. The potential of a mass is nowhere negative and does not increase on the way from the mass, and no component of its field points away from it. Gradient tensors are symmetric. (False for a point mass, and so for a sphere outside: with double precision the entries xy and yx for the differences 3, 4, 0 differ in the last bit. True of prisms, and inside spheres.)", "quantifier": "all roundings that treat both signs alike and keep the order of numbers, all orders of summation, all stations and sources", "why_tests_cant": "rounding errors at all pairs of inputs, to the last bit", "anchors": ["geoana/gravity.py: PointMass, Sphere, Prism", "geoana/em/static/wholespace.py: MagneticDipoleWholeSpace, MagneticPoleWholeSpace, PointCurrentWholeSpace, LineCurrentWholeSpace.scalar_potential", "geoana/em/static/halfspace.py: PointCurrentHalfSpace.potential"]}
{"id": "C153", "title": "Demagnetising field of a prism", "statement": "At every point strictly inside a magnetised prism the field H is -N M, where N is a symmetric tensor that does not depend on the magnetisation, has trace one and diagonal entries strictly between zero and one, and B is mu0 (M - N M). At the centre N is diagonal with the closed form (2/pi) arctan(b c/(a sqrt(a^2+b^2+c^2))); the shorter the side the larger the factor; in a cube H is -M/3. Likewise the diagonal entries of the gravity gradient inside a body of positive density lie strictly between -4 pi G rho and zero.", "quantifier": "every box with positive sides, every point strictly inside, every magnetisation and positive density", "why_tests_cant": "Tests evaluate some points; that no point inside has a factor outside (0,1), whatever the aspect ratio, is a statement about sums of eight arctangents at every point", "anchors": ["geoana/em/static/freespace.py: MagneticPrism.magnetic_field", "geoana/em/static/freespace.py: MagneticPrism.magnetic_flux_density", "geoana/gravity.py: Prism.gravitational_gradient"]}
{"id": "C154", "title": "The shape of dipole fields, tides, and where a ball attracts most", "statement": "At magnetic latitude l and distance r the flux density of a magnetic dipole has the vertical part 2K sin l and the horizontal part K cos l with K = moment mu/(4 pi r^3), so its strength is K sqrt(1+3 sin^2 l), between K and 2K, and the dip obeys tan I = 2 tan l; its field lines are r = L cos^2 l. The gradient of a point mass stretches along the direction to the mass by 2GM/r^3 and compresses by GM/r^3 in every perpendicular direction. The field of a ball is strongest exactly at its surface, where it is GM/R^2, and its potential highest exactly at its centre, where it is three halves of that at the surface.", "quantifier": "every dipole, mass and ball of positive radius and density; every station off the source", "why_tests_cant": "Tests compare single stations with the same formula; maxima over all of space and curves tangent to the field everywhere are statements about all stations", "anchors": ["geoana/em/static/wholespace.py: MagneticDipoleWholeSpace.magnetic_flux_density", "geoana/gravity.py: PointMass.gravitational_gradient", "geoana/gravity.py: Sphere.gravitational_field", "geoana/gravity.py: Sphere.gravitational_potential"]}
{"id": "C155", "title": "Bodies made of prisms", "statement": "Prisms that do not overlap and that fill nearly the same space as a ball, or as other prisms, of the same density have together nearly the same potential and field, at every station, inside, outside or on the surface: if v is the volume that belongs to only one of the two bodies, the potentials differ by at most G rho (2 pi a^2 + v/a) and each component of the field by G rho (4 pi a + v/a^2), whatever the length a. In particular the cubes of a grid of spacing h within a ball have the potential and field of the ball up to errors that go to zero with h, uniformly over all stations.", "quantifier": "every finite set of prisms without overlap, every ball, density and station; every grid spacing", "why_tests_cant": "A test compares one mesh at some stations; a bound at all stations at once, including those in the body, for all meshes, needs the volume integrals", "anchors": ["geoana/gravity.py: Prism.gravitational_potential", "geoana/gravity.py: Prism.gravitational_field", "geoana/gravity.py: Sphere.gravitational_potential", "geoana/gravity.py: Sphere.gravitational_field"]}
{"id": "C156", "title": "Rotations between directions are the shortest ones and can be undone", "statement": "For any two non-zero vectors whose directions are equal, opposite or at least the tolerance (between 0 and 1) apart, rotation_matrix_from_normals(v0, v1) returns, of all rotations that take the direction of v0 to that of v1, the one with the smallest angle (the angle between the two directions); unless they are parallel it is the only one that leaves what is perpendicular to both vectors alone. The matrix for (v1, v0) is its transpose and undoes it, also for opposite vectors; rotate_points_from_normals followed by the call with the normals exchanged returns every point. The matrix depends on the directions only (not on lengths, nor on reversing both vectors), and turning both vectors turns the rotation.", "quantifier": "every pair of non-zero vectors outside the tolerance band, every tolerance between 0 and 1, every competing rotation, every set of points and centre", "why_tests_cant": "There are infinitely many rotations taking one vector to another; a test compares images of a few vectors and cannot compare with all other rotations.", "anchors": ["geoana/spatial.py:rotation_matrix_from_normals", "geoana/spatial.py:rotate_points_from_normals"]}
{"id": "C157", "title": "Torques balance", "statement": "For two prisms, two balls, or a prism and a ball, apart, touching or overlapping, the torque of each on the other (the integral over one body of density times position relative to any point, crossed with gravitational_field of the other) is opposite to the torque of the other on it, about every point and every axis; no prism turns itself, nothing turns a ball about its centre, and a point mass and a prism balance likewise. For two magnetic dipoles at different places in one medium, the force on each (the gradient of its moment times the other's magnetic_flux_density) is opposite to the force on the other, and the turning moments on the dipoles together with the moments of the forces sum to zero; two dipoles of positive moment pointing the same way attract exactly inside the cone cos\u00b2 > 1/3 about that direction and repel exactly outside.", "quantifier": "every pair of proper prisms, balls and point masses in any position, every reference point and axis; every pair of magnetic dipoles at different locations, every moment and orientation", "why_tests_cant": "A balance of torques is a statement about integrals of the computed field over whole bodies; a test compares values at finitely many points.", "anchors": ["geoana/gravity.py:Prism.gravitational_field", "geoana/gravity.py:Sphere.gravitational_field", "geoana/gravity.py:PointMass.gravitational_field", "geoana/em/static/wholespace.py:MagneticDipoleWholeSpace.magnetic_flux_density"]}
{"id": "C158", "title": "Forces between closed wires and loops balance", "statement": "For two closed LineCurrentWholeSpace wires, two CircularLoopWholeSpace loops, or a loop and a closed wire, in one medium and not meeting, the force on one in the magnetic_flux_density of the other (current times the integral of dl \u00d7 B) is opposite to the force on the other, and so are the torques about every point and every axis. (For single pieces of wire this is false; the theorem is about the sum over the closed wire.)", "quantifier": "every pair of closed polygonal wires with any number of nodes and loops of any position, size and orientation whose points are off the other's lines (off the near-axis region for loops), every direction, every reference point and axis", "why_tests_cant": "The balance holds only for integrals around the whole of both wires; at no pair of points are the forces opposite.", "anchors": ["geoana/em/static/wholespace.py:LineCurrentWholeSpace.magnetic_flux_density", "geoana/em/static/wholespace.py:CircularLoopWholeSpace.magnetic_flux_density"]}
{"id": "C159", "title": "Larger bodies attract more, and a ball at its centre most", "statement": "If a prism lies within another that is at least as dense, or contains a ball, or lies within a ball, the gravitational potential of the smaller body is nowhere larger than that of the larger one, at every station, inside and outside; and at a station that has the larger body on one side (for example above it) neither is the pull to that side. Of all prisms and balls of one mass and positive density the ball has, at its centre, the highest potential: the potential of a prism is nowhere higher than that.", "quantifier": "every pair of nested prisms and balls of non-negative densities in order, every station and direction; every proper prism of positive density and the ball with the same mass and density", "why_tests_cant": "Comparisons at every station between bodies of every shape; a test compares two numbers.", "anchors": ["geoana/gravity.py:Prism.gravitational_potential", "geoana/gravity.py:Prism.gravitational_field", "geoana/gravity.py:Sphere.gravitational_potential", "geoana/gravity.py:Sphere.gravitational_field", "geoana/gravity.py:Prism.mass"]}
{"id": "C160", "title": "Layered and hollow balls (the shell theorem)", "statement": "Put together a layered ball from any number of concentric Spheres, each with the density by which it differs from what is around it. At every station, inside or outside, the sum of their gravitational fields is that of a PointMass at the centre with the mass within the station's distance from the centre; layers further out have no effect. Two layered balls of the same mass cannot be told apart from outside, neither by their fields nor by their potentials. In a concentric cavity there is no field and the potential is the same everywhere; in a cavity off the centre the field has the same strength and direction at every point, and no gradient.", "quantifier": "every list of concentric spheres with positive radii and any densities, every station but the centre; every cavity within a ball, every density, every station in the cavity or outside", "why_tests_cant": "The cancellation has to hold exactly at every station and for any number of layers; a test samples a few.", "anchors": ["geoana/gravity.py:Sphere.gravitational_field", "geoana/gravity.py:Sphere.gravitational_potential", "geoana/gravity.py:Sphere.gravitational_gradient", "geoana/gravity.py:PointMass.gravitational_field"]}
{"id": "C161", "title": "Near the axis of a circular loop the series are accurate", "statement": "Close to its axis, where the square of the distance from the axis is below a millionth of the squared distance from the wire, CircularLoopWholeSpace computes its fields from truncated series. There the flux density differs from the Biot-Savart integral over the wire by less than 2e-13 of the field on the axis at the same height, and by less than 2e-10 of its component across the axis; the component along the axis is exact. The vector potential differs from the integral over the wire by no more than a hundred-thousandth of its value.", "quantifier": "every loop (any radius, current, permeability, location, and orientation not in the band around the vertical that is treated as vertical), every station in the region where the series are used", "why_tests_cant": "The error of a truncated series has to be bounded at every station of an unbounded region; a test compares a few stations, and misses the height where a wrong coefficient is singular.", "anchors": ["geoana/em/static/wholespace.py:CircularLoopWholeSpace.magnetic_flux_density", "geoana/em/static/wholespace.py:CircularLoopWholeSpace.vector_potential"]}
{"id": "C162", "title": "Converting coordinates loses no more than a few units in the last place", "statement": "If every operation has a relative error of at most u, the conversions between Cartesian, cylindrical and spherical coordinates are accurate at every point, also on and near the axes. Points from cylindrical coordinates have two roundings in each coordinate; distances from the axis and from the origin have 2 and 2.5, the azimuth one, and sine and cosine of the angle with the vertical seven, relative to one. Going to cylindrical coordinates and back changes x and y by at most 8 roundings of the distance from the axis and z not at all; to spherical coordinates and back changes each coordinate by at most 17 roundings of the distance from the origin. Components of vectors in cylindrical coordinates are accurate to 8 roundings of the horizontal part of the vector, Cartesian components from them to 3.", "quantifier": "every point, every vector, every arithmetic whose operations and trigonometric functions have relative errors of at most u (nothing else is assumed of them), every u up to one seventeenth", "why_tests_cant": "Rounding errors depend on every bit of the input; angles close to an axis are where cancellation usually hides, and a test with a tolerance at a few points does not give a bound.", "anchors": ["geoana/spatial.py:cartesian_to_cylindrical", "geoana/spatial.py:cylindrical_to_cartesian", "geoana/spatial.py:cartesian_to_spherical", "geoana/spatial.py:spherical_to_cartesian"]}
{"id": "C163", "title": "Scales and totals are accurate to a few units in the last place", "statement": "If every operation has a relative error of at most u, the angular frequency is accurate to 3 roundings, the skin depth to 4, the time at which a plane wave peaks to 4, the diffusion distance and its reciprocal to 2.5, the volume of a prism to 5, each coordinate of its centre to 2, and its mass and moment to 6. (False of the code for the skin depth without the quasistatic approximation, which contains the difference sqrt(1 + x) - 1: where the conductivity is small against frequency times permittivity it can come out as zero.)", "quantifier": "every frequency, time, conductivity and permeability above zero, every depth, every box, density and magnetisation, every arithmetic whose operations have relative errors of at most u", "why_tests_cant": "Rounding errors depend on every bit of the input; tests with a tolerance at a few values do not find the region where all digits cancel.", "anchors": ["geoana/em/fdem/base.py:omega", "geoana/em/fdem/base.py:skin_depth", "geoana/em/tdem/base.py:peak_time", "geoana/em/tdem/base.py:diffusion_distance", "geoana/em/tdem/base.py:theta", "geoana/shapes.py:BasePrism.volume", "geoana/shapes.py:BasePrism.location", "geoana/gravity.py:Prism.mass", "geoana/em/static/freespace.py:MagneticPrism.moment"]}
{"id": "C164", "title": "The energy that binds a ball is the same from its potential and from its field", "statement": "Half the mass of a ball times its own potential, integrated over the ball, is 3GM\u00b2/5R; so is the square of its field, integrated over all of space and divided by 8\u03c0G, and that integral exists. The energy is positive whenever the density is not zero. For two balls that do not overlap, the mass of one times the potential of the other, integrated, is G times the product of the masses over the distance of the centres, whichever of the two the potential is taken from.", "quantifier": "every ball with a radius above zero, every density and position, every pair of balls apart from each other", "why_tests_cant": "The values inside and outside have to fit together over all of space; an integral over all points cannot be tested by sampling.", "anchors": ["geoana/gravity.py:Sphere.gravitational_potential", "geoana/gravity.py:Sphere.gravitational_field", "geoana/gravity.py:Sphere.mass"]}
{"id": "C165", "title": "The mean field in a ball around a body tells where its mass is", "statement": "The mean of the gravitational field over a ball that contains a body is G times its mass times the vector from the centre of the ball to the centre of the body, divided by the cube of the radius of the ball. This holds for a point mass, a ball and a prism, so bodies of equal mass in the ball with equal mean fields have equal centres. The scalar potential of a magnetised prism, integrated over a ball around it, is a third of the moment of the prism along the vector from the centre of the ball to that of the prism. What a conducting sphere in a uniform field adds to the potential, integrated over a ball around the sphere, is a third of the volume of the sphere times its polarisation along the vector from the sphere to the centre of the ball.", "quantifier": "every point mass, ball, prism, magnetised prism and conducting sphere, every ball around it, wherever the centre of that ball is", "why_tests_cant": "The mean takes in points inside, on the surface of and outside the body; it is an integral and cannot be had from samples.", "anchors": ["geoana/gravity.py:PointMass.gravitational_field", "geoana/gravity.py:Sphere.gravitational_field", "geoana/gravity.py:Prism.gravitational_field", "geoana/gravity.py:Prism.mass", "geoana/shapes.py:BasePrism.location", "geoana/em/static/freespace.py:MagneticPrism.scalar_potential", "geoana/em/static/sphere.py:ElectrostaticSphere.potential"]}
