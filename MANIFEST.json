{
 "claims": [
  {
   "property": "C01",
   "status": "proved",
   "theorems": [
    "Verif.Utils.mkvc_spec",
    "Verif.Utils.mkvc_bijection",
    "Verif.Utils.mkvc_other"
   ],
   "note": ""
  },
  {
   "property": "C02",
   "status": "proved",
   "theorems": [
    "Verif.Utils.ndgrid_two",
    "Verif.Utils.ndgrid_three",
    "Verif.Utils.ndgrid_two_arrays",
    "Verif.Utils.ndgrid_three_arrays",
    "Verif.Utils.ndgrid_other",
    "Verif.Utils.ndgrid_keywords"
   ],
   "note": ""
  },
  {
   "property": "C03",
   "status": "proved",
   "theorems": [
    "Verif.Utils.checkXyzDim_array",
    "Verif.Utils.checkXyzDim_tuple",
    "Verif.Utils.checkXyzDim_tuple_rejects",
    "Verif.Utils.checkXyzDim_idem"
   ],
   "note": ""
  },
  {
   "property": "C04",
   "status": "proved",
   "theorems": [
    "Verif.Utils.appendNdim_spec",
    "Verif.Utils.appendNdim_add",
    "Verif.Utils.appendNdim_broadcast",
    "Verif.Utils.appendNdim_broadcast_scalar"
   ],
   "note": ""
  },
  {
   "property": "C05",
   "status": "proved",
   "theorems": [
    "Verif.Utils.requires_present",
    "Verif.Utils.requires_missing"
   ],
   "note": ""
  },
  {
   "property": "C06",
   "status": "proved",
   "theorems": [
    "Verif.Spatial.cylToCart_cartToCyl",
    "Verif.Spatial.cylToCart2_cartToCyl2",
    "Verif.Spatial.cartToCyl_cylToCart",
    "Verif.Spatial.cartToCyl2_cylToCart2",
    "Verif.Spatial.cartToCyl_range"
   ],
   "note": ""
  },
  {
   "property": "C07",
   "status": "proved",
   "theorems": [
    "Verif.Spatial.cylToCartVec_frame",
    "Verif.Spatial.cartToCylVec_frame",
    "Verif.Spatial.cylToCartVec_cartToCylVec",
    "Verif.Spatial.cylToCartVec2_cartToCylVec2",
    "Verif.Spatial.cartToCylVec_cylToCartVec",
    "Verif.Spatial.cartToCylVec2_cylToCartVec2",
    "Verif.Spatial.cylVec_dot",
    "Verif.Spatial.cartToCylVec_radial"
   ],
   "note": ""
  },
  {
   "property": "C08",
   "status": "proved",
   "theorems": [
    "Verif.Spatial.sphToCart_cartToSph",
    "Verif.Spatial.cartToSph_sphToCart",
    "Verif.Spatial.cartToSph_range"
   ],
   "note": ""
  },
  {
   "property": "C09",
   "status": "partial",
   "theorems": [
    "Verif.Spatial.sphToCartVec_azimuth_lost",
    "Verif.Spatial.sphToCartVec_not_isometry",
    "Verif.Spatial.cartToSphVec_spurious_polar",
    "Verif.Spatial.sphToCartVec_frame_partial",
    "Verif.Spatial.sphToCartVec_error_partial",
    "Verif.Spatial.cartToSphVec_frame_partial",
    "Verif.Spatial.cartToSphVec_polar_partial",
    "Verif.Spatial.sphVec_roundtrip_partial"
   ],
   "note": "The property is false of the code: spatial.py:306 uses cos(theta) for cos(phi), spatial.py:400 overwrites phi before it is read. Negations on witnesses, and the parts that hold."
  },
  {
   "property": "C10",
   "status": "proved",
   "theorems": [
    "Verif.Spatial.rotationMatrix_spec",
    "Verif.Spatial.rotationMatrix_parallel",
    "Verif.Spatial.rotationMatrix_shape",
    "Verif.Spatial.rotationMatrix_nonpos_tol_fails",
    "Verif.Spatial.rotationMatrix_large_tol_fails"
   ],
   "note": "tolerances 0 < tol < 1; outside that range some anti-parallel vectors are refused, which is proved as separate theorems"
  },
  {
   "property": "C11",
   "status": "proved",
   "theorems": [
    "Verif.Spatial.rotatePoints_rigid",
    "Verif.Spatial.rotatePoints_band",
    "Verif.Spatial.rotatePoints_width"
   ],
   "note": ""
  },
  {
   "property": "C12",
   "status": "proved",
   "theorems": [
    "Verif.Spatial.vectorDistance_spec",
    "Verif.Spatial.vectorDistance_rejects",
    "Verif.Spatial.distance_spec",
    "Verif.Spatial.distance_metric",
    "Verif.Spatial.vectorDot_spec",
    "Verif.Spatial.vectorDot_rejects",
    "Verif.Spatial.repeatScalar_spec"
   ],
   "note": ""
  },
  {
   "property": "C13",
   "status": "proved",
   "theorems": [
    "Verif.Gravity.pointMass_field_is_gradient",
    "Verif.Gravity.pointMass_field_magnitude",
    "Verif.Gravity.pointMass_field_attracts"
   ],
   "note": ""
  },
  {
   "property": "C14",
   "status": "proved",
   "theorems": [
    "Verif.Gravity.pointMass_gradient_is_jacobian",
    "Verif.Gravity.pointMass_gradient_symm",
    "Verif.Gravity.pointMass_gradient_traceless"
   ],
   "note": ""
  },
  {
   "property": "C15",
   "status": "proved",
   "theorems": [
    "Verif.Gravity.sphere_field_is_gradient",
    "Verif.Gravity.sphere_continuous_across_surface"
   ],
   "note": ""
  },
  {
   "property": "C16",
   "status": "proved",
   "theorems": [
    "Verif.Gravity.sphere_exterior_eq_pointMass",
    "Verif.Gravity.sphere_gradient_is_jacobian",
    "Verif.Gravity.sphere_poisson",
    "Verif.Gravity.sphere_gradient_nan_iff_surface"
   ],
   "note": ""
  },
  {
   "property": "C17",
   "status": "partial",
   "theorems": [
    "Verif.Setters.sphere_radius_never_negative",
    "Verif.Setters.sphere_rejected_unchanged",
    "Verif.Setters.sphere_mass_eq",
    "Verif.Setters.sphere_mass_reads_back",
    "Verif.Setters.sphere_assignment",
    "Verif.Setters.sphere_zero_radius",
    "Verif.Setters.sphere_infinite_radius",
    "Verif.Setters.sphere_mass_keyword_ignored"
   ],
   "note": "Everything holds but two points: a zero radius is accepted by the setter yet no sphere can be constructed with it, and an infinite radius breaks the mass read-back (negations proved)."
  },
  {
   "property": "C18",
   "status": "proved",
   "theorems": [
    "Verif.Prism.gravPrism_field_is_gradient",
    "Verif.Prism.gravPrism_gradient_is_jacobian",
    "Verif.Prism.gravPrism_gradient_symm",
    "Verif.Prism.gravPrism_field_is_gradient_everywhere",
    "Verif.Prism.gravPrism_continuous_everywhere",
    "Verif.Prism.gravPrism_gradient_is_jacobian_off_surface",
    "Verif.Prism.gravPrism_curl_off_surface"
   ],
   "note": ""
  },
  {
   "property": "C19",
   "status": "proved",
   "theorems": [
    "Verif.Prism.gravPrism_trace",
    "Verif.Prism.gravPrism_trace_inside",
    "Verif.Prism.gravPrism_trace_outside",
    "Verif.Prism.gravPrism_trace_top_face",
    "Verif.Prism.gravPrism_poisson",
    "Verif.Prism.gravPrism_poisson_off_surface"
   ],
   "note": ""
  },
  {
   "property": "C20",
   "status": "proved",
   "theorems": [
    "Verif.Prism.prismF_parity",
    "Verif.Prism.prismFz_parity",
    "Verif.Prism.prismFzz_parity",
    "Verif.Prism.prismFzx_parity",
    "Verif.Prism.prismFzy_parity",
    "Verif.Prism.prismFzzz_parity",
    "Verif.Prism.prismFxxy_parity",
    "Verif.Prism.prismFxxz_parity",
    "Verif.Prism.prismFxyz_parity"
   ],
   "note": ""
  },
  {
   "property": "C21",
   "status": "proved",
   "theorems": [
    "Verif.Prism.gravPrism_additive",
    "Verif.Prism.magPrism_additive"
   ],
   "note": ""
  },
  {
   "property": "C22",
   "status": "proved",
   "theorems": [
    "Verif.Prism.gravPrism_rot",
    "Verif.Prism.gravPrism_shift",
    "Verif.Prism.gravPrism_mirror",
    "Verif.Prism.gravPrism_moved",
    "Verif.Prism.gravPrism_mirrored",
    "Verif.Prism.magPrism_moved",
    "Verif.Prism.magPrism_mirrored"
   ],
   "note": "gradients off the surface of the prism, where they are defined"
  },
  {
   "property": "C23",
   "status": "partial",
   "theorems": [
    "Verif.Setters.prism_new_iff",
    "Verif.Setters.prism_new_ordered_partial",
    "Verif.Setters.prism_volume_pos",
    "Verif.Setters.prism_setter_breaks_order",
    "Verif.Setters.prism_nan_accepted",
    "Verif.Setters.prism_assignment",
    "Verif.Setters.prism_growing_history_partial"
   ],
   "note": "False of the code: the setters do not compare the corners and NaN passes the constructor's check (negations proved); holds at construction with finite corners and along histories that only grow the prism."
  },
  {
   "property": "C24",
   "status": "proved",
   "theorems": [
    "Verif.Prism.magPrism_field_is_gradient",
    "Verif.Prism.magPrism_flux_jump",
    "Verif.Prism.magPrism_div_B",
    "Verif.Prism.magPrism_potential_continuous",
    "Verif.Prism.magPrism_field_is_gradient_off_surface",
    "Verif.Prism.magPrism_div_B_off_surface",
    "Verif.Prism.magPrism_curl_off_surface"
   ],
   "note": ""
  },
  {
   "property": "C25",
   "status": "proved",
   "theorems": [
    "Verif.Prism.magPrism_gradient_is_jacobian",
    "Verif.Prism.magPrism_gradient_is_jacobian_off_surface",
    "Verif.Prism.magPrism_gradient_symm",
    "Verif.Prism.magPrism_gradient_traceless"
   ],
   "note": ""
  },
  {
   "property": "C26",
   "status": "proved",
   "theorems": [
    "Verif.Static.dipole_flux_is_curl",
    "Verif.Static.dipole_flux_div_free",
    "Verif.Static.dipole_field_curl_free",
    "Verif.Static.dipole_field_eq",
    "Verif.Static.dipole_linear",
    "Verif.Static.dipole_flux_on_axis"
   ],
   "note": ""
  },
  {
   "property": "C27",
   "status": "proved",
   "theorems": [
    "Verif.Static.pole_field_is_gradient",
    "Verif.Static.pole_field_harmonic"
   ],
   "note": ""
  },
  {
   "property": "C28",
   "status": "proved",
   "theorems": [
    "Verif.Static.withCoordinates_cylindrical",
    "Verif.Static.withCoordinates_frame",
    "Verif.Static.withCoordinates_cartesian",
    "Verif.Static.withCoordinates_other",
    "Verif.Static.Loop.in_cylindrical",
    "Verif.Static.Loop.in_cartesian",
    "Verif.Static.Loop.in_other"
   ],
   "note": "Unsupported words raise; the loop's flux and field raise TypeError where the others raise AssertionError."
  },
  {
   "property": "C29",
   "status": "proved",
   "theorems": [
    "Verif.Static.line_field_is_neg_grad",
    "Verif.Static.line_current_density",
    "Verif.Static.line_closed",
    "Verif.Static.line_point",
    "Verif.Static.line_open"
   ],
   "note": ""
  },
  {
   "property": "C30",
   "status": "proved",
   "theorems": [
    "Verif.Static.line_flux_biot_savart",
    "Verif.Static.line_flux_is_curl",
    "Verif.Static.line_field_eq",
    "Verif.Static.line_potential_integral"
   ],
   "note": "points off the lines through the segments (on a segment's line the code divides by zero); each segment is exactly along x or at least 1e-20 away from it (the tolerance of rotation_matrix_from_normals)"
  },
  {
   "property": "C31",
   "status": "proved",
   "theorems": [
    "Verif.Static.line_flux_concat",
    "Verif.Static.line_flux_neg_current",
    "Verif.Static.line_flux_reverse",
    "Verif.Static.line_flux_insert"
   ],
   "note": ""
  },
  {
   "property": "C32",
   "status": "proved",
   "theorems": [
    "Verif.Static.pointHalf_new_iff",
    "Verif.Static.pointHalf_potential",
    "Verif.Static.pointHalf_field",
    "Verif.Static.pointHalf_div_free",
    "Verif.Static.pointHalf_above",
    "Verif.Static.pointHalf_surface_source",
    "Verif.Static.pointCurrent_spec"
   ],
   "note": ""
  },
  {
   "property": "C33",
   "status": "partial",
   "theorems": [
    "Verif.HalfspaceState.point_rho_inf_desynchronises",
    "Verif.HalfspaceState.point_location_column_desynchronises",
    "Verif.HalfspaceState.point_history_fresh_partial",
    "Verif.HalfspaceState.point_assignment",
    "Verif.HalfspaceState.synced_matches_field_model",
    "Verif.HalfspaceState.point_unit_constructed",
    "Verif.HalfspaceState.dipole_history_fresh_partial",
    "Verif.HalfspaceState.dipole_rejected_unchanged",
    "Verif.HalfspaceState.dipole_rho_inf_desynchronises",
    "Verif.HalfspaceState.point_new_spec",
    "Verif.HalfspaceState.dipole_new_spec"
   ],
   "note": "False of the code for an infinite resistivity and for locations of shape (3, n): rejected, but the attribute is already overwritten (negations proved). Proved for every other history."
  },
  {
   "property": "C34",
   "status": "proved",
   "theorems": [
    "Verif.Static.dipoleHalf_potential",
    "Verif.Static.dipoleHalf_above",
    "Verif.Static.dipoleHalf_reciprocity",
    "Verif.Static.dipoleHalf_antisymm",
    "Verif.Static.dipoleHalf_difference",
    "Verif.Static.dipoleHalf_linear",
    "Verif.Static.dipoleHalf_field"
   ],
   "note": ""
  },
  {
   "property": "C35",
   "status": "partial",
   "theorems": [
    "Verif.Sphere.electro_field_inside_partial",
    "Verif.Sphere.electro_field_outside_iff",
    "Verif.Sphere.electro_field_wrong",
    "Verif.Sphere.electro_potential_continuous",
    "Verif.Sphere.electro_parts",
    "Verif.Sphere.electro_current_eq"
   ],
   "note": "False of the code outside the sphere (sphere.py:337-338 uses radius/r^4 for radius^3/r^5): negation and exact exception set proved; the other clauses hold."
  },
  {
   "property": "C36",
   "status": "partial",
   "theorems": [
    "Verif.Sphere.magneto_field_inside_partial",
    "Verif.Sphere.magneto_field_outside_iff",
    "Verif.Sphere.magneto_field_wrong",
    "Verif.Sphere.magneto_potential_continuous",
    "Verif.Sphere.magneto_parts",
    "Verif.Sphere.magneto_flux_spec"
   ],
   "note": "False of the code outside the sphere (sphere.py:837-838): negation and exact exception set proved; the other clauses hold."
  },
  {
   "property": "C37",
   "status": "partial",
   "theorems": [
    "Verif.Sphere.electro_normal_current_iff",
    "Verif.Sphere.electro_normal_current_wrong",
    "Verif.Sphere.magneto_normal_flux_iff"
   ],
   "note": "False of the code unless the radius is 1: exact characterisation and negation proved."
  },
  {
   "property": "C38",
   "status": "partial",
   "theorems": [
    "Verif.Static.Loop.axis_flux",
    "Verif.Static.Loop.axis_potential_partial",
    "Verif.Static.Loop.axis_potential_not_finite"
   ],
   "note": "False of the code at the two axis points at height +-a/2, where vector_potential is NaN (proved); everything else proved."
  },
  {
   "property": "C39",
   "status": "proved",
   "theorems": [
    "Verif.Static.Loop.flux_is_curl",
    "Verif.Static.Loop.potential_finite",
    "Verif.Static.Loop.flux_is_curl_any",
    "Verif.Static.Loop.near_axis_not_curl"
   ],
   "note": "near_axis_not_curl shows the restriction is needed: inside the near-axis region the two series disagree."
  },
  {
   "property": "C40",
   "status": "partial",
   "theorems": [
    "Verif.Setters.em_nan_breaks_bounds",
    "Verif.Setters.em_rho_zero_raises_zeroDivision",
    "Verif.Setters.em_sigma_inf_breaks_reciprocal",
    "Verif.Setters.em_rejected_unchanged",
    "Verif.Setters.em_assignment",
    "Verif.Setters.em_rejection_kind_partial",
    "Verif.Setters.em_bounds_history_partial",
    "Verif.Setters.em_bounds_history_noNaN",
    "Verif.Setters.em_rho_sigma_partial",
    "Verif.Setters.em_rho_defined",
    "Verif.Setters.em_rho_reads_back",
    "Verif.Setters.vec3_spec",
    "Verif.Setters.electricDipole_history_partial",
    "Verif.Setters.loop_history_partial",
    "Verif.Setters.electricDipole_rejected_unchanged",
    "Verif.Setters.loop_rejected_unchanged",
    "Verif.Setters.electricDipole_assignment",
    "Verif.Setters.loop_assignment"
   ],
   "note": "False of the code for NaN, for rho = 0 (ZeroDivisionError) and infinite sigma (negations proved); proved for all other values."
  },
  {
   "property": "C41",
   "status": "partial",
   "theorems": [
    "Verif.Setters.normalized_finite",
    "Verif.Setters.normalized_zero",
    "Verif.Setters.dipoleOrientation_spec",
    "Verif.Setters.dipoleOrientation_unit",
    "Verif.Setters.dipole_orientation_unit_history_partial",
    "Verif.Setters.dipole_orientation_zero",
    "Verif.Aliasing.orientation_setter_modifies_argument",
    "Verif.Aliasing.location_follows_callers_array",
    "Verif.Aliasing.default_location_shared",
    "Verif.Aliasing.not_sharingInvisible",
    "Verif.Aliasing.harmless_step",
    "Verif.Aliasing.sharing_invisible_partial",
    "Verif.Aliasing.orientation_unit_argument_unchanged",
    "Verif.Aliasing.attributes_read_shared_array"
   ],
   "note": "False of the code: the orientation setter divides the caller's float array in place and location keeps a reference to it; zero vectors become NaN (negations proved). Proved for finite nonzero vectors and for histories without shared arrays."
  },
  {
   "property": "C42",
   "status": "proved",
   "theorems": [
    "Verif.Fdem.wavenumber_sq",
    "Verif.Fdem.wavenumber_sq_quasistatic",
    "Verif.Fdem.wavenumber_sq_sigmaHat",
    "Verif.Fdem.wavenumber_quadrant",
    "Verif.Fdem.wavenumber_unique",
    "Verif.Fdem.wavenumber_decay"
   ],
   "note": ""
  },
  {
   "property": "C43",
   "status": "partial",
   "theorems": [
    "Verif.Fdem.skinDepth_decay_partial",
    "Verif.Fdem.skinDepth_full_value",
    "Verif.Fdem.skinDepth_full_iff",
    "Verif.Fdem.skinDepth_wrong"
   ],
   "note": "True for quasistatic; false of the code otherwise (it returns -Im k / w^2): negation proved."
  },
  {
   "property": "C44",
   "status": "proved",
   "theorems": [
    "Verif.Fdem.PlaneWave.faraday",
    "Verif.Fdem.PlaneWave.ampere",
    "Verif.Fdem.PlaneWave.div_free",
    "Verif.Fdem.PlaneWave.horizontal",
    "Verif.Fdem.PlaneWave.b_eq",
    "Verif.Fdem.PlaneWave.j_eq",
    "Verif.Fdem.PlaneWave.at_surface",
    "Verif.Fdem.PlaneWave.decays"
   ],
   "note": ""
  },
  {
   "property": "C45",
   "status": "partial",
   "theorems": [
    "Verif.Fdem.ElectricDipole.h_is_curl_a",
    "Verif.Fdem.ElectricDipole.j_is_curl_h",
    "Verif.Fdem.ElectricDipole.j_eq",
    "Verif.Fdem.ElectricDipole.b_eq",
    "Verif.Fdem.ElectricDipole.div_h",
    "Verif.Fdem.ElectricDipole.div_e",
    "Verif.Fdem.ElectricDipole.curl_e",
    "Verif.Fdem.ElectricDipole.faraday_partial",
    "Verif.Fdem.ElectricDipole.faraday_fails",
    "Verif.Fdem.ElectricDipole.static_limit"
   ],
   "note": "Everything but Faraday's law holds for every flag; Faraday's law holds quasistatically and is false of the code in the full-wave setting (negation proved)."
  },
  {
   "property": "C46",
   "status": "proved",
   "theorems": [
    "Verif.Fdem.MagneticDipole.e_is_neg_curl_f",
    "Verif.Fdem.MagneticDipole.faraday",
    "Verif.Fdem.MagneticDipole.ampere",
    "Verif.Fdem.MagneticDipole.div_h",
    "Verif.Fdem.MagneticDipole.div_e",
    "Verif.Fdem.MagneticDipole.b_eq",
    "Verif.Fdem.MagneticDipole.j_eq",
    "Verif.Fdem.MagneticDipole.static_limit"
   ],
   "note": ""
  },
  {
   "property": "C47",
   "status": "partial",
   "theorems": [
    "Verif.Fdem.quasistatic_flag_partial",
    "Verif.Fdem.flag_agrees_iff",
    "Verif.Fdem.quasistatic_flag_inconsistent"
   ],
   "note": "False of the code for truthy values other than True: negation proved; true for the booleans and falsy values."
  },
  {
   "property": "C48",
   "status": "proved",
   "theorems": [
    "Verif.RTE.forward_split",
    "Verif.RTE.forward_split_physical",
    "Verif.RTE.forward_insert_zero",
    "Verif.RTE.forward_split_basement"
   ],
   "note": ""
  },
  {
   "property": "C49",
   "status": "proved",
   "theorems": [
    "Verif.RTE.forward_uniform",
    "Verif.RTE.forward_air"
   ],
   "note": ""
  },
  {
   "property": "C50",
   "status": "proved",
   "theorems": [
    "Verif.RTE.gradient_dsigma",
    "Verif.RTE.gradient_dmu",
    "Verif.RTE.gradient_dh",
    "Verif.RTE.gradient_no_junk"
   ],
   "note": "wherever the recursion is defined and no square root is on its branch cut; C69 shows that ordinary earth models qualify"
  },
  {
   "property": "C51",
   "status": "proved",
   "theorems": [
    "Verif.RTE.Cpp.cpp_forward",
    "Verif.RTE.Cpp.cpp_gradient",
    "Verif.RTE.Cpp.cpp_writes_once",
    "Verif.RTE.Cpp.cpp_gradient_writes_once",
    "Verif.RTE.Cpp.cpp_rejects"
   ],
   "note": "for equal mu_0; the C++ kernel uses 4e-7*pi and the Python one scipy.constants.mu_0"
  },
  {
   "property": "C52",
   "status": "partial",
   "theorems": [
    "Verif.LayeredState.bounds_history",
    "Verif.LayeredState.shapes_history_partial",
    "Verif.LayeredState.shapes_after_reassignment",
    "Verif.LayeredState.array_accepted_iff",
    "Verif.LayeredState.number_accepted_iff",
    "Verif.LayeredState.counts_accepted_iff",
    "Verif.LayeredState.new_is_history",
    "Verif.LayeredState.shapes_broken",
    "Verif.LayeredState.sigmaHat_raises",
    "Verif.LayeredState.sigmaHat_quasistatic",
    "Verif.LayeredState.sigmaHat_square",
    "Verif.LayeredState.sigmaHat_partial"
   ],
   "note": "False of the code: an accepted thickness (or frequency) of another length leaves stale property arrays and magnetic_field raises (shapes_broken); the sigma_hat property raises for most counts, is transposed in quasistatic mode and pairs the wrong frequency with a layer otherwise. Proved: bounds for all histories, shapes and values for histories that keep the counts or reassign the properties. NaN passes every bound check."
  },
  {
   "property": "C53",
   "status": "proved",
   "theorems": [
    "Verif.Fdem.half_total_secondary",
    "Verif.Fdem.half_other_word",
    "Verif.Fdem.half_linear",
    "Verif.Fdem.half_turns",
    "Verif.Fdem.half_moves",
    "Verif.Fdem.half_reciprocal",
    "Verif.Fdem.layered_points",
    "Verif.Fdem.layered_total_secondary",
    "Verif.Fdem.layered_other_word",
    "Verif.Fdem.layered_linear",
    "Verif.Fdem.layered_turns",
    "Verif.Fdem.layered_moves",
    "Verif.Fdem.layered_reciprocal",
    "Verif.Fdem.layered_air",
    "Verif.Fdem.layered_split",
    "Verif.Tdem.dipoleField_turns"
   ],
   "note": "Any digital filter and any functions iv, kv; the frequency-independent statements hold for each frequency. Words other than the two documented ones select the default of each class."
  },
  {
   "property": "C54",
   "status": "partial",
   "theorems": [
    "Verif.Setters.sampleArray_spec",
    "Verif.Setters.samples_history_partial",
    "Verif.Setters.samples_zero_nan_accepted",
    "Verif.Setters.planeWave_rejected_unchanged",
    "Verif.Setters.planeWave_assignment"
   ],
   "note": "False of the code: zero and NaN pass the check (negation proved); every other clause holds for all histories."
  },
  {
   "property": "C55",
   "status": "proved",
   "theorems": [
    "Verif.Tdem.ElectricDipole.h_is_curl_a",
    "Verif.Tdem.ElectricDipole.ampere",
    "Verif.Tdem.ElectricDipole.j_eq",
    "Verif.Tdem.ElectricDipole.b_eq",
    "Verif.Tdem.ElectricDipole.div_h",
    "Verif.Tdem.ElectricDipole.div_e",
    "Verif.Tdem.ElectricDipole.faraday",
    "Verif.Tdem.ElectricDipole.time_deriv"
   ],
   "note": ""
  },
  {
   "property": "C56",
   "status": "proved",
   "theorems": [
    "Verif.Tdem.PlaneWave.faraday",
    "Verif.Tdem.PlaneWave.ampere",
    "Verif.Tdem.PlaneWave.div_free",
    "Verif.Tdem.PlaneWave.horizontal",
    "Verif.Tdem.PlaneWave.constitutive"
   ],
   "note": ""
  },
  {
   "property": "C57",
   "status": "proved",
   "theorems": [
    "Verif.Tdem.peakTime_is_peak",
    "Verif.Tdem.peakTime_is_peak_length",
    "Verif.Tdem.theta_diffusionDistance",
    "Verif.Tdem.peakTime_diffusionDistance",
    "Verif.Tdem.theta_sq_mul",
    "Verif.Tdem.theta_peakTime"
   ],
   "note": ""
  },
  {
   "property": "C58",
   "status": "proved",
   "theorems": [
    "Verif.Tdem.loopFlux_hasDerivAt",
    "Verif.Tdem.loopField_hasDerivAt",
    "Verif.Tdem.loop_linear"
   ],
   "note": ""
  },
  {
   "property": "C59",
   "status": "proved",
   "theorems": [
    "Verif.Tdem.dipoleField_hasDerivAt"
   ],
   "note": "ive is specified by the integral of the modified Bessel function of integer order."
  },
  {
   "property": "C60",
   "status": "proved",
   "theorems": [
    "Verif.Wrappers.fdem_electricDipole",
    "Verif.Wrappers.fdem_magneticDipole",
    "Verif.Wrappers.fdem_planeWave",
    "Verif.Wrappers.tdem_electricDipole",
    "Verif.Wrappers.tdem_planeWave",
    "Verif.Wrappers.static_dipole",
    "Verif.Wrappers.static_line",
    "Verif.Wrappers.static_loop",
    "Verif.Wrappers.static_halfspace",
    "Verif.Wrappers.magnetic_prism",
    "Verif.Wrappers.spheres",
    "Verif.Tdem.halfspaceDipole_consistent"
   ],
   "note": ""
  },
  {
   "property": "C61",
   "status": "partial",
   "theorems": [
    "Verif.Earthquake.interferogram_reads_back_partial",
    "Verif.Earthquake.local_rigidity_never_reads",
    "Verif.Earthquake.event_date_reads_processed_date",
    "Verif.Earthquake.event_date_wrong",
    "Verif.Earthquake.interferogram_rejected_unchanged",
    "Verif.Earthquake.interferogram_accepts",
    "Verif.Earthquake.interferogram_new_reads_partial",
    "Verif.Earthquake.interferogram_defaults",
    "Verif.Earthquake.oksar_defaults",
    "Verif.Earthquake.oksar_reads_back_partial",
    "Verif.Earthquake.V_never_reads",
    "Verif.Earthquake.oksar_rejected_unchanged"
   ],
   "note": "False of the code for local_rigidity, event_date and V, whose getters read another slot (negations proved); proved for every other attribute over every history."
  },
  {
   "property": "C62",
   "status": "proved",
   "theorems": [
    "Verif.Earthquake.trackNormal_spec",
    "Verif.Earthquake.cosine_range",
    "Verif.Earthquake.angToGc_spec",
    "Verif.Earthquake.angToGc_zero_iff",
    "Verif.Earthquake.on_track",
    "Verif.Earthquake.reference_on_track",
    "Verif.Earthquake.los_unit",
    "Verif.Earthquake.los_length",
    "Verif.Earthquake.los_defined",
    "Verif.Earthquake.los_undefined_on_surface"
   ],
   "note": "Vectors are defined for every satellite above the surface; with altitude 0 the code can produce 0/0 (shown)."
  },
  {
   "property": "C63",
   "status": "partial",
   "theorems": [
    "Verif.Earthquake.oksar_accepts",
    "Verif.Earthquake.oksar_bounds_history_partial",
    "Verif.Earthquake.oksar_nan_accepted",
    "Verif.Earthquake.oksar_depth_order_breaks",
    "Verif.Earthquake.oksar_depth_order_partial",
    "Verif.Earthquake.newOksar_is_history",
    "Verif.Earthquake.newOksar_depth_order"
   ],
   "note": "False of the code for NaN and for the order of depths after assignments (negations proved)."
  },
  {
   "property": "C64",
   "status": "partial",
   "theorems": [
    "Verif.Earthquake.simulationGrid_always_raises",
    "Verif.Earthquake.gridOf_value",
    "Verif.Earthquake.grid_spans_iff",
    "Verif.Earthquake.grid_corners_partial"
   ],
   "note": "False of the code: the property always raises (proved); the grid it would build is characterised."
  },
  {
   "property": "C65",
   "status": "partial",
   "theorems": [
    "Verif.Setters.planeOrientation_spec",
    "Verif.Setters.planeOrientation_horizontal",
    "Verif.Setters.planeWave_orientation_history_partial",
    "Verif.Setters.planeOrientation_text_accepted",
    "Verif.Setters.planeOrientation_zero_accepted"
   ],
   "note": "False of the code: strings other than X and Y are stored as they are and the zero vector becomes NaN (negations proved); proved for X, Y and all other arrays."
  },
  {
   "property": "C66",
   "status": "proved",
   "theorems": [
    "Verif.Gravity.sphere_potentials",
    "Verif.Gravity.sphere_fields",
    "Verif.Gravity.sphere_gradients",
    "Verif.Sphere.electro_potentials",
    "Verif.Sphere.electro_fields",
    "Verif.Sphere.electro_currents",
    "Verif.Sphere.electro_charges",
    "Verif.Sphere.magneto_potentials",
    "Verif.Sphere.magneto_fields",
    "Verif.Sphere.magneto_fluxes",
    "Verif.Prism.prism_fluxes",
    "Verif.Static.loop_potentials",
    "Verif.Static.loop_fluxes"
   ],
   "note": "Batches are lists of rows in row-major order; the leading shape is carried along by numpy and is not modelled."
  },
  {
   "property": "C67",
   "status": "partial",
   "theorems": [
    "Verif.Plot2D.limits_from_clim",
    "Verif.Plot2D.limits_from_options",
    "Verif.Plot2D.limits_from_data",
    "Verif.Plot2D.conflict_raises",
    "Verif.Plot2D.drawn_limits",
    "Verif.Plot2D.levels_linear",
    "Verif.Plot2D.levels_log",
    "Verif.Plot2D.grid_data",
    "Verif.Plot2D.otherwise_draws",
    "Verif.Plot2D.options_kept_partial",
    "Verif.Plot2D.options_modified",
    "Verif.Plot2D.options_modified_on_error",
    "Verif.Plot2D.level_with_vectors_raises",
    "Verif.Plot2D.figname_with_axes_raises"
   ],
   "note": "Limits, conflicts and levels are as stated (proved). False of the code: the dictionary of the caller loses vmin and vmax, so that the same call draws with other limits the second time (options_modified), even when the call raises. Also proved: contour lines over vectors, and saving into given axes, always raise."
  },
  {
   "property": "C68",
   "status": "proved",
   "theorems": [
    "Verif.Sphere.electro_grad_outside",
    "Verif.Sphere.electro_potential_harmonic",
    "Verif.Sphere.electro_potential_interface",
    "Verif.Sphere.electro_potential_far",
    "Verif.Sphere.electro_charge_is_jump",
    "Verif.Sphere.electro_charge_off_shell",
    "Verif.Sphere.magneto_potential_interface"
   ],
   "note": ""
  },
  {
   "property": "C69",
   "status": "proved",
   "theorems": [
    "Verif.RTE.physical_defined",
    "Verif.RTE.forward_passive"
   ],
   "note": ""
  },
  {
   "property": "C70",
   "status": "proved",
   "theorems": [
    "Verif.RTE.reflection_iff",
    "Verif.RTE.reflection_unique",
    "Verif.RTE.reflection_exists"
   ],
   "note": ""
  },
  {
   "property": "C71",
   "status": "proved",
   "theorems": [
    "Verif.Prism.volume_is_measure",
    "Verif.Prism.location_is_centroid",
    "Verif.Prism.mass_is_integral",
    "Verif.Prism.moment_is_integral"
   ],
   "note": ""
  },
  {
   "property": "C72",
   "status": "proved",
   "theorems": [
    "Verif.Earthquake.plotData_spec",
    "Verif.Earthquake.plotData_rejects"
   ],
   "note": ""
  },
  {
   "property": "C73",
   "status": "proved",
   "theorems": [
    "Verif.Earthquake.pointing_direction",
    "Verif.Earthquake.los_at_reference"
   ],
   "note": ""
  },
  {
   "property": "C74",
   "status": "proved",
   "theorems": [
    "Verif.Static.Loop.biot_savart",
    "Verif.Static.Loop.biot_savart_axial",
    "Verif.Static.Loop.flux_eq_mu_field"
   ],
   "note": ""
  },
  {
   "property": "C75",
   "status": "proved",
   "theorems": [
    "Verif.Fdem.loop_is_dipoles",
    "Verif.Tdem.loop_is_dipoles"
   ],
   "note": ""
  },
  {
   "property": "C76",
   "status": "proved",
   "theorems": [
    "Verif.Tdem.loopField_start",
    "Verif.Tdem.loopField_end",
    "Verif.Tdem.loopFieldTimeDeriv_neg",
    "Verif.Tdem.loopField_strictAntiOn",
    "Verif.Tdem.loopField_bounds",
    "Verif.Tdem.dipoleField_start",
    "Verif.Tdem.dipoleField_end"
   ],
   "note": ""
  },
  {
   "property": "C77",
   "status": "proved",
   "theorems": [
    "Verif.Fdem.half_conservative",
    "Verif.Fdem.half_static_limit",
    "Verif.Fdem.half_mirror_limit",
    "Verif.Fdem.half_conservative_bessel",
    "Verif.Fdem.half_static_limit_bessel",
    "Verif.Fdem.half_mirror_limit_bessel",
    "Verif.Fdem.half_low_frequency_vertical",
    "Verif.Fdem.half_low_frequency_horizontal",
    "Verif.Fdem.loop_linear",
    "Verif.Fdem.loop_limits"
   ],
   "note": "The general theorems take iv and kv with continuity, boundedness near 0 and decay of products; the *_bessel theorems prove these for the integral representations of I_n and K_n and assume nothing."
  },
  {
   "property": "C78",
   "status": "partial",
   "theorems": [
    "Verif.Fdem.half_k_partial",
    "Verif.Fdem.half_k_ignores_mu"
   ],
   "note": "False of the code: the vacuum permeability is used whatever mu is (proved); holds when mu is mu_0."
  },
  {
   "property": "C79",
   "status": "proved",
   "theorems": [
    "Verif.Fdem.layered_taps",
    "Verif.Fdem.layered_wave",
    "Verif.Fdem.layered_air",
    "Verif.Fdem.layered_split",
    "Verif.Fdem.layered_points"
   ],
   "note": ""
  },
  {
   "property": "C80",
   "status": "partial",
   "theorems": [
    "Verif.Tdem.Reference.field_eq",
    "Verif.Tdem.Reference.deriv_eq",
    "Verif.Tdem.Reference.hp_hasDerivAt",
    "Verif.Tdem.Reference.hz_hasDerivAt",
    "Verif.Tdem.Reference.hz_not_hasDerivAt"
   ],
   "note": "The agreement holds with the signs stated and the radial derivative is the derivative; the vertical reference derivative is minus the derivative of the vertical reference field, so that part is false of the code (negation proved)."
  },
  {
   "property": "C81",
   "status": "proved",
   "theorems": [
    "Verif.Prism.gravPrism_potential_is_integral",
    "Verif.Prism.gravPrism_field_is_integral",
    "Verif.Prism.gravPrism_field_integrable",
    "Verif.Prism.magPrism_potential_is_integral"
   ],
   "note": ""
  },
  {
   "property": "C82",
   "status": "proved",
   "theorems": [
    "Verif.Prism.gravPrism_gradient_is_integral",
    "Verif.Prism.magPrism_field_is_integral",
    "Verif.Prism.magPrism_flux_is_integral"
   ],
   "note": ""
  },
  {
   "property": "C83",
   "status": "proved",
   "theorems": [
    "Verif.Earthquake.float_attributes",
    "Verif.Earthquake.float_of",
    "Verif.Earthquake.local_rigidity_accepts",
    "Verif.Earthquake.text_attributes",
    "Verif.Earthquake.zone_stores",
    "Verif.Earthquake.zone_refuses",
    "Verif.Earthquake.shape_of_list",
    "Verif.Earthquake.shape_refuses",
    "Verif.Earthquake.shape_refuses_matrix",
    "Verif.Earthquake.data_attribute",
    "Verif.Earthquake.pair_attributes",
    "Verif.Earthquake.pair_of_list",
    "Verif.Earthquake.date_attributes",
    "Verif.Earthquake.newInterferogram_missing",
    "Verif.Earthquake.newInterferogram_succeeds_iff",
    "Verif.Earthquake.newOksar_missing",
    "Verif.Earthquake.oksar_pairs",
    "Verif.Earthquake.oksar_V",
    "Verif.Earthquake.oksar_numbers",
    "Verif.Earthquake.oksar_depth_bottom",
    "Verif.Earthquake.oksar_free_numbers",
    "Verif.Earthquake.oksar_shape"
   ],
   "note": "The two attributes that cannot be read back (local_rigidity, V) and event_date are covered by C61 and C63."
  },
  {
   "property": "C84",
   "status": "proved",
   "theorems": [
    "Verif.HalfspaceState.point_refusals",
    "Verif.HalfspaceState.dipole_refusals",
    "Verif.HalfspaceState.point_new_refusals",
    "Verif.LayeredState.frequency_refusals",
    "Verif.LayeredState.thickness_refusals",
    "Verif.LayeredState.property_refusals_all",
    "Verif.Plot2D.empty_clim_raises",
    "Verif.Plot2D.option_not_number_raises",
    "Verif.Plot2D.drawn_options",
    "Verif.Setters.Sphere.float_refusals",
    "Verif.Setters.PlaneWave.amplitude_refusals",
    "Verif.SourceState.Sphere.float_refusals"
   ],
   "note": "A constructor given resistivity 0 raises ZeroDivisionError rather than ValueError, because 1/rho is computed first (point_new_refusals)."
  },
  {
   "property": "C85",
   "status": "proved",
   "theorems": [
    "Verif.Fdem.ElectricDipole.is_transform_of_transient"
   ],
   "note": "The Fourier convention is exp(+i omega t), as in the frequency-domain module."
  },
  {
   "property": "C86",
   "status": "proved",
   "theorems": [
    "Verif.Fdem.PlaneWave.is_transform_of_pulse",
    "Verif.Fdem.PlaneWave.pulse_above"
   ],
   "note": "The transient's electric field vanishes on z = 0 and the harmonic one does not, so the statement stops at z < 0."
  },
  {
   "property": "C87",
   "status": "proved",
   "theorems": [
    "Verif.Fdem.loop_is_transform",
    "Verif.Fdem.vertical_dipole_is_transform",
    "Verif.Fdem.dipole_is_transform"
   ],
   "note": "All components of the vertical dipole; the products of Bessel functions are the transforms of the exponentially scaled Bessel functions of the transient."
  },
  {
   "property": "C88",
   "status": "partial",
   "theorems": [
    "Verif.SourceState.sphere_accepts",
    "Verif.SourceState.sphere_refused_unchanged",
    "Verif.SourceState.sphere_refusals",
    "Verif.SourceState.sphere_non_numbers",
    "Verif.SourceState.sphere_history_partial",
    "Verif.SourceState.sphere_history_plain",
    "Verif.SourceState.sphere_not_always_valid",
    "Verif.SourceState.wire_accepts_nodes",
    "Verif.SourceState.wire_refused_unchanged",
    "Verif.SourceState.wire_current",
    "Verif.SourceState.wire_history",
    "Verif.SourceState.wire_without_nodes",
    "Verif.SourceState.pointMass_assignment",
    "Verif.SourceState.magPrism_assignment",
    "Verif.SourceState.defaults"
   ],
   "note": "False as stated: NaN passes the sphere's bounds, its vectors may have further axes (shape (3, n)), and a wire may have no nodes and minus one segments. What float() raises for a sphere's numbers is not turned into TypeError."
  },
  {
   "property": "C89",
   "status": "partial",
   "theorems": [
    "Verif.PointAliasing.moving_overwrites_argument",
    "Verif.PointAliasing.moving_one_moves_other",
    "Verif.PointAliasing.not_sharingInvisible",
    "Verif.PointAliasing.sharing_invisible_partial",
    "Verif.PointAliasing.location_reads_back"
   ],
   "note": "False: nodes keeps the caller's float array and location writes into it. Proved for every history in which no float array is passed."
  },
  {
   "property": "C90",
   "status": "proved",
   "theorems": [
    "Verif.Fdem.hankelField_exists",
    "Verif.Fdem.layered_tends_to_halfspace",
    "Verif.Fdem.loop_is_hankel"
   ],
   "note": "The modified Bessel functions are their integral representations (Spec/BesselIK), the Hankel kernels those of Spec/BesselJ. The error of the digital filter itself is not modelled."
  },
  {
   "property": "C91",
   "status": "proved",
   "theorems": [
    "Verif.Okada.displacement_is_volterra",
    "Verif.Okada.one_station",
    "Verif.Okada.above_end_raises",
    "Verif.Okada.at_end_error",
    "Verif.Elastic.surfaceForce_in_equilibrium",
    "Verif.Elastic.surfaceForce_traction_free",
    "Verif.Elastic.surfaceForce_is_unit"
   ],
   "note": "The last three theorems check the specification of the surface force. Volterra's reciprocity formula itself is taken as the specification. Stations on the line of the trace are covered as a limit from the side, except those level with an end (above_end_raises)."
  },
  {
   "property": "C92",
   "status": "partial",
   "theorems": [
    "Verif.Okada.raises_unless_one_or_three",
    "Verif.Okada.above_end_raises",
    "Verif.Okada.at_end_error",
    "Verif.Okada.displacement_is_volterra",
    "Verif.Okada.one_station"
   ],
   "note": "False: with slip, any number of stations other than one and three raises, one station gives three equal columns, and a station on the trace level with either end of the fault raises however deep the fault is. Proved for one and three stations, off the trace or on it away from the ends."
  },
  {
   "property": "C93",
   "status": "proved",
   "theorems": [
    "Verif.Okada.slips_superpose",
    "Verif.Okada.slip_scales",
    "Verif.Okada.divided_along_strike",
    "Verif.Okada.divided_along_dip",
    "Verif.Okada.shift_along_strike",
    "Verif.Okada.no_slip"
   ],
   "note": "Over exact real numbers; each part must itself be resolved, since every call rounds coordinates near its own corners."
  },
  {
   "property": "C94",
   "status": "proved",
   "theorems": [
    "Verif.Static.line_ampere",
    "Verif.Static.single_node",
    "Verif.Static.no_nodes"
   ],
   "note": "A wire with a single node is excluded: it has a current density but no magnetic field."
  },
  {
   "property": "C95",
   "status": "proved",
   "theorems": [
    "Verif.Static.Loop.flux_curl_div",
    "Verif.Static.Loop.field_curl_div"
   ],
   "note": "In the cone around the axis the truncated series violates both (compare C39)."
  },
  {
   "property": "C96",
   "status": "partial",
   "theorems": [
    "Verif.Okada.displacement_vector_raises",
    "Verif.Okada.Event.columns_partial",
    "Verif.Okada.Event.combine_volterra",
    "Verif.Okada.Event.strikeAngle_close",
    "Verif.Okada.Event.rakeAngle_close",
    "Verif.Okada.Event.three_points",
    "Verif.Okada.Event.three_points_right_iff",
    "Verif.Okada.Event.three_points_wrong",
    "Verif.Okada.Event.one_point",
    "Verif.Okada.Event.no_slip_no_displacement",
    "Verif.Okada.Event.other_numbers_raise"
   ],
   "note": "False of the code: reading the property always raises, and the lines after the grid index the array of displacements the wrong way. Proved: the angles, the rectangle and the slip handed to the kernel, and the turn of the axes applied to a column, are right for every earthquake."
  },
  {
   "property": "C97",
   "status": "proved",
   "theorems": [
    "Verif.Dipole.vectorDistance_rows",
    "Verif.Dipole.distance_rows",
    "Verif.Dipole.dotOrientation_rows",
    "Verif.Dipole.crossOrientation_rows",
    "Verif.Dipole.pythagoras",
    "Verif.Dipole.distance_zero_iff",
    "Verif.Dipole.vectorDistance_refuses_iff",
    "Verif.Dipole.vectorDistance_one_wide",
    "Verif.Dipole.cross_dot_refuse_iff",
    "Verif.Dipole.crossOrientation_two_wide"
   ],
   "note": "Arrays whose last axis is one long are accepted by vector_distance, and those whose last axis is two long by cross_orientation; the theorems say what is computed."
  },
  {
   "property": "C98",
   "status": "proved",
   "theorems": [
    "Verif.FdemArr.ElectricDipole.vectorPotential_pairs",
    "Verif.FdemArr.ElectricDipole.electricField_pairs",
    "Verif.FdemArr.ElectricDipole.currentDensity_pairs",
    "Verif.FdemArr.ElectricDipole.magneticField_pairs",
    "Verif.FdemArr.ElectricDipole.magneticFluxDensity_pairs",
    "Verif.FdemArr.MagneticDipole.vectorPotential_pairs",
    "Verif.FdemArr.MagneticDipole.electricField_pairs",
    "Verif.FdemArr.MagneticDipole.currentDensity_pairs",
    "Verif.FdemArr.MagneticDipole.magneticField_pairs",
    "Verif.FdemArr.MagneticDipole.magneticFluxDensity_pairs",
    "Verif.FdemArr.PlaneWave.electricField_pairs",
    "Verif.FdemArr.PlaneWave.currentDensity_pairs",
    "Verif.FdemArr.PlaneWave.magneticField_pairs",
    "Verif.FdemArr.PlaneWave.magneticFluxDensity_pairs",
    "Verif.TdemArr.PlaneWave.electricField_pairs",
    "Verif.TdemArr.PlaneWave.currentDensity_pairs",
    "Verif.TdemArr.PlaneWave.magneticField_pairs",
    "Verif.TdemArr.PlaneWave.magneticFluxDensity_pairs",
    "Verif.TdemArr.ElectricDipole.vectorPotential_pairs",
    "Verif.TdemArr.ElectricDipole.electricField_pairs",
    "Verif.TdemArr.ElectricDipole.currentDensity_pairs",
    "Verif.TdemArr.ElectricDipole.magneticField_pairs",
    "Verif.TdemArr.ElectricDipole.magneticFluxDensity_pairs",
    "Verif.TdemArr.ElectricDipole.magneticFieldTimeDeriv_pairs",
    "Verif.TdemArr.ElectricDipole.magneticFluxDensityTimeDeriv_pairs",
    "Verif.points_or_refused",
    "Verif.FdemArr.refused",
    "Verif.TdemArr.refused",
    "Verif.FdemArr.not_squeezed"
   ],
   "note": "The documentation also says that the output is squeezed for one frequency or one point; it is not (not_squeezed)."
  },
  {
   "property": "C99",
   "status": "partial",
   "theorems": [
    "Verif.FdemArr.HalfDipole.magneticField_pairs",
    "Verif.FdemArr.HalfDipole.magneticField_one",
    "Verif.FdemArr.HalfDipole.magneticField_scalar_raises",
    "Verif.FdemArr.HalfDipole.magneticField_refuses",
    "Verif.FdemArr.HalfDipole.magneticField_unsqueezed",
    "Verif.FdemArr.LayeredDipole.magneticField_pairs",
    "Verif.FdemArr.LayeredDipole.magneticField_refuses",
    "Verif.FdemArr.LayeredDipole.magneticField_grid",
    "Verif.TdemArr.surface_functions_pairs",
    "Verif.TdemArr.HalfspaceDipole.pairs",
    "Verif.TdemArr.planar_or_refused",
    "Verif.squeeze_keeps"
   ],
   "note": "False for one frequency given as a plain number: MagneticDipoleHalfSpace.magnetic_field raises IndexError for any array of points with more than one axis (scalar_raises). Layered earth: points with more than two axes are always refused (grid)."
  },
  {
   "property": "C100",
   "status": "proved",
   "theorems": [
    "Verif.StaticArr.withCoordinates_holds",
    "Verif.StaticArr.withCoordinates_refuses",
    "Verif.StaticArr.dipole_points",
    "Verif.StaticArr.pole_points",
    "Verif.StaticArr.line_scalarPotential",
    "Verif.StaticArr.line_electricField",
    "Verif.StaticArr.line_currentDensity",
    "Verif.StaticArr.line_vectorPotential",
    "Verif.StaticArr.line_magneticFluxDensity",
    "Verif.StaticArr.line_magneticField",
    "Verif.StaticArr.pointHalf_potential",
    "Verif.StaticArr.pointHalf_electricField",
    "Verif.StaticArr.pointHalf_currentDensity",
    "Verif.StaticArr.dipoleHalf_potential",
    "Verif.StaticArr.dipoleHalf_electricField",
    "Verif.StaticArr.dipoleHalf_currentDensity",
    "Verif.StaticArr.dipoleHalf_refuses",
    "Verif.StaticArr.dipoleHalf_potential_pair",
    "Verif.StaticArr.dipoleHalf_electricField_pair",
    "Verif.StaticArr.dipoleHalf_currentDensity_pair",
    "Verif.StaticArr.loop_vectorPotential",
    "Verif.StaticArr.loop_magneticFluxDensity",
    "Verif.StaticArr.loop_vectorPotentialIn",
    "Verif.StaticArr.loop_magneticFluxDensityIn",
    "Verif.StaticArr.loop_magneticFieldIn",
    "Verif.StaticArr.electro_arrays",
    "Verif.StaticArr.electro_chargeDensity",
    "Verif.StaticArr.magneto_arrays",
    "Verif.GravityArr.sphere_arrays",
    "Verif.GravityArr.mass_potential",
    "Verif.GravityArr.mass_field",
    "Verif.GravityArr.mass_gradient",
    "Verif.PrismArr.prism_potential",
    "Verif.PrismArr.prism_field",
    "Verif.PrismArr.prism_gradient",
    "Verif.PrismArr.prism_scalarPotential",
    "Verif.PrismArr.prism_magneticField",
    "Verif.PrismArr.prism_magneticFluxDensity",
    "Verif.PrismArr.prism_magneticFieldGradient"
   ],
   "note": "Loops: at least one point. Any other shape of the points is refused by the common check (C98, points_or_refused)."
  },
  {
   "property": "C101",
   "status": "partial",
   "theorems": [
    "Verif.ConvArr.scalars_rejected",
    "Verif.ConvArr.cylToCart_points",
    "Verif.ConvArr.cartToCyl_points",
    "Verif.ConvArr.sphToCart_points",
    "Verif.ConvArr.cartToSph_points",
    "Verif.ConvArr.plane_points",
    "Verif.ConvArr.cylToCart_vectors",
    "Verif.ConvArr.cartToCyl_vectors",
    "Verif.ConvArr.sphToCart_vectors",
    "Verif.ConvArr.cartToSph_vectors",
    "Verif.ConvArr.plane_vectors",
    "Verif.ConvArr.narrow_points",
    "Verif.ConvArr.cyl_round_trip",
    "Verif.ConvArr.sph_round_trip",
    "Verif.ConvArr.cyl_vectors_round_trip",
    "Verif.ConvArr.flattened_refused",
    "Verif.ConvArr.sph_reads_first",
    "Verif.ConvArr.flattened_wrong",
    "Verif.ConvArr.aliases",
    "Verif.ConvArr.vectorMagnitude_each",
    "Verif.ConvArr.repeatScalar_accepts"
   ],
   "note": "False for vectors flattened in column-major order, which the docstrings accept: the cylindrical conversions raise ValueError (flattened_refused) and the spherical ones use the first three numbers for every point (sph_reads_first, flattened_wrong). That the vector conversions of spherical coordinates are themselves wrong is C09. The round trip of spherical vectors is false for that reason."
  },
  {
   "property": "C102",
   "status": "proved",
   "theorems": [
    "Verif.Prism.gravPrism_potential_far",
    "Verif.Prism.gravPrism_field_far",
    "Verif.Prism.gravPrism_gradient_far",
    "Verif.Prism.magPrism_field_far",
    "Verif.Prism.magPrism_flux_far",
    "Verif.Prism.magPrism_potential_far",
    "Verif.Prism.gravPrism_potential_between",
    "Verif.Prism.gravPrism_potential_pos",
    "Verif.Prism.gravPrism_attracts"
   ],
   "note": ""
  },
  {
   "property": "C103",
   "status": "proved",
   "theorems": [
    "Verif.Static.MagDipole.dipole_moved",
    "Verif.Static.MagDipole.pole_moved",
    "Verif.Static.LineCurrent.electric_moved",
    "Verif.Static.LineCurrent.magnetic_moved",
    "Verif.Static.Loop.loop_moved",
    "Verif.Static.PointHalf.new_moved",
    "Verif.Static.PointHalf.point_moved",
    "Verif.Static.DipoleHalf.new_moved",
    "Verif.Static.DipoleHalf.dipole_moved",
    "Verif.Sphere.Electro.sphere_moved",
    "Verif.Sphere.Magneto.sphere_moved",
    "Verif.Gravity.PointMass.mass_moved",
    "Verif.Gravity.Sphere.ball_moved",
    "Verif.Fdem.ElectricDipole.dipole_moved",
    "Verif.Fdem.MagneticDipole.dipole_moved",
    "Verif.Fdem.HalfDipole.dipole_moved",
    "Verif.Fdem.LayeredDipole.dipole_moved",
    "Verif.Fdem.PlaneWave.wave_moved",
    "Verif.Tdem.ElectricDipole.dipole_moved",
    "Verif.Tdem.PlaneWave.wave_moved",
    "Verif.Tdem.HalfspaceDipole.dipole_moved",
    "Verif.Prism.gravPrism_moved",
    "Verif.Prism.magPrism_moved"
   ],
   "note": "Segments of a wire and loops within 1e-20 of the reference direction without being along it are excluded (the code turns them slightly); points on the line through a segment, straight above a surface dipole (where the code divides by zero) and, for the derivatives of prism responses, points on the faces are excluded."
  },
  {
   "property": "C104",
   "status": "proved",
   "theorems": [
    "Verif.Gravity.PointMass.action_reaction",
    "Verif.Gravity.PointMass.energy_symm",
    "Verif.Gravity.PointMass.tides_symm",
    "Verif.Static.MagDipole.reciprocal",
    "Verif.Static.MagDipole.poles_reaction",
    "Verif.Static.pointCurrent_reciprocal",
    "Verif.Static.wires_reciprocal",
    "Verif.Static.grounded_reciprocal",
    "Verif.Static.dipole_wire_reciprocal",
    "Verif.Static.Loop.dipole_loop_reciprocal",
    "Verif.Static.Loop.loops_reciprocal",
    "Verif.Fdem.ElectricDipole.reciprocal",
    "Verif.Fdem.ElectricDipole.magnetic_reciprocal",
    "Verif.Fdem.MagneticDipole.reciprocal",
    "Verif.Fdem.mixed_reciprocal",
    "Verif.Tdem.ElectricDipole.reciprocal",
    "Verif.Tdem.ElectricDipole.magnetic_reciprocal"
   ],
   "note": "Each wire must stay off the lines through the segments of the other (there the code divides by zero), and loops away from the axis of the other (where a series replaces the elliptic integrals). Electrodes on a halfspace are C34, dipoles over it C53."
  },
  {
   "property": "C105",
   "status": "proved",
   "theorems": [
    "Verif.Fdem.wavenumber_low",
    "Verif.Fdem.ElectricDipole.low_electric",
    "Verif.Fdem.ElectricDipole.low_magnetic",
    "Verif.Fdem.ElectricDipole.low_potential",
    "Verif.Fdem.MagneticDipole.low_magnetic",
    "Verif.Fdem.MagneticDipole.low_electric",
    "Verif.Fdem.wavenumber_diffusive",
    "Verif.Fdem.ElectricDipole.high_frequency",
    "Verif.Fdem.MagneticDipole.high_frequency",
    "Verif.Tdem.ElectricDipole.start_electric",
    "Verif.Tdem.ElectricDipole.start_magnetic",
    "Verif.Tdem.ElectricDipole.start_potential",
    "Verif.Tdem.ElectricDipole.end_fields",
    "Verif.Tdem.ElectricDipole.rate_limits",
    "Verif.Tdem.PlaneWave.start_end"
   ],
   "note": "Frequencies tend to zero from above, times to zero from above or to infinity. Sources over a half-space are C77."
  },
  {
   "property": "C106",
   "status": "proved",
   "theorems": [
    "Verif.Static.closed_wire_is_dipole",
    "Verif.Static.open_wire_is_element",
    "Verif.Static.grounded_wire_is_element",
    "Verif.Static.poles_are_dipole",
    "Verif.Static.Loop.is_dipole"
   ],
   "note": "As in C30 and C74: no segment within 1e-20 of the x axis without being along it, the point off the lines through the segments, and for loops outside the near-axis region."
  },
  {
   "property": "C107",
   "status": "partial",
   "theorems": [
    "Verif.Static.line_potential_everywhere",
    "Verif.Static.flux_finite_partial",
    "Verif.Static.flux_not_finite_ahead"
   ],
   "note": "False of the code for the flux density: wholespace.py:1018 divides by the distance from the line through each segment, so the result is NaN at every point in line with a segment (flux_not_finite_ahead, where the field is zero); flux_finite_partial says exactly where it is finite. The vector potential is right everywhere off the wire."
  },
  {
   "property": "C108",
   "status": "partial",
   "theorems": [
    "Verif.Gravity.PointMass.potential_finite",
    "Verif.Gravity.PointMass.field_finite",
    "Verif.Gravity.PointMass.gradient_finite",
    "Verif.Gravity.Sphere.finite",
    "Verif.Sphere.Electro.finite_partial",
    "Verif.Sphere.Electro.charge_not_finite",
    "Verif.Sphere.Magneto.finite",
    "Verif.Static.MagDipole.dipole_finite",
    "Verif.Static.MagDipole.pole_finite",
    "Verif.Static.LineCurrent.electric_finite",
    "Verif.Static.PointHalf.electric_finite"
   ],
   "note": "False of the code only for charge_density with a shell dr wider than twice the radius: NaN at the centre (em/static/sphere.py:515, Electro.charge_not_finite). Everything else is proved."
  },
  {
   "property": "C109",
   "status": "partial",
   "theorems": [
    "Verif.Tdem.ElectricDipole.finite_later",
    "Verif.Tdem.ElectricDipole.at_start_partial",
    "Verif.Tdem.PlaneWave.start_partial",
    "Verif.Tdem.loop_start",
    "Verif.Tdem.loop_rate_partial",
    "Verif.Tdem.dipole_start_partial"
   ],
   "note": "False of the code at time zero, which the setter accepts (em/tdem/base.py:173): the vector potential of the dipole and the field at the centre of a loop are right, but fields of the dipole, the plane wave, the rate of change of the loop and the dipole on a half-space are NaN (inf*0). After time zero everything is finite."
  },
  {
   "property": "C110",
   "status": "partial",
   "theorems": [
    "Verif.Fdem.ElectricDipole.finite_off",
    "Verif.Fdem.ElectricDipole.nan_at",
    "Verif.Fdem.MagneticDipole.finite_off",
    "Verif.Fdem.MagneticDipole.nan_at",
    "Verif.Fdem.PlaneWave.finite_partial",
    "Verif.Fdem.skinDepth_finite",
    "Verif.Fdem.loop_finite_partial",
    "Verif.Fdem.HalfDipole.finite_off",
    "Verif.Fdem.HalfDipole.nan_at",
    "Verif.Fdem.LayeredDipole.finite_off",
    "Verif.Fdem.LayeredDipole.nan_above"
   ],
   "note": "False of the code: at frequency zero the field at the centre of a loop (em/fdem/simple_functions.py:85), of a dipole on a half-space (em/fdem/halfspace.py:105) and the flux density of a plane wave (em/fdem/wholespace.py:1282) are NaN; the field of a dipole over layers is NaN straight above and below the dipole (em/fdem/layered.py:408). The dipoles in a whole space are right at every frequency. scipy's Bessel functions enter by their values off zero and by not being finite at zero; the reflection coefficient of an infinite wave number is arbitrary."
  },
  {
   "property": "C111",
   "status": "partial",
   "theorems": [
    "Verif.Fdem.ElectricDipole.units",
    "Verif.Fdem.ElectricDipole.units_media",
    "Verif.Fdem.MagneticDipole.units",
    "Verif.Fdem.MagneticDipole.units_media",
    "Verif.Fdem.PlaneWave.units",
    "Verif.Fdem.Medium.units_partial",
    "Verif.Fdem.Medium.skinDepth_not_length",
    "Verif.Fdem.Medium.skinDepth_depends_on_units",
    "Verif.Fdem.loop_units",
    "Verif.Fdem.HalfDipole.units",
    "Verif.Fdem.LayeredDipole.units_at",
    "Verif.Fdem.LayeredDipole.units",
    "Verif.Tdem.times_units",
    "Verif.Tdem.ElectricDipole.units",
    "Verif.Tdem.ElectricDipole.units_media",
    "Verif.Tdem.PlaneWave.units",
    "Verif.Tdem.loop_units",
    "Verif.Tdem.surfaceDipole_units",
    "Verif.RTE.forward_units",
    "Verif.RTE.gradient_units"
   ],
   "note": "False of the code only for skin_depth of a medium that is not quasistatic (em/fdem/base.py): a time squared over a length (Medium.skinDepth_not_length, skinDepth_depends_on_units). The amplitude of the transient plane wave has the dimension of a field times a time, contrary to its docstring. Everything else is proved. mu_0 is scaled like every permeability; the Bessel functions and the digital filter are arbitrary."
  },
  {
   "property": "C112",
   "status": "partial",
   "theorems": [
    "Verif.Static.MagDipole.units",
    "Verif.Static.MagDipole.pole_units",
    "Verif.Static.LineCurrent.units",
    "Verif.Static.LineCurrent.units_magnetic",
    "Verif.Static.LineCurrent.units_potential_partial",
    "Verif.Static.LineCurrent.on_wire_depends_on_units",
    "Verif.Static.PointHalf.new_units",
    "Verif.Static.PointHalf.units",
    "Verif.Static.DipoleHalf.new_units",
    "Verif.Static.DipoleHalf.units",
    "Verif.Static.Loop.units",
    "Verif.Static.Loop.units_field",
    "Verif.Static.Loop.units_potential_partial",
    "Verif.Static.Loop.near_axis_depends_on_units",
    "Verif.Sphere.Electro.units_potential",
    "Verif.Sphere.Electro.units_inside_partial",
    "Verif.Sphere.Electro.units_charge",
    "Verif.Sphere.Electro.outside_depends_on_units",
    "Verif.Sphere.Magneto.units_potential",
    "Verif.Sphere.Magneto.units_inside_partial",
    "Verif.Sphere.Magneto.outside_depends_on_units",
    "Verif.Gravity.PointMass.units",
    "Verif.Gravity.Sphere.units",
    "Verif.Prism.Box.units",
    "Verif.Prism.GravPrism.units",
    "Verif.Prism.GravPrism.units_gradient_partial",
    "Verif.Prism.GravPrism.edge_depends_on_units",
    "Verif.Prism.MagPrism.units",
    "Verif.Prism.MagPrism.units_partial"
   ],
   "note": "False of the code: the fields outside static spheres contain the radius to the wrong power (em/static/sphere.py:325-341, 825-841), the vector potential of a loop near its axis (em/static/wholespace.py:609) has the wrong power of a length, and the finite numbers returned on a wire and on the edges of a prism, where the true value is infinite, depend on the unit of length. Each has a witness; everywhere else the property is proved."
  },
  {
   "property": "C113",
   "status": "partial",
   "theorems": [
    "Verif.Okada.volterra_units",
    "Verif.Okada.units_partial",
    "Verif.Okada.depends_on_units",
    "Verif.Spatial.points_units",
    "Verif.Spatial.vectors_units",
    "Verif.Spatial.cartToSphVec_units_partial",
    "Verif.Spatial.cartToSphVec_depends_on_units"
   ],
   "note": "False of the code: _dc3d3 rounds coordinates below the absolute number 1e-6 to zero (oksar.py:1414-1418), so a fault described in a large unit raises (depends_on_units); cartesian_to_spherical takes the cosine of a vector component (spatial.py:400-406), which depends on the unit of the vector. units_partial holds where no coordinate is rounded in either system."
  },
  {
   "property": "C114",
   "status": "partial",
   "theorems": [
    "Verif.SurfaceSource.MagDipole.new_ok",
    "Verif.SurfaceSource.MagDipole.assignment",
    "Verif.SurfaceSource.MagDipole.rejected_unchanged",
    "Verif.SurfaceSource.OnGround.assignment",
    "Verif.SurfaceSource.AboveGround.assignment",
    "Verif.SurfaceSource.OnGround.new_ok",
    "Verif.SurfaceSource.OnGround.new_off_ground",
    "Verif.SurfaceSource.OnGround.stays_partial",
    "Verif.SurfaceSource.OnGround.leaves",
    "Verif.SurfaceSource.height_ignored",
    "Verif.SurfaceSource.AboveGround.new_ok",
    "Verif.SurfaceSource.AboveGround.new_below",
    "Verif.SurfaceSource.AboveGround.stays_partial",
    "Verif.SurfaceSource.AboveGround.leaves",
    "Verif.SurfaceSource.nan_height"
   ],
   "note": "False of the code: the height is checked only in the constructors (em/fdem/halfspace.py:17-21, em/fdem/layered.py:49-53); a location assigned later is accepted at any height (OnGround.leaves, AboveGround.leaves), and the half-space field then silently ignores the height (height_ignored). stays_partial: as long as no location is assigned the invariant holds for every history. NaN heights pass the layered check (nan_height)."
  },
  {
   "property": "C115",
   "status": "proved",
   "theorems": [
    "Verif.Fdem.ElectricDipole.superposition",
    "Verif.Fdem.MagneticDipole.superposition",
    "Verif.Fdem.PlaneWave.superposition",
    "Verif.Fdem.half_linear",
    "Verif.Fdem.loop_linear",
    "Verif.Fdem.layered_linear",
    "Verif.Tdem.ElectricDipole.superposition",
    "Verif.Tdem.PlaneWave.superposition",
    "Verif.Tdem.HalfspaceDipole.superposition",
    "Verif.Tdem.loop_linear",
    "Verif.Gravity.PointMass.superposition",
    "Verif.Gravity.Sphere.superposition",
    "Verif.Prism.GravPrism.superposition",
    "Verif.Prism.MagPrism.superposition",
    "Verif.Sphere.Electro.superposition",
    "Verif.Sphere.Magneto.superposition",
    "Verif.Static.MagDipole.superposition",
    "Verif.Static.MagDipole.pole_superposition",
    "Verif.Static.LineCurrent.superposition",
    "Verif.Static.PointHalf.superposition",
    "Verif.Static.DipoleHalf.superposition",
    "Verif.Static.DipoleHalf.superposition_current",
    "Verif.Static.Loop.superposition",
    "Verif.Okada.slips_superpose"
   ],
   "note": "Moment vectors, currents, masses, densities, magnetizations, background fields and slips; the layered and half-space dipoles by the theorems that split them into moments."
  },
  {
   "property": "C116",
   "status": "partial",
   "theorems": [
    "Verif.Rounded.exact_operations",
    "Verif.Rounded.distance_accurate",
    "Verif.Rounded.PointMass.potential_accurate",
    "Verif.Rounded.PointMass.field_accurate",
    "Verif.Rounded.PointMass.gradient_accurate",
    "Verif.Rounded.MagDipole.pole_accurate",
    "Verif.Rounded.pointCurrent_accurate",
    "Verif.Rounded.halfPotential_accurate",
    "Verif.Rounded.MagDipole.flux_accurate",
    "Verif.Rounded.MagDipole.potential_accurate",
    "Verif.Rounded.Sphere.potential_accurate",
    "Verif.Rounded.Sphere.field_accurate",
    "Verif.Rounded.Sphere.gradient_accurate_partial",
    "Verif.Rounded.PointMass.gradient_entry_not_accurate",
    "Verif.Rounded.Sphere.gradient_wrong_side",
    "Verif.Rounded.wirePotential_not_accurate",
    "Verif.Rounded.Electro.secondary_loses_accuracy",
    "Verif.Rounded.loopField_late",
    "Verif.Rounded.dipoleVertical_late",
    "Verif.Rounded.prism_exact_operations",
    "Verif.Rounded.GravPrism.loses_accuracy",
    "Verif.Rounded.GravPrism.gradient_diagonal_accurate_partial"
   ],
   "note": "False of the code in places: the gravity of a prism is a difference of eight node values, which loses all digits far away; secondary potentials are total minus primary (em/static/sphere.py:251), the late-time transient fields are differences of growing terms (em/tdem/simple_functions.py:79-83, 327-330), potentials of two electrodes and single entries of the gravity gradient cancel, and the gradient of a ball can come from the wrong side of its surface. Each has a witness arithmetic within the allowed errors. Accuracy with explicit constants is proved for the point mass, ball, poles, dipoles, point currents and, relative to 4 pi G rho, the diagonal of the prism's gradient. Overflow and underflow are not modelled."
  },
  {
   "property": "C117",
   "status": "proved",
   "theorems": [
    "Verif.Tdem.loopField_late",
    "Verif.Tdem.loopFieldTimeDeriv_late",
    "Verif.Tdem.loopFlux_late",
    "Verif.Tdem.dipoleField_late",
    "Verif.Tdem.dipoleFieldTimeDeriv_late",
    "Verif.Tdem.ElectricDipole.late",
    "Verif.Tdem.PlaneWave.late"
   ],
   "note": "Limits of the exact formulas as time goes to infinity, with the coefficients."
  },
  {
   "property": "C118",
   "status": "partial",
   "theorems": [
    "Verif.Okada.jump_is_slip",
    "Verif.Okada.jump_is_slip'",
    "Verif.Okada.no_jump_beyond",
    "Verif.Okada.no_jump_above",
    "Verif.Okada.on_trace_raises",
    "Verif.Okada.displacement_is_volterra"
   ],
   "note": "Proved for the displacement integral which displacement_is_volterra identifies with the program's result; false of the program within a millionth of a unit of length of the trace, where it raises (on_trace_raises)."
  },
  {
   "property": "C119",
   "status": "proved",
   "theorems": [
    "Verif.Static.MagDipole.dipole_mirrored",
    "Verif.Static.MagDipole.pole_mirrored",
    "Verif.Static.LineCurrent.electric_mirrored",
    "Verif.Static.LineCurrent.magnetic_mirrored",
    "Verif.Static.Loop.loop_mirrored",
    "Verif.Static.PointHalf.new_mirrored",
    "Verif.Static.PointHalf.point_mirrored",
    "Verif.Static.DipoleHalf.new_mirrored",
    "Verif.Static.DipoleHalf.dipole_mirrored",
    "Verif.Sphere.Electro.sphere_mirrored",
    "Verif.Sphere.Magneto.sphere_mirrored",
    "Verif.Gravity.PointMass.mass_mirrored",
    "Verif.Gravity.Sphere.ball_mirrored",
    "Verif.Fdem.ElectricDipole.dipole_mirrored",
    "Verif.Fdem.MagneticDipole.dipole_mirrored",
    "Verif.Fdem.HalfDipole.dipole_mirrored",
    "Verif.Fdem.LayeredDipole.dipole_mirrored",
    "Verif.Fdem.PlaneWave.wave_mirrored",
    "Verif.Tdem.ElectricDipole.dipole_mirrored",
    "Verif.Tdem.PlaneWave.wave_mirrored",
    "Verif.Tdem.HalfspaceDipole.dipole_mirrored",
    "Verif.Prism.gravPrism_mirrored",
    "Verif.Prism.magPrism_mirrored",
    "Verif.Okada.fault_mirrored",
    "Verif.Okada.vertical_mirrored",
    "Verif.Okada.vertical_sides",
    "Verif.Motion.plane_mirror"
   ],
   "note": "Wires and loops as in C103. Prisms: fields off the surface where the formula is right. Fault: stations that _dc3d3 resolves, as in C91."
  },
  {
   "property": "C120",
   "status": "proved",
   "theorems": [
    "Verif.Gravity.Sphere.potential_is_integral",
    "Verif.Gravity.Sphere.field_is_integral",
    "Verif.Gravity.Sphere.mass_is_integral",
    "Verif.Gravity.prism_in_sphere",
    "Verif.Gravity.PointMass.potential_mean",
    "Verif.Ball.newton_ball"
   ],
   "note": "Positive radius. Integrals in the sense of Lebesgue, shown to converge."
  },
  {
   "property": "C121",
   "status": "proved",
   "theorems": [
    "Verif.Tdem.dipoleField_reverses",
    "Verif.Tdem.dipoleFieldTimeDeriv_reverses",
    "Verif.Tdem.dipoleField_radial",
    "Verif.Tdem.ElectricDipole.axis_never_reverses",
    "Verif.Tdem.ElectricDipole.beside_reverses"
   ],
   "note": "Positive times, conductivities and permeabilities; off the source."
  },
  {
   "property": "C122",
   "status": "proved",
   "theorems": [
    "Verif.Sphere.electro_no_contrast",
    "Verif.Sphere.electro_inside",
    "Verif.Sphere.electro_good_conductor",
    "Verif.Sphere.electro_poor_conductor",
    "Verif.Sphere.magneto_no_contrast",
    "Verif.Sphere.magneto_inside",
    "Verif.Sphere.magneto_soft"
   ],
   "note": "Statements about fields outside a sphere with contrast are those of C35-C37, where the code is wrong."
  },
  {
   "property": "C123",
   "status": "proved",
   "theorems": [
    "Verif.RTE.thick_layer_rate",
    "Verif.RTE.thick_layer",
    "Verif.RTE.thin_layer",
    "Verif.Fdem.LayeredDipole.thick_layer",
    "Verif.Fdem.LayeredDipole.thin_layer"
   ],
   "note": "Physical earth models (Physical); the field with any digital filter."
  },
  {
   "property": "C124",
   "status": "proved",
   "theorems": [
    "Verif.PolygonLoop.polygon_near_loop",
    "Verif.PolygonLoop.polygon_near_loop_axial",
    "Verif.PolygonLoop.polygon_to_loop",
    "Verif.PolygonLoop.off_plane",
    "Verif.PolygonLoop.regular_tilted",
    "Verif.PolygonLoop.regular_horizontal"
   ],
   "note": "Outside the near-axis region of the loop for all three components (C38), everywhere for the axial one; for polygons none of whose sides is inside the tolerance band about x (C30), which holds for all n if the axis is not perpendicular to x and up to 10^20 sides for horizontal loops."
  },
  {
   "property": "C125",
   "status": "proved",
   "theorems": [
    "Verif.Elastic.faultDisplacement_le",
    "Verif.Elastic.faultDisplacement_far",
    "Verif.Okada.displacement_bounded",
    "Verif.Okada.displacement_far"
   ],
   "note": "One or three stations (other numbers raise, C96), as for C91."
  },
  {
   "property": "C126",
   "status": "proved",
   "theorems": [
    "Verif.Fdem.MagneticDipole.energy_balance",
    "Verif.Fdem.MagneticDipole.energy_outward",
    "Verif.Fdem.ElectricDipole.energy_balance",
    "Verif.Fdem.ElectricDipole.energy_from_nowhere",
    "Verif.Fdem.ElectricDipole.energy_outward",
    "Verif.Fdem.PlaneWave.energy_balance",
    "Verif.Fdem.PlaneWave.energy_downward",
    "Verif.Tdem.ElectricDipole.energy_balance",
    "Verif.Tdem.PlaneWave.energy_balance",
    "Verif.Tdem.PlaneWave.energy_downward",
    "Verif.Energy.meanFlow_eq"
   ],
   "note": "With displacement currents the electric dipole violates Faraday's law (C45) and with it this balance: energy_from_nowhere gives the excess."
  },
  {
   "property": "C127",
   "status": "proved",
   "theorems": [
    "Verif.RTE.hidden_below",
    "Verif.Fdem.LayeredDipole.skin_effect",
    "Verif.Fdem.LayeredDipole.rTE_high_frequency",
    "Verif.Fdem.LayeredDipole.high_frequency"
   ],
   "note": "In the quasi-static approximation. With displacement currents waves above a cutoff are not attenuated by insulating layers, and no such bound is claimed."
  },
  {
   "property": "C128",
   "status": "proved",
   "theorems": [
    "Verif.Gravity.PointMass.plane_total",
    "Verif.Gravity.PointMass.gradient_plane_total",
    "Verif.Gravity.Sphere.plane_total",
    "Verif.Gravity.Sphere.plane_total_off",
    "Verif.Prism.GravPrism.plane_total",
    "Verif.Prism.GravPrism.plane_total_off",
    "Verif.Prism.GravPrism.gradient_plane_total",
    "Verif.Prism.MagPrism.plane_total",
    "Verif.Static.MagDipole.plane_total",
    "Verif.Static.MagDipole.pole_plane_total",
    "Verif.Static.pointCurrent_plane_total",
    "Verif.Static.PointHalf.plane_total"
   ],
   "note": "Gauss's law for planes."
  },
  {
   "property": "C129",
   "status": "proved",
   "theorems": [
    "Verif.Sphere.Electro.secondary_is_induced",
    "Verif.Sphere.Magneto.secondary_is_induced",
    "Verif.Sphere.Electro.moment_of_induced",
    "Verif.Sphere.Magneto.moment_of_induced",
    "Verif.Sphere.Electro.no_net_charge"
   ],
   "note": "Stated for the potentials, as the fields returned outside a sphere are not their gradients (C35, C36)."
  },
  {
   "property": "C130",
   "status": "proved",
   "theorems": [
    "Verif.Prism.MagPrism.poisson_potential",
    "Verif.Prism.MagPrism.poisson_field",
    "Verif.Static.MagDipole.poisson",
    "Verif.Static.MagDipole.pole_poisson",
    "Verif.Static.pointCurrent_poisson",
    "Verif.Sphere.Electro.poisson",
    "Verif.Sphere.Magneto.poisson"
   ],
   "note": "Holds at every point, with the value that the exact-arithmetic model gives a division by zero at the source itself."
  },
  {
   "property": "C131",
   "status": "proved",
   "theorems": [
    "Verif.Gravity.PointMass.euler",
    "Verif.Gravity.Sphere.euler",
    "Verif.Static.MagDipole.euler",
    "Verif.Static.pointCurrent_euler",
    "Verif.Static.PointHalf.euler"
   ],
   "note": "For the dipole and the pole, for which the package has no gradient, stated for whatever the Jacobian is; it exists by C26."
  },
  {
   "property": "C132",
   "status": "proved",
   "theorems": [
    "Verif.Fdem.PlaneWave.impedance",
    "Verif.Fdem.PlaneWave.apparent_resistivity",
    "Verif.Tdem.PlaneWave.ratio"
   ],
   "note": "The orientation is any vector; its vertical component does not enter."
  },
  {
   "property": "C133",
   "status": "proved",
   "theorems": [
    "Verif.RTE.forward_low",
    "Verif.Fdem.LayeredDipole.low_induction",
    "Verif.Fdem.half_low_vertical",
    "Verif.Fdem.half_low_horizontal",
    "Verif.Fdem.loop_low"
   ],
   "note": "The conductivities do not vary with frequency. The vertical component of the field of a horizontal dipole (and the radial one of a vertical dipole) contains Bessel functions and is left out."
  },
  {
   "property": "C134",
   "status": "proved",
   "theorems": [
    "Verif.Outflow.congr",
    "Verif.Outflow.add",
    "Verif.Gravity.PointMass.outflow",
    "Verif.Gravity.Sphere.outflow",
    "Verif.Gravity.Sphere.outflow_around",
    "Verif.Prism.GravPrism.outflow",
    "Verif.Prism.GravPrism.outflow_around",
    "Verif.Static.MagDipole.pole_outflow",
    "Verif.Static.pointCurrent_outflow",
    "Verif.Static.PointHalf.outflow"
   ],
   "note": "Balls need a positive radius and prisms a positive volume. Sources on a face of the box are excluded for points, not for balls and prisms."
  },
  {
   "property": "C135",
   "status": "partial",
   "theorems": [
    "Verif.Fdem.ElectricDipole.coil_ampere",
    "Verif.Fdem.ElectricDipole.coil_faraday_partial",
    "Verif.Fdem.ElectricDipole.coil_voltage_factor",
    "Verif.Fdem.ElectricDipole.coil_faraday_fails",
    "Verif.Fdem.ElectricDipole.coil_faraday_fails_at",
    "Verif.Fdem.ElectricDipole.coil_potential",
    "Verif.Fdem.ElectricDipole.crate_conserves",
    "Verif.Fdem.MagneticDipole.coil_faraday",
    "Verif.Fdem.MagneticDipole.coil_ampere",
    "Verif.Fdem.MagneticDipole.crate_conserves",
    "Verif.Fdem.PlaneWave.coil_faraday",
    "Verif.Fdem.PlaneWave.coil_ampere",
    "Verif.Tdem.ElectricDipole.coil_faraday",
    "Verif.Tdem.ElectricDipole.coil_ampere",
    "Verif.Tdem.ElectricDipole.crate_conserves",
    "Verif.Tdem.ElectricDipole.coil_voltage",
    "Verif.Tdem.PlaneWave.coil_voltage",
    "Verif.Tdem.PlaneWave.coil_ampere",
    "Verif.Static.MagDipole.coil_potential",
    "Verif.Static.MagDipole.crate_conserves",
    "Verif.Static.line_coil_ampere",
    "Verif.Static.line_coil_closed",
    "Verif.Static.line_coil_potential"
   ],
   "note": "False of the code for the full-wave harmonic electric dipole: the voltage is too large by the factor (sigma + i omega epsilon) / sigma (coil_voltage_factor), so that Faraday's law fails for coils at every place with a field (coil_faraday_fails_at); proved for the quasistatic setting (coil_faraday_partial). All other sources are complete."
  },
  {
   "property": "C136",
   "status": "proved",
   "theorems": [
    "Verif.Gravity.PointMass.work_done",
    "Verif.Gravity.Sphere.work_done",
    "Verif.Prism.GravPrism.work_done",
    "Verif.Prism.MagPrism.work_done",
    "Verif.Static.MagDipole.pole_work",
    "Verif.Static.line_work",
    "Verif.Static.PointHalf.work_done",
    "Verif.Static.DipoleHalf.voltage"
   ],
   "note": "MagneticPrism returns H as plus the gradient of its scalar potential (see C24), so its work has the sign of the gravity classes; the path has to stay off the faces, where H jumps. Conducting and permeable spheres are left out: outside them the returned field is not a gradient (C35)."
  },
  {
   "property": "C137",
   "status": "proved",
   "theorems": [
    "Verif.Static.line_ampere_enclosed",
    "Verif.Static.closed_ampere_enclosed"
   ],
   "note": "The crossing number is specified in Spec/Crossing.lean from the nodes alone. H and J are the functions that agree with the returned values wherever the code does not divide by zero, i.e. off the lines through the pieces."
  },
  {
   "property": "C138",
   "status": "partial",
   "theorems": [
    "Verif.Fdem.HalfDipole.nan_far",
    "Verif.Fdem.HalfDipole.finite_near_partial",
    "Verif.Tdem.Reference.dhpF_not_finite",
    "Verif.Tdem.Reference.dhpF_exact_partial"
   ],
   "note": "False of the code: HalfDipole.nan_far and dhpF_not_finite give the regions of failure, finite_near_partial and dhpF_exact_partial the regions where the results are numbers. Only the Bessel functions overflow or underflow in the model; the other operations keep exact finite values."
  },
  {
   "property": "C139",
   "status": "proved",
   "theorems": [
    "Verif.Fdem.ElectricDipole.electricField_fades",
    "Verif.Fdem.ElectricDipole.magneticField_fades",
    "Verif.Fdem.MagneticDipole.magneticField_fades",
    "Verif.Fdem.MagneticDipole.electricField_fades",
    "Verif.Fdem.ElectricDipole.magneticField_damped",
    "Verif.Fdem.MagneticDipole.magneticField_damped_axis",
    "Verif.Fdem.MagneticDipole.magneticField_across"
   ],
   "note": "Sizes are the norms of the complex vectors (Spec/Energy.lean). The fields that circle around the dipole vanish on its axis, so the rays along the axis are left out for them."
  },
  {
   "property": "C140",
   "status": "partial",
   "theorems": [
    "Verif.Plot2D.grid_spans_stations",
    "Verif.Plot2D.node_position",
    "Verif.Plot2D.node_nearest",
    "Verif.Plot2D.node_nearest_vector",
    "Verif.Plot2D.node_linear",
    "Verif.Plot2D.colours_within_data",
    "Verif.Plot2D.hillshade_eq",
    "Verif.Plot2D.shading_range",
    "Verif.Plot2D.shading_partial",
    "Verif.Plot2D.shading_plane",
    "Verif.Plot2D.shading_from_wrong_side",
    "Verif.Plot2D.shading_depends_on_grid",
    "Verif.Plot2D.layers_order",
    "Verif.Plot2D.no_stations",
    "Verif.Plot2D.limits_first"
   ],
   "note": "False of the code for the shading: rows of the grid run north but the formula is one for images, whose rows run south, so the light comes from the azimuth counted from south (shading_from_wrong_side; right for light from east or west, shading_partial), and the slope is per node, not per metre, so the picture depends on nx and ny (shading_depends_on_grid). The rest is proved; the interpolators of scipy are assumed to give a nearest station or a convex combination of stations."
  },
  {
   "property": "C141",
   "status": "proved",
   "theorems": [
    "Verif.Static.DipoleHalf.reads_resistivity_buried",
    "Verif.Static.DipoleHalf.reads_resistivity",
    "Verif.Static.DipoleHalf.wenner",
    "Verif.Static.DipoleHalf.schlumberger",
    "Verif.Static.DipoleHalf.dipoleDipole",
    "Verif.Static.PointHalf.poleArrays",
    "Verif.Static.DipoleHalf.deep_is_wholespace"
   ],
   "note": "Geometric factors are in Spec/Electrodes.lean."
  },
  {
   "property": "C142",
   "status": "proved",
   "theorems": [
    "Verif.Static.near_wire"
   ],
   "note": "The point of the wire is off the lines through the other pieces; on those lines the code divides zero by zero."
  },
  {
   "property": "C143",
   "status": "proved",
   "theorems": [
    "Verif.Static.Loop.axis_ampere",
    "Verif.Static.Loop.helmholtz"
   ],
   "note": "Orientations are exactly vertical or at least 1e-20 away from vertical, as for C38."
  },
  {
   "property": "C144",
   "status": "proved",
   "theorems": [
    "Verif.Gravity.PointMass.depth_rule",
    "Verif.Gravity.Sphere.depth_rule",
    "Verif.Gravity.PointMass.gradient_zero",
    "Verif.Static.MagDipole.depth_rule",
    "Verif.Static.PointHalf.depth_rule"
   ],
   "note": "The survey line is in Spec/Profile.lean."
  },
  {
   "property": "C145",
   "status": "proved",
   "theorems": [
    "Verif.Rounded.distance_in_range",
    "Verif.Rounded.PointMass.in_range",
    "Verif.Rounded.Sphere.field_in_range",
    "Verif.Rounded.MagDipole.pole_in_range",
    "Verif.Rounded.pointCurrent_in_range",
    "Verif.Rounded.halfPotential_in_range",
    "Verif.Rounded.distance_underflows"
   ],
   "note": "Formulas in which terms of both signs are added (gradients, dipoles) are left to C116, which assumes an unlimited range."
  },
  {
   "property": "C146",
   "status": "partial",
   "theorems": [
    "Verif.SharedArrays.prism_turns_inside_out",
    "Verif.SharedArrays.frequency_and_time_turn_negative",
    "Verif.SharedArrays.masses_move_together",
    "Verif.SharedArrays.electrode_leaves_the_ground",
    "Verif.SharedArrays.not_changesOnlyByAssignment",
    "Verif.SharedArrays.kept_attributes_follow_the_callers_array",
    "Verif.SharedArrays.changes_only_by_assignment_partial",
    "Verif.SharedArrays.electrode_in_sync_partial",
    "Verif.SharedArrays.built_iff"
   ],
   "note": "False of the code for every array attribute: all getters return the stored array, and six setters keep a float array that the caller passes. Proved for attributes that copy their argument or are never given a float array, as long as nobody takes the array out with the getter."
  },
  {
   "property": "C147",
   "status": "proved",
   "theorems": [
    "Verif.Identify.PointMass.potential_identifies",
    "Verif.Identify.PointMass.gravity_identifies",
    "Verif.Identify.Sphere.indistinguishable",
    "Verif.Identify.Sphere.gravity_identifies",
    "Verif.Identify.MagDipole.pole_identified",
    "Verif.Identify.MagDipole.dipole_identified",
    "Verif.Identify.PointHalf.surface_identifies",
    "Verif.Identify.PointHalf.indistinguishable",
    "Verif.Identify.Electro.indistinguishable",
    "Verif.Identify.Magneto.indistinguishable",
    "Verif.Identify.Electro.fields_differ"
   ],
   "note": "The electric fields of spheres with equal potentials differ as computed, because of the finding at C35 (fields_differ)."
  },
  {
   "property": "C148",
   "status": "proved",
   "theorems": [
    "Verif.Prism.GravPrism.plate_bound",
    "Verif.Prism.GravPrism.plate_near",
    "Verif.Prism.GravPrism.bouguer",
    "Verif.Prism.GravPrism.potential_sensitivity",
    "Verif.Prism.MagPrism.potential_bound",
    "Verif.Prism.edgeEffect_vanishes",
    "Verif.Prism.GravPrism.plate_gradient",
    "Verif.Prism.MagPrism.plate_magnetised"
   ],
   "note": "Exact real arithmetic. For the magnetised plate the component across the faces is treated."
  },
  {
   "property": "C149",
   "status": "proved",
   "theorems": [
    "Verif.Gravity.PointMass.sensitivity",
    "Verif.Gravity.Sphere.sensitivity",
    "Verif.Gravity.Sphere.sensitivity_sharp",
    "Verif.Static.PointHalf.sensitivity",
    "Verif.Static.MagDipole.pole_sensitivity",
    "Verif.Static.MagDipole.sensitivity"
   ],
   "note": "Exact real arithmetic."
  },
  {
   "property": "C150",
   "status": "partial",
   "theorems": [
    "Verif.Stations.numbers",
    "Verif.Stations.list_iff",
    "Verif.Stations.list_values",
    "Verif.Stations.complex_refused_partial",
    "Verif.Stations.complex_dropped",
    "Verif.Stations.refusals",
    "Verif.Stations.tuple_numbers",
    "Verif.Stations.tuple_complex",
    "Verif.Stations.tuple_complex_refused_partial",
    "Verif.Stations.tuple_text",
    "Verif.Stations.tuple_of_stations"
   ],
   "note": "False for complex numbers: arrays and tuples of them are accepted and lose their imaginary parts. numpy scalars and arrays inside lists, and warnings, are not modelled."
  },
  {
   "property": "C151",
   "status": "proved",
   "theorems": [
    "Verif.Reaction.prism_prism",
    "Verif.Reaction.prism_sphere",
    "Verif.Reaction.sphere_sphere",
    "Verif.Reaction.no_self_force",
    "Verif.Reaction.point_bodies",
    "Verif.Reaction.point_mean",
    "Verif.Reaction.prism_mean",
    "Verif.Reaction.point_no_extremum",
    "Verif.Reaction.prism_no_extremum",
    "Verif.Static.PointHalf.no_extremum"
   ],
   "note": "Real arithmetic. Between two point masses the statement is elementary and not included."
  },
  {
   "property": "C152",
   "status": "partial",
   "theorems": [
    "Verif.Rounded.pointMass_mirrored",
    "Verif.Rounded.sphere_mirrored",
    "Verif.Rounded.magDipole_mirrored",
    "Verif.Rounded.electrode_mirrored",
    "Verif.Rounded.exchanged",
    "Verif.Rounded.reversed",
    "Verif.Rounded.distance_mono",
    "Verif.Rounded.potential_falls",
    "Verif.Rounded.field_attracts",
    "Verif.Rounded.prism_moved",
    "Verif.Rounded.tensor_symmetric_partial",
    "Verif.Rounded.pointMass_tensor_asymmetric"
   ],
   "note": "False for the tensor of a point mass, which is not symmetric to the last bit. Infinities and NaN (overflow, stations at a source) are not modelled."
  },
  {
   "property": "C153",
   "status": "proved",
   "theorems": [
    "Verif.Prism.MagPrism.demagnetising",
    "Verif.Prism.MagPrism.centre_field",
    "Verif.Prism.centreFactor_laws",
    "Verif.Prism.MagPrism.cube",
    "Verif.Prism.GravPrism.gradient_inside"
   ],
   "note": ""
  },
  {
   "property": "C154",
   "status": "proved",
   "theorems": [
    "Verif.Static.MagDipole.at_latitude",
    "Verif.Static.MagDipole.strength",
    "Verif.Static.MagDipole.dip",
    "Verif.Static.MagDipole.field_lines",
    "Verif.Gravity.PointMass.tides",
    "Verif.Gravity.Sphere.strongest",
    "Verif.Gravity.Sphere.deepest"
   ],
   "note": ""
  },
  {
   "property": "C155",
   "status": "proved",
   "theorems": [
    "Verif.Voxels.prisms_close",
    "Verif.Voxels.ball_close",
    "Verif.Voxels.cubes_close",
    "Verif.Voxels.cubes_converge"
   ],
   "note": ""
  },
  {
   "property": "C156",
   "status": "proved",
   "theorems": [
    "Verif.Spatial.shortest_turn",
    "Verif.Spatial.only_turn",
    "Verif.Spatial.turn_undone",
    "Verif.Spatial.points_undone",
    "Verif.Spatial.turn_turned",
    "Verif.Spatial.turn_directions"
   ],
   "note": "the angle of a rotation is the one whose cosine is (trace - 1)/2; inside the tolerance band C10 bounds the error"
  },
  {
   "property": "C157",
   "status": "proved",
   "theorems": [
    "Verif.Reaction.prism_torque",
    "Verif.Reaction.ball_torque",
    "Verif.Reaction.point_torque",
    "Verif.Static.dipoles_balance",
    "Verif.Static.dipoles_attract"
   ],
   "note": "real arithmetic; the force on a dipole is the gradient of the moment times the flux density"
  },
  {
   "property": "C158",
   "status": "proved",
   "theorems": [
    "Verif.Static.wires_balance",
    "Verif.Static.Loop.loops_balance",
    "Verif.Static.Loop.loop_wire_balance"
   ],
   "note": "real arithmetic; direction and node conditions as in C30 and C74"
  },
  {
   "property": "C159",
   "status": "proved",
   "theorems": [
    "Verif.Reaction.prism_in_prism",
    "Verif.Reaction.prism_and_balls",
    "Verif.Reaction.prism_below_ball"
   ],
   "note": "real arithmetic"
  },
  {
   "property": "C160",
   "status": "proved",
   "theorems": [
    "Verif.Gravity.layered_field",
    "Verif.Gravity.layers_invisible",
    "Verif.Gravity.cavity_uniform",
    "Verif.Gravity.cavity_gradient",
    "Verif.Gravity.shell"
   ],
   "note": "real arithmetic; the mass within a distance is the volume integral of the density"
  },
  {
   "property": "C161",
   "status": "partial",
   "theorems": [
    "Verif.Static.Loop.flux_close",
    "Verif.Static.Loop.potential_close_partial",
    "Verif.Static.Loop.potential_unbounded"
   ],
   "note": "proved for the flux density; false for the vector potential, whose third order term divides by a^2 - 4 z^2 where the series multiplies: potential_unbounded shows errors beyond any bound, potential_close_partial what remains true"
  },
  {
   "property": "C162",
   "status": "proved",
   "theorems": [
    "Verif.Rounded.spatial_exact_operations",
    "Verif.Rounded.cylToCart_accurate",
    "Verif.Rounded.toCurvilinear_accurate",
    "Verif.Rounded.cylinder_and_back",
    "Verif.Rounded.sphere_and_back",
    "Verif.Rounded.cartToCylVec_accurate",
    "Verif.Rounded.cylToCartVec_accurate"
   ],
   "note": "overflow and underflow are not modelled; the spherical conversion of vectors is left out because it is wrong in exact arithmetic already (C09)"
  },
  {
   "property": "C163",
   "status": "partial",
   "theorems": [
    "Verif.Rounded.scales_exact_operations",
    "Verif.Rounded.scales_accurate",
    "Verif.Rounded.totals_accurate",
    "Verif.Rounded.skinDepth_loses_accuracy"
   ],
   "note": "False of the code for skin_depth with quasistatic=False (em/fdem/base.py:130), which can lose all digits: skinDepth_loses_accuracy gives an arithmetic within the allowed errors that returns zero. Proved for the rest. Overflow and underflow are not modelled."
  },
  {
   "property": "C164",
   "status": "proved",
   "theorems": [
    "Verif.Gravity.Sphere.energy_of_mass",
    "Verif.Gravity.Sphere.energy_of_field",
    "Verif.Gravity.Sphere.energy_balance",
    "Verif.Gravity.Sphere.energy_pos",
    "Verif.Gravity.Sphere.energy_between"
   ],
   "note": "Values in exact arithmetic."
  },
  {
   "property": "C165",
   "status": "proved",
   "theorems": [
    "Verif.Enclosing.prism",
    "Verif.Enclosing.sphere",
    "Verif.Enclosing.point",
    "Verif.Enclosing.tells_centre",
    "Verif.Enclosing.magnetic_prism",
    "Verif.Enclosing.electro_sphere"
   ],
   "note": "Values in exact arithmetic."
  }
 ]
}