{
 "claims": [
  {
   "property": "C01",
   "status": "proved",
   "theorems": [
    "Newt.C01_newton_third_gravity"
   ],
   "note": ""
  },
  {
   "property": "C02",
   "status": "proved",
   "theorems": [
    "Newt.C02_newton_third_yukawa"
   ],
   "note": ""
  },
  {
   "property": "C03",
   "status": "proved",
   "theorems": [
    "Newt.C03_gravity_append_left",
    "Newt.C03_gravity_append_right",
    "Newt.C03_yukawa_append_left",
    "Newt.C03_yukawa_append_right",
    "Newt.C03_gravity_perm",
    "Newt.C03_yukawa_perm",
    "Newt.C03_gravity_mass",
    "Newt.C03_yukawa_mass",
    "Newt.C03_row_forms"
   ],
   "note": ""
  },
  {
   "property": "C04",
   "status": "proved",
   "theorems": [
    "Newt.C04_gravity_translation",
    "Newt.C04_yukawa_translation"
   ],
   "note": ""
  },
  {
   "property": "C05",
   "status": "proved",
   "theorems": [
    "Newt.C05_gravity_rotation",
    "Newt.C05_yukawa_rotation"
   ],
   "note": ""
  },
  {
   "property": "C06",
   "status": "proved",
   "theorems": [
    "Newt.C06_rotate_is_rotation",
    "Newt.C06_rotation_rigid",
    "Newt.C06_axis_length",
    "Newt.C06_zero_axis"
   ],
   "note": ""
  },
  {
   "property": "C07",
   "status": "proved",
   "theorems": [
    "Newt.C07_rotate_add",
    "Newt.C07_rotate_full_turn",
    "Newt.C07_rotate_sequence",
    "Newt.C07_translate_add",
    "Newt.C07_translate_sequence",
    "Newt.C07_translate_inverse"
   ],
   "note": ""
  },
  {
   "property": "C08",
   "status": "proved",
   "theorems": [
    "Newt.C08_gravity_gradient",
    "Newt.C08_yukawa_gradient"
   ],
   "note": ""
  },
  {
   "property": "C09",
   "status": "proved",
   "theorems": [
    "Newt.C09_gravity_defined_iff",
    "Newt.C09_yukawa_defined_iff",
    "Newt.C09_array_defined_iff"
   ],
   "note": ""
  },
  {
   "property": "C10",
   "status": "proved",
   "theorems": [
    "Newt.C10_yukawa_weaker",
    "Newt.C10_yukawa_limit"
   ],
   "note": ""
  },
  {
   "property": "C11",
   "status": "proved",
   "theorems": [
    "Newt.C11_qmoments_spherical",
    "Newt.C11_qmoments_cartesian",
    "Newt.C11_low_degrees"
   ],
   "note": ""
  },
  {
   "property": "C12",
   "status": "proved",
   "theorems": [
    "Newt.C12_cutoff",
    "Newt.C12_cutoff_outer"
   ],
   "note": ""
  },
  {
   "property": "C13",
   "status": "proved",
   "theorems": [
    "Newt.C13_fails_iff",
    "Newt.C13_otherwise_correct"
   ],
   "note": ""
  },
  {
   "property": "C14",
   "status": "proved",
   "theorems": [
    "Newt.C14_inner",
    "Newt.C14_outer"
   ],
   "note": ""
  },
  {
   "property": "C15",
   "status": "proved",
   "theorems": [
    "Newt.C15_qmoment",
    "Newt.C15_Qmomentb",
    "Newt.C15_qmoment_fails_iff"
   ],
   "note": ""
  },
  {
   "property": "C16",
   "status": "proved",
   "theorems": [
    "Newt.C16_Qmomentsb_spherical",
    "Newt.C16_Qmomentsb_valid",
    "Newt.C16_origin_zero"
   ],
   "note": ""
  },
  {
   "property": "C17",
   "status": "proved",
   "theorems": [
    "Newt.C17_imoment",
    "Newt.C17_imoments",
    "Newt.C17_agree_ends",
    "Newt.C17_disagree",
    "Newt.C17_disagree_witness"
   ],
   "note": ""
  },
  {
   "property": "C18",
   "status": "proved",
   "theorems": [
    "Newt.C18_translate_qmoments",
    "Newt.C18_translate_qmoments_some"
   ],
   "note": ""
  },
  {
   "property": "C19",
   "status": "proved",
   "theorems": [
    "Newt.C19_compose",
    "Newt.C19_zero",
    "Newt.C19_inverse",
    "Newt.C19_sequence",
    "Newt.C19_valid",
    "Newt.C19_monopole",
    "Newt.C19_leading_invariant"
   ],
   "note": ""
  },
  {
   "property": "C20",
   "status": "proved",
   "theorems": [
    "Newt.C20_compose",
    "Newt.C20_zero",
    "Newt.C20_inverse",
    "Newt.C20_sequence",
    "Newt.C20_valid",
    "Newt.C20_top_invariant"
   ],
   "note": ""
  },
  {
   "property": "C21",
   "status": "proved",
   "theorems": [
    "Newt.C21_adjoint",
    "Newt.C21_common_motion"
   ],
   "note": ""
  },
  {
   "property": "C22",
   "status": "proved",
   "theorems": [
    "Newt.C22_selection"
   ],
   "note": ""
  },
  {
   "property": "C23",
   "status": "proved",
   "theorems": [
    "Newt.C23_implementations_agree"
   ],
   "note": ""
  },
  {
   "property": "C24",
   "status": "proved",
   "theorems": [
    "Newt.C24_racah",
    "Newt.C24_reflection",
    "Newt.C24_stretched",
    "Newt.C24_antistretched"
   ],
   "note": ""
  },
  {
   "property": "C25",
   "status": "proved",
   "theorems": [
    "Newt.C25_rotate_qmoments"
   ],
   "note": ""
  },
  {
   "property": "C26",
   "status": "proved",
   "theorems": [
    "Newt.C26_Dl_unitary",
    "Newt.C26_wignerDl_unitary",
    "Newt.C26_norm_preserved"
   ],
   "note": ""
  },
  {
   "property": "C27",
   "status": "proved",
   "theorems": [
    "Newt.C27_about_z",
    "Newt.C27_zero",
    "Newt.C27_beta_full_turn"
   ],
   "note": ""
  },
  {
   "property": "C28",
   "status": "proved",
   "theorems": [
    "Newt.C28_wigner_fails_iff",
    "Newt.C28_rotate_qlm_total",
    "Newt.C28_torque_fails_iff",
    "Newt.C28_trr_fails_iff"
   ],
   "note": ""
  },
  {
   "property": "C29",
   "status": "proved",
   "theorems": [
    "Newt.C29_translate_qlm",
    "Newt.C29_translate_Qlmb",
    "Newt.C29_translate_q2Q",
    "Newt.C29_q2Q_zero_differ",
    "Newt.C29_translate_qmoments"
   ],
   "note": ""
  },
  {
   "property": "C30",
   "status": "proved",
   "theorems": [
    "Newt.C30_reality",
    "Newt.C30_real_imag",
    "Newt.C30_entries",
    "Newt.C30_degree_mismatch"
   ],
   "note": ""
  },
  {
   "property": "C31",
   "status": "proved",
   "theorems": [
    "Newt.C31_torque_is_energy_derivative",
    "Newt.C31_outer",
    "Newt.C31_fails_iff"
   ],
   "note": ""
  },
  {
   "property": "C32",
   "status": "proved",
   "theorems": [
    "Newt.C32_entries",
    "Newt.C32_roundtrip",
    "Newt.C32_down_up_iff",
    "Newt.C32_valid",
    "Newt.C32_truncate_qmoments",
    "Newt.C32_rotate",
    "Newt.C32_translate_truncate",
    "Newt.C32_translate_outer_pad",
    "Newt.C32_negative",
    "Newt.C32_energy"
   ],
   "note": ""
  },
  {
   "property": "C33",
   "status": "proved",
   "theorems": [
    "Newt.C33_force_is_gradient",
    "Newt.C33_fails_iff",
    "Newt.C33_m_columns",
    "Newt.C33_m_sums",
    "Newt.C33_relative"
   ],
   "note": ""
  },
  {
   "property": "C34",
   "status": "proved",
   "theorems": [
    "Newt.C34_error_bound",
    "Newt.C34_energy_converges"
   ],
   "note": ""
  },
  {
   "property": "C35",
   "status": "proved",
   "theorems": [
    "Newt.C35_sphere",
    "Newt.C35_cylinder",
    "Newt.C35_annulus",
    "Newt.C35_cone",
    "Newt.C35_tri_iso_prism",
    "Newt.C35_tri_iso_prism2",
    "Newt.C35_tri_prism",
    "Newt.C35_rect_prism",
    "Newt.C35_ngon_prism",
    "Newt.C35_tetrahedron",
    "Newt.C35_tetrahedron2",
    "Newt.C35_pyramid"
   ],
   "note": ""
  },
  {
   "property": "C36",
   "status": "proved",
   "theorems": [
    "Newt.C36_sphere",
    "Newt.C36_cylinder",
    "Newt.C36_annulus",
    "Newt.C36_cone",
    "Newt.C36_tri_iso_prism",
    "Newt.C36_tri_iso_prism2",
    "Newt.C36_tri_prism",
    "Newt.C36_rect_prism",
    "Newt.C36_ngon_prism",
    "Newt.C36_tetrahedron",
    "Newt.C36_tetrahedron2",
    "Newt.C36_pyramid",
    "Newt.C36_annulus_accepts",
    "Newt.C36_annulus_empty"
   ],
   "note": ""
  },
  {
   "property": "C37",
   "status": "proved",
   "theorems": [
    "Newt.C37_sphere",
    "Newt.C37_cylinder",
    "Newt.C37_annulus",
    "Newt.C37_cone",
    "Newt.C37_tri_iso_prism",
    "Newt.C37_tri_iso_prism2",
    "Newt.C37_tri_prism",
    "Newt.C37_rect_prism",
    "Newt.C37_ngon_prism",
    "Newt.C37_tetrahedron",
    "Newt.C37_tetrahedron2",
    "Newt.C37_pyramid"
   ],
   "note": ""
  },
  {
   "property": "C38",
   "status": "proved",
   "theorems": [
    "Newt.C38_history",
    "Newt.C38_total",
    "Newt.C38_rect_prism",
    "Newt.C38_ngon",
    "Newt.C38_sphere",
    "Newt.C38_annulus_iff",
    "Newt.C38_cone_com_wrong",
    "Newt.C38_tetrahedron_com_wrong",
    "Newt.C38_pyramid_com_wrong",
    "Newt.C38_tri_prism_com_wrong",
    "Newt.C38_add_massless",
    "Newt.C38_add_pads"
   ],
   "note": ""
  },
  {
   "property": "C39",
   "status": "proved",
   "theorems": [
    "Newt.C39_outer_to_inner",
    "Newt.C39_not_atomic",
    "Newt.C39_translate_fails_iff",
    "Newt.C39_no_mesh",
    "Newt.C39_add_mixed",
    "Newt.C39_add_no_mesh"
   ],
   "note": ""
  },
  {
   "property": "C40",
   "status": "proved",
   "theorems": [
    "Newt.Multi.C40_program",
    "Newt.Multi.C40_terminates",
    "Newt.Multi.C40_add_first",
    "Newt.Multi.C40_rotate_first",
    "Newt.Multi.C40_unknown_last",
    "Newt.Multi.C40_create_last",
    "Newt.Multi.C40_add_in_comment",
    "Newt.Multi.C40_cone_ignores_top",
    "Newt.Multi.C40_triangle_negative",
    "Newt.Multi.C40_trapezoid_equal",
    "Newt.Multi.C40_platehole_degree",
    "Newt.Multi.C40_platehole_refused",
    "Newt.Multi.C40_zero_keeps_nan"
   ],
   "note": ""
  },
  {
   "property": "C41",
   "status": "proved",
   "theorems": [
    "Newt.Multi.C41_gsq",
    "Newt.Multi.C41_gbq",
    "Newt.Multi.C41_too_many",
    "Newt.Multi.C41_blank_line"
   ],
   "note": ""
  },
  {
   "property": "C42",
   "status": "proved",
   "theorems": [
    "Newt.C42_sphere",
    "Newt.C42_rectangle",
    "Newt.C42_annulus",
    "Newt.C42_cone",
    "Newt.C42_spherical_random_shell",
    "Newt.C42_wedge",
    "Newt.C42_trapezoid",
    "Newt.C42_trapezoid_wide_is_massless",
    "Newt.C42_outer_cone",
    "Newt.C42_tri_prism",
    "Newt.C42_tetrahedron",
    "Newt.C42_ngon_prism",
    "Newt.C42_pyramid",
    "Newt.C42_cylhole",
    "Newt.C42_platehole"
   ],
   "note": ""
  },
  {
   "property": "C43",
   "status": "proved",
   "theorems": [
    "Newt.C43_sphere",
    "Newt.C43_sphere_is_a_cube",
    "Newt.C43_rectangle",
    "Newt.C43_rectangle_outside",
    "Newt.C43_annulus",
    "Newt.C43_wedge",
    "Newt.C43_cone",
    "Newt.C43_spherical_random_shell",
    "Newt.C43_trapezoid",
    "Newt.C43_outer_cone",
    "Newt.C43_tri_prism",
    "Newt.C43_tri_prism_no_negative_y",
    "Newt.C43_tri_prism_below_axis_fails",
    "Newt.C43_tetrahedron",
    "Newt.C43_ngon_prism",
    "Newt.C43_pyramid_half_base",
    "Newt.C43_pyramid",
    "Newt.C43_cylhole",
    "Newt.C43_platehole",
    "Newt.C43_platehole_narrow"
   ],
   "note": ""
  },
  {
   "property": "C44",
   "status": "proved",
   "theorems": [
    "Newt.C44_rectangle_first_moment",
    "Newt.C44_rectangle_centred_iff",
    "Newt.C44_sphere",
    "Newt.C44_annulus",
    "Newt.C44_cylhole",
    "Newt.C44_platehole",
    "Newt.C44_wedge",
    "Newt.C44_cone",
    "Newt.C44_outer_cone",
    "Newt.C44_trapezoid",
    "Newt.C44_tri_prism",
    "Newt.C44_ngon_prism",
    "Newt.C44_pyramid"
   ],
   "note": ""
  },
  {
   "property": "C45",
   "status": "proved",
   "theorems": [
    "Newt.C45_gravity_torque_derivative",
    "Newt.C45_yukawa_torque_derivative"
   ],
   "note": ""
  },
  {
   "property": "C46",
   "status": "proved",
   "theorems": [
    "Newt.C46_recursion_eq_explicit",
    "Newt.C46_dlmn"
   ],
   "note": ""
  },
  {
   "property": "C47",
   "status": "proved",
   "theorems": [
    "Newt.C47_inverse",
    "Newt.C47_valid",
    "Newt.C47_Ds",
    "Newt.C47_Ds_mismatch"
   ],
   "note": ""
  },
  {
   "property": "C48",
   "status": "proved",
   "theorems": [
    "Newt.C48_rotate_translate"
   ],
   "note": ""
  },
  {
   "property": "C49",
   "status": "proved",
   "theorems": [
    "Newt.C49_q2Q_monopole"
   ],
   "note": ""
  },
  {
   "property": "C50",
   "status": "proved",
   "theorems": [
    "Newt.C50_inner_inner",
    "Newt.C50_inner_outer"
   ],
   "note": ""
  },
  {
   "property": "C51",
   "status": "proved",
   "theorems": [
    "Newt.C51_inner_outer_axis",
    "Newt.C51_wrong_sign"
   ],
   "note": ""
  },
  {
   "property": "C52",
   "status": "proved",
   "theorems": [
    "Newt.C52_outer_outer",
    "Newt.C52_wrong_sign"
   ],
   "note": ""
  },
  {
   "property": "C53",
   "status": "proved",
   "theorems": [
    "Newt.C53_rotate_outer",
    "Newt.C53_inner_convention_turns_backwards"
   ],
   "note": ""
  },
  {
   "property": "C54",
   "status": "proved",
   "theorems": [
    "Newt.C54_force_converges"
   ],
   "note": ""
  },
  {
   "property": "C55",
   "status": "proved",
   "theorems": [
    "Newt.C55_torque_converges"
   ],
   "note": ""
  },
  {
   "property": "C56",
   "status": "proved",
   "theorems": [
    "Newt.C56_translate",
    "Newt.C56_rotate",
    "Newt.C56_annulus"
   ],
   "note": ""
  },
  {
   "property": "C57",
   "status": "proved",
   "theorems": [
    "Newt.C57_translate",
    "Newt.C57_rotate",
    "Newt.C57_rotate_equal_azimuths",
    "Newt.C57_mesh_differs"
   ],
   "note": ""
  },
  {
   "property": "C58",
   "status": "proved",
   "theorems": [
    "Newt.C58_outer_rotate_backwards"
   ],
   "note": ""
  },
  {
   "property": "C59",
   "status": "proved",
   "theorems": [
    "Newt.C59_error",
    "Newt.C59_converges",
    "Newt.C59_points"
   ],
   "note": ""
  },
  {
   "property": "C60",
   "status": "proved",
   "theorems": [
    "Newt.C60_error",
    "Newt.C60_converges",
    "Newt.C60_points"
   ],
   "note": ""
  },
  {
   "property": "C61",
   "status": "proved",
   "theorems": [
    "Newt.C61_error",
    "Newt.C61_converges",
    "Newt.C61_annulus_points"
   ],
   "note": ""
  },
  {
   "property": "C62",
   "status": "proved",
   "theorems": [
    "Newt.C62_error",
    "Newt.C62_converges",
    "Newt.C62_points"
   ],
   "note": ""
  },
  {
   "property": "C63",
   "status": "proved",
   "theorems": [
    "Newt.C63_cyl_mom",
    "Newt.C63_cyl_mom_negative_angle",
    "Newt.C63_cone_mom",
    "Newt.C63_trap_mom",
    "Newt.C63_steinmetz",
    "Newt.C63_platehole",
    "Newt.C63_platehole_negative",
    "Newt.C63_agrees_with_annulus"
   ],
   "note": ""
  },
  {
   "property": "C64",
   "status": "proved",
   "theorems": [
    "Newt.C64_annulus",
    "Newt.C64_annulus_refuses",
    "Newt.C64_outer_cone",
    "Newt.C64_trapezoid",
    "Newt.C64_trapezoid_refuses",
    "Newt.C64_outer_cone_accepts_origin"
   ],
   "note": ""
  },
  {
   "property": "C65",
   "status": "proved",
   "theorems": [
    "Newt.C65_point",
    "Newt.C65_origin",
    "Newt.C65_ball"
   ],
   "note": ""
  },
  {
   "property": "C66",
   "status": "proved",
   "theorems": [
    "Newt.C66_annulus",
    "Newt.C66_annulus_20",
    "Newt.C66_annulus_53",
    "Newt.C66_annulus_wrong_side",
    "Newt.C66_annulus_above",
    "Newt.C66_annulus_refuses_iff",
    "Newt.C66_annulus_disc",
    "Newt.C66_annulus_above_wrong",
    "Newt.C66_agrees_with_numeric"
   ],
   "note": ""
  },
  {
   "property": "C67",
   "status": "proved",
   "theorems": [
    "Newt.C67_rect_prism",
    "Newt.C67_annulus",
    "Newt.C67_tri_prism",
    "Newt.C67_cylindrical_section"
   ],
   "note": ""
  },
  {
   "property": "C68",
   "status": "proved",
   "theorems": [
    "Newt.C68_tetrahedron",
    "Newt.C68_pyramid",
    "Newt.C68_platehole",
    "Newt.C68_cylhole2"
   ],
   "note": ""
  },
  {
   "property": "C69",
   "status": "proved",
   "theorems": [
    "Newt.C69_cone",
    "Newt.C69_cone_right_iff",
    "Newt.C69_cone2",
    "Newt.C69_cone2_right_iff",
    "Newt.C69_trapezoid",
    "Newt.C69_trapezoid_right_iff",
    "Newt.C69_cylhole",
    "Newt.C69_cylhole_wrong"
   ],
   "note": ""
  },
  {
   "property": "C70",
   "status": "proved",
   "theorems": [
    "Newt.C70_refused",
    "Newt.C70_trapezoid_zero",
    "Newt.C70_annulus_negative_radius"
   ],
   "note": ""
  },
  {
   "property": "C71",
   "status": "proved",
   "theorems": [
    "Newt.C71_rect_prism",
    "Newt.C71_annulus",
    "Newt.C71_tri_prism",
    "Newt.C71_tetrahedron",
    "Newt.C71_pyramid",
    "Newt.C71_cylinder",
    "Newt.C71_cone",
    "Newt.C71_high"
   ],
   "note": ""
  },
  {
   "property": "C72",
   "status": "proved",
   "theorems": [
    "Newt.C72_rectangle",
    "Newt.C72_agrees_with_rect_prism",
    "Newt.C72_refuses"
   ],
   "note": ""
  },
  {
   "property": "C73",
   "status": "proved",
   "theorems": [
    "Newt.C73_sphere",
    "Newt.C73_annulus",
    "Newt.C73_cone",
    "Newt.C73_wedge",
    "Newt.C73_tri_prism"
   ],
   "note": ""
  },
  {
   "property": "C74",
   "status": "proved",
   "theorems": [
    "Newt.C74_sphere",
    "Newt.C74_annulus",
    "Newt.C74_cone",
    "Newt.C74_cone_two",
    "Newt.C74_dz_refuses",
    "Newt.C74_wedge",
    "Newt.C74_tri_prism",
    "Newt.C74_tri_prism_refuses"
   ],
   "note": ""
  },
  {
   "property": "C75",
   "status": "proved",
   "theorems": [
    "Newt.C75_annulus",
    "Newt.C75_rect_prism",
    "Newt.C75_tri_prism",
    "Newt.C75_cone",
    "Newt.C75_tetrahedron",
    "Newt.C75_sphere",
    "Newt.C75_functions",
    "Newt.C75_frustum"
   ],
   "note": ""
  },
  {
   "property": "C76",
   "status": "proved",
   "theorems": [
    "Newt.C76_pyramid",
    "Newt.C76_ngon",
    "Newt.C76_trapezoid",
    "Newt.C76_cylhole",
    "Newt.C76_platehole_subset",
    "Newt.C76_platehole_iff",
    "Newt.C76_platehole_short",
    "Newt.C76_platehole_orientation"
   ],
   "note": ""
  },
  {
   "property": "C77",
   "status": "proved",
   "theorems": [
    "Newt.C77_sum_mesh",
    "Newt.C77_positive_first",
    "Newt.C77_add",
    "Newt.C77_order_matters",
    "Newt.C77_outer_cone_hole"
   ],
   "note": ""
  },
  {
   "property": "C78",
   "status": "proved",
   "theorems": [
    "Newt.C78_cylhole",
    "Newt.C78_platehole",
    "Newt.C78_monopole",
    "Newt.C78_refuses"
   ],
   "note": ""
  },
  {
   "property": "C79",
   "status": "proved",
   "theorems": [
    "Newt.C79_annulus",
    "Newt.C79_annulus_fails",
    "Newt.C79_others",
    "Newt.C79_others_accept",
    "Newt.C79_outer_cone",
    "Newt.C79_outer_cone_accepts_iff"
   ],
   "note": ""
  },
  {
   "property": "C80",
   "status": "proved",
   "theorems": [
    "Newt.C80_force_converges",
    "Newt.C80_points",
    "Newt.C80_annulus_points"
   ],
   "note": ""
  },
  {
   "property": "C81",
   "status": "proved",
   "theorems": [
    "Newt.C81_torque_converges"
   ],
   "note": ""
  },
  {
   "property": "C82",
   "status": "proved",
   "theorems": [
    "Newt.trr.C82_symmetric",
    "Newt.trr.C82_RR_zero",
    "Newt.trr.C82_RR_wrong",
    "Newt.trr.C82_SR_wrong",
    "Newt.trr.C82_first_column"
   ],
   "note": ""
  },
  {
   "property": "C83",
   "status": "proved",
   "theorems": [
    "Newt.Qlm.C83_no_density",
    "Newt.Qlm.C83_refused",
    "Newt.Qlm.C83_quadrupole",
    "Newt.Qlm.C83_zonal",
    "Newt.Qlm.C83_axis",
    "Newt.Qlm.C83_next",
    "Newt.Qlm.C83_spurious",
    "Newt.Qlm.C83_zonal_wrong",
    "Newt.Qlm.C83_wrong"
   ],
   "note": ""
  },
  {
   "property": "C84",
   "status": "proved",
   "theorems": [
    "Newt.C84_annulus",
    "Newt.C84_wedge",
    "Newt.C84_cone",
    "Newt.C84_outer_cone",
    "Newt.C84_trapezoid",
    "Newt.C84_cylhole",
    "Newt.C84_tri_prism_upper",
    "Newt.C84_tri_prism",
    "Newt.C84_tetrahedron_upper",
    "Newt.C84_tetrahedron",
    "Newt.C84_sphere_is_a_cube",
    "Newt.C84_rectangle_shifted",
    "Newt.C84_rectangle",
    "Newt.C84_pyramid_half_base",
    "Newt.C84_platehole_slanted",
    "Newt.C84_ngon_prism"
   ],
   "note": ""
  },
  {
   "property": "C85",
   "status": "proved",
   "theorems": [
    "Newt.C85_sphere",
    "Newt.C85_rectangle",
    "Newt.C85_pyramid",
    "Newt.C85_tri_prism",
    "Newt.C85_tetrahedron",
    "Newt.C85_platehole"
   ],
   "note": ""
  },
  {
   "property": "C86",
   "status": "proved",
   "theorems": [
    "Newt.C86_solid",
    "Newt.C86_points",
    "Newt.C86_append",
    "Newt.C86_translate",
    "Newt.C86_rotate",
    "Newt.C86_gravity",
    "Newt.C86_yukawa",
    "Newt.C86_matches_multipoles"
   ],
   "note": ""
  },
  {
   "property": "C87",
   "status": "proved",
   "theorems": [
    "Newt.C87_inner",
    "Newt.C87_inner_off_origin",
    "Newt.C87_outer",
    "Newt.C87_annulus"
   ],
   "note": ""
  },
  {
   "property": "C88",
   "status": "proved",
   "theorems": [
    "Newt.C88_range",
    "Newt.C88_round_trip",
    "Newt.C88_round_trip_cyl"
   ],
   "note": ""
  },
  {
   "property": "C89",
   "status": "proved",
   "theorems": [
    "Newt.C89_moments_determine",
    "Newt.C89_sphere_moments",
    "Newt.C89_sphere_at_origin",
    "Newt.C89_sphere",
    "Newt.C89_spheres"
   ],
   "note": ""
  },
  {
   "property": "C90",
   "status": "proved",
   "theorems": [
    "Newt.C90_rules_exist",
    "Newt.C90_rectangle",
    "Newt.C90_sphere",
    "Newt.C90_annulus",
    "Newt.C90_cone",
    "Newt.C90_wedge",
    "Newt.C90_tri_prism",
    "Newt.C90_annulus_not_documented",
    "Newt.C90_sphere_acts_as_point",
    "Newt.C90_sphere_point_arrays"
   ],
   "note": ""
  },
  {
   "property": "C91",
   "status": "proved",
   "theorems": [
    "Newt.C91_gravity_agrees",
    "Newt.C91_gravity_newton",
    "Newt.C91_translate_agrees"
   ],
   "note": ""
  },
  {
   "property": "C92",
   "status": "proved",
   "theorems": [
    "Newt.C92_rotate_agrees",
    "Newt.C92_rotate_is_rotation",
    "Newt.C92_rotate_differs"
   ],
   "note": ""
  },
  {
   "property": "C93",
   "status": "proved",
   "theorems": [
    "Newt.C93_computeMoments",
    "Newt.C93_right",
    "Newt.C93_wrong_sign",
    "Newt.C93_jump",
    "Newt.C93_summary"
   ],
   "note": ""
  },
  {
   "property": "C94",
   "status": "proved",
   "theorems": [
    "Newt.C94_rect",
    "Newt.C94_rect_fills",
    "Newt.C94_rect_fractional",
    "Newt.C94_annlSheet",
    "Newt.C94_annlSheet_fills",
    "Newt.C94_ring",
    "Newt.C94_line",
    "Newt.C94_heightmap",
    "Newt.C94_heightmap_mass",
    "Newt.C94_heightmap_hole",
    "Newt.C94_disk",
    "Newt.C94_disk_mass",
    "Newt.C94_rectangle",
    "Newt.C94_shell"
   ],
   "note": ""
  },
  {
   "property": "C95",
   "status": "proved",
   "theorems": [
    "Newt.C95_level",
    "Newt.C95_least_squares",
    "Newt.C95_tilt",
    "Newt.C95_plane"
   ],
   "note": ""
  },
  {
   "property": "C96",
   "status": "proved",
   "theorems": [
    "Newt.C96_copies",
    "Newt.C96_invariant",
    "Newt.C96_ring",
    "Newt.C96_torque",
    "Newt.C96_periodic"
   ],
   "note": ""
  },
  {
   "property": "C97",
   "status": "proved",
   "theorems": [
    "Newt.C97_stepped",
    "Newt.C97_full_circle",
    "Newt.C97_force",
    "Newt.C97_extra_matrix"
   ],
   "note": ""
  },
  {
   "property": "C98",
   "status": "proved",
   "theorems": [
    "Newt.C98_force",
    "Newt.C98_torque",
    "Newt.C98_points",
    "Newt.C98_force_rate",
    "Newt.C98_torque_rate"
   ],
   "note": ""
  },
  {
   "property": "C99",
   "status": "proved",
   "theorems": [
    "Newt.C99_ligo_rotor",
    "Newt.C99_ligo_holes",
    "Newt.C99_virgo_rotor",
    "Newt.C99_mirror",
    "Newt.C99_ligo_orders",
    "Newt.C99_ligo",
    "Newt.C99_ligo2",
    "Newt.C99_virgo"
   ],
   "note": ""
  },
  {
   "property": "C100",
   "status": "proved",
   "theorems": [
    "Newt.C100_gravity",
    "Newt.C100_yukawa",
    "Newt.C100_move",
    "Newt.C100_qmoments",
    "Newt.C100_Qmomentsb",
    "Newt.C100_translate_qlm",
    "Newt.C100_translate_Qlmb",
    "Newt.C100_translate_q2Q",
    "Newt.C100_rotate_qlm",
    "Newt.C100_multipole_force",
    "Newt.C100_torque_lm",
    "Newt.C100_sphere",
    "Newt.C100_cylinder",
    "Newt.C100_annulus",
    "Newt.C100_cone",
    "Newt.C100_tri_iso_prism",
    "Newt.C100_tri_iso_prism2",
    "Newt.C100_tri_prism",
    "Newt.C100_rect_prism",
    "Newt.C100_ngon_prism",
    "Newt.C100_tetrahedron",
    "Newt.C100_tetrahedron2",
    "Newt.C100_pyramid"
   ],
   "note": ""
  },
  {
   "property": "C101",
   "status": "proved",
   "theorems": [
    "Newt.C101_turn",
    "Newt.C101_rings",
    "Newt.C101_multipole",
    "Newt.C101_two"
   ],
   "note": ""
  },
  {
   "property": "C102",
   "status": "proved",
   "theorems": [
    "Newt.C102_octave_disk",
    "Newt.C102_octave_rectangle",
    "Newt.C102_random_shell",
    "Newt.C102_octave",
    "Newt.C102_shell_inside",
    "Newt.C102_shell_outside",
    "Newt.C102_gravity_outside",
    "Newt.C102_point_outside",
    "Newt.C102_gravity_inside",
    "Newt.C102_yukawa_centre"
   ],
   "note": ""
  },
  {
   "property": "C103",
   "status": "proved",
   "theorems": [
    "Newt.C103_lower",
    "Newt.C103_raise",
    "Newt.C103_orthonormal",
    "Newt.C103_complete",
    "Newt.C103_bounded",
    "Newt.C103_swap",
    "Newt.C103_scalar",
    "Newt.C103_highest",
    "Newt.C103_double",
    "Newt.C103_q2Q",
    "Newt.C103_Qlmb",
    "Newt.C103_qlm"
   ],
   "note": ""
  },
  {
   "property": "C104",
   "status": "proved",
   "theorems": [
    "Newt.C104_dlmn_symmetries",
    "Newt.C104_Dl_symmetries",
    "Newt.C104_pi",
    "Newt.C104_conj",
    "Newt.C104_explicit"
   ],
   "note": ""
  },
  {
   "property": "C105",
   "status": "proved",
   "theorems": [
    "Newt.C105_intertwine",
    "Newt.C105_series",
    "Newt.C105_series_Dl"
   ],
   "note": ""
  },
  {
   "property": "C106",
   "status": "proved",
   "theorems": [
    "Newt.C106_column",
    "Newt.C106_central",
    "Newt.C106_rotate",
    "Newt.C106_own_axis",
    "Newt.C106_invariant",
    "Newt.C106_no_torque",
    "Newt.C106_sphere",
    "Newt.C106_cylinder",
    "Newt.C106_annulus",
    "Newt.C106_cone",
    "Newt.C106_pointing_cylinder"
   ],
   "note": ""
  },
  {
   "property": "C107",
   "status": "proved",
   "theorems": [
    "Newt.C107_scan",
    "Newt.C107_scan_shift",
    "Newt.C107_scatter",
    "Newt.C107_scatter_not_yz",
    "Newt.C107_round_sheet",
    "Newt.C107_demo_row",
    "Newt.C107_demo"
   ],
   "note": ""
  },
  {
   "property": "C108",
   "status": "proved",
   "theorems": [
    "Newt.C108_far",
    "Newt.C108_yukawa_far",
    "Newt.C108_inverse_square",
    "Newt.C108_yukawa_decay"
   ],
   "note": ""
  },
  {
   "property": "C109",
   "status": "proved",
   "theorems": [
    "Newt.C109_on_axis",
    "Newt.C109_sheet",
    "Newt.C109_infinite_sheet"
   ],
   "note": ""
  },
  {
   "property": "C110",
   "status": "proved",
   "theorems": [
    "Newt.C110_shell_outside",
    "Newt.C110_random_shell_outside",
    "Newt.C110_random_shell_inside",
    "Newt.C110_sphere",
    "Newt.C110_spheres",
    "Newt.C110_refined_balls",
    "Newt.C110_refined_ball",
    "Newt.C110_gl_sphere",
    "Newt.C110_factors",
    "Newt.C110_factors_limit"
   ],
   "note": ""
  },
  {
   "property": "C111",
   "status": "proved",
   "theorems": [
    "Newt.C111_on_axis",
    "Newt.C111_sheet",
    "Newt.C111_infinite_sheet",
    "Newt.C111_sheet_profile"
   ],
   "note": ""
  },
  {
   "property": "C112",
   "status": "proved",
   "theorems": [
    "Newt.C112_gravity",
    "Newt.C112_divisor",
    "Newt.C112_defined",
    "Newt.C112_binary",
    "Newt.C112_size",
    "Newt.C112_exact",
    "Newt.C112_relative",
    "Newt.C112_third_law",
    "Newt.C112_double"
   ],
   "note": ""
  },
  {
   "property": "C113",
   "status": "proved",
   "theorems": [
    "Newt.C113_yukawa",
    "Newt.C113_uniform",
    "Newt.C113_defined",
    "Newt.C113_exact"
   ],
   "note": ""
  },
  {
   "property": "C114",
   "status": "proved",
   "theorems": [
    "Newt.C114_tolerance",
    "Newt.C114_translate",
    "Newt.C114_pipeline",
    "Newt.C114_translate_exists"
   ],
   "note": ""
  },
  {
   "property": "C115",
   "status": "proved",
   "theorems": [
    "Newt.C115_missed_series",
    "Newt.C115_missed_tendsto",
    "Newt.C115_force_error",
    "Newt.C115_torque_error",
    "Newt.C115_points_force",
    "Newt.C115_points_torque",
    "Newt.C115_sharp"
   ],
   "note": ""
  },
  {
   "property": "C116",
   "status": "proved",
   "theorems": [
    "Newt.C116_signs",
    "Newt.C116_count",
    "Newt.C116_each_once",
    "Newt.C116_scaled",
    "Newt.C116_negative_size",
    "Newt.C116_moved"
   ],
   "note": ""
  },
  {
   "property": "C117",
   "status": "proved",
   "theorems": [
    "Newt.C117_body_axes",
    "Newt.C117_body_axes_moments",
    "Newt.C117_any_orientation",
    "Newt.C117_any_orientation_moments",
    "Newt.C117_same_rotation",
    "Newt.C117_compose",
    "Newt.C117_wigner_product"
   ],
   "note": ""
  },
  {
   "property": "C118",
   "status": "proved",
   "theorems": [
    "Newt.C118_annulus_radii",
    "Newt.C118_annulus_angles",
    "Newt.C118_cone_angles",
    "Newt.C118_cylinder_annulus",
    "Newt.C118_cylinder_core",
    "Newt.C118_tri_prism",
    "Newt.C118_tetrahedron2",
    "Newt.C118_tri_iso_rotated",
    "Newt.C118_turn_annulus",
    "Newt.C118_turn_cone",
    "Newt.C118_turn_tri_iso_prism",
    "Newt.C118_turn_rect_prism",
    "Newt.C118_turn_ngon_prism",
    "Newt.C118_rect_swap",
    "Newt.C118_rect_prism",
    "Newt.C118_ngon_prism",
    "Newt.C118_pyramid",
    "Newt.C118_stack_cylinder",
    "Newt.C118_stack_annulus",
    "Newt.C118_stack_tri_prism",
    "Newt.C118_stack_rect_prism",
    "Newt.C118_stack_ngon_prism"
   ],
   "note": ""
  },
  {
   "property": "C119",
   "status": "proved",
   "theorems": [
    "Newt.C119_platehole",
    "Newt.C119_cylhole",
    "Newt.C119_cone",
    "Newt.C119_trapezoid_triangle",
    "Newt.C119_trapezoid"
   ],
   "note": ""
  },
  {
   "property": "C120",
   "status": "proved",
   "theorems": [
    "Flt.C120_point",
    "Flt.C120_displaced",
    "Flt.C120_defined",
    "Flt.C120_exact",
    "Flt.C120_rigid",
    "Flt.C120_steps",
    "Flt.C120_pipeline"
   ],
   "note": ""
  },
  {
   "property": "C121",
   "status": "proved",
   "theorems": [
    "Newt.C121_gradient",
    "Newt.C121_yukawa_gradient",
    "Newt.C121_work"
   ],
   "note": ""
  },
  {
   "property": "C122",
   "status": "proved",
   "theorems": [
    "Newt.C122_gauss",
    "Newt.C122_mean",
    "Newt.C122_earnshaw"
   ],
   "note": ""
  },
  {
   "property": "C123",
   "status": "proved",
   "theorems": [
    "Newt.C123_inner",
    "Newt.C123_outer",
    "Newt.C123_centred"
   ],
   "note": ""
  },
  {
   "property": "C124",
   "status": "proved",
   "theorems": [
    "Newt.C124_cg",
    "Newt.C124_cg_safe",
    "Newt.C124_qlm",
    "Newt.C124_Qlmb",
    "Newt.C124_q2Q",
    "Newt.C124_qlm_overflow",
    "Newt.C124_Qlmb_overflow",
    "Newt.C124_q2Q_overflow",
    "Newt.C124_Dlmn",
    "Newt.C124_Dl",
    "Newt.C124_start",
    "Newt.C124_start_lost",
    "Newt.C124_RR_entry",
    "Newt.C124_RR",
    "Newt.C124_SS_entry",
    "Newt.C124_SS",
    "Newt.C124_lmfac",
    "Newt.C124_lmfac_all",
    "Newt.C124_solids",
    "Newt.C124_solids_top",
    "Newt.C124_forceRoot",
    "Newt.C124_forceRoot_all",
    "Newt.C124_force_overflow"
   ],
   "note": ""
  },
  {
   "property": "C125",
   "status": "proved",
   "theorems": [
    "Newt.C125_force_one",
    "Newt.C125_force_two",
    "Newt.C125_torque_one",
    "Newt.C125_torque_two",
    "Newt.C125_balanced"
   ],
   "note": ""
  },
  {
   "property": "C126",
   "status": "proved",
   "theorems": [
    "Heap.C126_separate",
    "Heap.C126_step",
    "Heap.C126_history",
    "Heap.C126_others",
    "Heap.C126_held",
    "Heap.C126_self",
    "Heap.C126_self_wrong"
   ],
   "note": ""
  },
  {
   "property": "C127",
   "status": "proved",
   "theorems": [
    "Newt.C127_inner",
    "Newt.C127_inner_off_axis",
    "Newt.C127_outer",
    "Newt.C127_outer_off_axis",
    "Newt.C127_no_nan",
    "Newt.C127_returns",
    "Newt.C127_outer_returns",
    "Newt.C127_loss",
    "Newt.C127_double",
    "Newt.C127_nearest"
   ],
   "note": ""
  },
  {
   "property": "C128",
   "status": "proved",
   "theorems": [
    "Newt.C128_torque_lm",
    "Newt.C128_torque",
    "Newt.C128_two_ways",
    "Newt.C128_double",
    "Newt.C128_torque_lm_returns",
    "Newt.C128_returns",
    "Newt.C128_exact"
   ],
   "note": ""
  },
  {
   "property": "C129",
   "status": "proved",
   "theorems": [
    "Newt.C129_basis",
    "Newt.C129_force",
    "Newt.C129_exact",
    "Newt.C129_returns",
    "Newt.C129_points",
    "Newt.C129_origin",
    "Newt.C129_two_ways",
    "Newt.C129_double"
   ],
   "note": ""
  },
  {
   "property": "C130",
   "status": "proved",
   "theorems": [
    "Newt.C130_cg",
    "Newt.C130_cg_relative",
    "Newt.C130_inner",
    "Newt.C130_outer",
    "Newt.C130_cross",
    "Newt.C130_exact",
    "Newt.C130_inner_points",
    "Newt.C130_outer_points",
    "Newt.C130_cross_points",
    "Newt.C130_returns",
    "Newt.C130_double"
   ],
   "note": ""
  },
  {
   "property": "C131",
   "status": "proved",
   "theorems": [
    "Newt.C131_torque",
    "Newt.C131_force",
    "Newt.C131_moved_points",
    "Newt.C131_torque_two_ways",
    "Newt.C131_force_three_ways",
    "Newt.C131_double"
   ],
   "note": ""
  },
  {
   "property": "C132",
   "status": "proved",
   "theorems": [
    "Newt.C132_entry",
    "Newt.C132_rotate",
    "Newt.C132_inverse",
    "Newt.C132_copied",
    "Newt.C132_there_and_back",
    "Newt.C132_exact",
    "Newt.C132_points",
    "Newt.C132_torque",
    "Newt.C132_returns",
    "Newt.C132_double"
   ],
   "note": ""
  },
  {
   "property": "C133",
   "status": "proved",
   "theorems": [
    "Newt.C133_recursion",
    "Newt.C133_angle",
    "Newt.C133_turn",
    "Newt.C133_npPi",
    "Newt.C133_wigner",
    "Newt.C133_rotate",
    "Newt.C133_agree",
    "Newt.C133_exact",
    "Newt.C133_small_tilt",
    "Newt.C133_returns",
    "Newt.C133_double",
    "Newt.C133_points",
    "Newt.C133_torque"
   ],
   "note": ""
  },
  {
   "property": "C134",
   "status": "proved",
   "theorems": [
    "Newt.C134_annulus",
    "Newt.C134_cone",
    "Newt.C134_sphere",
    "Newt.C134_rejected",
    "Newt.C134_size",
    "Newt.C134_nonneg",
    "Newt.C134_returns",
    "Newt.C134_double",
    "Newt.C134_cylinder",
    "Newt.C134_cylinder_rejected",
    "Newt.C134_cone_rejected",
    "Newt.C134_cylinder_returns"
   ],
   "note": ""
  }
 ]
}