{
 "claims": [
  {
   "property": "C01",
   "status": "proved",
   "theorems": [
    "Walnut.Props.C01_add",
    "Walnut.Props.C01_add_assign",
    "Walnut.Props.C01_add_assign_int",
    "Walnut.Props.C01_self_add_assign_undefined"
   ],
   "note": "a += a outside the half word range is undefined; shown separately."
  },
  {
   "property": "C02",
   "status": "proved",
   "theorems": [
    "Walnut.Props.C02_sub",
    "Walnut.Props.C02_sub_assign",
    "Walnut.Props.C02_sub_assign_int",
    "Walnut.Props.C02_neg"
   ],
   "note": ""
  },
  {
   "property": "C03",
   "status": "proved",
   "theorems": [
    "Walnut.Props.C03_mul",
    "Walnut.Props.C03_add_multiply",
    "Walnut.Props.C03_subtract_multiply",
    "Walnut.Props.C03_determinant"
   ],
   "note": ""
  },
  {
   "property": "C04",
   "status": "proved",
   "theorems": [
    "Walnut.Props.C04_compare",
    "Walnut.Props.C04_relations",
    "Walnut.Props.C04_relations_int",
    "Walnut.Props.C04_signs"
   ],
   "note": ""
  },
  {
   "property": "C05",
   "status": "proved",
   "theorems": [
    "Walnut.Props.C05_hash",
    "Walnut.Props.C05_hash_of_eq"
   ],
   "note": ""
  },
  {
   "property": "C06",
   "status": "partial",
   "theorems": [
    "Walnut.Props.C06_increment_partial",
    "Walnut.Props.C06_increment_value",
    "Walnut.Props.C06_increment_false",
    "Walnut.Props.C06_decrement_partial",
    "Walnut.Props.C06_decrement_value",
    "Walnut.Props.C06_decrement_false"
   ],
   "note": "False of the code at 2^(64k-1)-1, -2^(64k-1)-1 (++) and 2^(64k-1) (--); negations proved with witnesses."
  },
  {
   "property": "C07",
   "status": "partial",
   "theorems": [
    "Walnut.Props.C07_divide_partial",
    "Walnut.Props.C07_meaning",
    "Walnut.Props.C07_false",
    "Walnut.Props.C07_debug_partial",
    "Walnut.Props.C07_debug_false"
   ],
   "note": "False of the code at -2^63 / -1 (signed overflow); with assertions on, some divisions by multi-word divisors abort (witness proved)."
  },
  {
   "property": "C08",
   "status": "proved",
   "theorems": [
    "Walnut.Props.C08_shift_left"
   ],
   "note": ""
  },
  {
   "property": "C09",
   "status": "proved",
   "theorems": [
    "Walnut.Props.C09_extreme_values"
   ],
   "note": ""
  },
  {
   "property": "C10",
   "status": "partial",
   "theorems": [
    "Walnut.Props.C10_abs_partial",
    "Walnut.Props.C10_abs_false",
    "Walnut.Props.C10_get_abs",
    "Walnut.Props.C10_get_uint_abs",
    "Walnut.Props.C10_of_biguint"
   ],
   "note": "abs() is undefined at -2^63; GetAbs and GetUIntAbs are right everywhere."
  },
  {
   "property": "C11",
   "status": "partial",
   "theorems": [
    "Walnut.Props.C11_gcd_partial",
    "Walnut.Props.C11_negative_partial",
    "Walnut.Props.C11_sign_false",
    "Walnut.Props.C11_undefined"
   ],
   "note": "Result is +-gcd; total when one argument is not negative; undefined e.g. at (-1,-2^63)."
  },
  {
   "property": "C12",
   "status": "proved",
   "theorems": [
    "Walnut.Props.C12_print",
    "Walnut.Props.C12_digits"
   ],
   "note": "Build without assertions."
  },
  {
   "property": "C13",
   "status": "proved",
   "theorems": [
    "Walnut.Props.C13_multiply",
    "Walnut.Props.C13_multiply_add",
    "Walnut.Props.C13_multiply_signed",
    "Walnut.Props.C13_add_carry",
    "Walnut.Props.C13_shift_right",
    "Walnut.Props.C13_highest_set_bit",
    "Walnut.Props.C13_trailing_zeros",
    "Walnut.Props.C13_portable_eq_builtin"
   ],
   "note": ""
  },
  {
   "property": "C15",
   "status": "proved",
   "theorems": [
    "Walnut.Props.C15_divide_remainder",
    "Walnut.Props.C15_debug_partial",
    "Walnut.Props.C15_debug_false"
   ],
   "note": "Build without assertions; with assertions a witness of an assertion failure is proved."
  },
  {
   "property": "C16",
   "status": "proved",
   "theorems": [
    "Walnut.Props.C16_is_less_than",
    "Walnut.Props.C16_equals",
    "Walnut.Props.C16_compare_component"
   ],
   "note": ""
  },
  {
   "property": "C17",
   "status": "partial",
   "theorems": [
    "Walnut.Props.C17_round_up_partial",
    "Walnut.Props.C17_round_down_partial",
    "Walnut.Props.C17_false"
   ],
   "note": "All nonzero denominators; undefined only when num*newDen = -2^63 and oldDen = -1 (C17_false)."
  },
  {
   "property": "C18",
   "status": "proved",
   "theorems": [
    "Walnut.Props.C18_rotation",
    "Walnut.Props.C18_half_rotation",
    "Walnut.Props.C18_strict_weak_order",
    "Walnut.Props.C18_half_strict_weak_order"
   ],
   "note": ""
  },
  {
   "property": "C19",
   "status": "partial",
   "theorems": [
    "Walnut.Props.C19_same_dir_partial",
    "Walnut.Props.C19_same_or_opposite",
    "Walnut.Props.C19_same_dir2_partial",
    "Walnut.Props.C19_same_or_opposite2",
    "Walnut.Props.C19_false"
   ],
   "note": "Undefined when a component is -2^63 (abs)."
  },
  {
   "property": "C20",
   "status": "proved",
   "theorems": [
    "Walnut.Props.C20_eq",
    "Walnut.Props.C20_eq_point",
    "Walnut.Props.C20_equivalence",
    "Walnut.Props.C20_invalid",
    "Walnut.Props.C20_eq2"
   ],
   "note": ""
  },
  {
   "property": "C21",
   "status": "partial",
   "theorems": [
    "Walnut.Props.C21_lexicographically_lt",
    "Walnut.Props.C21_topness_lt",
    "Walnut.Props.C21_point_lt",
    "Walnut.Props.C21_plane_partial",
    "Walnut.Props.C21_plane_false"
   ],
   "note": "HomoPoint3 and Point3 fully; the HomoPoint2 order is wrong for denominators of different sign (C21_plane_false)."
  },
  {
   "property": "C22",
   "status": "partial",
   "theorems": [
    "Walnut.Props.C22_twist_partial",
    "Walnut.Props.C22_false",
    "Walnut.Props.C22_point_twist",
    "Walnut.Props.C22_point",
    "Walnut.Props.C22_point_components"
   ],
   "note": "Proved for neighbours with denominators of the same sign; wrong otherwise (C22_false)."
  },
  {
   "property": "C23",
   "status": "partial",
   "theorems": [
    "Walnut.Props.C23_of_points",
    "Walnut.Props.C23_of_homo_points_partial",
    "Walnut.Props.C23_false",
    "Walnut.Props.C23_of_normal_point",
    "Walnut.Props.C23_compare",
    "Walnut.Props.C23_compare_homo",
    "Walnut.Props.C23_half_space2",
    "Walnut.Props.C23_compare2",
    "Walnut.Props.C23_compare_homo2",
    "Walnut.Props.C23_compare_parallel"
   ],
   "note": "Complete except that the homogeneous constructor is undefined for p2.w = -2^63 (abs)."
  },
  {
   "property": "C24",
   "status": "partial",
   "theorems": [
    "Walnut.Props.C24_eq_partial",
    "Walnut.Props.C24_eq_false",
    "Walnut.Props.C24_same_or_opposite",
    "Walnut.Props.C24_set_compare_partial",
    "Walnut.Props.C24_set_order_partial",
    "Walnut.Props.C24_set_false"
   ],
   "note": "== undefined for -2^63; HalfSpace3Compare merges planes whose normal components sum to zero (C24_set_false)."
  },
  {
   "property": "C25",
   "status": "partial",
   "theorems": [
    "Walnut.Props.C25_order_partial",
    "Walnut.Props.C25_false",
    "Walnut.Props.C25_has_same_line"
   ],
   "note": "Order proved for normals not straight down; false otherwise (C25_false). HasSameLine is right everywhere."
  },
  {
   "property": "C26",
   "status": "proved",
   "theorems": [
    "Walnut.Props.C26_is_coincident",
    "Walnut.Props.C26_is_coincident_point",
    "Walnut.Props.C26_of_points",
    "Walnut.Props.C26_of_int_points",
    "Walnut.Props.C26_of_planes",
    "Walnut.Props.C26_intersect",
    "Walnut.Props.C26_is_coincident_plane",
    "Walnut.Props.C26_project2D",
    "Walnut.Props.C26_neg",
    "Walnut.Props.C26_eq"
   ],
   "note": ""
  },
  {
   "property": "C27",
   "status": "proved",
   "theorems": [
    "Walnut.Props.C27_make",
    "Walnut.Props.C27_is_inside",
    "Walnut.Props.C27_is_inside_point",
    "Walnut.Props.C27_is_on_border",
    "Walnut.Props.C27_empty",
    "Walnut.Props.C27_plane_side",
    "Walnut.Props.C27_eq",
    "Walnut.Props.C27_of_points",
    "Walnut.Props.C27_of_radius",
    "Walnut.Props.C27_is_on_border_point",
    "Walnut.Props.C27_corners"
   ],
   "note": ""
  },
  {
   "property": "C28",
   "status": "proved",
   "theorems": [
    "Walnut.Props.C28_r_transform",
    "Walnut.Props.C28_bivector",
    "Walnut.Props.C28_zero",
    "Walnut.Props.C28_swap",
    "Walnut.Props.C28_split_side",
    "Walnut.Props.C28_reverse_lexicographic"
   ],
   "note": ""
  },
  {
   "property": "C61",
   "status": "proved",
   "theorems": [
    "Walnut.Props.C61_vector_reduce",
    "Walnut.Props.C61_vector_reduce_defined",
    "Walnut.Props.C61_vector_undefined",
    "Walnut.Props.C61_point_reduce",
    "Walnut.Props.C61_point_reduce_defined",
    "Walnut.Props.C61_point_undefined",
    "Walnut.Props.C61_plane_reduce",
    "Walnut.Props.C61_line_reduce"
   ],
   "note": "Undefined inputs are shown separately."
  },
  {
   "property": "C62",
   "status": "proved",
   "theorems": [
    "Walnut.Props.C62_project_onto_plane",
    "Walnut.Props.C62_extrude",
    "Walnut.Props.C62_axis_aligned",
    "Walnut.Props.C62_add_offset",
    "Walnut.Props.C62_difference",
    "Walnut.Props.C62_negate"
   ],
   "note": ""
  },
  {
   "property": "C35",
   "status": "partial",
   "theorems": [
    "Walnut.Props.C35_filter_partial",
    "Walnut.Props.C35_filter_false"
   ],
   "note": "The filter agrees with the CSG expression for every id below the size of the content list; an inverted filter on an id beyond it answers outside (C35_filter_false)."
  },
  {
   "property": "C36",
   "status": "proved",
   "theorems": [
    "Walnut.Props.C36_pruning",
    "Walnut.Props.C36_id_lists",
    "Walnut.Props.C36_tree"
   ],
   "note": "pruning is sound for every descendant content vector, and in every tree whose polygons were added before splitting all descendants are such"
  },
  {
   "property": "C37",
   "status": "partial",
   "theorems": [
    "Walnut.Props.C37_union",
    "Walnut.Props.C37_intersect",
    "Walnut.Props.C37_subtract_partial",
    "Walnut.Props.C37_subtract_false",
    "Walnut.Props.C37_subtract_unknown_false"
   ],
   "note": "Subtract reads id 0 where its first id is meant."
  },
  {
   "property": "C42",
   "status": "partial",
   "theorems": [
    "Walnut.Props.C42_history",
    "Walnut.Props.C42_zero_undefined",
    "Walnut.Props.C42_error",
    "Walnut.Props.C42_split_cost_partial",
    "Walnut.Props.C42_split_cost_false"
   ],
   "note": "The documented accuracy of the split cost is false; a weaker bound is proved."
  },
  {
   "property": "C14",
   "status": "proved",
   "theorems": [
    "Walnut.Props.C14_ownership",
    "Walnut.Props.C14_memory_safe",
    "Walnut.Props.C14_refines",
    "Walnut.Props.C14_resize_init_shrink_false",
    "Walnut.Props.C14_moved_from_unsafe"
   ],
   "note": "all constructors, assignments, resizes, push_back and element writes of BigIntWords, over every history; resize(n, init) never shrinks and a moved-from object may only be assigned or destroyed"
  },
  {
   "property": "C45",
   "status": "partial",
   "theorems": [
    "Walnut.Props.C45_active_deed",
    "Walnut.Props.C45_follows",
    "Walnut.Props.C45_destroyed_target",
    "Walnut.Props.C45_lending",
    "Walnut.Props.C45_memory_safe",
    "Walnut.Props.C45_generic_lend_false"
   ],
   "note": "histories that avoid the public GenericDeed::Lend, which is proved to break the invariant"
  },
  {
   "property": "C46",
   "status": "partial",
   "theorems": [
    "Walnut.Props.C46_terminates",
    "Walnut.Props.C46_deref_pure",
    "Walnut.Props.C46_redirect",
    "Walnut.Props.C46_defined",
    "Walnut.Props.C46_history_false"
   ],
   "note": "dereferencing terminates, is observably pure and sees redirects; path compression changes what a later Redirect of an intermediate value affects, shown by C46_history_false"
  },
  {
   "property": "C47",
   "status": "partial",
   "theorems": [
    "Walnut.Props.C47_forward",
    "Walnut.Props.C47_backward",
    "Walnut.Props.C47_append",
    "Walnut.Props.C47_prepend",
    "Walnut.Props.C47_append_iterators",
    "Walnut.Props.C47_prepend_iterators_partial",
    "Walnut.Props.C47_prepend_iterators_false",
    "Walnut.Props.C47_plus_false",
    "Walnut.Props.C47_plus_partial"
   ],
   "note": "operator+ and operator[] drop the offset inside a range, Prepend of an iterator pair rotates wrongly; both shown false with a witness and proved for the cases that do work"
  },
  {
   "property": "C29",
   "status": "proved",
   "theorems": [
    "Walnut.Props.C29_split_info",
    "Walnut.Props.C29_children",
    "Walnut.Props.C29_repeated"
   ],
   "note": "for every convex polygon and plane the split info classifies every vertex, the children are convex, cover exactly the two closed sides of the parent and list its vertices in order; holds along any sequence of splits"
  },
  {
   "property": "C30",
   "status": "proved",
   "theorems": [
    "Walnut.Props.C30_linear",
    "Walnut.Props.C30_convex_pattern",
    "Walnut.Props.C30_polygon"
   ],
   "note": "both range searches, for every sign sequence a convex polygon can show"
  },
  {
   "property": "C63",
   "status": "proved",
   "theorems": [
    "Walnut.Props.C63_extreme",
    "Walnut.Props.C63_extreme_parallel"
   ],
   "note": "bisecting extreme vertex search on convex polygons"
  },
  {
   "property": "C32",
   "status": "partial",
   "theorems": [
    "Walnut.Props.C32_area",
    "Walnut.Props.C32_area_defined",
    "Walnut.Props.C32_area_undefined",
    "Walnut.Props.C32_projected_centroid",
    "Walnut.Props.C32_centroid_defined",
    "Walnut.Props.C32_area_positive",
    "Walnut.Props.C32_centroid"
   ],
   "note": "the projected area and centroid are the exact fan sums over the vertices and the 3D centroid lies in the polygon; undefined only when a denominator is a minimum integer in the middle of a gcd (witness given)"
  },
  {
   "property": "C33",
   "status": "partial",
   "theorems": [
    "Walnut.Props.C33_volume_apex",
    "Walnut.Props.C33_centroid",
    "Walnut.Props.C33_defined",
    "Walnut.Props.C33_undefined"
   ],
   "note": "for every closed mesh whose vertices have nonzero denominators the returned point is the exact volume centroid, independent of the apex; defined if the denominators are positive, and undefined for some negative ones (witness)"
  },
  {
   "property": "C34",
   "status": "proved",
   "theorems": [
    "Walnut.Props.C34_top",
    "Walnut.Props.C34_farthest"
   ],
   "note": "top point and farthest point of a mesh"
  },
  {
   "property": "C58",
   "status": "partial",
   "theorems": [
    "Walnut.Props.C58_eq_partial",
    "Walnut.Props.C58_rotation",
    "Walnut.Props.C58_rotate_shape",
    "Walnut.Props.C58_sort",
    "Walnut.Props.C58_invert",
    "Walnut.Props.C58_invert_invert",
    "Walnut.Props.C58_first_edge_data_false",
    "Walnut.Props.C58_empty_false"
   ],
   "note": "== is exactly equality of half-space, vertex cycle and edge data except for the first edge, whose data the code never compares (witness); an empty polygon is not equal to itself (witness); Invert and RotateEdges fully proved"
  },
  {
   "property": "C31",
   "status": "partial",
   "theorems": [
    "Walnut.Props.C31_build",
    "Walnut.Props.C31_contains",
    "Walnut.Props.C31_split",
    "Walnut.Props.C31_repeated",
    "Walnut.Props.C31_rotate",
    "Walnut.Props.C31_split_info",
    "Walnut.Props.C31_merge",
    "Walnut.Props.C31_history",
    "Walnut.Props.C31_split_edge_partial",
    "Walnut.Props.C31_invert_partial",
    "Walnut.Props.C31_invert_false",
    "Walnut.Props.C31_invert_split_false",
    "Walnut.Props.C31_split_edge_false",
    "Walnut.Props.C31_sort_empty_undefined"
   ],
   "note": "indices and box exact after construction, and after any history of rotations, splits and merges, whenever the division is defined (denominator -1 is UB on the minimum integer); Invert and SplitEdge keep the box valid but leave the indices stale (witnesses), and splitting an inverted polygon then gives a child whose box misses a vertex and which is classified wrongly (witness); sorting an empty polygon divides by zero (witness)"
  },
  {
   "property": "C39",
   "status": "partial",
   "theorems": [
    "Walnut.Props.C39_cells",
    "Walnut.Props.C39_cover",
    "Walnut.Props.C39_multiplicity",
    "Walnut.Props.C39_leaf_counters",
    "Walnut.Props.C39_counters",
    "Walnut.Props.C39_leaves",
    "Walnut.Props.C39_split_defined",
    "Walnut.Props.C39_push_defined",
    "Walnut.Props.C39_new_id_undefined"
   ],
   "note": "routing, conservation and counters hold in every reachable tree; definedness of splits proved for polygons without bounding box tracking; adding a new id after a split is out of bounds (witness)"
  },
  {
   "property": "C40",
   "status": "proved",
   "theorems": [
    "Walnut.Props.C40_winding",
    "Walnut.Props.C40_outside",
    "Walnut.Props.C40_ray",
    "Walnut.Props.C40_order",
    "Walnut.Props.C40_unaffected",
    "Walnut.Props.C40_late_content_false"
   ],
   "note": "for meshes added before the first split; for meshes added later it is false (witness C40_late_content_false: winding numbers depend on the order)"
  },
  {
   "property": "C64",
   "status": "proved",
   "theorems": [
    "Walnut.Props.C64_edges"
   ],
   "note": "in every tree reachable by adding, pushing and splitting"
  },
  {
   "property": "C38",
   "status": "partial",
   "theorems": [
    "Walnut.Props.C38_facets",
    "Walnut.Props.C38_defined",
    "Walnut.Props.C38_parity",
    "Walnut.Props.C38_single",
    "Walnut.Props.C38_xor_false",
    "Walnut.Props.filter_lawful"
   ],
   "note": "every filter that depends on winding numbers lawfully, in particular every CSG filter; definedness for polygons without bounding boxes; false for XOR as a boundary: coincident facets are emitted twice (witness)"
  },
  {
   "property": "C41",
   "status": "partial",
   "theorems": [
    "Walnut.Props.C41_tree",
    "Walnut.Props.C41_nested",
    "Walnut.Props.C41_visited",
    "Walnut.Props.C41_output",
    "Walnut.Props.C41_defined",
    "Walnut.Props.C41_late_border_false"
   ],
   "note": "every tree, filter, split strategy and iteration order; output for meshes added before the first split; definedness for strategies choosing planes of contents and polygons without bounding boxes; facets added late to the root can be lost (witness)"
  },
  {
   "property": "C60",
   "status": "partial",
   "theorems": [
    "Walnut.Props.C60_smallest_partial",
    "Walnut.Props.C60_progress",
    "Walnut.Props.C60_defined",
    "Walnut.Props.C60_false",
    "Walnut.Props.C60_cost_exclude"
   ],
   "note": "every leaf of a reachable tree and every std::nth_element; the smallest mesh is chosen among those with at least two facets; false in general: the polygon before the middle of the list is never considered (witness)"
  },
  {
   "property": "C48",
   "status": "proved",
   "theorems": [
    "Walnut.Props.C48_triangles",
    "Walnut.Props.C48_area",
    "Walnut.Props.C48_defined",
    "Walnut.Props.C48_counter_clockwise",
    "Walnut.Props.C48_points"
   ],
   "note": "boundaries of the triangles add up to the boundary of the polygon for every antisymmetric quantity; counter-clockwise for chains that do not cross"
  },
  {
   "property": "C49",
   "status": "partial",
   "theorems": [
    "Walnut.Props.C49_boundary",
    "Walnut.Props.C49_area",
    "Walnut.Props.C49_turns_partial",
    "Walnut.Props.C49_turns_strict_partial",
    "Walnut.Props.C49_defined",
    "Walnut.Props.C49_touch_false",
    "Walnut.Props.C49_flat_false",
    "Walnut.Props.C49_undefined"
   ],
   "note": "areas for all chains; turns for distinct vertices and chains that do not cross or strictly ascend; false for touching chains (witnesses); undefined when a cross product is -2^63 (witness)"
  },
  {
   "property": "C51",
   "status": "partial",
   "theorems": [
    "Walnut.Props.C51_range",
    "Walnut.Props.C51_boundary",
    "Walnut.Props.C51_progress_partial",
    "Walnut.Props.C51_stuck_false"
   ],
   "note": "chains, shared ends and the boundary for all inputs; progress is characterised exactly and is false: a simple quadrilateral on which nothing is consumed, so the loop of the polygon factory does not end"
  },
  {
   "property": "C50",
   "status": "partial",
   "theorems": [
    "Walnut.Props.C50_collinear",
    "Walnut.Props.C50_defined",
    "Walnut.Props.C50_detect_partial",
    "Walnut.Props.C50_boundary",
    "Walnut.Props.C50_turns_partial",
    "Walnut.Props.C50_overlap_false",
    "Walnut.Props.C50_vertical_false",
    "Walnut.Props.C50_assert_false",
    "Walnut.Props.C50_collinear_output"
   ],
   "note": "collinearity for all chains, boundary for all chains; the top chain is found if the first vertices are not collinear with the minimum, and can be wrong otherwise (witnesses)"
  },
  {
   "property": "C52",
   "status": "partial",
   "theorems": [
    "Walnut.Props.C52_range",
    "Walnut.Props.C52_boundary",
    "Walnut.Props.C52_plane",
    "Walnut.Props.C52_collinear_partial",
    "Walnut.Props.C52_points",
    "Walnut.Props.C52_closed_false"
   ],
   "note": "range, cut, plane and boundary for all inputs; the plane is zero exactly for collinear points if the first and last point differ; false if the last vertex repeats the first: the plane is zero although the polygon is not flat (witness)"
  },
  {
   "property": "C65",
   "status": "partial",
   "theorems": [
    "Walnut.Props.C65_plane_boundary",
    "Walnut.Props.C65_polygons",
    "Walnut.Props.C65_build",
    "Walnut.Props.C65_boundary_partial",
    "Walnut.Props.C65_planar_boundary",
    "Walnut.Props.C65_closed_false",
    "Walnut.Props.C65_terminates_false",
    "Walnut.Props.C65_partition_false",
    "Walnut.Props.C65_convex_plane_partial",
    "Walnut.Props.C65_convex_partial",
    "Walnut.Props.C65_convex_false"
   ],
   "note": "vertices, planes, lines and boundary sums for every call that returns; boundary if no point occurs twice; false: nothing is emitted for a list that repeats the first vertex, Build runs forever on a simple quadrilateral, and the pieces need not be a partition (witnesses); the emitted polygons are convex if no two vertices agree in the first or the second coordinate, and need not be otherwise (witness: a simple hexagon)"
  },
  {
   "property": "C56",
   "status": "partial",
   "theorems": [
    "Walnut.Props.C56_boundary_partial",
    "Walnut.Props.C56_faces",
    "Walnut.Props.C56_closed_false",
    "Walnut.Props.C56_edges_false",
    "Walnut.Props.C56_terminates_false"
   ],
   "note": "the surface is closed (boundaries cancel for every additive quantity) for caps, planar or not, without repeated points; false for a cap that repeats its first vertex, edges need not cancel one by one (T-junction), and Extrude runs forever on a simple quadrilateral (witnesses)"
  },
  {
   "property": "C59",
   "status": "partial",
   "theorems": [
    "Walnut.Props.C59_decompose",
    "Walnut.Props.C59_exact",
    "Walnut.Props.C59_rounded_partial",
    "Walnut.Props.C59_grain_false"
   ],
   "note": "Decompose and FromDoublesExact are exact for all finite doubles; FromDoubles rounds to the grid for grain sizes up to 1; larger grains are ignored although documented (witness)."
  },
  {
   "property": "C55",
   "status": "partial",
   "theorems": [
    "Walnut.Props.C55_three",
    "Walnut.Props.C55_plane_partial",
    "Walnut.Props.C55_reject",
    "Walnut.Props.C55_array",
    "Walnut.Props.C55_stale_false",
    "Walnut.Props.C55_collinear_undefined",
    "Walnut.Props.C55_large"
   ],
   "note": "Unconditional once three constrained vertices are accepted; otherwise if HasLargePlane is not called before a constrained vertex is accepted. Witness that the plane is stale otherwise; three collinear vertices divide by zero."
  },
  {
   "property": "C54",
   "status": "partial",
   "theorems": [
    "Walnut.Props.C54_edges_partial",
    "Walnut.Props.C54_closed_partial",
    "Walnut.Props.C54_order_false"
   ],
   "note": "Facets with at most four vertices. With five vertices the claim is false: the vertices a piece takes from the end of the facet are emitted in reverse order (witness: closed mesh that is repaired to one that is not closed)."
  },
  {
   "property": "C66",
   "status": "partial",
   "theorems": [
    "Walnut.Props.C66_planar_partial",
    "Walnut.Props.C66_stale_false",
    "Walnut.Props.C66_infinite_false",
    "Walnut.Props.C66_collinear_undefined",
    "Walnut.Props.C66_nearest"
   ],
   "note": "Facets with at most four vertices and no vertex moved to infinity. False otherwise (witnesses): the plane used for the test of later vertices is stale, planes with a common direction move their vertex to infinity, three collinear vertices divide by zero."
  },
  {
   "property": "C67",
   "status": "proved",
   "theorems": [
    "Walnut.Props.C67_vertices",
    "Walnut.Props.C67_has_vertex"
   ],
   "note": "All meshes of finite points for which the run is defined."
  },
  {
   "property": "C68",
   "status": "proved",
   "theorems": [
    "Walnut.Props.C68_unchanged"
   ],
   "note": "All meshes of planar facets with finite points for which the run is defined."
  },
  {
   "property": "C44",
   "status": "proved",
   "theorems": [
    "Walnut.Props.C44"
   ],
   "note": "For every heap implementation that satisfies the standard's contract."
  },
  {
   "property": "C43",
   "status": "proved",
   "theorems": [
    "Walnut.Props.C43",
    "Walnut.Props.C43_discount",
    "Walnut.Props.C43_plane",
    "Walnut.Props.C43_exclude",
    "Walnut.Props.C43_exclude_undefined",
    "Walnut.Props.C43_empty"
   ],
   "note": "For fewer than 2^56 polygons, so that the costs do not wrap."
  },
  {
   "property": "C57",
   "status": "proved",
   "theorems": [
    "Walnut.Props.C57",
    "Walnut.Props.C57_edges",
    "Walnut.Props.C57_defined"
   ],
   "note": "TryMergePolygon merges exactly when the normals agree and the union of the edges is convex; the result is convex, covers the union, its area is the sum and only collinear ends of the common edge disappear. What the parent class of the edges does is an argument. The dimension word of -2^63 is excluded only in C57_defined."
  },
  {
   "property": "C53",
   "status": "partial",
   "theorems": [
    "Walnut.Props.C53_partners",
    "Walnut.Props.C53_frame",
    "Walnut.Props.C53_no_error",
    "Walnut.Props.C53_closed",
    "Walnut.Props.C53_open_undefined",
    "Walnut.Props.C53_move",
    "Walnut.Props.C53_insert",
    "Walnut.Props.C53_erase",
    "Walnut.Props.C53_move_assign_partner_false",
    "Walnut.Props.C53_order",
    "Walnut.Props.C53_plane_partners",
    "Walnut.Props.C53_plane_frame",
    "Walnut.Props.C53_plane_no_error",
    "Walnut.Props.C53_plane_closed",
    "Walnut.Props.C53_key_order"
   ],
   "note": "ConnectUnsorted for a plane and ConnectEdgesInLine for a line: the comparison passed to sort is a strict weak ordering that keeps lines together; mutual partners with opposite polarity and equal end points after every run that ends; completeness without errors; for closed surfaces the run is defined, has no error and partners are rotational neighbours. Moves of half-edges in memory, vector insertion and erasure keep partners. Missing: C53_open_undefined shows that the documented behaviour for open surfaces fails."
  },
  {
   "property": "C69",
   "status": "partial",
   "theorems": [
    "Walnut.Props.C69_intersect_plane_partial",
    "Walnut.Props.C69_flat_false",
    "Walnut.Props.C69_empty_box_false"
   ],
   "note": "Proved for every plane and every nonempty box that is not flat in a dimension other than the first one the plane's normal uses. For flat boxes and for the empty box the code returns polygons that it should not return (the two _false theorems)."
  },
  {
   "property": "C70",
   "status": "proved",
   "theorems": [
    "Walnut.Props.C70_walls",
    "Walnut.Props.C70_border",
    "Walnut.Props.C70_closed",
    "Walnut.Props.C70_winding"
   ],
   "note": "For every nonempty box, also flat ones."
  },
  {
   "property": "C71",
   "status": "proved",
   "theorems": [
    "Walnut.Props.C71_boolean",
    "Walnut.Props.C71_parity",
    "Walnut.Props.C71_ray",
    "Walnut.Props.C71_total",
    "Walnut.Props.C71_ids",
    "Walnut.Props.C71_point",
    "Walnut.Props.C71_xor_false"
   ],
   "note": "End to end, from the meshes to the emitted polygons. C71_boolean and C71_parity hold for every tree that was split in any way before the traversal, every choice of split planes and polygons with and without bounding boxes; C71_total (which adds that the traversal ends without a failed assertion) for polygons without bounding boxes and split planes chosen among the planes of the node's polygons. The ids of inverted operands must be known to the tree (C41 has a counterexample otherwise). C71_xor_false: for symmetric differences only the parity is right, the orientation is not."
  },
  {
   "property": "C72",
   "status": "proved",
   "theorems": [
    "Walnut.Props.C72_closed",
    "Walnut.Props.C72_even",
    "Walnut.Props.C72_ids",
    "Walnut.Props.C72_convex"
   ],
   "note": "every tree that was split in any way before the traversal, every choice of split planes, polygons with and without bounding boxes; in terms of points and directions because edges of adjacent polygons need not have the same end points (the example shows such a case)"
  },
  {
   "property": "C73",
   "status": "partial",
   "theorems": [
    "Walnut.Props.C73_defined",
    "Walnut.Props.C73_edges",
    "Walnut.Props.C73_plane",
    "Walnut.Props.C73_same_call",
    "Walnut.Props.C73_balance",
    "Walnut.Props.C73_pointers_partial",
    "Walnut.Props.C73_created_by_false"
   ],
   "note": "Every tree, filter, choice of split planes and grouping. C73_balance is for filters without symmetric differences on closed meshes. Partial: the pointer edge_created_by of an emitted edge can point to a plane of the partitioner that does not exist any more (C73_created_by_false); the other pointers cannot. The connector and the merging of polygons are covered by C45, C47, C53 and others; that they leave the bookkeeping alone is part of the model."
  },
  {
   "property": "C74",
   "status": "partial",
   "theorems": [
    "Walnut.Props.C74_collected_partial",
    "Walnut.Props.C74_created_by_false"
   ],
   "note": "Every tree, filter, choice of split planes and grouping. Partial: edge_created_by is not redirected and can dangle (C74_created_by_false)."
  },
  {
   "property": "C75",
   "status": "partial",
   "theorems": [
    "Walnut.Props.C75_once",
    "Walnut.Props.C75_behind",
    "Walnut.Props.C75_boundary",
    "Walnut.Props.C75_front_partial",
    "Walnut.Props.C75_wall_false"
   ],
   "note": "Emitted polygons of equal orientation never overlap, the set is right behind each of them, and the boundary of the set is covered exactly once. That no emitted polygon has the set on both sides is false: the union of touching solids keeps the double wall (witness)."
  },
  {
   "property": "C76",
   "status": "partial",
   "theorems": [
    "Walnut.Props.C76_merge_partial",
    "Walnut.Props.C76_loop_partial",
    "Walnut.Props.C76_closed",
    "Walnut.Props.C76_null_undefined",
    "Walnut.Props.C76_stale_false"
   ],
   "note": "Proved for every mesh whose straight-on half-edges agree about having partners, in particular for every closed mesh (C76_closed). For open meshes the property is false: TryMergePolygon dereferences a null partner (C76_null_undefined) or leaves a link between edges of different length (C76_stale_false)."
  },
  {
   "property": "C77",
   "status": "proved",
   "theorems": [
    "Walnut.Props.C77_same_vertex",
    "Walnut.Props.C77_injective",
    "Walnut.Props.C77_cycle"
   ],
   "note": "For all linked meshes; the cycle for all finite meshes without open edges."
  },
  {
   "property": "C78",
   "status": "partial",
   "theorems": [
    "Walnut.Props.C78_sound",
    "Walnut.Props.C78_cover",
    "Walnut.Props.C78_defined_partial",
    "Walnut.Props.C78_miss_undefined"
   ],
   "note": "Soundness and coverage for all trees, paths and solid boxes whenever the function returns; it returns if all split planes above the node have more than a line in common with the box (for polygons without bounding box trackers). If one of them misses the box an assertion fails (C78_miss_undefined)."
  },
  {
   "property": "C79",
   "status": "partial",
   "theorems": [
    "Walnut.Props.C79_connected_partial",
    "Walnut.Props.C79_merged_partial"
   ],
   "note": "For all boolean operations without parity on closed meshes, all split sequences, all sorts and heaps that meet the C++ standard: the calls, which connect half-edges and merge facets, have no assertion failure and no connection error, and afterwards every half-edge has an opposite partner, and the facets are convex and cover what was emitted. Excluded are normals with a component of ±2^63 and edge directions with a component of -2^63, because their angles are compared wrongly (C19). C79_connected_partial is about the same calls without the merging."
  },
  {
   "property": "C80",
   "status": "partial",
   "theorems": [
    "Walnut.Props.C80_result_partial",
    "Walnut.Props.C80_chain_partial",
    "Walnut.Props.C80_ids_partial"
   ],
   "note": "For all boolean operations without parity on closed meshes. Excluded are normals with a component of ±2^63 and edge directions with a component of -2^63 in the facets emitted by the first operation (C19)."
  },
  {
   "property": "C81",
   "status": "partial",
   "theorems": [
    "Walnut.Props.C81_unites_partial",
    "Walnut.Props.C81_primary",
    "Walnut.Props.C81_two_partial",
    "Walnut.Props.C81_redirect_false",
    "Walnut.Props.C81_touching_false"
   ],
   "note": "Proved for all connected meshes, orders of calls and rounding functions if the merger redirects the primary of its first argument (C81_unites_partial with C81_primary), and for the merger of the VTK export if a vertex has at most two double representations (C81_two_partial). False in general for the merger of the VTK export: Redirect on an object that is not a primary leaves the objects merged with it before behind (C81_redirect_false). Equal vertices that are not linked by edges are never merged (C81_touching_false). The rounding function is arbitrary; the one in use is the subject of C84. Missing: NaN coordinates."
  },
  {
   "property": "C82",
   "status": "partial",
   "theorems": [
    "Walnut.Props.C82_assert_undefined",
    "Walnut.Props.C82_ties_undefined",
    "Walnut.Props.C82_same_partial",
    "Walnut.Props.C82_traverse_partial",
    "Walnut.Props.C82_small",
    "Walnut.Props.C82_result_partial"
   ],
   "note": "False: the default strategy fails an assertion on the facets of two tetrahedra (C82_assert_undefined), and on those of three tetrahedra it hands event points in a wrong order to the positive child, whose split fails (C82_ties_undefined); both with heap functions that meet the standard. Proved: if the strategy splits a leaf and its event points are absent or right, the children are those of the ordinary split at some plane up to the order of the polygons (C82_same_partial); a whole traversal whose k-d splits have right event points makes the calls of a traversal with ordinary splits (C82_traverse_partial), so that the results of C41 and C71 to C80 hold for it (C82_result_partial). No event points are used below nodes with at most as many polygons as the bound, nor with the bound -1 (C82_small). Missing: that the event points which a previous split made are right, which is not always so."
  },
  {
   "property": "C83",
   "status": "partial",
   "theorems": [
    "Walnut.Props.C83_import_partial",
    "Walnut.Props.C83_winding_partial",
    "Walnut.Props.C83_filter_partial",
    "Walnut.Props.C83_kd_partial",
    "Walnut.Props.C83_output_partial",
    "Walnut.Props.C83_empty_false",
    "Walnut.Props.C83_strip_false"
   ],
   "note": "Proved for meshes whose polygon cells are plane and strictly convex after rounding, and for cells with more than three points only if none of their cross products is -2^63 (see C86). False for triangle strips (C83_strip_false) and for differences with an empty input (C83_empty_false). Missing: cells that are not strictly convex. C83_output_partial includes the export (C85). For traversals with ordinary splits (C83_filter_partial) and with the k-d strategy while its event points are right (C83_kd_partial, see C82)."
  },
  {
   "property": "C84",
   "status": "partial",
   "theorems": [
    "Walnut.Props.C84_double",
    "Walnut.Props.C84_long_double",
    "Walnut.Props.C84_point_partial",
    "Walnut.Props.C84_round_trip",
    "Walnut.Props.C84_overflow_false",
    "Walnut.Props.C84_tiny_false"
   ],
   "note": "Proved for every rounding to nearest and the formats of double and long double in use. Numbers that fit into the format are converted exactly; otherwise the error is at most 5 (double) or 6 (long double) half units. Partial: the accuracy of GetDoublePoint3 needs numerators and denominators in the range of long double (C84_overflow_false: otherwise NaN for a point with coordinates 1) and coordinates in the range of normal doubles. The round trip of doubles is proved for a long double with 15 bits of exponent, and is false where long double is double (C84_tiny_false)."
  },
  {
   "property": "C85",
   "status": "partial",
   "theorems": [
    "Walnut.Props.C85_export_partial",
    "Walnut.Props.C85_unites_partial",
    "Walnut.Props.C85_single_partial",
    "Walnut.Props.C85_double_partial",
    "Walnut.Props.C85_hole_false",
    "Walnut.Props.C85_double_hole_false",
    "Walnut.Props.C85_plain",
    "Walnut.Props.C83_output_partial"
   ],
   "note": "Proved for all connected meshes, all orders of the hash map and all rounding functions, if different vertices have different double representations and each vertex at most two (C85_export_partial), or with a merger that unites everything merged so far (C85_unites_partial). False for the merger of the code if a vertex has three representations: the exported surface has a hole (C85_hole_false); with rounding to nearest and 80 bit long doubles there is a mesh for which this happens (C85_double_hole_false). It cannot happen if the vertices are written with integers that fit into the significand of long double (C85_double_partial). Polygons without links are exported faithfully (C85_plain). C83_output_partial combines this with the VTK filter. Missing: NaN coordinates, the rounding by vtkPoints."
  },
  {
   "property": "C86",
   "status": "partial",
   "theorems": [
    "Walnut.Props.C86_convex_partial",
    "Walnut.Props.C86_reversed_partial",
    "Walnut.Props.C86_min_undefined"
   ],
   "note": "Proved for all strictly convex polygons; for those with more than three vertices if no cross product of three vertices is -2^63. A rectangle of area 2^63 is not returned at all (C86_min_undefined): a product of 64 bit integers overflows."
  },
  {
   "property": "C87",
   "status": "partial",
   "theorems": [
    "Walnut.Props.C87_in_place",
    "Walnut.Props.C87_partial",
    "Walnut.Props.C87_stateless",
    "Walnut.Props.C87_index",
    "Walnut.Props.C87_compare",
    "Walnut.Props.C87_vertices",
    "Walnut.Props.C87_vertex_random",
    "Walnut.Props.C87_vertex_distance",
    "Walnut.Props.C87_lost_false"
   ],
   "note": "holds for all operators if the transformer equals a default constructed one, and for all transformers if only operators that change the iterator in place are used, so that the iterators over the vertices of a polygon are right for all operators; it + n, it - n, it++ and it-- return an iterator without the user's transformer (witness with the transformer of the VTK import, a null pointer)"
  },
  {
   "property": "C88",
   "status": "partial",
   "theorems": [
    "Walnut.Props.C88_keys_partial",
    "Walnut.Props.C88_nan_false",
    "Walnut.Props.C88_collision_false"
   ],
   "note": "equality is exact and the hash consistent with it unless a coordinate is NaN; a point with a NaN is not equal to itself (witness); the hash ignores y and z (witness)"
  },
  {
   "property": "C89",
   "status": "partial",
   "theorems": [
    "Walnut.Props.C89_sound",
    "Walnut.Props.C89_cover_walls",
    "Walnut.Props.C89_cover_splits",
    "Walnut.Props.C89_early",
    "Walnut.Props.C89_outside",
    "Walnut.Props.C89_defined_partial",
    "Walnut.Props.C89_miss_undefined",
    "Walnut.Props.C89_output",
    "Walnut.Props.C89_output_sound",
    "Walnut.Props.C89_output_walls",
    "Walnut.Props.C89_output_splits",
    "Walnut.Props.C89_nested",
    "Walnut.Props.C89_entered",
    "Walnut.Props.C89_visits_defined"
   ],
   "note": "every tree, path and box with positive extents, for each call that succeeds: the polygons before the traversal, and those that the visitor accepts, at points not on a plane of the partitioner; how the accepted polygons are connected is not related to the polyhedron here; undefined if a split plane misses the box (witness)"
  },
  {
   "property": "C90",
   "status": "partial",
   "theorems": [
    "Walnut.Props.C90_squared",
    "Walnut.Props.C90_largest",
    "Walnut.Props.C90_actual",
    "Walnut.Props.C90_length_partial",
    "Walnut.Props.C90_too_large",
    "Walnut.Props.C90_length_false"
   ],
   "note": "the squared length is right for all boxes; the length is right if the denominator is 1 and too large for every other box with more than one point, because the code divides by the denominator and not by its square; rounding of doubles is not modelled"
  },
  {
   "property": "C91",
   "status": "proved",
   "theorems": [
    "Walnut.Props.C91_strict_eq",
    "Walnut.Props.C91_strict_equivalence",
    "Walnut.Props.C91_hash",
    "Walnut.Props.C91_strict_pt",
    "Walnut.Props.C91_reduced",
    "Walnut.Props.C91_unreduced",
    "Walnut.Props.C91_only_equal_false",
    "Walnut.Props.C91_each_coordinate",
    "Walnut.Props.C91_array"
   ],
   "note": "Hash and strict equality of homogeneous points over the words of the coordinates; after Reduce they identify exactly equal points. C91_unreduced shows that Reduce is needed. The comment at the hasher, that only equal points have equal hashes, is refuted by C91_only_equal_false; the property itself does not claim it. Reduce is undefined for some points with a coordinate -2^63, see C61."
  },
  {
   "property": "C92",
   "status": "proved",
   "theorems": [
    "Walnut.Props.C92_low_uint64",
    "Walnut.Props.C92_low_uint32",
    "Walnut.Props.C92_to_int"
   ],
   "note": "low_uint64, low_uint32 and ToInt over the words of the number; a failed assertion of ToInt is undefined."
  }
 ]
}