/- Prints the axioms every property theorem depends on. -/
import Verif.Props.AnyRay
import Verif.Props.Area
import Verif.Props.Around
import Verif.Props.BigIntArith
import Verif.Props.BigIntDiv
import Verif.Props.Boolean
import Verif.Props.BoxMesh
import Verif.Props.BoxPolygons
import Verif.Props.BoxSize
import Verif.Props.Boxes
import Verif.Props.CellBorder
import Verif.Props.CellBorderRun
import Verif.Props.Cells
import Verif.Props.ClosedOutput
import Verif.Props.Concat
import Verif.Props.Connect
import Verif.Props.ConnectOrder
import Verif.Props.ConnectPlane
import Verif.Props.ConnectedOutput
import Verif.Props.Deeds
import Verif.Props.Double
import Verif.Props.Equal
import Verif.Props.Estimator
import Verif.Props.Events
import Verif.Props.Export
import Verif.Props.ExportDouble
import Verif.Props.ExportRun
import Verif.Props.Extrude
import Verif.Props.Factory
import Verif.Props.FactoryConvex
import Verif.Props.Filters
import Verif.Props.Float
import Verif.Props.Hash
import Verif.Props.KdRun
import Verif.Props.KdTree
import Verif.Props.Key
import Verif.Props.Lines
import Verif.Props.Links
import Verif.Props.LowestCost
import Verif.Props.Mapper
import Verif.Props.MapperLemmas
import Verif.Props.MapperRun
import Verif.Props.Merge
import Verif.Props.MergedOutput
import Verif.Props.Mesh
import Verif.Props.Monotone
import Verif.Props.Moves
import Verif.Props.Narrow
import Verif.Props.NodeBorder
import Verif.Props.Nudge
import Verif.Props.Orienting
import Verif.Props.Partition
import Verif.Props.Pick
import Verif.Props.Planar
import Verif.Props.Planes
import Verif.Props.Ranges
import Verif.Props.Rational
import Verif.Props.Redirect
import Verif.Props.Reduce
import Verif.Props.Repair
import Verif.Props.RepairNearest
import Verif.Props.Reuse
import Verif.Props.ReuseIds
import Verif.Props.Rotation
import Verif.Props.Routing
import Verif.Props.SolidBoundary
import Verif.Props.Split
import Verif.Props.Storage
import Verif.Props.Track
import Verif.Props.TrackMore
import Verif.Props.TransformIter
import Verif.Props.Traverse
import Verif.Props.VertexIter
import Verif.Props.Visitor
import Verif.Props.Vtk
import Verif.Props.Winding
import Verif.Props.WordArith

#print axioms Walnut.Props.C01_add
#print axioms Walnut.Props.C01_add_assign
#print axioms Walnut.Props.C01_add_assign_int
#print axioms Walnut.Props.C01_self_add_assign_undefined
#print axioms Walnut.Props.C02_sub
#print axioms Walnut.Props.C02_sub_assign
#print axioms Walnut.Props.C02_sub_assign_int
#print axioms Walnut.Props.C02_neg
#print axioms Walnut.Props.C03_mul
#print axioms Walnut.Props.C03_add_multiply
#print axioms Walnut.Props.C03_subtract_multiply
#print axioms Walnut.Props.C03_determinant
#print axioms Walnut.Props.C04_compare
#print axioms Walnut.Props.C04_relations
#print axioms Walnut.Props.C04_relations_int
#print axioms Walnut.Props.C04_signs
#print axioms Walnut.Props.C05_hash
#print axioms Walnut.Props.C05_hash_of_eq
#print axioms Walnut.Props.C06_increment_partial
#print axioms Walnut.Props.C06_increment_value
#print axioms Walnut.Props.C06_increment_false
#print axioms Walnut.Props.C06_decrement_partial
#print axioms Walnut.Props.C06_decrement_value
#print axioms Walnut.Props.C06_decrement_false
#print axioms Walnut.Props.C07_divide_partial
#print axioms Walnut.Props.C07_meaning
#print axioms Walnut.Props.C07_false
#print axioms Walnut.Props.C07_debug_partial
#print axioms Walnut.Props.C07_debug_false
#print axioms Walnut.Props.C08_shift_left
#print axioms Walnut.Props.C09_extreme_values
#print axioms Walnut.Props.C10_abs_partial
#print axioms Walnut.Props.C10_abs_false
#print axioms Walnut.Props.C10_get_abs
#print axioms Walnut.Props.C10_get_uint_abs
#print axioms Walnut.Props.C10_of_biguint
#print axioms Walnut.Props.C11_gcd_partial
#print axioms Walnut.Props.C11_negative_partial
#print axioms Walnut.Props.C11_sign_false
#print axioms Walnut.Props.C11_undefined
#print axioms Walnut.Props.C12_print
#print axioms Walnut.Props.C12_digits
#print axioms Walnut.Props.C13_multiply
#print axioms Walnut.Props.C13_multiply_add
#print axioms Walnut.Props.C13_multiply_signed
#print axioms Walnut.Props.C13_add_carry
#print axioms Walnut.Props.C13_shift_right
#print axioms Walnut.Props.C13_highest_set_bit
#print axioms Walnut.Props.C13_trailing_zeros
#print axioms Walnut.Props.C13_portable_eq_builtin
#print axioms Walnut.Props.C15_divide_remainder
#print axioms Walnut.Props.C15_debug_partial
#print axioms Walnut.Props.C15_debug_false
#print axioms Walnut.Props.C16_is_less_than
#print axioms Walnut.Props.C16_equals
#print axioms Walnut.Props.C16_compare_component
#print axioms Walnut.Props.C17_round_up_partial
#print axioms Walnut.Props.C17_round_down_partial
#print axioms Walnut.Props.C17_false
#print axioms Walnut.Props.C18_rotation
#print axioms Walnut.Props.C18_half_rotation
#print axioms Walnut.Props.C18_strict_weak_order
#print axioms Walnut.Props.C18_half_strict_weak_order
#print axioms Walnut.Props.C19_same_dir_partial
#print axioms Walnut.Props.C19_same_or_opposite
#print axioms Walnut.Props.C19_same_dir2_partial
#print axioms Walnut.Props.C19_same_or_opposite2
#print axioms Walnut.Props.C19_false
#print axioms Walnut.Props.C20_eq
#print axioms Walnut.Props.C20_eq_point
#print axioms Walnut.Props.C20_equivalence
#print axioms Walnut.Props.C20_invalid
#print axioms Walnut.Props.C20_eq2
#print axioms Walnut.Props.C21_lexicographically_lt
#print axioms Walnut.Props.C21_topness_lt
#print axioms Walnut.Props.C21_point_lt
#print axioms Walnut.Props.C21_plane_partial
#print axioms Walnut.Props.C21_plane_false
#print axioms Walnut.Props.C22_twist_partial
#print axioms Walnut.Props.C22_false
#print axioms Walnut.Props.C22_point_twist
#print axioms Walnut.Props.C22_point
#print axioms Walnut.Props.C22_point_components
#print axioms Walnut.Props.C23_of_points
#print axioms Walnut.Props.C23_of_homo_points_partial
#print axioms Walnut.Props.C23_false
#print axioms Walnut.Props.C23_of_normal_point
#print axioms Walnut.Props.C23_compare
#print axioms Walnut.Props.C23_compare_homo
#print axioms Walnut.Props.C23_half_space2
#print axioms Walnut.Props.C23_compare2
#print axioms Walnut.Props.C23_compare_homo2
#print axioms Walnut.Props.C23_compare_parallel
#print axioms Walnut.Props.C24_eq_partial
#print axioms Walnut.Props.C24_eq_false
#print axioms Walnut.Props.C24_same_or_opposite
#print axioms Walnut.Props.C24_set_compare_partial
#print axioms Walnut.Props.C24_set_order_partial
#print axioms Walnut.Props.C24_set_false
#print axioms Walnut.Props.C25_order_partial
#print axioms Walnut.Props.C25_false
#print axioms Walnut.Props.C25_has_same_line
#print axioms Walnut.Props.C26_is_coincident
#print axioms Walnut.Props.C26_is_coincident_point
#print axioms Walnut.Props.C26_of_points
#print axioms Walnut.Props.C26_of_int_points
#print axioms Walnut.Props.C26_of_planes
#print axioms Walnut.Props.C26_intersect
#print axioms Walnut.Props.C26_is_coincident_plane
#print axioms Walnut.Props.C26_project2D
#print axioms Walnut.Props.C26_neg
#print axioms Walnut.Props.C26_eq
#print axioms Walnut.Props.C27_make
#print axioms Walnut.Props.C27_is_inside
#print axioms Walnut.Props.C27_is_inside_point
#print axioms Walnut.Props.C27_is_on_border
#print axioms Walnut.Props.C27_empty
#print axioms Walnut.Props.C27_plane_side
#print axioms Walnut.Props.C27_eq
#print axioms Walnut.Props.C27_of_points
#print axioms Walnut.Props.C27_of_radius
#print axioms Walnut.Props.C27_is_on_border_point
#print axioms Walnut.Props.C27_corners
#print axioms Walnut.Props.C28_r_transform
#print axioms Walnut.Props.C28_bivector
#print axioms Walnut.Props.C28_zero
#print axioms Walnut.Props.C28_swap
#print axioms Walnut.Props.C28_split_side
#print axioms Walnut.Props.C28_reverse_lexicographic
#print axioms Walnut.Props.C61_vector_reduce
#print axioms Walnut.Props.C61_vector_reduce_defined
#print axioms Walnut.Props.C61_vector_undefined
#print axioms Walnut.Props.C61_point_reduce
#print axioms Walnut.Props.C61_point_reduce_defined
#print axioms Walnut.Props.C61_point_undefined
#print axioms Walnut.Props.C61_plane_reduce
#print axioms Walnut.Props.C61_line_reduce
#print axioms Walnut.Props.C62_project_onto_plane
#print axioms Walnut.Props.C62_extrude
#print axioms Walnut.Props.C62_axis_aligned
#print axioms Walnut.Props.C62_add_offset
#print axioms Walnut.Props.C62_difference
#print axioms Walnut.Props.C62_negate
#print axioms Walnut.Props.C35_filter_partial
#print axioms Walnut.Props.C35_filter_false
#print axioms Walnut.Props.C36_pruning
#print axioms Walnut.Props.C36_id_lists
#print axioms Walnut.Props.C36_tree
#print axioms Walnut.Props.C37_union
#print axioms Walnut.Props.C37_intersect
#print axioms Walnut.Props.C37_subtract_partial
#print axioms Walnut.Props.C37_subtract_false
#print axioms Walnut.Props.C37_subtract_unknown_false
#print axioms Walnut.Props.C42_history
#print axioms Walnut.Props.C42_zero_undefined
#print axioms Walnut.Props.C42_error
#print axioms Walnut.Props.C42_split_cost_partial
#print axioms Walnut.Props.C42_split_cost_false
#print axioms Walnut.Props.C14_ownership
#print axioms Walnut.Props.C14_memory_safe
#print axioms Walnut.Props.C14_refines
#print axioms Walnut.Props.C14_resize_init_shrink_false
#print axioms Walnut.Props.C14_moved_from_unsafe
#print axioms Walnut.Props.C45_active_deed
#print axioms Walnut.Props.C45_follows
#print axioms Walnut.Props.C45_destroyed_target
#print axioms Walnut.Props.C45_lending
#print axioms Walnut.Props.C45_memory_safe
#print axioms Walnut.Props.C45_generic_lend_false
#print axioms Walnut.Props.C46_terminates
#print axioms Walnut.Props.C46_deref_pure
#print axioms Walnut.Props.C46_redirect
#print axioms Walnut.Props.C46_defined
#print axioms Walnut.Props.C46_history_false
#print axioms Walnut.Props.C47_forward
#print axioms Walnut.Props.C47_backward
#print axioms Walnut.Props.C47_append
#print axioms Walnut.Props.C47_prepend
#print axioms Walnut.Props.C47_append_iterators
#print axioms Walnut.Props.C47_prepend_iterators_partial
#print axioms Walnut.Props.C47_prepend_iterators_false
#print axioms Walnut.Props.C47_plus_false
#print axioms Walnut.Props.C47_plus_partial
#print axioms Walnut.Props.C29_split_info
#print axioms Walnut.Props.C29_children
#print axioms Walnut.Props.C29_repeated
#print axioms Walnut.Props.C30_linear
#print axioms Walnut.Props.C30_convex_pattern
#print axioms Walnut.Props.C30_polygon
#print axioms Walnut.Props.C63_extreme
#print axioms Walnut.Props.C63_extreme_parallel
#print axioms Walnut.Props.C32_area
#print axioms Walnut.Props.C32_area_defined
#print axioms Walnut.Props.C32_area_undefined
#print axioms Walnut.Props.C32_projected_centroid
#print axioms Walnut.Props.C32_centroid_defined
#print axioms Walnut.Props.C32_area_positive
#print axioms Walnut.Props.C32_centroid
#print axioms Walnut.Props.C33_volume_apex
#print axioms Walnut.Props.C33_centroid
#print axioms Walnut.Props.C33_defined
#print axioms Walnut.Props.C33_undefined
#print axioms Walnut.Props.C34_top
#print axioms Walnut.Props.C34_farthest
#print axioms Walnut.Props.C58_eq_partial
#print axioms Walnut.Props.C58_rotation
#print axioms Walnut.Props.C58_rotate_shape
#print axioms Walnut.Props.C58_sort
#print axioms Walnut.Props.C58_invert
#print axioms Walnut.Props.C58_invert_invert
#print axioms Walnut.Props.C58_first_edge_data_false
#print axioms Walnut.Props.C58_empty_false
#print axioms Walnut.Props.C31_build
#print axioms Walnut.Props.C31_contains
#print axioms Walnut.Props.C31_split
#print axioms Walnut.Props.C31_repeated
#print axioms Walnut.Props.C31_rotate
#print axioms Walnut.Props.C31_split_info
#print axioms Walnut.Props.C31_merge
#print axioms Walnut.Props.C31_history
#print axioms Walnut.Props.C31_split_edge_partial
#print axioms Walnut.Props.C31_invert_partial
#print axioms Walnut.Props.C31_invert_false
#print axioms Walnut.Props.C31_invert_split_false
#print axioms Walnut.Props.C31_split_edge_false
#print axioms Walnut.Props.C31_sort_empty_undefined
#print axioms Walnut.Props.C39_cells
#print axioms Walnut.Props.C39_cover
#print axioms Walnut.Props.C39_multiplicity
#print axioms Walnut.Props.C39_leaf_counters
#print axioms Walnut.Props.C39_counters
#print axioms Walnut.Props.C39_leaves
#print axioms Walnut.Props.C39_split_defined
#print axioms Walnut.Props.C39_push_defined
#print axioms Walnut.Props.C39_new_id_undefined
#print axioms Walnut.Props.C40_winding
#print axioms Walnut.Props.C40_outside
#print axioms Walnut.Props.C40_ray
#print axioms Walnut.Props.C40_order
#print axioms Walnut.Props.C40_unaffected
#print axioms Walnut.Props.C40_late_content_false
#print axioms Walnut.Props.C64_edges
#print axioms Walnut.Props.C38_facets
#print axioms Walnut.Props.C38_defined
#print axioms Walnut.Props.C38_parity
#print axioms Walnut.Props.C38_single
#print axioms Walnut.Props.C38_xor_false
#print axioms Walnut.Props.filter_lawful
#print axioms Walnut.Props.C41_tree
#print axioms Walnut.Props.C41_nested
#print axioms Walnut.Props.C41_visited
#print axioms Walnut.Props.C41_output
#print axioms Walnut.Props.C41_defined
#print axioms Walnut.Props.C41_late_border_false
#print axioms Walnut.Props.C60_smallest_partial
#print axioms Walnut.Props.C60_progress
#print axioms Walnut.Props.C60_defined
#print axioms Walnut.Props.C60_false
#print axioms Walnut.Props.C60_cost_exclude
#print axioms Walnut.Props.C48_triangles
#print axioms Walnut.Props.C48_area
#print axioms Walnut.Props.C48_defined
#print axioms Walnut.Props.C48_counter_clockwise
#print axioms Walnut.Props.C48_points
#print axioms Walnut.Props.C49_boundary
#print axioms Walnut.Props.C49_area
#print axioms Walnut.Props.C49_turns_partial
#print axioms Walnut.Props.C49_turns_strict_partial
#print axioms Walnut.Props.C49_defined
#print axioms Walnut.Props.C49_touch_false
#print axioms Walnut.Props.C49_flat_false
#print axioms Walnut.Props.C49_undefined
#print axioms Walnut.Props.C51_range
#print axioms Walnut.Props.C51_boundary
#print axioms Walnut.Props.C51_progress_partial
#print axioms Walnut.Props.C51_stuck_false
#print axioms Walnut.Props.C50_collinear
#print axioms Walnut.Props.C50_defined
#print axioms Walnut.Props.C50_detect_partial
#print axioms Walnut.Props.C50_boundary
#print axioms Walnut.Props.C50_turns_partial
#print axioms Walnut.Props.C50_overlap_false
#print axioms Walnut.Props.C50_vertical_false
#print axioms Walnut.Props.C50_assert_false
#print axioms Walnut.Props.C50_collinear_output
#print axioms Walnut.Props.C52_range
#print axioms Walnut.Props.C52_boundary
#print axioms Walnut.Props.C52_plane
#print axioms Walnut.Props.C52_collinear_partial
#print axioms Walnut.Props.C52_points
#print axioms Walnut.Props.C52_closed_false
#print axioms Walnut.Props.C65_plane_boundary
#print axioms Walnut.Props.C65_polygons
#print axioms Walnut.Props.C65_build
#print axioms Walnut.Props.C65_boundary_partial
#print axioms Walnut.Props.C65_planar_boundary
#print axioms Walnut.Props.C65_closed_false
#print axioms Walnut.Props.C65_terminates_false
#print axioms Walnut.Props.C65_partition_false
#print axioms Walnut.Props.C65_convex_plane_partial
#print axioms Walnut.Props.C65_convex_partial
#print axioms Walnut.Props.C65_convex_false
#print axioms Walnut.Props.C56_boundary_partial
#print axioms Walnut.Props.C56_faces
#print axioms Walnut.Props.C56_closed_false
#print axioms Walnut.Props.C56_edges_false
#print axioms Walnut.Props.C56_terminates_false
#print axioms Walnut.Props.C59_decompose
#print axioms Walnut.Props.C59_exact
#print axioms Walnut.Props.C59_rounded_partial
#print axioms Walnut.Props.C59_grain_false
#print axioms Walnut.Props.C55_three
#print axioms Walnut.Props.C55_plane_partial
#print axioms Walnut.Props.C55_reject
#print axioms Walnut.Props.C55_array
#print axioms Walnut.Props.C55_stale_false
#print axioms Walnut.Props.C55_collinear_undefined
#print axioms Walnut.Props.C55_large
#print axioms Walnut.Props.C54_edges_partial
#print axioms Walnut.Props.C54_closed_partial
#print axioms Walnut.Props.C54_order_false
#print axioms Walnut.Props.C66_planar_partial
#print axioms Walnut.Props.C66_stale_false
#print axioms Walnut.Props.C66_infinite_false
#print axioms Walnut.Props.C66_collinear_undefined
#print axioms Walnut.Props.C66_nearest
#print axioms Walnut.Props.C67_vertices
#print axioms Walnut.Props.C67_has_vertex
#print axioms Walnut.Props.C68_unchanged
#print axioms Walnut.Props.C44
#print axioms Walnut.Props.C43
#print axioms Walnut.Props.C43_discount
#print axioms Walnut.Props.C43_plane
#print axioms Walnut.Props.C43_exclude
#print axioms Walnut.Props.C43_exclude_undefined
#print axioms Walnut.Props.C43_empty
#print axioms Walnut.Props.C57
#print axioms Walnut.Props.C57_edges
#print axioms Walnut.Props.C57_defined
#print axioms Walnut.Props.C53_partners
#print axioms Walnut.Props.C53_frame
#print axioms Walnut.Props.C53_no_error
#print axioms Walnut.Props.C53_closed
#print axioms Walnut.Props.C53_open_undefined
#print axioms Walnut.Props.C53_move
#print axioms Walnut.Props.C53_insert
#print axioms Walnut.Props.C53_erase
#print axioms Walnut.Props.C53_move_assign_partner_false
#print axioms Walnut.Props.C53_order
#print axioms Walnut.Props.C53_plane_partners
#print axioms Walnut.Props.C53_plane_frame
#print axioms Walnut.Props.C53_plane_no_error
#print axioms Walnut.Props.C53_plane_closed
#print axioms Walnut.Props.C53_key_order
#print axioms Walnut.Props.C69_intersect_plane_partial
#print axioms Walnut.Props.C69_flat_false
#print axioms Walnut.Props.C69_empty_box_false
#print axioms Walnut.Props.C70_walls
#print axioms Walnut.Props.C70_border
#print axioms Walnut.Props.C70_closed
#print axioms Walnut.Props.C70_winding
#print axioms Walnut.Props.C71_boolean
#print axioms Walnut.Props.C71_parity
#print axioms Walnut.Props.C71_ray
#print axioms Walnut.Props.C71_total
#print axioms Walnut.Props.C71_ids
#print axioms Walnut.Props.C71_point
#print axioms Walnut.Props.C71_xor_false
#print axioms Walnut.Props.C72_closed
#print axioms Walnut.Props.C72_even
#print axioms Walnut.Props.C72_ids
#print axioms Walnut.Props.C72_convex
#print axioms Walnut.Props.C73_defined
#print axioms Walnut.Props.C73_edges
#print axioms Walnut.Props.C73_plane
#print axioms Walnut.Props.C73_same_call
#print axioms Walnut.Props.C73_balance
#print axioms Walnut.Props.C73_pointers_partial
#print axioms Walnut.Props.C73_created_by_false
#print axioms Walnut.Props.C74_collected_partial
#print axioms Walnut.Props.C74_created_by_false
#print axioms Walnut.Props.C75_once
#print axioms Walnut.Props.C75_behind
#print axioms Walnut.Props.C75_boundary
#print axioms Walnut.Props.C75_front_partial
#print axioms Walnut.Props.C75_wall_false
#print axioms Walnut.Props.C76_merge_partial
#print axioms Walnut.Props.C76_loop_partial
#print axioms Walnut.Props.C76_closed
#print axioms Walnut.Props.C76_null_undefined
#print axioms Walnut.Props.C76_stale_false
#print axioms Walnut.Props.C77_same_vertex
#print axioms Walnut.Props.C77_injective
#print axioms Walnut.Props.C77_cycle
#print axioms Walnut.Props.C78_sound
#print axioms Walnut.Props.C78_cover
#print axioms Walnut.Props.C78_defined_partial
#print axioms Walnut.Props.C78_miss_undefined
#print axioms Walnut.Props.C79_connected_partial
#print axioms Walnut.Props.C79_merged_partial
#print axioms Walnut.Props.C80_result_partial
#print axioms Walnut.Props.C80_chain_partial
#print axioms Walnut.Props.C80_ids_partial
#print axioms Walnut.Props.C81_unites_partial
#print axioms Walnut.Props.C81_primary
#print axioms Walnut.Props.C81_two_partial
#print axioms Walnut.Props.C81_redirect_false
#print axioms Walnut.Props.C81_touching_false
#print axioms Walnut.Props.C82_assert_undefined
#print axioms Walnut.Props.C82_ties_undefined
#print axioms Walnut.Props.C82_same_partial
#print axioms Walnut.Props.C82_traverse_partial
#print axioms Walnut.Props.C82_small
#print axioms Walnut.Props.C82_result_partial
#print axioms Walnut.Props.C83_import_partial
#print axioms Walnut.Props.C83_winding_partial
#print axioms Walnut.Props.C83_filter_partial
#print axioms Walnut.Props.C83_kd_partial
#print axioms Walnut.Props.C83_output_partial
#print axioms Walnut.Props.C83_empty_false
#print axioms Walnut.Props.C83_strip_false
#print axioms Walnut.Props.C84_double
#print axioms Walnut.Props.C84_long_double
#print axioms Walnut.Props.C84_point_partial
#print axioms Walnut.Props.C84_round_trip
#print axioms Walnut.Props.C84_overflow_false
#print axioms Walnut.Props.C84_tiny_false
#print axioms Walnut.Props.C85_export_partial
#print axioms Walnut.Props.C85_unites_partial
#print axioms Walnut.Props.C85_single_partial
#print axioms Walnut.Props.C85_double_partial
#print axioms Walnut.Props.C85_hole_false
#print axioms Walnut.Props.C85_double_hole_false
#print axioms Walnut.Props.C85_plain
#print axioms Walnut.Props.C86_convex_partial
#print axioms Walnut.Props.C86_reversed_partial
#print axioms Walnut.Props.C86_min_undefined
#print axioms Walnut.Props.C87_in_place
#print axioms Walnut.Props.C87_partial
#print axioms Walnut.Props.C87_stateless
#print axioms Walnut.Props.C87_index
#print axioms Walnut.Props.C87_compare
#print axioms Walnut.Props.C87_vertices
#print axioms Walnut.Props.C87_vertex_random
#print axioms Walnut.Props.C87_vertex_distance
#print axioms Walnut.Props.C87_lost_false
#print axioms Walnut.Props.C88_keys_partial
#print axioms Walnut.Props.C88_nan_false
#print axioms Walnut.Props.C88_collision_false
#print axioms Walnut.Props.C89_sound
#print axioms Walnut.Props.C89_cover_walls
#print axioms Walnut.Props.C89_cover_splits
#print axioms Walnut.Props.C89_early
#print axioms Walnut.Props.C89_outside
#print axioms Walnut.Props.C89_defined_partial
#print axioms Walnut.Props.C89_miss_undefined
#print axioms Walnut.Props.C89_output
#print axioms Walnut.Props.C89_output_sound
#print axioms Walnut.Props.C89_output_walls
#print axioms Walnut.Props.C89_output_splits
#print axioms Walnut.Props.C89_nested
#print axioms Walnut.Props.C89_entered
#print axioms Walnut.Props.C89_visits_defined
#print axioms Walnut.Props.C90_squared
#print axioms Walnut.Props.C90_largest
#print axioms Walnut.Props.C90_actual
#print axioms Walnut.Props.C90_length_partial
#print axioms Walnut.Props.C90_too_large
#print axioms Walnut.Props.C90_length_false
#print axioms Walnut.Props.C91_strict_eq
#print axioms Walnut.Props.C91_strict_equivalence
#print axioms Walnut.Props.C91_hash
#print axioms Walnut.Props.C91_strict_pt
#print axioms Walnut.Props.C91_reduced
#print axioms Walnut.Props.C91_unreduced
#print axioms Walnut.Props.C91_only_equal_false
#print axioms Walnut.Props.C91_each_coordinate
#print axioms Walnut.Props.C91_array
#print axioms Walnut.Props.C92_low_uint64
#print axioms Walnut.Props.C92_low_uint32
#print axioms Walnut.Props.C92_to_int
