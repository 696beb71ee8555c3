{
 "claims": [
  {
   "property": "C01",
   "status": "proved",
   "theorems": [
    "Verif.Undo.undo_history",
    "Verif.Undo.undo_all_restores",
    "Verif.Undo.sampleOps_wellBehaved"
   ],
   "note": "For every history of well-behaved undoable calls; sampleOps_wellBehaved instantiates the hypotheses."
  },
  {
   "property": "C02",
   "status": "proved",
   "theorems": [
    "Verif.Undo.call_discards_redo",
    "Verif.Undo.failed_call_records_nothing",
    "Verif.Undo.undo_redo_exact"
   ],
   "note": ""
  },
  {
   "property": "C03",
   "status": "proved",
   "theorems": [
    "Verif.Undo.failing_undo_clears",
    "Verif.Undo.undo_raises_iff"
   ],
   "note": ""
  },
  {
   "property": "C04",
   "status": "proved",
   "theorems": [
    "Verif.Undo.group_is_one_unit"
   ],
   "note": "Groups that complete without exception and are not nested; the rest is C05."
  },
  {
   "property": "C05",
   "status": "partial",
   "theorems": [
    "Verif.Undo.group_is_one_unit",
    "Verif.Undo.group_exception_loses_next_call",
    "Verif.Undo.nested_group_makes_three_entries",
    "Verif.Undo.nested_group_not_undone_as_unit",
    "Verif.Undo.group_exception_breaks_recording"
   ],
   "note": "The full property is false for this code: a group left by an exception, and a nested group, are not one unit. Proved: the good case and the negations."
  },
  {
   "property": "C06",
   "status": "partial",
   "theorems": [
    "Verif.Undo.haschanged_correct_partial",
    "Verif.Undo.haschanged_misses_change"
   ],
   "note": "False in general (undo, then a different call at the same depth is reported as unchanged); proved under the hypothesis in the _partial theorem."
  },
  {
   "property": "C07",
   "status": "partial",
   "theorems": [
    "Verif.Undo.undocount_correct",
    "Verif.Undo.redocount_wrong"
   ],
   "note": "undocount is right; redocount is proved wrong."
  },
  {
   "property": "C08",
   "status": "proved",
   "theorems": [
    "Verif.Undo.disabled_records_nothing",
    "Verif.Undo.undo_switches_recording_on",
    "Verif.Undo.empty_undo_keeps_recording_off"
   ],
   "note": "Recording off records nothing; a non-empty undo silently switches recording on."
  },
  {
   "property": "C09",
   "status": "proved",
   "theorems": [
    "Verif.IdMap.ids_unique_dense",
    "Verif.IdMap.append_keeps_others",
    "Verif.IdMap.double_remove_removes_other"
   ],
   "note": "For histories that remove only members; double_remove_removes_other shows the hypothesis is needed."
  },
  {
   "property": "C10",
   "status": "proved",
   "theorems": [
    "Verif.IdMap.remove_append_same_id",
    "Verif.IdMap.undo_redo_keeps_ids"
   ],
   "note": ""
  },
  {
   "property": "C100",
   "status": "proved",
   "theorems": [
    "Verif.Approx.uv_points_spec"
   ],
   "note": "Exact numbers."
  },
  {
   "property": "C101",
   "status": "proved",
   "theorems": [
    "Verif.Approx.surface_at_point"
   ],
   "note": "Exact numbers."
  },
  {
   "property": "C102",
   "status": "proved",
   "theorems": [
    "Verif.Approx.default_nuv",
    "Verif.Approx.default_nuv_few"
   ],
   "note": "Real numbers. The exception for too few points is never raised."
  },
  {
   "property": "C103",
   "status": "proved",
   "theorems": [
    "Verif.Approx.reg_energy",
    "Verif.Approx.fit_values",
    "Verif.Approx.lobatto"
   ],
   "note": "Real numbers. The gradient is with respect to the UV parameters."
  },
  {
   "property": "C104",
   "status": "proved",
   "theorems": [
    "Verif.Approx.curve_from_grid_ends"
   ],
   "note": "The result of scipy splprep is arbitrary with valid knots and at least two poles."
  },
  {
   "property": "C105",
   "status": "proved",
   "theorems": [
    "Verif.Gmsh.modify_regions_spec",
    "Verif.Gmsh.set_region_from_dimtag_spec",
    "Verif.Gmsh.fracture_loop_spec"
   ],
   "note": "Results of the gmsh library are arbitrary."
  },
  {
   "property": "C106",
   "status": "proved",
   "theorems": [
    "Verif.Isec.main_curve_on_surface",
    "Verif.Isec.main_curves_complete"
   ],
   "note": ""
  },
  {
   "property": "C107",
   "status": "partial",
   "theorems": [
    "Verif.Isec.intersections_genuine",
    "Verif.Isec.intersections_total",
    "Verif.Isec.parallel_surfaces_raise"
   ],
   "note": "Soundness proved for any solver and tree (with the equality case of C57). Completion is proved for solvers that never fail; a singular matrix raises LinAlgError out of the whole search, as for two parallel planes (witness)."
  },
  {
   "property": "C108",
   "status": "partial",
   "theorems": [
    "Verif.Isec.surf_surf_never_returns",
    "Verif.Isec.curve_surf_only_empty"
   ],
   "note": "Refuted: IsecSurfSurf.get_intersection never returns; IsecCurveSurf.get_intersections can only return the empty list and raises as soon as the tree proposes a patch; the CurvePoint constructor is modelled as raising because the method it calls does not exist."
  },
  {
   "property": "C109",
   "status": "partial",
   "theorems": [
    "Verif.Isec.patch_point_list_correct",
    "Verif.Isec.patch_point_list_empty",
    "Verif.Isec.unconnected_always_empty",
    "Verif.Isec.inside_points_value",
    "Verif.Isec.inside_points_twice"
   ],
   "note": "make_patch_point_list proved (an empty list raises IndexError); the other two are refuted in general: the first never reports a point, the second lists a point once per patch."
  },
  {
   "property": "C11",
   "status": "proved",
   "theorems": [
    "Verif.Aabb.intersect_exact",
    "Verif.Aabb.sample_stored"
   ],
   "note": "Over any ordered field; rounding is not modelled."
  },
  {
   "property": "C110",
   "status": "proved",
   "theorems": [
    "Verif.Isec.jacobian_correct",
    "Verif.Isec.affine_converges"
   ],
   "note": "Over the reals with an exact solver (Cramer's rule), strictly inside the cell for the derivatives."
  },
  {
   "property": "C111",
   "status": "proved",
   "theorems": [
    "Verif.Isec.intersections_complete",
    "Verif.Isec.crossing_skipped"
   ],
   "note": "The exception is needed: crossing_skipped is a run in which a crossing found by the Newton search is not reported because its interval has another crossing at the end."
  },
  {
   "property": "C112",
   "status": "proved",
   "theorems": [
    "Verif.Front.frontend_valid"
   ],
   "note": "Together with the invariants of reached decompositions (C41 ff.)."
  },
  {
   "property": "C113",
   "status": "partial",
   "theorems": [
    "Verif.Front.tables_mirror_partial",
    "Verif.Front.moved_point_lost"
   ],
   "note": "Proved for calls other than move_points. Refuted for move_points: the boxes stay, and add_point at the new place makes a second point with the same coordinates."
  },
  {
   "property": "C114",
   "status": "proved",
   "theorems": [
    "Verif.Front.add_point_snaps",
    "Verif.Front.cross_add"
   ],
   "note": "For calls without move_points."
  },
  {
   "property": "C115",
   "status": "proved",
   "theorems": [
    "Verif.Front.free_point_apart",
    "Verif.Front.cross_add"
   ],
   "note": "For calls without move_points."
  },
  {
   "property": "C116",
   "status": "proved",
   "theorems": [
    "Verif.Front.point_on_segment",
    "Verif.Front.cross_add"
   ],
   "note": "For calls without move_points."
  },
  {
   "property": "C117",
   "status": "partial",
   "theorems": [
    "Verif.Front.add_point_again",
    "Verif.Front.add_point_again_partial",
    "Verif.Front.add_point_twice_differs"
   ],
   "note": "Proved if at most one segment is nearer than the tolerance, or the first call changed nothing, or its point is nearer than the tolerance. Refuted for a place at the same distance from two segments."
  },
  {
   "property": "C118",
   "status": "partial",
   "theorems": [
    "Verif.Front.no_points_key_error",
    "Verif.Front.no_segments_key_error",
    "Verif.Front.emptied_table_runs"
   ],
   "note": "Refuted: once all points are deleted every add_point raises KeyError; once all segments are deleted every add_point away from points does."
  },
  {
   "property": "C119",
   "status": "proved",
   "theorems": [
    "Verif.Front.line_divided",
    "Verif.Front.line_divided_run"
   ],
   "note": "For lines whose neighbourhood is clear (no other point close to the line, crossings away from ends and from each other), after runs without move_points, and for a set order that returns members of the set. line_divided_run is a run of the model meeting the hypotheses."
  },
  {
   "property": "C12",
   "status": "partial",
   "theorems": [
    "Verif.Aabb.closest_contains_nearest",
    "Verif.Aabb.closest_contains_a_nearest",
    "Verif.Aabb.closest_misses_point_box"
   ],
   "note": "All nearest objects with a positive margin; at least one without margin when no box is a single point; a point box is missed."
  },
  {
   "property": "C120",
   "status": "partial",
   "theorems": [
    "Verif.Front.line_divided",
    "Verif.Front.add_line_returns_point",
    "Verif.Front.merge_attribute_error",
    "Verif.Front.merge_leaves_gap"
   ],
   "note": "Holds for clear lines (line_divided). Refuted in general: a Point is returned when both ends snap together, merging a point near the line raises AttributeError when attr is None, and a forbidden displacement leaves a gap in the chain."
  },
  {
   "property": "C121",
   "status": "partial",
   "theorems": [
    "Verif.Front.displacement_clear_partial",
    "Verif.Front.free_displacement_allowed",
    "Verif.Front.free_point_leaves_polygon",
    "Verif.Front.triangle_displacement"
   ],
   "note": "Proved for segments of the outer wires of polygons next to the moving segments and of wires nested in them, crossing meant as seg_intersection returning a result. Refuted for points without segments (every displacement is allowed, the point leaves its polygon) and for ways through an end of a segment (triangle turned over)."
  },
  {
   "property": "C122",
   "status": "proved",
   "theorems": [
    "Verif.Front.merge_keeps_lower",
    "Verif.Front.merge_run"
   ],
   "note": "The early returns (displacement forbidden, boundary segment) change nothing, although the docstring promises a merge."
  },
  {
   "property": "C123",
   "status": "proved",
   "theorems": [
    "Verif.Decomp.new_change_true",
    "Verif.Decomp.delete_change_true"
   ],
   "note": "For a new segment the resulting parents must have no swap of two wires (a geometric answer of contains_point on both halves)."
  },
  {
   "property": "C124",
   "status": "partial",
   "theorems": [
    "Verif.Decomp.nesting_kept_partial",
    "Verif.Decomp.KeepReach.nested",
    "Verif.Decomp.KeepReach.forest"
   ],
   "note": "Runs in which the deletion of a bridge leaves the wires placed (no wire its own parent, outer wires connected with their parents), no two halves of a split contain each other and joined segments have the same direction. Other deletions of bridges break it, see C85; in drawings without closed polygons none do, see C145."
  },
  {
   "property": "C125",
   "status": "proved",
   "theorems": [
    "Verif.Merge.intersect_segments_self",
    "Verif.Merge.squares_run"
   ],
   "note": "For runs in which no line crosses two segments at the same parameter and no two wires are each other's parents (both decided for the run in squares_run)."
  },
  {
   "property": "C126",
   "status": "proved",
   "theorems": [
    "Verif.Merge.intersect_polygons_self",
    "Verif.Merge.squares_run"
   ],
   "note": "Same conditions on the run as C125."
  },
  {
   "property": "C127",
   "status": "proved",
   "theorems": [
    "Verif.Merge.intersect_segments_other",
    "Verif.Merge.squares_run"
   ],
   "note": "Same conditions on the run as C125."
  },
  {
   "property": "C128",
   "status": "proved",
   "theorems": [
    "Verif.Merge.intersect_polygons_other",
    "Verif.Merge.squares_run"
   ],
   "note": "Same conditions on the run as C125."
  },
  {
   "property": "C129",
   "status": "proved",
   "theorems": [
    "Verif.Merge.intersect_search",
    "Verif.Merge.fillMap_ok",
    "Verif.Merge.squares_run",
    "Verif.Merge.intersect_polygon_omitted"
   ],
   "note": "Same conditions on the run as C125; fillMap_ok says that the search ends without an exception. intersect_polygon_omitted shows that polygons in holes can stay without a value."
  },
  {
   "property": "C13",
   "status": "partial",
   "theorems": [
    "Verif.Aabb.closest_only_stored_partial",
    "Verif.Aabb.closest_on_emptied_table"
   ],
   "note": "Holds while something is stored; on an emptied table every row number is returned."
  },
  {
   "property": "C130",
   "status": "proved",
   "theorems": [
    "Verif.Merge.split_assert",
    "Verif.Merge.change_assert"
   ],
   "note": "The states are those of the intersection (Ctx); the assertion at merge.py:106 is not covered."
  },
  {
   "property": "C131",
   "status": "proved",
   "theorems": [
    "Verif.Heal.flat_some",
    "Verif.Heal.flat_quad",
    "Verif.Heal.flat_tri"
   ],
   "note": "The common normal (from a singular value decomposition) is any unit vector. Exact arithmetic; np.linalg.lstsq of a full column rank system is its unique solution, which exists here."
  },
  {
   "property": "C132",
   "status": "proved",
   "theorems": [
    "Verif.Heal.flatten_plane"
   ],
   "note": "Any unit normal, exact arithmetic."
  },
  {
   "property": "C133",
   "status": "proved",
   "theorems": [
    "Verif.Heal.split_volume",
    "Verif.Heal.split_volume3"
   ],
   "note": "Exact arithmetic."
  },
  {
   "property": "C134",
   "status": "proved",
   "theorems": [
    "Verif.Heal.tetGamma_range",
    "Verif.Heal.tetGamma_fails"
   ],
   "note": "Exact arithmetic of real numbers. The volume is at least 1e-300, the constant of the code, and for the value and the case of equality also the radius."
  },
  {
   "property": "C135",
   "status": "proved",
   "theorems": [
    "Verif.Heal.triSmooth_range"
   ],
   "note": "Exact arithmetic; the case of equality for a product of edges that is not below the constant 1e-300."
  },
  {
   "property": "C136",
   "status": "partial",
   "theorems": [
    "Verif.Heal.tetSmooth_order",
    "Verif.Heal.tetSmooth_regular",
    "Verif.Heal.eFaces_wrong"
   ],
   "note": "Refuted: the table e_faces has two entries swapped so the value depends on the order of the nodes, and the value of a regular tetrahedron is below 0.9."
  },
  {
   "property": "C137",
   "status": "partial",
   "theorems": [
    "Verif.Heal.flatTri_eq",
    "Verif.Heal.flatTet_eq",
    "Verif.Heal.smallEdge_range"
   ],
   "note": "Proved for triangles and for small_edge_ratio. Refuted for tetrahedra: flat_indicator is twice the ratio. Lengths and areas are at least 1e-300."
  },
  {
   "property": "C138",
   "status": "proved",
   "theorems": [
    "Verif.ZSurf.grid_sound"
   ],
   "note": "Exact arithmetic of real numbers."
  },
  {
   "property": "C139",
   "status": "proved",
   "theorems": [
    "Verif.ZSurf.grid_interpolates",
    "Verif.ZSurf.function_grid"
   ],
   "note": "Exact arithmetic of real numbers; tolerances of np.allclose are not negative."
  },
  {
   "property": "C14",
   "status": "proved",
   "theorems": [
    "Verif.Aabb.makeAabb_spec"
   ],
   "note": ""
  },
  {
   "property": "C140",
   "status": "partial",
   "theorems": [
    "Verif.Decomp.check_passes_partial",
    "Verif.Decomp.check_fails_after_bridge"
   ],
   "note": "Proved for runs in which the deletion of a bridge leaves the wires placed and no new segment makes two wires parents of each other. Refuted for runs with other deletions of bridges: an AssertionError follows."
  },
  {
   "property": "C141",
   "status": "proved",
   "theorems": [
    "Verif.Decomp.accepted_walk",
    "Verif.Decomp.accepted_points",
    "Verif.Decomp.accepted_polygons"
   ],
   "note": ""
  },
  {
   "property": "C142",
   "status": "partial",
   "theorems": [
    "Verif.Decomp.check_accepts_dead_parent",
    "Verif.Decomp.check_accepts_broken"
   ],
   "note": "Refuted by three accepted states, the first one reached by valid calls."
  },
  {
   "property": "C143",
   "status": "partial",
   "theorems": [
    "Verif.Decomp.dendrite_bridge",
    "Verif.Decomp.wire_iff_bridge"
   ],
   "note": "For the runs of C124. Joined means a path of existing segments; geometry does not enter."
  },
  {
   "property": "C144",
   "status": "partial",
   "theorems": [
    "Verif.Decomp.euler_components",
    "Verif.Decomp.components_wires"
   ],
   "note": "For the runs of C124."
  },
  {
   "property": "C145",
   "status": "proved",
   "theorems": [
    "Verif.Decomp.KeepReach.deleteOpen",
    "Verif.Decomp.splitWire_nested",
    "Verif.Decomp.KeepReach.nested"
   ],
   "note": "The successor is again a state of the runs of C124, so all theorems about these apply."
  },
  {
   "property": "C146",
   "status": "proved",
   "theorems": [
    "Verif.Brep.text_read_back",
    "Verif.Brep.model_read_back"
   ],
   "note": "The reader is the model of the format description; numbers enter through a format with an inverse (Python's repr of floats). Compound solids are C147."
  },
  {
   "property": "C147",
   "status": "partial",
   "theorems": [
    "Verif.Brep.compSolid_unreadable"
   ],
   "note": "Refuted: no file with a compound solid is readable, it is written 'Cs' where the format has 'CS'. All other kinds are covered by C146."
  },
  {
   "property": "C148",
   "status": "proved",
   "theorems": [
    "Verif.Brep.curve_from_bs",
    "Verif.Brep.curve_from_bs_dim",
    "Verif.Brep.surface_from_bs",
    "Verif.Brep.surface_from_bs_dim"
   ],
   "note": "A pole of a rational curve must have at least its weight (length at least one)."
  },
  {
   "property": "C149",
   "status": "partial",
   "theorems": [
    "Verif.Brep.attach3_iff",
    "Verif.Brep.attach3_ends",
    "Verif.Brep.attach3_drift"
   ],
   "note": "The exact condition is proved: |difference| <= 1e-8 + 1e-3 |coordinate of the curve|. It is not invariant: every edge is accepted by every curve after both are moved far enough (attach3_drift). Curves not made from a B-spline are not checked at all."
  },
  {
   "property": "C15",
   "status": "proved",
   "theorems": [
    "Verif.Spline.partition_of_unity",
    "Verif.Spline.partition_of_unity_local",
    "Verif.Spline.sampleB_valid"
   ],
   "note": "Every degree, every sorted clamped knot vector, closed domain; over any ordered field."
  },
  {
   "property": "C150",
   "status": "proved",
   "theorems": [
    "Verif.Decomp.copy_kept",
    "Verif.Decomp.copy_from_scratch",
    "Verif.Decomp.reload",
    "Verif.Decomp.setWireParents_ok"
   ],
   "note": "copy_kept starts from any state with the same points and segments; copy_from_scratch also makes the segments, for segments numbered without gaps (deep_copy maps other numbers). deep_copy itself is disabled by an assertion and calls the functions with arguments they do not take; the functions are modelled as they are. The number of turns of the search is a parameter; the result is the same for all large numbers."
  },
  {
   "property": "C151",
   "status": "partial",
   "theorems": [
    "Verif.Decomp.copy_fails"
   ],
   "note": "False: after deleting a connection the stored side may end in a free end; the list then starts with one segment twice and make_wire_from_segments takes the wrong side first, which fails with an AssertionError. Which starts are good is proved in C150."
  },
  {
   "property": "C152",
   "status": "partial",
   "theorems": [
    "Verif.Decomp.load_open_wire",
    "Verif.Decomp.loadWire_eq"
   ],
   "note": "The second sentence is proved for the starts of C150 (loadWire_eq). The first is false: the last side is linked to the first one without a check."
  },
  {
   "property": "C153",
   "status": "proved",
   "theorems": [
    "Verif.Undo.undo_docs",
    "Verif.Decomp.Alike.next",
    "Verif.Front.frontend_undo",
    "Verif.Front.demo_acts"
   ],
   "note": "The angle function is assumed to be injective on directions up to positive scaling (AngleOk, as in C20 ff.). What the document looks like after an exception in a call is not modelled. Polygon ids, wires and boxes are not part of the statement; C155 shows that attributes and stored vectors are not restored."
  },
  {
   "property": "C154",
   "status": "proved",
   "theorems": [
    "Verif.Front.call_undo",
    "Verif.Front.attr_undo"
   ],
   "note": "That the undo steps raise nothing is a hypothesis. add_line and merge_points are not part of the claim."
  },
  {
   "property": "C155",
   "status": "partial",
   "theorems": [
    "Verif.Front.undo_existing",
    "Verif.Front.undo_attr",
    "Verif.Front.undo_point",
    "Verif.Front.undo_line"
   ],
   "note": "Refuted. _add_segment of an existing segment records a step whose undo deletes the old segment, and the next undo raises and clears the history. Attributes of a removed segment are lost. _join_segments leaves the shortened vector of the split segment, so add_point no longer snaps to its second half and add_line misses crossings with it. What is restored is C153."
  },
  {
   "property": "C156",
   "status": "proved",
   "theorems": [
    "Verif.Front.drawing_planar",
    "Verif.Front.cross_tidy",
    "Verif.Front.cross_planar",
    "Verif.Front.through_tidy"
   ],
   "note": "merge_points and move_points are excluded. The set order of the candidates is arbitrary. Two runs meet the hypotheses: two lines that cross, and a line snapped to an end of a segment. C157 shows that a line through a free point breaks planarity."
  },
  {
   "property": "C157",
   "status": "partial",
   "theorems": [
    "Verif.Front.planar_lost"
   ],
   "note": "Refuted. Only ends of segments near the line are candidates for the division (polygons.py:480-489), so a free point stays in the middle of the new segment, and a line that starts in it touches the segment without a common end. What holds is C156."
  },
  {
   "property": "C158",
   "status": "proved",
   "theorems": [
    "Verif.Decomp.plane_partition",
    "Verif.Decomp.Drawing.tiled",
    "Verif.Decomp.realGeom_arg",
    "Verif.Decomp.fullDrawing_case"
   ],
   "note": "For drawings as listed in the statement. The condition on the point of contains_wire is that it sees the side it is taken from, which holds if eps is small against the distances of the drawing. Deletions of bridges are steps if the wires are placed by the segments afterwards, which C172 shows for bridges of holes; for bridges of outer wires it can fail, see C85."
  },
  {
   "property": "C159",
   "status": "proved",
   "theorems": [
    "Verif.Decomp.free_point_home",
    "Verif.Decomp.fullDrawing_case"
   ],
   "note": "Drawings as in C158."
  },
  {
   "property": "C16",
   "status": "proved",
   "theorems": [
    "Verif.Spline.eval_nonneg_support"
   ],
   "note": ""
  },
  {
   "property": "C160",
   "status": "proved",
   "theorems": [
    "Verif.Decomp.side_polygon",
    "Verif.Decomp.fullDrawing_case"
   ],
   "note": "Drawings as in C158."
  },
  {
   "property": "C161",
   "status": "proved",
   "theorems": [
    "Verif.Decomp.path_polygon",
    "Verif.Decomp.fullDrawing_case"
   ],
   "note": "Drawings as in C158."
  },
  {
   "property": "C162",
   "status": "proved",
   "theorems": [
    "Verif.Decomp.free_ends",
    "Verif.Decomp.fullDrawing_case"
   ],
   "note": "Drawings as in C158."
  },
  {
   "property": "C163",
   "status": "proved",
   "theorems": [
    "Verif.Front.calls_partition",
    "Verif.Front.house_case",
    "Verif.Front.house_neat",
    "Verif.Front.islands_case"
   ],
   "note": "For the calls listed in the statement. merge_points, move_points, lines that are not open and deletions of bridges of outer wires are not in the list, see C85 and C157."
  },
  {
   "property": "C164",
   "status": "proved",
   "theorems": [
    "Verif.Front.calls_free_points",
    "Verif.Front.addPoint_tiled",
    "Verif.Front.house_case"
   ],
   "note": "For the calls of C163; add_point is covered without conditions."
  },
  {
   "property": "C165",
   "status": "proved",
   "theorems": [
    "Verif.Decomp.new_segment_returns",
    "Verif.Decomp.split_segment_returns",
    "Verif.Decomp.delete_segment_returns",
    "Verif.Decomp.join_segments_returns",
    "Verif.Decomp.remove_free_point_returns",
    "Verif.Decomp.move_returns",
    "Verif.Decomp.returns_case",
    "Verif.Decomp.hole_bridge_case"
   ],
   "note": "Deletions that split the outer wire of a polygon are not covered; C85 shows that they can fail."
  },
  {
   "property": "C166",
   "status": "proved",
   "theorems": [
    "Verif.Front.calls_return",
    "Verif.Front.call_returns",
    "Verif.Front.addPoint_total",
    "Verif.Front.awayFrom_total",
    "Verif.Front.addLinePts_total",
    "Verif.Front.addLinePts_open",
    "Verif.Front.deletePoint_total",
    "Verif.Front.house_returns",
    "Verif.Front.spire_returns",
    "Verif.Front.islands_returns"
   ],
   "note": "The conditions are needed: C118 shows failures for emptied tables. Calls merge_points and move_points and deletions that split an outer wire are not covered."
  },
  {
   "property": "C167",
   "status": "proved",
   "theorems": [
    "Verif.Front.add_point_wedge",
    "Verif.Front.add_point_far"
   ],
   "note": "The distance from the line is exact if the norm is; the bound of 99/100 is the assert of the code."
  },
  {
   "property": "C168",
   "status": "partial",
   "theorems": [
    "Verif.Front.add_point_near_partial",
    "Verif.Front.add_point_far"
   ],
   "note": "Proved if at most one segment is nearer than the tolerance. Refuted between two segments that meet in an acute angle: the point moves along the segment until it is far from the other one."
  },
  {
   "property": "C169",
   "status": "proved",
   "theorems": [
    "Verif.Decomp.polygon_vertices_ccw",
    "Verif.Decomp.hole_clockwise",
    "Verif.Decomp.winding_wire",
    "Verif.Decomp.wind_eq",
    "Verif.Decomp.fullDrawing_vertices"
   ],
   "note": "For drawings as in C158."
  },
  {
   "property": "C17",
   "status": "proved",
   "theorems": [
    "Verif.Spline.find_interval_correct",
    "Verif.Spline.find_interval_outside",
    "Verif.Spline.check_spec"
   ],
   "note": "Also: below the domain it raises, above the domain it silently returns the last interval."
  },
  {
   "property": "C170",
   "status": "proved",
   "theorems": [
    "Verif.Decomp.polygon_depth",
    "Verif.Decomp.depth_inside",
    "Verif.Decomp.fullDrawing_vertices"
   ],
   "note": "The docstring says number of polygons; wires around components count as well, so a square in the plane has depth 2, as test_decomp.py expects."
  },
  {
   "property": "C171",
   "status": "proved",
   "theorems": [
    "Verif.Decomp.neighbors_symm",
    "Verif.Decomp.fullDrawing_vertices"
   ],
   "note": ""
  },
  {
   "property": "C172",
   "status": "proved",
   "theorems": [
    "Verif.Decomp.hole_bridge",
    "Verif.Decomp.unline_hole",
    "Verif.Decomp.deleteSegment_placed",
    "Verif.Decomp.hole_bridge_case"
   ],
   "note": "The condition on contains_wire is the one of C158. Deletions that split the outer wire of a polygon keep the regions if the wires are placed by the segments afterwards (Drawing.unline); that they need not be is C85."
  },
  {
   "property": "C173",
   "status": "proved",
   "theorems": [
    "Verif.Decomp.new_segment_regions",
    "Verif.Decomp.delete_segment_regions",
    "Verif.Decomp.split_segment_regions",
    "Verif.Decomp.join_segments_regions",
    "Verif.Decomp.regions_case",
    "Verif.Decomp.split_regions_case",
    "Verif.Decomp.join_regions_case"
   ],
   "note": "Drawings as in C158; a removed connection of the parts of a hole needs the condition on contains_wire of C172. TrueNew and TrueDel, which say that the reported polygons exist and lie beside the segment, are those of C123."
  },
  {
   "property": "C174",
   "status": "proved",
   "theorems": [
    "Verif.ZSurf.transform_center",
    "Verif.ZSurf.transform_quad",
    "Verif.ZSurf.center_case"
   ],
   "note": "The Z value of the center is that of the current z_surface, which apply_z_transform can replace (C64)."
  },
  {
   "property": "C175",
   "status": "proved",
   "theorems": [
    "Verif.Heal.flatten_best",
    "Verif.Heal.flatten_flat",
    "Verif.Heal.flatten_best_case"
   ],
   "note": "In exact arithmetic. Trusted: np.linalg.svd gives a unit vector with the least sum of squared products with the edge vectors (IsCommonNormal)."
  },
  {
   "property": "C176",
   "status": "proved",
   "theorems": [
    "Verif.Heal.skew_line_dist",
    "Verif.Heal.skew_case"
   ],
   "note": "In exact arithmetic. For parallel edges the code divides by zero."
  },
  {
   "property": "C177",
   "status": "proved",
   "theorems": [
    "Verif.Gmsh.Mass.common_dim",
    "Verif.Gmsh.Mass.center_between",
    "Verif.Gmsh.Mass.center_append",
    "Verif.Gmsh.Mass.center_perm",
    "Verif.Gmsh.Mass.center_case"
   ],
   "note": "One coordinate at a time, in exact arithmetic. Trusted: getMass and getCenterOfMass are functions of the entity, masses are not negative."
  },
  {
   "property": "C178",
   "status": "proved",
   "theorems": [
    "Verif.Decomp.get_childs_fill",
    "Verif.Decomp.childs_case"
   ],
   "note": "Drawings as in C158, exact arithmetic. The set of ids is a list in the model."
  },
  {
   "property": "C179",
   "status": "proved",
   "theorems": [
    "Verif.Merge.intersect_regions_self",
    "Verif.Merge.regions_squares"
   ],
   "note": "Exact arithmetic; np.angle is the argument of complex numbers (ArgOk). The other decomposition is arbitrary with coordinates in the bounds of the lookup boxes."
  },
  {
   "property": "C18",
   "status": "proved",
   "theorems": [
    "Verif.Spline.end_values",
    "Verif.Spline.curve_ends",
    "Verif.Spline.surface_corners"
   ],
   "note": "Lower end under the condition that the first knot has multiplicity exactly degree+1."
  },
  {
   "property": "C180",
   "status": "proved",
   "theorems": [
    "Verif.Merge.intersect_regions_all",
    "Verif.Merge.regions_all_case"
   ],
   "note": "Exact arithmetic; np.angle is the argument of complex numbers (ArgOk). The value maps_other[2] itself is the subject of C128 and C53."
  },
  {
   "property": "C181",
   "status": "proved",
   "theorems": [
    "Verif.Brep.attach2_iff",
    "Verif.Brep.attach2_case"
   ],
   "note": "Exact arithmetic; the constants of np.allclose are parameters. A curve with nan values is refused."
  },
  {
   "property": "C19",
   "status": "proved",
   "theorems": [
    "Verif.Spline.fast_deg2",
    "Verif.Spline.fast_diff_deg2"
   ],
   "note": ""
  },
  {
   "property": "C20",
   "status": "proved",
   "theorems": [
    "Verif.Spline.unpack_pack",
    "Verif.Spline.pack_unpack"
   ],
   "note": ""
  },
  {
   "property": "C21",
   "status": "partial",
   "theorems": [
    "Verif.Spline.equidistant_valid",
    "Verif.Spline.equidistant_int_range_collapses"
   ],
   "note": "Holds for float ranges; with an integer knot_range numpy truncates the knots and the claim is false."
  },
  {
   "property": "C22",
   "status": "partial",
   "theorems": [
    "Verif.Spline.curve_in_aabb",
    "Verif.Spline.curve_in_box_partial",
    "Verif.Spline.curve_box_misses_cubic",
    "Verif.Spline.surface_in_aabb",
    "Verif.Spline.surface_in_box_partial",
    "Verif.Spline.surface_boxes_need_degree_two"
   ],
   "note": "aabb: all degrees. Span and patch boxes: degree 2 only; a cubic curve leaves its span box."
  },
  {
   "property": "C23",
   "status": "partial",
   "theorems": [
    "Verif.Spline.linear_poles_value",
    "Verif.Spline.linear_poles_identity_partial",
    "Verif.Spline.linear_poles_wrong"
   ],
   "note": "The spline is t - domain[0]: right exactly for domains starting at 0."
  },
  {
   "property": "C24",
   "status": "proved",
   "theorems": [
    "Verif.Spline.patch_bijection"
   ],
   "note": ""
  },
  {
   "property": "C25",
   "status": "partial",
   "theorems": [
    "Verif.Spline.eval_diff_is_derivative",
    "Verif.Spline.eval_diff_at_end",
    "Verif.Spline.eval_diff_nan"
   ],
   "note": "All degrees >= 1 with inner multiplicities at most degree; nan for higher multiplicities, degree 0 not modelled."
  },
  {
   "property": "C26",
   "status": "proved",
   "theorems": [
    "Verif.ZSurf.xy_uv_inverse",
    "Verif.ZSurf.transform_affine",
    "Verif.ZSurf.transform_z",
    "Verif.ZSurf.singular_transform_breaks"
   ],
   "note": "Holds after every program of operations that raises nothing; xy_to_uv of a bilinear surface is not implemented (always raises). After a LinAlgError from a singular transform the maps are not inverse (singular_transform_breaks)."
  },
  {
   "property": "C27",
   "status": "partial",
   "theorems": [
    "Verif.ZSurf.grid_eval_difference",
    "Verif.ZSurf.grid_eval_agree_iff",
    "Verif.ZSurf.grid_raw"
   ],
   "note": "False as stated: after a Z transform (s,h) the two evaluations differ by (1-s) times the Z value at the centre; proved for every grid, history and point, together with the exact condition for agreement."
  },
  {
   "property": "C28",
   "status": "proved",
   "theorems": [
    "Verif.Msh.write_read_iff",
    "Verif.Msh.write_read_lookup",
    "Verif.Msh.read_storable",
    "Verif.Msh.write_counts"
   ],
   "note": "Exact characterisation: the round trip works iff names are single words, nodes have 3 coordinates, elements have at least 3 tags+nodes. Characters, lines, words and integers are concrete; float printing/parsing is a parameter with CPython's round trip laws. Binary files not modelled."
  },
  {
   "property": "C29",
   "status": "partial",
   "theorems": [
    "Verif.Msh.fields_read_back_partial",
    "Verif.Msh.data_keys_are_strings",
    "Verif.Msh.fields_short_ids_raise"
   ],
   "note": "All names, components and values come back, but keyed by the printed id; the last theorem part (integer keys) is false of the code and proved so for every file."
  },
  {
   "property": "C30",
   "status": "proved",
   "theorems": [
    "Verif.Heal.incidence_consistent",
    "Verif.Heal.remove_never_fails"
   ],
   "note": "Over all runs of the public methods incl. heal_mesh and exceptions; a moved node must exist, and Verif.Heal.move_unknown_breaks shows that this is needed."
  },
  {
   "property": "C31",
   "status": "proved",
   "theorems": [
    "Verif.Heal.merge_valid"
   ],
   "note": "For every consistent mesh of simplices and every two of its nodes, for any iteration order of sets."
  },
  {
   "property": "C32",
   "status": "proved",
   "theorems": [
    "Verif.Heal.element_id_fresh",
    "Verif.Heal.node_id_fresh",
    "Verif.Heal.new_ids_fresh"
   ],
   "note": "Over all runs."
  },
  {
   "property": "C33",
   "status": "partial",
   "theorems": [
    "Verif.Heal.heal_terminates_partial",
    "Verif.Heal.last_modified_dropped",
    "Verif.Heal.modified_not_rechecked"
   ],
   "note": "Termination is proved for all meshes and all outcomes of the geometric tests; the recheck half is refuted."
  },
  {
   "property": "C34",
   "status": "partial",
   "theorems": [
    "Verif.Heal.histogram_partial",
    "Verif.Heal.nan_in_lowest_bin",
    "Verif.Heal.triGamma_zero_edge"
   ],
   "note": "Sum and bad list always, bins for finite qualities; NaN and infinite qualities go to the lowest bin and are not reported bad."
  },
  {
   "property": "C35",
   "status": "proved",
   "theorems": [
    "Verif.Brep.file_consistent",
    "Verif.Brep.dfs_no_fuel"
   ],
   "note": "For every graph whose children have the classes the constructors allow and objects not written before (see C37, C70)."
  },
  {
   "property": "C36",
   "status": "proved",
   "theorems": [
    "Verif.Brep.file_consistent"
   ],
   "note": "All references, including locations, curves and surfaces, are shown to name the right record, not only to be in range."
  },
  {
   "property": "C37",
   "status": "partial",
   "theorems": [
    "Verif.Brep.second_write_empty"
   ],
   "note": "Refuted for every model: the second file has empty tables."
  },
  {
   "property": "C38",
   "status": "proved",
   "theorems": [
    "Verif.Brep.wires_closed_iff_even",
    "Verif.Brep.append_keeps_closed"
   ],
   "note": "At construction, for any sequence of wires sharing vertices. After append the flag is stale (append_keeps_closed)."
  },
  {
   "property": "C39",
   "status": "proved",
   "theorems": [
    "Verif.Brep.check_matrix_iff",
    "Verif.Brep.check_matrix_shape",
    "Verif.Brep.check_knots_count",
    "Verif.Brep.check_knots_any_order",
    "Verif.Brep.check_knots_any_values",
    "Verif.Brep.check_knots_negative"
   ],
   "note": "check_knots does not look at order, values or signs of multiplicities."
  },
  {
   "property": "C40",
   "status": "proved",
   "theorems": [
    "Verif.Decomp.next_permutation",
    "Verif.Decomp.around_exact",
    "Verif.Decomp.previous_exact"
   ],
   "note": "For all states reached by valid calls that raise no exception."
  },
  {
   "property": "C41",
   "status": "partial",
   "theorems": [
    "Verif.Decomp.new_delete",
    "Verif.Decomp.split_join",
    "Verif.Decomp.new_delete_wires_partial",
    "Verif.Decomp.split_join_stale_vector",
    "Verif.Decomp.delete_bridge_moves_wire"
   ],
   "note": "Links, ends, table, coordinates restored for all runs; grouping in wires restored for sound runs; the vector of a split and joined segment and the nesting of wires are not restored (refuted)."
  },
  {
   "property": "C42",
   "status": "proved",
   "theorems": [
    "Verif.Decomp.table_exact",
    "Verif.Decomp.newSegment_connected"
   ],
   "note": "newSegment on connected points changes nothing but the record of the last polygon change."
  },
  {
   "property": "C43",
   "status": "proved",
   "theorems": [
    "Verif.Plane.project_nearest",
    "Verif.Plane.project_total"
   ],
   "note": ""
  },
  {
   "property": "C44",
   "status": "proved",
   "theorems": [
    "Verif.Plane.intersection_iff",
    "Verif.Plane.intersection_none",
    "Verif.Plane.overlap_missed",
    "Verif.Plane.crossing_near_end_missed"
   ],
   "note": "Exact arithmetic; eps is a parameter."
  },
  {
   "property": "C45",
   "status": "partial",
   "theorems": [
    "Verif.Plane.isOnXLine_ray",
    "Verif.Plane.isOnXLine_on",
    "Verif.Plane.isOnXLine_split",
    "Verif.Plane.contains_point_crossings",
    "Verif.Plane.contains_point_parity",
    "Verif.Plane.contains_point_beyond",
    "Verif.Plane.contains_point_region",
    "Verif.Plane.contains_point_split"
   ],
   "note": "For a point on the segment the answer depends on the direction of the segment (isOnXLine_on). The statements on wires are for runs in which the walks are sound (see C73)."
  },
  {
   "property": "C46",
   "status": "proved",
   "theorems": [
    "Verif.Decomp.nesting_forest",
    "Verif.Decomp.setParent_forest",
    "Verif.Decomp.setParent_total",
    "Verif.Decomp.child_wires_exact",
    "Verif.Decomp.KeepReach.forest"
   ],
   "note": "set_parent to wires that are not inside the moved one. Whole runs are C85 and C124."
  },
  {
   "property": "C47",
   "status": "proved",
   "theorems": [
    "Verif.Gmsh.regions_match",
    "Verif.Gmsh.group_concat",
    "Verif.Gmsh.set_region_spec"
   ],
   "note": "for all histories of 20 public calls with arbitrary library results"
  },
  {
   "property": "C48",
   "status": "proved",
   "theorems": [
    "Verif.Gmsh.split_by_region_partition",
    "Verif.Gmsh.split_by_dimension_partition"
   ],
   "note": "with the exact condition for returning"
  },
  {
   "property": "C49",
   "status": "proved",
   "theorems": [
    "Verif.Gmsh.fragment_regions",
    "Verif.Gmsh.cuts_spec",
    "Verif.Gmsh.mem_withRegions",
    "Verif.Gmsh.operation_regions",
    "Verif.Gmsh.fragment_twice"
   ],
   "note": "an object set given twice makes fragment raise (fragment_twice)"
  },
  {
   "property": "C50",
   "status": "partial",
   "theorems": [
    "Verif.Gmsh.get_fresh",
    "Verif.Gmsh.region_name_stable",
    "Verif.Gmsh.dims_and_invalid_final",
    "Verif.Gmsh.mesh_names_unique_partial",
    "Verif.Gmsh.mesh_names_clash",
    "Verif.Gmsh.name_stale"
   ],
   "note": "ids and names of regions proved for all histories; uniqueness of group names only without accidental names, and refuted in general by mesh_names_clash"
  },
  {
   "property": "C51",
   "status": "partial",
   "theorems": [
    "Verif.Gmsh.Field.threshold_upper_ignored"
   ],
   "note": "refuted: for all bounds the settings equal the upper bound only if upper = lower"
  },
  {
   "property": "C52",
   "status": "proved",
   "theorems": [
    "Verif.Gmsh.Options.unknown_rejected",
    "Verif.Gmsh.Options.declared_forwards",
    "Verif.Gmsh.Options.calls_declared"
   ],
   "note": "int, float, bool and enum options are not told apart by the code"
  },
  {
   "property": "C53",
   "status": "partial",
   "theorems": [
    "Verif.Merge.intersect_list_partial",
    "Verif.Merge.intersect_needs_segments",
    "Verif.Merge.intersect_one",
    "Verif.Merge.intersect_polygon_omitted",
    "Verif.Merge.intersect_empty_fails",
    "Verif.Merge.intersect_near_fails",
    "Verif.Merge.squares_run"
   ],
   "note": "Proved: the returned maps are the pairwise maps composed, all objects of every input are values, every segment of the result has a value in some map and is a part of the segment with that value. Assumed of the run: no line crosses two segments at the same parameter, no two wires are each other's parents. Refuted: polygons in holes get no value; a decomposition without segments and points nearer than the tolerance end with AssertionError."
  },
  {
   "property": "C54",
   "status": "proved",
   "theorems": [
    "Verif.Approx.ls_matrix_correct",
    "Verif.Approx.equidistant_fit"
   ],
   "note": "The bases of compute_approximation meet the hypotheses (equidistant_fit)."
  },
  {
   "property": "C55",
   "status": "partial",
   "theorems": [
    "Verif.Approx.hull_correct",
    "Verif.Approx.hull_vertical",
    "Verif.Approx.hull_two"
   ],
   "note": "Proved for more than two points that are not all on one vertical line (points are inputs, equal convex hull, all inputs on one side of every edge). False for points on a vertical line: the result is one point three times. The result for two points is not closed."
  },
  {
   "property": "C56",
   "status": "partial",
   "theorems": [
    "Verif.Approx.line_value",
    "Verif.Approx.plane_value",
    "Verif.Approx.bilinear_value",
    "Verif.Approx.bilinear_corners",
    "Verif.Approx.bilinear_overhang"
   ],
   "note": "Proved for line and plane with every overhang and for bilinear without overhang. With an overhang the bilinear surface meets its corners only for a parallelogram; bilinear_overhang proves it, bilinear_value gives the exact value."
  },
  {
   "property": "C57",
   "status": "partial",
   "theorems": [
    "Verif.Isec.get_intersection_honest",
    "Verif.Isec.get_intersection_total",
    "Verif.Isec.get_intersection_no_turn",
    "Verif.Isec.conv_wrong_at_equality"
   ],
   "note": "Proved for continuous quadratic non-rational surfaces and curves with an arbitrary solver: parameters stay in the cell, conv is exactly the comparison of two points of the cell, and unless their distance equals abs_tol they are the points at the returned parameters. At equality the statement fails (witness); max_it = 0 raises UnboundLocalError."
  },
  {
   "property": "C58",
   "status": "partial",
   "theorems": [
    "Verif.Isec.surface_point_patches",
    "Verif.Isec.surface_point_out_of_range",
    "Verif.Isec.surface_point_misses_neighbour",
    "Verif.Isec.surface_point_double_knot"
   ],
   "note": "Proved on [0,1]x[0,1] without repeated inner knots. On other domains a patch that does not exist is listed, or an existing one is missed; with a double inner knot a patch is missed."
  },
  {
   "property": "C59",
   "status": "partial",
   "theorems": [
    "Verif.Spline.deep_copy_same_partial",
    "Verif.Spline.deep_copy_loses_rational"
   ],
   "note": "False for rational surfaces."
  },
  {
   "property": "C60",
   "status": "partial",
   "theorems": [
    "Verif.Msh.read_ignores_after_blank"
   ],
   "note": "The property is false; the theorem proves that everything after the first blank line is ignored."
  },
  {
   "property": "C61",
   "status": "partial",
   "theorems": [
    "Verif.ZSurf.aabb_encloses_partial",
    "Verif.ZSurf.aabb_inverted"
   ],
   "note": "Holds for non-negative Z scale; for a negative Z scale the box is inverted (aabb_inverted). Untransformed copies and quads that are parallelograms only up to the tolerance are excluded."
  },
  {
   "property": "C62",
   "status": "partial",
   "theorems": [
    "Verif.ZSurf.copy_keeps_original_partial",
    "Verif.ZSurf.copy_follows_original"
   ],
   "note": "False as stated: transforming the original moves the copy (copy_follows_original, for every surface and transform). The other direction is proved."
  },
  {
   "property": "C63",
   "status": "partial",
   "theorems": [
    "Verif.ZSurf.full_surface_same_partial"
   ],
   "note": "Proved for domains that start at 0 and positive degrees; for other domains make_linear_poles is wrong (C23)."
  },
  {
   "property": "C64",
   "status": "proved",
   "theorems": [
    "Verif.ZSurf.apply_z_keeps_points"
   ],
   "note": "get_transform still reports the Z transform that was moved into the poles; this is part of the theorem."
  },
  {
   "property": "C65",
   "status": "partial",
   "theorems": [
    "Verif.Heal.tolerance_not_relative",
    "Verif.Heal.tolerance_ignores_positions",
    "Verif.Heal.tolerance_of_ids"
   ],
   "note": "Refuted: the tolerance depends on node ids only."
  },
  {
   "property": "C66",
   "status": "partial",
   "theorems": [
    "Verif.Heal.heal_raises"
   ],
   "note": "Refuted by a witness."
  },
  {
   "property": "C67",
   "status": "proved",
   "theorems": [
    "Verif.Heal.triGamma_range"
   ],
   "note": "Exact arithmetic."
  },
  {
   "property": "C68",
   "status": "proved",
   "theorems": [
    "Verif.Heal.flat_projection"
   ],
   "note": "Exact arithmetic."
  },
  {
   "property": "C69",
   "status": "partial",
   "theorems": [
    "Verif.Brep.model_location_ignored"
   ],
   "note": "Refuted for every model and every pair of locations."
  },
  {
   "property": "C70",
   "status": "partial",
   "theorems": [
    "Verif.Brep.shared_shapes_missing"
   ],
   "note": "Refuted for every compound built from written shapes."
  },
  {
   "property": "C71",
   "status": "proved",
   "theorems": [
    "Verif.Brep.geometry_kept",
    "Verif.Brep.no_unused_geometry"
   ],
   "note": ""
  },
  {
   "property": "C72",
   "status": "proved",
   "theorems": [
    "Verif.Brep.write_succeeds"
   ],
   "note": "Hypothesis Ready: two vertices per edge, three or four sided ring boundary or given surface. The checks of attach_to_* are skipped by the code for curves made from raw poles."
  },
  {
   "property": "C73",
   "status": "partial",
   "theorems": [
    "Verif.Brep.face_accepts_iff",
    "Verif.Brep.face_of_empty_wire",
    "Verif.Brep.append_keeps_closed"
   ],
   "note": "Proved for the flags; flags are stale after append, and the wire without edges is flagged closed."
  },
  {
   "property": "C74",
   "status": "partial",
   "theorems": [
    "Verif.Brep.edges_oriented",
    "Verif.Brep.shared_ref_turned"
   ],
   "note": "Proved when no reference object is used in both positions; refuted otherwise."
  },
  {
   "property": "C75",
   "status": "partial",
   "theorems": [
    "Verif.Brep.composed_read_iff"
   ],
   "note": "Read back exactly when no component is the identity."
  },
  {
   "property": "C76",
   "status": "proved",
   "theorems": [
    "Verif.Brep.implicit_geometry"
   ],
   "note": "Exact arithmetic, over any field in which 2 is not 0; corners of the face are different vertices."
  },
  {
   "property": "C77",
   "status": "partial",
   "theorems": [
    "Verif.Decomp.wires_exact_partial",
    "Verif.Decomp.wires_kept"
   ],
   "note": "For sound runs: joins of a hole with its own polygon by a deletion and joins of opposite segments are outside. wires_kept shows that the first cannot happen when deletions of bridges leave the wires placed."
  },
  {
   "property": "C78",
   "status": "proved",
   "theorems": [
    "Verif.Decomp.euler_count"
   ],
   "note": ""
  },
  {
   "property": "C79",
   "status": "partial",
   "theorems": [
    "Verif.Decomp.free_points",
    "Verif.Decomp.stray_free_point",
    "Verif.Decomp.free_points_kept"
   ],
   "note": "All parts but one are proved for all histories; a point can be registered in a removed polygon (stray_free_point), which cannot happen when deletions of bridges leave the wires placed (free_points_kept)."
  },
  {
   "property": "C80",
   "status": "partial",
   "theorems": [
    "Verif.Decomp.vectors_exact_partial",
    "Verif.Decomp.join_stale_vector"
   ],
   "note": "Proved for runs without join_segments; refuted after every join over a point different from the far end."
  },
  {
   "property": "C81",
   "status": "partial",
   "theorems": [
    "Verif.Decomp.join_opposite_wrong_side",
    "Verif.Decomp.wires_exact_partial"
   ],
   "note": "Holds for segments of the same direction (part of C77), refuted for opposite ones."
  },
  {
   "property": "C82",
   "status": "partial",
   "theorems": [
    "Verif.Decomp.clockwise_partial",
    "Verif.Decomp.realGeom_ok"
   ],
   "note": "For runs of proper calls; np.angle is any function with the stated properties, the argument of complex numbers has them."
  },
  {
   "property": "C83",
   "status": "proved",
   "theorems": [
    "Verif.Decomp.insertVector_total",
    "Verif.Decomp.insertVector_corner"
   ],
   "note": "The corner contains the vector in runs of proper calls, for a vector that is not along a segment at the point."
  },
  {
   "property": "C84",
   "status": "proved",
   "theorems": [
    "Verif.Decomp.newSegment_next",
    "Verif.Decomp.deleteSegment_next"
   ],
   "note": "Links after the call are the links with the segment left out."
  },
  {
   "property": "C85",
   "status": "partial",
   "theorems": [
    "Verif.Decomp.delete_bridge_self_parent",
    "Verif.Decomp.delete_after_bridge_fails",
    "Verif.Decomp.delete_leaves_dead_parent"
   ],
   "note": "Refuted by concrete runs of sound and proper calls."
  },
  {
   "property": "C86",
   "status": "proved",
   "theorems": [
    "Verif.Decomp.getChilds_exact",
    "Verif.Decomp.child_wires_exact",
    "Verif.Decomp.getChilds_kept"
   ],
   "note": "For forests in which every wire has a polygon, and for all runs whose deletions of bridges leave the wires placed."
  },
  {
   "property": "C87",
   "status": "partial",
   "theorems": [
    "Verif.Decomp.depth_twice",
    "Verif.Decomp.depth_of_triangle",
    "Verif.Decomp.depthGo_self",
    "Verif.Decomp.depthGo_chain"
   ],
   "note": "Refuted: every surrounding polygon counts twice, and the loop does not end for a wire that is its own parent; the value is computed for all chains of parents."
  },
  {
   "property": "C88",
   "status": "proved",
   "theorems": [
    "Verif.Gmsh.mesh_groups",
    "Verif.Gmsh.assign_grouped"
   ],
   "note": ""
  },
  {
   "property": "C89",
   "status": "partial",
   "theorems": [
    "Verif.Gmsh.split_by_cut_spec"
   ],
   "note": "all proved except invalidation of the tools, which the theorem refutes for two or more tools"
  },
  {
   "property": "C90",
   "status": "proved",
   "theorems": [
    "Verif.Gmsh.select_by_intersect_spec",
    "Verif.Gmsh.remove_small_mass_spec"
   ],
   "note": ""
  },
  {
   "property": "C91",
   "status": "proved",
   "theorems": [
    "Verif.Gmsh.boundary_per_region_spec"
   ],
   "note": "for returning calls"
  },
  {
   "property": "C92",
   "status": "partial",
   "theorems": [
    "Verif.Gmsh.Sync.queries_current_partial",
    "Verif.Gmsh.Sync.polygon_unseen",
    "Verif.Gmsh.Sync.eliminate_ineffective"
   ],
   "note": "true without make_polygon, keep_only and elimination; refuted for these"
  },
  {
   "property": "C93",
   "status": "partial",
   "theorems": [
    "Verif.Gmsh.Shapes.simplex_closed",
    "Verif.Gmsh.Shapes.triangle_closed",
    "Verif.Gmsh.Shapes.polygon_cycle",
    "Verif.Gmsh.Shapes.make_rectangle_crosses",
    "Verif.Gmsh.Shapes.simplex_solid"
   ],
   "note": "make_rectangle refuted for all scales"
  },
  {
   "property": "C94",
   "status": "partial",
   "theorems": [
    "Verif.Gmsh.Shapes.rectangle_once"
   ],
   "note": "refuted: all calls after the first raise for every list of sides"
  },
  {
   "property": "C95",
   "status": "proved",
   "theorems": [
    "Verif.Gmsh.Field.box_value",
    "Verif.Gmsh.Field.constant_value",
    "Verif.Gmsh.Field.restrict_lists"
   ],
   "note": "meaning of the Box field as in its docstring"
  },
  {
   "property": "C96",
   "status": "proved",
   "theorems": [
    "Verif.Approx.rect_minimal",
    "Verif.Approx.rect_spec",
    "Verif.Approx.rect_single"
   ],
   "note": "Over the reals with exact trigonometry. For one point the corners are four origins (rect_single); points on one vertical line are excluded because convex_hull_2d is wrong for them (C55)."
  },
  {
   "property": "C97",
   "status": "proved",
   "theorems": [
    "Verif.Approx.fit_unique",
    "Verif.Approx.fit_no_points",
    "Verif.Approx.reg_kernel",
    "Verif.Approx.equidistant_fitS"
   ],
   "note": "Points without weights; exact numbers; every quadrature offset in (0, 1/2)."
  },
  {
   "property": "C98",
   "status": "proved",
   "theorems": [
    "Verif.Approx.fit_minimal",
    "Verif.Approx.reg_symm",
    "Verif.Approx.reg_nonneg"
   ],
   "note": "Points without weights; exact solution of the linear system."
  },
  {
   "property": "C99",
   "status": "partial",
   "theorems": [
    "Verif.Approx.error_not_norm"
   ],
   "note": "Refuted: error is the maximum of the signed deviations. For three points with heights 0, 0, 3 over one place the reported error is 1 and the deviation is 2."
  }
 ]
}
