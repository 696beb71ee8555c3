{"id": "C01", "title": "Undo and redo walk the exact history of document states", "statement": "If every recorded action undoes what it did, then after any sequence of do / undo / redo the document equals the state in the history at the current position: undo() yields the state before the last done action, redo() the state after it, and undo on an empty undo list or redo on an empty redo list changes nothing but an exception/None result.", "quantifier": "every document type, every set of invertible actions, every finite sequence of do/undo/redo/clear calls", "why_tests_cant": "needs all interleavings of do, undo and redo of unbounded length", "anchors": ["src/bgem/undo.py: Stack.undo, Stack.redo, Stack.append, undoable, _Action"]}
{"id": "C02", "title": "A new action discards the redo list, and nothing else does except clear or an error", "statement": "Doing a new action while recording is on makes canredo() false; undo() followed by redo() restores both lists exactly; the texts shown for the next undo/redo are those of the top actions.", "quantifier": "every stack state and every action", "why_tests_cant": "must hold for every history", "anchors": ["src/bgem/undo.py: Stack.append, Stack.undo, Stack.redo, Stack.undotext"]}
{"id": "C03", "title": "A failing undo or redo empties the history and propagates", "statement": "If the action's undo (or redo) raises, the exception reaches the caller and afterwards canundo() and canredo() are both false and recording is on.", "quantifier": "every stack state, every failing action", "why_tests_cant": "crash points are arbitrary", "anchors": ["src/bgem/undo.py: Stack.undo, Stack.redo, Stack.clear"]}
{"id": "C04", "title": "A group is undone as one unit in reverse order", "statement": "Actions done inside `with group(...)` appear as one entry in the undo list; a single undo() reverts all of them, last first, and a single redo() replays them first to last.", "quantifier": "every list of invertible actions inside the group, every surrounding history", "why_tests_cant": "group size and content unbounded", "anchors": ["src/bgem/undo.py: _Group, group, Stack.setreceiver, Stack.resetreceiver"]}
{"id": "C05", "title": "Groups nest and survive exceptions", "statement": "An inner group inside an outer group becomes part of the outer group's single undo entry, and an exception escaping a group leaves recording switched back to the main undo list so later actions can be undone. (Expected by users; the code violates both parts.)", "quantifier": "every nesting and every exception point", "why_tests_cant": "depends on every nesting shape and crash point", "anchors": ["src/bgem/undo.py: _Group.__enter__, _Group.__exit__, Stack.append"]}
{"id": "C06", "title": "haschanged() tells whether the document differs from the last savepoint", "statement": "After savepoint(), haschanged() is False exactly when the document is back at the savepoint's position of the history. (False in general: only the counts are compared.)", "quantifier": "every sequence of operations after a savepoint", "why_tests_cant": "needs every history", "anchors": ["src/bgem/undo.py: Stack.savepoint, Stack.haschanged, Stack.undocount"]}
{"id": "C07", "title": "undocount()/redocount() equal the number of possible undos/redos", "statement": "undocount() is the number of times undo() can be called, redocount() the number of times redo() can be called. (redocount is wrong in the code.)", "quantifier": "every reachable stack", "why_tests_cant": "every history", "anchors": ["src/bgem/undo.py: Stack.undocount, Stack.redocount"]}
{"id": "C08", "title": "Switching recording off does not lose consistency", "statement": "While recording is disabled actions are executed but not recorded and the undo/redo lists are unchanged; the next undo()/redo() call silently switches recording back on.", "quantifier": "every history with disable/enable calls", "why_tests_cant": "every interleaving", "anchors": ["src/bgem/undo.py: Stack.append, Stack.pausereceiver, Stack.resetreceiver", "src/bgem/polygons/polygons.py: disable_undo"]}
{"id": "C09", "title": "IdMap ids are unique, dense and never collide", "statement": "After any sequence of append/remove the ids in the map are distinct, each stored object's id equals its key, the live ids and the recycled ids partition {0..max}, and append never overwrites a live object.", "quantifier": "every sequence of append, append-with-id and remove calls", "why_tests_cant": "unbounded op sequences", "anchors": ["src/bgem/polygons/idmap.py: IdMap.append, IdMap.remove, IdMap.get_new_id"]}
{"id": "C10", "title": "Removing an object and appending again reuses the same id", "statement": "append after remove of an object returns the removed id, and undoing a series of appends in reverse order then redoing them gives every object the id it had before.", "quantifier": "every IdMap state and every list of appended objects", "why_tests_cant": "needed for every undo/redo history", "anchors": ["src/bgem/polygons/idmap.py: IdMap.append, IdMap.remove"]}
{"id": "C11", "title": "Box lookup reports exactly the overlapping boxes", "statement": "intersect_candidates(box) returns exactly the ids of the currently stored boxes that overlap the closed query box, each once, in increasing order, no matter which ids were added, overwritten or removed before.", "quantifier": "every sequence of add_object/rm_object with any ids and boxes, every query box within the table's infinity", "why_tests_cant": "all histories incl. table growth", "anchors": ["src/bgem/polygons/aabb_lookup.py: AABB_Lookup.add_object, rm_object, intersect_candidates"]}
{"id": "C12", "title": "Box lookup never misses the nearest object", "statement": "For every stored set of boxes and query point, closest_candidates contains every id whose box contains an object point that is nearest to the query point. (Fails for degenerate boxes exactly at the point.)", "quantifier": "all box sets, all query points, all objects inside boxes", "why_tests_cant": "real-valued inputs, all histories", "anchors": ["src/bgem/polygons/aabb_lookup.py: AABB_Lookup.closest_candidates"]}
{"id": "C13", "title": "Box lookup returns only live objects", "statement": "closest_candidates returns only ids that were added and not removed. (False when all boxes have been removed.)", "quantifier": "all add/rm histories and query points", "why_tests_cant": "all histories", "anchors": ["src/bgem/polygons/aabb_lookup.py: AABB_Lookup.closest_candidates, rm_object", "src/bgem/polygons/polygons.py: _snap_point"]}
{"id": "C14", "title": "make_aabb encloses its points", "statement": "make_aabb(points, margin) contains every given point, is the smallest such box when margin<=0, and is that box enlarged by margin on each side otherwise.", "quantifier": "every non-empty point list and margin", "why_tests_cant": "all inputs", "anchors": ["src/bgem/polygons/aabb_lookup.py: make_aabb"]}
{"id": "C15", "title": "B-spline basis is a partition of unity", "statement": "For every valid knot vector and every t in the domain the values of all basis functions sum to 1.", "quantifier": "all degrees, knot vectors, parameters", "why_tests_cant": "real-valued, unbounded degree", "anchors": ["src/bgem/bspline/bspline.py: SplineBasis.eval, SplineBasis._basis"]}
{"id": "C16", "title": "Basis functions are non-negative with local support", "statement": "eval(i,t) >= 0 for every t in the domain, and eval(i,t)=0 outside the interval returned by fn_supp(i).", "quantifier": "all degrees, knot vectors, indices, parameters", "why_tests_cant": "real-valued, unbounded degree", "anchors": ["src/bgem/bspline/bspline.py: SplineBasis.eval, fn_supp, _basis"]}
{"id": "C17", "title": "find_knot_interval locates the interval of t", "statement": "For t in the domain find_knot_interval(t) is an index in range whose knot interval contains t, half open except for the last one, which is closed.", "quantifier": "all valid knot vectors and t", "why_tests_cant": "real-valued, unbounded size", "anchors": ["src/bgem/bspline/bspline.py: SplineBasis.find_knot_interval, knot_interval_bounds, check"]}
{"id": "C18", "title": "Clamped splines interpolate their end poles", "statement": "At the first domain point only the first basis function is nonzero (=1), at the last only the last (=1), hence curves and surfaces start/end at their corner poles.", "quantifier": "all clamped knot vectors, degrees, poles", "why_tests_cant": "unbounded", "anchors": ["src/bgem/bspline/bspline.py: SplineBasis.eval, Curve.eval, Surface.eval"]}
{"id": "C19", "title": "The fast degree-2 evaluation equals the general recursion", "statement": "eval_vector of a quadratic basis returns the same three values as the Cox-de Boor recursion for every t in the interval, and they sum to 1; the derivative version sums to 0.", "quantifier": "all quadratic knot vectors, intervals, t", "why_tests_cant": "real-valued", "anchors": ["src/bgem/bspline/bspline.py: _eval_vector_deg_2, _eval_diff_vector_deg_2, _eval_vector, _basis"]}
{"id": "C20", "title": "pack_knots and make_from_packed_knots are inverse", "statement": "Unpacking the packed knots gives the original knot vector; packing an unpacked valid (value, multiplicity) list gives the list back.", "quantifier": "all knot vectors", "why_tests_cant": "all sizes", "anchors": ["src/bgem/bspline/bspline.py: pack_knots, make_from_packed_knots"]}
{"id": "C21", "title": "make_equidistant makes a valid basis", "statement": "make_equidistant(degree,n,[a,b]) yields a non-decreasing clamped knot vector of n+2*degree+1 knots with n equal intervals, n+degree basis functions and domain [a,b].", "quantifier": "all degrees, n>=1 and a<b", "why_tests_cant": "unbounded", "anchors": ["src/bgem/bspline/bspline.py: make_equidistant, __init__"]}
{"id": "C22", "title": "Curves and surfaces stay inside the bounding box of their poles", "statement": "Every point of a non-rational curve/surface lies in aabb(), and every point of a knot span/patch lies in the box bounding_boxes() gives for it.", "quantifier": "all poles, knot vectors, parameters in domain", "why_tests_cant": "real-valued, unbounded", "anchors": ["src/bgem/bspline/bspline.py: Curve.aabb, Curve.bounding_boxes, Surface.aabb, Surface.bounding_boxes"]}
{"id": "C23", "title": "make_linear_poles reproduces the identity", "statement": "The spline with poles make_linear_poles() evaluates to t for every t. (False for domains not starting at 0.)", "quantifier": "all bases of degree >= 1, all t", "why_tests_cant": "real-valued", "anchors": ["src/bgem/bspline/bspline.py: make_linear_poles"]}
{"id": "C24", "title": "Patch ids and patch positions are in bijection", "statement": "patch_pos2id and patch_id2pos are mutually inverse on valid patches.", "quantifier": "all surfaces and patches", "why_tests_cant": "unbounded", "anchors": ["src/bgem/bspline/bspline.py: Surface.patch_pos2id, patch_id2pos"]}
{"id": "C25", "title": "eval_diff is the derivative of eval", "statement": "The value returned by eval_diff(i,t) is the derivative of eval(i,.) at t inside a knot interval.", "quantifier": "all degrees, knots, indices, t", "why_tests_cant": "real-valued calculus statement", "anchors": ["src/bgem/bspline/bspline.py: eval_diff, eval_diff_vector"]}
{"id": "C26", "title": "Z_Surface xy and uv maps are mutually inverse", "statement": "For a planar non-degenerate quad, xy_to_uv(uv_to_xy(p)) = p and vice versa, also after any transform; transforming the quad by an affine map commutes with evaluation.", "quantifier": "all quads, transforms and points", "why_tests_cant": "real-valued, all histories of transforms", "anchors": ["src/bgem/bspline/bspline.py: Z_Surface"]}
{"id": "C27", "title": "GridSurface evaluations agree with each other", "statement": "z_eval_array returns the z component of eval_array for every point, after any transform. (False after a z scaling.)", "quantifier": "all grids, transforms, points", "why_tests_cant": "all transform histories", "anchors": ["src/bgem/bspline/bspline.py: GridSurface.z_eval_array, eval_array, transform"]}
{"id": "C28", "title": "MSH ASCII write/read round trip", "statement": "Reading a file written by write_ascii gives back the same nodes, elements and physical names, and each section of the file has the number of its items followed by one line for each. (Holds under a precise guard on names and element sizes; fails outside.)", "quantifier": "all meshes", "why_tests_cant": "all inputs", "anchors": ["src/bgem/gmsh/gmsh_io.py: GmshIO.write_ascii, GmshIO.read"]}
{"id": "C29", "title": "MSH element data round trip", "statement": "Reading a $ElementData section written by write_element_data restores field name, components and per-element values keyed by element id. (Keys come back as strings.)", "quantifier": "all fields, ids and values", "why_tests_cant": "all inputs", "anchors": ["src/bgem/gmsh/gmsh_io.py: write_element_data, write_fields, read_element_data_block"]}
{"id": "C30", "title": "Node/element incidence stays consistent during healing", "statement": "After any sequence of element/node additions, removals, moves and merges, each node's element set is exactly the set of elements that list the node.", "quantifier": "all meshes and op sequences", "why_tests_cant": "all histories", "anchors": ["src/bgem/gmsh/heal_mesh.py: HealMesh.make_node_to_el, add_element, remove_element, merge_node, add_node, remove_node"]}
{"id": "C31", "title": "Merging nodes leaves a valid mesh", "statement": "After merging a node into another no element references the removed node, no element has a repeated node, elements not touching the node are unchanged and no new duplicate element appears.", "quantifier": "all meshes and node pairs", "why_tests_cant": "all inputs", "anchors": ["src/bgem/gmsh/heal_mesh.py: merge_node, is_duplicate_el"]}
{"id": "C32", "title": "Healing allocates fresh ids", "statement": "Ids of elements and nodes created by healing are larger than every id that was ever in use.", "quantifier": "all meshes and op sequences", "why_tests_cant": "all histories", "anchors": ["src/bgem/gmsh/heal_mesh.py: add_element, add_node"]}
{"id": "C33", "title": "The heal loop terminates and re-checks every modified element", "statement": "heal_mesh ends, and when it ends normally each element modified during healing was checked again. (The recheck part is false: the list returned for the last queued element is dropped.)", "quantifier": "all meshes, all outcomes of the checks", "why_tests_cant": "needs all schedules of the work list", "anchors": ["src/bgem/gmsh/heal_mesh.py: HealMesh.heal_mesh"]}
{"id": "C34", "title": "Quality histogram counts every element once", "statement": "The histogram bins of quality_statistics sum to the number of elements measured, and each element is in the bin of its quality.", "quantifier": "all meshes", "why_tests_cant": "all inputs", "anchors": ["src/bgem/gmsh/heal_mesh.py: quality_statistics"]}
{"id": "C35", "title": "BREP shape numbering is a bijection", "statement": "write_model numbers all shapes reachable from the root with distinct consecutive numbers 1..n, the root being 1; shapes shared by several parents are written once.", "quantifier": "all shape graphs (DAGs)", "why_tests_cant": "unbounded graphs", "anchors": ["src/bgem/bspline/brep_writer.py: Shape._dfs, write_model"]}
{"id": "C36", "title": "BREP references are valid and point forward", "statement": "Every subshape reference written for a shape points to a shape in the file with a larger number (defined earlier in the written TShapes list), and every location/surface/curve index written is in the range of its table.", "quantifier": "all shape graphs", "why_tests_cant": "unbounded graphs", "anchors": ["src/bgem/bspline/brep_writer.py: Shape._brep_output, Shape._dfs, write_model, Location._dfs"]}
{"id": "C37", "title": "Writing a model twice gives the same file", "statement": "A second write_model of the same compound gives the same output. (False: ids are kept, so tables come out empty.)", "quantifier": "all compounds", "why_tests_cant": "state left behind by the first call", "anchors": ["src/bgem/bspline/brep_writer.py: write_model, Shape._dfs"]}
{"id": "C38", "title": "A wire is flagged closed exactly when every vertex has even degree", "statement": "The Closed flag of a wire is set iff every vertex occurs an even number of times among its edges.", "quantifier": "all edge lists", "why_tests_cant": "unbounded", "anchors": ["src/bgem/bspline/brep_writer.py: Wire._set_closed"]}
{"id": "C39", "title": "Knot and matrix validators accept exactly the valid inputs", "statement": "check_knots accepts exactly lists of (value,multiplicity) with total multiplicity degree+N+1; check_matrix accepts exactly matrices of the requested shape and value type.", "quantifier": "all inputs", "why_tests_cant": "all inputs", "anchors": ["src/bgem/bspline/brep_writer.py: check_knots, check_matrix"]}
{"id": "C40", "title": "Half-edge links stay consistent under every topological operation", "statement": "After any sequence of valid segment additions/removals/splits/joins, the `next` relation on (segment, side) is a permutation, each next half-edge starts where the previous one ends, and each point's stored segment is incident to it.", "quantifier": "all decompositions and op sequences", "why_tests_cant": "all histories", "anchors": ["src/bgem/polygons/decomp.py: _make_segment, _destroy_segment, split_segment, join_segments", "src/bgem/polygons/segment.py: connect_vtx, disconnect_vtx, connect_free_vtx"]}
{"id": "C41", "title": "Adding then removing a segment restores the topology", "statement": "delete_segment after new_segment between the same points gives back the same links of all other segments; likewise split_segment then join_segments.", "quantifier": "all decompositions, all insertion positions", "why_tests_cant": "all states", "anchors": ["src/bgem/polygons/decomp.py: _make_segment, _destroy_segment, split_segment, join_segments", "src/bgem/polygons/polygons.py: _add_segment, _rm_segment, _split_segment, _join_segments"]}
{"id": "C42", "title": "Segment lookup by end points is exact", "statement": "After any history the end-point table holds exactly the existing segments, and new_segment on already connected points (either orientation) returns the existing segment and changes nothing.", "quantifier": "all histories", "why_tests_cant": "all histories", "anchors": ["src/bgem/polygons/decomp.py: new_segment, pt_to_seg, _make_segment, _destroy_segment"]}
{"id": "C43", "title": "Projection on a segment finds the nearest point", "statement": "seg_project_point(seg, x) returns t in [0,1] and the point at t is at least as near to x as any other point of the segment.", "quantifier": "all non-degenerate segments and points", "why_tests_cant": "real-valued", "anchors": ["src/bgem/polygons/polygons.py: seg_project_point"]}
{"id": "C44", "title": "Segment intersection is correct", "statement": "seg_intersection returns (t0,t1) exactly if the directions are not parallel, both parametrisations give the same point and both parameters are more than eps = 1e-10 inside (0,1); in particular overlapping segments on one line and crossings within eps of an end are not reported.", "quantifier": "all segment pairs", "why_tests_cant": "real-valued", "anchors": ["src/bgem/polygons/polygons.py: seg_intersection"]}
{"id": "C45", "title": "Ray-crossing test decides inside/outside", "statement": "is_on_x_line(seg, p) holds iff the horizontal ray from p hits the half-open segment, so for polygons in general position contains_point is the crossing parity and is invariant when a segment is subdivided.", "quantifier": "all segments and points", "why_tests_cant": "real-valued", "anchors": ["src/bgem/polygons/segment.py: is_on_x_line", "src/bgem/polygons/polygon.py: Wire.contains_point"]}
{"id": "C46", "title": "Wire nesting stays a forest", "statement": "After any sequence of set_parent calls along valid nesting, the parent/child relations agree with each other, each wire has one parent and child_wires enumerates each descendant once.", "quantifier": "all histories of wire re-parenting", "why_tests_cant": "all histories", "anchors": ["src/bgem/polygons/polygon.py: Wire.set_parent, Wire.child_wires"]}
{"id": "C47", "title": "Object sets keep one region per entity", "statement": "After any sequence of public calls (also raising ones, with arbitrary library results) every valid ObjectSet has as many regions as dimtags; group of valid sets always returns the concatenation of entities with their regions and changes nothing else.", "quantifier": "all call sequences, all library results", "why_tests_cant": "all histories and all outcomes of the external library", "anchors": ["src/bgem/gmsh/gmsh.py: ObjectSet, GeometryOCC.group"]}
{"id": "C48", "title": "Splitting an object set is a partition", "statement": "split_by_region / split_by_dimension return exactly if every region can take the dimension of its entities; then the returned sets are, for each region (dimension), the entities with it in their order and with their regions, and the original is unchanged.", "quantifier": "all object sets of all histories", "why_tests_cant": "all inputs", "anchors": ["src/bgem/gmsh/gmsh.py: split_by_region, split_by_dimension"]}
{"id": "C49", "title": "Fragmenting and cutting keeps regions", "statement": "fragment of different valid object sets, and cut/intersect/fragment of an object set, return for every tags map of the library; every piece carries the region of the entity it comes from, the consumed object sets are invalidated and no other object set changes.", "quantifier": "all object sets and all OCC outcomes", "why_tests_cant": "external results are arbitrary", "anchors": ["src/bgem/gmsh/gmsh.py: GeometryOCC.fragment, ObjectSet._apply_operation"]}
{"id": "C50", "title": "Regions get unique ids and names", "statement": "Ids given to regions are never repeated, get_region_name gives the same region for the same name and different ones for different names, and the physical groups of a mesh never have the same name. (The last part is false: regions \"a\", \"a\", \"a_0\" give two groups \"a_0\".)", "quantifier": "all creation sequences", "why_tests_cant": "all histories", "anchors": ["src/bgem/gmsh/gmsh.py: Region, GeometryOCC._assign_physical_groups, get_region_name"]}
{"id": "C51", "title": "Threshold field honours its upper bound", "statement": "threshold(field, lower, upper) sets the maximal distance and mesh size from `upper`. (False for every upper different from lower: the code reuses lower, the settings do not depend on upper.)", "quantifier": "all bounds", "why_tests_cant": "all inputs", "anchors": ["src/bgem/gmsh/field.py: threshold"]}
{"id": "C52", "title": "Option objects reject unknown options and wrong types", "statement": "Assigning an undeclared option raises and calls nothing; a declared one forwards exactly one call with the prefixed name, of the kind of the option; numbers for string options and strings for number options raise and call nothing.", "quantifier": "all option sets, histories and values", "why_tests_cant": "all inputs", "anchors": ["src/bgem/gmsh/options.py: OptionsBase"]}
{"id": "C53", "title": "Merging decompositions composes maps", "statement": "intersect_decompositions returns for each input a map from every entity of the result to the entity of that input that contains it, consistent with pairwise intersection.", "quantifier": "all lists of decompositions", "why_tests_cant": "all lists", "anchors": ["src/bgem/polygons/merge.py: intersect_decompositions, intersect_single"]}
{"id": "C54", "title": "Surface fit matrix columns index the right poles", "statement": "The matrix built by _build_ls_matrix has one row for a point and one column for a pole (i,j), different poles have different columns, and the matrix times a vector of heights is the vector of values at the points of the surface that compute_approximation makes of these heights.", "quantifier": "all quadratic bases, all point lists in the domain, all heights", "why_tests_cant": "unbounded", "anchors": ["src/bgem/bspline/bspline_approx.py: SurfaceApprox._build_ls_matrix, compute_approximation"]}
{"id": "C55", "title": "convex_hull_2d returns the convex hull", "statement": "Every input point lies in the convex polygon formed by the returned points and every returned point is an input point.", "quantifier": "all finite point sets", "why_tests_cant": "real-valued, unbounded", "anchors": ["src/bgem/bspline/bspline_approx.py: convex_hull_2d"]}
{"id": "C56", "title": "Plane and bilinear surfaces interpolate their corners", "statement": "plane_surface passes through its three points, bilinear_surface through its four corners, line through both ends.", "quantifier": "all corner points", "why_tests_cant": "real-valued", "anchors": ["src/bgem/bspline/bspline_approx.py: plane_surface, bilinear_surface, line", "src/bgem/bspline/brep_writer.py: Approx"]}
{"id": "C57", "title": "Newton intersection stays in its cell and reports honest convergence", "statement": "get_intersection returns parameters inside the given knot cell, and conv is true only when the two returned points are within abs_tol.", "quantifier": "all surfaces, curves, iteration limits", "why_tests_cant": "arbitrary Newton trajectories", "anchors": ["src/bgem/bspline/isec_curve_surf.py: get_intersection"]}
{"id": "C58", "title": "Surface points on patch interfaces list exactly the adjacent patches", "statement": "For uv inside patch iuv of a surface on [0,1]^2, SurfacePoint lists that patch plus the neighbours sharing the point, all with valid indices.", "quantifier": "all surfaces and points", "why_tests_cant": "all inputs", "anchors": ["src/bgem/bspline/surface_point.py: SurfacePoint"]}
{"id": "C59", "title": "A deep copy of a surface is the same surface", "statement": "Surface.deep_copy() returns a surface that evaluates to the same points. (False for rational surfaces: the weights become a coordinate.)", "quantifier": "all surfaces, rational or not", "why_tests_cant": "all pole arrays", "anchors": ["src/bgem/bspline/bspline.py: Surface.deep_copy"]}
{"id": "C60", "title": "A blank line in an MSH file does not hide data", "statement": "Sections after a blank line are read like any others. (False: GmshIO.read stops at the first blank line, silently.)", "quantifier": "all files, all contents before and after the blank line", "why_tests_cant": "holds or fails for every possible file contents", "anchors": ["src/bgem/gmsh/gmsh_io.py: GmshIO.read"]}
{"id": "C61", "title": "Z_Surface bounding box encloses the surface", "statement": "Every point of a Z_Surface lies in the box returned by aabb(), after any history of transforms. (False for a negative Z scale: the box is inverted.)", "quantifier": "all quads, 1D surfaces, transforms and parameters", "why_tests_cant": "real-valued parameters, all transform histories", "anchors": ["src/bgem/bspline/bspline.py: Z_Surface.aabb"]}
{"id": "C62", "title": "get_copy gives a surface with its own transform", "statement": "After b = a.get_copy(), transforming one of the two surfaces does not move the other. (False: transforming a moves b, because b keeps the bound methods of a.)", "quantifier": "all programs of constructions, copies and transforms", "why_tests_cant": "all interleavings of operations on aliased objects", "anchors": ["src/bgem/bspline/bspline.py: Z_Surface.get_copy, transform"]}
{"id": "C63", "title": "make_full_surface is the same surface", "statement": "The 3D Surface returned by make_full_surface has the same point as the Z_Surface at every parameter of the domain.", "quantifier": "all quads, bases, poles, transforms and parameters", "why_tests_cant": "real-valued parameters and arbitrary knot vectors", "anchors": ["src/bgem/bspline/bspline.py: Z_Surface.make_full_surface"]}
{"id": "C64", "title": "apply_z_transform changes no point", "statement": "apply_z_transform moves the Z transform into the poles: every point of the surface stays, no other surface changes, and the surface has no Z transform left.", "quantifier": "all histories and parameters", "why_tests_cant": "real-valued parameters and arbitrary histories", "anchors": ["src/bgem/bspline/bspline.py: Z_Surface.apply_z_transform"]}
{"id": "C65", "title": "The node tolerance of healing is relative to the mesh size", "statement": "The absolute node tolerance is node_tol times the diameter of the mesh. (False: the loop runs over node ids, so it is node_tol times the spread of the ids.)", "quantifier": "all meshes and tolerances", "why_tests_cant": "all meshes", "anchors": ["src/bgem/gmsh/heal_mesh.py: HealMesh.__init__"]}
{"id": "C66", "title": "Healing a valid mesh does not raise", "statement": "heal_mesh on a mesh whose elements list existing nodes ends without an exception; checks are not run on an element already removed. (False.)", "quantifier": "all valid meshes", "why_tests_cant": "depends on rare configurations", "anchors": ["src/bgem/gmsh/heal_mesh.py: heal_mesh, _check_degen_nodes, _check_flat_triangle, _check_small_edge"]}
{"id": "C67", "title": "Triangle quality is a number from 0 to 1", "statement": "For edge lengths of a triangle gmsh_gamma is between 0 and 1, is 1 exactly for equilateral triangles and 0 exactly for degenerate ones.", "quantifier": "all lengths", "why_tests_cant": "real-valued inputs", "anchors": ["src/bgem/gmsh/heal_mesh.py: Triangle.gmsh_gamma"]}
{"id": "C68", "title": "Flat triangles are projected to their longest edge", "statement": "The projection parameter computed by _check_flat_triangle for the longest edge is between 0 and 1 and the new position is the foot of the perpendicular from the opposite node.", "quantifier": "all triangles with a longest edge of positive length", "why_tests_cant": "real-valued inputs", "anchors": ["src/bgem/gmsh/heal_mesh.py: _check_flat_triangle"]}
{"id": "C69", "title": "The location given to write_model places the model", "statement": "write_model(stream, compound, location) writes the model placed at the location: two different locations give files that differ in a reference. (False: the location is only added to the table.)", "quantifier": "all models and locations", "why_tests_cant": "all graphs", "anchors": ["src/bgem/bspline/brep_writer.py: write_model, index_all"]}
{"id": "C70", "title": "Shapes can be shared by several models", "statement": "A compound whose children have been written with another model is written with all its shapes. (False: numbers are kept between calls.)", "quantifier": "all models", "why_tests_cant": "state left behind by earlier calls", "anchors": ["src/bgem/bspline/brep_writer.py: write_model, index_all, Shape._dfs"]}
{"id": "C71", "title": "Writing a model keeps the geometry given by the caller and writes no other", "statement": "write_model leaves existing representations, curves and surfaces unchanged, only appends representations, and every curve and surface written is used by a shape of the model.", "quantifier": "all models", "why_tests_cant": "all graphs", "anchors": ["src/bgem/bspline/brep_writer.py: Face.implicit_surface, Edge.implicit_curve, index_all"]}
{"id": "C72", "title": "write_model succeeds on models of three and four sided faces", "statement": "If every edge has two vertices and every face has a surface or a boundary of three or four edges following each other, write_model raises no exception.", "quantifier": "all models", "why_tests_cant": "all graphs", "anchors": ["src/bgem/bspline/brep_writer.py: write_model, Face.implicit_surface"]}
{"id": "C73", "title": "A face is made exactly from closed boundaries", "statement": "Face(list) succeeds exactly for a non-empty list of closed wires or a non-empty list of edges in which every vertex has even degree. (The flag of a wire is stale after append, so faces with an open boundary are accepted.)", "quantifier": "all lists of shapes", "why_tests_cant": "unbounded", "anchors": ["src/bgem/bspline/brep_writer.py: Face.__init__, Shape.append, Wire._set_closed"]}
{"id": "C74", "title": "Edges go from their first to their second vertex", "statement": "The first vertex reference of an edge is Forward and the second is Reversed, whatever edges are built afterwards. (False when a reference object is reused.)", "quantifier": "all sequences of edge constructions", "why_tests_cant": "aliasing between objects", "anchors": ["src/bgem/bspline/brep_writer.py: Edge.__init__"]}
{"id": "C75", "title": "Composed locations can be read back", "statement": "The record written for a ComposedLocation is read back by a BREP reader as the same list of components. (True exactly when no component is the identity.)", "quantifier": "all lists of components", "why_tests_cant": "unbounded", "anchors": ["src/bgem/bspline/brep_writer.py: ComposedLocation._brep_output"]}
{"id": "C76", "title": "Implicit geometry joins the vertices", "statement": "An edge without geometry is written with a 3D curve that is the segment between its vertices; a face without a surface bounded by three or four edges is written with a surface on which each edge has a 2D curve over [0,1] that runs straight from its first to its second vertex.", "quantifier": "all models, all curve parameters", "why_tests_cant": "all graphs and real parameters", "anchors": ["src/bgem/bspline/brep_writer.py: Face.implicit_surface, Edge.implicit_curve, Edge.attach_to_plane, Approx.plane, Approx.bilinear, Approx._line"]}
{"id": "C77", "title": "Wires are exactly the closed walks of links", "statement": "After any history of valid calls in which deletions do not join a wire with a hole of its own polygon and joined segments have the same direction: every segment side belongs to one existing wire, following links stays in the wire, and Wire.segments() ends and yields every side of the wire exactly once.", "quantifier": "all decompositions reached by such histories", "why_tests_cant": "all histories", "anchors": ["src/bgem/polygons/polygon.py: Wire.segments", "src/bgem/polygons/decomp.py: _new_wire, _wire_add_dendrite, _join_wires, _split_poly, _rm_wire, _rm_dendrite, _split_wire, _join_poly"]}
{"id": "C78", "title": "Numbers of points, segments, wires and polygons satisfy Euler's formula", "statement": "After any history of valid calls, (points with a segment) + 2 (polygons) = (segments) + (wires, with the root) + 1.", "quantifier": "all histories", "why_tests_cant": "all histories", "anchors": ["src/bgem/polygons/decomp.py: new_segment, delete_segment, split_segment, join_segments"]}
{"id": "C79", "title": "Free points are registered in exactly one polygon", "statement": "After any history of valid calls a point has a polygon iff no segment ends at it, this polygon exists and has the point in its set of free points, free point sets have no repetition and each of their members is an existing point registered in this polygon.", "quantifier": "all histories", "why_tests_cant": "all histories", "anchors": ["src/bgem/polygons/point.py: set_polygon, join_segment, rm_segment", "src/bgem/polygons/decomp.py: add_free_point, remove_free_point"]}
{"id": "C80", "title": "Stored segment vectors are the differences of the end points", "statement": "After any history the vector of each segment is the difference of the coordinates of its end points. (True without join_segments; join_segments keeps the old vector of the prolonged segment.)", "quantifier": "all histories, all coordinates", "why_tests_cant": "all histories, real-valued", "anchors": ["src/bgem/polygons/segment.py: Segment.vector, update_vector", "src/bgem/polygons/point.py: move", "src/bgem/polygons/decomp.py: split_segment, join_segments"]}
{"id": "C81", "title": "join_segments keeps the first sides of wires", "statement": "After join_segments the stored first side of every wire is a side of that wire. (False for segments of opposite direction: a wire that starts at the removed segment then starts at a side of another wire.)", "quantifier": "all decompositions reached by sound histories", "why_tests_cant": "all states", "anchors": ["src/bgem/polygons/decomp.py: join_segments"]}
{"id": "C82", "title": "Segments around a point are linked in clockwise order", "statement": "After any history of valid calls that keeps the drawing proper (new segments do not overlap old ones at their ends, segments are split at and joined over points between their ends, only free points move), the side after a side is the first one clockwise around the common point.", "quantifier": "all such histories, all coordinates, any angle function with values in a half-open full turn", "why_tests_cant": "all histories, real-valued", "anchors": ["src/bgem/polygons/point.py: insert_vector", "src/bgem/polygons/segment.py: connect_vtx, disconnect_vtx", "src/bgem/polygons/decomp.py: new_segment, delete_segment, split_segment, join_segments"]}
{"id": "C83", "title": "insert_vector finds the corner that contains the vector", "statement": "Point.insert_vector gives a corner for every accepted vector at every point with segments, None exactly at free points, and the direction of the vector is between the two sides of the corner, which belong to the returned wire.", "quantifier": "all histories, all points and vectors", "why_tests_cant": "all histories, real-valued", "anchors": ["src/bgem/polygons/point.py: insert_vector"]}
{"id": "C84", "title": "Adding or deleting a segment changes only its own links", "statement": "Outside of the added or deleted segment the links are those obtained by leaving it out of the circular order at both ends, in all four cases of new_segment and delete_segment; no coordinates, ends, vectors or table entries of other segments change.", "quantifier": "all histories, all calls", "why_tests_cant": "all histories", "anchors": ["src/bgem/polygons/decomp.py: new_segment, delete_segment"]}
{"id": "C85", "title": "Nesting of wires is kept by delete_segment", "statement": "After any history of valid calls the wires form a tree under the root wire. (False: deleting a connection of an inner component can leave a wire that is its own parent, after which deleting the component raises KeyError, or a wire whose parent does not exist.)", "quantifier": "all histories", "why_tests_cant": "needs particular nested drawings", "anchors": ["src/bgem/polygons/decomp.py: _split_wire, _rm_wire"]}
{"id": "C86", "title": "get_childs gives the polygons inside a polygon", "statement": "When the wires form a forest, get_childs(id) ends and gives exactly the polygon itself and the polygons whose outer wire is inside its outer wire.", "quantifier": "all forests of wires", "why_tests_cant": "unbounded depth", "anchors": ["src/bgem/polygons/polygons.py: get_childs", "src/bgem/polygons/polygon.py: child_polygons, child_wires"]}
{"id": "C87", "title": "Polygon depth is the number of polygons around it", "statement": "Polygon.depth() counts the outer wires around the polygon (docstring), it is finite after any history of valid calls.", "quantifier": "all states", "why_tests_cant": "all nestings and histories", "anchors": ["src/bgem/polygons/polygon.py: Polygon.depth"]}
{"id": "C88", "title": "Each region of a mesh is one physical group of exactly its entities", "statement": "make_mesh of valid object sets makes physical groups exactly if every region can take the dimension of its entities; there is one group per used region, with the tags of all its entities in order, their common dimension, and the region's final name (the old name, or with the rank among equally named regions).", "quantifier": "all object sets of all histories", "why_tests_cant": "all histories and region assignments", "anchors": ["src/bgem/gmsh/gmsh.py: _assign_physical_groups, make_mesh"]}
{"id": "C89", "title": "split_by_cut separates object, tool and common pieces", "statement": "split_by_cut returns four sets: the pieces only of the object, only of the tools, and the common pieces with regions of the object and of the tools; each piece once, with a region it has there. The object and the tools are invalidated. (The last part is false for two or more tools: they stay valid with consumed entities.)", "quantifier": "all objects, tools, library results", "why_tests_cant": "external results are arbitrary", "anchors": ["src/bgem/gmsh/gmsh.py: ObjectSet.split_by_cut"]}
{"id": "C90", "title": "select_by_intersect and remove_small_mass select entities with their regions", "statement": "select_by_intersect returns exactly the entities with one piece of the intersection with their regions, raises if an entity has more pieces, and leaves all existing sets unchanged; remove_small_mass keeps exactly the entities over the limit with their regions.", "quantifier": "all object sets and library results", "why_tests_cant": "external results are arbitrary", "anchors": ["src/bgem/gmsh/gmsh.py: select_by_intersect, remove_small_mass"]}
{"id": "C91", "title": "Boundary per region gets one region of one dimension less", "statement": "get_boundary_per_region returns one set per region of the object; all its entities have one new region, named by the format from the region's name, whose dimension is the region's dimension minus one and equals the dimension of the entities.", "quantifier": "all object sets, formats, library results", "why_tests_cant": "external results are arbitrary", "anchors": ["src/bgem/gmsh/gmsh.py: get_boundary_per_region"]}
{"id": "C92", "title": "Queries and meshes see the current geometry", "statement": "Every query and mesh sees exactly the entities of the kernel at that time, and make_mesh(eliminate=True) meshes only the given objects. (False: make_polygon does not request synchronization, and neither does the removal in keep_only, so elimination has no effect on the mesh.)", "quantifier": "all call sequences", "why_tests_cant": "all histories", "anchors": ["src/bgem/gmsh/gmsh.py: synchronize, make_polygon, keep_only, make_mesh"]}
{"id": "C93", "title": "Basic shapes have simple closed boundaries", "statement": "The simplices of make_simplex have closed boundaries (each line in two faces) and the tetrahedron is not flat, make_polygon connects the vertices in a cycle, make_rectangle makes the boundary of the rectangle. (The last part is false: two of its lines are the diagonals.)", "quantifier": "all tags, point lists and scales", "why_tests_cant": "all inputs", "anchors": ["src/bgem/gmsh/gmsh.py: make_simplex, make_polygon, make_rectangle"]}
{"id": "C94", "title": "rectangle can be called repeatedly", "statement": "rectangle(sides, center) makes the rectangle around the center and leaves its arguments, so that equal calls give equal results. (False: it appends to the given or default list, so the second call raises.)", "quantifier": "all sides and centers", "why_tests_cant": "all inputs", "anchors": ["src/bgem/gmsh/gmsh.py: rectangle"]}
{"id": "C95", "title": "Box, constant and restricted fields cover the right places", "statement": "box has v_in exactly between its points, constant has its value on the ball with the radius, restrict lists exactly the entities of the given sets (and of their boundary if asked) by dimension.", "quantifier": "all points, values and object sets", "why_tests_cant": "all inputs", "anchors": ["src/bgem/gmsh/field.py: box, constant, restrict"]}
{"id": "C96", "title": "min_bounding_rect returns a rectangle around all points", "statement": "min_bounding_rect(convex_hull_2d(points)), as used by SurfaceApprox, is the four corners of a rectangle that contains every input point and has the least area among all rectangles, in any direction, that contain the points.", "quantifier": "all finite point sets with more than two points not on a vertical line", "why_tests_cant": "real-valued, unbounded", "anchors": ["src/bgem/bspline/bspline_approx.py: min_bounding_rect"]}
{"id": "C97", "title": "The surface fit has exactly one solution", "statement": "If at least one point lies in the quad and the regularization factor is positive, the system of equations solved in compute_approximation has exactly one solution; without points it has none or infinitely many.", "quantifier": "all numbers of intervals, all point lists, all heights, all positive factors", "why_tests_cant": "invertibility for all sizes", "anchors": ["src/bgem/bspline/bspline_approx.py: SurfaceApprox.compute_approximation, _build_sparse_reg_matrix"]}
{"id": "C98", "title": "The fitted surface is the best one", "statement": "No other surface on the same bases has a smaller sum of squared deviations from the points plus regularization term than the returned one.", "quantifier": "all point lists, all surfaces on the bases", "why_tests_cant": "minimum over all surfaces", "anchors": ["src/bgem/bspline/bspline_approx.py: SurfaceApprox.compute_approximation"]}
{"id": "C99", "title": "The reported error bounds the deviation of every point", "statement": "SurfaceApprox.error is the maximum norm of the deviations: no point is farther from the surface than error.", "quantifier": "all point lists", "why_tests_cant": "all inputs", "anchors": ["src/bgem/bspline/bspline_approx.py: SurfaceApprox.compute_approximation"]}
{"id": "C100", "title": "Points of the quad are kept with their parameters", "statement": "_compute_uv_points keeps each point of the closed parallelogram with its exact UV parameters and its height, keeps no point farther than the tolerance from it, and returns parameters in the unit square.", "quantifier": "all parallelograms of nonzero area, all point lists", "why_tests_cant": "real-valued, unbounded", "anchors": ["src/bgem/bspline/bspline_approx.py: SurfaceApprox._compute_uv_points"]}
{"id": "C101", "title": "The fitted Z surface has the solved values over the points", "statement": "The Z_Surface made from a solution z, evaluated by eval_xy at the XY position of the kept point i, gives back the XY position and the component i of B z.", "quantifier": "all parallelograms, all points, all heights", "why_tests_cant": "unbounded", "anchors": ["src/bgem/bspline/bspline_approx.py: SurfaceApprox.compute_approximation", "src/bgem/bspline/bspline.py: Z_Surface"]}
{"id": "C102", "title": "Default numbers of intervals", "statement": "compute_default_nuv returns at least one interval in each direction for every number of points and every rectangle; if both numbers are more than one, there are at least nine times more points than poles.", "quantifier": "all numbers of points, all side lengths", "why_tests_cant": "unbounded", "anchors": ["src/bgem/bspline/bspline_approx.py: SurfaceApprox.compute_default_nuv, _compute_default_nuv"]}
{"id": "C103", "title": "The regularization term is the energy of the surface", "statement": "For each vector z of heights the value of the form of the regularization matrix is four times the integral over the unit square of the squared gradient of the surface with these heights.", "quantifier": "all numbers of intervals, all heights", "why_tests_cant": "an integral, for all sizes and heights", "anchors": ["src/bgem/bspline/bspline_approx.py: SurfaceApprox._basis_in_q_points, _build_sparse_reg_matrix"]}
{"id": "C104", "title": "curve_from_grid joins the end points", "statement": "The curve returned by curve_from_grid begins in the first and ends in the last given point, whatever poles the interpolation library returns.", "quantifier": "all point lists, all library results with valid knots", "why_tests_cant": "all library results", "anchors": ["src/bgem/bspline/bspline_approx.py: curve_from_grid"]}
{"id": "C105", "title": "Regions by names: modify_regions, set_region_from_dimtag, make_fractures", "statement": "modify_regions gives every entity the region that get_region_name has for the formatted old name; set_region_from_dimtag gives different entities different regions named dim_tag; every shape of make_fractures has the region of its fracture, the base shape is unchanged. None of these changes another object set or an old region name.", "quantifier": "all states reachable by calls, all formats, all lists of fractures", "why_tests_cant": "all reachable states", "anchors": ["src/bgem/gmsh/gmsh.py: ObjectSet.modify_regions, set_region_from_dimtag, GeometryOCC.make_fractures"]}
{"id": "C106", "title": "Main curves lie on their surface", "statement": "_main_curves(surf, axis) returns one curve for each knot value of the fixed direction; each curve's point at t equals the point of the surface with that fixed parameter and the other parameter t, on the whole domain.", "quantifier": "all continuous quadratic non-rational surfaces in space, both axes, all knots, all t in the domain", "why_tests_cant": "equality of two functions over all parameters and all poles", "anchors": ["src/bgem/bspline/isec_surf_surf.py: IsecSurfSurf._main_curves"]}
{"id": "C107", "title": "Every reported surface-surface crossing is genuine, and the search completes", "statement": "IsecSurfSurf.get_intersections(surf1, surf2) completes and every IsecPoint it returns lies in the patches it lists and joins a point of surf1 and a point of surf2 at distance at most abs_tol, with xyz their midpoint.", "quantifier": "all pairs of quadratic surfaces, all iteration limits and tolerances, all answers of the box tree and the linear solver", "why_tests_cant": "arbitrary solver and tree answers, nested loops over all curves and patches", "anchors": ["src/bgem/bspline/isec_surf_surf.py: IsecSurfSurf.get_intersections"]}
{"id": "C108", "title": "The entry points of the intersection classes return", "statement": "IsecSurfSurf.get_intersection(), IsecCurveSurf.get_intersections() and the constructor of CurvePoint return a result for valid input.", "quantifier": "all surfaces and curves", "why_tests_cant": "all inputs", "anchors": ["src/bgem/bspline/isec_surf_surf.py: get_intersection, _free_point", "src/bgem/bspline/isec_curve_surf.py: get_intersections", "src/bgem/bspline/curve_point.py: CurvePoint"]}
{"id": "C109", "title": "Patch point lists hold exactly the points of each patch", "statement": "make_patch_point_list returns for each patch exactly the positions of the points listing it and the list of boundary points; _unconnected_patch_points and _get_inside_points return exactly the points of the given patches that are not connected, each once.", "quantifier": "all point lists and patch lists", "why_tests_cant": "all inputs", "anchors": ["src/bgem/bspline/isec_surf_surf.py: make_patch_point_list, _unconnected_patch_points, _get_inside_points"]}
{"id": "C110", "title": "The Jacobian is the derivative and Newton is exact on affine data", "statement": "_compute_jacobian_and_coordinates returns the partial derivatives of the surface and minus the derivative of the curve; if their difference is affine with a regular matrix and meets in the cell, get_intersection with max_it>=2 converges to the meeting point (or stops at the cell middle if close enough).", "quantifier": "all quadratic surfaces and curves over the reals, all interior parameters", "why_tests_cant": "derivatives over a continuum", "anchors": ["src/bgem/bspline/isec_curve_surf.py: _compute_jacobian_and_coordinates, get_intersection"]}
{"id": "C111", "title": "The surface-surface search reports every crossing that Newton finds", "statement": "For every main curve, knot interval and proposed patch for which get_intersection converges, get_intersections reports that crossing (with its parameters on both surfaces and its point), or the interval ends in a knot crossing at which a point is reported.", "quantifier": "all pairs of quadratic surfaces, all solvers and box trees, all curves, intervals and patches", "why_tests_cant": "state shared by five nested loops over arbitrary data", "anchors": ["src/bgem/bspline/isec_surf_surf.py: IsecSurfSurf.get_intersections, _already_found"]}
{"id": "C112", "title": "Every state of the frontend is a valid decomposition", "statement": "Whatever calls of PolygonDecomposition are made (add_point, add_line, add_line_for_points, new_segment, delete_segment, delete_point, merge_points, move_points, set_tolerance, set_attr), with whatever arguments, the decomposition below is one reached by Decomposition calls with valid arguments, so all its invariants (links, tables, wires, ids) hold.", "quantifier": "all sequences of calls, all arguments, all geometries", "why_tests_cant": "unbounded call sequences", "anchors": ["src/bgem/polygons/polygons.py: PolygonDecomposition"]}
{"id": "C113", "title": "The box tables mirror the points and segments", "statement": "After any frontend calls, points_lookup stores exactly the ids of the live points and segments_lookup exactly those of the live segments, each in a box that contains the whole object with the least tolerance used as margin.", "quantifier": "all sequences of calls with bounded coordinates and positive tolerances", "why_tests_cant": "unbounded call sequences over a continuum of coordinates", "anchors": ["src/bgem/polygons/polygons.py: _add_point, _add_segment, _rm_point, _rm_segment, _split_segment, move_points"]}
{"id": "C114", "title": "add_point snaps to a near point", "statement": "If some point of the decomposition is nearer to x than the tolerance, add_point(x) returns such a point and changes nothing.", "quantifier": "all states after calls that move no point, all x", "why_tests_cant": "continuum of places and unbounded states; depends on the search in the box table", "anchors": ["src/bgem/polygons/polygons.py: add_point, _snap_point"]}
{"id": "C115", "title": "New free points keep their distance", "statement": "A point that add_point puts in freely has the given coordinates and no point and no point of a segment is nearer to it than the tolerance.", "quantifier": "all states after calls that move no point, all x", "why_tests_cant": "continuum of places and unbounded states", "anchors": ["src/bgem/polygons/polygons.py: add_point, _snap_point"]}
{"id": "C116", "title": "New points on segments", "statement": "A point that add_point puts on a segment lies on it at least the tolerance from both ends, that segment is a nearest one and nearer to x than the tolerance, and no point of the decomposition was nearer to x than the tolerance.", "quantifier": "all states after calls that move no point, all x", "why_tests_cant": "continuum of places and unbounded states", "anchors": ["src/bgem/polygons/polygons.py: add_point, _snap_point, _point_on_segment"]}
{"id": "C117", "title": "add_point is idempotent", "statement": "A second add_point with the same coordinates returns the same point and changes nothing.", "quantifier": "all states after calls that move no point, all x", "why_tests_cant": "continuum of places; ties of distances", "anchors": ["src/bgem/polygons/polygons.py: add_point, _snap_point"]}
{"id": "C118", "title": "add_point works after deletions", "statement": "add_point does not fail after points or segments were deleted.", "quantifier": "all states in which all points or all segments were deleted, all x", "why_tests_cant": "the failure depends on the history of the tables", "anchors": ["src/bgem/polygons/polygons.py: _snap_point, delete_point, delete_segment", "src/bgem/polygons/aabb_lookup.py: closest_candidates"]}
{"id": "C119", "title": "A new line is divided exactly where it crosses segments", "statement": "add_line between two points with no other point near the line divides the line and each crossed segment exactly in their crossings: the segments returned join the first point, the crossings in their order along the line, and the last point; every crossed segment is divided in the crossing and all other segments keep their ends.", "quantifier": "all states of runs without moves, all pairs of points, any number of crossed segments", "why_tests_cant": "number and order of the crossings and the state before are unbounded", "anchors": ["src/bgem/polygons/polygons.py: add_line, _add_line_seg_intersections, _add_line_new_segs, _point_on_segment"]}
{"id": "C120", "title": "add_line returns a chain of segments from the first point to the last", "statement": "add_line always returns a list of segments that join the snapped ends without a gap.", "quantifier": "all states and all ends", "why_tests_cant": "depends on nearby points, which are merged in a loop", "anchors": ["src/bgem/polygons/polygons.py: add_line, merge_points, _add_line_new_segs"]}
{"id": "C121", "title": "check_displacment allows only moves without collisions", "statement": "If check_displacment returns True, no moved point and no moved segment crosses a segment that stays, and points remain in their polygons.", "quantifier": "all decompositions, sets of points and displacements", "why_tests_cant": "needs all positions of all segments against all displacements", "anchors": ["src/bgem/polygons/polygons.py: check_displacment, move_points, seg_intersection"]}
{"id": "C122", "title": "merge_points keeps the point with the smaller id", "statement": "merge_points(a, b) either returns b and changes nothing, or returns the one of the two points with the smaller id and the other one is no longer among the points, whatever the order of the arguments.", "quantifier": "all runs of the frontend and all pairs of points", "why_tests_cant": "the segments of the removed point are rebuilt one by one, each rebuild may change the decomposition in many ways", "anchors": ["src/bgem/polygons/polygons.py: merge_points"]}
{"id": "C123", "title": "last_polygon_change reports what happened to the polygons", "statement": "After new_segment the reported change is true: with split and add exactly one polygon was added, the two sides of the new segment belong to the two reported polygons, only sides of the first one can pass to the second one, and the second one is beside the first one (split) or in a hole of it (add); with none and shape no polygon was added and every side of a segment keeps its polygon. After delete_segment: with join and remove exactly the second reported polygon is gone, its sides belong to the first one and no other side changes; with none and shape the polygons and all sides are kept.", "quantifier": "all histories of valid calls in which the deletion of a bridge leaves no wire as its own parent and every outer wire connected with its parent", "why_tests_cant": "all histories", "anchors": ["src/bgem/polygons/decomp.py: new_segment, delete_segment, _new_wire, _wire_add_dendrite, _join_wires, _split_poly, _rm_wire, _rm_dendrite, _join_poly", "src/bgem/polygons/polygons.py: get_last_polygon_changes"]}
{"id": "C124", "title": "Polygons, outer wires and holes stay consistent", "statement": "After any history of valid calls in which the deletion of a bridge leaves no wire as its own parent and every outer wire connected by segments with its parent: every wire is the outer wire of its polygon or a child of that outer wire, every polygon's outer wire exists and belongs to it, the parents of every wire lead to the root wire, and the wires on the two sides of a segment are equal, outer wires with the same parent, or a hole and an outer wire whose parent is that hole.", "quantifier": "all such histories", "why_tests_cant": "all histories, unbounded nesting", "anchors": ["src/bgem/polygons/decomp.py: _new_wire, _wire_add_dendrite, _join_wires, _split_poly, _rm_wire, _rm_dendrite, _join_poly, split_segment, join_segments", "src/bgem/polygons/polygon.py: Wire.set_parent"]}
{"id": "C125", "title": "Intersection divides the segments of the first decomposition", "statement": "After intersect_single every point of the first decomposition keeps its id and place, every segment keeps its id, and the segments e of the result with the same maps_self[1].get(e, e) are parts of that segment: with the same direction, without overlap and together the whole segment. Every other segment of the result has a value in maps_other[1].", "quantifier": "all pairs of decompositions, the first one made by intersections", "why_tests_cant": "segments may be divided any number of times, by points and by lines, in any order", "anchors": ["src/bgem/polygons/merge.py: intersect_single", "src/bgem/polygons/polygons.py: _add_line_seg_intersections, _point_on_segment"]}
{"id": "C126", "title": "Intersection keeps the polygons of the first decomposition", "statement": "After intersect_single maps_self[2].get(q, q) is a polygon of the first decomposition for every polygon q of the result and q itself for the old ones; at each part of an old segment both sides belong to parts of the polygons at the sides of the old segment, and the two sides of a segment that is only in the second decomposition belong to parts of the same polygon.", "quantifier": "all pairs of decompositions, the first one made by intersections", "why_tests_cant": "all pairs of planar decompositions", "anchors": ["src/bgem/polygons/merge.py: intersect_single"]}
{"id": "C127", "title": "Segments of the second decomposition become ways in the result", "statement": "Every point of the second decomposition has an image in the result with a value in maps_other[0], and a value is a point with that image. Every segment of the second decomposition becomes a way of segments of the result between the images of its points, up to gaps shorter than the tolerance; all segments of the way have values in maps_other[1], and each value is a segment whose way goes there.", "quantifier": "all pairs of decompositions", "why_tests_cant": "any number of crossings", "anchors": ["src/bgem/polygons/merge.py: intersect_single", "src/bgem/polygons/polygons.py: _add_line_new_segments"]}
{"id": "C128", "title": "Polygons at segments of the second decomposition get the polygon of that side", "statement": "Every polygon of the result with a segment that is in maps_other[1] has a value in maps_other[2], and the value is the polygon of the second decomposition at the corresponding side of a segment whose way borders the polygon.", "quantifier": "all pairs of decompositions", "why_tests_cant": "polygons are split again while later segments are added, values must follow", "anchors": ["src/bgem/polygons/merge.py: intersect_single"]}
{"id": "C129", "title": "Search for the values of the other polygons", "statement": "The loop that gives values to the remaining polygons always ends without an exception and leaves an entry for every polygon. A value is that of a polygon from which one gets there over outer wires crossing only segments that are not of the second decomposition, and all polygons across the outer wire of a polygon with a value have values.", "quantifier": "all pairs of decompositions", "why_tests_cant": "termination and all adjacency graphs", "anchors": ["src/bgem/polygons/merge.py: intersect_single (131-142)"]}
{"id": "C130", "title": "Assertions of the intersection that cannot fail", "statement": "After add_point the assertion about the neighbours of the two parts of a divided segment holds, and after a segment was added the assertion that no polygons were joined or removed holds and both sides of the segment have polygons.", "quantifier": "all states of the intersection", "why_tests_cant": "all states", "anchors": ["src/bgem/polygons/merge.py: intersect_single (82-88, 114-128)"]}
{"id": "C131", "title": "Cases of a flat tetrahedron", "statement": "For a tetrahedron of nonzero volume and every unit normal one, two or three of its face normals have a positive product with the normal, so the last branch of _check_flat_tetra (assert False) is never taken. With two of them the flattened tetrahedron is a quadrilateral: two opposite edges cross, and the crossing is the one reported, or the check raises because the crossing is nearer than a twentieth of an edge to one of its ends. With one or three the node opposite to the outer face lies in that face after flattening, and the check reports this or raises because the node is too near to a side.", "quantifier": "all tetrahedra and all unit normals", "why_tests_cant": "geometry of all tetrahedra, including the border between the cases", "anchors": ["src/bgem/gmsh/heal_mesh.py: HealMesh._check_flat_tetra (647-838)"]}
{"id": "C132", "title": "Flattening of a tetrahedron", "statement": "The flattened nodes lie in one plane with the common normal, each node moves only along the normal, the centre of gravity stays and the volume becomes zero.", "quantifier": "all tetrahedra and all unit normals", "why_tests_cant": "all positions", "anchors": ["src/bgem/gmsh/heal_mesh.py: HealMesh._check_flat_tetra (647-838)"]}
{"id": "C133", "title": "Volume of split tetrahedra", "statement": "When an element with a node i and a node j is replaced by the two with a point of the edge ij in place of i and j, the signed volumes are the parts of the old one by the parameter of the point; when the point is any with barycentric coordinates, the volume with the point in place of node i is the i-th coordinate times the old volume. So the parts fill the old element and none is inverted if the point is inside.", "quantifier": "all elements, edges and points", "why_tests_cant": "all positions", "anchors": ["src/bgem/gmsh/heal_mesh.py: HealMesh._check_flat_tetra (760-838)"]}
{"id": "C134", "title": "Quality gamma of tetrahedra", "statement": "For a tetrahedron of nonzero volume Tetrahedron.gmsh_gamma does not raise and is three times the radius of the inscribed sphere by the radius of the sphere through the nodes; it is in (0, 1] and 1 exactly for equal edges. For a tetrahedron of zero volume with nodes on a circle the assertion fails.", "quantifier": "all tetrahedra", "why_tests_cant": "inequality over all shapes", "anchors": ["src/bgem/gmsh/heal_mesh.py: Tetrahedron.gmsh_gamma (95-108)"]}
{"id": "C135", "title": "Gradient quality of triangles", "statement": "Triangle.smooth_grad_error_indicator is between 0 and 1 and 1 exactly for equal edges.", "quantifier": "all triangles", "why_tests_cant": "inequality over all shapes", "anchors": ["src/bgem/gmsh/heal_mesh.py: Triangle.smooth_grad_error_indicator (151-155)"]}
{"id": "C136", "title": "Gradient quality of tetrahedra", "statement": "Tetrahedron.smooth_grad_error_indicator does not depend on the order of the nodes and is 1 for regular tetrahedra.", "quantifier": "all tetrahedra", "why_tests_cant": "all shapes and all orders", "anchors": ["src/bgem/gmsh/heal_mesh.py: Tetrahedron.smooth_grad_error_indicator (86-93)"]}
{"id": "C137", "title": "Ratios of edges and altitudes", "statement": "flat_indicator is the least altitude by the longest edge and small_edge_ratio the shortest edge by the longest, which is between 0 and 1 and 1 exactly for equal edges.", "quantifier": "all triangles and tetrahedra", "why_tests_cant": "all shapes", "anchors": ["src/bgem/gmsh/heal_mesh.py: ShapeBase.small_edge_ratio (32-35)", "src/bgem/gmsh/heal_mesh.py: ShapeBase.flat_indicator (37-50)"]}
{"id": "C138", "title": "Accepted sequences of points are grids", "statement": "When GridSurface(points) does not raise, the number of points is the product of two numbers of at least 2 and point i*nv+j is within (nu-1-i+j) times the tolerance of the place i*u + j*v from the first point, for the steps u, v given by the corners.", "quantifier": "all sequences of points and tolerances", "why_tests_cant": "all grids, sizes and errors", "anchors": ["src/bgem/bspline/bspline.py: GridSurface.__init__ (965-998)", "src/bgem/bspline/bspline.py: GridSurface._get_grid_corners (1001-1036)", "src/bgem/bspline/bspline.py: GridSurface._check_grid_regularity (1039-1050)"]}
{"id": "C139", "title": "Grid surfaces pass through their points", "statement": "Every exact grid of at least 2 x 2 points in a parallelogram whose second row can be told from the first is accepted with its shape, its points are mapped to multiples of 1/(n-1), and evaluation at the XY of a point returns the point with its Z. For make_function_grid this gives the values of the function at all nodes.", "quantifier": "all grids, positions, Z values and functions", "why_tests_cant": "all sizes and shapes", "anchors": ["src/bgem/bspline/bspline.py: GridSurface (941-1171)", "src/bgem/bspline/bspline.py: make_function_grid (1174-1190)"]}
{"id": "C140", "title": "check_consistency accepts the states of runs", "statement": "After any sequence of valid calls without exception, Decomposition.check_consistency() returns True.", "quantifier": "all sequences of calls on a Decomposition", "why_tests_cant": "the tests call it after a few fixed sequences", "anchors": ["src/bgem/polygons/decomp.py: check_consistency (98-153)", "src/bgem/polygons/point.py: segments (29-46)"]}
{"id": "C141", "title": "What an accepted decomposition has", "statement": "If check_consistency() returns, then following next from any segment side goes on for ever over existing sides of one existing wire; every point either is free and listed by exactly one polygon, or knows an existing segment that ends in it and is listed by no polygon; outer wires of polygons differ and every wire belongs to an existing polygon as its outer wire or as a child of that.", "quantifier": "all states, reachable or not", "why_tests_cant": "all states", "anchors": ["src/bgem/polygons/decomp.py: check_consistency (98-153)"]}
{"id": "C142", "title": "Defects that check_consistency should find", "statement": "check_consistency() does not return for a state with a wire whose parent does not exist, a segment missing in pt_to_seg, or a wire in the childs of a wire that is not its parent.", "quantifier": "all states", "why_tests_cant": "the tests do not pass inconsistent states", "anchors": ["src/bgem/polygons/decomp.py: check_consistency (98-153)"]}
{"id": "C143", "title": "is_dendrite is true exactly for bridges", "statement": "In every state of such a run, Segment.is_dendrite() of an existing segment is True exactly if its two end points are not connected by a path of other existing segments.", "quantifier": "all histories of valid calls as in C124", "why_tests_cant": "global connectivity of arbitrary drawings; is_dendrite compares only two wire references", "anchors": ["src/bgem/polygons/segment.py: is_dendrite", "src/bgem/polygons/decomp.py: new_segment, delete_segment, _join_wires, _split_wire, _split_poly, _join_poly"]}
{"id": "C144", "title": "Euler's formula with the number of components", "statement": "In every state of such a run: points with a segment + polygons = segments + connected components of the drawing + 1, and the number of wires (with the root wire) is the number of components + the number of polygons.", "quantifier": "all histories of valid calls as in C124", "why_tests_cant": "number of connected components of arbitrary drawings", "anchors": ["src/bgem/polygons/decomp.py: new_segment, delete_segment, split_segment, join_segments"]}
{"id": "C145", "title": "Deletions in a drawing without closed polygons keep the nesting", "statement": "If only the outer polygon exists, delete_segment of any segment (bridge or not) leads to a state in which all consistency statements of C124 hold again.", "quantifier": "all states reached by histories as in C124 with one polygon, all segments", "why_tests_cant": "all trees of segments", "anchors": ["src/bgem/polygons/decomp.py: delete_segment, _split_wire, _rm_wire, _rm_dendrite"]}
{"id": "C146", "title": "The written BREP text says exactly what the model is", "statement": "The characters that write_model puts in the stream, read by the grammar of the BREP format (words between blanks, the counts before the lists), give back exactly the records of locations, curves, surfaces and shapes with all numbers, flags, orientations, references and the reference to the root.", "quantifier": "all models accepted by write_model in a fresh state without a compound solid, every number format whose texts are words that can be read back", "why_tests_cant": "all models, all numbers of poles, knots and children, all number texts", "anchors": ["src/bgem/bspline/brep_writer.py: write_model, _brep_output, Curve3D._brep_output, Surface._brep_output, Location._brep_output"]}
{"id": "C147", "title": "Every kind of shape has the name the format gives it", "statement": "A written file is readable whatever kinds of shapes the model has.", "quantifier": "all files with a compound solid", "why_tests_cant": "a universal negation over all files; the repo has no BREP reader", "anchors": ["src/bgem/bspline/brep_writer.py: CompoundSolid"]}
{"id": "C148", "title": "B-spline curves and surfaces keep their geometry in the BREP records", "statement": "curve_from_bs accepts every B-spline curve in the plane or in space and surface_from_bs every surface in space; the record read back (knots with multiplicities, degree, poles) defines the very same B-spline. Other dimensions raise.", "quantifier": "all degrees, all knot vectors accepted by SplineBasis, all poles, rational or not", "why_tests_cant": "all knot vectors and pole matrices", "anchors": ["src/bgem/bspline/brep_writer.py: curve_from_bs, surface_from_bs, Curve3D.__init__, Curve2D.__init__, Surface.__init__"]}
{"id": "C149", "title": "attach_to_3d_curve accepts exactly the edges that end on the curve", "statement": "An edge is attached exactly if both vertices agree with the values of the curve in every coordinate; the answer does not depend on where the model lies.", "quantifier": "all curves, edges and translations", "why_tests_cant": "universal over curves; the dependence on the position is a statement about all translations", "anchors": ["src/bgem/bspline/brep_writer.py: Edge.attach_to_3d_curve, Curve3D._eval_check"]}
{"id": "C150", "title": "A decomposition is rebuilt from the segment lists of its polygons", "statement": "Let D be any decomposition made from the empty one by calls that keep the nesting (see C124), and let E have the points and the segments of D but no wires and no polygons other than the outer one. Calling make_polygon on E for each polygon of D, in any order, with the segment ids of its outer wire, of its holes and its free points, and then set_wire_parents, raises no exception and ends. After that E equals D up to the ids of wires and polygons: the same next sides, the same wire and polygon on each side of each segment, the same parents, children and outer wires, and the same free points. The list of a wire may start at any of its sides, but if its first two entries are one segment then at the side that ends in the out vertex of it; each wire has such a start.", "quantifier": "for all decompositions reachable by calls that keep the nesting, all orders of polygons and holes, all starts of the lists as described", "why_tests_cant": "The breadth first search over neighbours has to reach every outer wire inside a hole and none outside of it, for every nesting and every adjacency; a test has a few drawings. There is no test of these functions in the repository.", "anchors": ["src/bgem/polygons/polygons.py:772-850", "src/bgem/polygons/merge.py:8-39", "src/bgem/polygons/segment.py:91-98", "src/bgem/polygons/polygon.py:172-177"]}
{"id": "C151", "title": "The lists of wire.segments() are good input for make_polygon", "statement": "For every decomposition made by calls that keep the nesting, the lists of segment ids that wire.segments() gives, starting at the side stored in the wire, can be given to make_polygon, which raises no exception and rebuilds the wires.", "quantifier": "for all reachable decompositions", "why_tests_cant": "It depends on which side is stored in the wire; only special histories store a side that ends in a free end of a segment.", "anchors": ["src/bgem/polygons/polygons.py:785-803", "src/bgem/polygons/merge.py:25-33"]}
{"id": "C152", "title": "make_wire_from_segments links only sides that meet", "statement": "make_wire_from_segments either raises an exception or links sides so that each side starts at the point where the previous one ends. For the segments of a closed walk in order it links the sides along the walk, marks them with the new wire, stores the first side in the wire and changes nothing else.", "quantifier": "for all lists of segment ids and all states", "why_tests_cant": "Lists that do not close are accepted silently; the broken link shows much later.", "anchors": ["src/bgem/polygons/polygons.py:772-808"]}
{"id": "C153", "title": "undo and redo of the decomposition restore points, segments and their links", "statement": "For every program of calls of the methods of PolygonDecomposition marked undoable, groups, undo, redo, clear and savepoints that raises nothing, adds segments only between unconnected points in new directions and splits segments only at points between their ends: at any time the decomposition has the points, coordinates, segments, segment ends and next links of the document in an ideal history (a list of past documents, the current one, a list of undone ones), and new points and segments get the ids they would get in that document. undocount is the length of the past.", "quantifier": "for all coordinates, programs and states", "why_tests_cant": "Tests undo one call; histories that mix undo, redo and new calls after them are not run, and the undo code works on ids that must be handed out again in the same order.", "anchors": ["src/bgem/polygons/polygons.py:625-701", "src/bgem/polygons/undo.py:124-275", "src/bgem/polygons/idmap.py:1-60", "src/bgem/polygons/decomp.py:205-330"]}
{"id": "C154", "title": "add_point, delete_segment, delete_point and set_attr are undone by undoing their steps", "statement": "add_point, delete_segment and delete_point, when they raise nothing, are sequences of undoable calls. Undoing as many steps, if this raises nothing, restores points, coordinates, segments, ends, next links, the ids to come and undocount. The undo step of set_attr, run in the state after the call, gives back the whole state before it.", "quantifier": "for all states with sorted fans and all arguments", "why_tests_cant": "How many steps are recorded depends on whether the point snaps to a point, to a segment, or is free, and on the degree of the deleted point.", "anchors": ["src/bgem/polygons/polygons.py:94-160", "src/bgem/polygons/polygons.py:625-701", "src/bgem/polygons/undo.py:124-275"]}
{"id": "C155", "title": "undo restores everything that later calls depend on", "statement": "After undo the decomposition has the segments, the attributes and the geometry that it had before the undone call: segments that existed before the call still exist, attributes of removed segments come back, and add_point and add_line give the results that they would have given before the call.", "quantifier": "for all states and calls", "why_tests_cant": "The wrong results need a call after the undo, or a call that changed nothing before it.", "anchors": ["src/bgem/polygons/polygons.py:641-681", "src/bgem/polygons/decomp.py:266-330"]}
{"id": "C156", "title": "Points, deletions and open lines keep the drawing planar", "statement": "After any calls of add_point, delete_segment, delete_point, set_attr and tolerance changes, and of add_line, add_line_for_points and new_segment for open lines, different points have different coordinates, a point lies on a segment only as one of its ends, and two segments meet only in a common end. A line is open if no other point is on it, ends of segments that are not its ends are at least the tolerance away from it, its ends are at least the tolerance away from segments of which they are not ends, and its crossings are at least the tolerance away from its start and from each other; a line that is snapped to points between its ends counts as its parts.", "quantifier": "for all runs from the empty decomposition, all coordinates in the range of the tables and all tolerances between fixed bounds with eps times the largest length below the least tolerance", "why_tests_cant": "Planarity of all pairs of segments after every possible sequence of insertions is not a finite check; a missed crossing shows up only in later polygon lookups.", "anchors": ["src/bgem/polygons/polygons.py:324-350", "src/bgem/polygons/polygons.py:443-502", "src/bgem/polygons/polygons.py:533-618", "src/bgem/polygons/polygons.py:707-760"]}
{"id": "C157", "title": "add_line keeps the drawing planar", "statement": "After add_line the line is divided in every point of the decomposition that is on it, so that points lie on segments only as their ends and segments meet only in common ends.", "quantifier": "for all states reachable by add_point and add_line and all pairs of points", "why_tests_cant": "It fails only when a free point, one without segments, is on the new line.", "anchors": ["src/bgem/polygons/polygons.py:464-502", "src/bgem/polygons/polygons.py:563-605"]}
{"id": "C158", "title": "The polygons of a drawing divide the plane", "statement": "In every drawing, each point of the plane that is on no segment is in exactly one polygon: Polygon.contains_point returns True for one polygon, False for all others, and raises nothing. A drawing is a state reached from the empty decomposition by adding a free point off the segments to a polygon that contains it, removing a free point, moving a free point along a straight path that meets no segment, dividing a segment in a point of it, adding a segment that meets the others only in common points and beside whose wires the point of Wire.contains_wire is near the wire, deleting a segment that is not a bridge between two parts, and joining two segments of one line.", "quantifier": "all drawings, all points of the plane, coordinates in any ordered field", "why_tests_cant": "it relates the links, the nesting of wires and the even-odd rule of contains_point for all drawings and all points; a wrong parent of one wire is visible only from points in one face", "anchors": ["src/bgem/polygons/polygon.py:54-66", "src/bgem/polygons/polygon.py:179-215", "src/bgem/polygons/decomp.py:148-345", "src/bgem/polygons/decomp.py:353-683"]}
{"id": "C159", "title": "Free points are listed in the polygon that contains them", "statement": "In every drawing (as in C158), each free point is in free_points of its polygon and of no other one, Polygon.contains_point of that polygon returns True for its coordinates, and it returns False for all other polygons.", "quantifier": "all drawings, all free points", "why_tests_cant": "it has to hold after every sequence of splits and joins of polygons", "anchors": ["src/bgem/polygons/decomp.py:148-170", "src/bgem/polygons/decomp.py:611-622", "src/bgem/polygons/decomp.py:623-683"]}
{"id": "C160", "title": "The polygon of a side contains the points beside it", "statement": "In every drawing (as in C158), a point that is strictly to the left of a segment side and can be connected with an inner point of the side without meeting another segment is contained in segment.wire[side].polygon and in no other polygon.", "quantifier": "all drawings, all segment sides, all such points", "why_tests_cant": "it links combinatorial labels with geometry for all drawings", "anchors": ["src/bgem/polygons/segment.py:9-60", "src/bgem/polygons/polygon.py:54-66", "src/bgem/polygons/decomp.py:353-683"]}
{"id": "C161", "title": "Points not separated by segments are in the same polygon", "statement": "In every drawing (as in C158), if the straight path between two points meets no segment, Polygon.contains_point gives the same answer for both points and every polygon.", "quantifier": "all drawings, all pairs of points with a free path, all polygons", "why_tests_cant": "the even-odd count along a ray changes at vertices; equality needs an argument for all positions of vertices relative to the ray", "anchors": ["src/bgem/polygons/polygon.py:54-66", "src/bgem/polygons/polygon.py:179-194"]}
{"id": "C162", "title": "new_segment between free points never fails its polygon assertion", "statement": "In every drawing (as in C158), two free points whose connecting path meets no segment are registered in the same polygon, so the assertion a_pt.poly == b_pt.poly of new_segment holds.", "quantifier": "all drawings, all pairs of free points with a free path", "why_tests_cant": "depends on the registration of every free point through all earlier splits and joins", "anchors": ["src/bgem/polygons/decomp.py:196-199"]}
{"id": "C163", "title": "After calls of the frontend the polygons divide the plane", "statement": "After any calls of add_point, add_line, add_line_for_points, new_segment, delete_segment, delete_point, set_attr and tolerance changes, each point of the plane that is on no segment is in exactly one polygon by Polygon.contains_point, which raises nothing. Lines have to be open (as in C156) and may not leave a segment whose middle is nearer to another segment than 1e-10 of its length; a deleted segment may be the only connection of two parts of a wire if this is a wire inside a polygon and no middle of a segment is that near to another segment, but not if it is the outer wire of a polygon (see C85).", "quantifier": "all sequences of such calls, all coordinates in the range, all points off the segments", "why_tests_cant": "lines may cross any number of older segments, and each crossing splits segments, wires and polygons", "anchors": ["src/bgem/polygons/polygons.py:320-350", "src/bgem/polygons/polygons.py:443-502", "src/bgem/polygons/polygons.py:541-669", "src/bgem/polygons/polygon.py:54-65"]}
{"id": "C164", "title": "After calls of the frontend free points are in their polygon", "statement": "After calls as in C163 each point without segments is in free_points of exactly one polygon, this is its poly, and Polygon.contains_point of the point is True for this polygon only.", "quantifier": "all sequences of such calls, all points", "why_tests_cant": "free points change their polygon whenever a later line or deletion splits or joins polygons", "anchors": ["src/bgem/polygons/polygons.py:320-350", "src/bgem/polygons/polygons.py:609-657", "src/bgem/polygons/decomp.py:150-247"]}
{"id": "C165", "title": "Valid calls on a drawing raise nothing", "statement": "In every drawing (as in C158) no assertion or lookup fails in: new_segment of two points whose line meets no point and no segment elsewhere and whose difference has a coordinate above 1e-10; split_segment at a point without segments; delete_segment of a segment with different wires on its sides, with a free end, or on a wire inside a polygon (that is, not an outer wire); join_segments of the only two segments of a point whose other ends are not connected; remove_free_point of a point without segments; Point.move of any point.", "quantifier": "all drawings, all such calls", "why_tests_cant": "each call passes many assertions on wires, parents, polygons and point registries, which depend on all earlier calls", "anchors": ["src/bgem/polygons/decomp.py:150-341", "src/bgem/polygons/decomp.py:353-700", "src/bgem/polygons/point.py:48-125", "src/bgem/polygons/segment.py:84-182"]}
{"id": "C166", "title": "Valid frontend calls raise nothing", "statement": "From an empty decomposition, any sequence of calls of the frontend as in C163 raises nothing but the limit of recursion, if each call is valid when it is made: an added point has an existing point nearer than the tolerance or no two parallel segments nearer than it; no table of boxes was emptied by deletions; new segments have a coordinate difference above 1e-10; the drawing stays wide after each new segment; given ids exist. A line with no vertex nearer than the tolerance between its ends never reaches the limit of recursion.", "quantifier": "all sequences of valid frontend calls, all coordinates, all tolerances in the range", "why_tests_cant": "add_point and add_line pass through lookups by id in two box tables, assertions of the decomposition and of the wire tree; a failure depends on all earlier calls", "anchors": ["src/bgem/polygons/polygons.py:124-140", "src/bgem/polygons/polygons.py:320-502", "src/bgem/polygons/polygons.py:541-669"]}
{"id": "C167", "title": "A point added in an acute corner keeps away from the second segment", "statement": "If add_point puts a new point on a segment, that point is nearer to x than the tolerance; or another segment is nearer to x than the tolerance too, the new point is farther than 99/100 of the tolerance from all of that segment, and its distance from the line of that segment is the tolerance, on the side of x.", "quantifier": "all states after calls that move no point, all x", "why_tests_cant": "continuum of places and angles between the segments", "anchors": ["src/bgem/polygons/polygons.py:356-411"]}
{"id": "C168", "title": "add_point returns a point near x", "statement": "The point returned by add_point(x) is nearer to x than twice the tolerance.", "quantifier": "all states after calls that move no point, all x", "why_tests_cant": "it fails only between two segments with a small angle", "anchors": ["src/bgem/polygons/polygons.py:320-350", "src/bgem/polygons/polygons.py:392-411"]}
{"id": "C169", "title": "Polygon.vertices runs counterclockwise", "statement": "After every sequence of valid drawing calls, for each polygon other than the outer one, the closed polyline of vertices() has winding number one about each point in the outer wire, in particular about each point for which contains_point is true, and zero about every other point off the segments; vertices() of the outer polygon is empty; the segments() of a wire inside the polygon wind minus once about the points in that wire and zero times about the others.", "quantifier": "all drawings, all polygons and wires, all points off the segments", "why_tests_cant": "all shapes, with holes, bridges and dendrites, and a continuum of points; no test checks the direction", "anchors": ["src/bgem/polygons/polygon.py:35-43", "src/bgem/polygons/polygon.py:140-162"]}
{"id": "C170", "title": "Polygon.depth counts the wires around a polygon", "statement": "depth() of a polygon is the number of wires, other than the root wire, for which contains_point is true at any point of the polygon; it is zero for the outer polygon; a polygon inside the outer wire of another one is deeper than that one.", "quantifier": "all drawings, all polygons, all points off the segments", "why_tests_cant": "depends on the nesting made by all calls before; the tests have one nest of two squares", "anchors": ["src/bgem/polygons/polygon.py:22-33"]}
{"id": "C171", "title": "Wire.neighbors is symmetric", "statement": "neighbors() of a wire other than the root wire is not empty, lists wires that exist and are not the root wire, and each of them has the wire among its neighbors.", "quantifier": "all drawings, all wires", "why_tests_cant": "all sequences of changes", "anchors": ["src/bgem/polygons/polygon.py:172-177"]}
{"id": "C172", "title": "Removing a connection inside a polygon leaves the regions of the polygons", "statement": "In a drawing made by valid calls, delete_segment of a segment that has the same inner wire (a hole) on both sides and other segments at both ends splits this wire in two and hands the wires inside it to the right part: every point off the segments stays in the polygon it was in, no other polygon contains it, the polygons stay the same, and the nesting of wires stays right, provided the points that contains_wire tests are beside their segments.", "quantifier": "all drawings, all segments that connect the parts of a hole, all points off the segments", "why_tests_cant": "all shapes of the two parts, with any number of polygons inside each, and a continuum of points; the analogous claim for outer wires is false (C85)", "anchors": ["src/bgem/polygons/decomp.py:479-540", "src/bgem/polygons/decomp.py: delete_segment", "src/bgem/polygons/polygon.py: Wire.contains_wire"]}
{"id": "C173", "title": "Regions of the polygons change as last_polygon_change tells", "statement": "In a drawing made by valid calls, after new_segment with split or add the region of the first reported polygon (Polygon.contains_point) is the union of the regions that the two reported polygons have afterwards, and every other polygon contains the same points as before; after delete_segment with join or remove the region of the first reported polygon is the union of the former regions of both, and every other polygon contains the same points as before; with none and shape, after a segment is divided in a point of it, and after two segments in a line are joined, every polygon contains the same points as before. Points on segments are left out; a deleted segment with the same outer wire on both sides is left out unless it ends in a dendrite tip (C85).", "quantifier": "all drawings, all segments, all points off the segments", "why_tests_cant": "all shapes and a continuum of points", "anchors": ["src/bgem/polygons/decomp.py:178-247", "src/bgem/polygons/decomp.py:556-682", "src/bgem/polygons/polygons.py:258-280", "src/bgem/polygons/polygon.py: Polygon.contains_point"]}
{"id": "C174", "title": "transform turns and stretches about the center", "statement": "After transform(A|b, [s, h]) of a Z_Surface or GridSurface, center() is the middle of the quad given to the constructor moved by exactly b, with the Z value of the center of the Z surface moved by exactly h, for every regular matrix A, every scale s and whatever transforms came before; and the quad that GridSurface stores is that of its Z_Surface when the given quad is a parallelogram.", "quantifier": "all quads, surfaces, matrices, scales, shifts and histories of transforms", "why_tests_cant": "real-valued, all histories of transforms", "anchors": ["src/bgem/bspline/bspline.py:750-784", "src/bgem/bspline/bspline.py:917-922", "src/bgem/bspline/bspline.py:1092-1118", "src/bgem/bspline/bspline.py:1163-1164"]}
{"id": "C175", "title": "Flat tetrahedra are projected to the best plane", "statement": "The projection of the nodes of a tetrahedron in _check_flat_tetra with the normal from common_normal moves them least: for any four points in one plane the sum of the squared distances from the nodes is at least that of the projected nodes; the nodes of a tetrahedron in a plane are not moved.", "quantifier": "all tetrahedra, all planes, all points in them", "why_tests_cant": "all positions", "anchors": ["src/bgem/gmsh/heal_mesh.py:112-119", "src/bgem/gmsh/heal_mesh.py:669-675"]}
{"id": "C176", "title": "skew_line_dist is the distance of two lines", "statement": "For four nodes whose first and last edge are not parallel, skew_line_dist returns a unit vector normal to both edges and a number whose absolute value is the least distance of points of the lines through them, and this distance is attained.", "quantifier": "all nodes with edges that are not parallel", "why_tests_cant": "all positions, all pairs of points of the lines", "anchors": ["src/bgem/gmsh/heal_mesh.py:122-128"]}
{"id": "C177", "title": "Masses and centers of object sets", "statement": "have_common_dim of a nonempty set returns n exactly if all its entities have dimension n. center_of_mass returns the mass as second value; the center lies within any bounds of the centers of the entities, does not depend on their order, and the center of two sets together is the mean of their centers weighted by the masses. A set without mass gives 0, 0.", "quantifier": "all sets, masses and centers", "why_tests_cant": "all inputs", "anchors": ["src/bgem/gmsh/gmsh.py:632-640", "src/bgem/gmsh/gmsh.py:775-788"]}
{"id": "C178", "title": "get_childs lists polygons that fill the outer boundary", "statement": "In every drawing (as in C158) get_childs(q) returns existing polygons, and a point off the segments is inside the outer wire of q exactly if one of the returned polygons contains it.", "quantifier": "all drawings, all polygons, all points off the segments", "why_tests_cant": "all drawings, all points", "anchors": ["src/bgem/polygons/polygons.py:282-297", "src/bgem/polygons/polygon.py:45-52"]}
{"id": "C179", "title": "Intersection divides the regions of the polygons as the map tells", "statement": "Let D be made from an empty decomposition by intersect_single calls. After intersect_single(D, other) a point that is on no segment of the result was on no segment of D, and for each polygon p that D had before: Polygon.contains_point of p before was True exactly if contains_point of some polygon q of the result with maps_self[2].get(q, q) = p is True. Each such point is in a polygon of the result, and the values are polygons of D. Assumed: after each added segment points lie on segments only as ends, segments meet only in ends, and no segment passes the middle of another one nearer than eps (of contains_wire) times its length.", "quantifier": "all sequences of intersections, all decompositions, all points off the segments", "why_tests_cant": "all decompositions and all points of the plane", "anchors": ["src/bgem/polygons/merge.py:42-151", "src/bgem/polygons/polygons.py:258-280"]}
{"id": "C180", "title": "Later intersections keep the polygon maps right in the plane", "statement": "Let intersect_decompositions(ds) return (D, maps) for a list of other than one decomposition. For each i and each point x that is on no segment of D: if the polygon q of D contains x (contains_point is True), then the common decomposition right after the intersection with ds[i] had a polygon q1 that contained x, x was on no segment then, and maps[i][2].get(q) is the value that maps_other[2] of this intersection had at q1. So what the map tells of a place is not changed by the intersections with ds[i+1], ds[i+2], .... Assumed: as for C179 after each added segment.", "quantifier": "all lists of decompositions, all points off the segments", "why_tests_cant": "all lists of decompositions and all points of the plane", "anchors": ["src/bgem/polygons/merge.py:159-206", "src/bgem/polygons/merge.py:42-151"]}
{"id": "C181", "title": "attach_to_2d_curve accepts exactly the edges that end on the surface along the curve", "statement": "Edge.attach_to_2d_curve(t_range, curve, surface) with a curve and a surface made from B-splines returns, and adds the representation with these objects, exactly if for both ends of the range the curve can be evaluated to a pair (u, v), the surface can be evaluated there and each coordinate of the vertex is within 1e-8 + 1e-3 |value| of that of the surface. If the curve was not made from a B-spline nothing is compared.", "quantifier": "all curves, surfaces, ranges and vertices", "why_tests_cant": "all curves and surfaces", "anchors": ["src/bgem/bspline/brep_writer.py:897-910", "src/bgem/bspline/brep_writer.py:245-248", "src/bgem/bspline/brep_writer.py:326-330"]}
