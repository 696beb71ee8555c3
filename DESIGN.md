# Formal model of GeoMop/PyBS (bgem) in Lean 4

## Layout

`lean/Verif/<Area>/` holds one area of the code. In each area

* `Model.lean` transcribes the Python functions, branch by branch; each definition cites file and lines in /repo;
* `Lemmas.lean` holds helper lemmas;
* `Props.lean` holds the property theorems (the deliverable) with non-vacuity examples beside them, and the few
  specification notions that the statements need and that do not come from the model.

## Trusted base

* Lean 4.33 kernel, and the axioms `propext`, `Classical.choice`, `Quot.sound` only (checked by `vcheck` for each theorem).
* The reading of the Python source: the model is written by hand and is not extracted; the code was not run.
* Numbers: Python `float`/numpy `float64` values are modelled as elements of an arbitrary linearly ordered field
  (or exact rationals / reals where decidability or calculus is needed). Rounding, overflow, NaN and signed infinities
  are not modelled, so every theorem about numbers is about exact arithmetic.
* Python `int` is `Int`/`Nat`, `dict` is a finite map given by a list of pairs or a function to `Option`, mutation is
  state passing, exceptions are values of `Except`/`Option`.
* Aliasing: objects compared by identity in Python are modelled by ids.
* External libraries (gmsh, OCC, numpy.linalg, scipy, matplotlib) are parameters: theorems quantify over what they return.

## Findings

Places where the code does not do what a caller expects, found while the model was written. Those with a property id have a theorem
(a computed witness or a general negation) named in MANIFEST.json; the others were read off the source.

Planar decomposition (decomp.py)
* `_split_wire`, outer case: an inner wire with a dendrite becomes its own parent; deleting an inner segment then raises KeyError.
* `_split_wire` gives new parents only to polygons at the inner wire; deeper ones keep the old parent.
* `join_segments` never updates the vector of the kept segment, sets the segment of a wire to the wrong side when the orientations
  differ, and loses the entry of the pair of points when they are already connected.
* `new_segment` accepts a vector longer than 1e-10 for which the assertion in `insert_vector` can fail.
* `_new_wire` and `_rm_wire` report that no polygon changed; `split_segment` and `join_segments` leave the last report as it was.
* `Polygon.depth` counts nesting twice and does not end for a wire that is its own parent.
* `check_consistency` line 127 uses `seg` for `sg`, line 115 is a comparison without assert, and a wire whose parent was removed is
  accepted (C142). It fails after the deletion of some bridges (C140).
* A free point can be registered in a removed polygon; `_get_child_passed` is read before it is set outside of `get_childs`.

Frontend (polygons.py)
* `seg_intersection` misses overlaps and crossings near the ends; `is_on_x_line` depends on the direction of the segment.
* `move_points` does not update the lookup tables; an emptied table returns all rows, then `_snap_point` raises KeyError.
* `merge_points` raises AttributeError when the displaced point has no attribute; when it may not move, a gap stays.
* `add_line` returns a point when both ends snap together; `add_point` repeated at a tie gives a second point.
* `check_displacment` of a free point is always true, and a triangle can be turned over through an end point.
* `_add_segment` undo removes a segment that existed before; a split does not update the box of the old part.
* `_snap_point` imports a module that does not exist in its failure branch.

Intersection (merge.py)
* Polygons in holes get no value (C53, C129), because the search follows outer wires only.
* A decomposition without segments, or with points nearer than the tolerance, ends with AssertionError (C53).
* The tolerance is not set back after an exception; two crossings at the same parameter replace each other in `line_division`.

Geometry and approximation
* `convex_hull_2d` fails for points on a vertical line, a hull of two points is not closed, `min_bounding_rect` fails for one point.
* `bilinear_surface` with an overhang misses the corners unless the quadrilateral is a parallelogram; `error` is a signed maximum;
  weights of the quadrature sum to 2 in each direction, the energy has a factor 4; without points the system is singular.
* brep: `Approx.plane` changes its argument.

Intersections of surfaces (isec)
* Convergence uses `<=` and the exit `<`; the last step is never checked; `max_it = 0` raises UnboundLocalError.
* `IsecCurveSurf.get_intersections` uses attributes that are never set; `CurvePoint` calls a method that does not exist;
  `_free_point` is a static method called with one argument, so `IsecSurfSurf.get_intersection` never returns.
* `_unconnected_patch_points` drops the result of `union`; a singular Jacobian ends the whole search.

gmsh wrapper
* `set_unique_name` can give equal names; `_region_names` is stale after a rename; a default argument of `rectangle` is changed;
  `make_rectangle` is a bow tie; `keep_only` and `make_polygon` do not mark the model as changed; `threshold` uses lower for upper.

Healing of meshes (heal_mesh.py)
* `Tetrahedron.smooth_grad_error_indicator` has two entries of `e_faces` swapped, so it depends on the order of the nodes; a regular
  tetrahedron gets about 0.898 (C136). `flat_indicator` of a tetrahedron is twice the ratio of its documentation (C137).
* `gmsh_gamma` raises for a flat tetrahedron with nodes on a circle (C134); `_check_flat_tetra` raises when the crossing is near the
  end of an edge (C131), instead of leaving the element to the other checks.
* `_abs_node_tol` is computed from the ids of the nodes, not from their positions.
* The comment of `vtxs_faces` says that a face has the index of the opposite node; it is 3 minus the index.

## Trusted base per area

* Gmsh: results of the library are arbitrary; only the bookkeeping of the wrapper is modelled.
* Approx: the sparse solver is exact, no weights, `splprep` arbitrary. Isec: solver and box tree arbitrary, norms by squares, a step may
  give no number.
* Brep text: the reader is written after the description of the Open CASCADE BREP format; `Fmt` stands for `format` of Python numbers
  and assumes that its texts are words and can be read back.
* Front: iteration order of sets arbitrary, recursion bounded by a number, undo functions are not run.
* Merge: `Log` is a ghost value that records the run; the theorems assume of it that no line crosses two segments at the same parameter
  and no two wires are each other's parents, both decidable for a given run.

## Plan per property

- **C01 Undo and redo walk the exact history of document states**: Undo/Model: stack with two lists, receiver, savepoint over an abstract document; actions are (do, undo) partial functions. Refinement to a history zipper; induction over op lists.
- **C02 A new action discards the redo list, and nothing else does except clear or an error**: Same model; direct theorems on append/undo/redo for every state.
- **C03 A failing undo or redo empties the history and propagates**: Same model, error branch of undo/redo.
- **C04 A group is undone as one unit in reverse order**: Groups as actions built by running a list of actions with the receiver redirected; induction over the list.
- **C05 Groups nest and survive exceptions**: Model enter/exit with receiver as a tagged reference; negation witnesses for nesting and exception; partial theorem for un-nested, non-raising groups (C04).
- **C06 haschanged() tells whether the document differs from the last savepoint**: Negation witness (undo, other action); partial: histories of undo/redo only after the savepoint.
- **C07 undocount()/redocount() equal the number of possible undos/redos**: Negation witness for redocount, positive theorem for undocount.
- **C08 Switching recording off does not lose consistency**: Model of receiver = None; theorems on append/undo in that state.
- **C09 IdMap ids are unique, dense and never collide**: IdMap model as key list + free list + next id; invariant by induction over ops.
- **C10 Removing an object and appending again reuses the same id**: Same; last-in first-out algebra on the allocator state.
- **C11 Box lookup reports exactly the overlapping boxes**: AABB model: array of rows, growth by doubling, infinity constant as parameter; refinement to a finite map id -> box.
- **C12 Box lookup never misses the nearest object**: Exact rational arithmetic with squared distances; completeness theorem under positive box size, witness for the degenerate case.
- **C13 Box lookup returns only live objects**: Negation witness; partial: when at least one live box is nearer than infinity.
- **C14 make_aabb encloses its points**: Pure function on point lists; min/max characterisation.
- **C15 B-spline basis is a partition of unity**: Cox-de Boor recursion over an ordered field (knots as Nat -> K or list), induction on degree.
- **C16 Basis functions are non-negative with local support**: Same recursion, induction on degree.
- **C17 find_knot_interval locates the interval of t**: searchsorted model (count of knots <= t) on the inner knots; list induction.
- **C18 Clamped splines interpolate their end poles**: Evaluate recursion at the clamped ends.
- **C19 The fast degree-2 evaluation equals the general recursion**: Unfold both for degree 2 and field_simp.
- **C20 pack_knots and make_from_packed_knots are inverse**: List model of both functions; induction on runs.
- **C21 make_equidistant makes a valid basis**: List model of make_equidistant; index arithmetic.
- **C22 Curves and surfaces stay inside the bounding box of their poles**: Convex combination bound from C15/C16; per-span version from local support.
- **C23 make_linear_poles reproduces the identity**: Greville/Marsden identity for degree >= 1; witness for shifted domains.
- **C24 Patch ids and patch positions are in bijection**: Nat div/mod.
- **C25 eval_diff is the derivative of eval**: Derivative of the recursion via HasDerivAt over the reals (or formal polynomial pieces).
- **C26 Z_Surface xy and uv maps are mutually inverse**: 2x2 matrix algebra over a field.
- **C27 GridSurface evaluations agree with each other**: Model both z transforms; negation witness and partial for scale 1.
- **C28 MSH ASCII write/read round trip**: Token/line level model of writer and reader state machine; induction over sections; guard as decidable predicate; witnesses outside guard.
- **C29 MSH element data round trip**: Same machinery for ElementData.
- **C30 Node/element incidence stays consistent during healing**: Mesh as finite maps; invariant by induction over ops.
- **C31 Merging nodes leaves a valid mesh**: Same model; post-condition of merge_node.
- **C32 Healing allocates fresh ids**: Monotone counters as part of the invariant.
- **C33 The heal loop terminates and re-checks every modified element**: Work-list model with arbitrary check function; termination measure and witness for the lost recheck.
- **C34 Quality histogram counts every element once**: List model of the histogram.
- **C35 BREP shape numbering is a bijection**: DFS on a finite DAG, visited ids; invariant on the numbering.
- **C36 BREP references are valid and point forward**: Postorder invariant: children are numbered before parents; flip n+1-id.
- **C37 Writing a model twice gives the same file**: Refuted for every model: after a write all reachable ids are set, so the search is a no-op.
- **C38 A wire is flagged closed exactly when every vertex has even degree**: Parity fold over the edge list.
- **C39 Knot and matrix validators accept exactly the valid inputs**: Decision functions with iff theorems.
- **C40 Half-edge links stay consistent under every topological operation**: Half-edge state with links, proved invariant Links (circular lists at every point) over all calls: Prim, Links, Make, Add, Del, Sub, Run; stated in Props.
- **C41 Adding then removing a segment restores the topology**: Equality of links after inverse calls via unhook (a segment left out of the circular order); wires compared through closed walks. Negative results for vectors and nesting.
- **C42 Segment lookup by end points is exact**: Table of end points is part of the invariant (TableOk).
- **C43 Projection on a segment finds the nearest point**: Quadratic minimisation over an ordered field (Verif/Plane/Line.lean).
- **C44 Segment intersection is correct**: 2x2 solve over an ordered field, eps parameter (Verif/Plane/Line.lean).
- **C45 Ray-crossing test decides inside/outside**: Sign analysis over an ordered field, subdivision lemma, parity of crossings along a closed walk (Verif/Plane/Ray.lean, Wire.lean).
- **C46 Wire nesting stays a forest**: Rank function as witness of acyclicity, kept by set_parent; enumeration by induction on the rank (Nest).
- **C47 Object sets keep one region per entity**: Heap of object sets with arbitrary library results; invariant over all histories (Gmsh/Lemmas, Run), concatenation (Heap).
- **C48 Splitting an object set is a partition**: Loop invariants for dictionaries of lists (Gmsh/Split).
- **C49 Fragmenting and cutting keeps regions**: Loop over slices of the tags map with invalidation (Gmsh/Heap).
- **C50 Regions get unique ids and names**: Counter and name map invariants (Gmsh/Run); suffix injectivity and ranks for the names (Groups); counterexample run (Demo).
- **C51 Threshold field honours its upper bound**: Recorded settings, general refutation (Gmsh/Field).
- **C52 Option objects reject unknown options and wrong types**: State machine of OptionsBase with recorded calls (Gmsh/Options).
- **C53 Merging decompositions composes maps**: Verif/Merge: model of merge.py on top of Verif/Front; run over lists as stages; composition of dictionaries by induction; negation by computed runs.
- **C54 Surface fit matrix columns index the right poles**: Sparse items as a list (Approx/Fit.lean); row by row equality with the spline model of the evaluated surface, Nat arithmetic on flattened indices.
- **C55 convex_hull_2d returns the convex hull**: Model `convex_hull_2d` with the recursive `dome` over an ordered field (Approx/Hull.lean). Induction on the recursion: every step keeps the hull and all points right of each edge. Refuted for points on a vertical line.
- **C56 Plane and bilinear surfaces interpolate their corners**: Evaluation of the quadratic Bernstein forms on the whole domain (Approx/Simple.lean). Bilinear surface with overhang: exact formula, refuted unless a parallelogram.
- **C57 Newton intersection stays in its cell and reports honest convergence**: Newton loop with an arbitrary solver (Isec/Newton.lean); induction on the turns; local formula of the spline on closed cells (Isec/Local.lean). Equality witness in Isec/Demo.lean.
- **C58 Surface points on patch interfaces list exactly the adjacent patches**: Isec/Points.lean: flags and neighbours for bases on [0,1]; general refutations on other domains.
- **C59 A deep copy of a surface is the same surface**: State equality of the copied record with the original, evaluation for all parameters.
- **C60 A blank line in an MSH file does not hide data**: Line level reader model; text with a blank line inserted.
- **C61 Z_Surface bounding box encloses the surface**: Convex combination bound of the z poles and affine image of the unit square; exact arithmetic.
- **C62 get_copy gives a surface with its own transform**: Heap with a shared z surface; both directions separately.
- **C63 make_full_surface is the same surface**: Marsden identity (C23) for the xy poles, z poles unchanged.
- **C64 apply_z_transform changes no point**: Algebra of the affine z map applied to poles, partition of unity.
- **C65 The node tolerance of healing is relative to the mesh size**: Model of the tolerance as a function of the node table; shown independent of positions.
- **C66 Healing a valid mesh does not raise**: Witness run of the healing loop ending in an exception.
- **C67 Triangle quality is a number from 0 to 1**: Real analysis of the quality formula.
- **C68 Flat triangles are projected to their longest edge**: Quadratic algebra over the reals.
- **C69 The location given to write_model places the model**: Compare two runs of the writer that differ in the location only.
- **C70 Shapes can be shared by several models**: Search from a new root whose children are saturated.
- **C71 Writing a model keeps the geometry given by the caller and writes no other**: Induction principle over the steps of the search (Steps).
- **C72 write_model succeeds on models of three and four sided faces**: Totality by induction over depth, measure = rank of the shape class.
- **C73 A face is made exactly from closed boundaries**: Decision function with an iff theorem.
- **C74 Edges go from their first to their second vertex**: Heap of reference objects; fold over edge constructions.
- **C75 Composed locations can be read back**: Token list and the reader of the Open CASCADE format.
- **C76 Implicit geometry joins the vertices**: Evaluation of the quadratic Bezier forms, attached to the search by a relation between states (Geo) proved by induction on the depth.
- **C77 Wires are exactly the closed walks of links**: Second invariant Wires (every wire is one closed walk) over sound calls: Wires, WiresRun.
- **C78 Numbers of points, segments, wires and polygons satisfy Euler's formula**: Counting identity as part of the invariant, each call changes the four numbers in step.
- **C79 Free points are registered in exactly one polygon**: Part of the invariant (Free); a run with a point in a removed polygon refutes one part.
- **C80 Stored segment vectors are the differences of the end points**: Induction over runs (Vec), negative result for joins.
- **C81 join_segments keeps the first sides of wires**: General negative theorem: hypotheses describe the joined segments, conclusion is a wrong stored side.
- **C82 Segments around a point are linked in clockwise order**: Invariant Fan: clockwise neighbours by angle, with abstract insert/remove lemmas on circular order (Fan, FanRun).
- **C83 insert_vector finds the corner that contains the vector**: The loop of insert_vector finds an ascent of the turn function; with the invariant Fan the ascent is the corner of the vector.
- **C84 Adding or deleting a segment changes only its own links**: Case analysis of new_segment and delete_segment, each case reduced to splice or unsplice of the circular order.
- **C85 Nesting of wires is kept by delete_segment**: Concrete rational runs checked in the kernel (Demo).
- **C86 get_childs gives the polygons inside a polygon**: Follows from the enumeration of C46.
- **C87 Polygon depth is the number of polygons around it**: Loop over parents with fuel; value for chains and for the self-parent state.
- **C88 Each region of a mesh is one physical group of exactly its entities**: Dictionary invariants and rename loop by ranks in the sorted ids (Gmsh/Groups).
- **C89 split_by_cut separates object, tool and common pieces**: Dictionaries of pieces with any order of set iteration (Gmsh/Ops).
- **C90 select_by_intersect and remove_small_mass select entities with their regions**: Filter specifications (Gmsh/Ops).
- **C91 Boundary per region gets one region of one dimension less**: Loop invariant over the sets of split_by_region (Gmsh/Ops).
- **C92 Queries and meshes see the current geometry**: Kernel and model entities with the synchronization flag (Gmsh/Sync).
- **C93 Basic shapes have simple closed boundaries**: Incidence of lines and loops for all tags; crossing of the diagonals (Gmsh/Shapes).
- **C94 rectangle can be called repeatedly**: The list argument as state (Gmsh/Shapes).
- **C95 Box, constant and restricted fields cover the right places**: Recorded settings and their meaning (Gmsh/Field).
- **C96 min_bounding_rect returns a rectangle around all points**: Model the loop over edges in Approx/Rect.lean over the reals. Show that rotation keeps distances, that the box contains all points, and that the loop keeps the least area. RectMin.lean turns a rectangle that touches four single points until two points are on one side; the area does not grow, and then a hull edge is parallel to that side, so the least area over the edges is the least of all.
- **C97 The surface fit has exactly one solution**: The form of the regularization matrix is a sum of squares cell by cell (Approx/Reg.lean); its kernel is the constants; finite dimension gives existence (Approx/Solve.lean).
- **C98 The fitted surface is the best one**: Completion of the square for a symmetric nonnegative form (Approx/Solve.lean).
- **C99 The reported error bounds the deviation of every point**: Refuted: the maximum is signed; witness for every basis (Approx/Solve.lean).
- **C100 Points of the quad are kept with their parameters**: Inverse of the 2 x 2 matrix and the snap to the unit square (Approx/Result.lean).
- **C101 The fitted Z surface has the solved values over the points**: C54 together with the Z surface model (Approx/Result.lean).
- **C102 Default numbers of intervals**: Real square root and floor (Approx/Result.lean).
- **C103 The regularization term is the energy of the surface**: Exactness of the four point formula for degree 4; basis functions and their derivatives are polynomials on a cell; integrals split by cells (Approx/Energy.lean).
- **C104 curve_from_grid joins the end points**: End values of a clamped spline curve with overwritten end poles (Approx/CurveGrid.lean).
- **C105 Regions by names: modify_regions, set_region_from_dimtag, make_fractures**: The dictionary of names only grows (Gmsh/Names.lean); induction on the loops; digits of numbers have no underscore, so the names of entities differ.
- **C106 Main curves lie on their surface**: Isec/Main.lean: poles of the curve are the inner products of one row of patches; closed-interval local formula since the patch before the knot is used.
- **C107 Every reported surface-surface crossing is genuine, and the search completes**: Isec/Main.lean: invariant over the five nested loops; every point added comes from C57 and C106.
- **C108 The entry points of the intersection classes return**: Isec/Main.lean: every path ends in a call with a missing argument or attribute.
- **C109 Patch point lists hold exactly the points of each patch**: Isec/Points.lean: induction over the points; refutations in general form.
- **C110 The Jacobian is the derivative and Newton is exact on affine data**: Isec/Jac.lean: derivatives of the local formulas; Cramer's rule; first Newton step is exact.
- **C111 The surface-surface search reports every crossing that Newton finds**: Isec/Complete.lean: every loop element is visited in a state where set entries of crossing are places of reported points.
- **C112 Every state of the frontend is a valid decomposition**: Front/Trace.lean: every call is a sequence of the five primitive methods, each a valid call of the decomposition.
- **C113 The box tables mirror the points and segments**: Front/Mirror.lean: invariant Mirror between the decomposition and the histories of both tables, kept by each primitive method; move_points refuted in Front/Demo.lean.
- **C114 add_point snaps to a near point**: Front/Snap.lean from the mirror and the completeness of closest_candidates (C12).
- **C115 New free points keep their distance**: Front/Snap.lean, snapPoint_spec and addPoint_cases.
- **C116 New points on segments**: Front/Snap.lean, snapPoint_spec and addPoint_cases.
- **C117 add_point is idempotent**: Front/Snap.lean; counterexample on the axis of two segments in Front/Demo.lean.
- **C118 add_point works after deletions**: Front/Snap.lean: general refutation from closest_on_emptied_table.
- **C119 A new line is divided exactly where it crosses segments**: Front/Line.lean: loop invariant over the crossed segments, then the chain built by newSegs; witness line_divided_run.
- **C120 add_line returns a chain of segments from the first point to the last**: positive part by C119; three runs of the model that refute the general claim.
- **C121 check_displacment allows only moves without collisions**: Front/Displace.lean: exactness of around and wireAll gives soundness for the envelope; general refutation for free points, witness for a triangle turned over.
- **C122 merge_points keeps the point with the smaller id**: Follow the two branches of mergePoints; the ids of points stay well formed through the rebuilt segments (prims_good), so the removal takes the id out.
- **C123 last_polygon_change reports what happened to the polygons**: proved from the nesting invariant of runs whose deletions of bridges leave the wires placed: effects of the six helpers on the polygon of every side, compared with the reported change.
- **C124 Polygons, outer wires and holes stay consistent**: invariant `Nested` (links, wires, tree, free points, nesting) kept by each call; the cut of a wire and the union of two wires are treated as abstract steps on the parent relation (NestCore, Bridge). Deletion of a bridge: the two parts are not connected (Jordan), so the wires inside each part are the components with their own outer wire.
- **C125 Intersection divides the segments of the first decomposition**: Verif/Merge/Lift: invariant with the parameter interval of each part, kept by point insertion, split and new segment.
- **C126 Intersection keeps the polygons of the first decomposition**: Verif/Merge/Lift: sides of parts; uses the proved meaning of last_polygon_change (C123).
- **C127 Segments of the second decomposition become ways in the result**: Verif/Merge/Trail: ways up to gaps shorter than the tolerance, kept because marked segments are never divided.
- **C128 Polygons at segments of the second decomposition get the polygon of that side**: Verif/Merge/Mark: each value is justified by a piece at the polygon; a split of a polygon passes its value on and both sides are set again.
- **C129 Search for the values of the other polygons**: Verif/Merge/Fill: number of polygons without value bounds the turns; closure and soundness invariants of the stack.
- **C130 Assertions of the intersection that cannot fail**: Verif/Merge/Props: from the effects of split_segment and the truth of the reported change.
- **C131 Cases of a flat tetrahedron**: Geometry over an ordered field with a unit normal n; the products w_i of face normals with n sum to zero and weight the flattened nodes to zero, which gives the crossing or the barycentric coordinates; lstsq modelled by its exact solution on the largest minor.
- **C132 Flattening of a tetrahedron**: Direct computation.
- **C133 Volume of split tetrahedra**: Multilinearity of the determinant.
- **C134 Quality gamma of tetrahedra**: Crelle's formula for x_area by the vector of the centre, inequality of Euler by the plane areas (Cauchy-Schwarz against each outer normal), case of equality by all normals being parallel to the centre vectors.
- **C135 Gradient quality of triangles**: Schur's inequality for the squares of the edges.
- **C136 Gradient quality of tetrahedra**: Refuted by a corner tetrahedron in two orders and by a regular one.
- **C137 Ratios of edges and altitudes**: Areas of the faces against the volume; the factor 2 for tetrahedra is part of the theorem.
- **C138 Accepted sequences of points are grids**: Model of the constructor over real numbers; errors of the steps added along a path from the last corner that avoids the two unchecked steps at the first point.
- **C139 Grid surfaces pass through their points**: Row end, corners, regularity and the linear map computed for an exact grid; values at the nodes by the piecewise bilinear form of C27.
- **C140 check_consistency accepts the states of runs**: Decomp/Check.lean: the asserts as a program with its exceptions; the invariants of NestedProps give every assert. Fails after the deletion of a bridge that leaves a wire as its own parent.
- **C141 What an accepted decomposition has**: Decomp/Check.lean: no invariant is used, only the asserts; walks by induction.
- **C142 Defects that check_consistency should find**: Decomp/Check.lean: refuted by concrete states.
- **C143 is_dendrite is true exactly for bridges**: Decomp/Jordan.lean: darts as permutations (next, rotation, opposite side); counting cycles gives a discrete Jordan theorem: the genus of each component is 0, so the two sides of a segment are in the same cycle exactly if its removal separates its ends (Genus.lean).
- **C144 Euler's formula with the number of components**: from the same count of cycles and the Euler invariant of C78.
- **C145 Deletions in a drawing without closed polygons keep the nesting**: Decomp/Keep.lean: the wire of a bridge is then a hole of the outer polygon; the parts are placed.
- **C146 The written BREP text says exactly what the model is**: Brep/Text: the writer at the level of characters, a reader of the format as a parser of words; Brep/TextProps: writer text splits into the expected words, each reader inverts its writer, induction over records; Brep/TextModel: the records made by write_model fit the format.
- **C147 Every kind of shape has the name the format gives it**: Brep/TextModel: the word 'Cs' is not one of the kinds, so the reader fails at the first such record, for every file.
- **C148 B-spline curves and surfaces keep their geometry in the BREP records**: Brep/FromBs: constructors with their checks; the packed knots unpack to the same basis (C20).
- **C149 attach_to_3d_curve accepts exactly the edges that end on the curve**: Brep/FromBs: np.allclose and the attach functions; the values at the ends of the domain are the end poles (C18); a translation makes the relative tolerance exceed any distance.
- **C150 A decomposition is rebuilt from the segment lists of its polygons**: Model make_wire_from_segments, make_polygon and set_wire_parents (Decomp/Load); simulation between the decomposition and the part of the copy made so far (Decomp/Reload); breadth first search by induction on the wires without parent and the queue, using that wires beside each other are in one hole (Decomp/Hang).
- **C151 The lists of wire.segments() are good input for make_polygon**: Refuted by a reachable decomposition with three segments (Decomp/ReloadProps).
- **C152 make_wire_from_segments links only sides that meet**: Loop lemma for closed walks (Decomp/Load); refuted for open ones by a run (Decomp/ReloadProps).
- **C153 undo and redo of the decomposition restore points, segments and their links**: General theorem on the stack of undo.py with an equivalence of documents and an invariant instead of equality (Undo/Rel); the operations of decomp.py respect and invert an equivalence of decompositions, and links are determined by fans (Decomp/Same, Decomp/Short); put together for the methods of polygons.py (Front/Undo). Concrete program in Front/UndoDemo.
- **C154 add_point, delete_segment and delete_point are undone by undoing their steps**: The calls are traced as sequences of undoable calls that meet the conditions of C153 (Front/Undo).
- **C155 undo restores everything that later calls depend on**: Refuted by four programs (Front/UndoDemo).
- **C156 Points, deletions and open lines keep the drawing planar**: Planarity of the state (Decomp/Planar) is kept by new points, divided segments, new segments that meet others only in points, and deletions. The loop of add_line keeps it (Front/Line, field plan), and each piece of the line meets the drawing only in its ends (Front/Plan).
- **C157 add_line keeps the drawing planar**: Refuted by a free point on the line (Front/PlanDemo).
- **C158 The polygons of a drawing divide the plane**: Crossing numbers of rays with wires (Plane/Count, Ray, RayInd): constant along free paths, changed by one across a segment. Invariant `Tiled`: points beside a side are in the wires on the way from its polygon to the root and in no others. Kept by each step: Plane/Divide, DivideRun (split), Merge (join of wires and polygons), TiledDel, TiledSplit, Tiling. Every point off the segments sees a side or is outside of all wires (Plane/Where). Concrete drawing in Plane/TilingDemo.
- **C159 Free points are listed in the polygon that contains them**: Field `reg` of `Tiled` (Plane/Tiled), kept by each step; needs that contains_point of the new wire separates the free points of a split polygon.
- **C160 The polygon of a side contains the points beside it**: Field `good` of `Tiled`: points seen from a side are exactly in the chain of its polygon.
- **C161 Points not separated by segments are in the same polygon**: Crossing number along a free path (Plane/RayInd): vertices above or below the ray change sides in pairs.
- **C162 new_segment between free points never fails its polygon assertion**: From C159 and C161.
- **C163 After calls of the frontend the polygons divide the plane**: Invariant Tiled (polygons right beside every side) through the frontend: points by the result of _snap_point, crossings by splitting, pieces of a line one by one since a part of a planar drawing is planar; deletions as in C158, of connections inside a polygon as in C172. Concrete runs in Front/HomeDemo.
- **C164 After calls of the frontend free points are in their polygon**: Same invariant; free points off the segments have the polygon of their place.
- **C165 Valid calls on a drawing raise nothing**: Each step of a call is shown to return: the assertions follow from the ring, wire and nesting invariants (Nested), the gap found by insert_vector and the same polygon at both ends follow from the drawing invariant (Tiled); the walks of the two parts of a split wire are closed (Decomp/TotalBridge). Cases: returns_case, hole_bridge_case.
- **C166 Valid frontend calls raise nothing**: Each call is followed step by step: box tables mirror the live ids (Good), so lookups succeed; the decomposition calls return by C165; for lines the loop over the crossings is shown to leave free pieces between consecutive points, each long enough; near two segments the assert of _snap_point follows from their directions. Cases: house_returns, islands_returns, spire_returns.
- **C167 A point added in an acute corner keeps away from the second segment**: The parameter of polygons.py:395-408 solves a linear equation for the signed distance; the assert gives the bound for the whole segment. Case: add_point_far.
- **C168 add_point returns a point near x**: Triangle inequality over the cases of _snap_point and _point_on_segment; a run refutes the general statement.
- **C169 Polygon.vertices runs counterclockwise**: Signed crossings of a rightward ray with the sides of a wire: unchanged along paths that meet no segment (the changes telescope around the closed walk), changed by one across a side; ray induction from far away with the sides of Good. The statement uses the winding number of a closed polyline only. Case: fullDrawing_vertices.
- **C170 Polygon.depth counts the wires around a polygon**: The chain of parents of the outer wire is the set of wires that contain a point of the polygon. Case: fullDrawing_vertices.
- **C171 Wire.neighbors is symmetric**: The walk of a wire lists exactly the sides labelled with it; the other side of a segment is labelled. Case: fullDrawing_vertices.
- **C172 Removing a connection inside a polygon leaves the regions of the polygons**: Plane/BridgeDel.lean, Plane/HolePlaced.lean: the parity counts of the two parts add up to the count of the wire; the parts do not contain each other, by following the boundary of the removed segment from one part to the other and ray induction; so the tests of contains_wire hand each inner wire to the part it is connected with. Case: hole_bridge_case, two triangles in a square.
- **C173 Regions of the polygons change as last_polygon_change tells**: Plane/Regions.lean: every point off the segments has exactly one polygon before and after the call; by the lemmas behind C158 the polygon after a division is a part of the polygon before, and after a removal the merged one; the reported polygons are the two of the lemmas by the sides of the segment. Cases: Plane/RegionsDemo.lean.
- **C174 transform turns and stretches about the center**: ZSurf/Center.lean: from the two theorems of C26 on transforms at the point (1/2, 1/2) and at the corners. Case: center_case.
- **C175 Flat tetrahedra are projected to the best plane**: Heal/Best.lean: the sum of squared products with the six edges is four times the sum of squared distances from the mean plane; any other plane is worse by the least property of the normal, and points in a plane are at least as far as the plane. Case: flatten_best_case.
- **C176 skew_line_dist is the distance of two lines**: Heal/Best.lean: the normal component is constant along both lines, and the points at which the connection is normal to both lines are given. Case: skew_case.
- **C177 Masses and centers of object sets**: Gmsh/Mass.lean: the loop is a pair of sums. Case: center_case.
- **C178 get_childs lists polygons that fill the outer boundary**: Plane/Childs.lean: a point is in exactly one polygon and inside exactly the wires above its outer wire; get_childs lists the polygons of the wires below the outer wire of q. Case: childs_case.
- **C179 Intersection divides the regions of the polygons as the map tells**: Merge/Regions.lean: points and divisions keep the regions (pointOn_parts), each new segment divides a region as last_polygon_change tells (C173), and the map gets the value of the divided polygon. Case: regions_squares.
- **C180 Later intersections keep the polygon maps right in the plane**: Merge/RegionsAll.lean: C179 along the intersections of the list (stages_regions) and the composition of the maps (Composed). Case: regions_all_case, two squares that overlap and a third in the common part.
- **C181 attach_to_2d_curve accepts exactly the edges that end on the surface along the curve**: Brep/Attach2.lean: cases of the two checks (evalCheck2_ok). Case: attach2_case, the diagonal of a square.
