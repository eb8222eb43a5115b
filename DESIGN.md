# Formal model of walnut in Lean 4: design

## Trusted base

* Lean 4.33.0's kernel, and Mathlib's definitions where a statement uses them (`Int`, `ℚ`, `List`, `Set`, ...).
* Axioms: only `propext`, `Classical.choice`, `Quot.sound`. `lean/Verif/Audit.lean` prints the axioms of every
  claimed theorem at build time.
* No own axioms, no `sorry`, no `native_decide`, no `bv_decide`. Concrete witnesses are evaluated by the kernel
  (`decide`, `decide +kernel`, `rfl`), and only to disprove a property or to show that hypotheses can be met.
* That the Lean definitions say what the C++ says. Each definition cites file and lines in `/repo`; where it
  simplifies, the comment says so.

## Conventions

* A 64-bit word is a `BitVec 64`. A `BigInt` is the list of its words, little endian, as in `BigIntWords`. The
  container invariant (at least one word) and canonical form ("trimmed") are explicit predicates. The meaning of
  a word list is an `Int`.
* Undefined behaviour, failing assertions, reads of uninitialised memory, null dereferences and accesses outside
  of a container are `none`. A theorem that a function returns `some` is a theorem that none of them happens.
* Higher layers use `Int` components. This is justified by the refinement theorems C01 to C10. The cases in
  which a BigInt operation is undefined (C06, C07, C10, C11) are kept: geometry functions that divide or take
  gcds are `none` there (`Geom/Num.lean`).
* Points of space are `Fin 3 → ℚ`; a homogeneous point denotes its quotient, a half-space its inequality, a
  Plücker line its set of points, a polygon the convex hull of its vertices. The specifications
  (`*/Spec.lean`) use these meanings and none of the algorithms.
* Pointers are identifiers in an explicit heap (`Util/`), or the path of the node they point into (`Bsp/`).
* Where the code violates a property, a negation theorem (`_false`, `_undefined`) with a concrete witness is
  proved, and a `_partial` theorem proves the property on the domain where it holds.
* Statements are in `Verif/Props/`, with non-vacuity examples beside them; models and lemmas are elsewhere.

## Properties

| Id | Property | What is modelled and how it is proved | Status |
|----|----|----|----|
| C01 | BigInt addition is exact | `BigInt` word-list addition; refinement to `Int` by induction on words | proved |
| C02 | BigInt subtraction and negation are exact | subtraction and negation; as C01 | proved |
| C03 | BigInt multiplication is exact | schoolbook multiplication, add-multiply, determinants; nested loop invariants | proved |
| C04 | BigInt comparison and equality agree with the integers | comparison of word lists and with machine integers; canonical forms are unique | proved |
| C05 | Equal BigInts hash equally | hash of the canonical word list; equality of values gives equality of lists | proved |
| C06 | BigInt increment and decrement are exact | in-place increment and decrement loops; witnesses and partial refinement | partial |
| C07 | BigInt division truncates and the remainder completes it | fast paths and slow path of DivideRemainder; refinement to `Int.tdiv`/`tmod` | partial |
| C08 | BigInt left shift multiplies by a power of two | shift left by bits and words | proved |
| C09 | BigInt max_value/min_value | max_value/min_value of a bit count | proved |
| C10 | BigInt absolute values | abs, GetAbs, GetUIntAbs | partial |
| C11 | Greatest common divisor | gcd loop by well-founded recursion on the value | partial |
| C12 | Decimal printing round-trips | printing loop with its buffer; digits denote the value | proved |
| C13 | Software word arithmetic equals the hardware one | 32-bit portable helpers equal the built-in ones for all words | proved |
| C14 | BigIntWords storage safety | heap of blocks and objects; invariant over all operation histories | proved |
| C15 | Unsigned long division | long division with normalisation; quotient digit estimate off by at most two | proved |
| C16 | Rational comparison | cross multiplication comparison against `ℚ` | proved |
| C17 | Rational rounding | rounding of a fraction to a new denominator | partial |
| C18 | Rotation order of 2D vectors is a strict weak order | rotation comparison of 2D vectors is a strict weak order | proved |
| C19 | Direction tests | same direction tests against positive multiples | partial |
| C20 | Homogeneous point equality is an equivalence | equality of homogeneous points against equality of quotients | proved |
| C21 | Lexicographic and topness orders of points | lexicographic orders against the order of quotients | partial |
| C22 | 2D twist direction | twist direction against the sign of the turn | partial |
| C23 | Planes through three points | half-space construction and comparison against the plane through the points | partial |
| C24 | Plane equality and the plane ordering used for sets | half-space equality and ordering against equality of the sets | partial |
| C25 | Ordering of 2D lines ignoring side | order along a Plücker line | partial |
| C26 | Line/plane and plane/plane intersection | Plücker line predicates against the set of points of the line | proved |
| C27 | Bounding box queries | bounding boxes against componentwise bounds | proved |
| C28 | Infinitesimal rotation comparison | comparison of the infinitesimally rotated axes as polynomial sign | proved |
| C29 | Splitting a convex polygon by a plane | split info and children for every convex polygon; region, vertices, convexity | proved |
| C30 | Split range search | both range searches for bitonic sign sequences | proved |
| C31 | Bounding box tracking through splits | tracker indices and box through build, rotate, split and merge; what SplitEdge and Invert leave of them | partial |
| C32 | Polygon area and centroid | projected area and centroid as exact sums | partial |
| C33 | Mesh centroid | volume centroid as sum over tetrahedra; independent of the apex for closed meshes | partial |
| C34 | Mesh extreme points | loop invariants over polygons and vertices | proved |
| C35 | Boolean filters compute the boolean operation | filters as expression trees; structural induction | partial |
| C36 | Filter pruning is sound | second component of filter results; structural induction, and invariants of trees | proved |
| C37 | Id-list boolean filters | id list filters | partial |
| C38 | Coplanar facet resolution emits exactly the boundary | plane_partitioner.h with fuel; specification: the stack of facets over a point, scanned outwards; induction over the recursion, cells in the plane, measure = unused edge lines for termination | partial |
| C39 | BSP content routing | node contents through add, push and split; invariants over histories | partial |
| C40 | BSP point winding number | winding number updates of a split (vertex, edge and polygon parts). Proof: the number at a leaf is a sum over the planes above it of the flow of the mesh through the facet of the cell in that plane; closedness makes the sum invariant under cutting in a different order and under moving the planes, so it can be evaluated at three planes around a ray, where it counts crossings | proved |
| C41 | BSP traversal is complete and balanced | traverser as a recursive function with a trace of visitor calls; induction on the tree; termination measure = planes of contents that are not yet split planes | partial |
| C42 | M log N estimator | estimator arithmetic | partial |
| C43 | Lowest cost split search | GetLowestCost as a fold over the event points with both estimators; invariant: the four counts are the numbers of polygons by event position, the best is the first minimum of the candidates so far. DiscountBorderPolygons, GetSplitPlane and GetCostExclude likewise. | proved |
| C44 | Event points are sorted and paired | MakeEventPoints over an array with any contents; the heap functions are arbitrary functions that keep the contract of the C++ standard; invariant over the heap and the finished events; specification EventsOk. | proved |
| C45 | Deeds track their target through moves | heap of deeds; invariant over all histories | partial |
| C46 | Redirectable values stay acyclic | redirect chains; termination and purity | partial |
| C47 | ConcatRange iterates the concatenation | linked iterators over ranges | partial |
| C48 | Monotone triangulation | stack machine of the triangulator; every step cuts ears off the remaining polygon, so the boundaries of the triangles telescope for every antisymmetric quantity; counter-clockwise by an invariant on the reflex stack | proved |
| C49 | Monotone decomposition preserves area | the pieces are built from the triangles of C48 by adding one vertex at a time; an invariant on the three corners touched by each addition gives the turns; witnesses where chains touch | partial |
| C50 | Orientation detection | `DetectOrientation` and `Build` of orienting_monotone_decomposer.h on lists; case analysis of the three exits (Mono/DetectProof.lean), then C49 for the two ways to call the decomposer | partial |
| C51 | Monotone range extraction | `Build` of monotone_range.h with iterators as indices; the chains are described by four indices (Mono/RangeProof.lean), from which order, shared ends, `Cut` and the exact condition for progress follow | partial |
| C52 | Planar range extraction | `Build` of planar_range.h with iterators as indices; the chains are described by the two indices that remain, coplanarity by the orientation determinant (Mono/PlanarProof.lean) | partial |
| C53 | Half-edge connection is symmetric | `ConnectEdgesInLine` over polygons as cycles of numbered edges; an invariant of the entries at a location relates the partners of edges, the partners of entries and the parts below the location, and holds through every split; a second invariant follows closed surfaces (order of entries = order around the line). `ConnectUnsorted`: the comparison is shown to compare direction, distance and begin, so that sorted lists fall into lines, and lines are connected by induction. Moves of edges in memory: a move to an object without partner renames an address | partial |
| C54 | Mesh repair keeps facet vertex order | `Fan`: how a facet is cut; sums of antisymmetric quantities over edges are those of the facet (facets of at most four vertices); witness of a closed mesh that is not closed afterwards | partial |
| C55 | Nudged planes contain the constrained vertices | plane through constrained points | partial |
| C56 | Extruded solids are closed | `Extrude` as a relation on top of the model of the polygon factory; C65 for each of the faces, cyclic sums over the sides (Mono/ExtrudeProof.lean) | partial |
| C57 | Polygon merging | model `TryMergePolygon` on edge lists; the turn tests at the two ends of the common edge are equivalent to convexity of the joined boundary (2D ring lemma), the result is a rotation of the joined edges with the straight vertices left out; regions and areas follow from convexity and from the antisymmetry of the boundary sum | proved |
| C58 | Polygon equality and inversion | vertex cycles up to rotation | partial |
| C59 | Exact double decomposition | mantissa/exponent decomposition of doubles as arithmetic on bit patterns | partial |
| C60 | Split plane choice favours the smallest mesh | scan of the contents as a fold over the index order of the code; the quarter turn plane over exact fractions; progress from the conservation theorem of C39 | partial |
| C61 | Reduce keeps the value and removes common factors | division by the gcd of components | proved |
| C62 | Projection and construction helpers | per function algebra | proved |
| C63 | Extreme vertex search | bisection on a bitonic sequence | proved |
| C64 | Edge coincidence pointers | boundary angle pointers along a path of splits; deepest and highest ancestors | proved |
| C65 | Convex polygon factory | the loops of convex_polygon_factory.h as inductive relations, because they need not end; sums over closed polygons through each stage (Mono/FactoryProof.lean); a piece goes down and then up in the monotone dimension (Mono/PeakedProof.lean), and together with its turns that makes it convex (Mono/Unimodal.lean) | partial |
| C66 | Mesh repair makes facets planar | invariant of the stored vertices: a vertex satisfies the planes it has been given (at most four vertices per facet, no vertex at infinity); witnesses for a stale plane, a vertex at infinity and the division by zero | partial |
| C67 | Mesh repair shares vertices | invariant of the vertex map: keys and canonical representations; the emitted polygons are a `Fan` of the facet | proved |
| C68 | Mesh repair leaves planar facets alone | planes through points of a planar facet contain the facet; intersections of planes through a point keep the point | proved |
| C69 | Intersection of a box and a plane | Model: Poly/Box.lean (parallelogram in the plane, cut by top and bottom with the modelled split). Proof: the parallelogram lies over a rectangle of the kept coordinates (Poly/BoxProof.lean), each cut keeps the points on one side by C29 (Poly/BoxCut.lean). Theorem: Props/BoxPolygons.lean. | partial |
| C70 | Walls of a box | Model: Poly/Box.lean. Proof: each wall lies over a rectangle (Poly/BoxWalls.lean). Theorems: Props/BoxPolygons.lean. | proved |
| C71 | Boolean operations produce the boundary of the described solid | Model: traverse (Bsp/Traverse.lean), filters, partitioner, pwn. Specification: Bsp/BoolSpec.lean (rays in general position), Props/Winding.lean (winding numbers), Props/Filters.lean (Inside). Proof: along a ray the winding numbers of leaves change only at facets; around each crossing the partitioner emits as many polygons facing each way as the value of the filter changes (Bsp/PartitionFace, TraverseRun, BoolPoint, BoolOutput); the changes telescope (BoolLine, BoolRay, BoolMain). Theorems: Props/Boolean.lean. | proved |
| C72 | Boolean operations produce a closed surface | Model: as C71. Specification: Props/ClosedOutput.lean (sidesOf, RunsThrough, edgesThrough). Proof: the winding number of the emitted polygons is the same on both sides of a line just beside the point, because the meshes have the same winding numbers there (Bsp/CellWinding) and C71; the crossings of a polygon change by its edges through the point when the ray is moved over it (Bsp/Jump); rays in general position exist on both sides (Bsp/MovedRay). Convexity from the invariant of emitted polygons (Bsp/Placed). | proved |
| C73 | Edges are connected where they meet | Model: Bsp/Visitor.lean (ConnState, connRun) on the calls of the traversal of C41. Specification: Props/Visitor.lean (EndsOf, runsIn, SameShape, ToTree). Proof: induction over the nesting of the calls (Bsp/Placed: which nodes are open when a polygon is accepted) with the invariant that the maps contain exactly the open nodes and that the edges pending for a node are those accepted since with it as highest coincident plane (Bsp/VisitorProof); edges with a common part have the same highest coincident plane once one of them is separated from the other (Bsp/VisitorMain); balance from C72. | partial |
| C74 | Collected polygons | Model: Bsp/Visitor.lean (CollState, collRun). Specification: Retained. Proof: the same induction (Bsp/CollectorProof). | partial |
| C75 | Results without redundant facets | Model: as C71. At a generic point x of a generic ray the emitted facets with a point z near x behind them are counted by `point_output`: one(value at z) - one(value beyond all facets that face z). The value beyond is the same from both sides (`winding_jump`), so the counts on both sides determine the sides of the set and vice versa. The internal double wall of touching solids is a computed witness. | partial |
| C76 | Merging facets keeps the mesh connected | Model Poly/MergeLinks: polygons with numbered edges, a partner map and an owner map; the assertions and null dereferences are `none`. Specification Poly/LinkSpec: `Linked` says that partners run between the same points in opposite directions and are mutual. One merge keeps the invariant and the covered area (`polygon_merged`), by splitting it into moving the edges (`moveAll_linked`) and merging the edges at both ends (`edge_merged`), which also shortens the partner polygon. The loop is an induction. Example: a box with a divided top. | partial |
| C77 | Walking around a vertex | Model `World.nextAround`. The next edge starts where the partner ends (`Linked`), the map is injective, and an injective map on a finite set is periodic. | proved |
| C78 | The border of a tree node | Model Bsp/Border on top of Bsp/Node and Poly/Box. The mapped tree is a reachable tree (C39) that is split along a path only (`Spine`); the polygons in it are the intersections of the planes with the box (C69). A polygon at a point strictly inside of the other planes cannot be in one of the other leaves, because it would be on the wrong side or face the wrong way (`not_facing`). | partial |
| C79 | The output of a boolean operation is connected | Model Conn/Calls on top of Conn/Plane, Bsp/Visitor and Bsp/Traverse. Around a generic point of an edge line the emitted facets alternate in direction (Bsp/Alternate: the boolean value on the two sides of a facet differs, and it is constant between neighbouring facets), so the edges of a call are closed around every line (Conn/CallClosed), which is the hypothesis of C53. Induction over the calls with the invariant that the edges of the remaining calls are untouched. With merging (Conn/MergeCalls): the calls are nested like the nodes of the tree (Bsp/Laminar), and a node above another one collects all edges on its plane that the other one did not; so two half-edges that the merging joins are connected in the same call or both already have partners (Poly/LinkPlan). The half-edges without partners are therefore made of original half-edges of the same call, lie over the same locations of their line and sort in the same way, so that a call still finds a closed surface around every line (Conn/MeshClosed). | partial |
| C80 | Results can be operands | No new model. The partner map of C79 is an involution of the half-edges that swaps their end points, so the returned facets are closed. On a ray in general position a merged facet is hit exactly if one of the emitted polygons it is made of is, and no two of them are, because emitted polygons of the same orientation do not overlap (C75); so merging keeps winding numbers, and C71 gives their values. Other rays and points on split planes follow by moving the point a little and from the independence of the ray (C40). C80_chain_partial puts the values into C71 for the second operation. | partial |
| C81 | Exported vertices agree | `Poly/Mapper.lean`: `Map`, on top of the redirectable values of C46 and `GetNextAroundVertex` of C77. `GetDoublePoint3` is an arbitrary function into a type with decidable equality. Invariant over all call sequences: two entries share a value exactly if they are in the same class of the equivalence that the pairs of points seen at one vertex generate. This holds for every merger that unites whole classes. For the merger of the VTK export (`a.Redirect(b)`) it holds if a vertex has at most two representations; with three it is false (`C81_redirect_false`, a pyramid over a pentagon). | partial |
| C82 | k-d splits of large nodes | `Bsp/KdSplit.lean`, `Bsp/KdSecondary.lean` and `Bsp/KdStrategy.lean`: the division of polygons and event points (`ApplyPrimary`, `ApplySecondary`), `BSPNode::Split(partition, ...)` and `SplitStrategy::Split`, with every assertion. The property is false: for two tetrahedra an assertion of `ApplySecondary` fails (`C82_assert_undefined`), and for three it returns event points in an order with which the next split fails (`C82_ties_undefined`); more fuel does not change a result (`Bsp/KdFuel.lean`). A split that succeeds from right event points gives the children of the ordinary split up to the order of the polygons (`C82_same_partial`): `Bsp/KdArc.lean` and `Bsp/KdRoute.lean` compare one polygon's way, `Bsp/KdLoop.lean` and `Bsp/KdStart.lean` carry an invariant through the loop of `ApplyPrimary`, and `Bsp/KdOrder.lean` compares the children. `Bsp/KdTraverse.lean` is the traversal with the strategy; `Bsp/KdReorder.lean` shows that splits do not depend on the order of polygons, and `Bsp/KdSim.lean` that the traversal makes the calls of one with ordinary splits (`C82_traverse_partial`), where the planes and the order of border polygons are read off the final tree. | partial |
| C83 | The VTK boolean filter | `Vtk/Model.lean` has the import, on top of the polygon factory (C47) and the conversion of doubles (C59), and the filter up to the export. The specification (`Vtk/Spec.lean`) only knows lists of rounded points: their sides, their convex hulls and how rays cross them. A strictly convex cell goes through the factory as one polygon with the same corners (C86), so the imported mesh has the closedness and the winding numbers of the cells; C80 for lists of ids then gives the result. Counterexamples for strips and for empty subtrahends. | partial |
| C84 | Conversion to floating point | `Float/Model.lean` has the conversions of `BigInt` to `double` and `long double`, and `GetDoublePoint3`, with the rounding as a parameter. `Float/Spec.lean` defines formats, their numbers (`Has`) and rounding to nearest; `Float/Instance.lean` shows that such a rounding exists for every format. Error bounds are proved for the two or three words that the conversions read (`Float/Convert.lean`, `Float/BigInt.lean`), then for the quotient. | partial |
| C85 | Exported mesh | `Vtk/Export.lean` has the export on top of the mapper (C81). The specification (`Vtk/ExportSpec.lean`) only knows points, cells and their sides. The invariant of the mapper gives one number per class of vertices; numbering and dereferencing compress the chains of redirections, but never change which object is reached (`Vtk/ExportProof.lean`). Cells are closed because partner edges reach the same two objects. Counterexample with a pyramid. `Props/ExportRun.lean` combines this with C83. | partial |
| C86 | Convex polygons come out of the factory unchanged | Of a strictly convex polygon the planar range and the monotone range take everything: along the monotone dimension the corners go up once and down once (`Mono/ConvexCell.lean`). The triangulator and the decomposer then emit one piece with all vertices (`Mono/ConvexPiece.lean`, induction along the chains with the invariant that all cross products so far have the same sign), and the factory keeps its orientation (`Mono/ConvexFactory.lean`). The specification (`StrictlyConvex` in `Vtk/Spec.lean`) only says that any three corners in order have the same orientation. Counterexample with a rectangle of area `2^63`. | partial |
| C87 | Iterating over a transformed range | model the iterator as a position and a transformer value; induction over the list of operators | partial |
| C88 | Points of doubles as hash table keys | model equality and hash of three doubles; cases on finite, infinite, NaN | partial |
| C89 | The polyhedron of a tree node | model GetNodeBorder; coverage by C39 and the spine of the path, and that a skipped plane is a positive multiple of a wall; the traversal by the specification of Run for C41, where each facet changes the value of the xor filter | partial |
| C90 | Size of a box | model the corners and the diagonal of a box with real square roots; compare with the Euclidean distance | partial |
| C91 | Reduced points are usable as hash table keys | model the hash and the strict equality of points over the words of the coordinates; use the uniqueness of the shortest representation and of the reduced form | proved |
| C92 | Conversion of integers to machine integers | model the accessors over the words; compare with remainders of the represented integer | proved |


## Disagreements between code and property

Found while proving, each with a machine-checked witness unless it says otherwise:

* `BigInt::operator++/--` are wrong at some word boundaries (C06_increment_false, C06_decrement_false).
* `a += a` for a `BigInt` outside of the half word range reads words it has already overwritten (C01_self_add_assign_undefined).
* Division of the minimum integer by -1, and `abs` of it, overflow (C07_false, C10_abs_false); gcds can hit
  this (C11_undefined), and so can everything above: same direction tests, half-space constructors, box division
  (C17_false, C19_false, C23_false, C24_eq_false, C32_area_undefined, C61_*_undefined).
* Assertions inside of the long division fail on valid input (C07_debug_false, C15_debug_false).
* HomoPoint2 order and twist ignore the signs of denominators (C21_plane_false, C22_false).
* `HalfSpace3Compare` merges different planes (C24_set_false); the Plücker line order breaks for straight down
  normals (C25_false).
* Inverted filters answer "outside" for an id beyond the content vector (C35_filter_false); the subtract filter
  for id lists reads id 0 (C37_subtract_false).
* The estimator's documented accuracy does not hold (C42_split_cost_false).
* `BigIntWords::resize(n, init)` never shrinks (C14_resize_init_shrink_false); a moved-from object is unusable
  (C14_moved_from_unsafe). `GenericDeed::Lend` breaks the deed invariant (C45_generic_lend_false).
* Redirect of a value that was compressed away is not seen (C46_history_false).
* `ConcatRange`'s `operator+`, `operator[]` and iterator-pair `Prepend` are wrong (C47_plus_false,
  C47_prepend_iterators_false).
* Polygon equality ignores the data of the first edge, an empty polygon is not equal to itself (C58).
* The indices of the bounding box tracker are stale after `Invert` and `SplitEdge` (C31). If an inverted polygon is split, the box of a child can miss one of its vertices, and the child is then put on the wrong side of a plane (`C31_invert_split_false`).
* Adding a mesh with a new id after a split is out of bounds (C39_new_id_undefined); adding a mesh with a known
  id after splits leaves wrong winding numbers in deeper nodes (C40_late_content_false).
* C38: for the symmetric difference (XOR) of solids with coincident facets, both facets are emitted although nothing of the boundary is there (`C38_xor_false`).
* C41: border polygons that `Run` pushes into an interior node without interior polygons are never visited (`C41_late_border_false`): a mesh facet added to the root of a split tree with `AddRootContent` is lost if it lies in a split plane.  `PushContentsToLeaves` has the same kind of early exit.
* C60: `PickSplitPlane` never considers the polygon just before the middle of the list, so a mesh with a single facet in the node can be missed (`C60_false`).
* C49: a piece of `MonotoneDecomposer` can turn against its declared orientation when the two chains share a vertex other than their ends (`C49_touch_false`, `C49_flat_false`). `Get2DTwistDir(...) * orientation_` (monotone_decomposer.h 129-132) overflows `int64_t` when a cross product is exactly -2^63 and the orientation is -1 (`C49_undefined`: a rectangle of 2^32 times 2^31).
* C51: `MonotoneRange::Build` consumes nothing when the second, last, first and second last vertex are strictly ordered in the monotone component (`C51_progress_partial`, `C51_stuck_false`: a simple quadrilateral). `ConvexPolygonFactory::Build` calls it in a loop until the range is empty, and so never ends on this input.
* C50: `DetectOrientation` can take the bottom chain for the top one if the chains start with a common segment (`C50_overlap_false`) or in opposite directions perpendicular to the monotone dimension (`C50_vertical_false`, a simple polygon). Its last assertion can fail on allowed chains (`C50_assert_false`).
* C52, C65: a polygon whose last vertex repeats the first one gets the zero plane, and `ConvexPolygonFactory` emits nothing for it (`C52_closed_false`, `C65_closed_false`).
* C65: `ConvexPolygonFactory::Build` does not return for the simple quadrilateral (3,3), (0,0), (-3,5), (0,1): `MonotoneRange::Build` consumes nothing (`C65_terminates_false`).
* C65: for a square with a notch the factory emits the whole square and the notch with the opposite normal, so the pieces are not a partition (`C65_partition_false`).
* C65: for the simple hexagon (2,3), (3,2), (1,0), (0,2), (1,1), (2,2) the factory emits a polygon that is not convex, because three vertices are at the same height (`C65_convex_false`).
* C56: `Extrude` returns a surface without caps if the last vertex of the cap repeats the first one (`C56_closed_false`); the faces of a cap can have an edge that the neighbouring faces have as two edges (`C56_edges_false`); it runs forever on the quadrilateral of C65 (`C56_terminates_false`).
* C59: `HomoPoint3::FromDoubles` is documented to round to multiples of 2^min_exponent, but a positive `min_exponent` has no effect (`C59_grain_false`).
* C55: `NudgingPlaneBuilder::HasLargePlane` caches the plane; a constrained vertex accepted afterwards is not in the plane that `Build` returns (`C55_stale_false`). Three collinear vertices make `Build` divide by zero (`C55_collinear_undefined`).
* C54 (mesh_plane_repairer.cpp 116-126, mesh_plane_repairer.h FinishFacet): the vertices accepted from the end of a facet are appended in the order they are visited, that is in reverse. With two or more of them the polygon is twisted and a closed mesh is not closed any more (`C54_order_false`).
* C66 (mesh_plane_repairer.cpp 106-129): HasLargePlane fixes the plane by unconstrained vertices; a constrained vertex accepted later does not belong to it (`C66_stale_false`). Three planes with a common direction move the vertex to infinity (`C66_infinite_false`). A facet that starts with three collinear vertices divides by zero (`C66_collinear_undefined`).
* C53: the header of `EdgeLineConnector` says that with an open polyhedron as many half-edges as possible are connected. `ProcessEndEvents` puts the partner of an ending edge into `need_partners_` twice (edge_line_connector.h 421 and 423). If it finds no new partner it is processed twice at the same location: `error` is called twice, and `SplitEdge` is called twice with the same point, which violates its assertions (release builds insert an edge of length zero). Theorem `C53_open_undefined` has a concrete input.
* C53: move assignment of a half-edge to its own partner makes both their own partners (`C53_move_assign_partner_false`). No call in the library does this.
* `AABB::IntersectPlane` of a flat box can return a polygon with repeated vertices (box (0,0,0)-(2,0,2), plane x = 1; `C69_flat_false`), and the default (empty) box meets the plane x = 0 in a square (`C69_empty_box_false`).
* C71: polygons of a symmetric difference that have the described set on their outer side are emitted as they are and not reversed, so the output is not an oriented boundary; the symmetric difference of a solid with itself emits facets twice in the same orientation, with winding number 2 inside (`C71_xor_false`). The parity is right (`C71_parity`).
* C33: `GetCentroid` is undefined for some meshes with negative vertex denominators: the gcd of the running least common multiple -(2^63+1) and a denominator product -2^63 computes `-2^63 % -1` (`C33_undefined`).
* C73/C74: `ConnectingVisitor::Accept` and `CollectorVisitor::Accept` handle the pointers `edge_first_coincident`, `vertex_last_coincident` and `edge_last_coincident` of edges that point to planes of the partitioner, but not `edge_created_by`. After the traversal the pointer dangles in output polygons (C73_created_by_false, C74_created_by_false: a patch that coincides with a part of a face). `operator<<` of BSPEdgeInfo dereferences it, so that printing an output polygon can read freed memory.
* C75: where two solids touch in a facet, their union keeps this facet twice, once for each orientation, as a wall inside of the union (bsp_node.h 640-655: facets of different orientation become border polygons of different leaves, and each leaf decides for its own). `C75_wall_false` is the witness; the winding numbers of the result are right (C71), but the result is not the boundary of the union as a set.
* C76: `ConnectedEdge::Merge` (connected_polygon.h 197-210) uses `partner_->partner_` whenever the next edge has a partner, without checking that this edge has one. If only the next edge has one, a null pointer is dereferenced. If only this edge has one, the merged edge is longer than its partner, so that the two are linked although they do not run between the same points. Both happen when facets of an open mesh are merged.
* C78: `GetNodeBorderNoBoundWalls` asserts that each split plane on the path meets the box (bsp_tree.h 225, 230), although a plane that misses the box simply contributes no border there.
* C81: the VTK export merges double representations with `a.Redirect(b)`. If `a` is not a primary, only `a` is redirected, and its former primary and the other representations merged with it stay behind. With three representations of a vertex of degree five (the test `ThreeRepsExist` shows that three exist) two edges around one vertex can be exported as different points, so that the exported mesh has a crack (`C81_redirect_false`). Redirecting `a`'s primary would be right (`C81_primary`). The comment of `ValueMerger` ("Afterwards one of the redirectable values should point to the other") does not exclude the wrong merger.
* C82: `ApplySecondary` asserts at the beginning of each round that the current event is the first at its location (polygon_event_point.h 823). If the events of a polygon on the split plane are skipped (825-845), another event follows at the same location and events of the heap are due first, the next round starts inside of the location, and the assertion fails (`C82_assert_undefined`: two tetrahedra). Without assertions this is harmless.
* C82: `ApplySecondary` handles the starts in the heap before the main events of a location. The start of a divided polygon can therefore come before the start and the end of a polygon perpendicular to the axis at the same location. `DiscountBorderPolygons` takes every start in front of the split event at its location for a polygon in the split plane, so that it counts one polygon too many there, and `ApplyPrimary` leaves a default constructed polygon in both children; its assertions fail (`C82_ties_undefined`: three tetrahedra).
* C82: `Run` on the children of an interior node uses the default bound of six polygons (bsp_traverser.h 171-172), so that -1, which is documented to disable the k-d strategy, has no effect on a tree that was split before. `std::pop_heap` is called after the first element was changed (polygon_event_point.h 953-977), which the standard does not allow; the model lets it move the first element to the end and make the others a heap.
* C83: `VTKToWalnutMesh` imports a triangle strip as copies of its first triangle: the loop reads `input_vertices[j]` instead of `input_vertices[i + j]`, and `(i & 0) ^ flip` was probably meant to be `(i & 1) ^ flip`. The VTK filter returns nothing for a difference in which the last input is empty, because `SubtractIdsFilter` treats an id that no polygon has as covering everything.
* C84: `HomoPoint3::GetDoublePoint3` divides two `long double`s; if numerator and denominator exceed their range the result is NaN, even if the coordinates are small (`C84_overflow_false`, for the point (1, 1, 1) written with the denominator 2^32768). Where `long double` is the same as `double`, points made from tiny doubles become the origin (`C84_tiny_false`).
* C85: the crack of C81 is visible in the exported mesh: the surface of a closed pyramid is not closed after `SaveWalnutMeshToVTK` if its apex has three double representations (`C85_hole_false`). `C85_double_hole_false` gives coordinates for which this happens with 80 bit `long double`s; with numerators and denominators below 2^64 it does not (`C85_double_partial`).
* Read, not proved: `vtkPoints::New()` stores single precision numbers unless told otherwise, so the exported coordinates are rounded once more, and different points of the mesh may become equal.
* C86: for a strictly convex polygon with four or more vertices in which the homogeneous cross product of three vertices is `-2^63`, for example a rectangle of `2^32` by `2^31`, `ConvexPolygonFactory::Build` multiplies `-2^63` by `-1` in 64 bit integers.
* `TransformIterator`: `it + n`, `it - n`, `it++` and `it--` return an iterator whose transformer is default constructed (C87). With the transformer of the VTK import this reads through a null pointer. The functions of walnut that receive such iterators only use `++it` and `--it`.
* `DoublePoint3::GetHash` hashes `x` three times instead of `x`, `y` and `z` (double_point3.h 18-20), so that all points of a plane x = c collide (C88). This costs time only; equal points still have equal hashes.
* C89: `GetNodeBorder` asserts that each split plane on the path that is not a wall meets the box (bsp_tree.h 144, 153), although the box may be wholly inside of the node.
* C90: `AABB::GetDiagonalLength` divides the numerator of the squared length by the denominator instead of its square (aabb.h 169). The result is too large by the square root of the denominator (`C90_actual`, `C90_too_large`).
* C91: the comment on `ReducedHomoPoint3Hasher` (homo_point3.h 244-245) says that only exactly equal points have the same hash. Distinct points can have the same hash (`C91_only_equal_false`); a hash table tolerates this.
* Noticed, not proved: `DivideRemainder` with `remainder_out` aliasing the divisor; `AABB::GetDiagonalLength`
  divides by the denominator instead of its square; `DoublePoint3::GetHash` uses x three times.

## What is modelled

* big_int.h, big_int_words.h, big_uint.h, big_uint_word.h, big_int.cpp: all arithmetic, comparison, shifting,
  division, printing, hashing and storage, with the portable word helpers. Not: `operator double` rounding, stream
  flags.
* rational.h, vector2/3, point2/3, homo_point2/3, half_space2/3, plucker_line, aabb (construction,
  containment, borders, plane side), r_transformation.h. Not: the mutable
  variants with the same formulas.
* convex_polygon.h (split info, splitting, searches, area, centroid, equality, sorting, inversion, SplitEdge),
  aabb_convex_polygon.h, convex_polygon_split_info.h, mesh.h (centroid, volume, extreme points).
* bsp_visitor.h and boolean_operation_filter.h filters; bsp_node.h, bsp_polygon.h, bsp_edge_info.h (contents,
  counters, pushing, splitting, winding number updates; the cost functions as listed in the table).
* deed.h, redirectable_value.h, concat_range.h, the estimator.
* plane_partitioner.h: all of `PlanePartitioner` (Bsp/Partition.lean); its free list of vectors is not modelled.
* bsp_traverser.h: `BSPTraverser::Run`, `RunLeaf`, `VisitLeaf`, `ProcessPolygonsOnPlane` (Bsp/Traverse.lean); the split strategy is a parameter, the multimap's order is a parameter.
* bsp_node.h: `PickSplitPlane`, `PickQuarterTurnSplitPlane`, `GetCostExclude` (Bsp/Pick.lean); `std::nth_element` is a parameter with the contract of the standard.
* `monotone_triangulator.h`: all of `Build`, `ProcessVertex` and `SwitchChains`. `monotone_decomposer.h`: `Build` and `EmitTriangle`; the virtual calls are collected in lists. `MonotoneDecomposer::Build` is modelled for an object in the state it is in after construction and after each `Build`.
* monotone_range.h: all functions (Mono/Range.lean).
* orienting_monotone_decomposer.h: all functions (Mono/Orient.lean).
* planar_range.h: `Build` (Mono/Planar.lean).
* convex_polygon_factory.h: both `Build` functions and `EmitOriented` (Mono/Factory.lean), as relations between the input and the emitted polygons.
* extrude.cpp: `Extrude` (Mono/Extrude.lean), as a relation.
* double.h `Decompose` on bit patterns; homo_point3.cpp `FromDoubles`, `FromDoublesExact`, `SafeShiftLeft` (Util/Double).
* nudging_plane_builder.h/.cpp: all of `NudgingPlaneBuilder` (Repair/Nudge).
* mesh_plane_repairer.h / .cpp: AddVertex, HasVertex, AddFacet, GetNextPlanarRange, FinishFacet, TryAddAdjacent, Finalize, FinalizeVertices, ProducePolygons (`Repair/Mesh.lean`). The unordered map is an association list; the visitor's polygons are collected in a list.
* polygon_event_point.h: `PolygonEventPoint::GetLocation`, `MakeEventPoints`, `GetLowestCost`, `DiscountBorderPolygons`, `GetSplitPlane`; `BSPNode::GetCostExclude` (Bsp/Events). The `std` heap functions are parameters with the contract of the C++ standard (Bsp/EventsSpec, `HeapOk`); Bsp/SortHeap has an instance.
* `Poly/Merge`: `ConvexPolygon::TryMergePolygon`, `TryMergeEdge` (convex_polygon.h 598-731) and `ConvexPolygonEdge::CanMerge`/`Merge` (convex_polygon_edge.h 146-150, 193-196); `CanMerge`, `Merge` and `EdgeMoved` of the parent class of the edges are arguments.  The recomputation of the bounding box is in `Poly/TrackMerge`.
* `Conn/Model.lean`: `ConnectedEdge` (polarity, locations), `SplitEdge` with its assertions, and all of `EdgeLineConnector::ConnectEdgesInLine` with `ProcessEndEvents`, `ProcessNeedPartners`, `MaybeSplitEdge` and the comparison of `ActiveEdgeKey` (edge_line_connector.h 170-520). `pop_heap` and `push_heap` are parameters that meet the standard's requirements (`HeapOk`); `std::map` is a list in key order whose `emplace` fails (is undefined) if comparisons are contradictory. `Conn/Move.lean`: the move operations of `ConnectedEdge` and the sequence of moves of `vector::insert` and `vector::erase`.
* edge_line_connector.h: `EdgeCompare`, `SortEdgesInPlane` (the result of `std::sort` is any function with the properties the C++ standard states), `FindNextLineStart`, `ConnectSorted`, `ConnectUnsorted`
* `Poly/Box.lean`: `AABB::IntersectPlane` (aabb.h 180-250), `AABB::GetWalls` (aabb.cpp 5-71), the vertex constructor of `ConvexPolygon` (convex_polygon.h 82-93). Debug assertions of the constructors are not modelled.
* connecting_visitor.h 76-121 and 162-220 (Bsp/Visitor.lean): the maps of open nodes and depths, which edges are collected for which node, the cleared pointers; the calls of the connector are recorded. bsp_visitor.h 238-318: CollectorVisitor.
* Merging linked polygons (Poly/MergeLinks): `TryMergePolygon`, `TryMergeEdge`, `CanMerge`, `ConnectedEdge::Merge`, `MergeConnectedEdge`, `EdgeMoved`, `GetNextAroundVertex` and the merge loop of `LeaveInteriorNode`, on polygons whose edges are identified by labels. Recursion between a polygon and the partner polygon is bounded by two levels, as in the code, where the second level has a null link.
* bsp_tree.h 213-261 `GetNodeBorderNoBoundWalls` (Bsp/Border). `GetNodeBorder` (119-192) up to the early return (Bsp/CellBorder), and the calls that its visitor receives (163-209, Bsp/CellBorderRun); how the visitor connects what it accepts is not modelled there.
* The calls of the edge connector during a traversal (Conn/Calls): connecting_visitor.h 162-191, on a net made of the accepted facets. The merging that follows each call (194-214) is in Poly/MergeLinks and Conn/MergeCalls.
* Conn/MergeCalls.lean: `ConnectingVisitor::LeaveInteriorNode` (connecting_visitor.h 162-214) with both of its parts, connecting and merging, and `FilterEmptyPolygons` (59-65). The two parts use different representations of the facets (`Net` and `World`); the translations `toNet` and `ofNet` are not in the code. All polygons are taken as accepted before the first call; in the code the polygons below a node are accepted before the node is left.
* `VertexDoublePoint3Mapper::Map` (vertex_double_point3_mapper.h 58-86) and the loop and merger of the VTK export (walnut_to_vtk_mesh.h 49-62) in `Poly/Mapper.lean`. Not modelled: `GetDoublePoint3` (a parameter), NaN keys, the VTK classes, the values (only which object holds them).
* `PolygonEventPointPartition::ApplyPrimary` and `ApplySecondary` (polygon_event_point.h 492-1097) in `Bsp/KdSplit.lean` and `Bsp/KdSecondary.lean`, `SetAdjacentBoundaryAngles` (bsp_polygon.h 195-221), `BSPNode::Split(partition, ...)` (bsp_node.h 69-95), `SplitStrategy` (bsp_traverser.h 17-138) in `Bsp/KdStrategy.lean`, `Run` and `RunLeaf` with the strategy (bsp_traverser.h 146-206) in `Bsp/KdTraverse.lean`. Not modelled: that vectors of event points are reused; they start with arbitrary contents instead.
* `VTKToWalnutMesh` (vtk_to_walnut_mesh.h 17-115) and the part of `vtkWalnutBooleanFilter::RequestData` up to the export (vtkWalnutBooleanFilter.cpp 28-107) in `Vtk/Model.lean`. A `vtkPolyData` is a list of points and lists of cells.
* `BigInt::operator double`, `operator long double` (big_int.cpp 43-86), `BigUIntWord::operator double` (big_uint_word.h 571-577) and `HomoPoint3::GetDoublePoint3` (homo_point3.h 171-179) in `Float/Model.lean`. Floating point numbers are rationals, infinities and NaN; each operation is the exact one followed by a rounding function, about which the theorems only assume that it rounds to nearest (`Nearest`, Float/Spec.lean). The sign of zero is not modelled.
* Both overloads of `WalnutToVTKMesh`/`SaveWalnutMeshToVTK` (walnut_to_vtk_mesh.h 34-127) in `Vtk/Export.lean`: the mapping of the vertices, the numbering of the primary values in the order of the hash map (any permutation), and the cells. Not modelled: the VTK classes, the rounding done by `vtkPoints`.
* `Util/TransformIter`: `TransformIterator` (transform_iterator.h); the input iterator is a position in an array, the transformer an arbitrary value with a call operator.
* `Poly/TrackMerge`: `AABBConvexPolygon::TryMergePolygon` (aabb_convex_polygon.h 224-235).
* `Float/Hash`: `DoublePoint3::operator==`, `operator!=`, `GetHash` (double_point3.h 16-30); `std::hash<double>` is an argument.
* `Poly/VertexIter`: `ConvexPolygonVertexIterator` (convex_polygon_vertex_iterator.h), `vertices_begin`, `vertices_end` (convex_polygon.h 156-162).
* `Geom/BoxMore`: the constructors of `AABB` from two points and from a radius, `IsOnBorder(Point3)`, `min_point`, `max_point`, `GetSquaredDiagonalLengthNumerator` and, with real numbers instead of doubles, `GetDiagonalLength` (aabb.h 19-21, 53-67, 130-140, 164-170).
* `ReducedHomoPoint3Hasher`, `HomoPoint3StrictEq` (homo_point3.h) and `HashArray` (mesh.h) over the words of the coordinates (`Geom/Key.lean`).
* `BigInt::low_uint32`, `low_uint64`, `ToInt` (`BigInt/Narrow.lean`); `Point3::Get2DTwistDirReduced`, `CompareComponent`, `IsEquivalentComponent` (`Geom/PointMore.lean`).
* Not modelled: the VTK classes, the parts of the VTK interface that are not named above, file formats, timing, memory consumption, multithreading (the library has none).

Copy elision: a function returning a local object by value is modelled as returning that object (needed for
`BigUInt <<` and deeds).

## Testing the theorems

`seeded/LOG.jsonl` lists wrong variants of model definitions and the theorems that then fail to build.
