{"id": "C01", "title": "BigInt addition is exact", "statement": "For any two BigInts a and b, a + b (and a += b for two distinct objects) is the BigInt whose mathematical value is the sum of the values of a and b; no word overflow is ever lost and the result is in canonical (trimmed) form.", "quantifier": "all pairs of canonical BigInts of any number of words", "why_tests_cant": "carry chains of unbounded length and every combination of operand lengths and signs", "anchors": ["include/walnut/big_int.h: BigInt::Add, operator+=, operator+, Trim", "src/walnut/big_int.cpp"]}
{"id": "C02", "title": "BigInt subtraction and negation are exact", "statement": "For any two BigInts a and b, a - b (and a -= b for distinct objects) has value(a) - value(b), and -a / Negate() has value -value(a), always in canonical form, including at the minimum value of every word count.", "quantifier": "all canonical BigInts of any length", "why_tests_cant": "unbounded operand lengths; boundary cases at every power 2^(64k-1)", "anchors": ["include/walnut/big_int.h: BigInt::Subtract, operator-=, operator-, Negate"]}
{"id": "C03", "title": "BigInt multiplication is exact", "statement": "For any two BigInts a and b, a * b has value(a) * value(b) and is canonical, whichever of the half-word, one-word, or schoolbook paths is taken.", "quantifier": "all pairs of canonical BigInts", "why_tests_cant": "three code paths and unbounded operand sizes", "anchors": ["include/walnut/big_int.h: BigInt::Multiply, AddMultiply, SubtractMultiply", "src/walnut/big_int.cpp: MultiplySlow"]}
{"id": "C04", "title": "BigInt comparison and equality agree with the integers", "statement": "For all BigInts a, b the operators ==, !=, <, <=, >, >=, Compare, LessThan(flip,..), GetSign, IsZero, HasSameSign return exactly what the corresponding comparison of the mathematical values returns; two canonical BigInts are == iff their values are equal.", "quantifier": "all pairs of canonical BigInts", "why_tests_cant": "infinitely many values; equality depends on the representation being unique", "anchors": ["include/walnut/big_int.h: Compare, operator<, operator==, LessThan, GetSign"]}
{"id": "C05", "title": "Equal BigInts hash equally", "statement": "If two BigInts produced by the library have equal value then GetHash returns the same number for both.", "quantifier": "all pairs of canonical BigInts", "why_tests_cant": "hash consistency is a relation over all value pairs", "anchors": ["include/walnut/big_int.h: GetHash"]}
{"id": "C06", "title": "BigInt increment and decrement are exact", "statement": "++x yields value(x)+1 and --x yields value(x)-1 in canonical form, for every BigInt x.", "quantifier": "all canonical BigInts", "why_tests_cant": "fails only at values 2^(64k-1)-1, -2^(64k-1)-1, 2^(64k-1) and so on", "anchors": ["include/walnut/big_int.h: operator++, operator--"]}
{"id": "C07", "title": "BigInt division truncates and the remainder completes it", "statement": "For every a and every nonzero b, a / b is the quotient truncated towards zero, a % b has the sign of a with |a % b| < |b|, and a = (a/b)*b + a%b.", "quantifier": "all a and all b != 0", "why_tests_cant": "long division over unbounded lengths with an approximated quotient digit", "anchors": ["include/walnut/big_int.h: DivideRemainder, operator/, operator%", "src/walnut/big_int.cpp: DivideRemainderSlow", "include/walnut/big_uint.h: DivideRemainder, DivideRemainderSlow"]}
{"id": "C08", "title": "BigInt left shift multiplies by a power of two", "statement": "a << s has value(a) * 2^s and is canonical for every BigInt a and every shift s.", "quantifier": "all canonical BigInts and all shift amounts", "why_tests_cant": "unbounded value and shift", "anchors": ["include/walnut/big_int.h: operator<<, operator<<="]}
{"id": "C09", "title": "BigInt max_value/min_value", "statement": "BigInt::max_value(n) is 2^n - 1 and BigInt::min_value(n) is -2^n, canonical, for every n.", "quantifier": "all n", "why_tests_cant": "unbounded n with a word boundary at every multiple of 64", "anchors": ["src/walnut/big_int.cpp: BigInt::max_value, BigInt::min_value"]}
{"id": "C10", "title": "BigInt absolute values", "statement": "abs()/GetAbs()/GetUIntAbs() return the mathematical absolute value of every BigInt.", "quantifier": "all canonical BigInts", "why_tests_cant": "fails only at the single value -2^63", "anchors": ["include/walnut/big_int.h: abs, GetAbs, GetUIntAbs"]}
{"id": "C11", "title": "Greatest common divisor", "statement": "a.GetGreatestCommonDivisor(b) is the mathematical gcd (non-negative, divides both, every common divisor divides it) and terminates for all a, b.", "quantifier": "all pairs of integers", "why_tests_cant": "termination and maximality over all integers", "anchors": ["include/walnut/big_int.h: GetGreatestCommonDivisor"]}
{"id": "C12", "title": "Decimal printing round-trips", "statement": "Writing any BigInt to an ostream produces the decimal numeral of its value: reading the digits back gives the value, there is no leading zero, a minus sign iff negative, and the digit buffer never overflows.", "quantifier": "all canonical BigInts", "why_tests_cant": "all lengths; buffer bound must hold for every size", "anchors": ["src/walnut/big_int.cpp: operator<<(ostream)"]}
{"id": "C13", "title": "Software word arithmetic equals the hardware one", "statement": "The portable 32-bit-limb implementations of 64x64->128 bit multiply, signed multiply, multiply-add, highest set bit and trailing zero count return exactly the same result as the mathematical definition (and so as the compiler builtins).", "quantifier": "all 64-bit words", "why_tests_cant": "2^128 input pairs", "anchors": ["include/walnut/big_uint_word.h: Multiply, MultiplyAdd, MultiplySigned, GetHighestSetBitUnaccelerated, GetTrailingZerosUnaccelerated"]}
{"id": "C14", "title": "BigIntWords storage safety", "statement": "Along any sequence of constructions, copies, moves, assignments, resizes and destructions of BigIntWords objects, no heap block is freed twice, no block is owned by two objects, no block is leaked, and every access through a non-moved-from object is within the allocated capacity.", "quantifier": "all histories of operations over any number of objects", "why_tests_cant": "histories are unbounded", "anchors": ["include/walnut/big_int_words.h: BigIntWords"]}
{"id": "C15", "title": "Unsigned long division", "statement": "BigUInt DivideRemainder returns floor(a/b) and a mod b for every a and every b > 0, of any length, in particular the inner 30-bit-at-a-time loop terminates and needs only one final correction.", "quantifier": "all a, all b > 0", "why_tests_cant": "quotient digit estimation errors occur on a vanishing fraction of inputs", "anchors": ["include/walnut/big_uint.h: DivideRemainderSlow, DivideRemainder"]}
{"id": "C16", "title": "Rational comparison", "statement": "rational::IsLessThan and rational::Equals (and CompareComponent/IsLessThanComponent of homogeneous points) return the comparison of the represented rational numbers for all numerators and all nonzero denominators, of either sign.", "quantifier": "all numerators and nonzero denominators", "why_tests_cant": "all sign combinations and unbounded size", "anchors": ["include/walnut/rational.h: IsLessThan, Equals", "include/walnut/homo_point3.h: CompareComponent"]}
{"id": "C17", "title": "Rational rounding", "statement": "rational::RoundUp / RoundDown with a new denominator return the smallest / largest numerator whose quotient by the new denominator is >= / <= the given rational.", "quantifier": "all numerators, all nonzero denominators, all positive new denominators", "why_tests_cant": "sign and divisibility corner cases over all integers", "anchors": ["include/walnut/rational.h: RoundUp, RoundDown"]}
{"id": "C18", "title": "Rotation order of 2D vectors is a strict weak order", "statement": "IsRotationLessThan orders nonzero vectors by counter-clockwise angle from the x axis: it is irreflexive, transitive, with transitive incomparability, and two vectors are incomparable exactly when they point in the same direction; IsHalfRotationLessThan does the same for directions modulo 180 degrees.", "quantifier": "all nonzero integer 2D vectors", "why_tests_cant": "std::map/std::sort need the order axioms for all triples", "anchors": ["include/walnut/vector2.h: IsRotationLessThan, IsHalfRotationLessThan, IsSameDir", "include/walnut/rational.h: IsHalfRotationLessThan"]}
{"id": "C19", "title": "Direction tests", "statement": "IsSameDir, IsOppositeDir, IsSameOrOppositeDir on 2D and 3D vectors hold exactly when one nonzero vector is a positive, negative or nonzero multiple of the other.", "quantifier": "all nonzero integer vectors", "why_tests_cant": "universally quantified real multiples", "anchors": ["include/walnut/vector2.h", "include/walnut/vector3.h"]}
{"id": "C20", "title": "Homogeneous point equality is an equivalence", "statement": "HomoPoint3 == holds iff both points denote the same rational point, for nonzero denominators of either sign; it is reflexive, symmetric and transitive.", "quantifier": "all points with nonzero w", "why_tests_cant": "transitivity over all triples", "anchors": ["include/walnut/homo_point3.h: operator=="]}
{"id": "C21", "title": "Lexicographic and topness orders of points", "statement": "HomoPoint3::LexicographicallyLt and TopnessLt (and HomoPoint2::LexicographicallyLt) are the strict lexicographic order (by x,y,z, respectively z,y,x) of the represented rational points, for all nonzero denominators.", "quantifier": "all pairs of points with nonzero w", "why_tests_cant": "denominators of both signs and unbounded size", "anchors": ["include/walnut/homo_point3.h: LexicographicallyLt, TopnessLt", "include/walnut/homo_point2.h: LexicographicallyLt"]}
{"id": "C22", "title": "2D twist direction", "statement": "Get2DTwistDir(drop, p1, p3) is positive/zero/negative exactly as the turn p1, this, p3 projected on the plane, for any three points with nonzero denominators.", "quantifier": "all triples of points", "why_tests_cant": "the sign trick with negative denominators fails only on specific values", "anchors": ["src/walnut/homo_point3.cpp: Get2DTwistDir", "include/walnut/point3.h: Get2DTwistDir"]}
{"id": "C23", "title": "Planes through three points", "statement": "HalfSpace3(p1,p2,p3) is coincident with each of the three points, and its normal points to the side from which the points are counter-clockwise; Compare(v) is the sign of the distance of v from the plane.", "quantifier": "all triples of points", "why_tests_cant": "all coordinates", "anchors": ["include/walnut/half_space3.h", "src/walnut/half_space3.cpp"]}
{"id": "C24", "title": "Plane equality and the plane ordering used for sets", "statement": "HalfSpace3 == holds iff both half-spaces contain the same points; HalfSpace3Compare is a strict weak order whose equivalence is plane equality (so std::set lookups of planes find exactly equal planes).", "quantifier": "all planes with nonzero normal", "why_tests_cant": "order axioms over all triples", "anchors": ["include/walnut/half_space3.h: operator==, HalfSpace3Compare"]}
{"id": "C25", "title": "Ordering of 2D lines ignoring side", "statement": "HalfSpace2SidelessCompare puts two half-planes in the same equivalence class iff they have the same boundary line.", "quantifier": "all pairs of 2D half-spaces with nonzero normal", "why_tests_cant": "all coordinates", "anchors": ["include/walnut/half_space2_sideless_compare.h"]}
{"id": "C26", "title": "Line/plane and plane/plane intersection", "statement": "The point returned by PluckerLine::Intersect(plane) lies on the line and on the plane whenever the line is not parallel to it; the line built from two planes lies in both; the line built from two points passes through both, and IsCoincident decides membership.", "quantifier": "all lines, planes and points", "why_tests_cant": "all coordinates", "anchors": ["include/walnut/plucker_line.h", "src/walnut/plucker_line.cpp"]}
{"id": "C27", "title": "Bounding box queries", "statement": "AABB IsInside/IsOnBorder/GetPlaneSide/== agree with the set of points in the box: IsInside iff min<=p<=max in each coordinate, GetPlaneSide is 1 (-1) iff every point of a nonempty box is strictly on the positive (negative) side, and == of nonempty boxes holds iff they contain the same points.", "quantifier": "all boxes, points and planes", "why_tests_cant": "all coordinates", "anchors": ["include/walnut/aabb.h", "src/walnut/aabb.cpp"]}
{"id": "C28", "title": "Infinitesimal rotation comparison", "statement": "RXYCompareBivector(u,v) is the sign of the xy turn from u to v after the infinitesimal R transformation: for all sufficiently small positive epsilon the transformed turn has that sign, and it is zero iff the vectors are parallel.", "quantifier": "all pairs of vectors and all small enough epsilon", "why_tests_cant": "a limit statement", "anchors": ["include/walnut/r_transformation.h", "src/walnut/r_transformation.cpp"]}
{"id": "C29", "title": "Splitting a convex polygon by a plane", "statement": "For any convex polygon and plane, GetSplitInfo classifies every vertex correctly, and the two children cover exactly the parent's vertices plus the two intersection points: the negative child has only vertices on the non-positive side, the positive child only on the non-negative side, both in the parent's cyclic order.", "quantifier": "all convex polygons of any vertex count and all planes", "why_tests_cant": "unbounded vertex counts and start offsets", "anchors": ["include/walnut/convex_polygon.h: GetSplitInfo, FillInSplitChildren", "include/walnut/convex_polygon_split_info.h"]}
{"id": "C30", "title": "Split range search", "statement": "FindSplitRangesLinear returns ranges that partition the vertex cycle into negative side, on-plane and positive side runs, for every cyclic sign pattern that a plane can cut from a convex polygon.", "quantifier": "all cyclic sign sequences of every length satisfying convexity", "why_tests_cant": "unbounded length and rotation", "anchors": ["include/walnut/convex_polygon.h: FindSplitRangesLinear, FindSplitRangesBisect"]}
{"id": "C31", "title": "Bounding box tracking through splits", "statement": "After splitting a polygon, the tracked extreme vertex indices of both children are indices of true minima/maxima of the children and the approximate box contains every vertex. The same holds after every history of splits, rotations, merges, edge splits and inversions of a polygon.", "quantifier": "all polygons and histories of operations", "why_tests_cant": "unbounded vertex counts", "anchors": ["include/walnut/convex_vertex_aabb_tracker.h"]}
{"id": "C32", "title": "Polygon area and centroid", "statement": "GetProjectedArea and GetProjectedCentroid equal the shoelace area and the area-weighted centroid of the rational vertices, for any number of vertices with any nonzero denominators.", "quantifier": "all vertex lists", "why_tests_cant": "incremental common-denominator arithmetic over unbounded lists", "anchors": ["include/walnut/convex_polygon.h: GetProjectedArea, GetProjectedCentroid"]}
{"id": "C33", "title": "Mesh centroid", "statement": "GetCentroid(mesh) equals the quotient of the signed first moment and the signed volume summed over all fan triangles, for every mesh with nonzero volume and any nonzero denominators.", "quantifier": "all meshes", "why_tests_cant": "least-common-multiple bookkeeping over unbounded meshes", "anchors": ["include/walnut/mesh.h: GetCentroid"]}
{"id": "C34", "title": "Mesh extreme points", "statement": "GetTopPoint(mesh)/GetFarthest(mesh,v) return a vertex of the mesh that no other vertex exceeds.", "quantifier": "all meshes and directions", "why_tests_cant": "all meshes", "anchors": ["include/walnut/mesh.h: GetTopPoint, GetFarthest"]}
{"id": "C35", "title": "Boolean filters compute the boolean operation", "statement": "The union / intersection / difference / xor / odd / inverted filters return as first component the boolean combination of 'pwn > 0' of their operands, at every point of the BSP traversal.", "quantifier": "all filter expressions and all content vectors", "why_tests_cant": "filter trees are unbounded", "anchors": ["include/walnut/bsp_visitor.h", "include/walnut/boolean_operation_filter.h"]}
{"id": "C36", "title": "Filter pruning is sound", "statement": "If a filter reports that its value can no longer change (second component false) then its value is the same for every content reachable below the node, so pruned subtrees never lose output facets.", "quantifier": "all filter expressions and all reachable descendants", "why_tests_cant": "quantifies over all descendant states", "anchors": ["include/walnut/bsp_visitor.h: PolygonFilter, IntersectionFilter, UnionFilter, SubtractionFilter, XORFilter"]}
{"id": "C37", "title": "Id-list boolean filters", "statement": "MakeForest/SubtractIds/UnionIds/IntersectIds filters evaluate the boolean operation over the listed mesh ids, wherever the ids are in the list and however many ids the tree knows.", "quantifier": "all id lists and content vectors", "why_tests_cant": "fails only for particular id layouts", "anchors": ["include/walnut/boolean_operation_filter.h"]}
{"id": "C38", "title": "Coplanar facet resolution emits exactly the boundary", "statement": "At every point of a face of a cell, the facets emitted by the plane partitioner are exactly those where the filter value changes when the facets covering the point are crossed one by one from the cell outwards; so their number is odd iff the value differs between the cell and what is beyond, and at most one for unions, intersections and differences.", "quantifier": "all stacks of facets in one plane, all filters and all points not on a partition line", "why_tests_cant": "unbounded stacks of overlapping polygons and arbitrary filters", "anchors": ["include/walnut/plane_partitioner.h: Run, ProcessLeaf", "include/walnut/bsp_traverser.h: ProcessPolygonsOnPlane"]}
{"id": "C39", "title": "BSP content routing", "statement": "Pushing node contents to children puts every polygon piece in the child on the correct side of the split plane, loses nothing, and keeps the per-id interior and border counters equal to the number of stored pieces of that id.", "quantifier": "all nodes, contents and split planes", "why_tests_cant": "all histories of splits", "anchors": ["include/walnut/bsp_node.h: PushContentsToChildren, AddRootContent, Split"]}
{"id": "C40", "title": "BSP point winding number", "statement": "If all meshes are added before the first split, the winding number stored at a leaf for a closed mesh that has no facet inside of the leaf's cell is the winding number of the mesh around every interior point of the cell: the signed number of facets crossed by any ray that meets no edge. Hence it does not depend on the order of the splits. (A mesh that is added to a tree that is already split gets wrong numbers.)", "quantifier": "all closed meshes of convex facets, all sequences of splits, all leaves, all interior points of their cells and all rays that meet no edge", "why_tests_cant": "all meshes, split sequences and points", "anchors": ["include/walnut/bsp_node.h: GetPWNEffectAtVertex, PushContentPWNToChildren"]}
{"id": "C41", "title": "BSP traversal is complete and balanced", "statement": "The traverser enters every interior node whose filter value could change exactly once, with Enter/Leave properly nested, splits leaves until no interior polygons are left, offers the facets of every leaf to the partitioner exactly once so that the visitor accepts exactly the facets where the filter changes, and terminates.", "quantifier": "all trees, filters, split strategies and hash map orders", "why_tests_cant": "all tree shapes", "anchors": ["include/walnut/bsp_traverser.h"]}
{"id": "C42", "title": "M log N estimator", "statement": "MLogNEstimator::Estimate(m, n) depends only on m and n, never on earlier calls, and lies within the documented relative error of m*log2(n).", "quantifier": "all m, n and all call histories", "why_tests_cant": "history independence", "anchors": ["include/walnut/m_log_n_estimator.h", "src/walnut/m_log_n_estimator.cpp"]}
{"id": "C43", "title": "Lowest cost split search", "statement": "GetLowestCost counts exactly the polygons starting before and ending after each candidate location and returns the first candidate of minimum cost; DiscountBorderPolygons then leaves the exact numbers of polygons with points on the negative side, with points on the positive side, and inside of the split plane; GetSplitPlane returns that plane.", "quantifier": "all event lists", "why_tests_cant": "unbounded event lists", "anchors": ["include/walnut/polygon_event_point.h: GetLowestCost, DiscountBorderPolygons"]}
{"id": "C44", "title": "Event points are sorted and paired", "statement": "MakeEventPoints produces, for every polygon, one start and one end event that reference each other, sorted by location; at one location the starts of polygons that are not flat come after all ends, and a flat polygon's end directly follows its start; new_location is set exactly where the location changes.", "quantifier": "all polygon lists", "why_tests_cant": "all inputs", "anchors": ["include/walnut/polygon_event_point.h: MakeEventPoints"]}
{"id": "C45", "title": "Deeds track their target through moves", "statement": "Along any sequence of deed construction, transfer, lending, return, target moves and destructions, each target has at most one active deed, and the active deed always points to the current address of its target.", "quantifier": "all histories", "why_tests_cant": "histories are unbounded", "anchors": ["include/walnut/deed.h"]}
{"id": "C46", "title": "Redirectable values stay acyclic", "statement": "Along any sequence of Redirect/dereference calls, dereferencing terminates, redirected values compare equal to their target, and path compression never changes which value is accessed.", "quantifier": "all histories", "why_tests_cant": "histories are unbounded", "anchors": ["include/walnut/redirectable_value.h"]}
{"id": "C47", "title": "ConcatRange iterates the concatenation", "statement": "Iterating a ConcatRange forwards (++), backwards (--) or by index (+n, []) yields the concatenation of the appended ranges in order, and Prepend puts the new ranges in front.", "quantifier": "all sequences of Append/Prepend/iterator steps", "why_tests_cant": "all histories", "anchors": ["include/walnut/concat_range.h"]}
{"id": "C48", "title": "Monotone triangulation", "statement": "For any two chains the triangulator emits exactly n-2 triangles on the input vertices, whose signed areas add up to the signed area of the polygon, and leaves itself ready for reuse.", "quantifier": "all pairs of chains", "why_tests_cant": "unbounded chain length", "anchors": ["include/walnut/monotone_triangulator.h"]}
{"id": "C49", "title": "Monotone decomposition preserves area", "statement": "The convex pieces emitted by MonotoneDecomposer have signed areas adding up to the polygon's, and each emitted piece only turns in its declared orientation.", "quantifier": "all chains", "why_tests_cant": "unbounded chain length", "anchors": ["include/walnut/monotone_decomposer.h"]}
{"id": "C50", "title": "Orientation detection", "statement": "OrientingMonotoneDecomposer detects which chain is on top or that all vertices are collinear, for all chains sharing their first and last vertex.", "quantifier": "all chain pairs", "why_tests_cant": "unbounded chain length", "anchors": ["include/walnut/orienting_monotone_decomposer.h"]}
{"id": "C51", "title": "Monotone range extraction", "statement": "MonotoneRange::Build returns two chains monotone in opposite directions that share their end vertices, consumes vertices from both ends of the input, and always makes progress until the input is exhausted.", "quantifier": "all vertex lists", "why_tests_cant": "unbounded lists", "anchors": ["include/walnut/monotone_range.h"]}
{"id": "C52", "title": "Planar range extraction", "statement": "PlanarRange::Build returns vertices that all lie in the reported plane, in cyclic order, size() is their number, the remaining range shares exactly the two end vertices, and repeated calls consume the input.", "quantifier": "all vertex lists", "why_tests_cant": "unbounded lists", "anchors": ["include/walnut/planar_range.h"]}
{"id": "C53", "title": "Half-edge connection is symmetric", "statement": "After connecting, e.partner().partner() == e for every connected half edge, partners have opposite polarity, and partnership survives moving and splitting of edges.", "quantifier": "all edge sets and histories", "why_tests_cant": "all histories", "anchors": ["include/walnut/edge_line_connector.h", "include/walnut/connected_polygon.h"]}
{"id": "C54", "title": "Mesh repair keeps facet vertex order", "statement": "Facets produced by MeshPlaneRepairer list their vertices in the cyclic order of the input facet and consecutive pieces share the cut edge, so a closed mesh is repaired to a closed mesh.", "quantifier": "all facets", "why_tests_cant": "all facet lengths", "anchors": ["include/walnut/mesh_plane_repairer.h: FinishFacet"]}
{"id": "C55", "title": "Nudged planes contain the constrained vertices", "statement": "NudgingPlaneBuilder::Build returns a plane through every accepted constrained vertex.", "quantifier": "all sequences of additions", "why_tests_cant": "all histories", "anchors": ["include/walnut/nudging_plane_builder.h", "src/walnut/nudging_plane_builder.cpp"]}
{"id": "C56", "title": "Extruded solids are closed", "statement": "Extrude produces faces whose directed edges cancel pairwise, so the result is a closed surface for any bottom cap and direction.", "quantifier": "all caps and directions", "why_tests_cant": "all cap sizes", "anchors": ["src/walnut/extrude.cpp"]}
{"id": "C57", "title": "Polygon merging", "statement": "Merging two polygons along a common edge keeps all other vertices, in cyclic order, removing only collinear junction vertices, and the merged signed area is the sum.", "quantifier": "all adjacent polygon pairs", "why_tests_cant": "all index rotations", "anchors": ["include/walnut/convex_polygon.h: TryMergePolygon, TryMergeEdge"]}
{"id": "C58", "title": "Polygon equality and inversion", "statement": "ConvexPolygon == is invariant under rotation of the vertex list and holds only for equal cyclic vertex sequences; Invert reverses the cycle and is an involution up to rotation.", "quantifier": "all polygons", "why_tests_cant": "all rotations", "anchors": ["include/walnut/convex_polygon.h: operator==, Invert"]}
{"id": "C59", "title": "Exact double decomposition", "statement": "Decomposing a double into mantissa and exponent is exact with an odd mantissa, so conversion from doubles to exact points loses nothing.", "quantifier": "all finite doubles", "why_tests_cant": "2^64 inputs", "anchors": ["include/walnut/double.h", "include/walnut/homo_point3.h: FromDoublesExact"]}
{"id": "C60", "title": "Split plane choice favours the smallest mesh", "statement": "BSPNode::PickSplitPlane returns a polygon belonging to the polyhedron with the fewest facets in the node.", "quantifier": "all content lists", "why_tests_cant": "all lists", "anchors": ["include/walnut/bsp_node.h: PickSplitPlane"]}
{"id": "C61", "title": "Reduce keeps the value and removes common factors", "statement": "Reduce() on vectors, homogeneous points, planes and lines leaves the represented direction / point / half-space / line unchanged, leaves no common factor among the components, and makes the denominator of a point positive.", "quantifier": "all vectors, points, planes and lines for which the gcd loop is defined", "why_tests_cant": "gcd arithmetic over all integers", "anchors": ["src/walnut/vector3.cpp: Reduce", "src/walnut/homo_point3.cpp: Reduce", "src/walnut/half_space3.cpp: Reduce", "src/walnut/plucker_line.cpp: Reduce"]}
{"id": "C62", "title": "Projection and construction helpers", "statement": "ProjectOntoPlane returns the point of the plane whose projection is the given 2D point; extruded, axis aligned and negated planes, AddOffset and Difference denote what their names say, for denominators of either sign.", "quantifier": "all planes, points, offsets and nonzero denominators", "why_tests_cant": "all coordinates and signs", "anchors": ["src/walnut/half_space3.cpp: ProjectOntoPlane", "include/walnut/half_space3.h", "include/walnut/homo_point3.h: AddOffset, Difference"]}
{"id": "C63", "title": "Extreme vertex search", "statement": "The bisecting search for the vertex farthest in a direction returns a vertex that no other vertex of the convex polygon exceeds, and reports -1 exactly when the direction is parallel to the polygon's normal.", "quantifier": "all convex polygons and all directions", "why_tests_cant": "the bisection takes different paths for every polygon, start and direction", "anchors": ["include/walnut/convex_polygon.h: GetExtremeIndexBisect"]}
{"id": "C64", "title": "Edge coincidence pointers", "statement": "After any history of adding polygons, pushing and splitting, every edge of a polygon in the BSP tree points to the highest and the deepest ancestor split plane that contains it and to the deepest one that contains its first vertex, and to nothing exactly if there is none.", "quantifier": "all trees, polygons and edges", "why_tests_cant": "all histories of splits, including edges that several split planes go through", "anchors": ["include/walnut/bsp_edge_info.h", "include/walnut/bsp_polygon.h: SetBoundaryAngles", "include/walnut/bsp_node.h: PushContentsToChildren"]}
{"id": "C65", "title": "Convex polygon factory", "statement": "Given the vertices of a polygon, the factory returns, and emits convex polygons whose vertices are input vertices, lie in the plane of the emitted polygon and are joined by the lines of its edges; the boundaries of the emitted polygons add up to the boundary of the input, so that their areas in any projection add up.", "quantifier": "all vertex lists, planar or not, and all quantities of directed segments that are additive along lines", "why_tests_cant": "every shape of polygon takes another path through the planar and monotone ranges; termination cannot be tested", "anchors": ["include/walnut/convex_polygon_factory.h: Build, EmitOriented", "include/walnut/planar_range.h"]}
{"id": "C66", "title": "Mesh repair makes facets planar", "statement": "Every polygon that MeshPlaneRepairer produces comes with a plane that has a non-zero normal and contains all vertices of the polygon.", "quantifier": "all meshes", "why_tests_cant": "which vertices constrain a facet depends on all facets added before it", "anchors": ["include/walnut/mesh_plane_repairer.h", "src/walnut/mesh_plane_repairer.cpp: GetNextPlanarRange, TryAddAdjacent, Finalize"]}
{"id": "C67", "title": "Mesh repair shares vertices", "statement": "Equal points of the input, whatever their homogeneous representation, become the same repaired vertex; every produced polygon has at least three vertices, and the polygons of a facet are the facet cut along edges between its vertices. HasVertex is true exactly for points added before.", "quantifier": "all meshes of finite points", "why_tests_cant": "all representations of points and all orders of facets", "anchors": ["include/walnut/mesh_plane_repairer.h: AddFacet", "src/walnut/mesh_plane_repairer.cpp: AddVertex, HasVertex"]}
{"id": "C68", "title": "Mesh repair leaves planar facets alone", "statement": "If every input facet is planar no vertex is moved, and every produced plane contains the vertices of its polygon, for facets of any length.", "quantifier": "all meshes of planar facets", "why_tests_cant": "exact arithmetic in every plane and vertex degree", "anchors": ["include/walnut/mesh_plane_repairer.h"]}
{"id": "C69", "title": "Intersection of a box and a plane", "statement": "AABB::IntersectPlane returns a convex polygon in the plane that covers exactly the common points of the plane and the box, and an empty polygon exactly if the plane is invalid or the common points lie on a line (or there are none).", "quantifier": "all boxes, denominators and planes", "why_tests_cant": "which sides of the box are cut depends on every coordinate; the result is exact for all integers", "anchors": ["include/walnut/aabb.h: IntersectPlane"]}
{"id": "C70", "title": "Walls of a box", "statement": "AABB::GetWalls returns for each facet of the box that has an area one convex polygon that covers exactly this facet, with the box on the inner side of its plane; together the walls of a box that is flat in at most one dimension cover exactly its border. The walls of a box with a volume are a closed mesh that goes once around the points inside of the box, and not around those outside.", "quantifier": "all nonempty boxes and denominators", "why_tests_cant": "all coordinates, and flat boxes", "anchors": ["src/walnut/aabb.cpp: GetWalls"]}
{"id": "C71", "title": "Boolean operations produce the boundary of the described solid", "statement": "After closed meshes have been added to a BSP tree and the tree is traversed with a filter made of unions, intersections and subtractions, the traversal ends without a failed assertion and the emitted polygons together are the oriented boundary of the described solid: around every point on no split plane their winding number (signed crossings along any ray in general position) is 1 if the winding numbers of the input meshes around the point satisfy the filter and 0 otherwise, less 1 if the filter also accepts the points far away. For filters with symmetric differences the winding number has the right parity.", "quantifier": "all lists of closed meshes of convex facets, including touching, overlapping and nested ones, all filters, all split plane choices, all points and all rays in general position", "why_tests_cant": "coincident facets, degenerate splits and every choice of split planes change which polygons are emitted; a mesh has to be right around every point", "anchors": ["include/walnut/bsp_traverser.h: Run", "include/walnut/boolean_operation_filter.h", "include/walnut/bsp_visitor.h: BSPVisitor", "include/walnut/plane_partitioner.h", "include/walnut/bsp_node.h: PushContentsToChildren, PushVertexPWNs", "include/walnut/bsp_tree.h"]}
{"id": "C72", "title": "Boolean operations produce a closed surface", "statement": "After closed meshes have been added to a BSP tree and the tree is traversed with a filter made of unions, intersections and subtractions, the emitted polygons are convex and form a closed surface without cracks: at every point that is not a vertex of an emitted polygon, in every direction, as many edges of emitted polygons run through the point in the direction as against it. For filters with symmetric differences their total number is even.", "quantifier": "all closed meshes, all filters, all points and directions, all ways to split the tree before and during the traversal", "why_tests_cant": "edges of pieces of different facets that were split in different orders must cancel exactly, at every point, for all inputs", "anchors": ["include/walnut/bsp_traverser.h: BSPTraverser::Run", "include/walnut/plane_partitioner.h", "include/walnut/bsp_node.h", "include/walnut/bsp_visitor.h"]}
{"id": "C73", "title": "Edges are connected where they meet", "statement": "During a traversal with a ConnectingVisitor no assertion about its bookkeeping fails. Every edge of every accepted polygon is handed to the edge connector exactly once, when a node whose plane contains it is left, together with all other edges that have a part in common with it. For boolean operations on closed meshes the edges of every such call balance: at every point that is not a vertex as many run in a direction as against it. Afterwards no open nodes remain and the output polygons have no pointers to planes that do not exist any more.", "quantifier": "all trees, filters, choices of split planes and closed meshes", "why_tests_cant": "which node gets an edge depends on every plane above it, including the planes the partitioner makes up for a leaf", "anchors": ["include/walnut/connecting_visitor.h: Accept, EnterInteriorNode, LeaveInteriorNode", "include/walnut/bsp_traverser.h"]}
{"id": "C74", "title": "Collected polygons", "statement": "During a traversal with a CollectorVisitor no assertion fails, the collector returns exactly the accepted polygons, and the pointers to split planes in their edges point to nodes of the tree or to equal planes that the collector owns.", "quantifier": "all trees, filters and choices of split planes", "why_tests_cant": "dangling pointers only show for inputs where the partitioner has to cut, and tests do not notice them", "anchors": ["include/walnut/bsp_visitor.h: CollectorVisitor"]}
{"id": "C75", "title": "Results without redundant facets", "statement": "For a union, intersection or difference of closed meshes, the emitted polygons cover the boundary of the resulting solid exactly once: emitted polygons do not overlap, and every emitted polygon has the result right behind it and not in front of it.", "quantifier": "all closed meshes, trees, split plane choices, filters of unions, intersections and differences, and all points in general position of the emitted polygons", "why_tests_cant": "overlapping or internal facets depend on how facets of the inputs coincide, which finitely many test meshes do not exhaust", "anchors": ["include/walnut/bsp_traverser.h: BSPTraverser::Run", "include/walnut/bsp_node.h: BSPNode::PushContentsToChildren", "include/walnut/boolean_operation_filter.h: BooleanOperationFilter"]}
{"id": "C76", "title": "Merging facets keeps the mesh connected", "statement": "When facets of a connected mesh are merged along their common edge, the merge never fails, the merged facet covers exactly the two former facets, all other facets cover what they covered before, all facets stay convex, and each edge still has its partner: an edge that runs between the same two points in the opposite direction and has the first edge as its partner. A mesh without open edges has none afterwards.", "quantifier": "all connected meshes, all edges and all sequences of merges", "why_tests_cant": "the vertices at the ends of the common edge vanish from the neighbouring facets too, depending on how they are linked; tests only cover a few such configurations", "anchors": ["include/walnut/connected_polygon.h: ConnectedEdge::CanMerge, ConnectedEdge::Merge, MergeConnectedEdge", "include/walnut/convex_polygon.h: TryMergePolygon, TryMergeEdge", "include/walnut/connecting_visitor.h: LeaveInteriorNode"]}
{"id": "C77", "title": "Walking around a vertex", "statement": "For an edge of a connected mesh, GetNextAroundVertex returns null if the edge has no partner, and otherwise an edge of the partner's facet that starts at the same vertex. Different edges have different next edges. In a mesh without open edges, repeated calls return to the edge where they began.", "quantifier": "all connected meshes, all edges and all numbers of calls", "why_tests_cant": "termination of the walk is a statement about all meshes and cannot be tested exhaustively", "anchors": ["include/walnut/connected_polygon.h: ConnectedEdge::GetNextAroundVertex, edge_index"]}
{"id": "C78", "title": "The border of a tree node", "statement": "GetNodeBorderNoBoundWalls returns convex polygons that lie in the split planes above the node, face away from the node's cell, and are inside of the bounding box and the closed cell. Each point of the box on one of these planes that is strictly on the cell's side of all the others is in exactly one of the polygons.", "quantifier": "all trees, paths, bounding boxes and points", "why_tests_cant": "the cell is cut by arbitrarily many planes in arbitrary position", "anchors": ["include/walnut/bsp_tree.h: BSPTree::GetNodeBorderNoBoundWalls", "include/walnut/aabb.h: AABB::IntersectPlane", "include/walnut/bsp_node.h: BSPNode::Split"]}
{"id": "C79", "title": "The output of a boolean operation is connected", "statement": "For closed input meshes, a union, intersection or subtraction evaluated through the connecting visitor, which adds vertices inside of edges and merges facets on the way, reports no connection error: each edge of each output facet has a partner, which is an edge between the same two points in the opposite direction. The output facets are convex and cover what the emitted polygons covered.", "quantifier": "all closed meshes, boolean filters without symmetric differences, split choices, and sort and heap implementations", "why_tests_cant": "the facets around an edge are cut by arbitrarily many planes, and the partner is found with a sweep along the line whose ties depend on the order of the events", "anchors": ["include/walnut/connecting_visitor.h: ConnectingVisitor::LeaveInteriorNode, FilterEmptyPolygons", "include/walnut/edge_line_connector.h: EdgeLineConnector::ConnectUnsorted", "include/walnut/bsp_visitor.h", "include/walnut/boolean_operation_filter.h"]}
{"id": "C80", "title": "Results can be operands", "statement": "The facets that a union, intersection or subtraction of closed meshes returns through the connecting visitor are again a closed mesh of convex facets: every edge occurs as often in one direction as in the other. Around every point on no facet, the winding number of the result is 1 where the operands' winding numbers are in the described set and 0 elsewhere, one less if the set is unbounded. When the result is added to another tree, a second operation therefore computes the composition of both.", "quantifier": "all closed meshes, boolean filters without symmetric differences, split choices, sort and heap implementations, points and rays", "why_tests_cant": "a test can only compare a few solids; whether vertices added inside of edges and merging keep the surface closed and of the same winding depends on all the ways facets can be cut", "anchors": ["include/walnut/connecting_visitor.h: ConnectingVisitor::TakePolygons, LeaveInteriorNode", "include/walnut/bsp_tree.h: BSPTree::AddContents, Traverse"]}
{"id": "C81", "title": "Exported vertices agree", "statement": "After VertexDoublePoint3Mapper::Map has been called for every edge of a connected mesh, in any order, every vertex has one exported value, all the edges around a vertex have the same exported value whatever their double representations are, and edges at different points have different values unless two different points have the same double representation. The VTK export therefore produces one point per vertex.", "quantifier": "all connected meshes, all orders of the calls, all ways in which homogeneous points are rounded to doubles", "why_tests_cant": "which representations are merged depends on the order of the edges and on rounding; tests know only three representations of one point", "anchors": ["include/walnut/vertex_double_point3_mapper.h: VertexDoublePoint3Mapper::Map", "vtk_interface/include/walnut/walnut_to_vtk_mesh.h: SaveWalnutMeshToVTK", "include/walnut/redirectable_value.h"]}
{"id": "C82", "title": "k-d splits of large nodes", "statement": "The traversal splits nodes with more than six polygons along the coordinate axes with the help of sorted event points. Such a split succeeds for every node of every mesh, and it gives the children the same polygons, border polygons, winding numbers and counts as an ordinary split along the same plane, except for the order of the polygons. The strategy therefore does not influence which surface an operation returns.", "quantifier": "all meshes, nodes, dimensions and split planes, all implementations of the standard heap functions", "why_tests_cant": "the event points are divided in place by four interleaved loops whose paths depend on ties between coordinates; tests have a handful of polygons", "anchors": ["include/walnut/bsp_traverser.h: BSPTraverser::SplitStrategy::Split", "include/walnut/polygon_event_point.h: PolygonEventPointPartition::ApplyPrimary, ApplySecondary", "include/walnut/bsp_node.h: BSPNode::Split(partition, ...)", "include/walnut/bsp_polygon.h: SetAdjacentBoundaryAngles"]}
{"id": "C83", "title": "The VTK boolean filter", "statement": "For inputs that are closed meshes, the VTK filter for boolean operations returns a closed mesh of convex polygons around exactly the points that are in the union of the inputs, in their intersection, or in the first input and in none of the others. The import of a mesh represents each cell by polygons that cover it, with the same orientation, or the opposite one for the inputs that are subtracted.", "quantifier": "all closed input meshes with any number of cells, polygons or strips, all numbers of inputs, all operations and rounding exponents", "why_tests_cant": "tests know a few solids; orientation and rounding depend on every coordinate", "anchors": ["vtk_interface/include/walnut/vtk_to_walnut_mesh.h: VTKToWalnutMesh", "vtk_interface/src/vtkWalnutBooleanFilter.cpp: RequestData", "include/walnut/boolean_operation_filter.h: SubtractIdsFilter"]}
{"id": "C84", "title": "Conversion to floating point", "statement": "Converting an integer to double or long double returns the number itself if the format has it, and otherwise a number with a relative error of a few units in the last place. HomoPoint3::GetDoublePoint3 returns the coordinates of the point up to rounding, and returns exactly x, y and z for a point that was made from the doubles x, y and z.", "quantifier": "all integers of any size, all points, all rounding rules for ties, all formats of long double", "why_tests_cant": "numbers of every length and every bit pattern take part in the rounding", "anchors": ["src/walnut/big_int.cpp: operator double, operator long double", "include/walnut/homo_point3.h: GetDoublePoint3"]}
{"id": "C85", "title": "Exported mesh", "statement": "Exporting a closed, connected mesh to VTK returns a closed mesh: every edge between two exported points is used as often in one direction as in the other. The exported cells are the facets of the mesh, with the double representation of each vertex (or of an equal vertex) in place of the vertex. No two exported points are equal, each belongs to a cell, and different vertices are never exported as the same point.", "quantifier": "all connected meshes, all orders of the hash map, all ways in which vertices round to doubles", "why_tests_cant": "the result depends on which representations of a vertex round differently, and on the order in which they are merged", "anchors": ["vtk_interface/include/walnut/walnut_to_vtk_mesh.h: WalnutToVTKMesh", "include/walnut/vertex_double_point3_mapper.h: VertexDoublePoint3Mapper"]}
{"id": "C86", "title": "Convex polygons come out of the factory unchanged", "statement": "If the vertices passed to ConvexPolygonFactory::Build are the corners of a strictly convex polygon in a plane, in either direction and starting with any of them, exactly one polygon is emitted: it has these vertices in this cyclic order, and its plane's normal points to the side from which they are counter-clockwise. Passing them in the opposite order emits the same polygon seen from the other side.", "quantifier": "all strictly convex polygons with any number of vertices, in all planes, with all homogeneous representations", "why_tests_cant": "the path through the triangulator and the decomposer depends on the shape, on the first vertex and on the direction; tests know a few squares", "anchors": ["include/walnut/convex_polygon_factory.h: ConvexPolygonFactory::Build", "include/walnut/monotone_decomposer.h", "include/walnut/orienting_monotone_decomposer.h", "include/walnut/monotone_range.h"]}
{"id": "C87", "title": "Iterating over a transformed range", "statement": "An iterator over a transformed range gives, after any sequence of iterator operations, the value of the user's function at the element it was moved to, and comparisons and differences of two such iterators agree with their places.", "quantifier": "all ranges, transformers, iterators and sequences of iterator operations", "why_tests_cant": "unbounded ranges and histories, and arbitrary user provided function objects", "anchors": ["include/walnut/transform_iterator.h:TransformIterator", "vtk_interface/include/walnut/vtk_to_walnut_mesh.h:VertexIdToHomoPoint3"]}
{"id": "C88", "title": "Points of doubles as hash table keys", "statement": "Equality of the double points that the export to VTK uses as keys of its hash tables is an equivalence relation that compares all three coordinates, equal points have equal hashes, and the hash depends on all coordinates.", "quantifier": "all points of doubles, including infinities and NaN, and all standard conforming hashes of doubles", "why_tests_cant": "the number of points is astronomically large and the hash of doubles is up to the standard library", "anchors": ["include/walnut/double_point3.h:DoublePoint3", "include/walnut/vertex_double_point3_mapper.h:VertexDoublePoint3Mapper"]}
{"id": "C89", "title": "The polyhedron of a tree node", "statement": "The polygons from which GetNodeBorder makes the polyhedron of a node are convex, inside of the bounding box and of the closed cell of the node, and face away from the cell; together they cover every point of the walls of the box that is strictly inside of the cell, and every point of the box on one of the split planes above the node that is strictly on the cell's side of all the others. It returns without polygons, before the traversal, only if the box and the cell have no inner point in common. Otherwise its visitor accepts polygons covering the same points, in properly nested calls, whatever planes the traversal chooses.", "quantifier": "all trees, paths, bounding boxes and points", "why_tests_cant": "the cell is cut by arbitrarily many planes in arbitrary position, some of which may be walls of the box", "anchors": ["include/walnut/bsp_tree.h: BSPTree::GetNodeBorder", "include/walnut/aabb.h: AABB::GetWalls", "include/walnut/half_space3.h: HalfSpace3Compare", "include/walnut/bsp_node.h: BSPNode::Split"]}
{"id": "C90", "title": "Size of a box", "statement": "AABB::GetDiagonalLength returns, up to rounding, the distance of the two extreme corners of the box, which is the largest distance of two of its points, and GetSquaredDiagonalLengthNumerator over the square of the denominator is its square.", "quantifier": "all boxes and all pairs of points in them", "why_tests_cant": "the formula has to be right for every denominator; tests use boxes with integer corners", "anchors": ["include/walnut/aabb.h: AABB::GetDiagonalLength", "include/walnut/aabb.h: AABB::GetSquaredDiagonalLengthNumerator", "include/walnut/aabb.h: AABB::min_point"]}
{"id": "C91", "title": "Reduced points are usable as hash table keys", "statement": "HomoPoint3StrictEq holds exactly when all four coordinates are equal integers and is an equivalence relation; keys equal under it have equal ReducedHomoPoint3Hasher hashes; and after Reduce two points with nonzero denominators are equal keys exactly when they denote the same point, whatever multiples they were given by. The hash depends on each of the coordinates: if one of them changes between values of one word, the hash changes.", "quantifier": "all homogeneous points with integer coordinates of any size", "why_tests_cant": "a table lookup misses only for particular coordinates; tests sample a few of infinitely many representations of each point", "anchors": ["include/walnut/homo_point3.h: ReducedHomoPoint3Hasher, HomoPoint3StrictEq", "src/walnut/homo_point3.cpp: HomoPoint3::Reduce", "include/walnut/big_int.h: BigInt::GetHash", "include/walnut/mesh.h: GetCentroid HashArray"]}
{"id": "C92", "title": "Conversion of integers to machine integers", "statement": "low_uint64 and low_uint32 of an integer are its remainders modulo 2^64 and 2^32, also if it is negative. ToInt is defined exactly if the integer is a value of int, and returns that value.", "quantifier": "all integers of any size", "why_tests_cant": "the boundary between the words and every sign and length have to be right", "anchors": ["include/walnut/big_int.h: BigInt::low_uint32, BigInt::low_uint64, BigInt::ToInt", "include/walnut/big_uint_word.h: BigUIntWord::ToInt"]}
