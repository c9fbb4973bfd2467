{"id": "C01", "title": "Settings behave like a last-write-wins store", "statement": "After any sequence of Properties.init(), set_*() calls and set_conf_repo_mgr() calls, every getter returns the value most recently stored for its own option since the last init/set_conf_repo_mgr (or the documented default), and setting one option never changes what another getter returns.", "quantifier": "every finite sequence of configuration calls, every option, every value", "why_tests_cant": "tests exercise one or two fixed call sequences; the claim is about all histories and about non-interference between all pairs of options", "anchors": ["products/ellipy/elltool/conf/properties/Properties.py: Properties.init", "products/ellipy/elltool/conf/properties/Properties.py: Properties.set_*", "products/ellipy/elltool/conf/properties/Properties.py: Properties.get_*", "products/ellipy/elltool/conf/properties/Properties.py: Properties.set_conf_repo_mgr"]}
{"id": "C02", "title": "Snapshots of the settings are isolated; the repository object is shared", "statement": "get_prop_dict() returns an independent snapshot: later set_*/init calls never change it and mutating it never changes any getter. get_conf_repo_mgr()/set_conf_repo_mgr() in contrast share the very same dictionary, so writes through that object are seen by getters until the next init.", "quantifier": "every interleaving of snapshot creation, snapshot mutation, repository mutation and configuration calls", "why_tests_cant": "aliasing bugs show up only in particular interleavings of mutations; tests look at one", "anchors": ["products/ellipy/elltool/conf/properties/Properties.py: Properties.get_prop_dict", "products/ellipy/elltool/conf/properties/Properties.py: Properties.get_conf_repo_mgr", "products/ellipy/elltool/conf/properties/Properties.py: Properties.set_conf_repo_mgr"]}
{"id": "C03", "title": "parse_prop picks explicit value over global value, in request order, without touching its input", "statement": "parse_prop(args, names) with a duplicate-free list of known names returns, in the order of names, args[name] when present and the current global value otherwise, together with exactly the entries of args not named; the caller's dict is not modified; it raises exactly when a name is unknown or a selected value fails that property's validity rule.", "quantifier": "every argument dict, every list of names, every settings state", "why_tests_cant": "the space of argument dictionaries and settings states is unbounded", "anchors": ["products/ellipy/elltool/conf/properties/_ParseProp.py: _ParseProp.parse_prop", "products/ellipy/elltool/conf/properties/Properties.py: Properties.parse_prop", "products/ellipy/gen/common/common.py: is_member"]}
{"id": "C04", "title": "parse_prop with no name list parses every known property", "statement": "Under the library default settings, parse_prop(args) (no name list) succeeds for every args holding only valid values and returns one valid value per known property.", "quantifier": "every argument dict with valid values, default settings", "why_tests_cant": "tests always pass an explicit name list", "anchors": ["products/ellipy/elltool/conf/properties/_ParseProp.py: _ParseProp.parse_prop", "products/ellipy/elltool/conf/properties/_ParseProp.py: __PROP_CHECK_FUNC_DICT", "products/ellipy/elltool/conf/properties/Properties.py: Properties.init"]}
{"id": "C05", "title": "is_member reports membership and first positions", "statement": "is_member(a, b) returns one flag per element of a, true exactly when the element occurs in b, and, for the members of a in order, the position of the first occurrence in b.", "quantifier": "all finite sequences a and b over any linearly ordered element type", "why_tests_cant": "unbounded inputs, duplicates in either argument and unsorted data make the numpy unique/inverse plumbing easy to get wrong", "anchors": ["products/ellipy/gen/common/common.py: is_member"]}
{"id": "C06", "title": "abs_rel_compare decides elementwise closeness", "statement": "For arrays of equal shape abs_rel_compare says equal exactly when NaNs, +infs and -infs sit at the same places, and every pair of finite entries differs by at most abs_tol or (when rel_tol is given and the sum of magnitudes exceeds abs_tol) by at most rel_tol relative to the mean magnitude.", "quantifier": "all pairs of arrays of any shape with entries real, NaN or +-inf, all non-negative tolerances", "why_tests_cant": "mixed special values, the max-reduction and the two-tolerance logic give an unbounded space of cases", "anchors": ["products/ellipy/gen/common/common.py: abs_rel_compare"]}
{"id": "C07", "title": "abs_rel_compare is reflexive, symmetric and monotone, and its report is empty exactly on success", "statement": "x always equals itself (NaN included), swapping the arguments never changes the verdict, enlarging tolerances never turns equal into unequal, the report string is empty iff the verdict is equal, and a call raises exactly when the shapes differ or a tolerance is negative.", "quantifier": "all pairs of arrays, all tolerances", "why_tests_cant": "relations between two runs (hyperproperties) over unbounded inputs", "anchors": ["products/ellipy/gen/common/common.py: abs_rel_compare"]}
{"id": "C08", "title": "dict_compare accepts a structure compared with itself and reports differences only when it finds some", "statement": "For every well-formed nested structure comparison of the structure with itself returns equal; the report is empty exactly when the verdict is equal.", "quantifier": "all nested dict/list/array structures of any depth, all tolerances", "why_tests_cant": "unbounded nesting depth", "anchors": ["products/ellipy/gen/dict/dict.py: dict_compare", "products/ellipy/gen/dict/dict.py: dict_compare_vec"]}
{"id": "C09", "title": "dict_compare never calls structurally different data equal", "statement": "If dict_compare returns equal then the two structures have the same keys at every level, the same array shapes and list lengths, the same leaf types, and all leaves agree within tolerance.", "quantifier": "all pairs of nested structures", "why_tests_cant": "needs all pairs of unbounded structures; in particular lists of unequal length", "anchors": ["products/ellipy/gen/dict/dict.py: dict_compare_vec", "products/ellipy/gen/dict/dict.py: comp_fun"]}
{"id": "C10", "title": "dict_compare is symmetric", "statement": "dict_compare(x, y) and dict_compare(y, x) give the same verdict (and either both raise or neither does).", "quantifier": "all pairs of nested structures", "why_tests_cant": "relation between two executions over unbounded structures", "anchors": ["products/ellipy/gen/dict/dict.py: dict_compare_vec", "products/ellipy/gen/dict/dict.py: comp_fun"]}
{"id": "C11", "title": "is_dependent recognises exactly whole-word occurrences of the time variable", "statement": "is_dependent(m) is true exactly when some cell contains the name t (k for discrete systems) not adjacent to another letter, digit or underscore.", "quantifier": "all arrays of strings of any length", "why_tests_cant": "infinite language; boundary cases at string ends and next to operators", "anchors": ["products/ellipy/gras/sym/sym.py: is_dependent"]}
{"id": "C12", "title": "var_replace substitutes every whole-word occurrence and nothing else", "statement": "var_replace(m, v, e) removes blanks and replaces each maximal word equal to v by e in parentheses, leaving every other character in place; if e does not mention v as a word, the result does not depend on v any more; replacing by a name that the expression is renamed to makes is_dependent track the new name.", "quantifier": "all strings, all variable names made of word characters, all replacement expressions without backslashes", "why_tests_cant": "infinite language", "anchors": ["products/ellipy/gras/sym/sym.py: var_replace", "products/ellipy/gras/sym/sym.py: is_dependent"]}
{"id": "C13", "title": "sort_rows_tol returns a permutation of the rows and its inverse", "statement": "sort_rows_tol(x, tol) returns rows that are x[ind] for a permutation ind, and the reverse index is the inverse permutation, so sorted[rev] restores x, whatever order the unstable internal sort picks for ties.", "quantifier": "all matrices with at least one column, all tolerances, all admissible tie-breaking choices of argsort", "why_tests_cant": "the sort is unstable: the claim must hold for every tie order, not the one numpy happened to use", "anchors": ["products/ellipy/gras/gen/gen.py: sort_rows_tol"]}
{"id": "C14", "title": "sort_rows_tol orders rows lexicographically up to tolerance and does not depend on tie-breaking", "statement": "Columns are clustered by chaining sorted values closer than tol; consecutive result rows are in lexicographic order of their clusters, rows with equal clusters keep their input order, hence the result is the same for every tie-breaking choice; with tol=0 it is the stable lexicographic sort.", "quantifier": "all matrices, all tolerances >= 0, all tie-breaking choices", "why_tests_cant": "hyperproperty over all choices of the unstable sort", "anchors": ["products/ellipy/gras/gen/gen.py: sort_rows_tol"]}
{"id": "C15", "title": "sqrt_pos takes roots of numbers that are non-negative up to tolerance and rejects all others", "statement": "sqrt_pos(x, tol) raises exactly when tol<0 or some entry is below -tol; otherwise every output entry is the unique non-negative number whose square is max(entry,0).", "quantifier": "all real arrays and tolerances", "why_tests_cant": "continuum of inputs around the threshold", "anchors": ["products/ellipy/gras/gen/gen.py: sqrt_pos"]}
{"id": "C16", "title": "Batched matrix products equal slice-by-slice products, sparse or dense", "statement": "MatVector.r_multiply(A,B[,C]) returns, for every time slice, the product of the slices; the use_sparse_matrix switch never changes the value; shape mismatches raise.", "quantifier": "all array sizes, all entries, both modes, two and three factors, 2-D or 3-D second factor", "why_tests_cant": "the sparse path re-indexes through Fortran-order reshapes; agreement must hold for every size", "anchors": ["products/ellipy/gras/gen/gen.py: MatVector.r_multiply"]}
{"id": "C17", "title": "Batched matrix-vector products agree in sparse and dense mode", "statement": "MatVector.r_multiply_by_vec(A, b) returns A[:,:,t] @ b[:,t] for every t in both modes.", "quantifier": "all sizes and entries, both modes", "why_tests_cant": "index arithmetic of the block-diagonal sparse matrix for every size", "anchors": ["products/ellipy/gras/gen/gen.py: MatVector.r_multiply_by_vec"]}
{"id": "C18", "title": "SVD-based batched quadratic forms agree with the direct ones", "statement": "For symmetric B, SymmetricMatVector.lr_svd_multiply(B,A), r_svd_multiply_by_vec, lr_svd_multiply_by_vec and lr_svd_divide_vec return the same values as the direct products A^T B A (A B A^T with the flag L), B a, a^T B a and a^T B^-1 a.", "quantifier": "all symmetric batches, all arguments, every valid eigen-decomposition the backend may return", "why_tests_cant": "the shipped tests recompute the implementation formula, so they cannot see a transposed eigenvector matrix", "anchors": ["products/ellipy/gras/gen/gen.py: SymmetricMatVector.lr_svd_multiply", "products/ellipy/gras/gen/gen.py: SymmetricMatVector.r_svd_multiply_by_vec", "products/ellipy/gras/gen/gen.py: SymmetricMatVector.lr_svd_multiply_by_vec", "products/ellipy/gras/gen/gen.py: SymmetricMatVector.lr_svd_divide_vec"]}
{"id": "C19", "title": "make_pos_definite_by_eig repairs exactly the slices that need it", "statement": "Every slice of the result is positive semidefinite when value >= 0, slices whose smallest eigenvalue is already non-negative come back unchanged, and the repaired slice keeps the eigenvectors with negative eigenvalues replaced by value.", "quantifier": "all batches of symmetric matrices, every valid eigen-decomposition", "why_tests_cant": "continuum of matrices and all eigenbasis choices", "anchors": ["products/ellipy/gras/gen/gen.py: SquareMatVector.make_pos_definite_by_eig"]}
{"id": "C20", "title": "is_mat_pos_def decides positive definiteness", "statement": "For a symmetric matrix, is_mat_pos_def(Q, tol) is true exactly when x^T Q x > tol |x|^2 for all x != 0, the semi-definite variant exactly when x^T Q x >= -tol |x|^2 for all x, and a matrix that is not symmetric within tol raises.", "quantifier": "all square matrices and tolerances", "why_tests_cant": "quantifies over all vectors", "anchors": ["products/ellipy/gras/la/la.py: is_mat_pos_def", "products/ellipy/gras/la/la.py: is_mat_symm"]}
{"id": "C21", "title": "sqrtm_pos returns the principal square root whatever eigenbasis the backend picks", "statement": "For positive semidefinite Q the result S is symmetric positive semidefinite with S S = Q, hence unique and independent of the eigenvectors chosen; for Q with eigenvalues >= -tol it is the root of the spectral projection of Q, and matrices with an eigenvalue below -tol raise.", "quantifier": "all symmetric matrices, every valid eigen-decomposition", "why_tests_cant": "eigenvectors are not unique; must hold for every choice", "anchors": ["products/ellipy/gras/la/la.py: sqrtm_pos", "products/ellipy/gras/gen/gen.py: sqrt_pos"]}
{"id": "C22", "title": "reg_pos_def_mat lifts the spectrum to at least the tolerance and changes nothing else", "statement": "The result R is symmetric, x^T R x >= reg_tol |x|^2 and x^T R x >= x^T Q x for all x, R = Q when Q already satisfies the bound, and regularising twice equals regularising once; a non-positive reg_tol raises.", "quantifier": "all symmetric matrices, every reg_tol > 0, every eigen-decomposition with orthonormal eigenvectors", "why_tests_cant": "continuum of matrices; depends on properties of the eigensolver", "anchors": ["products/ellipy/gras/la/la.py: reg_pos_def_mat"]}
{"id": "C23", "title": "reg_mat makes a square matrix safely invertible", "statement": "For a square matrix all singular values of the result are at least reg_tol (so |R x| >= reg_tol |x|) and a matrix that already satisfies this is returned unchanged, for every singular value decomposition.", "quantifier": "all square matrices, every valid SVD", "why_tests_cant": "continuum; all SVD choices", "anchors": ["products/ellipy/gras/la/la.py: reg_mat"]}
{"id": "C24", "title": "orth_transl returns an orthogonal map carrying the source direction to the destination direction", "statement": "For non-zero src and dst, O = orth_transl(src,dst) satisfies O O^T = I and O src/|src| = dst/|dst|; zero vectors raise.", "quantifier": "all dimensions, all pairs of vectors", "why_tests_cant": "continuum of inputs including nearly (anti)parallel pairs where the code switches formula", "anchors": ["products/ellipy/gras/la/la.py: orth_transl"]}
{"id": "C25", "title": "Householder and QR variants are also orthogonal translations", "statement": "orth_transl_haus and orth_transl_qr return orthogonal matrices mapping src/|src| to dst/|dst| for every valid QR factorisation.", "quantifier": "all dimensions, all non-zero vectors, every valid QR factorisation", "why_tests_cant": "sign conventions of QR are not fixed by the contract; must hold for each", "anchors": ["products/ellipy/gras/la/la.py: orth_transl_haus", "products/ellipy/gras/la/la.py: orth_transl_qr"]}
{"id": "C26", "title": "orth_transl_max_tr is optimal", "statement": "Among all orthogonal O with O src/|src| = dst/|dst| the returned matrix has the largest trace(O M).", "quantifier": "all vectors, all M, all competitors O, every valid QR/SVD", "why_tests_cant": "optimality quantifies over all competitors", "anchors": ["products/ellipy/gras/la/la.py: orth_transl_max_tr"]}
{"id": "C27", "title": "orth_transl_max_dir is optimal", "statement": "Among all orthogonal O with O src/|src| = dst/|dst| the returned matrix maximises <dst_max, O src_max>.", "quantifier": "all vectors, all competitors O, every valid QR", "why_tests_cant": "optimality quantifies over all competitors", "anchors": ["products/ellipy/gras/la/la.py: orth_transl_max_dir"]}
{"id": "C28", "title": "mat_orth completes columns to an orthonormal basis with aligned signs", "statement": "mat_orth(A) is orthogonal, its first k columns span what the columns of A span (A = O[:, :k] R with non-negative diagonal R), for every valid QR factorisation.", "quantifier": "all matrices, every valid QR", "why_tests_cant": "sign ambiguity of QR", "anchors": ["products/ellipy/gras/la/la.py: mat_orth", "products/ellipy/gras/la/la.py: math_orth_col"]}
{"id": "C29", "title": "ell_sim_diag simultaneously diagonalises", "statement": "For positive definite A and symmetric positive semidefinite B the result T satisfies T A T^T = I and T B T^T is diagonal with non-negative entries in descending order, for every valid SVD.", "quantifier": "all matrices, every valid SVD", "why_tests_cant": "continuum; SVD non-uniqueness", "anchors": ["products/ellipy/elltool/core/core.py: ell_sim_diag"]}
{"id": "C30", "title": "ell_valign rotates x onto the direction of v", "statement": "T = ell_valign(v,x) is orthogonal and T x = (|x|/|v|) v for non-zero vectors of length at least 2, for every valid SVD.", "quantifier": "all vectors, every valid SVD", "why_tests_cant": "continuum; SVD sign ambiguity", "anchors": ["products/ellipy/elltool/core/core.py: ell_valign"]}
{"id": "C31", "title": "rho_mat computes the support function and a support point", "statement": "For positive semidefinite Q and centre c, rho_mat returns for every direction l the value max{<l,x> : x in E(c,Q)} and a point of E(c,Q) where it is attained.", "quantifier": "all ellipsoids including degenerate ones, all directions", "why_tests_cant": "maximum over a continuum", "anchors": ["products/ellipy/gras/geom/ell/ell.py: rho_mat"]}
{"id": "C32", "title": "volume is the Lebesgue measure", "statement": "Ellipsoid.volume of a non-degenerate ellipsoid (smallest eigenvalue above its abs_tol) equals the Lebesgue measure of the set E(c,Q), in every dimension, and coincides with gras ell_volume; degenerate ellipsoids give 0.", "quantifier": "all dimensions, all centres and positive definite shapes", "why_tests_cant": "measure-theoretic statement over all dimensions", "anchors": ["products/ellipy/elltool/core/aellipsoid/AEllipsoid.py: AEllipsoid.volume", "products/ellipy/gras/geom/ell/ell.py: ell_volume"]}
{"id": "C33", "title": "An Ellipsoid object is always valid", "statement": "Ellipsoid(...) succeeds exactly on a real, finite, square shape matrix that is symmetric within abs_tol with eigenvalues >= -abs_tol and a finite centre of matching length (or no data); every successfully built object stores exactly the given data.", "quantifier": "all argument lists: any arity, shapes, special values, complex entries, tolerances", "why_tests_cant": "unbounded input space, both directions of an iff", "anchors": ["products/ellipy/elltool/core/ellipsoid/Ellipsoid.py: Ellipsoid.__init__", "products/ellipy/elltool/core/ellipsoid/Ellipsoid.py: Ellipsoid._shape_mat", "products/ellipy/elltool/core/aellipsoid/AEllipsoid.py: AEllipsoid._center_vec"]}
{"id": "C34", "title": "Only projection modifies existing objects", "statement": "No public operation other than projection changes any pre-existing ellipsoid; arrays handed out by get_shape_mat/get_center_vec are fresh copies, so writing into them never changes the ellipsoid.", "quantifier": "every sequence of API calls and writes into returned arrays", "why_tests_cant": "aliasing depends on call sequences", "anchors": ["products/ellipy/elltool/core/ellipsoid/Ellipsoid.py: Ellipsoid.get_shape_mat", "products/ellipy/elltool/core/ellipsoid/Ellipsoid.py: Ellipsoid.get_projection", "products/ellipy/elltool/core/ellipsoid/Ellipsoid.py: Ellipsoid.polar", "products/ellipy/elltool/core/ellipsoid/Ellipsoid.py: Ellipsoid.uminus", "products/ellipy/elltool/core/aellipsoid/AEllipsoid.py: AEllipsoid.get_center_vec", "products/ellipy/elltool/core/aellipsoid/AEllipsoid.py: AEllipsoid.projection"]}
{"id": "C35", "title": "get_projection leaves its argument alone, projection updates it in place", "statement": "get_projection(arr,B) returns new ellipsoids and leaves every ellipsoid of arr unchanged; projection(arr,B) turns exactly the ellipsoids in arr into their projections, and when it raises no ellipsoid has changed.", "quantifier": "all arrays (with repeated objects allowed), all basis matrices", "why_tests_cant": "aliasing and failure atomicity are invisible to value tests", "anchors": ["products/ellipy/elltool/core/aellipsoid/AEllipsoid.py: AEllipsoid.projection", "products/ellipy/elltool/core/ellipsoid/Ellipsoid.py: Ellipsoid.get_projection"]}
{"id": "C36", "title": "projection is the shadow of the ellipsoid", "statement": "The projected ellipsoid is exactly the image of E(c,Q) under the coordinates of the orthogonal projection onto the span of the basis: {Bn^T x : x in E(c,Q)} with Bn the normalised basis; a basis that is not orthogonal within tolerance raises.", "quantifier": "all ellipsoids, all basis matrices", "why_tests_cant": "set equality over a continuum, and rejection of every bad basis", "anchors": ["products/ellipy/elltool/core/aellipsoid/AEllipsoid.py: AEllipsoid.projection", "products/ellipy/elltool/core/ellipsoid/Ellipsoid.py: _projection_single_internal"]}
{"id": "C37", "title": "Copies are faithful and independent", "statement": "get_copy/rep_mat/from_rep_mat give new objects with the same centre, shape and all the same tolerances/plot properties as the original; later modification of either side is invisible to the other.", "quantifier": "all ellipsoids and hyperplanes with any property values, all later mutations", "why_tests_cant": "needs arbitrary property values and later interactions", "anchors": ["products/ellipy/elltool/core/abasicellipsoid/ABasicEllipsoid.py: ABasicEllipsoid.get_copy", "products/ellipy/elltool/core/abasicellipsoid/ABasicEllipsoid.py: ABasicEllipsoid.rep_mat", "products/ellipy/elltool/core/ellipsoid/Ellipsoid.py: Ellipsoid._get_single_copy", "products/ellipy/elltool/core/hyperplane/Hyperplane.py: Hyperplane._get_single_copy"]}
{"id": "C38", "title": "to_dict / from_dict round trip", "statement": "from_dict(to_dict(e, is_prop_included=True)) rebuilds an ellipsoid with identical data and properties for every valid ellipsoid.", "quantifier": "all valid ellipsoids with any properties", "why_tests_cant": "unbounded data and property values", "anchors": ["products/ellipy/elltool/core/ellipsoid/Ellipsoid.py: Ellipsoid.to_dict", "products/ellipy/elltool/core/ellipsoid/Ellipsoid.py: Ellipsoid.from_dict"]}
{"id": "C39", "title": "Unary minus reflects the set", "statement": "-E is the set {-x : x in E}; applying it twice gives back the same centre and shape, and the result keeps the tolerances of E.", "quantifier": "all ellipsoids and hyperplanes", "why_tests_cant": "all inputs incl. user-chosen tolerances", "anchors": ["products/ellipy/elltool/core/ellipsoid/Ellipsoid.py: Ellipsoid.uminus", "products/ellipy/elltool/core/hyperplane/Hyperplane.py: Hyperplane.uminus"]}
{"id": "C40", "title": "rho works elementwise on arrays of ellipsoids or directions", "statement": "rho(ells, dirs) gives for one ellipsoid and many directions, or many ellipsoids and one direction, or equally many of both, the support value of each pair; incompatible sizes raise wrongInput.", "quantifier": "all array shapes", "why_tests_cant": "all combinations of shapes", "anchors": ["products/ellipy/elltool/core/ellipsoid/Ellipsoid.py: Ellipsoid.rho"]}
{"id": "C41", "title": "is_internal answers membership in the union or intersection", "statement": "For non-degenerate ellipsoids, is_internal(ells, X, \"u\") (or \"i\") is true for each column x of X exactly when x lies, within the tolerance, in at least one (in all) of the ellipsoids.", "quantifier": "all arrays of ellipsoids, all points, both modes", "why_tests_cant": "continuum of points and all list lengths", "anchors": ["products/ellipy/elltool/core/ellipsoid/Ellipsoid.py: Ellipsoid.is_internal"]}
{"id": "C42", "title": "is_bigger decides inclusion of centred ellipsoids", "statement": "For non-degenerate first ellipsoid, is_bigger(E1,E2) is true exactly when x^T Q2 x < (1+abs_tol) x^T Q1 x for all x != 0, i.e. E2 centred at 0 lies inside E1 centred at 0 up to tolerance.", "quantifier": "all ellipsoid pairs of equal dimension, every valid SVD", "why_tests_cant": "inclusion of sets quantifies over a continuum", "anchors": ["products/ellipy/elltool/core/ellipsoid/Ellipsoid.py: Ellipsoid.is_bigger", "products/ellipy/elltool/core/core.py: ell_sim_diag"]}
{"id": "C43", "title": "minksum_ea encloses the Minkowski sum and touches it in the given direction", "statement": "For non-degenerate ellipsoids and direction l != 0 the returned ellipsoid contains E1+...+Ek and its support value in direction l equals the sum of the support values.", "quantifier": "all k >= 2, all dimensions, all ellipsoids and directions", "why_tests_cant": "set containment over a continuum", "anchors": ["products/ellipy/elltool/core/ellipsoid/Ellipsoid.py: Ellipsoid.minksum_ea"]}
{"id": "C44", "title": "minksum_ia is inside the Minkowski sum and touches it in the given direction", "statement": "For non-degenerate ellipsoids and direction l != 0 the returned ellipsoid is contained in E1+...+Ek and its support value in direction l equals the sum of the support values.", "quantifier": "all k >= 2, all dimensions, all ellipsoids and directions", "why_tests_cant": "set containment over a continuum", "anchors": ["products/ellipy/elltool/core/ellipsoid/Ellipsoid.py: Ellipsoid.minksum_ia", "products/ellipy/gras/la/la.py: ml_orth_transl"]}
{"id": "C45", "title": "Internal approximations lie inside external ones", "statement": "For the same ellipsoids, every internal approximation (any direction) is contained in every external approximation (any direction), and both have the sum of the centres as centre.", "quantifier": "all ellipsoids and all pairs of directions", "why_tests_cant": "relation between two API calls over a continuum", "anchors": ["products/ellipy/elltool/core/ellipsoid/Ellipsoid.py: Ellipsoid.minksum_ea", "products/ellipy/elltool/core/ellipsoid/Ellipsoid.py: Ellipsoid.minksum_ia"]}
{"id": "C46", "title": "polar is the polar set", "statement": "For an ellipsoid with the origin in its interior, polar returns an ellipsoid equal to {l : <l,x> <= 1 for all x in E}; it accepts arrays of ellipsoids and raises when the polar is not an ellipsoid.", "quantifier": "all ellipsoids, all array lengths", "why_tests_cant": "set equality over a continuum", "anchors": ["products/ellipy/elltool/core/ellipsoid/Ellipsoid.py: Ellipsoid.polar", "products/ellipy/elltool/core/ellipsoid/Ellipsoid.py: _get_scalar_polar_internal"]}
{"id": "C47", "title": "get_boundary returns boundary points", "statement": "Every vertex returned by get_boundary lies on the boundary of the ellipsoid (up to the eps fudge of the direction grid) and the face list is a closed polyline (2-D) or the triangles of the sphere (3-D).", "quantifier": "all non-degenerate ellipsoids of dimension 2 and 3, all point counts, with and without the faces", "why_tests_cant": "all point counts and ellipsoids", "anchors": ["products/ellipy/elltool/core/ellipsoid/Ellipsoid.py: Ellipsoid.get_boundary", "products/ellipy/gras/geom/tri/tri.py: sphere_tri_ext", "products/ellipy/gras/geom/geom.py: circle_part"]}
{"id": "C48", "title": "Ellipsoid equality is reflexive and symmetric, and array comparison is elementwise", "statement": "e == e holds for all valid ellipsoids, e1 == e2 iff e2 == e1, comparing arrays of equal shape (or one scalar with an array) gives elementwise verdicts.", "quantifier": "all ellipsoids and array shapes", "why_tests_cant": "relational, unbounded", "anchors": ["products/ellipy/elltool/core/abasicellipsoid/ABasicEllipsoid.py: ABasicEllipsoid._is_equal_internal"]}
{"id": "C49", "title": "Equality with properties included compares the properties", "statement": "is_equal(a, b, is_prop_included=True) returns a verdict for all ellipsoids, true only if tolerances and plot settings agree too.", "quantifier": "all ellipsoid arrays", "why_tests_cant": "no shipped test passes is_prop_included=True", "anchors": ["products/ellipy/elltool/core/abasicellipsoid/ABasicEllipsoid.py: ABasicEllipsoid._is_equal_internal", "products/ellipy/elltool/core/ellipsoid/Ellipsoid.py: Ellipsoid.to_dict"]}
{"id": "C50", "title": "Hyperplane equality is equality of sets", "statement": "Hyperplane(k n, k c) == Hyperplane(n, c) for every k != 0, whenever the hyperplane is non-degenerate.", "quantifier": "all normals, shifts and non-zero factors, any sign", "why_tests_cant": "continuum of factors", "anchors": ["products/ellipy/elltool/core/hyperplane/Hyperplane.py: Hyperplane.to_dict", "products/ellipy/elltool/core/abasicellipsoid/ABasicEllipsoid.py: _is_equal_internal"]}
{"id": "C51", "title": "Hyperplane.contains decides membership", "statement": "contains(h, x) is true exactly when |<n,x> - c| < abs_tol for a finite x; infinite coordinates are allowed only where the normal vanishes; one hyperplane with many points, many hyperplanes with one point and equally many of both are evaluated pairwise, everything else raises.", "quantifier": "all hyperplanes, points, array sizes", "why_tests_cant": "continuum and all size combinations", "anchors": ["products/ellipy/elltool/core/hyperplane/Hyperplane.py: Hyperplane.contains"]}
{"id": "C52", "title": "is_parallel detects exactly parallel hyperplanes", "statement": "is_parallel(h1,h2) is true exactly when the normals are proportional (within tolerance).", "quantifier": "all pairs of hyperplanes with non-zero normals", "why_tests_cant": "shipped test has one pair", "anchors": ["products/ellipy/elltool/core/hyperplane/Hyperplane.py: Hyperplane.is_parallel"]}
{"id": "C53", "title": "map_face_2_edge builds a correct face-edge incidence", "statement": "For every list of triangles with distinct vertices the edge table lists each undirected edge once in increasing order and, for each face, the recorded edge indices and directions are those of its three sides.", "quantifier": "all triangle lists, every tie order of the unstable argsort used inside", "why_tests_cant": "unbounded meshes; unstable sorting", "anchors": ["products/ellipy/gras/geom/tri/tri.py: map_face_2_edge", "products/ellipy/gras/geom/tri/tri.py: get_face_edge_info"]}
{"id": "C54", "title": "shrink_face_tri keeps the mesh tables consistent", "statement": "After any number of refinement steps the returned face, edge and face-to-edge tables refer to existing vertices/edges, and each face-to-edge entry names the edge joining the corresponding two face vertices with the right direction flag.", "quantifier": "all triangle meshes, all numbers of steps, all edge-length thresholds, all vertex adjustment functions", "why_tests_cant": "unbounded refinement histories; partial refinement only happens for special geometries", "anchors": ["products/ellipy/gras/geom/tri/tri.py: shrink_face_tri"]}
{"id": "C55", "title": "shrink_face_tri terminates with short edges", "statement": "With max_edge_len > 0, no step limit and no vertex adjustment the refinement loop stops, and on return no edge is longer than max_edge_len.", "quantifier": "all finite meshes, all positive thresholds", "why_tests_cant": "termination", "anchors": ["products/ellipy/gras/geom/tri/tri.py: shrink_face_tri"]}
{"id": "C56", "title": "sphere_tri yields a closed triangulated unit sphere with 10*4^d+2 vertices", "statement": "sphere_tri(d) has 10*4^d+2 vertices, all of unit norm, 20*4^d faces, 30*4^d edges (Euler characteristic 2) and every edge belongs to exactly two faces; the faces are oriented outwards. The vertices are different and all used, the cones over the faces cover the space and meet only along common sides, and the triangulation is symmetric about the origin; different vertices are at least 1/(2*4^d) apart.", "quantifier": "all depths d", "why_tests_cant": "induction over depth; tests stop at small depth", "anchors": ["products/ellipy/gras/geom/tri/tri.py: sphere_tri", "products/ellipy/gras/geom/tri/tri.py: shrink_face_tri", "products/ellipy/gras/geom/tri/tri.py: icosahedron"]}
{"id": "C57", "title": "The automatic depth is the least sufficient one", "statement": "For a requested number of points n, sphere_tri_ext(3, n) picks the smallest depth d >= 1 whose triangulation has at least n vertices.", "quantifier": "all n", "why_tests_cant": "all n; boundary values 10*4^d+2", "anchors": ["products/ellipy/gras/geom/tri/tri.py: sphere_tri_ext", "products/ellipy/gras/geom/tri/tri.py: calc_depth"]}
{"id": "C58", "title": "ell_tube_2_tri triangulates the tube surface exactly once", "statement": "For n_e points per ring and n_p rings the result has 2 n_e (n_p-1) triangles, all indices are valid, each triangle joins adjacent rings, and every quad between neighbouring rings is covered by exactly two triangles, wrap-around included.", "quantifier": "all n_e >= 1, n_p >= 1", "why_tests_cant": "index arithmetic for all sizes", "anchors": ["products/ellipy/gras/geom/tri/tri.py: ell_tube_2_tri"]}
{"id": "C59", "title": "circle_part spreads unit vectors evenly", "statement": "circle_part(n) returns n points on the unit circle, pairwise distinct, at angles 2 pi k / n.", "quantifier": "all n >= 1", "why_tests_cant": "all n", "anchors": ["products/ellipy/gras/geom/geom.py: circle_part"]}
{"id": "C60", "title": "Logging a message emits it once", "statement": "A message logged through the logger returned by get_logger() is emitted exactly once, however often get_logger() was called before from the same function.", "quantifier": "all sequences of get_logger calls and log calls", "why_tests_cant": "depends on call history", "anchors": ["products/ellipy/gen/logging/logging.py: get_logger"]}
{"id": "C61", "title": "Hyperplane dictionaries keep the set", "statement": "Hyperplane.from_dict(Hyperplane.to_dict(h)) is a hyperplane that denotes the same set as h.", "quantifier": "all hyperplanes with a non-zero normal, any tolerances", "why_tests_cant": "continuum of normals and shifts; the normal form depends on signs and tolerances", "anchors": ["products/ellipy/elltool/core/hyperplane/Hyperplane.py: Hyperplane.to_dict", "products/ellipy/elltool/core/hyperplane/Hyperplane.py: Hyperplane.from_dict"]}
{"id": "C62", "title": "quad_mat and inv_mat compute the quadratic form and the inverse", "statement": "quad_mat(q, x, c, mode) is (x-c)^T q (x-c) for mode 'plain' and (x-c)^T q^-1 (x-c) for modes 'inv' and 'invadv', for x and c given as arrays of shape (n,), (1,n) or (n,1); inv_mat(q) is the inverse of q; exactly the arguments with wrong modes, shapes or (for invadv) singular matrices raise.", "quantifier": "all dimensions, all matrices, all array layouts, every least squares solver", "why_tests_cant": "continuum of matrices and vectors; the layouts multiply the cases", "anchors": ["products/ellipy/gras/geom/ell/ell.py: inv_mat", "products/ellipy/gras/geom/ell/ell.py: quad_mat"]}
{"id": "C63", "title": "A logger is named after the function that asked for it", "statement": "get_logger() returns the logger whose dotted name is the module, the class (for methods) and the name of the calling function.", "quantifier": "all stacks: functions, methods, module level, interactive use", "why_tests_cant": "all kinds of callers", "anchors": ["products/ellipy/gen/logging/logging.py: get_logger", "products/ellipy/gen/common/common.py: get_caller_name", "products/ellipy/gen/common/common.py: get_caller_name_ext"]}
{"id": "C64", "title": "ell_tube_discr_tri closes every ring", "statement": "Row j of ell_tube_discr_tri(n, m) lists the n points of ring j in order and returns to the first one.", "quantifier": "all n >= 1, all m", "why_tests_cant": "index arithmetic for all sizes", "anchors": ["products/ellipy/gras/geom/tri/tri.py: ell_tube_discr_tri"]}
{"id": "C65", "title": "get_rho_boundary returns support values and touching points", "statement": "For every direction of the grid get_rho_boundary returns the value of the support function of the ellipsoid in that direction and a point of the ellipsoid that attains it; the directions are the grid followed by its first direction; get_rho_boundary_by_factor does the same with the rounded down product of the default number of points and the factor.", "quantifier": "all ellipsoids of dimension 2 and 3, flat ones included, all numbers of points", "why_tests_cant": "all numbers of points and all matrices; flat ellipsoids divide by zero", "anchors": ["products/ellipy/elltool/core/ellipsoid/Ellipsoid.py: Ellipsoid.get_rho_boundary", "products/ellipy/elltool/core/ellipsoid/Ellipsoid.py: Ellipsoid.get_rho_boundary_by_factor", "products/ellipy/gras/geom/ell/ell.py: rho_mat", "products/ellipy/gras/geom/tri/tri.py: sphere_tri_ext"]}
{"id": "C66", "title": "_get_grid_by_factor returns the scaled grid", "statement": "_get_grid_by_factor(factor) returns the points and the faces of the grid of directions whose number of points is the rounded down product of the number of points of the ellipsoid and the factor.", "quantifier": "all ellipsoids of dimension 2 and 3, all factors", "why_tests_cant": "a continuum of factors; the plane and the space take different paths", "anchors": ["products/ellipy/elltool/core/ellipsoid/Ellipsoid.py: Ellipsoid._get_grid_by_factor", "products/ellipy/gras/geom/tri/tri.py: sphere_tri_ext"]}
{"id": "C67", "title": "ell_fusion_lambda is the derivative condition of the smallest fused ellipsoid", "statement": "For positive semidefinite shape forms with positive definite sum and a weight a in (0,1) at which the fused set {x : a w1(x) + (1-a) w2(x) <= 1} has interior points, ell_fusion_lambda returns a number whose sign is opposite to that of the derivative of the volume of the fused set with respect to a; so the volume minimising weight is a zero; the call raises exactly when the weighted matrix is singular.", "quantifier": "all dimensions, centers, forms and weights", "why_tests_cant": "the claim is about the derivative of a Lebesgue measure over a continuum of inputs", "anchors": ["products/ellipy/elltool/core/core.py: ell_fusion_lambda"]}
{"id": "C68", "title": "sup_2_boundary_2 returns the corners of the circumscribed polygon", "statement": "Row i of sup_2_boundary_2(dirs, sup) lies on the supporting lines of the directions i and i+1 (cyclically) when they meet; when the values are support values of a set and no direction lies strictly between two consecutive ones, it is a corner of the circumscribed polygon; the call raises exactly for no directions or too few values.", "quantifier": "all numbers of directions, all values, every least squares solver", "why_tests_cant": "continuum of directions; cyclic wrap-around for all sizes", "anchors": ["products/ellipy/gras/geom/sup/sup.py: sup_2_boundary_2"]}
{"id": "C69", "title": "sup_2_boundary_3 returns the meeting point of the supporting planes of every face", "statement": "Row k of sup_2_boundary_3(dirs, sup, faces) lies on the supporting planes of all vertices of face k when these have a common point, and is the only such point when the directions span the space; the call raises exactly when some vertex number is out of range.", "quantifier": "all numbers of directions and faces, all values, every least squares solver", "why_tests_cant": "continuum of directions and all index tables, negative indices included", "anchors": ["products/ellipy/gras/geom/sup/sup.py: sup_2_boundary_3"]}
{"id": "C70", "title": "sup_geom_diff_2d returns the support values of the geometric difference", "statement": "For directions l listed counterclockwise around the origin, the polygon A with the support values rho1 in these directions and a set B with support values rho2 < rho1, sup_geom_diff_2d(rho1, rho2, l) returns the support values of the geometric difference {x : x + B in A} in the directions l.", "quantifier": "all numbers of directions, all values, every valid convex hull routine, every least squares solver", "why_tests_cant": "continuum of directions; the result depends on the unspecified order of the hull rows and on which directions are redundant", "anchors": ["products/ellipy/gras/geom/sup/sup.py: sup_geom_diff_2d"]}
{"id": "C71", "title": "sup_geom_diff_3d returns the support values of the geometric difference", "statement": "For directions l around the origin, the polytope A with the support values rho1 in these directions and a set B with support values rho2 < rho1, sup_geom_diff_3d(rho1, rho2, l) returns, up to the tolerance, the support values of the geometric difference {x : x + B in A} in the directions l.", "quantifier": "all numbers of directions, all values, every valid convex hull routine", "why_tests_cant": "continuum of directions and sizes; an absolute tolerance decides which triangles are used", "anchors": ["products/ellipy/gras/geom/sup/sup.py: sup_geom_diff_3d"]}
{"id": "C72", "title": "is_face finds exactly the rows that are faces", "statement": "is_face(f_mat, f_to_check_mat)[k] is true exactly when row k of the second matrix has the three vertices of some row of f_mat, in any order; the call raises exactly when f_mat does not have three columns.", "quantifier": "all face matrices, all rows with distinct vertices, every behaviour of the unstable sort", "why_tests_cant": "unbounded matrices; the result depends on how many faces share an edge and on the order of equal keys", "anchors": ["products/ellipy/gras/geom/tri/tri.py: is_face", "products/ellipy/gras/geom/tri/tri.py: get_face_edge_info", "products/ellipy/gen/common/common.py: is_member"]}
{"id": "C73", "title": "is_tri_equal compares triangulations up to renumbering and the tolerance", "statement": "is_tri_equal(v1, f1, v2, f2, tol) returns True exactly when a renumbering of the vertices moves every vertex by at most tol in every coordinate and takes the faces of one triangulation to the faces of the other, in any order; a triangulation is equal to itself and to every renumbering of it.", "quantifier": "all numbers of vertices and faces, all coordinates, every behaviour of the unstable sorts", "why_tests_cant": "continuum of coordinates and all renumberings; clusters of coordinates depend on chains of vertices", "anchors": ["products/ellipy/gras/geom/tri/tri.py: is_tri_equal", "products/ellipy/gras/geom/tri/tri.py: is_face", "products/ellipy/gras/gen/gen.py: sort_rows_tol"]}
{"id": "C74", "title": "mat_dot is the normalised matrix inner product", "statement": "mat_dot(A, B) returns trace(A^T B)/n for every pair of n x n slices of two arrays of one shape; it is symmetric, positive on non-zero slices and one on the identity; the call raises exactly when the shapes differ or the first two axes do not exist or differ.", "quantifier": "all shapes with any number of axes, all values", "why_tests_cant": "unbounded shapes and continuum of values", "anchors": ["products/ellipy/gras/gen/gen.py: mat_dot"]}
{"id": "C75", "title": "triu, transpose and make_symmetric act slice by slice", "statement": "For a batch of matrices triu zeroes the entries below the diagonals, transpose exchanges rows and columns and make_symmetric returns the symmetric parts; a matrix without a time axis is treated as a batch of one; make_symmetric of matrices that are not square raises.", "quantifier": "all shapes, all values, arrays with two or three axes", "why_tests_cant": "the behaviour depends on numpy broadcasting, which differs for every combination of axis lengths", "anchors": ["products/ellipy/gras/gen/gen.py: MatVector.triu", "products/ellipy/gras/gen/gen.py: MatVector.transpose", "products/ellipy/gras/gen/gen.py: MatVector.make_symmetric"]}
{"id": "C76", "title": "MatVector.pinv solves every slice", "statement": "Slice t of pinv(A) maps every right-hand side y to the shortest least-squares solution of A_t x = y, and is the inverse of A_t when A_t is invertible; a matrix without a time axis is treated as a batch of one.", "quantifier": "all shapes, all values, all right-hand sides, every pseudo-inverse routine", "why_tests_cant": "continuum of matrices, singular and rectangular ones included", "anchors": ["products/ellipy/gras/gen/gen.py: MatVector.pinv"]}
{"id": "C77", "title": "from_func and eval_func evaluate the callback once per time or slice", "statement": "from_func(f, t)[:, :, k] is f(t_k), with numbers as 1 x 1 matrices and vectors as columns; eval_func returns the values of f on the slices as a list, as a batch or as a vector; values of the wrong shape raise.", "quantifier": "all callbacks (failing ones included), all numbers of times, all shapes", "why_tests_cant": "quantifies over callbacks; the outcome depends on the shape of each value", "anchors": ["products/ellipy/gras/gen/gen.py: MatVector.from_func", "products/ellipy/gras/gen/gen.py: MatVector.eval_func"]}
{"id": "C78", "title": "from_expression and from_formula_mat evaluate text at all times", "statement": "from_expression completes the brackets of a text so that it denotes a matrix and returns the values of its entries at the times, constants repeated; from_formula_mat does this for every text of a table.", "quantifier": "all texts, all numbers of times, every evaluator", "why_tests_cant": "unbounded texts; the completion looks at the outermost two characters only", "anchors": ["products/ellipy/gras/gen/gen.py: MatVector.from_expression", "products/ellipy/gras/gen/gen.py: MatVector.from_formula_mat"]}
{"id": "C79", "title": "lr_divide_vec computes a_t^T B_t^{-1} a_t", "statement": "lr_divide_vec(B, A) returns the numbers a_t^T B_t^{-1} a_t for a batch or a single matrix B and one vector or one vector per time, leaves its arguments alone, and raises when the sizes do not agree.", "quantifier": "all shapes, all values, every least squares solver", "why_tests_cant": "continuum of matrices; four combinations of argument shapes", "anchors": ["products/ellipy/gras/gen/gen.py: SquareMatVector.lr_divide_vec"]}
{"id": "C80", "title": "The type checks of ellipsoid arrays accept exactly instances of the class", "statement": "check_is_me lets an argument through exactly when it is an instance of the class or an iterable of instances (also an empty one) and raises with the tag wrongInput (and the name of the variable) otherwise; _check_if_scalar accepts exactly one instance, alone or in an array of any shape.", "quantifier": "all arguments: single objects and arrays of every shape with any mixture of instances and other objects", "why_tests_cant": "unbounded arrays; the foreign object may be in any place", "anchors": ["products/ellipy/elltool/core/abasicellipsoid/ABasicEllipsoid.py: _check_if_scalar", "products/ellipy/elltool/core/abasicellipsoid/ABasicEllipsoid.py: _check_is_me_internal"]}
{"id": "C81", "title": "min_eig and max_eig are the extreme values of the quadratic form", "statement": "min_eig and max_eig return for every ellipsoid of an array the smallest and the largest value of x^T Q x on the unit sphere; their square roots are the radii of the largest ball about the centre inside the ellipsoid and of the smallest one around it; they raise exactly for foreign objects and empty ellipsoids.", "quantifier": "all arrays of ellipsoids of any dimensions, every eigenvalue routine", "why_tests_cant": "continuum of matrices and of points of the sphere", "anchors": ["products/ellipy/elltool/core/aellipsoid/AEllipsoid.py: min_eig", "products/ellipy/elltool/core/aellipsoid/AEllipsoid.py: max_eig"]}
{"id": "C82", "title": "trace is the sum of the squared half widths along any orthonormal basis", "statement": "trace returns for every ellipsoid the sum of the squares of its half widths in the directions of any orthonormal basis, which is the squared distance from the centre to the corners of any box around it; it raises exactly for foreign objects and empty ellipsoids.", "quantifier": "all arrays of ellipsoids, all orthonormal bases", "why_tests_cant": "continuum of matrices and bases", "anchors": ["products/ellipy/elltool/core/aellipsoid/AEllipsoid.py: trace"]}
{"id": "C83", "title": "dimension reports the dimension of the space and of the ellipsoid", "statement": "dimension returns an array of the shape of the argument with the dimensions of the spaces and, with return_rank, another one with the dimensions of the affine hulls of the ellipsoids; it raises exactly for foreign objects, and with return_rank also for empty arrays and empty ellipsoids.", "quantifier": "all arrays of ellipsoids of any dimensions and shapes, every singular value routine", "why_tests_cant": "continuum of degenerate matrices", "anchors": ["products/ellipy/elltool/core/aellipsoid/AEllipsoid.py: dimension"]}
{"id": "C84", "title": "get_property reads properties under all their names", "statement": "get_property returns the values of a numeric property for the ellipsoids in row-major order under each of its three names together with the value of the function on this list, NaN for empty arrays; get_abs_tol and get_rel_tol return the smallest tolerance; unknown names raise KeyError if there are ellipsoids; centres and shape matrices are accepted only if they consist of one number.", "quantifier": "all arrays of ellipsoids, all names, all functions", "why_tests_cant": "unbounded arrays, all strings as names", "anchors": ["products/ellipy/elltool/core/abasicellipsoid/ABasicEllipsoid.py: get_property", "products/ellipy/elltool/core/abasicellipsoid/ABasicEllipsoid.py: get_abs_tol", "products/ellipy/elltool/core/abasicellipsoid/ABasicEllipsoid.py: get_rel_tol", "products/ellipy/elltool/core/abasicellipsoid/ABasicEllipsoid.py: get_n_plot_2d_points", "products/ellipy/elltool/core/abasicellipsoid/ABasicEllipsoid.py: get_n_plot_3d_points"]}
{"id": "C85", "title": "ell_unitball is the unit ball", "statement": "ell_unitball(n) is the set of points of R^n at distance at most one from the origin, carrying the current settings; negative n raises.", "quantifier": "all integers n, all settings with a positive tolerance, every eigenvalue routine", "why_tests_cant": "unbounded dimension", "anchors": ["products/ellipy/elltool/core/core.py: ell_unitball"]}
{"id": "C86", "title": "_calc_diff_one_dir computes support points of the geometric difference", "statement": "For every direction the row returned by _calc_diff_one_dir is a point whose product with the direction is the difference of the support values of the two ellipsoids (up to 1e-14 when it coincides with the difference of the centres), and it belongs to the geometric difference whenever the support value of the difference is this number; the flag tells whether the space has dimension three and all points coincide with the difference of the centres.", "quantifier": "all pairs of ellipsoids, all dimensions, any number of directions", "why_tests_cant": "continuum of ellipsoids and directions", "anchors": ["products/ellipy/elltool/core/ellipsoid/Ellipsoid.py: _calc_diff_one_dir"]}
{"id": "C87", "title": "sphere_part returns n different directions, no two of them opposite", "statement": "For n >= 1 (up to 5*4^12+1) sphere_part(n) returns n different unit vectors, no two of them opposite, taken from the vertices of the coarsest sphere_tri triangulation (depth >= 1) with at least n pairs of opposite vertices, one vertex of each pair; every third row is one of the vertices nearest to the axis z, x, y respectively, in the order of the distances. Numbers n <= 0 are rejected.", "quantifier": "all n from 1 to 83886081, any sorting routine", "why_tests_cant": "all n; depends on separation and symmetry of the triangulation at every depth", "anchors": ["products/ellipy/gras/geom/geom.py: sphere_part"]}
{"id": "C88", "title": "The points of get_boundary approximate the boundary of the ellipsoid", "statement": "For a nondegenerate ellipse and n points, every boundary point is within pi/n + 2*eps of one of the points of get_boundary (measured by the ellipse itself: the difference lies in the ellipse moved to the origin and scaled by this number), and in every direction one of the points reaches the support value up to the part (pi/n)^2/2 + 2*eps of its distance from the centre. In space, with the faces asked for, the same holds with sqrt(2)/2^d + 2*eps and 1/4^d + 2*eps, where d >= 1 is the least depth with 10*4^d+2 >= n.", "quantifier": "all nondegenerate ellipsoids in dimension 2 and 3, all n >= 1, all boundary points and directions", "why_tests_cant": "all boundary points and all depths; needs the covering of the sphere by the triangulation at every depth", "anchors": ["products/ellipy/elltool/core/ellipsoid/Ellipsoid.py: Ellipsoid.get_boundary", "products/ellipy/gras/geom/tri/tri.py: sphere_tri_ext", "products/ellipy/gras/geom/tri/tri.py: sphere_tri"]}
{"id": "C89", "title": "The approximations in all directions determine the Minkowski sum", "statement": "A point belongs to the Minkowski sum of the ellipsoids exactly when, for every direction, it belongs to the ellipsoid returned by minksum_ea for this direction. The closed convex hull of the ellipsoids returned by minksum_ia for all directions lies in the sum and contains the sum shrunk by the factor 1-1e-14 towards its centre.", "quantifier": "all arrays of two or more nondegenerate ellipsoids of the same dimension, all points, every eigenvalue and least-squares routine", "why_tests_cant": "an intersection over a continuum of directions", "anchors": ["products/ellipy/elltool/core/ellipsoid/Ellipsoid.py: minksum_ea", "products/ellipy/elltool/core/ellipsoid/Ellipsoid.py: minksum_ia"]}
{"id": "C90", "title": "The polar of the polar is the original ellipsoid", "statement": "For a nondegenerate ellipsoid with the origin inside, the polar of its polar has the original centre and shape matrix, unless the polar is degenerate with respect to the tolerance: then the second call raises. It cannot raise if the points of the ellipsoid are at distance at most R from the origin and abs_tol < 1/R^2.", "quantifier": "all nondegenerate ellipsoids with the origin inside, all dimensions, all tolerances", "why_tests_cant": "continuum of ellipsoids, composition of two calls", "anchors": ["products/ellipy/elltool/core/ellipsoid/Ellipsoid.py: polar"]}
{"id": "C91", "title": "A Hyperplane object consists of exactly the data given, and only finite data are accepted", "statement": "Hyperplane(normal, shift) succeeds exactly for positive tolerances, a numeric array of finite entries with at most one dimension different from 1 as the normal and one finite number as the shift (imaginary parts below the rounding unit are ignored, larger ones are rejected); the object holds exactly these data. from_rep_mat gives an array of the requested shape of hyperplanes with these data (but the relative tolerance of the current settings), and raises exactly if the constructor does or the shape is empty or has a negative entry.", "quantifier": "all arguments, all shapes", "why_tests_cant": "unbounded shapes, values and tolerances; all error branches", "anchors": ["products/ellipy/elltool/core/hyperplane/Hyperplane.py: Hyperplane.__init__", "products/ellipy/elltool/core/hyperplane/Hyperplane.py: _normal_vec", "products/ellipy/elltool/core/hyperplane/Hyperplane.py: _shift", "products/ellipy/elltool/core/hyperplane/Hyperplane.py: from_rep_mat", "products/ellipy/gras/la/la.py: try_treat_as_real"]}
{"id": "C92", "title": "Inverses of matrix arrays are taken slice by slice, and exactly the matrices with a negative eigenvalue are replaced by nan", "statement": "SquareMatVector.inv raises exactly if one of the slices is singular and otherwise returns an array of the same shape whose slices are the two-sided inverses; applying it twice gives the original. make_pos_definite_or_nan returns an array of the same shape in which every slice is either kept or replaced by nan; it is kept exactly if the symmetric matrix with the same lower triangle (the slice itself if it is symmetric) is positive semidefinite. It raises only for slices without entries.", "quantifier": "all batches of square matrices of every size", "why_tests_cant": "all batch lengths and matrices", "anchors": ["products/ellipy/gras/gen/gen.py: SquareMatVector.inv", "products/ellipy/gras/gen/gen.py: SquareMatVector.make_pos_definite_or_nan"]}
{"id": "C93", "title": "SquareMatVector.sqrtm_pos takes the positive semidefinite root of every slice", "statement": "SquareMatVector.sqrtm_pos raises exactly if one of the slices is not symmetric positive semidefinite, and otherwise returns an array of the same shape whose slices are the symmetric positive semidefinite roots of the slices.", "quantifier": "all batches of square matrices of every size, every eigenvalue routine", "why_tests_cant": "all batch lengths and matrices", "anchors": ["products/ellipy/gras/gen/gen.py: SquareMatVector.sqrtm_pos"]}
{"id": "C94", "title": "is_mat_not_deg says whether the matrix shrinks some unit vector below the tolerance", "statement": "is_mat_not_deg(m, tol) is true exactly if |m v| >= tol |v| for all vectors v (|m^T v| if the matrix is wide); a square matrix accepted with tol > 0 is invertible and every invertible matrix is accepted for all small enough tolerances; negative tolerances and empty matrices (for tol > 0) are rejected.", "quantifier": "all matrices and tolerances, every singular value routine", "why_tests_cant": "all vectors", "anchors": ["products/ellipy/gras/la/la.py: is_mat_not_deg"]}
{"id": "C95", "title": "abs_rel_compare returns the largest differences", "statement": "If inf and nan stand at the same places, abs_rel_compare returns as max_abs_diff the largest absolute difference of finite entries (0 if there are none) and, if asked for, as max_rel_diff the largest of 2|x-y|/(|x|+|y|) over the pairs whose absolute difference exceeds the absolute tolerance (none if there is no such pair). If the arrays are called different the report names the reason: the first kind of special value at different places, or the two numbers.", "quantifier": "all numeric arrays and tolerances", "why_tests_cant": "arrays of all shapes and all values", "anchors": ["products/ellipy/gen/common/common.py: abs_rel_compare"]}
{"id": "C96", "title": "Functions on arrays of hyperplanes act element by element", "statement": "uminus returns an array of the same shape of the same hyperplanes as sets with the opposite data, twice gives the original; dimension returns the dimensions in the same shape; 0 for negligible hyperplanes; to_dict followed by from_dict restores the same sets in the same shape. uminus never raises, dimension exactly for hyperplanes without coordinates, the restoring exactly if one hyperplane has a zero normal or is negligible.", "quantifier": "all arrays of hyperplanes of every shape", "why_tests_cant": "all shapes", "anchors": ["products/ellipy/elltool/core/hyperplane/Hyperplane.py: uminus", "products/ellipy/elltool/core/hyperplane/Hyperplane.py: dimension", "products/ellipy/elltool/core/hyperplane/Hyperplane.py: to_dict", "products/ellipy/elltool/core/hyperplane/Hyperplane.py: from_dict"]}
{"id": "C97", "title": "The report of dict_compare lists the differing fields and nothing else", "statement": "If two dictionaries have different keys the report lists the keys missing on either side in increasing order. Otherwise the verdict and the report are put together from the comparisons of the single fields in increasing order of the keys: equal iff all fields are equal, one entry per differing field which starts with the name of the field. For arrays of dictionaries the entries are those of the element comparisons marked with the position. The comparison raises exactly if the comparison of one of the fields does.", "quantifier": "all nested dictionaries and arrays of dictionaries, all tolerances and number formats", "why_tests_cant": "unbounded nesting, widths and lengths", "anchors": ["products/ellipy/gen/dict/dict.py: dict_compare", "products/ellipy/gen/dict/dict.py: dict_compare_vec"]}
{"id": "C98", "title": "No ellipsoid fits between the sum of two ellipsoids and minksum_ea", "statement": "For two non-degenerate ellipsoids and a non-zero direction, an ellipsoid that contains the Minkowski sum and lies in the ellipsoid returned by minksum_ea is equal to the latter. (For three ellipsoids this is false.)", "quantifier": "all pairs of non-degenerate ellipsoids in every dimension, all directions, all ellipsoids in between", "why_tests_cant": "quantifies over all ellipsoids", "anchors": ["products/ellipy/elltool/core/ellipsoid/Ellipsoid.py: Ellipsoid.minksum_ea"]}
{"id": "C99", "title": "reg_pos_def_mat, reg_mat and sqrtm_pos change a matrix as little as possible", "statement": "With orthonormal eigenvectors reg_pos_def_mat returns the unique matrix nearest to its argument in the Frobenius norm among all symmetric matrices with spectrum at least the tolerance. The square of the result of sqrtm_pos is the unique nearest positive semidefinite matrix. The result of reg_mat is nearest to its argument among all square matrices that stretch every vector at least reg_tol times, and it is the only nearest one if the argument is invertible.", "quantifier": "all symmetric matrices of every size, tolerances, and competing matrices", "why_tests_cant": "minimum over an infinite set of matrices", "anchors": ["products/ellipy/gras/la/la.py: reg_pos_def_mat", "products/ellipy/gras/la/la.py: reg_mat", "products/ellipy/gras/la/la.py: sqrtm_pos"]}
{"id": "C100", "title": "minksum_ea respects rearrangements of the sum", "statement": "For non-degenerate ellipsoids the result of minksum_ea does not depend on the order of the ellipsoids nor on the length and sign of the directions; a group of summands can be replaced by its approximation; reflecting all summands reflects the result; and for directions in a subspace the projection of the result is the approximation of the sum of the projections.", "quantifier": "all lists of non-degenerate ellipsoids, all non-zero directions, all orthonormal bases", "why_tests_cant": "unbounded number of summands and dimensions", "anchors": ["products/ellipy/elltool/core/ellipsoid/Ellipsoid.py: Ellipsoid.minksum_ea", "products/ellipy/elltool/core/ellipsoid/Ellipsoid.py: Ellipsoid.uminus", "products/ellipy/elltool/core/aellipsoid/AEllipsoid.py: AEllipsoid.projection"]}
{"id": "C101", "title": "volume, trace, min_eig, max_eig and rho grow with the ellipsoid", "statement": "If one ellipsoid lies in another, the values of volume, trace, min_eig, max_eig and of rho in every direction are not larger for the first; equal traces mean equal ellipsoids. (For volume the tolerance of the larger ellipsoid must not be larger.)", "quantifier": "all pairs of ellipsoids, degenerate ones included, all directions", "why_tests_cant": "quantifies over all pairs of ellipsoids", "anchors": ["products/ellipy/elltool/core/aellipsoid/AEllipsoid.py: AEllipsoid.volume", "products/ellipy/elltool/core/aellipsoid/AEllipsoid.py: AEllipsoid.trace", "products/ellipy/elltool/core/aellipsoid/AEllipsoid.py: AEllipsoid.min_eig", "products/ellipy/elltool/core/aellipsoid/AEllipsoid.py: AEllipsoid.max_eig", "products/ellipy/elltool/core/ellipsoid/Ellipsoid.py: Ellipsoid.rho"]}
{"id": "C102", "title": "polar is the duality between points and directions", "statement": "For an ellipsoid with the origin inside: a point belongs to it iff rho of polar in the direction of the point is at most 1; inclusion of one ellipsoid in another is equivalent to the opposite inclusion of the polars; the product of the volumes of the ellipsoid and of its polar is at least the square of the volume of the unit ball, with equality iff the centre is the origin.", "quantifier": "all non-degenerate ellipsoids in every dimension, all points", "why_tests_cant": "quantifies over all ellipsoids and points; equality case", "anchors": ["products/ellipy/elltool/core/ellipsoid/Ellipsoid.py: Ellipsoid.polar", "products/ellipy/elltool/core/ellipsoid/Ellipsoid.py: Ellipsoid.rho", "products/ellipy/elltool/core/aellipsoid/AEllipsoid.py: AEllipsoid.volume"]}
{"id": "C103", "title": "The operators agree with the functions", "statement": "!= is the opposite of ==, and -x is uminus: a new object for the reflected set, with -(-x) == x. (The first claim is false, for != as well as <, <=, >, >=, +, - and * raise for all operands; the second is false for hyperplanes in one dimension.)", "quantifier": "all ellipsoids in all reachable states and all hyperplanes", "why_tests_cant": "unbounded dimensions, arbitrary tolerances", "anchors": ["products/ellipy/elltool/core/ellipsoid/Ellipsoid.py: Ellipsoid.__ne__", "products/ellipy/elltool/core/ellipsoid/Ellipsoid.py: Ellipsoid.ne", "products/ellipy/elltool/core/ellipsoid/Ellipsoid.py: Ellipsoid.__neg__", "products/ellipy/elltool/core/ellipsoid/Ellipsoid.py: Ellipsoid.uminus", "products/ellipy/elltool/core/hyperplane/Hyperplane.py: Hyperplane.__ne__", "products/ellipy/elltool/core/hyperplane/Hyperplane.py: Hyperplane.__neg__"]}
{"id": "C104", "title": "In the plane no ellipse fits between minksum_ia and the sum of two ellipses", "statement": "For two non-degenerate ellipses in the plane and a direction in which the internal approximation touches the sum, an ellipse that lies in the Minkowski sum and contains the ellipse returned by minksum_ia is equal to the latter. (For three ellipses this is false.)", "quantifier": "all pairs of non-degenerate ellipses, all such directions, all ellipses in between", "why_tests_cant": "quantifies over all ellipses", "anchors": ["products/ellipy/elltool/core/ellipsoid/Ellipsoid.py: Ellipsoid.minksum_ia", "products/ellipy/gras/la/la.py: orth_transl"]}
{"id": "C105", "title": "The volume of minksum_ea obeys the Brunn-Minkowski inequality", "statement": "For non-degenerate ellipsoids in dimension n, the n-th root of what volume returns for every result of minksum_ea is at least the sum of the n-th roots of what volume returns for the summands. (The results must not count as flat: one of the summands has at least the absolute tolerance of the result.)", "quantifier": "all lists of at least two non-degenerate ellipsoids in every dimension, all non-zero directions", "why_tests_cant": "unbounded number of summands and dimensions; real-valued inequality", "anchors": ["products/ellipy/elltool/core/ellipsoid/Ellipsoid.py: Ellipsoid.minksum_ea", "products/ellipy/elltool/core/aellipsoid/AEllipsoid.py: AEllipsoid.volume"]}
{"id": "C106", "title": "minksum_ea and minksum_ia are exact for homothetic ellipsoids", "statement": "For non-degenerate ellipsoids with proportional shape matrices, minksum_ea and minksum_ia return the same ellipsoid for every direction, and it is the Minkowski sum itself.", "quantifier": "all lists of at least two homothetic non-degenerate ellipsoids, all matrices of non-zero directions", "why_tests_cant": "unbounded number of summands, dimensions and directions; equality of infinite sets", "anchors": ["products/ellipy/elltool/core/ellipsoid/Ellipsoid.py: Ellipsoid.minksum_ea", "products/ellipy/elltool/core/ellipsoid/Ellipsoid.py: Ellipsoid.minksum_ia", "products/ellipy/gras/la/la.py: orth_transl"]}
{"id": "C107", "title": "The statistics of shrink_face_tri describe the run", "statement": "With is_stat_collected the mesh is the same as without. The statistics have one entry for the initial mesh and one for every pass (sizes), and one for every pass (split edges, largest length): each pass adds as many vertices as it splits edges, at least one, and the number of vertices minus edges plus faces never changes; each recorded length is larger than max_edge_len, and without vertex adjustment at most half of the one before; the number of passes is at most n_max_steps, and equal to it if a long edge is left.", "quantifier": "all triangle meshes, thresholds, step limits and length-preserving adjustment functions", "why_tests_cant": "unbounded refinement histories", "anchors": ["products/ellipy/gras/geom/tri/tri.py: shrink_face_tri"]}
{"id": "C108", "title": "is_internal agrees with get_boundary, get_rho_boundary and rho", "statement": "is_internal accepts every point that get_boundary, get_rho_boundary and rho return for an ellipsoid, and every point of get_boundary moved towards the centre; it rejects every point of get_boundary moved away from the centre at least 1 + abs_tol times. It accepts a point exactly when for some factor below 1 + abs_tol all support values of rho, measured from the centre and enlarged by the factor, bound the point. (get_boundary needs abs_tol not below twice the square of the machine epsilon.)", "quantifier": "all non-degenerate ellipsoids (for rho and get_rho_boundary also flat ones), all numbers of points, all factors, all directions, both modes", "why_tests_cant": "quantifies over all ellipsoids, numbers of points and real factors; relates four functions", "anchors": ["products/ellipy/elltool/core/ellipsoid/Ellipsoid.py: Ellipsoid.is_internal", "products/ellipy/elltool/core/ellipsoid/Ellipsoid.py: Ellipsoid.get_boundary", "products/ellipy/elltool/core/ellipsoid/Ellipsoid.py: Ellipsoid.get_rho_boundary", "products/ellipy/elltool/core/ellipsoid/Ellipsoid.py: Ellipsoid.rho"]}
{"id": "C109", "title": "is_bigger is an order up to the tolerance", "statement": "is_bigger is reflexive, says yes for every ellipsoid contained in the first one, is transitive when the tolerances are added (with their product), and antisymmetric up to the tolerance. If it says yes, min_eig and max_eig of the second ellipsoid are below 1 + abs_tol times those of the first, and its volume is at most (1 + abs_tol)^(n/2) times that of the first; if max_eig of the second is at most min_eig of the first, it says yes. Every result of minksum_ea is bigger than every summand and than every result of minksum_ia. (For positive answers other than reflexivity the first ellipsoid must not be extremely prolate, see C42.)", "quantifier": "all non-degenerate first and all second ellipsoids in every dimension, all tolerances, all lists of summands and directions", "why_tests_cant": "quantifies over all triples of ellipsoids; real-valued inequalities", "anchors": ["products/ellipy/elltool/core/ellipsoid/Ellipsoid.py: Ellipsoid.is_bigger", "products/ellipy/elltool/core/ellipsoid/Ellipsoid.py: Ellipsoid.minksum_ea", "products/ellipy/elltool/core/ellipsoid/Ellipsoid.py: Ellipsoid.minksum_ia", "products/ellipy/elltool/core/aellipsoid/AEllipsoid.py: AEllipsoid.volume", "products/ellipy/elltool/core/aellipsoid/AEllipsoid.py: AEllipsoid.min_eig", "products/ellipy/elltool/core/aellipsoid/AEllipsoid.py: AEllipsoid.max_eig"]}
{"id": "C110", "title": "Without vertex adjustment shrink_face_tri only subdivides the surface", "statement": "When no vertex adjustment function is given, the triangles of the result of shrink_face_tri are, up to order, subdivisions of the given triangles (each given triangle is exactly covered by its parts, which have its orientation and whose areas add up to its area) together with flat triangles lying on given ones. The surface as a set of points and its area do not change, and the given vertices keep their numbers.", "quantifier": "all triangle meshes with proper faces in every dimension, all thresholds and step limits", "why_tests_cant": "unbounded refinement depth and mesh size; equality of infinite sets of points", "anchors": ["products/ellipy/gras/geom/tri/tri.py: shrink_face_tri"]}
{"id": "C111", "title": "Projections compose, and support values, eigenvalues and traces follow them", "statement": "For positive semidefinite ellipsoids, get_projection raises exactly when the array is not empty and the basis has more columns than rows, or the dimension differs, or some scalar product of two different columns exceeds every absTol, or a column is zero; repetitions in the array do not matter. If the columns of B are orthogonal and get_projection accepts B and then C on the results, it accepts U C on the given ellipsoids, U being B with unit columns, and gives the same ellipsoids. rho of the projection in directions l equals rho of the ellipsoid in directions U l, and the touching points are projected. For orthogonal columns min_eig does not decrease, max_eig and trace do not increase.", "quantifier": "every reachable heap of objects, every array of them, every pair of bases of any sizes; every psd ellipsoid, every list of directions; every eigenvalue routine", "why_tests_cant": "the statements relate results of different calls for all bases and all ellipsoids; tests compare a few projections with stored matrices", "anchors": ["products/ellipy/elltool/core/aellipsoid/AEllipsoid.py: AEllipsoid.projection", "products/ellipy/elltool/core/aellipsoid/AEllipsoid.py: AEllipsoid.trace", "products/ellipy/elltool/core/aellipsoid/AEllipsoid.py: AEllipsoid.min_eig", "products/ellipy/elltool/core/aellipsoid/AEllipsoid.py: AEllipsoid.max_eig", "products/ellipy/elltool/core/ellipsoid/Ellipsoid.py: Ellipsoid.get_projection", "products/ellipy/elltool/core/ellipsoid/Ellipsoid.py: Ellipsoid.rho"]}
{"id": "C112", "title": "Errors and warnings name the function that raised them", "statement": "get_caller_name(skip, 'full') is the dotted name (module, class of self, function) of the frame skip levels up and '' above the end of the stack; in the mode 'default' the function is left out unless there is neither module nor class; every other mode raises. The text of throw_error is NAME:tag:message and that of throw_warn too, where NAME is the name of the caller (or of the frame n_caller_stack_steps_up levels up) in capitals with colons for dots; the error is raised if throw is true and returned otherwise.", "quantifier": "every stack of frames, every skip and number of levels, every tag and message, every character-wise upper-casing that keeps the colon", "why_tests_cant": "tests check two call chains; the statement is about every stack, including calls from module level, from methods and above the end of the stack", "anchors": ["products/ellipy/gen/common/common.py: get_caller_name_ext", "products/ellipy/gen/common/common.py: get_caller_name", "products/ellipy/gen/common/common.py: throw_error", "products/ellipy/gen/common/common.py: throw_warn"]}
{"id": "C113", "title": "The text of an object shows its data and nothing else", "statement": "str of an ellipsoid is a fixed text with the written shape matrix and centre: two ellipsoids have the same text exactly when these are written alike, whatever the properties. str of a hyperplane shows its normal form: it fails only for a hyperplane without coordinates, and hyperplanes that are the same set have the same text.", "quantifier": "all ellipsoids, all pairs of hyperplanes, all ways of writing arrays of numbers", "why_tests_cant": "Tests compare the text of one or two objects with a fixed string; the claim relates the texts of all pairs of objects, including the two descriptions of a hyperplane through the origin.", "anchors": ["products/ellipy/elltool/core/ellipsoid/Ellipsoid.py: Ellipsoid.__str__", "products/ellipy/elltool/core/ellipsoid/Ellipsoid.py: Ellipsoid.to_dict", "products/ellipy/elltool/core/hyperplane/Hyperplane.py: Hyperplane.__str__", "products/ellipy/elltool/core/hyperplane/Hyperplane.py: Hyperplane.to_dict"]}
{"id": "C114", "title": "shrink_face_tri keeps closed surfaces closed", "statement": "If every side of the given triangles belongs to exactly two of them, then after shrink_face_tri every edge occurs exactly twice in the returned face-to-edge table. If no side belongs to more than two of the given triangles, every edge of the result occurs once or twice.", "quantifier": "All lists of non-degenerate triangles with vertex numbers in range, all thresholds, step limits and adjustments that keep the number of vertices, all runs that return.", "why_tests_cant": "Partially refined neighbours, shared broken edges and repeated passes interact; a sample of meshes reaches few of the combinations of split, kept and broken edges.", "anchors": ["products/ellipy/gras/geom/tri/tri.py: shrink_face_tri"]}
{"id": "C115", "title": "Triangulations are consistently oriented", "statement": "ell_tube_2_tri, sphere_tri and shrink_face_tri list the vertices of the triangles so that neighbouring triangles pass their common side in opposite directions: in a tube every inner side is passed equally often in both directions and the sides of the end rings in opposite senses; on the sphere every side is passed once in each direction; if in the surface given to shrink_face_tri every side is passed equally often in both directions, the same is true of its result, and the enclosed volume (the sum of the triple products of the corners) does not change. (The claim about the directions is false for shrink_face_tri where a split triangle meets a triangle that is not split.)", "quantifier": "all sizes of tubes, all depths, all triangulations with distinct vertices in each row, all thresholds, numbers of steps and adjustments", "why_tests_cant": "quantifies over all meshes and numbers of refinement steps", "anchors": ["products/ellipy/gras/geom/tri/tri.py: ell_tube_2_tri", "products/ellipy/gras/geom/tri/tri.py: sphere_tri", "products/ellipy/gras/geom/tri/tri.py: shrink_face_tri", "products/ellipy/gras/geom/tri/tri.py: icosahedron"]}
{"id": "C116", "title": "Objects take the settings in force when they are created, and keep them", "statement": "At any point of a session, a newly created Ellipsoid (Hyperplane) gets each of its four (two) properties from the keyword argument of that name if there is one and otherwise from the value stored last for that setting (the documented default if none was stored since the last init); creation raises if one of these values is inadmissible and otherwise is the construction with exactly these numbers. Creating objects changes no setting and no existing dictionary. An object keeps its properties whatever happens to the settings afterwards. Keyword arguments with other names have no influence on the outcome.", "quantifier": "all sequences of settings calls (that do not bypass the setters) and object creations, all positional and keyword arguments, all later steps (including those that bypass the setters)", "why_tests_cant": "needs interleavings of settings calls with creations of both kinds of objects, with every mixture of keyword and global values; tests create objects under the default settings", "anchors": ["products/ellipy/elltool/core/ellipsoid/Ellipsoid.py: Ellipsoid.__init__", "products/ellipy/elltool/core/hyperplane/Hyperplane.py: Hyperplane.__init__", "products/ellipy/elltool/conf/properties/_ParseProp.py: _ParseProp.parse_prop", "products/ellipy/elltool/conf/properties/Properties.py: Properties.parse_prop"]}
{"id": "C117", "title": "dict_compare says yes in exactly known cases, and its tolerances behave like distances", "statement": "With usable tolerances dict_compare calls two arguments equal exactly when both consist of dictionaries, have the same shape and corresponding dictionaries pass: the same keys at every level, leaves of the same type that are no booleans and are close within the tolerances, equal strings, equal array shapes, and lists at most as long as their counterparts. Hence a positive verdict stays positive when tolerances grow; and if x equals y up to s and y equals z up to t (absolute tolerances) then x equals z up to s+t, so exact equality is transitive. The same triangle rule holds for abs_rel_compare, and two ellipsoids that compare equal still do so after enlarging their tolerances.", "quantifier": "all well-formed nested data of any depth, all usable tolerances, all kinds of lists, all ellipsoids", "why_tests_cant": "needs triples of nested structures and all pairs of tolerances; tests compare a few fixed structures at one tolerance", "anchors": ["products/ellipy/gen/dict/dict.py: dict_compare", "products/ellipy/gen/dict/dict.py: dict_compare_vec", "products/ellipy/gen/common/common.py: abs_rel_compare", "products/ellipy/elltool/core/abasicellipsoid/ABasicEllipsoid.py: ABasicEllipsoid._is_equal_internal"]}
{"id": "C118", "title": "lr_multiply and lr_multiply_by_vec are the two-sided products, slice by slice", "statement": "SquareMatVector.lr_multiply(B, A, flag) returns A_t^T B_t A_t for flag R and A_t B_t A_t^T for flag L at every time point t, an array without time axis being constant in time; lr_multiply_by_vec(B, a) returns a_t^T B_t a_t. The calls fail exactly for an unknown flag, matrices B that are not square or do not fit to A, or too few matrices in A. The flag L is the flag R for transposed matrices, multiplying twice is multiplying once by the products of r_multiply, and symmetric or positive semidefinite matrices B give symmetric or positive semidefinite results.", "quantifier": "all shapes, all lengths, all values, arrays with two or three axes, both flags and every other flag", "why_tests_cant": "eight branches times all shapes; tests compare a few random batches of equal length", "anchors": ["products/ellipy/gras/gen/gen.py: SquareMatVector.lr_multiply", "products/ellipy/gras/gen/gen.py: SquareMatVector.lr_multiply_by_vec"]}
{"id": "C119", "title": "Moving ellipsoids moves what the functions return", "statement": "Let ellipsoids be moved without being turned (their centres change, nothing else). Then volume, is_degenerate, min_eig, max_eig, trace, dimension (with and without the rank) and is_bigger return what they returned before, whatever the displacements. is_internal at points moved by the same vector returns the same array. The support values of rho grow by the product of the direction with the vector and its boundary points move by the vector, in arrays of the same shapes. The points of get_boundary, get_boundary_by_factor, get_rho_boundary and get_rho_boundary_by_factor move by the vector while faces and directions stay the same. The approximations minksum_ea and minksum_ia of a sum, where each ellipsoid is moved by its own vector, move by the sum of the vectors. In all cases an exception is raised if and only if it was raised before, and it is the same one.", "quantifier": "All ellipsoids of all dimensions, degenerate or not; all arrays of them; all displacements; all points, directions, modes, numbers of points and factors, including those for which the functions raise.", "why_tests_cant": "A test compares a few ellipsoids and a few displacements with rounding errors in between; the claim is about every array, every displacement and also about every call that raises.", "anchors": ["products/ellipy/elltool/core/aellipsoid/AEllipsoid.py: AEllipsoid.volume", "products/ellipy/elltool/core/aellipsoid/AEllipsoid.py: AEllipsoid.trace", "products/ellipy/elltool/core/ellipsoid/Ellipsoid.py: Ellipsoid.is_internal", "products/ellipy/elltool/core/ellipsoid/Ellipsoid.py: Ellipsoid.is_bigger", "products/ellipy/elltool/core/ellipsoid/Ellipsoid.py: Ellipsoid.rho", "products/ellipy/elltool/core/ellipsoid/Ellipsoid.py: Ellipsoid.get_boundary", "products/ellipy/elltool/core/ellipsoid/Ellipsoid.py: Ellipsoid.get_rho_boundary", "products/ellipy/elltool/core/ellipsoid/Ellipsoid.py: Ellipsoid.minksum_ea", "products/ellipy/elltool/core/ellipsoid/Ellipsoid.py: Ellipsoid.minksum_ia"]}
{"id": "C120", "title": "Linear maps: turning, mirroring and stretching ellipsoids carries the results along", "statement": "Let A be a linear map and let the image of the ellipsoid with centre q and shape Q be the ellipsoid with centre A q and shape A Q A^T; it is the image of the set. (a) For every A (not necessarily square or invertible) and every positive semidefinite Q, rho_mat of the image in directions D returns the support values of the original in directions A^T D, and its boundary points are the images under A of the boundary points of the original. (b) For every A for which the images of all ellipsoids are non-degenerate, minksum_ea of the images in the non-zero directions W is the image of minksum_ea of the originals in the directions A^T W. (c) For invertible A with non-degenerate images is_internal returns for the images of points and ellipsoids the same array, in every mode (including the rejection of unknown modes), and is_bigger returns the same answer (well conditioned shapes). (d) volume is multiplied by |det A|, and polar of the image (origin inside) is the image of polar under the inverse transpose of A. (e) For orthogonal U no hypothesis on the images is needed: volume, is_degenerate, min_eig, max_eig and trace do not change (flat ellipsoids included), minksum_ea and minksum_ia of turned ellipsoids in turned directions are the turned results, is_internal and is_bigger answer the same, sqrtm_pos(U Q U^T) = U sqrtm_pos(Q) U^T whatever eigenvectors the backend picks, and orth_transl(U x, U y) = U orth_transl(x, y) U^T.", "quantifier": "for all dimensions, lists of ellipsoids, directions, points, linear maps A and orthogonal U, and all eigen-decomposition, least-squares and SVD backends obeying their contracts", "why_tests_cant": "A test can turn a few ellipsoids by a few angles; the claim is about all linear maps, all dimensions and all backends, and about exact equality of matrices.", "anchors": ["products/ellipy/elltool/core/ellipsoid/Ellipsoid.py: Ellipsoid.minksum_ea", "products/ellipy/elltool/core/ellipsoid/Ellipsoid.py: Ellipsoid.minksum_ia", "products/ellipy/elltool/core/ellipsoid/Ellipsoid.py: Ellipsoid.is_internal", "products/ellipy/elltool/core/ellipsoid/Ellipsoid.py: Ellipsoid.is_bigger", "products/ellipy/elltool/core/ellipsoid/Ellipsoid.py: Ellipsoid.polar", "products/ellipy/elltool/core/aellipsoid/AEllipsoid.py: AEllipsoid.volume", "products/ellipy/elltool/core/aellipsoid/AEllipsoid.py: AEllipsoid.min_eig", "products/ellipy/elltool/core/aellipsoid/AEllipsoid.py: AEllipsoid.max_eig", "products/ellipy/elltool/core/aellipsoid/AEllipsoid.py: AEllipsoid.trace", "products/ellipy/elltool/core/aellipsoid/AEllipsoid.py: AEllipsoid.is_degenerate", "products/ellipy/gras/geom/ell/ell.py: rho_mat", "products/ellipy/gras/la/la.py: sqrtm_pos", "products/ellipy/gras/la/la.py: orth_transl"]}
{"id": "C121", "title": "Only the direction of a direction counts", "statement": "Multiplying each direction given to minksum_ea or minksum_ia by any number different from zero, negative ones included, changes nothing: the returned ellipsoids, or the error, are the same. The directions are treated one by one: the call with a matrix of directions succeeds exactly if the calls with its single columns do, and returns their results in the order of the columns. For rho, a longer direction has a proportionally larger support value and the same boundary point, the opposite direction has the boundary point reflected in the centre, and the support value of a sum of two directions is at most the sum of their support values.", "quantifier": "All lists of ellipsoids (degenerate ones and ones that raise included), all direction matrices, all non-zero factors; for the column part two or more ellipsoids; for rho all positive semidefinite shapes, all centres, all directions.", "why_tests_cant": "Factors, signs and column orders multiply the number of cases; tests use a few normalised directions and compare with stored answers, so a result that depends on the length or the sign of a direction, or on its neighbours in the matrix, stays unseen.", "anchors": ["products/ellipy/elltool/core/ellipsoid/Ellipsoid.py: Ellipsoid.minksum_ea", "products/ellipy/elltool/core/ellipsoid/Ellipsoid.py: Ellipsoid.minksum_ia", "products/ellipy/elltool/core/ellipsoid/Ellipsoid.py: Ellipsoid.rho", "products/ellipy/gras/la/la.py: ml_orth_transl", "products/ellipy/gras/la/la.py: orth_transl", "products/ellipy/gras/geom/ell/ell.py: rho_mat"]}
{"id": "C122", "title": "The sizes of the approximations of a sum against the sizes of the summands", "statement": "Let lo, hi and tr be the numbers that min_eig, max_eig and trace return for the summands. Every ellipsoid returned by minksum_ea has sqrt(min_eig) >= sum of sqrt(lo), sqrt(trace) >= sum of sqrt(tr), and sqrt(max_eig) >= sqrt(hi) of any summand plus the sum of sqrt(lo) of the others. Every ellipsoid returned by minksum_ia has sqrt(max_eig) <= sum of sqrt(hi), sqrt(trace) <= sum of sqrt(tr), and sqrt(min_eig) <= sqrt(lo) of any summand plus the sum of sqrt(hi) of the others.", "quantifier": "All lists of two or more nondegenerate ellipsoids of a common dimension, all matrices of non-zero directions, every eigenvalue solver.", "why_tests_cant": "The inequalities relate five functions for arbitrary ellipsoids and directions. Tests compare single outputs with stored numbers, so an approximation that is slightly too large or too small for other data passes.", "anchors": ["products/ellipy/elltool/core/ellipsoid/Ellipsoid.py: Ellipsoid.minksum_ea", "products/ellipy/elltool/core/ellipsoid/Ellipsoid.py: Ellipsoid.minksum_ia", "products/ellipy/elltool/core/aellipsoid/AEllipsoid.py: AEllipsoid.min_eig", "products/ellipy/elltool/core/aellipsoid/AEllipsoid.py: AEllipsoid.max_eig", "products/ellipy/elltool/core/aellipsoid/AEllipsoid.py: AEllipsoid.trace"]}
{"id": "C123", "title": "The operations on arrays of matrices obey the laws of matrix algebra together", "statement": "r_multiply is associative and linear, its three-factor form is the product of the products, and the transpose of a product is the product of the transposes in the other order, whichever of the sparse and the dense way each call takes. r_multiply_by_vec with a product is r_multiply_by_vec with the factors one after the other. inv returns an array exactly if its slice-by-slice product with the argument is the identity at every time, the inverse of a product is the product of the inverses in the other order, the square of what sqrtm_pos returns is its argument, and lr_divide_vec is lr_multiply_by_vec with the inverse matrices.", "quantifier": "All numbers of rows, columns and times, all entries, all choices of the sparse switch in every call.", "why_tests_cant": "The laws connect outputs of different functions for all shapes and entries; tests check each function against a few stored arrays.", "anchors": ["products/ellipy/gras/gen/gen.py: MatVector.r_multiply", "products/ellipy/gras/gen/gen.py: MatVector.r_multiply_by_vec", "products/ellipy/gras/gen/gen.py: MatVector.transpose", "products/ellipy/gras/gen/gen.py: SquareMatVector.inv", "products/ellipy/gras/gen/gen.py: SquareMatVector.sqrtm_pos", "products/ellipy/gras/gen/gen.py: SquareMatVector.lr_divide_vec", "products/ellipy/gras/gen/gen.py: SquareMatVector.lr_multiply_by_vec"]}
{"id": "C124", "title": "sort_rows_tol: sorting again, shuffled rows, other units", "statement": "The index returned by sort_rows_tol is the only permutation that puts the rows in order up to the tolerance. Sorting the sorted rows again returns them unchanged with both indices the identity, and so does a tolerance that covers all differences in every column. Shuffling the rows before the call leaves the rows of the result in the same clusters position by position, so entries differ by at most (n-1)*tol, and with tol = 0 the sorted matrix is the same. Scaling all entries by a > 0, shifting every column and scaling tol by a keeps both indices and scales and shifts the sorted rows.", "quantifier": "all n x m matrices, tolerances >= 0, permutations of the rows, scale factors and shifts, and all admissible behaviours of np.argsort", "why_tests_cant": "Relations between two runs of the function on different inputs for every matrix, tolerance and tie-breaking; tests compare single outputs with stored ones.", "anchors": ["products/ellipy/gras/gen/gen.py: sort_rows_tol"]}
{"id": "C125", "title": "Laws of the matrix square root, the definiteness test and the matrix repairs", "statement": "For positive semidefinite Q with root S = sqrtm_pos(Q): the root of S S is S, the root of a Q is sqrt(a) S, the root of O Q O^T is O S O^T for orthogonal O, every matrix that commutes with Q commutes with S, the root of a product of commuting matrices is the product of the roots, the root of the inverse is the inverse of the root, and a larger matrix has a larger root. is_mat_pos_def gives the same answer after scaling matrix and tolerance and after an orthogonal change of basis, definite matrices add up with their tolerances, and lowering the tolerance keeps a definite matrix definite. reg_mat and make_pos_definite_by_eig applied to their own result return it unchanged. All this holds although each call may pick other eigenvectors and singular vectors.", "quantifier": "all dimensions, all (symmetric, positive semidefinite where stated) matrices, orthogonal matrices, tolerances, and all admissible eigenvalue and singular value decompositions, chosen anew for each call", "why_tests_cant": "Relations between several calls, for every matrix and every choice of eigenvectors by the backend; monotonicity of the root and commutation are theorems about all matrices.", "anchors": ["products/ellipy/gras/la/la.py: sqrtm_pos", "products/ellipy/gras/la/la.py: is_mat_pos_def", "products/ellipy/gras/la/la.py: reg_mat", "products/ellipy/gras/gen/gen.py: SquareMatVector.make_pos_definite_by_eig"]}
{"id": "C126", "title": "Which orthogonal matrix orth_transl, orth_transl_haus and orth_transl_qr return", "statement": "orth_transl(src, dst) leaves everything orthogonal to src and dst where it is. When the directions are equal, opposite or have an angle with sine above 1e-7 it is the rotation of the plane of the two vectors that carries src to dst (the reflection in src for opposite directions): its determinant is 1 (-1), exchanging source and destination transposes it, turning both arguments with an orthogonal U gives U O U^T, and orth_transl_qr returns the same matrix for every QR factorisation unless the directions are opposite. Only the directions of the arguments count. Among all orthogonal matrices that carry src to dst it moves the space least (Frobenius distance to the identity) for angles up to a right one and for opposite directions; from a right angle on orth_transl_haus does. orth_transl_haus is symmetric, its own inverse, the same for exchanged arguments, keeps what is orthogonal to the difference of the directions, and is the identity or a reflection.", "quantifier": "all dimensions, all non-zero vectors (directions equal, opposite or with sine above 1e-7 where stated), all orthogonal matrices, all QR factorisations", "why_tests_cant": "Optimality against infinitely many competitors, agreement of two implementations for every factorisation, and identities between calls cannot be established on examples.", "anchors": ["products/ellipy/gras/la/la.py: orth_transl", "products/ellipy/gras/la/la.py: orth_transl_haus", "products/ellipy/gras/la/la.py: orth_transl_qr"]}
{"id": "C127", "title": "Laws of Hyperplane.contains and is_parallel across calls", "statement": "For arrays of hyperplanes and points: carrying hyperplanes and points along by one affine map x -> A x + b (normals n' with A^T n' = n, shifts s + n'.b) leaves every answer of contains unchanged; multiplying normal, shift and tolerance of each hyperplane by a non-zero factor leaves answers and failures unchanged, also for points with infinite coordinates; so does uminus if the objects carry the tolerance of the library; coordinates in which the normals vanish do not matter, even infinite ones. For one hyperplane: it contains exactly the points at distance less than absTol/|n| from the plane; with two points it contains the segment between them; between two points on different sides it contains some point; a larger tolerance contains more; hyperplanes with equal normals whose shifts differ by at least the sum of the tolerances have no common point; an array of points is answered as each point alone. is_parallel does not depend on the order of the hyperplanes, on shifts, lengths and signs of the normals, or on renaming and mirroring axes, and grows with the tolerance; arrays of equal shape with one tolerance may be exchanged.", "quantifier": "all arrays of hyperplanes, all arrays of points (finite points for the affine law), all factors, maps, tolerances", "why_tests_cant": "relations between answers of several calls over a continuum of planes, points and maps; tests compare a few fixed planes with expected answers", "anchors": ["products/ellipy/elltool/core/hyperplane/Hyperplane.py: Hyperplane.contains", "products/ellipy/elltool/core/hyperplane/Hyperplane.py: Hyperplane.is_parallel", "products/ellipy/elltool/core/hyperplane/Hyperplane.py: Hyperplane.uminus"]}
{"id": "C128", "title": "var_replace is substitution in formulas", "statement": "For arithmetic formulas (names, decimal numbers, functions of one argument, + - * / **, unary minus, parentheses, blanks between symbols) with the priorities of Python: a text has at most one value. If a cell has the value a when the name v stands for the value b, and the expression e has the value b, then the cell returned by var_replace(m, v, e) has the value a and no other, whatever the priorities around the name are. Renaming to a name of equal value keeps all values. An evaluator that respects the grammar makes from_formula_mat of the replaced matrix show the functions of the old formulas with v bound to the value of e. Replacing v by e and then u by f, where no cell mentions u, is replacing v by what e becomes; replacements of different names by texts that do not mention each other commute; a second identical replacement changes nothing when e does not mention v.", "quantifier": "all texts of the grammar, all meanings of the numbers, functions and operations, all values of the names, all matrices of cells", "why_tests_cant": "meaning of arbitrarily nested formulas under every assignment and the uniqueness of parsing; tests compare a few strings", "anchors": ["products/ellipy/gras/sym/sym.py: var_replace", "products/ellipy/gras/gen/gen.py: MatVector.from_formula_mat"]}
{"id": "C129", "title": "Laws of is_internal across calls", "statement": "For columns of ellipsoids, also flat ones: the answers for two columns joined to one are joined by or in the mode u and by and in the mode i; neither the order of the ellipsoids nor repetitions matter; yes in the mode i implies yes in the mode u, and no mode means u; the answer for a point does not depend on the other points of the call; in the mode i, yes for some points implies yes for every point of their convex hull; for one ellipsoid a point and its mirror image in the centre get the same answer, and yes remains yes when the point moves towards the centre. For non-degenerate ellipsoids yes remains yes when each ellipsoid is replaced by one with the same centre and tolerance that contains it, and the answers do not depend on the eigenvalue routines.", "quantifier": "all columns of ellipsoids, all points, all convex combinations, every eigenvalue routine, both modes", "why_tests_cant": "relates the answers of several calls, for all points of a convex hull", "anchors": ["products/ellipy/elltool/core/ellipsoid/Ellipsoid.py: Ellipsoid.is_internal"]}
{"id": "C130", "title": "What the values and the points of rho say about the ellipsoid", "statement": "For one ellipsoid, also a flat one: the value for a direction does not depend on the other directions of the call, nor does the boundary point unless the ellipsoid is flat in this direction; the values for a direction and its opposite add up to the width of the ellipsoid, which is zero exactly when the direction is constant on it, and differ by twice the value at the centre; the boundary points turn with the directions; the value changes at most R times as fast as the direction for an ellipsoid in the ball of radius R about the origin; the values for the directions +-(e_i + e_j) determine the centre and the shape.", "quantifier": "all ellipsoids including flat ones, all directions, all shapes of the array of directions", "why_tests_cant": "relates all pairs of directions; uniqueness over all ellipsoids", "anchors": ["products/ellipy/elltool/core/ellipsoid/Ellipsoid.py: Ellipsoid.rho", "products/ellipy/gras/geom/ell/ell.py: rho_mat"]}
{"id": "C131", "title": "Finer grids contain the coarser ones", "statement": "shrink_face_tri keeps the given vertices with their numbers and appends the new ones. The vertices of sphere_tri of a smaller depth are the first vertices of sphere_tri of a larger depth, and the triangles of depth d+1 are exactly the four parts of the triangles of depth d: for a triangle a b c with the points p, q, r of the sphere above the middles of its sides, p q r and the three corner parts. The points of sphere_tri_ext in space, and the points of get_boundary of an ellipsoid in space, for a smaller number are the first ones of those for a larger number. In the plane point k of circle_part(n) is point k*m of circle_part(n*m), and the same holds for get_boundary.", "quantifier": "all meshes; all depths; all numbers of points n <= n2; all n, m; all ellipsoids in dimensions 2 and 3", "why_tests_cant": "a statement about pairs of runs with any two sizes", "anchors": ["products/ellipy/gras/geom/tri/tri.py: shrink_face_tri", "products/ellipy/gras/geom/tri/tri.py: sphere_tri", "products/ellipy/gras/geom/tri/tri.py: sphere_tri_ext", "products/ellipy/gras/geom/geom.py: circle_part", "products/ellipy/elltool/core/ellipsoid/Ellipsoid.py: Ellipsoid.get_boundary"]}
{"id": "C132", "title": "Which columns mat_orth returns", "statement": "For linearly independent columns, column c of mat_orth(A) is the only unit vector in the span of the columns up to c that is orthogonal to the columns before c and has a positive product with column c. So the first columns are the same for every QR routine; orthonormal columns stay as they are, and applying mat_orth twice is applying it once; an orthogonal matrix applied to the columns applies to the result; replacing each column by a positive multiple of it plus a combination of the columns before it changes nothing; changing the sign of a column changes the sign of the column of the result; the first k columns depend on the first k columns only. Without independence the result depends on the routine.", "quantifier": "all matrices with independent columns, all QR routines", "why_tests_cant": "all matrices and all choices of the factorisation routine; relations between calls", "anchors": ["products/ellipy/gras/la/la.py: mat_orth", "products/ellipy/gras/la/la.py: math_orth_col"]}
{"id": "C133", "title": "What the diagonal of ell_sim_diag says, and how the results of ell_valign fit together", "statement": "The diagonal d of T B T^T for T = ell_sim_diag(A, B) consists of the roots of det(tA - B) with multiplicity; its product is det B / det A, its sum is the trace of A^-1 B, its first and last entries are the largest and the smallest ratio of the two quadratic forms. It is the same for all eigenvalue, SVD and least squares routines, all tolerances the matrices pass, and in all coordinate systems; it grows entry by entry when B grows and when A shrinks; exchanging A and B gives the reciprocals in the opposite order. With one SVD routine ell_valign(v, x) ell_valign(x, w) = ell_valign(v, w), ell_valign(x, v) is the inverse and the transpose of ell_valign(v, x), and ell_valign(v, v) is the identity, whatever shapes the vectors have.", "quantifier": "all positive definite A and positive semidefinite B above the tolerance; all vectors of length at least two; all routines", "why_tests_cant": "relations between several calls and all choices of the routines; needs the min-max principle", "anchors": ["products/ellipy/elltool/core/core.py: ell_sim_diag", "products/ellipy/elltool/core/core.py: ell_valign"]}
{"id": "C134", "title": "The polygon whose corners sup_2_boundary_2 returns", "statement": "When consecutive directions are independent, the rows of sup_2_boundary_2 depend linearly on the values, so the corners for a Minkowski sum are the sums of the corners; an invertible affine map of the plane, with the directions taken back by the transposed map, maps the rows. When the directions go around, the polygon with the returned corners is exactly the set of the points that satisfy all the inequalities, and contains the set K the support values belong to. With the n >= 3 directions of circle_part the call returns n corners, the polygon contains K, and every point of it is within D/2 tan(pi/n) of K, where D bounds the distances of the points of K.", "quantifier": "all numbers of directions, all values, all compact convex sets, every least squares solver", "why_tests_cant": "continuum of directions and sets; the error bound holds for every n", "anchors": ["products/ellipy/gras/geom/sup/sup.py: sup_2_boundary_2", "products/ellipy/gras/geom/geom.py: circle_part"]}
{"id": "C135", "title": "Laws of is_tri_equal across calls", "statement": "Exchanging the two triangulations, listing the faces in another order, and changing units and origin of the coordinates together with the tolerance leave the answer, the report and the error of is_tri_equal as they are. Two answers True in a row give a match of the first and the third triangulation up to the sum of the tolerances. With tolerance zero, for triangulations without repeated vertices or faces where no side has more than two faces, the answer is True exactly when a renumbering of the vertices takes one to the other; so it is transitive and unchanged by one-to-one maps of the space. The grid of sphere_tri equals itself for every tolerance, equals all its renumberings, and no grid of another depth.", "quantifier": "all triangulations, tolerances, permutations, scale factors and one-to-one maps; every behaviour of the unstable sorts", "why_tests_cant": "relations between several calls for all inputs; the clusters and the order of the vertices depend on all coordinates", "anchors": ["products/ellipy/gras/geom/tri/tri.py: is_tri_equal", "products/ellipy/gras/geom/tri/tri.py: is_face", "products/ellipy/gras/geom/tri/tri.py: sphere_tri", "products/ellipy/gras/gen/gen.py: sort_rows_tol"]}
{"id": "C136", "title": "The polyhedron whose corners sup_2_boundary_3 returns", "statement": "For triangles with independent directions the rows returned by sup_2_boundary_3 depend linearly on the support values, so the corners for the values of a weighted Minkowski sum are the weighted sums of the corners; an invertible affine map of the set carries the rows to their images. When the cones over the triangles cover the space, the polyhedron spanned by the returned corners contains every set that satisfies the given inequalities. With the grid of sphere_tri of depth n it returns 20*4^n corners and the polyhedron contains the set; for a non-degenerate ellipsoid with eigenvalues between lo and hi every point of the polyhedron is within 4*sqrt(2)*hi/sqrt(lo)/2^n of the ellipsoid.", "quantifier": "all direction lists and triangles, all values, all depths, all non-degenerate ellipsoids", "why_tests_cant": "the outer polyhedron and its error are statements about all points of the polyhedron and every depth; tests check a few corners of one mesh", "anchors": ["products/ellipy/gras/geom/sup/sup.py: sup_2_boundary_3", "products/ellipy/gras/geom/tri/tri.py: sphere_tri"]}
{"id": "C137", "title": "Laws of parse_prop across calls", "statement": "Asking parse_prop for two lists of names at once is the same as asking for the first and then, with the returned remainder, for the second. What is left holds none of the names asked for, so asking for them again returns the global values and leaves the same. The order of different names only orders the answers, and entries with other names do not matter. Passing a value for an option is the same as storing it with the setter first. The answers passed on as arguments give the same answers under any settings, and without an argument the answer is what the getter returns.", "quantifier": "all states of the settings, all dictionaries of arguments, all lists of names", "why_tests_cant": "the laws relate several calls under arbitrary settings; tests call parse_prop once with a few fixed dictionaries", "anchors": ["products/ellipy/elltool/conf/properties/_ParseProp.py: ParsePropMixin.parse_prop", "products/ellipy/elltool/conf/properties/Properties.py: Properties.get_prop_dict"]}
{"id": "C138", "title": "The sign of ell_fusion_lambda leads to the smallest fused ellipsoid", "statement": "For two ellipsoids {(x-q)^T W (x-q) <= 1} with a common inner point, and a weight a in (0,1): a positive value of ell_fusion_lambda means that every smaller weight gives a fused ellipsoid of larger volume, a negative value that every larger weight does; the weights 0 and 1, which belong to the two ellipsoids themselves, are included. At a zero the fused ellipsoid is the smallest of all and not larger than either ellipsoid, and all zeros give the same ellipsoid. Between two weights with values of opposite signs there is a zero. Exchanging the ellipsoids and the weights changes the sign of the value, moving both ellipsoids changes nothing, and a change of coordinates multiplies the value by a positive number.", "quantifier": "all dimensions, all pairs of (possibly unbounded) ellipsoids whose forms are together positive definite, all weights", "why_tests_cant": "the claim compares the volumes for all weights, and says that a sign at one point decides a whole side; tests compare the value with stored numbers for five inputs", "anchors": ["products/ellipy/elltool/core/core.py: ell_fusion_lambda"]}
{"id": "C139", "title": "Comparing ellipsoids and the distance between their sets", "statement": "Two ellipsoids in the box [-M, M]^n that compare as equal are within (n + sqrt(n)) * max(absTol, relTol * M) of each other, with the smaller tolerances of the two: every point of either is that near to a point of the other. Conversely ellipsoids that are the same set compare as equal whatever the tolerances, and ellipsoids of radius at most r that are within eps of each other compare as equal when eps <= absTol and 2 r eps <= absTol^2. Making the tolerances larger never turns a positive answer into a negative one. The answer does depend on the place: moving both ellipsoids by the same vector may change it, through the relative tolerance.", "quantifier": "all dimensions, all pairs of ellipsoids (also flat ones), all tolerances", "why_tests_cant": "the claim connects the comparison of the entries of square roots with distances between infinite sets of points, for all ellipsoids; tests compare a few pairs of stored matrices", "anchors": ["products/ellipy/elltool/core/abasicellipsoid/ABasicEllipsoid.py: ABasicEllipsoid._is_equal_internal", "products/ellipy/elltool/core/abasicellipsoid/ABasicEllipsoid.py: ABasicEllipsoid.__eq__"]}
{"id": "C140", "title": "quad_mat tells the points of an ellipsoid and its widths", "statement": "For an invertible nonnegative matrix the value of quad_mat(Q, x, c) in the modes inv and invadv is at most one exactly for the points x of the ellipsoid E(c, Q) and less than one exactly for its inner points; for any nonnegative matrix, in the mode inv, it is at most one exactly for the points that differ from a point of E(c, Q) by a vector orthogonal to its plane (so that points outside a flat ellipsoid may have the value zero). The root of the value in the mode plain at a direction is the width of the ellipsoid in this direction. The value in the mode inv is the least r with <l, x-c>^2 <= r * (value in the mode plain at l) for all l. The values are homogeneous of degree two in x-c, the modes plain and inv change their roles with the matrix returned by inv_mat, and an affine change of coordinates of ellipsoid and point does not change the values in the modes inv and invadv.", "quantifier": "all dimensions, all nonnegative matrices, all points, all layouts of the arrays, every least squares solver", "why_tests_cant": "the claims quantify over all points of a continuum and over all directions, and relate different calls; tests compare single numbers", "anchors": ["products/ellipy/gras/geom/ell/ell.py: quad_mat", "products/ellipy/gras/geom/ell/ell.py: inv_mat"]}
{"id": "C141", "title": "Laws of mat_dot across calls", "statement": "mat_dot is linear in each argument; the square of the value for two arrays is at most the product of the values for each array with itself, and the root of the value of an array with itself satisfies the triangle inequality; multiplying the slices of both arrays by orthogonal matrices, on either side, does not change the values; the values with all arrays determine the slices of an array.", "quantifier": "all shapes with any number of axes, all values", "why_tests_cant": "the laws relate several calls on a continuum of arrays; tests check single values", "anchors": ["products/ellipy/gras/gen/gen.py: mat_dot"]}
{"id": "C142", "title": "Small changes of a matrix change the results little", "statement": "If the entries of two matrices accepted by sqrtm_pos differ by at most eta, then the entries of the two roots differ by at most sqrt(n*eta + tol + tol'), where tol and tol' are the tolerances of the two calls; for nonnegative symmetric matrices whose quadratic forms differ by at most delta on unit vectors the bound is sqrt(delta), whatever the tolerances. is_mat_pos_def with the tolerance tol + delta says yes only if with tol it says yes for every symmetric matrix whose form differs by at most delta; its test for nonnegative forms says yes with tol + delta for every such neighbour of a matrix for which it says yes with tol. min_eig and max_eig of two ellipsoids whose forms differ by at most delta differ by at most delta, trace by at most n*delta, and the support values of rho_mat in a direction of length one by at most the distance of the centres plus sqrt(delta).", "quantifier": "all dimensions, all real matrices, all tolerances, all results of the eigenvalue routine within its contract", "why_tests_cant": "a test compares a few pairs of matrices; a result that jumps for some close pair (at a multiple eigenvalue, at the boundary of the nonnegative matrices) stays hidden", "anchors": ["products/ellipy/gras/la/la.py: sqrtm_pos", "products/ellipy/gras/la/la.py: is_mat_pos_def", "products/ellipy/elltool/core/ellipsoid/Ellipsoid.py: Ellipsoid.min_eig", "products/ellipy/elltool/core/ellipsoid/Ellipsoid.py: Ellipsoid.max_eig", "products/ellipy/elltool/core/ellipsoid/Ellipsoid.py: Ellipsoid.trace", "products/ellipy/gras/geom/ell/ell.py: rho_mat"]}
{"id": "C143", "title": "Laws of is_member across calls", "statement": "is_member of a vector put together from two vectors returns the two results one after the other. Values put behind the second argument can only turn flags to true (the new flags are the disjunction with the flags for the added values), and change nothing if all elements were found already. The flags depend only on the set of values of the second argument. A vector compared with itself has only true flags, and the positions are 0, 1, 2, ... exactly if no value is repeated. Reading the second argument at the returned positions gives the members of the first argument in order, and asking for these alone returns the same positions with all flags true. Renaming the values so that different values get different names changes nothing, even if the order of the values changes.", "quantifier": "all finite vectors over any linearly ordered type of values", "why_tests_cant": "the function goes through the sorted distinct values; a fault in the bookkeeping shows up only for particular patterns of repeated and missing values", "anchors": ["products/ellipy/gen/common/common.py: is_member"]}
{"id": "C144", "title": "Laws of abs_rel_compare across calls", "statement": "With zero tolerances (the relative one zero or missing) abs_rel_compare says equal exactly if all entries are the same, nan counting as equal to nan; a zero relative tolerance is as good as none. Two is the largest relative difference: with a relative tolerance of two or more the verdict depends only on the places of nan and of the infinities, and with less there are numbers that differ whatever the absolute tolerance. Without a relative tolerance the returned difference is the least tolerance for which the verdict is equal, whatever the tolerance of the call that returned it. The verdict and the returned numbers do not change when both arrays are rearranged or reshaped in the same way. Arrays put together from pieces are equal exactly if the pieces are. In other units, or with all signs changed, the verdict is the same if the absolute tolerance is converted and the relative one is kept.", "quantifier": "all arrays of finite numbers, nan and infinities, all shapes, all tolerances that the function accepts", "why_tests_cant": "each law relates two calls on arbitrary arrays; a test fixes one array and one tolerance", "anchors": ["products/ellipy/gen/common/common.py: abs_rel_compare"]}
{"id": "C145", "title": "Matrices that differ by factors give results that differ by known factors", "statement": "If the quadratic form of the second of two nonnegative symmetric matrices lies between the a-fold and the b-fold of the form of the first, then the forms of the results of sqrtm_pos lie between the sqrt(a)-fold and the sqrt(b)-fold, the forms of the results of inv_mat between the 1/b-fold and the 1/a-fold, min_eig and max_eig between the a-fold and the b-fold, volume between the sqrt(a)^n-fold and the sqrt(b)^n-fold, and the support value of rho_mat less the value at the common centre between the sqrt(a)-fold and the sqrt(b)-fold in every direction. If this holds for every summand of minksum_ea, then the matrices of the results lie between the a*sqrt(a/b)-fold and the b*sqrt(b/a)-fold, in every direction.", "quantifier": "all dimensions, all matrices, all factors, all numbers of summands and of directions", "why_tests_cant": "the bounds relate two calls on matrices that need not commute or be close; a test would compare diagonal examples, where the bounds for the root and the inverse are obvious", "anchors": ["products/ellipy/gras/la/la.py: sqrtm_pos", "products/ellipy/gras/geom/ell/ell.py: inv_mat", "products/ellipy/elltool/core/ellipsoid/Ellipsoid.py: Ellipsoid.volume", "products/ellipy/elltool/core/ellipsoid/Ellipsoid.py: Ellipsoid.min_eig", "products/ellipy/elltool/core/ellipsoid/Ellipsoid.py: Ellipsoid.max_eig", "products/ellipy/gras/geom/ell/ell.py: rho_mat", "products/ellipy/elltool/core/ellipsoid/Ellipsoid.py: Ellipsoid.minksum_ea"]}
{"id": "C146", "title": "Rearranging the summands of minksum_ia", "statement": "For non-degenerate ellipsoids and nonzero directions: minksum_ia gives the same array when the summands after the first are permuted; exchanging the two summands of a pair changes nothing, provided in each direction l the vectors S l and T l (S, T the square roots of the two shapes) are exactly (anti)parallel or the sine of their angle exceeds 1e-7; two summands with shapes Q and t^2 Q may be replaced, both behind the first place and at it, by the one with shape (1+t)^2 Q and the sum of the centres, and the same replacement leaves minksum_ea unchanged; multiplying every shape by s^2 and every centre by s > 0 multiplies the resulting shapes by s^2 and centres by s.", "quantifier": "for every dimension n >= 1, every list of non-degenerate ellipsoids, every matrix of nonzero directions, every t > 0 and s > 0", "why_tests_cant": "The laws relate runs on different inputs over a continuum of shapes and directions; a test checks finitely many pairs of runs with a tolerance and cannot tell an exact law from an approximate one.", "anchors": ["products/ellipy/elltool/core/ellipsoid/Ellipsoid.py: Ellipsoid.minksum_ia", "products/ellipy/elltool/core/ellipsoid/Ellipsoid.py: Ellipsoid.minksum_ea", "products/ellipy/gras/la/la.py: orth_transl", "products/ellipy/gras/la/la.py: sqrtm_pos"]}
{"id": "C147", "title": "Laws of sup_geom_diff_2d and sup_geom_diff_3d across calls", "statement": "Both functions depend only on rho1 - rho2: replacing the two lists by others of the same shapes with the same differences changes nothing, not even the error. In the plane, for directions listed counterclockwise around the origin, positive differences, a first constraint not implied by the others, and a hull routine that lists its rows counterclockwise: the result does not depend on the hull and least squares routines and grows with the differences; every value is positive and at most rho1 - rho2, with equality in the first direction; multiplying both lists by t > 0 multiplies the values by t; adding l_i.p to rho1_i adds l_i.p to the values; the values for the sum of two problems are at least the sums of the values; and applying the function to its own values and zeros returns them unchanged.", "quantifier": "for every list of directions, all lists of support values meeting the conditions, every t > 0 and every vector p, every hull and least squares routine within its contract", "why_tests_cant": "The laws relate runs on different data over a continuum of directions and values, and depend on redundant directions being recognised for every configuration, which samples cannot exhaust.", "anchors": ["products/ellipy/gras/geom/sup/sup.py: sup_geom_diff_2d", "products/ellipy/gras/geom/sup/sup.py: sup_geom_diff_3d"]}
{"id": "C148", "title": "make_pos_definite_by_eig changes a matrix as little as possible, and its laws across calls", "statement": "For symmetric slices: with value 0 each slice of the result is the positive part of the given one, that is the unique nearest positive semidefinite matrix in the Frobenius norm, and the square of the matrix sqrtm_pos returns; two results are no farther apart than the two matrices; the results for Q and -Q have product zero and difference Q; the result for any value is the result for 0 plus value times the orthogonal projector onto the eigenvectors of negative eigenvalues, whatever eigenvectors the backend picks; turning the matrices by an orthogonal matrix and multiplying them and value by a > 0 does the same to the results.", "quantifier": "for every batch of symmetric matrices of every size, every value, every orthogonal matrix, every a > 0 and every choice of eigenvectors by the backend", "why_tests_cant": "Optimality is a claim about all positive semidefinite competitors, and independence of the eigenvectors matters exactly for repeated eigenvalues, where a backend returns one of infinitely many choices.", "anchors": ["products/ellipy/gras/gen/gen.py: SquareMatVector.make_pos_definite_by_eig", "products/ellipy/gras/la/la.py: sqrtm_pos"]}
{"id": "C149", "title": "Laws of shrink_face_tri across calls", "statement": "shrink_face_tri does not depend on where, how large and in which position the grid is: a map of the space that keeps middles of segments and multiplies all distances by s > 0, applied to the given vertices together with s times the bound (and an adjustment function that does to the images what the given one does to the points), gives the same edges and faces, the images of the vertices and s times the lengths. With a larger bound for the number of steps, or none, the list of vertices begins with the list for the smaller bound. A grid whose sides are not longer than the bound is returned unchanged, and a second run on the vertices and faces that a run without a bound for the steps returned, with the same or a larger length, changes neither.", "quantifier": "all dimensions, all grids of triangles with distinct vertices, all bounds, numbers of steps and adjustment functions that keep the number of points, all similarity maps (also into spaces of another dimension)", "why_tests_cant": "the laws relate two runs on arbitrarily large grids with arbitrarily many steps and every similarity map", "anchors": ["products/ellipy/gras/geom/tri/tri.py: shrink_face_tri"]}
{"id": "C150", "title": "volume, trace, min_eig and max_eig of one ellipsoid and of its polar fit together", "statement": "The trace lies between n times min_eig and n times max_eig and is equal to one of these exactly for balls; min_eig and max_eig are equal exactly for balls. The volume lies between the volumes of the balls with the squared radii min_eig and max_eig, and is at most the volume of the ball with the same trace, with equality exactly for balls. For an ellipsoid with the origin inside, min_eig of the polar is at least 1/max_eig, max_eig of the polar at least 1/min_eig, with equality if the centre is the origin, and the product of the two traces is at least n^2, with equality exactly for balls about the origin.", "quantifier": "all dimensions, all ellipsoids (non-degenerate for volume and polar), every eigenvector basis the backend may pick", "why_tests_cant": "the inequalities and their equality cases concern all matrices of all sizes and tie five separately computed functions", "anchors": ["products/ellipy/elltool/core/aellipsoid/AEllipsoid.py: AEllipsoid.volume", "products/ellipy/elltool/core/aellipsoid/AEllipsoid.py: AEllipsoid.trace", "products/ellipy/elltool/core/aellipsoid/AEllipsoid.py: AEllipsoid.min_eig", "products/ellipy/elltool/core/aellipsoid/AEllipsoid.py: AEllipsoid.max_eig", "products/ellipy/elltool/core/ellipsoid/Ellipsoid.py: Ellipsoid.polar"]}
{"id": "C151", "title": "Laws of map_face_2_edge and is_face across calls", "statement": "map_face_2_edge returns the same table of edges for all lists of faces with the same sides: the order of the faces, repeated faces and the order of the vertices in a face do not matter, and a face that occurs in both lists gets the same edges and directions; the result does not depend on how the sort treats equal keys. New vertex numbers that keep the order of the numbers appear in the table of edges and change nothing else. The edges of a part of the faces are a part of the edges, in the same order, and there are at most three edges for each face. is_face gives the same answers whatever the order of the faces, the order of the vertices in the faces and in the rows that are looked for, and the numbering of the vertices (any injective renumbering).", "quantifier": "all lists of triangles with distinct vertices, all renumberings, all sorting functions that meet the contract of np.argsort", "why_tests_cant": "the laws compare runs on arbitrarily large grids under all permutations and renumberings and for every tie-breaking of the sort", "anchors": ["products/ellipy/gras/geom/tri/tri.py: map_face_2_edge", "products/ellipy/gras/geom/tri/tri.py: is_face", "products/ellipy/gras/geom/tri/tri.py: get_face_edge_info"]}
{"id": "C152", "title": "Laws of the points of circle_part, and the ellipsoid read off the points of get_boundary", "statement": "circle_part with n points on the whole circle returns points whose sum is zero when n is at least 2, and whose second moments are those of the circle when n is at least 3: the sums of the squares of the first and of the second coordinates are n/2 and the sum of the products is 0. The 2n points on an arc are the n points on its first half followed by the n points on its second half, and shifting the angle range by t rotates every point by t. For a non-degenerate ellipse with centre c and matrix Q the n points of get_boundary have the mean c, and twice the mean of the squares of l.(v - c) is l.Q l for every direction l (n at least 3). In space the mean of the points is the centre as well. The statements about get_boundary hold up to the replacement of zeros on the unit sphere by the machine epsilon: up to 2 eps sqrt(l.Q l) for the mean and 9 eps l.Q l for the form.", "quantifier": "all n, all angle ranges and shifts, all non-degenerate ellipses and ellipsoids in space, all numbers of points, all directions, all eigendecompositions", "why_tests_cant": "The laws are sums over all points, for every number of points and every direction; a test evaluates a few numbers of points and cannot tell a grid with one misplaced point in a large grid from rounding.", "anchors": ["products/ellipy/gras/geom/geom.py: circle_part", "products/ellipy/elltool/core/ellipsoid/Ellipsoid.py: Ellipsoid.get_boundary"]}
{"id": "C153", "title": "Laws of ell_tube_2_tri and ell_tube_discr_tri across calls", "statement": "The triangles of a tube with a + b - 1 rings are, up to their order, those of a tube with a rings and those of a tube with b rings whose vertex numbers are continued from the last ring of the first. Turning all rings by the same number of points only changes the order of the triangles. At a point of the first or last ring exactly three triangles meet, at any other point exactly six (rings of two or more points, two or more rings). The lines of ell_tube_discr_tri for m1 + m2 rings are those for m1 rings followed by those for m2 rings with the numbers continued, and two neighbouring entries of a line are two vertices of a triangle of ell_tube_2_tri with the same numbers of points and rings.", "quantifier": "all numbers of points and rings, all turns, all vertices", "why_tests_cant": "The laws compare the results of several calls and count triangles at every vertex of every tube; tests check the matrix for a few small sizes.", "anchors": ["products/ellipy/gras/geom/tri/tri.py: ell_tube_2_tri", "products/ellipy/gras/geom/tri/tri.py: ell_tube_discr_tri"]}
{"id": "C154", "title": "What the values of lr_divide_vec say about ellipsoids, and its laws across calls", "statement": "For invertible slices B_t and one vector a_t per slice: vectors alpha times as long and matrices beta times as large give alpha^2/beta times the values; an invertible change of coordinates M_t, applied to the vectors (M a) and the matrices (M B M^T), leaves the values unchanged; the values at a + a' and a - a' add up to twice the values at a and a'; every value is the one quad_mat computes in the modes inv and invadv from the slice and the vector alone. For positive definite slices the value is the largest <x, a_t>^2 / <x, B_t x>, it is nonnegative and at most r^2 exactly if a_t / r lies in the ellipsoid with centre zero and shape matrix B_t, and larger matrices give smaller values.", "quantifier": "all sizes, all numbers of slices, all invertible or positive definite slices, all vectors, all factors and changes of coordinates", "why_tests_cant": "The laws compare several calls over all matrices and vectors, and characterise the value as an extremum over all directions.", "anchors": ["products/ellipy/gras/gen/gen.py: SquareMatVector.lr_divide_vec", "products/ellipy/gras/geom/ell/ell.py: quad_mat"]}
{"id": "C155", "title": "Closed form and laws of _calc_diff_one_dir", "statement": "For two ellipsoids with positive semidefinite shape matrices and directions in which both have a positive width, all marked good: every point returned is c1 - c2 + (Q1 l/sqrt(l.Q1 l) - Q2 l/sqrt(l.Q2 l)), or c1 - c2 if all coordinates of the bracket are below 1e-14 in absolute value; the flag is set exactly if the dimension is three and the latter holds for all directions. Moving the ellipsoids by d1 and d2 moves all points by d1 - d2 and keeps the flag; the lengths of the directions do not matter; opposite directions give the points mirrored at c1 - c2; exchanging the ellipsoids changes the signs of the points; a selection of the directions gives the selection of the points; for equal shape matrices every point is the difference of the centres.", "quantifier": "all dimensions, all pairs of ellipsoids with positive semidefinite shape matrices, all finite families of directions of positive width, all shifts and positive factors", "why_tests_cant": "each law relates two calls on real data; tests compare a few stored values only", "anchors": ["products/ellipy/elltool/core/ellipsoid/Ellipsoid.py: Ellipsoid._calc_diff_one_dir"]}
{"id": "C156", "title": "Laws of from_func and eval_func across calls", "statement": "from_func with the times changed by a function is from_func with the callback changed by it, errors included. If two calls with the same callback succeed with matrices of one shape, the call with both lists of times returns the matrices of the first and then those of the second; if a call succeeds, so does the call with the first of its times, and it returns the first of its matrices. eval_func with keep_size on the result of from_func is from_func with the composed callback; eval_func twice is eval_func with the composition; the identity gives the array itself. If uniform output gives numbers, the call without uniform output gives the list of exactly these values.", "quantifier": "all callbacks, all lists of times, all arrays with two or three axes; for the compositions all callbacks that keep the shape and read only the entries", "why_tests_cant": "each law relates two or three calls with an arbitrary callback; tests run a few fixed callbacks once", "anchors": ["products/ellipy/gras/gen/gen.py: MatVector.from_func", "products/ellipy/gras/gen/gen.py: MatVector.eval_func"]}
{"id": "C157", "title": "Projections against polar, is_internal, is_bigger and minksum_ia", "statement": "For a basis of orthogonal nonzero columns with unit vectors U: if the origin is inside a nondegenerate ellipsoid, it is inside the projection, and polar of the projection contains y exactly if polar of the ellipsoid contains U y. If is_internal says that a point belongs to all (or some) of the ellipsoids, it says so for the projections; conversely over any points of the subspace there are points of the space with these projections and the same answers for one ellipsoid. If is_bigger holds for two ellipsoids, it holds for their projections. The projections of the results of minksum_ia for the directions U w lie in the sum of the projections, and touch it in the directions w as precisely as the results themselves do.", "quantifier": "all dimensions, all nondegenerate ellipsoids, all orthogonal bases of subspaces, all points and nonzero directions", "why_tests_cant": "each law relates calls in spaces of different dimensions; tests look at single projections of fixed ellipsoids", "anchors": ["products/ellipy/elltool/core/aellipsoid/AEllipsoid.py: AEllipsoid.projection", "products/ellipy/elltool/core/ellipsoid/Ellipsoid.py: Ellipsoid.get_projection", "products/ellipy/elltool/core/ellipsoid/Ellipsoid.py: Ellipsoid.polar", "products/ellipy/elltool/core/ellipsoid/Ellipsoid.py: Ellipsoid.is_internal", "products/ellipy/elltool/core/ellipsoid/Ellipsoid.py: Ellipsoid.is_bigger", "products/ellipy/elltool/core/ellipsoid/Ellipsoid.py: Ellipsoid.minksum_ia"]}
{"id": "C158", "title": "rho of ellipsoids against Hyperplane.contains and Hyperplane.is_parallel", "statement": "Let E and F be ellipsoids. (1) The hyperplanes {l.x = rho(E, l)} contain the points that rho returns with them: contains on the array of these hyperplanes and the array of points of rho is true everywhere. (2) is_parallel is true for the hyperplanes of opposite normals, whatever their shifts. (3) A hyperplane {l.x = c} contains, as contains sees it, some point of E exactly if -rho(E, -l) - abs_tol < c < rho(E, l) + abs_tol. (4) E and F have no common point exactly if rho(E, l) + rho(F, -l) < 0 for some direction l. (5) If rho(E, l) + rho(F, -l) <= -2 abs_tol, contains is false for all points of E and F on the hyperplane {l.x = (rho(E, l) - rho(F, -l)) / 2}.", "quantifier": "All dimensions, all ellipsoids with symmetric non-negative definite shape matrices (also degenerate), all numbers of directions from two on in (1), all directions (not within abs_tol of zero in dimension one, where contains has a case of its own), all shifts and tolerances.", "why_tests_cant": "The equivalences range over all points of the ellipsoids and over all directions; the converse of (4) is a separation theorem.", "anchors": ["products/ellipy/elltool/core/ellipsoid/Ellipsoid.py: Ellipsoid.rho", "products/ellipy/elltool/core/hyperplane/Hyperplane.py: Hyperplane.contains", "products/ellipy/elltool/core/hyperplane/Hyperplane.py: Hyperplane.is_parallel"]}
{"id": "C159", "title": "Laws of sphere_part across calls", "statement": "(1) If n <= n' use the same depth of the triangulation, the rows of sphere_part(n) are the first n rows of sphere_part(n'). (2) The first row is always (0, 0, 1). (3) Up to 83886081 points, two equal rows have numbers that differ modulo 3 (they were chosen for different axes), so that no vector is returned more than three times, and at least a third of the rows are pairwise different.", "quantifier": "All n >= 1 in (1) and (2), all n from 1 to 83886081 in (3), any sorting routine.", "why_tests_cant": "Statements about all sizes; they rest on the symmetry of the triangulation at every depth and on an invariant of the loop that chooses the rows.", "anchors": ["products/ellipy/gras/geom/geom.py: sphere_part"]}
{"id": "C160", "title": "Circumscribed polygons and polyhedra: circle_part, sphere_tri, rho, sup_2_boundary_2, sup_2_boundary_3, min_eig and max_eig together", "statement": "(1) For an ellipse E and n >= 3 directions of circle_part, the support values of rho given to sup_2_boundary_2 yield the corners of a polygon that contains E and no point of which is farther from E than sqrt(max_eig(E)) tan(pi / n); the polygon spanned by the points of rho is inside E. (2) The sums of the support values of two ellipses E and F yield a polygon that contains E + F and is not farther from it than (sqrt(max_eig(E)) + sqrt(max_eig(F))) tan(pi / n). (3) For a non-degenerate ellipsoid in space and the triangulation of sphere_tri of depth n, the support values given to sup_2_boundary_3 yield corners whose convex hull contains E and is not farther from it than 4 sqrt(2) max_eig(E) / sqrt(min_eig(E)) / 2^n; the hull of the points of rho is inside E.", "quantifier": "All ellipsoids with symmetric non-negative definite shape matrices in (1) and (2), positive definite in (3), all n, all points of the sets, any eigenvalue, least-squares and sorting routines with the documented contracts.", "why_tests_cant": "The claims are about all points of convex sets and about the order of convergence as the grids get finer.", "anchors": ["products/ellipy/elltool/core/ellipsoid/Ellipsoid.py: Ellipsoid.rho", "products/ellipy/gras/geom/sup/sup.py: sup_2_boundary_2", "products/ellipy/gras/geom/sup/sup.py: sup_2_boundary_3", "products/ellipy/gras/geom/geom.py: circle_part", "products/ellipy/gras/geom/tri/tri.py: sphere_tri", "products/ellipy/elltool/core/aellipsoid/AEllipsoid.py: AEllipsoid.max_eig", "products/ellipy/elltool/core/aellipsoid/AEllipsoid.py: AEllipsoid.min_eig"]}
{"id": "C161", "title": "What the functions return for ell_unitball", "statement": "With the current settings (absolute tolerance below one) and a positive dimension n, ell_unitball(n) is the object with zero centre and identity matrix. For it: rho returns the length of each nonzero direction and, as the point, the direction divided by its length; max_eig and min_eig return one, trace returns n and volume returns the Lebesgue measure of the unit ball; polar returns the same object; minksum_ea and minksum_ia of m >= 2 of them both return the ball of radius m about the origin, whatever the nonzero directions; is_internal returns true exactly for the points whose norm is less than one plus the tolerance, in both modes.", "quantifier": "every positive dimension, every number of balls and of directions, every nonzero direction, every point", "why_tests_cant": "A test computes a few of these numbers for dimension two or three and compares them up to a tolerance; it cannot cover all dimensions, directions and numbers of summands.", "anchors": ["products/ellipy/elltool/core/core.py: ell_unitball", "products/ellipy/elltool/core/ellipsoid/Ellipsoid.py: Ellipsoid.rho", "products/ellipy/elltool/core/ellipsoid/Ellipsoid.py: Ellipsoid.polar", "products/ellipy/elltool/core/ellipsoid/Ellipsoid.py: Ellipsoid.minksum_ea", "products/ellipy/elltool/core/ellipsoid/Ellipsoid.py: Ellipsoid.minksum_ia", "products/ellipy/elltool/core/ellipsoid/Ellipsoid.py: Ellipsoid.is_internal", "products/ellipy/elltool/core/aellipsoid/AEllipsoid.py: AEllipsoid.max_eig", "products/ellipy/elltool/core/aellipsoid/AEllipsoid.py: AEllipsoid.min_eig", "products/ellipy/elltool/core/aellipsoid/AEllipsoid.py: AEllipsoid.trace", "products/ellipy/elltool/core/aellipsoid/AEllipsoid.py: AEllipsoid.volume"]}
{"id": "C162", "title": "The area and volume enclosed by the points of get_boundary against volume", "statement": "For a non-degenerate ellipse and n points, the area inside the closed line returned by get_boundary (the shoelace sum over the returned segments) is sin(2 pi / n) / (2 pi / n) times the number returned by volume, up to n * eps times that number. In space the volume inside the returned triangles (the sum of the triple products over six) is the same part of volume for every ellipsoid, namely the part of the unit ball enclosed by the triangles of sphere_tri of the depth used, up to 20 * 4^d * eps; this part is at least 5/3 over 4 pi / 3. In particular the segments and triangles are listed in counterclockwise order and do not depend on where the centre is.", "quantifier": "every non-degenerate ellipse or ellipsoid, every number of points, every eigenbasis and sorting the libraries may pick", "why_tests_cant": "A test plots a few ellipsoids; it cannot compare the enclosed area with the volume for all shapes, centres and numbers of points.", "anchors": ["products/ellipy/elltool/core/ellipsoid/Ellipsoid.py: Ellipsoid.get_boundary", "products/ellipy/elltool/core/aellipsoid/AEllipsoid.py: AEllipsoid.volume", "products/ellipy/gras/geom/tri/tri.py: sphere_tri", "products/ellipy/gras/geom/geom.py: circle_part"]}
{"id": "C163", "title": "The volume of the Minkowski sum lies between the volumes of its approximations and obeys the Brunn-Minkowski inequality", "statement": "For two or more non-degenerate ellipsoids of dimension n and non-zero directions, minksum_ia and minksum_ea succeed and volume succeeds on the summands and on every returned ellipsoid. The Lebesgue measure m of the Minkowski sum of the sets is positive and finite; no internal approximation reports a volume above m, no external approximation reports a volume below m, and the n-th root of m is at least the sum of the n-th roots of the volumes reported for the summands.", "quantifier": "All dimensions n > 0, all lists of two or more non-degenerate ellipsoids one of which has an absolute tolerance not below the one of the results, all finite lists of non-zero directions, every admissible result of the eigenvalue and least-squares routines.", "why_tests_cant": "The measure of the Minkowski sum is not computed anywhere in the code, so a test can only compare approximations with one another; the inequality is a statement about all ellipsoids and all dimensions.", "anchors": ["products/ellipy/elltool/core/ellipsoid/Ellipsoid.py: Ellipsoid.minksum_ea", "products/ellipy/elltool/core/ellipsoid/Ellipsoid.py: Ellipsoid.minksum_ia", "products/ellipy/elltool/core/aellipsoid/AEllipsoid.py: AEllipsoid.volume"]}
{"id": "C164", "title": "polar of the approximations of a Minkowski sum", "statement": "For two or more non-degenerate ellipsoids whose Minkowski sum has the origin as an interior point: polar accepts every ellipsoid that minksum_ea returns; the result lies in the polar of the sum, and on the ray of the direction both have exactly the same points. A point belongs to the polar of the sum exactly if it belongs to the polar of the external approximation in some direction. For a non-degenerate internal approximation with the origin inside, polar returns a set that contains the polar of the sum.", "quantifier": "All dimensions n > 0, all lists of two or more non-degenerate ellipsoids (for the external part one of them has an absolute tolerance not below that of the results), all finite lists of non-zero directions, every admissible result of the eigenvalue and least-squares routines.", "why_tests_cant": "The polar of the Minkowski sum is not an ellipsoid and is not computed by the code; the description uses infinitely many directions.", "anchors": ["products/ellipy/elltool/core/ellipsoid/Ellipsoid.py: Ellipsoid.minksum_ea", "products/ellipy/elltool/core/ellipsoid/Ellipsoid.py: Ellipsoid.minksum_ia", "products/ellipy/elltool/core/ellipsoid/Ellipsoid.py: Ellipsoid.polar"]}
