{"id": "C01", "title": "Integers written to a file are read back unchanged", "statement": "Any integer the library writes in decimal text (with the separators it uses) is read back by the library's integer reader as exactly the same value, and the reader consumes exactly that number plus one following character's worth of look-ahead that it pushes back, so that consecutive numbers can be read one after another; text that does not start with a number is rejected.", "quantifier": "every representable integer value including the most negative one, every list of integers, every separator made of white space", "why_tests_cant": "the value space is 2^64 wide and lists are unbounded; boundary values such as the minimum integer are where sign handling goes wrong", "anchors": ["src/libscotch/common_integer.c:intLoad", "src/libscotch/common_integer.c:intSave"]}
{"id": "C02", "title": "Sorting routines return a sorted permutation of their input", "statement": "The array sorting routines used throughout the library leave the array as a permutation of the records it contained, in ascending key order, without ever reading or writing outside the array and without overflowing their fixed-size explicit stack.", "quantifier": "every array length, every key assignment including all-equal, sorted and reversed keys", "why_tests_cant": "adversarial pivot sequences and lengths near the insertion-sort threshold form an unbounded set; the fixed stack bound is an argument over all sizes", "anchors": ["src/libscotch/common_sort.c:INTSORTNAME", "src/libscotch/common_integer.c:intSort1asc1", "src/libscotch/common_integer.c:intSort2asc1"]}
{"id": "C03", "title": "Random permutation is always a permutation", "statement": "The random permutation routine rearranges the given array into a permutation of its original content, whatever the state of the pseudo-random generator, touching only cells of the array.", "quantifier": "every generator state, every array content and length", "why_tests_cant": "the result depends on a 128-bit generator state", "anchors": ["src/libscotch/common_integer.c:intPerm", "src/libscotch/common_integer.c:intRandVal"]}
{"id": "C04", "title": "Random generator: bounded, reproducible, saveable", "statement": "Values drawn with a bound are in [0,bound); resetting the generator to its seed reproduces exactly the same sequence of draws; saving the state and loading it back resumes the same sequence; the generator never enters the all-zero absorbing state after seeding.", "quantifier": "every seed, process number, number of draws before and after the save or reset, every bound sequence", "why_tests_cant": "histories of draws are unbounded and the state is 128 bits wide", "anchors": ["src/libscotch/common_integer.c:intRandReset", "src/libscotch/common_integer.c:intRandSave", "src/libscotch/common_integer.c:intRandLoad", "src/libscotch/common_integer.c:intRandSeed", "src/libscotch/library_random.c:SCOTCH_randomReset"]}
{"id": "C05", "title": "Block distribution of indices is an exact balanced cover", "statement": "Distributing n consecutive indices over p processes or threads with the library's size and start formulas gives contiguous, disjoint ranges whose union is exactly [0,n), whose sizes differ by at most one and are non-increasing in rank.", "quantifier": "every n >= 0, every p >= 1, every rank", "why_tests_cant": "arithmetic identity over all pairs (n,p)", "anchors": ["src/libscotch/common.h:DATASIZE", "src/libscotch/common.h:DATASCAN"]}
{"id": "C06", "title": "Complete-graph architectures split exactly", "statement": "For a complete (unweighted, weighted or variable-sized) target architecture, bipartitioning a domain yields two disjoint non-empty domains covering exactly the terminals of the parent, with sizes and weights adding up; it refuses exactly single-terminal domains; repeated bipartition therefore terminates at single terminals.", "quantifier": "every architecture size and weight array, every reachable domain, every number of successive splits", "why_tests_cant": "the number of domains grows with the architecture; weights are arbitrary", "anchors": ["src/libscotch/arch_cmplt.c:archCmpltDomBipart", "src/libscotch/arch_cmpltw.c:archCmpltwDomBipart", "src/libscotch/arch_vcmplt.c:archVcmpltDomBipart"]}
{"id": "C07", "title": "Hypercube architecture splits exactly and distances are bit distances", "statement": "For a hypercube architecture, bipartition of a subcube gives two disjoint subcubes of half size covering it; the distance reported between two terminals is the number of differing bits, hence symmetric, zero only on the diagonal and satisfying the triangle inequality.", "quantifier": "every dimension, every subcube, all pairs and triples of terminals", "why_tests_cant": "2^d terminals and exponentially many subcubes", "anchors": ["src/libscotch/arch_hcub.c:archHcubDomBipart", "src/libscotch/arch_hcub.c:archHcubDomDist"]}
{"id": "C08", "title": "Mesh and torus architectures split exactly", "statement": "For 2D, 3D and d-dimensional mesh and torus architectures, bipartition of a box gives two disjoint non-empty boxes whose union is the parent box and whose sizes add up; single-cell boxes are refused; repeated bipartition ends in single cells.", "quantifier": "every number of dimensions, every extent, every sub-box", "why_tests_cant": "unbounded dimensions and extents", "anchors": ["src/libscotch/arch_mesh.c:archMesh2DomBipart", "src/libscotch/arch_mesh.c:archMesh3DomBipart", "src/libscotch/arch_mesh.c:archMeshXDomBipart"]}
{"id": "C09", "title": "Mesh and torus terminal distances are grid distances", "statement": "The distance between two terminals of a mesh is their Manhattan distance, and of a torus the Manhattan distance with wrap-around; it is symmetric and zero exactly on equal terminals.", "quantifier": "every number of dimensions, every extent, all pairs of terminals", "why_tests_cant": "distance formulas on doubled centres involve parity and halving cases over all extents", "anchors": ["src/libscotch/arch_mesh.c:archMesh2DomDist", "src/libscotch/arch_mesh.c:archMeshXDomDist", "src/libscotch/arch_torus.c:archTorusXDomDist"]}
{"id": "C10", "title": "Tree-leaf architecture domains and distances are consistent", "statement": "For tree-leaf architectures, bipartition of a domain gives two disjoint non-empty domains covering the same leaves with sizes adding up; the distance between two distinct leaves is the doubled-path link cost accumulated up to their lowest common ancestor, symmetric and zero on equal leaves.", "quantifier": "every tree depth, fan-out array, link cost array, every domain and pair of leaves", "why_tests_cant": "unbounded tree shapes", "anchors": ["src/libscotch/arch_tleaf.c:archTleafDomBipart", "src/libscotch/arch_tleaf.c:archTleafDomDist"]}
{"id": "C11", "title": "Terminal numbering round trip", "statement": "For every target architecture class, the domain built from a valid terminal number reports that same number and has size one, invalid numbers are rejected, and the first domain contains every terminal.", "quantifier": "every architecture of each class, every terminal number", "why_tests_cant": "the number of terminals and the architecture parameters are unbounded", "anchors": ["src/libscotch/arch.h:archDomTerm", "src/libscotch/arch.h:archDomNum", "src/libscotch/arch_mesh.c:archMeshXDomTerm", "src/libscotch/arch_tleaf.c:archTleafDomTerm", "src/libscotch/arch_deco.c:archDecoDomTerm"]}
{"id": "C12", "title": "Domain inclusion test means inclusion", "statement": "The domain inclusion test of an architecture answers yes exactly when every terminal of the second domain belongs to the first.", "quantifier": "every architecture of each class, all pairs of domains", "why_tests_cant": "pairs of domains are exponentially many", "anchors": ["src/libscotch/arch_cmplt.c:archCmpltDomIncl", "src/libscotch/arch_hcub.c:archHcubDomIncl", "src/libscotch/arch_mesh.c:archMesh2DomIncl", "src/libscotch/arch_tleaf.c:archTleafDomIncl"]}
{"id": "C13", "title": "Graph consistency check accepts only well-formed graphs", "statement": "When the graph check reports success, the graph has every arc end in range, no self loop and no repeated arc, every arc has its reverse with the same load, the recorded arc count, vertex load sum and arc load sum equal the values recomputed from the arrays, and the recorded maximum degree is an upper bound of all degrees; the check itself never reads outside the arrays when the arc ranges of vertices are within them.", "quantifier": "every graph: any number of vertices, any base value, compact or not, with or without loads", "why_tests_cant": "all graphs; a checker bug is invisible to tests that only feed it a few bad graphs", "anchors": ["src/libscotch/graph_check.c:graphCheck", "src/libscotch/library_graph_check.c:SCOTCH_graphCheck"]}
{"id": "C14", "title": "Graph consistency check accepts every well-formed graph", "statement": "The graph check reports success on every well-formed graph, including the empty graph and graphs with isolated vertices.", "quantifier": "every well-formed graph", "why_tests_cant": "all graphs", "anchors": ["src/libscotch/graph_check.c:graphCheck"]}
{"id": "C15", "title": "Changing the base value preserves the graph", "statement": "Changing the base of a graph shifts all vertex and edge indices consistently: the abstract graph (adjacency, loads) is unchanged, the previous base is returned, and changing back restores the original arrays exactly.", "quantifier": "every graph, compact or not, in which no arc slot belongs to two vertices; every old and new base value", "why_tests_cant": "all graphs and bases; the aliasing of start and end arrays has two layouts", "anchors": ["src/libscotch/graph_base.c:graphBase", "src/libscotch/library_graph_base.c:SCOTCH_graphBase"]}
{"id": "C16", "title": "Induced subgraph is the induced subgraph", "statement": "Inducing a subgraph from a list or a part array produces a well-formed graph whose vertices are exactly the kept ones in order, which has an arc between two kept vertices exactly when the original has it, with the same vertex and arc loads, and whose vertex-number array maps back to the original vertices; all writes stay inside the allocated arrays.", "quantifier": "every well-formed graph and every list of distinct vertices or part array", "why_tests_cant": "all graphs and all vertex subsets", "anchors": ["src/libscotch/graph_induce.c:graphInduceList", "src/libscotch/graph_induce.c:graphInducePart", "src/libscotch/library_graph_induce.c:SCOTCH_graphInduceList"]}
{"id": "C17", "title": "Graph save then load is the identity", "statement": "Saving a graph and loading the produced text with the same base gives back the same vertices, arcs, vertex loads, arc loads and labels; with another base it gives the graph shifted to that base.", "quantifier": "every well-formed graph with every combination of optional arrays, every base", "why_tests_cant": "all graphs and all attribute combinations", "anchors": ["src/libscotch/graph_io.c:graphSave", "src/libscotch/graph_io.c:graphLoad", "src/libscotch/graph_io.c:graphLoad2"]}
{"id": "C18", "title": "Loading an arbitrary graph file never corrupts memory", "statement": "Loading any byte stream as a graph either fails cleanly or fills the allocated arrays; it never writes or reads outside of them.", "quantifier": "every byte stream", "why_tests_cant": "all files, including adversarial ones", "anchors": ["src/libscotch/graph_io.c:graphLoad", "src/libscotch/graph_io.c:graphLoad2"]}
{"id": "C19", "title": "Coarsening conserves loads and structure", "statement": "Given a matching in which each vertex has one mate which is itself or a vertex that points back, coarsening produces a well-formed graph whose vertices are the matched pairs, whose vertex loads are the sums of the loads of the merged vertices (so that the total is conserved), and whose arc loads between two coarse vertices are the sums of the loads of all fine arcs between them.", "quantifier": "every well-formed graph and every matching", "why_tests_cant": "all graphs and all matchings; open-addressing hash collisions depend on vertex numbering", "anchors": ["src/libscotch/graph_coarsen.c:graphCoarsenBuild", "src/libscotch/graph_coarsen_edge.c:GRAPHCOARSENEDGENAME"]}
{"id": "C20", "title": "Matching is a maximal involution on compatible vertices, with any number of threads", "statement": "The matching phase of coarsening assigns every vertex a mate; mates are mutual; two different vertices are mates only if they have the same fixed part and the same old part, and are neighbours, or one of them is isolated and merging of isolated vertices is allowed; no two compatible neighbours are both left alone; the number of coarse vertices returned is the number of pairs and single vertices. With several threads, whatever their interleaving, no access is out of bounds, no thread blocks and the same holds.", "quantifier": "every consistent graph, every part constraint, every number of threads, every schedule", "why_tests_cant": "all graphs and all interleavings of lock acquisitions and stale reads", "anchors": ["src/libscotch/graph_match_scan.c:GRAPHMATCHSCANNAME", "src/libscotch/graph_match.c:graphMatch"]}
{"id": "C21", "title": "Graph colouring is proper", "statement": "The graph colouring routine gives each vertex a colour between 0 and the returned number of colours, terminates, and gives different colours to adjacent vertices.", "quantifier": "every graph and every sequence of random values", "why_tests_cant": "all graphs and all random draws; the existing test only prints a histogram", "anchors": ["src/libscotch/library_graph_color.c:SCOTCH_graphColor"]}
{"id": "C22", "title": "Inverse permutation is the inverse", "statement": "From a permutation the library computes its inverse: composing both gives the identity, every cell of the result is written, and applying it twice with the same bases gives the original.", "quantifier": "every permutation length, every permutation, every pair of base values", "why_tests_cant": "n! permutations", "anchors": ["src/libscotch/order.c:orderPeri", "src/libscotch/library_graph_order.c:SCOTCH_graphOrderInit"]}
{"id": "C23", "title": "Ordering check accepts exactly permutations with a coherent block tree", "statement": "The ordering check succeeds exactly when the inverse permutation array is a permutation of the vertex indices and the column-block tree is coherent (sizes positive and adding up, node types and counts right).", "quantifier": "every inverse permutation array, every tree", "why_tests_cant": "all arrays and trees", "anchors": ["src/libscotch/order_check.c:orderCheck", "src/libscotch/library_graph_order.c:SCOTCH_graphOrderCheck"]}
{"id": "C24", "title": "Column block ranges partition the ordering", "statement": "The column-block range array starts at the base value, is strictly increasing, ends at base plus number of vertices, and has one entry per leaf block plus one, all inside the array provided.", "quantifier": "every coherent block tree", "why_tests_cant": "trees of unbounded depth and width", "anchors": ["src/libscotch/order.c:orderRang"]}
{"id": "C25", "title": "Separator tree array is a tree with larger-numbered fathers", "statement": "The separator tree array gives, for every column block, either -1 or the number of a block with a strictly larger number; every entry is written exactly once, so following fathers terminates.", "quantifier": "every coherent block tree", "why_tests_cant": "trees of unbounded depth and width", "anchors": ["src/libscotch/order.c:orderTree"]}
{"id": "C26", "title": "Every ordering strategy yields a permutation", "statement": "Whatever separators the separation strategy returns, nested dissection with its leaf and separator strategies, connected-component splitting, Gibbs-Poole-Stockmeyer ordering and simple ordering each fill their slice of the inverse permutation array with exactly the vertices of the subgraph, once each, and build a coherent block tree.", "quantifier": "every graph, every separator oracle respecting the separator contract, every strategy nesting", "why_tests_cant": "all graphs, all separations, unbounded recursion", "anchors": ["src/libscotch/hgraph_order_nd.c:hgraphOrderNd", "src/libscotch/hgraph_order_gp.c:hgraphOrderGp", "src/libscotch/hgraph_order_cc.c:hgraphOrderCc", "src/libscotch/hgraph_order_si.c:hgraphOrderSi"]}
{"id": "C27", "title": "Ordering save then load is the identity", "statement": "Saving an ordering of a graph without vertex labels and loading it into an ordering of the same graph restores the same inverse permutation; loading an ordering for a graph with vertex labels is refused.", "quantifier": "every ordering, every base value, every previous content of the destination", "why_tests_cant": "all permutations", "anchors": ["src/libscotch/order_io.c:orderSave", "src/libscotch/order_io.c:orderLoad"]}
{"id": "C28", "title": "Bipartition cost and loads always match the part array", "statement": "After every operation on a bipartition (reset, swap of all vertices, save and restore, greedy and local refinement moves) the recorded part loads, sizes, frontier, communication load and external gain equal the values recomputed from scratch from the part array.", "quantifier": "every graph, every part array, every sequence of operations", "why_tests_cant": "all graphs and histories; incremental gain updates drift silently", "anchors": ["src/libscotch/bgraph.c:bgraphSwal", "src/libscotch/bgraph.c:bgraphZero", "src/libscotch/bgraph_cost.c:bgraphCost2", "src/libscotch/bgraph_store.c:bgraphStoreUpdt", "src/libscotch/bgraph_bipart_fm.c:bgraphBipartFm"]}
{"id": "C29", "title": "Separator parts never touch", "statement": "After separator thinning, refinement and save/restore, no arc joins the two separated parts, the separator list holds exactly the separator vertices and the recorded loads and sizes equal recomputed values.", "quantifier": "every graph, every valid initial separator, every sequence of moves", "why_tests_cant": "all graphs and histories", "anchors": ["src/libscotch/vgraph_check.c:vgraphCheck", "src/libscotch/vgraph_separate_th.c:vgraphSeparateTh", "src/libscotch/vgraph_separate_fm.c:vgraphSeparateFm", "src/libscotch/vgraph_store.c:vgraphStoreUpdt"]}
{"id": "C30", "title": "Edge-to-vertex separator covers all cut edges, minimally", "statement": "Turning an edge separator into a vertex separator selects a set of vertices that touches every cut edge; the selected set is a minimum cover of the bipartite cut graph.", "quantifier": "every bipartite cut graph, with or without vertex loads", "why_tests_cant": "all bipartite graphs", "anchors": ["src/libscotch/vgraph_separate_es.c:vgraphSeparateEsCover"]}
{"id": "C31", "title": "Mappings only use valid parts and honour fixed vertices", "statement": "Partitioning and mapping results assign every vertex a terminal number between 0 and the number of parts minus one; vertices declared fixed keep their imposed terminal.", "quantifier": "every graph, architecture, fixed-vertex array and sequence of splits", "why_tests_cant": "all graphs and all bipartition outcomes", "anchors": ["src/libscotch/mapping.c:mapTerm", "src/libscotch/kgraph_map_rb_part.c:kgraphMapRbPart", "src/libscotch/library_graph_map.c:SCOTCH_graphPart"]}
{"id": "C32", "title": "Priority heap always delivers a minimum", "statement": "The Fibonacci heap used by the refinement algorithms holds exactly the elements added and not removed, and asking for the best element returns one of least key, after any sequence of additions, removals and key decreases; its degree table is never overrun.", "quantifier": "every history of operations, every key assignment", "why_tests_cant": "unbounded histories", "anchors": ["src/libscotch/fibo.c:fiboHeapConsolidate", "src/libscotch/fibo.h:fiboHeapDelMacro", "src/libscotch/fibo.h:fiboHeapDecreaseMacro"]}
{"id": "C33", "title": "Gain tables never lose or misplace an element", "statement": "The gain bucket tables hold exactly the inserted and not removed elements, the first-element query returns an element of the best non-empty bucket, scanning with first/next enumerates every element, and bucket indices stay inside the table.", "quantifier": "every history of insertions, deletions and queries, every gain value", "why_tests_cant": "unbounded histories and 2^64 gains", "anchors": ["src/libscotch/gain.c:gainTablAddLog", "src/libscotch/gain.c:gainTablAddLin", "src/libscotch/gain.c:gainTablFrst", "src/libscotch/gain.c:gainTablNext"]}
{"id": "C34", "title": "Thread barrier is a barrier", "statement": "No thread leaves a barrier before all threads of the context have entered it, exactly one thread per round is told it is the last one, and rounds never mix, for every interleaving including spurious wake-ups.", "quantifier": "every number of threads, every schedule, every number of rounds", "why_tests_cant": "schedules are unbounded and rare interleavings do not show up in tests", "anchors": ["src/libscotch/common_thread.c:threadContextBarrier", "src/libscotch/common_thread.c:threadWaitBarrier"]}
{"id": "C35", "title": "Thread reduction and scan equal their sequential meaning", "statement": "The parallel reduction leaves at the root the combination of all contributions in rank order, and the scan leaves at every rank the combination of all contributions of ranks up to it.", "quantifier": "every number of threads, every root, every associative operator and values", "why_tests_cant": "unbounded thread counts, non-power-of-two corner cases", "anchors": ["src/libscotch/common_thread.c:threadReduce", "src/libscotch/common_thread.c:threadScan"]}
{"id": "C36", "title": "Context options: what is set is what is read", "statement": "Setting an option value in a context makes subsequent reads of that option return it and leaves all other options at their values; defaults are untouched and shared defaults are never modified; out-of-range option numbers are rejected.", "quantifier": "every history of option settings", "why_tests_cant": "unbounded histories, copy-on-write of a shared default block", "anchors": ["src/libscotch/common_values.c:contextValuesSetInt", "src/libscotch/common_values.c:contextValuesGetInt", "src/libscotch/common_values.c:contextValuesSetDbl"]}
{"id": "C37", "title": "Mesh to graph conversion connects exactly co-element nodes", "statement": "Converting a mesh to a graph yields a well-formed graph on the nodes in which two different nodes are adjacent exactly when some element contains both.", "quantifier": "every well-formed mesh", "why_tests_cant": "all meshes; hash-table collisions depend on numbering", "anchors": ["src/libscotch/mesh_graph.c:meshGraph", "src/libscotch/library_mesh_graph.c:SCOTCH_meshGraph"]}
{"id": "C38", "title": "Dual graph of a METIS mesh connects exactly elements sharing enough nodes", "statement": "The METIS-compatible dual graph routine connects two different elements exactly when they share at least the requested number of nodes.", "quantifier": "every element-node list, every threshold", "why_tests_cant": "all meshes", "anchors": ["src/libscotchmetis/metis_graph_dual.c:METIS_MeshToDual"]}
{"id": "C39", "title": "Symbolic factorization contains all fill-in", "statement": "The block symbolic factorization lists, for every column block, blocks covering every row that is non-zero in the factor, blocks are sorted, disjoint and face the right column blocks.", "quantifier": "every graph, ordering and block partition", "why_tests_cant": "all graphs and orderings", "anchors": ["src/esmumps/symbol_fax.c:symbolFax", "src/esmumps/symbol_check.c:symbolCheck"]}
{"id": "C40", "title": "Band graph and distance search are exact", "statement": "The breadth-first band extraction keeps exactly the vertices within the requested distance of the frontier and records their exact distances; the pseudo-diameter search returns a distance that some pair of vertices of the component realizes.", "quantifier": "every graph, frontier and width", "why_tests_cant": "all graphs", "anchors": ["src/libscotch/graph_band.c:graphBand", "src/libscotch/graph_diam.c:graphDiamPV"]}
{"id": "C41", "title": "Mapping save then load is the identity", "statement": "Saving a mapping and loading it for the same graph (with or without vertex labels) restores the same part of every vertex and -1 for vertices absent from the file.", "quantifier": "every graph, label set and part array", "why_tests_cant": "all label permutations", "anchors": ["src/libscotch/mapping_io.c:mapSave", "src/libscotch/library_graph_map_io.c:SCOTCH_graphTabLoad"]}
{"id": "C42", "title": "Distributed graph index ranges are coherent", "statement": "Building a distributed graph from local pieces assigns global index ranges that are disjoint, contiguous and cover all vertices; ownership search finds the process holding any global vertex.", "quantifier": "every number of processes and local sizes, including empty processes", "why_tests_cant": "unbounded process counts and sizes", "anchors": ["src/libscotch/dgraph_build.c:dgraphBuild2", "src/libscotch/dgraph_ghst.c:dgraphGhst2"]}
{"id": "C43", "title": "Folding redistributes every vertex exactly once", "statement": "When a distributed graph is folded onto half of the processes, all processes compute the same plan, independently of former memory contents; every vertex ends at exactly one place on exactly one active process; sender and receiver tables describe the same messages; the new vertex ranges are contiguous and lose no vertex; and the search that renumbers arc ends gives each vertex the number of its new place, without collision. No process sends messages to itself.", "quantifier": "every process count, vertex distribution (with holes) and half chosen", "why_tests_cant": "unbounded distributions; the plan is computed by an intricate two-pointer scan with restarts", "anchors": ["src/libscotch/dgraph_fold_comm.c:dgraphFoldComm", "src/libscotch/dgraph_fold.c:dgraphFold2"]}
{"id": "C44", "title": "Partial sort", "statement": "Partial sorting of any array of records ends, stays within the array and its explicit stack, and yields a permutation of the records that is at least partitioned around one inner place when there are more than six records; records outside of the range are unchanged.", "quantifier": "every array, record count below 2^31 and maximum number of levels", "why_tests_cant": "all inputs; stack bound and permutation property over all contents", "anchors": ["src/libscotch/common_psort.c:INTSORTNAME", "src/libscotch/common_sort.c:intPsort2asc1"]}
{"id": "C45", "title": "Greatest common divisor", "statement": "For any two non-negative integers, the library's GCD routine terminates without dividing by zero and returns their greatest common divisor.", "quantifier": "every pair of non-negative integers", "why_tests_cant": "termination and correctness over all pairs", "anchors": ["src/libscotch/common_integer.c:intGcd"]}
{"id": "C46", "title": "Coarsening an architecture yields matchings", "statement": "Successive coarsenings of the processors of an architecture group them by singletons or pairs, every processor being in exactly one group; they strictly decrease the number of groups until a single one remains, and then report it.", "quantifier": "every complete graph, hypercube (up to 30 dimensions), mesh, and tree architecture, whatever the initial content of the work array", "why_tests_cant": "odd sizes and uneven dimensions give many shapes of pairs; memory content is not under test control", "anchors": ["src/libscotch/arch_cmplt.c:archCmpltMatchMate", "src/libscotch/arch_hcub.c:archHcubMatchMate", "src/libscotch/arch_mesh.c:archMeshXMatchMate", "src/libscotch/arch_tleaf.c:archTleafMatchMate"]}
{"id": "C47", "title": "Architectures and domains survive a save and a load", "statement": "Loading what SCOTCH_archSave wrote gives an architecture of the same class with the same parameters (sizes, weights, levels, terminals, nested architectures), and leaves the stream just after it; the same holds for domains. Loading any text ends, stays in the bounds of the arrays, and only gives architectures the sizes of which are sane.", "quantifier": "all valid architectures of all classes, nested to any depth, followed by any text; all domains; all texts for robustness", "why_tests_cant": "Architectures are nested and of sixteen classes, values are unbounded, and robustness quantifies over all texts.", "anchors": ["src/libscotch/arch.c", "src/libscotch/arch_cmplt.c", "src/libscotch/arch_cmpltw.c", "src/libscotch/arch_deco.c", "src/libscotch/arch_dist.c", "src/libscotch/arch_hcub.c", "src/libscotch/arch_mesh.c", "src/libscotch/arch_sub.c", "src/libscotch/arch_tleaf.c", "src/libscotch/arch_torus.c", "src/libscotch/arch_vcmplt.c", "src/libscotch/arch_vhcub.c"]}
{"id": "C48", "title": "A cloned graph equals its original", "statement": "Cloning a consistent graph, whose edge arrays extend from the base value to the largest end index, gives a graph with the same vertices, neighbours, loads, labels and statistics, in its own memory, without accessing memory outside of arrays.", "quantifier": "every graph, compact or not, with or without optional arrays; every former content of memory", "why_tests_cant": "unbounded graphs; all combinations of optional arrays packed in one block", "anchors": ["src/libscotch/graph_clone.c:graphClone"]}
{"id": "C49", "title": "Grouped allocation and memory accounting", "statement": "Arrays allocated as a group are aligned, disjoint and inside a block of exactly the needed size, whenever padded sizes can be added without overflow; the layout recomputed on an existing block is the same. After any legal history of allocations, reallocations and releases, some of which may fail, the current memory is the sum of the sizes of live blocks and the peak is the largest such sum of the history.", "quantifier": "every list of sizes; every history of calls and every choice of addresses by the system allocator", "why_tests_cant": "unbounded lists of sizes and histories", "anchors": ["src/libscotch/common_memory.c:memAllocGroup", "src/libscotch/common_memory.c:memReallocGroup", "src/libscotch/common_memory.c:memOffset", "src/libscotch/common_memory.c:memAllocRecord", "src/libscotch/common_memory.c:memCur", "src/libscotch/common_memory.c:memMax"]}
{"id": "C50", "title": "A parallel launch runs the function exactly once on every thread, and returns when all are done", "statement": "For a context with several threads, each call to the launch routine makes every thread of the context call the given function exactly once, with its own rank, in the order of launches; the call returns to the master only after all threads have completed; the threads never run a function that has not been launched, never deadlock, and the termination of the context ends only after all slave threads have left their loop, whatever the interleaving of threads and the spurious wake-ups of condition variables.", "quantifier": "all numbers of threads, all sequences of launches followed by a termination, all schedules and all spurious wake-ups", "why_tests_cant": "The number of interleavings is unbounded and lost wake-ups only show up in rare schedules.", "anchors": ["src/libscotch/common_thread.c:threadLaunch", "src/libscotch/common_thread.c:threadWait", "src/libscotch/common_thread.c:threadWaitBarrier", "src/libscotch/common_thread.c:threadContextExit2"]}
{"id": "C51", "title": "Mesh checking accepts exactly the consistent meshes", "statement": "On a mesh whose arrays have their announced sizes, whose base value is that of its first range and whose load sums are representable, the checker never accesses memory outside of arrays, and accepts the mesh if and only if it is consistent: elements and nodes only refer to each other, symmetrically and without duplicates; loads are positive; sums, degrees, numbers of isolated elements and of arcs are right.", "quantifier": "every mesh", "why_tests_cant": "unbounded meshes and combinations of defects", "anchors": ["src/libscotch/mesh_check.c:meshCheck"]}
{"id": "C52", "title": "Column block maps and separation trees that are saved describe the ordering", "statement": "The mapping file of an ordering gives, for every vertex, the number of the column block that contains its position in the ordering; the tree file gives the number of the father of this block, or -1 for roots.", "quantifier": "every valid ordering, with or without vertex labels", "why_tests_cant": "all block trees and permutations", "anchors": ["src/libscotch/order_io.c:orderSaveMap", "src/libscotch/order_io.c:orderSaveTree"]}
{"id": "C53", "title": "Halo exchange brings each ghost vertex the value of its owner", "statement": "After the values attached to the vertices of a distributed graph have been exchanged, every process finds, at the local index of the end of each of its arcs, the value recorded by the process that owns this vertex, and its own values have not changed. This holds with collective and with point-to-point communication, no message has an unexpected length, and no process waits for a message that is not sent.", "quantifier": "every consistent distributed graph, every number of processes, including empty ones, and every content", "why_tests_cant": "unbounded process counts, sizes and distributions", "anchors": ["src/libscotch/dgraph_ghst.c:dgraphGhst2", "src/libscotch/dgraph_halo.c:dgraphHaloSync", "src/libscotch/dgraph_halo_fill.c:dgraphHaloFillGeneric"]}
{"id": "C54", "title": "Building graphs from arrays", "statement": "SCOTCH_graphBuild, given arrays of sufficient sizes, builds the graph that the arrays describe, whatever the base value and whichever optional arrays (ends, loads, labels, edge loads) are given; its sums of loads and its maximum degree are exact; the graph is consistent exactly when the arrays meet the requirements of the manual, which the routine does not check. The arrays SCOTCH_graphData gives back describe the same graph.", "quantifier": "every base value, number of vertices, choice of optional arrays and array contents", "why_tests_cant": "combinations of optional arrays, base values, compact and non-compact edge arrays are unbounded", "anchors": ["src/libscotch/library_graph.c:SCOTCH_graphBuild", "src/libscotch/library_graph.c:SCOTCH_graphData"]}
{"id": "C55", "title": "Block trees of orderings tell the truth", "statement": "Whatever the ordering strategy made of the covered methods, the tree of column blocks that an ordering returns describes the structure of the graph: there is no edge between vertices of two blocks that it gives as disconnected components, nor between the vertices of the two parts of a dissection.", "quantifier": "every consistent graph, every strategy built from simple, Gibbs-Poole-Stockmeyer, nested dissection, connected components, conditional and any other correct methods", "why_tests_cant": "wrong trees only show as wrong numerical factorizations, for graphs and strategies that a test happens to pick", "anchors": ["src/libscotch/hgraph_order_nd.c:hgraphOrderNd", "src/libscotch/hgraph_order_cc.c:hgraphOrderCc", "src/libscotch/library_graph_order.c:SCOTCH_graphOrderComputeList"]}
{"id": "C56", "title": "Mapping costs are exact", "statement": "After a mapping is computed, its communication cost is the sum over edges of the edge load times the distance between the processors of its two ends, its frontier lists exactly the vertices having a neighbour on another processor, and the load imbalance of every part is the sum of its vertex loads minus its target load.", "quantifier": "every graph, architecture, fixed-vertex array and outcome of the bipartitioning method", "why_tests_cant": "sums over arbitrary weighted graphs and mappings", "anchors": ["src/libscotch/kgraph.c:kgraphCost", "src/libscotch/kgraph.c:kgraphFron", "src/libscotch/kgraph_map_rb.c:kgraphMapRb"]}
{"id": "C57", "title": "Assembly trees given to MUMPS", "statement": "esmumps (and esmumpsv for weighted graphs), given the graph of a matrix, returns 0 and the assembly tree of the computed ordering: secondary variables refer to the principal variable of their column block and have no rows; principal variables hold the weight of the rows of their front, and refer to the principal variable of the column block of the first row below their block in the factor, or are roots if there is none. Failures are reported.", "quantifier": "every graph of at least one vertex, weights, valid ordering and memory contents", "why_tests_cant": "the tree depends on the whole symbolic factorization; the array of weights is overwritten while it is read", "anchors": ["src/esmumps/esmumps.c:esmumps2", "src/esmumps/library_esmumps.c:esmumps", "src/esmumps/symbol_fax_graph.c:symbolFaxGraph"]}
{"id": "C58", "title": "Restricting an architecture to some of its processors", "statement": "SCOTCH_archSub, given a list of distinct processors of an architecture, builds an architecture of which the processor i is the i-th one of the list: splitting it recursively reaches every processor of the list exactly once, sizes and weights are sums over its processors, and distances are those of the original architecture. Restricting such an architecture again works the same way.", "quantifier": "every original architecture that satisfies the architecture laws and has a correct coarsening routine, every list of distinct processors", "why_tests_cant": "the set of lists is exponential; errors in the tree of domains only show as bad or failing mappings", "anchors": ["src/libscotch/arch_sub.c:archSubArchBuild", "src/libscotch/arch_sub.c:archSubDomBipart", "src/libscotch/library_arch.c:SCOTCH_archSub"]}
{"id": "C59", "title": "Decomposition-defined architectures", "statement": "A target architecture that is described by a binary tree of domains (numbered as in a heap) with the list of its processors and their distances behaves as this tree: recursive bipartitioning reaches every processor once, sizes and weights of domains are sums over their processors, the number of a domain is the smallest one of its processors, inclusion of domains is inclusion of their sets of processors, the domain of a processor number is the one that only has this processor, distances are symmetric, equal to the given ones for processors, and else are averages of the distances of halves, which lie between the smallest and the largest given distances for disjoint domains.", "quantifier": "every legal decomposition: any shape of the tree, numbering, labels, weights and distances", "why_tests_cant": "shapes of trees and orders of the descriptions are unbounded; the averages depend on the order in which the table is filled", "anchors": ["src/libscotch/arch_deco.c:archDecoArchBuild2", "src/libscotch/arch_deco.c:archDecoDomTerm", "src/libscotch/arch_deco.c:archDecoDomBipart", "src/libscotch/arch_deco.c:archDecoDomIncl", "src/libscotch/arch_deco.c:archDecoDomDist"]}
{"id": "C60", "title": "Partitioning with overlap", "statement": "SCOTCH_graphPartOvl gives every vertex a part between 0 and n-1, or -1 if it is in the separator, so that no edge joins two different parts; when it reports success, all vertices of the caller's array have been written and nothing else has. The loads and sizes of parts that strategies compare count every vertex of its separator once in each of the parts of its neighbours, whether they are computed from scratch or by projection from a coarser graph; a choice between two strategies keeps the lighter separator.", "quantifier": "every consistent graph, every number of parts, every strategy made of recursive bipartitioning, multilevel, conditions, sequences and choices, every result of the separations and of coarsening, every interleaving of the threads that write in the shared arrays, all contents of uninitialised memory", "why_tests_cant": "interleavings of threads and contents of memory cannot be enumerated, and wrong loads of parts do not show in the part array", "anchors": ["src/libscotch/library_graph_part_ovl.c:SCOTCH_graphPartOvl", "src/libscotch/wgraph.c:wgraphCost", "src/libscotch/wgraph_part_rb.c:wgraphPartRb", "src/libscotch/wgraph_part_ml.c:wgraphPartMl", "src/libscotch/wgraph_part_st.c:wgraphPartSt", "src/libscotch/wgraph_store.c", "src/libscotch/wgraph_part_zr.c"]}
{"id": "C61", "title": "Consistency check of partitions with overlap", "statement": "The check that is run on partitions with overlap after each method accepts every valid partition and rejects every invalid one: parts in range, parts separated, the frontier array holding every vertex of the separator once, and loads and sizes of parts and of the separator being those of the part array.", "quantifier": "every partition structure, valid or not, on every consistent graph, all contents of uninitialised memory", "why_tests_cant": "the set of invalid structures cannot be enumerated; a check that accepts some of them hides errors of all methods", "anchors": ["src/libscotch/wgraph_check.c:wgraphCheck"]}
{"id": "C62", "title": "Choice among mapping strategies", "statement": "When SCOTCH_graphMapCompute runs a strategy made of sequences, conditions and choices of methods, success means that every vertex has been given a domain, with the frontier, the communication cost and the loads of that mapping. A choice between two strategies starts both of them from the same mapping and ends with the mapping of one of them: with one that succeeds, and, if both succeed, with a balanced one if there is one, of lesser communication cost if both are balanced, and of lesser imbalance if none is.", "quantifier": "every strategy, every set of methods, every initial mapping, all contents of uninitialised memory", "why_tests_cant": "strategies are unbounded expressions, and a wrong choice or a partial restoration of saved mappings gives plausible results", "anchors": ["src/libscotch/kgraph_map_st.c:kgraphMapSt", "src/libscotch/kgraph_store.c:kgraphStoreSave", "src/libscotch/kgraph_store.c:kgraphStoreUpdt"]}
{"id": "C63", "title": "Consistency check of mappings", "statement": "The check that is run on mappings between the steps of SCOTCH_graphMapCompute in debug builds reads and writes no memory out of its arrays, whatever the mapping holds, and accepts a mapping exactly when every vertex has a domain of the architecture, vertices that are fixed are in their domains, the frontier holds every vertex with a neighbour in another part, once, and no other vertex, and the communication cost and the loads of parts are those of the mapping.", "quantifier": "every consistent graph, every mapping and every content of its arrays, every architecture, all contents of uninitialised memory", "why_tests_cant": "a check that accepts wrong mappings, or refuses right ones, is what tests rely on; the contents of the arrays are arbitrary", "anchors": ["src/libscotch/kgraph_check.c:kgraphCheck", "src/libscotch/mapping_check.c:mapCheck"]}
{"id": "C64", "title": "Node separators of meshes", "statement": "When SCOTCH_meshOrder separates a mesh, by any strategy, no element is across the two parts: every element is in one part and all of its nodes are in this part or in the separator. The sizes and the loads of the parts, their difference, and the list of the nodes of the separator are those of the separation. A selection between two strategies keeps a separator that has no more nodes than any of the two. The consistency check of mesh separations accepts exactly the separations for which this holds, and reads and writes no memory out of its arrays.", "quantifier": "every consistent mesh with at least one node, every initial separation, every strategy of right methods, including separation by the graph of nodes (debug builds) with every right strategy for graphs, all contents of uninitialised memory; for the check, all contents of the arrays", "why_tests_cant": "meshes, strategies and contents of uninitialised memory are unbounded", "anchors": ["src/libscotch/vmesh.c:vmeshZero", "src/libscotch/vmesh_separate_gr.c:vmeshSeparateGr", "src/libscotch/vmesh_separate_zr.c:vmeshSeparateZr", "src/libscotch/vmesh_separate_st.c:vmeshSeparateSt", "src/libscotch/vmesh_store.c:vmeshStoreUpdt", "src/libscotch/vmesh_check.c:vmeshCheck"]}
{"id": "C65", "title": "Meshes without their halos", "statement": "When SCOTCH_meshOrder separates a submesh, the mesh that is separated is consistent: it has the elements of the submesh, and its nodes that do not belong to the separators around it, with the same loads; elements have the same nodes, but for those of the separators around. No memory is accessed out of the arrays of the submesh.", "quantifier": "every consistent halo mesh, all contents of uninitialised memory, all sizes of numbers", "why_tests_cant": "submeshes come from all possible sequences of separations; orders of nodes and elements that are seldom used are not tested", "anchors": ["src/libscotch/hmesh_mesh.c:hmeshMesh"]}
{"id": "C66", "title": "Submeshes of nested dissection", "statement": "When SCOTCH_meshOrder has separated a mesh or a submesh, the submesh of each part on which it goes on has exactly the elements of the part that still have nodes to order, the nodes of the part, and, as a halo, the other nodes of these elements; vertices keep their neighbours and their loads, the numbers of arcs and of isolated elements that are recorded are right, and each node keeps the number that it has in the mesh of the user, in the same order.", "quantifier": "every consistent halo mesh, every separation in which elements do not have nodes of both parts, both parts, all contents of uninitialised memory", "why_tests_cant": "submeshes come from all possible sequences of separations, and an error in one of them is only seen as a worse ordering", "anchors": ["src/libscotch/hmesh_induce.c:hmeshInducePart"]}
{"id": "C67", "title": "Patterns in strategy strings", "statement": "The strategies that SCOTCH_stratGraphMapBuild, SCOTCH_stratGraphOrderBuild and the other routines of this kind build, and the default ones, are the template in which every occurrence of each pattern is replaced by its value, from left to right, whether values are shorter or longer than patterns; replacement is done in place, never goes out of the buffer if the final text fits in it, and leaves the text unchanged if the pattern does not occur.", "quantifier": "every text, every pattern that is not empty, every replacement, every buffer that is large enough", "why_tests_cant": "values depend on all combinations of flags, numbers of parts and imbalance ratios, and an error in a move between overlapping areas only shows for some positions of patterns", "anchors": ["src/libscotch/common_string.c:stringSubst", "src/libscotch/common_string.c:stringSubst2"]}
{"id": "C68", "title": "Check of halo graphs", "statement": "When the library is compiled with checks, every halo graph that SCOTCH_graphOrder builds is checked: right halo graphs are always accepted, without access out of arrays, and the ones that are accepted are consistent graphs whose last vertices are the halo, with no arc between halo vertices, whose arcs to the halo come last, and whose numbers and sums without the halo are right.", "quantifier": "every halo graph", "why_tests_cant": "a check that misses a kind of error is only seen when this error occurs; one that rejects a right graph when such a graph is built", "anchors": ["src/libscotch/hgraph_check.c:hgraphCheck"]}
{"id": "C69", "title": "Orderings of meshes as they are", "statement": "With the simple method, SCOTCH_meshOrder orders the nodes of the mesh, or of a submesh of nested dissection, as they are numbered: the part of the inverse permutation that is given to the submesh holds exactly the numbers, in the mesh of the user, of the nodes of the part, and the rest of the permutation is unchanged.", "quantifier": "every consistent mesh or submesh, with or without halo, every place in the permutation", "why_tests_cant": "the place and the numbers depend on all separations made before", "anchors": ["src/libscotch/hmesh_order_si.c:hmeshOrderSi"]}
{"id": "C70", "title": "Check of halo meshes", "statement": "When the library is compiled with checks, every halo mesh that SCOTCH_meshOrder builds is checked: right halo meshes are always accepted, without access out of arrays, and the ones that are accepted are consistent meshes whose last nodes are the halo, whose arcs to the halo come last, and whose numbers and sums without the halo are right.", "quantifier": "every halo mesh whose sums of loads can be represented", "why_tests_cant": "a check that misses a kind of error is only seen when this error occurs; one that rejects a right mesh when such a mesh is built", "anchors": ["src/libscotch/hmesh_check.c:hmeshCheck"]}
{"id": "C71", "title": "Ordering of meshes by blocks", "statement": "When SCOTCH_meshOrder orders a mesh by blocks, with a strategy that leaves a single column block, the block is kept if it has less than twice the smallest size of blocks; else it is split into as many blocks of at least this size as there can be, whose sizes differ by at most one, and nodes keep their places. Wrong smallest sizes, and failures of the strategy, are reported. The ordering always ends.", "quantifier": "every mesh, ordering strategy and smallest size of blocks whose double can be represented", "why_tests_cant": "sizes of blocks depend on remainders of divisions; that the ordering does not end is seen only with the strategies for which it does not", "anchors": ["src/libscotch/hmesh_order_bl.c:hmeshOrderBl"]}
