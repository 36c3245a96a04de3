{
 "claims": [
  {
   "property": "C01",
   "status": "partial",
   "theorems": [
    "Scotch.C01_save_load_partial",
    "Scotch.C01_list_partial",
    "Scotch.C01_load_iff",
    "Scotch.C01_most_negative_overflows",
    "Scotch.C01_statement_false"
   ],
   "note": "Holds for every integer but the most negative one, whose text overflows when read back; the negation is proved with that witness."
  },
  {
   "property": "C02",
   "status": "proved",
   "theorems": [
    "Scotch.C02_sort",
    "Scotch.C02_intSort1asc1",
    "Scotch.C02_intSort2asc1",
    "Scotch.C02_intSort2asc2"
   ],
   "note": "Generic sort template (quick sort pass plus insertion pass) and its instances."
  },
  {
   "property": "C03",
   "status": "proved",
   "theorems": [
    "Scotch.C03_intPerm",
    "Scotch.C03_intAscn"
   ],
   "note": "For every generator state."
  },
  {
   "property": "C04",
   "status": "proved",
   "theorems": [
    "Scotch.C04_bounded",
    "Scotch.C04_bounded_unsigned",
    "Scotch.C04_reset_reproduces",
    "Scotch.C04_seed_deterministic",
    "Scotch.C04_save_load",
    "Scotch.C04_never_zero",
    "Scotch.C04_seed_nonzero",
    "Scotch.C04_spawn_nonzero",
    "Scotch.C04_step_injective"
   ],
   "note": "C library fscanf/fprintf conversions are modelled, stream errors are not."
  },
  {
   "property": "C05",
   "status": "proved",
   "theorems": [
    "Scotch.C05_distribution"
   ],
   "note": ""
  },
  {
   "property": "C06",
   "status": "proved",
   "theorems": [
    "Scotch.C06_cmplt",
    "Scotch.C06_cmpltw",
    "Scotch.C06_var",
    "Scotch.C06_var_overflow"
   ],
   "note": "Unweighted, weighted (including construction) and variable-sized complete graphs. Variable-sized domains too deep for the integer type overflow before the test of the code (C06_var_overflow)."
  },
  {
   "property": "C07",
   "status": "partial",
   "theorems": [
    "Scotch.C07_hcub",
    "Scotch.C07_hcub_accepts_too_much",
    "Scotch.C07_vhcub_dist"
   ],
   "note": "Full statement up to 30 dimensions. Dimensions 31 and 32, accepted by the reader on 32-bit integers, make shifts undefined: negation proved."
  },
  {
   "property": "C08",
   "status": "proved",
   "theorems": [
    "Scotch.C08_meshX",
    "Scotch.C08_mesh2",
    "Scotch.C08_mesh3"
   ],
   "note": ""
  },
  {
   "property": "C09",
   "status": "partial",
   "theorems": [
    "Scotch.C09_mesh_dist",
    "Scotch.C09_torus_dist",
    "Scotch.C09_metric",
    "Scotch.C09_meshX_partial",
    "Scotch.C09_meshX_not_manhattan"
   ],
   "note": "2D and 3D meshes and all tori: proved. d-dimensional meshes use the torus formula: negation of the Manhattan statement proved, and torus distance proved instead."
  },
  {
   "property": "C10",
   "status": "proved",
   "theorems": [
    "Scotch.C10_tleaf",
    "Scotch.C10_ltleaf"
   ],
   "note": ""
  },
  {
   "property": "C11",
   "status": "partial",
   "theorems": [
    "Scotch.C11_numbers_partial",
    "Scotch.C11_var",
    "Scotch.C11_negative_accepted",
    "Scotch.C59_term_not"
   ],
   "note": "Every class; numbers that are too big are rejected, but negative numbers are accepted: negation proved. Decomposition-defined (deco) architectures: the numbering is wrong for all of them (C59_term_not)."
  },
  {
   "property": "C12",
   "status": "partial",
   "theorems": [
    "Scotch.C12_incl",
    "Scotch.C12_tleaf_partial",
    "Scotch.C12_tleaf_not_inclusion"
   ],
   "note": "Every class but tree-leaf: full. Tree-leaf: negation proved for domains of the same level, inclusion proved otherwise."
  },
  {
   "property": "C13",
   "status": "proved",
   "theorems": [
    "Scotch.Graph.C13_check_sound",
    "Scotch.Graph.C13_check_safe",
    "Scotch.Graph.C13_check_overflows"
   ],
   "note": "Sound on every graph, without hypotheses; C13_check_overflows shows that the overflow test of the checker itself relies on signed overflow."
  },
  {
   "property": "C14",
   "status": "proved",
   "theorems": [
    "Scotch.Graph.C14_check_complete",
    "Scotch.Graph.C14_check_iff"
   ],
   "note": "Provided the sums of loads fit the integer type."
  },
  {
   "property": "C15",
   "status": "proved",
   "theorems": [
    "Scotch.Graph.C15_base",
    "Scotch.Graph.disjoint_of_compact",
    "Scotch.Graph.C15_base_shared_arcs"
   ],
   "note": "C15_base_shared_arcs shows why arc slots must not be shared: the checker accepts such graphs, and changing their base breaks them."
  },
  {
   "property": "C16",
   "status": "proved",
   "theorems": [
    "Scotch.Graph.C16_induceList",
    "Scotch.Graph.C16_inducePart",
    "Scotch.Graph.C16_induceList_duplicates"
   ],
   "note": "Includes the overlap of the arrays in the memory block, for 32-bit and 64-bit integers."
  },
  {
   "property": "C17",
   "status": "proved",
   "theorems": [
    "Scotch.Graph.C17_save_load",
    "Scotch.Graph.C17_largest_label"
   ],
   "note": "Numbers must fit in the integer type; labels must be distinct natural numbers less than the largest integer."
  },
  {
   "property": "C18",
   "status": "partial",
   "theorems": [
    "Scotch.Graph.C18_load_safe_partial",
    "Scotch.Graph.C18_negative_label",
    "Scotch.Graph.C18_negative_end",
    "Scotch.Graph.C18_statement_false"
   ],
   "note": "False in general: negative labels or arc ends of labelled graphs are used as indices. Proved for all streams without minus sign, and all streams whose header announces no labels. Sizes in bytes are assumed to fit in size_t."
  },
  {
   "property": "C19",
   "status": "proved",
   "theorems": [
    "Scotch.Coarsen.C19_sequential",
    "Scotch.Coarsen.C19_threads",
    "Scotch.Coarsen.C19_coarsening",
    "Scotch.Coarsen.C19_conserves",
    "Scotch.Coarsen.C19_hash_overflow",
    "Scotch.Coarsen.C19_wrong_count"
   ],
   "note": "Model of graphCoarsen3 from the mating on (graph_coarsen.c, graph_coarsen_edge.c), sequential and threaded (threads of a phase run one after the other). Precondition: vertnnd-1 <= numMax/1049, otherwise the hash product overflows (C19_hash_overflow)."
  },
  {
   "property": "C20",
   "status": "proved",
   "theorems": [
    "Scotch.Match.C20_sequential",
    "Scotch.Match.C20_threads_progress",
    "Scotch.Match.C20_threads"
   ],
   "note": "Sequential variants and threaded variants as a transition system with locks and stale views of the mating array."
  },
  {
   "property": "C21",
   "status": "partial",
   "theorems": [
    "Scotch.Color.C21_partial",
    "Scotch.Color.C21_generator_partial",
    "Scotch.Color.C21_monotone",
    "Scotch.Color.C21_not_proper"
   ],
   "note": "The property is false of the code: C21_not_proper exhibits a valid graph two neighbours of which get the same colour. The partial theorems prove termination, absence of faults, range and use of colours, and that neighbours v<w have different colours unless v has the greatest random value."
  },
  {
   "property": "C22",
   "status": "proved",
   "theorems": [
    "Scotch.C22_inverse_permutation",
    "Scotch.C22_double_inverse"
   ],
   "note": ""
  },
  {
   "property": "C23",
   "status": "proved",
   "theorems": [
    "Scotch.C23_orderCheck_iff_valid"
   ],
   "note": ""
  },
  {
   "property": "C24",
   "status": "proved",
   "theorems": [
    "Scotch.C24_orderRang",
    "Scotch.C24_ranges_increasing"
   ],
   "note": ""
  },
  {
   "property": "C25",
   "status": "proved",
   "theorems": [
    "Scotch.C25_orderTree"
   ],
   "note": "Also proves that the table reflects the separator tree (independence of parts, dependence on separators)."
  },
  {
   "property": "C26",
   "status": "partial",
   "theorems": [
    "Scotch.HOrder.C26_graphOrder",
    "Scotch.HOrder.C26_strategy",
    "Scotch.HOrder.C26_induce",
    "Scotch.HOrder.C26_separation",
    "Scotch.HOrder.C26_compressed",
    "Scotch.HOrder.C26_cc_inside",
    "Scotch.HOrder.C26_cp_inside",
    "Scotch.HOrder.C26_bl_inside",
    "Scotch.HOrder.C26_bl_endless",
    "Scotch.HOrder.C26_hd_isolated",
    "Scotch.HOrder.C26_leaf_failure",
    "Scotch.HOrder.C26_no_else",
    "Scotch.HOrder.C26_empty_list",
    "Scotch.HOrder.C26_induced_graph"
   ],
   "note": "Proved for strategies made of simple, Gibbs-Poole-Stockmeyer, nested dissection, connected components and compression (at top level only), parts, blocks (for graphs without vertex loads, and strategies that make no blocks), minimum degree (for positive loads; hd for graphs without loads) and conditional methods. The separation strategies may have refinement, multilevel and band methods, for classes of graphs on which these are right (correctness is then partial, since refinement may not end). For minimum degree, the quotient graph, the elimination tree, the amalgamation of column blocks and the permutation are proved; the kernels that choose the order of elimination are only assumed to return a forest. The witnesses show the cases in which the code does not deliver a permutation: connected components, compression or blocks of weighted graphs used inside nested dissection, blocks of strategies that make blocks, minimum degree with an isolated vertex that has a load, failures of leaf strategies, conditional strategy without an else part, empty list of vertices, graph with vertex numbers."
  },
  {
   "property": "C27",
   "status": "proved",
   "theorems": [
    "Scotch.C27_saved_file",
    "Scotch.C27_load",
    "Scotch.C27_round_trip",
    "Scotch.C27_labels_refused",
    "Scotch.C27_larger_file_faults",
    "Scotch.C27_not_a_permutation_faults"
   ],
   "note": "Round trip for every base value, permutation and destination ordering of a graph without labels; loading with labels is refused by the code. Files with other vertex counts or that are not permutations fault (witnesses)."
  },
  {
   "property": "C28",
   "status": "partial",
   "theorems": [
    "Scotch.Bipart.C28_init",
    "Scotch.Bipart.C28_cost",
    "Scotch.Bipart.C28_check",
    "Scotch.Bipart.C28_store",
    "Scotch.Bipart.C28_zero_partial",
    "Scotch.Bipart.C28_swal_partial",
    "Scotch.Bipart.C28_zr_partial",
    "Scotch.Bipart.C28_gp_partial",
    "Scotch.Bipart.C28_fm_pick",
    "Scotch.Bipart.C28_fm_partial",
    "Scotch.Bipart.C28_gg_partial",
    "Scotch.Bipart.C28_fm_gg",
    "Scotch.Bipart.C28_ex",
    "Scotch.Bipart.C28_ml_level",
    "Scotch.Bipart.C28_ml",
    "Scotch.Bipart.C28_strategy",
    "Scotch.Bipart.C28_select",
    "Scotch.Bipart.C28_coarsen",
    "Scotch.Bipart.C28_band_partial",
    "Scotch.Bipart.C28_df_partial",
    "Scotch.Bipart.C28_zero_wrong",
    "Scotch.Bipart.C28_swal_wrong",
    "Scotch.Bipart.C28_gp_wrong",
    "Scotch.Bipart.C28_zr_wrong",
    "Scotch.Bipart.C28_fm_range_wrong",
    "Scotch.Bipart.C28_gg_pass_wrong",
    "Scotch.Bipart.C28_gg_empty_wrong",
    "Scotch.Bipart.C28_select_wrong",
    "Scotch.Bipart.C28_band_wrong",
    "Scotch.Bipart.C28_df_wrong",
    "Scotch.Bipart.C28_df_nan_wrong"
   ],
   "note": "Recorded values match the part array after initialization, from-scratch computation, store/restore, Gibbs-Poole-Stockmeyer, greedy graph growing, Fiduccia-Mattheyses refinement (which also ends and does not worsen the bipartition), exactifying, multilevel, band graphs and diffusion when edge loads are positive, and any strategy made of them: all methods are modelled. False for bgraphZero, bgraphSwal with fixed loads, for selections whose strategies fail, for band graphs and diffusion with edges of load zero, and for diffusion when a value is not a number; see the wrong theorems."
  },
  {
   "property": "C29",
   "status": "partial",
   "theorems": [
    "Scotch.Separ.C29_zero",
    "Scotch.Separ.C29_zr",
    "Scotch.Separ.C29_check",
    "Scotch.Separ.C29_check_partial",
    "Scotch.Separ.C29_store",
    "Scotch.Separ.C29_thin",
    "Scotch.Separ.C29_gp",
    "Scotch.Separ.C29_gg",
    "Scotch.Separ.C29_fm_partial",
    "Scotch.Separ.C29_fm",
    "Scotch.Separ.C29_ml_level",
    "Scotch.Separ.C29_ml",
    "Scotch.Separ.C29_band",
    "Scotch.Separ.C29_df",
    "Scotch.Separ.C29_coarse_velo",
    "Scotch.Separ.C29_strategy",
    "Scotch.Separ.C29_select",
    "Scotch.Separ.C29_check_dup",
    "Scotch.Separ.C29_gg_empty",
    "Scotch.Separ.C29_gp_weights",
    "Scotch.Separ.C29_fm_load_wrong",
    "Scotch.Separ.C29_fm_full_wrong",
    "Scotch.Separ.C29_df_wrong"
   ],
   "note": "Thinning, save/restore, zeroing, Gibbs-Poole-Stockmeyer and greedy growing methods, Fiduccia-Mattheyses refinement, multilevel, band graphs, diffusion, and all strategies made of these, hence the default ones, are proved. The refinement is proved for positive loads and for numbers of vertices other than 512, 1024, ... only (false otherwise), and its termination for balanced separators only. Diffusion needs two vertices (false otherwise). All methods are modelled; the edge separation method is in C30."
  },
  {
   "property": "C30",
   "status": "partial",
   "theorems": [
    "Scotch.Separ.C30_cover",
    "Scotch.Separ.C30_minimum_partial",
    "Scotch.Separ.C30_not_minimum",
    "Scotch.Separ.C30_separate_partial",
    "Scotch.Separ.C30_separate_unit",
    "Scotch.Separ.C30_gp",
    "Scotch.Separ.C30_delta_wrong"
   ],
   "note": "The selected vertices always cover the cut, and the resulting separation is valid (whole vgraphSeparateEs, thin and fat, any right bipartition strategy). The code does not always find a minimum cover, because its search of augmenting paths is never run (C30_not_minimum); minimality is proved when the greedy matching has no augmenting path. The recorded load difference ignores part weights (C30_delta_wrong)."
  },
  {
   "property": "C31",
   "status": "partial",
   "theorems": [
    "Scotch.Kmap.C31_map",
    "Scotch.Kmap.C31_mapFixed_partial",
    "Scotch.Kmap.C31_part",
    "Scotch.Kmap.C31_partFixed_partial",
    "Scotch.Kmap.C31_part_gp",
    "Scotch.Kmap.C31_untied",
    "Scotch.Kmap.C31_untied_one",
    "Scotch.Kmap.C31_fixed_loops",
    "Scotch.Kmap.C31_fixed_negative",
    "Scotch.Kmap.C31_failure_oob",
    "Scotch.Kmap.C31_subgraph_oob",
    "Scotch.Kmap.C31_subgraph_wrong"
   ],
   "note": "Recursive bipartitioning strategy, any architecture of fixed size and any bipartitioning method; the fixed-vertex versions need some fixed vertex of non-zero load and values in {-1} or [0, n), the code failing otherwise (C31_fixed_loops, C31_fixed_negative). Other k-way methods and remapping are not modelled."
  },
  {
   "property": "C32",
   "status": "proved",
   "theorems": [
    "Scotch.Fibo.C32_history",
    "Scotch.Fibo.C32_degree_bound_needed"
   ],
   "note": "Any history of documented operations, arbitrary initial memory. Precondition: fewer than fib(FIBO_DEGRMAX+2) nodes (5702887 with 32-bit INT), as the degree table is not checked."
  },
  {
   "property": "C33",
   "status": "partial",
   "theorems": [
    "Scotch.Gain.C33_history",
    "Scotch.Gain.C33_visit_partial",
    "Scotch.Gain.C33_next_misses_last_class",
    "Scotch.Gain.C33_empty_macro_wrong"
   ],
   "note": "First-link selection, insertion, removal, freeing and moving proved for all histories, widths and indexings. Enumeration misses the last class (gain.c:415): proved for all other classes, negation proved for the last one."
  },
  {
   "property": "C34",
   "status": "proved",
   "theorems": [
    "Scotch.Thread.C34_barrier",
    "Scotch.Thread.C34_serial",
    "Scotch.Thread.C34_no_deadlock"
   ],
   "note": "Interleaving transition system, one transition per statement; spurious wake-ups; wrap-around of the instance number"
  },
  {
   "property": "C35",
   "status": "proved",
   "theorems": [
    "Scotch.Thread.C35_reduce_canonical_safe",
    "Scotch.Thread.C35_reduce_canonical",
    "Scotch.Thread.C35_reduce_default_safe",
    "Scotch.Thread.C35_reduce_default",
    "Scotch.Thread.C35_scan_canonical_safe",
    "Scotch.Thread.C35_scan_canonical",
    "Scotch.Thread.C35_scan_default",
    "Scotch.Thread.C35_executions_exist",
    "Scotch.Thread.C35_shared_cell_is_wrong"
   ],
   "note": "Both variants; any interleaving between barriers; the last theorem is a disagreement: misuse of the routine in dgraph_coarsen.c:798"
  },
  {
   "property": "C36",
   "status": "proved",
   "theorems": [
    "Scotch.Ctx.C36_options",
    "Scotch.Ctx.C36_set_get",
    "Scotch.Ctx.C36_option_set_num",
    "Scotch.Ctx.C36_option_parse",
    "Scotch.Ctx.C36_letters",
    "Scotch.Ctx.C36_deterministic_without_seed"
   ],
   "note": "Refinement of an independent table per context, for every history; copy-on-write heap modelled. Disagreement found: SCOTCH_contextOptionSetNum switches on the value instead of the option number, so that making a context deterministic does not fix the seed."
  },
  {
   "property": "C37",
   "status": "proved",
   "theorems": [
    "Scotch.Mesh.C37_node_graph"
   ],
   "note": "Conversion of every consistent mesh to the graph of its nodes. Hash keys and table size must be representable."
  },
  {
   "property": "C38",
   "status": "partial",
   "theorems": [
    "Scotch.Mesh.Metis.C38_partial",
    "Scotch.Mesh.Metis.C38_metis",
    "Scotch.Mesh.C38_dual_graph",
    "Scotch.Mesh.Metis.C38_not_exact",
    "Scotch.Mesh.C38_loads_wrong"
   ],
   "note": "Exact characterization of the dual graph (C38_metis); the property as stated holds when elements have more nodes than requested (C38_partial) and fails for smaller elements (C38_not_exact, same rule as METIS). SCOTCH_meshGraphDual keeps the sum of element loads but drops the loads (C38_loads_wrong)."
  },
  {
   "property": "C39",
   "status": "partial",
   "theorems": [
    "Scotch.C39_fax",
    "Scotch.C39_fax_partial",
    "Scotch.C39_columns",
    "Scotch.C39_fax_not"
   ],
   "note": "symbolFaxGraph and symbolCheck are modelled in whole. Every result is well-formed, accepted by symbolCheck, and its rows are exactly those of block elimination, hence contain all fill. Proved without fault when four more integers are available after the array of blocks (or base value at least 2); with the memory that the code asks for, proved for executions that do not fault (_partial), and C39_fax_not gives a graph for which the code writes out of its memory block: the size of the array of temporary blocks is estimated one block too small. Missing: nothing else."
  },
  {
   "property": "C40",
   "status": "proved",
   "theorems": [
    "Scotch.Band.C40_band",
    "Scotch.Band.C40_diam",
    "Scotch.Band.C40_lvl_unset",
    "Scotch.Band.C40_diam_overflow"
   ],
   "note": "graphBand and graphDiamPV; base value not negative; the sum of all loads must fit for distances (C40_diam_overflow shows what happens otherwise); the start of the last level is not written for distances that are not positive (C40_lvl_unset). The Fibonacci heap is abstract here (its routines: C32)."
  },
  {
   "property": "C41",
   "status": "partial",
   "theorems": [
    "Scotch.MapIO.C41_saved_file",
    "Scotch.MapIO.C41_load_partial",
    "Scotch.MapIO.C41_round_trip_partial",
    "Scotch.MapIO.C41_any_file_partial",
    "Scotch.MapIO.C41_based_labels_fault",
    "Scotch.MapIO.C41_empty_graph_refused"
   ],
   "note": "Round trip, loading of any file, and memory safety for graphs without labels or with labels and base value 0. For labels with a non-zero base value the code reads out of bounds, and for empty graphs it refuses the file (both proved)."
  },
  {
   "property": "C42",
   "status": "partial",
   "theorems": [
    "Scotch.Dist.C42_ranges",
    "Scotch.Dist.C42_ghost",
    "Scotch.Dist.C42_failure_missed"
   ],
   "note": "Ranges, owner search and ghost numbering are proved for processes that all succeed, with local sizes that fit an int. C42_failure_missed shows that the test on failed processes reads the wrong cells."
  },
  {
   "property": "C43",
   "status": "partial",
   "theorems": [
    "Scotch.Fold.C43_plan",
    "Scotch.Fold.C43_every_vertex",
    "Scotch.Fold.C43_messages",
    "Scotch.Fold.C43_ranges",
    "Scotch.Fold.C43_renumber",
    "Scotch.Fold.C43_self_message"
   ],
   "note": "All parts proved for every distribution, except the last sentence, which is false of the code: C43_self_message exhibits a plan in which a process is told to send an empty message to itself. The MPI transfers of array contents are not modelled, only the tables that drive them."
  },
  {
   "property": "C44",
   "status": "proved",
   "theorems": [
    "Scotch.C44_psort",
    "Scotch.C44_intPsort2asc1"
   ],
   "note": "psort with explicit stack; permutation, safety, partitioning"
  },
  {
   "property": "C45",
   "status": "proved",
   "theorems": [
    "Scotch.C45_gcd"
   ],
   "note": ""
  },
  {
   "property": "C46",
   "status": "proved",
   "theorems": [
    "Scotch.C46_cmplt",
    "Scotch.C46_hcub",
    "Scotch.C46_mesh",
    "Scotch.C46_tleaf"
   ],
   "note": "Matchings of sub-architectures: Scotch.C58_nested. Tree architectures need at least one level (levlnbr >= 1)."
  },
  {
   "property": "C47",
   "status": "partial",
   "theorems": [
    "Scotch.C47_arch_partial",
    "Scotch.C47_save",
    "Scotch.C47_dist_not",
    "Scotch.C47_bad_not",
    "Scotch.C47_load",
    "Scotch.C47_perm_not",
    "Scotch.C47_dom_partial",
    "Scotch.C47_dom_not",
    "Scotch.C47_dom_oob"
   ],
   "note": "Round trip proved for all classes but dist, for which loading always uses a null pointer (C47_dist_not). Domains: round trip but for weighted complete graphs, which add to an uninitialised field (C47_dom_not). Any text: only overflow or null pointers, which do happen (C47_bad_not). archSubArchBuild and uncompiled decompositions are parameters."
  },
  {
   "property": "C48",
   "status": "partial",
   "theorems": [
    "Scotch.Graph.C48_clone_partial",
    "Scotch.Graph.C48_empty_fails",
    "Scotch.Graph.C48_isolated_oob"
   ],
   "note": "Proved for all graphs that have vertices. It fails for empty non-compact graphs of base 1 (C48_empty_fails). The hypothesis on edge arrays is needed: graphs accepted by the checker may not meet it (C48_isolated_oob)."
  },
  {
   "property": "C49",
   "status": "proved",
   "theorems": [
    "Scotch.Memory.C49_group",
    "Scotch.Memory.C49_offset",
    "Scotch.Memory.C49_accounting",
    "Scotch.Memory.C49_group_wraps"
   ],
   "note": "Alignment is that of double (8 bytes). Without the no-overflow hypothesis the layout is wrong (C49_group_wraps). Debug borders (COMMON_MEMORY_CHECK) and locking are not modelled."
  },
  {
   "property": "C50",
   "status": "proved",
   "theorems": [
    "Scotch.Thread.Pool.C50_order",
    "Scotch.Thread.Pool.C50_complete",
    "Scotch.Thread.Pool.C50_exit",
    "Scotch.Thread.Pool.C50_no_deadlock"
   ],
   "note": "Critical sections are atomic transitions"
  },
  {
   "property": "C51",
   "status": "partial",
   "theorems": [
    "Scotch.Mesh.C51_check_partial",
    "Scotch.Mesh.C51_check_exact_partial",
    "Scotch.Mesh.C51_edgenbr_unchecked"
   ],
   "note": "Everything but the number of arcs, which the code does not check: C51_edgenbr_unchecked exhibits an accepted mesh that makes meshGraph write outside of its array."
  },
  {
   "property": "C52",
   "status": "proved",
   "theorems": [
    "Scotch.C52_orderSaveMap",
    "Scotch.C52_orderSaveTree"
   ],
   "note": "For every valid ordering."
  },
  {
   "property": "C53",
   "status": "proved",
   "theorems": [
    "Scotch.Dist.C53_halo"
   ],
   "note": "MPI calls are modelled by their specified results; datatypes are values of any type."
  },
  {
   "property": "C54",
   "status": "proved",
   "theorems": [
    "Scotch.C54_build",
    "Scotch.C54_data"
   ],
   "note": "Allocations are supposed to succeed; sums are unbounded integers."
  },
  {
   "property": "C55",
   "status": "partial",
   "theorems": [
    "Scotch.HOrder.C55_separates",
    "Scotch.HOrder.C55_list_partial",
    "Scotch.HOrder.C55_list_wrong"
   ],
   "note": "Proved for orderings of whole graphs. For orderings of a list of vertices, the root of the tree wrongly gives the list and the other vertices as disconnected components."
  },
  {
   "property": "C56",
   "status": "proved",
   "theorems": [
    "Scotch.Kmap.C56_cost",
    "Scotch.Kmap.C56_costFixed_partial"
   ],
   "note": "Values recorded after recursive bipartitioning; f is the distance between processors, any function that the class computes (C07, C09, C10)."
  },
  {
   "property": "C57",
   "status": "partial",
   "theorems": [
    "Scotch.C57_tree",
    "Scotch.C57_tree_partial",
    "Scotch.C57_forest",
    "Scotch.C57_oob",
    "Scotch.C57_failure_missed",
    "Scotch.C57_columns_not"
   ],
   "note": "The code violates the property: memory written out of bounds in symbolic factorization (C57_oob, see C39), failures of the ordering not reported (C57_failure_missed). The tree is proved right, for every valid ordering, whenever memory is not overrun (C57_tree_partial), or if there is room for one more integer after the array of blocks (C57_tree). The comment of the routine about nv is wrong (C57_columns_not)."
  },
  {
   "property": "C58",
   "status": "partial",
   "theorems": [
    "Scotch.C58_build",
    "Scotch.C58_cmplt",
    "Scotch.C58_hcub",
    "Scotch.C58_mesh",
    "Scotch.C58_tleaf",
    "Scotch.C58_nested",
    "Scotch.C58_single_not"
   ],
   "note": "True for lists of at least two processors, or for the first processor alone; for a list made of another single processor the code writes out of bounds (C58_single_not). Loading and saving of sub-architectures is not modelled."
  },
  {
   "property": "C59",
   "status": "partial",
   "theorems": [
    "Scotch.C59_deco_partial",
    "Scotch.C59_bounds",
    "Scotch.C59_term_not",
    "Scotch.C59_term_oob"
   ],
   "note": "Everything is proved but the routine that gives the domain of a processor number, which gives a domain number that is too small by one (arch_deco.c:467), hence never the right domain (C59_term_not, for all architectures), and one that is out of bounds with a single processor (C59_term_oob). The laws hold once 1 is added. Sums of distances are unbounded integers; type-2 decompositions are not modelled."
  },
  {
   "property": "C60",
   "status": "partial",
   "theorems": [
    "Scotch.Ovl.C60_part_ovl_partial",
    "Scotch.Ovl.C60_rb",
    "Scotch.Ovl.C60_strategy",
    "Scotch.Ovl.C60_cost",
    "Scotch.Ovl.C60_ml_level",
    "Scotch.Ovl.C60_select_partial",
    "Scotch.Ovl.C60_es_partial",
    "Scotch.Ovl.C60_null_wrong",
    "Scotch.Ovl.C60_subgraph_wrong",
    "Scotch.Ovl.C60_zero_wrong",
    "Scotch.Ovl.C60_select_wrong",
    "Scotch.Ovl.C60_es_wrong"
   ],
   "note": "The property is false: a null pointer is followed for numbers of parts that are not powers of two, subgraphs make the program write out of the array, strategies that do not build a partition leave the array as it is and report success, the failure of the second strategy of a selection is ignored, and mappings with empty parts make method e write out of bounds; the negations are proved. Proved otherwise, for all strategies made of the modelled methods. Refinement (wgraph_part_fm.c) is an arbitrary method that is assumed to be right."
  },
  {
   "property": "C61",
   "status": "partial",
   "theorems": [
    "Scotch.Ovl.C61_check",
    "Scotch.Ovl.C61_check_valid_partial",
    "Scotch.Ovl.C61_check_wrong"
   ],
   "note": "The property is false: the check does not test that parts are separated, nor that entries of the frontier array are distinct, nor that they are vertices (it reads out of bounds otherwise); negations are proved. What the check accepts is characterised exactly; it is validity for separated parts and distinct frontier entries."
  },
  {
   "property": "C62",
   "status": "partial",
   "theorems": [
    "Scotch.Kmap.C62_strategy_partial",
    "Scotch.Kmap.C62_select_partial",
    "Scotch.Kmap.C62_select_wrong"
   ],
   "note": "The property is false: a choice between a strategy that fails and one that succeeds with an unbalanced mapping may keep the state of the one that fails, and report success; the negation is proved. Proved otherwise, for arbitrary methods that give complete mappings when they succeed."
  },
  {
   "property": "C63",
   "status": "partial",
   "theorems": [
    "Scotch.Kmap.C63_check_partial",
    "Scotch.Kmap.C63_check_valid_partial",
    "Scotch.Kmap.C63_check_wrong"
   ],
   "note": "Proved for mappings with at least one domain which have to be complete, with positive costs for the converse; C63_check_wrong proves that the check writes out of its array of loads when there is no domain or a vertex is not mapped, and that it accepts frontiers which lack vertices when distances are zero. The old mapping of a remapping is not modelled."
  },
  {
   "property": "C64",
   "status": "partial",
   "theorems": [
    "Scotch.Msep.C64_zero",
    "Scotch.Msep.C64_separate_partial",
    "Scotch.Msep.C64_separate_wrong",
    "Scotch.Msep.C64_strategy_partial",
    "Scotch.Msep.C64_select",
    "Scotch.Msep.C64_select_wrong",
    "Scotch.Msep.C64_store",
    "Scotch.Msep.C64_check_partial",
    "Scotch.Msep.C64_check_wrong"
   ],
   "note": "Partial because the code violates the property, which is proved: weights of parts are not set by the method that uses graphs, selections ignore errors of their strategies, and the check uses parts of nodes as indices before it checks them. All is proved when weights are equal, strategies of selections succeed and parts are in range. Not modelled: greedy graph growing, refinement and multilevel methods for meshes, which are arbitrary right methods here."
  },
  {
   "property": "C65",
   "status": "partial",
   "theorems": [
    "Scotch.Msep.C65_mesh_partial",
    "Scotch.Msep.C65_arcs_partial",
    "Scotch.Msep.C65_nodes_first_wrong"
   ],
   "note": "Partial because the code violates the property, which is proved: when nodes are numbered before elements, the size of a copy is wrong. Proved when elements are numbered before nodes, which is the case of all submeshes, and when there is no halo; the number of arcs is the one that is recorded in the halo mesh, whether it is right or not."
  },
  {
   "property": "C66",
   "status": "partial",
   "theorems": [
    "Scotch.Msep.C66_induce_partial",
    "Scotch.Msep.C66_consistent_partial",
    "Scotch.Msep.C66_recorded_partial",
    "Scotch.Msep.C66_arcs_wrong"
   ],
   "note": "Partial because the code violates the property, which is proved: the recorded number of arcs without the halo counts arcs to the halo. All the rest, including consistency of submeshes, is proved for the calls that end without access out of arrays, whose absence is not proved."
  },
  {
   "property": "C67",
   "status": "proved",
   "theorems": [
    "Scotch.Str.C67_subst",
    "Scotch.Str.C67_text",
    "Scotch.Str.C67_absent"
   ],
   "note": "Functions strlen, strstr, memmove and memcpy of the C library are modelled by what they are specified to do. Sizes of buffers of callers are not checked."
  },
  {
   "property": "C68",
   "status": "partial",
   "theorems": [
    "Scotch.HOrder.C68_check_partial",
    "Scotch.HOrder.C68_accept_partial",
    "Scotch.HOrder.C68_check_wrong"
   ],
   "note": "Partial because the code violates the property, which is proved: arcs to the halo, the number of arcs and the sum of loads of vertices without the halo are not checked. The rest is proved; acceptance of right halo graphs is proved when arcs have no loads."
  },
  {
   "property": "C69",
   "status": "partial",
   "theorems": [
    "Scotch.Msep.C69_simple",
    "Scotch.Msep.C69_submesh_partial"
   ],
   "note": "The method itself is proved in full. On submeshes, it is assumed that the submesh has been built without access out of arrays."
  },
  {
   "property": "C70",
   "status": "partial",
   "theorems": [
    "Scotch.Msep.C70_check_partial",
    "Scotch.Msep.C70_accept",
    "Scotch.Msep.C70_check_wrong"
   ],
   "note": "Partial because the code violates the property, which is proved: arcs to the halo and numbers of nodes and arcs are not checked. What is accepted is known exactly, and right halo meshes are accepted."
  },
  {
   "property": "C71",
   "status": "partial",
   "theorems": [
    "Scotch.HOrder.C71_split_partial",
    "Scotch.HOrder.C71_errors",
    "Scotch.HOrder.C71_endless"
   ],
   "note": "Splitting of single blocks, and errors, for arbitrary strategies. The ordering does not end when the strategy makes several blocks (C71_endless). Overflow of twice the smallest size, and running out of memory, are not modelled."
  }
 ]
}