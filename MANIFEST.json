{
 "claims": [
  {
   "property": "C01",
   "status": "proved",
   "theorems": [
    "Cdmir.c01_consistent"
   ],
   "note": "over all histories of public operations"
  },
  {
   "property": "C02",
   "status": "proved",
   "theorems": [
    "Cdmir.c02_add_get"
   ],
   "note": ""
  },
  {
   "property": "C03",
   "status": "proved",
   "theorems": [
    "Cdmir.c03_remove_edge",
    "Cdmir.c03_remove_node",
    "Cdmir.c03_add_remove"
   ],
   "note": ""
  },
  {
   "property": "C04",
   "status": "proved",
   "theorems": [
    "Cdmir.c04_edges"
   ],
   "note": ""
  },
  {
   "property": "C05",
   "status": "proved",
   "theorems": [
    "Cdmir.c05_add_edge_decides",
    "Cdmir.c05_add_edges_prefix"
   ],
   "note": ""
  },
  {
   "property": "C06",
   "status": "proved",
   "theorems": [
    "Cdmir.c06_to_numpy",
    "Cdmir.c06_graph_equal",
    "Cdmir.c06_mismatch",
    "Cdmir.c06_plain_graph_false"
   ],
   "note": "graph_equal for DiGraph/PDAG as stated; for the plain Graph class with Null marks it fails (witness c06_plain_graph_false)"
  },
  {
   "property": "C07",
   "status": "proved",
   "theorems": [
    "Cdmir.c07_digraph_marks",
    "Cdmir.c07_pdag_marks"
   ],
   "note": ""
  },
  {
   "property": "C08",
   "status": "proved",
   "theorems": [
    "Cdmir.c08_parents_children",
    "Cdmir.c08_degree_sum"
   ],
   "note": ""
  },
  {
   "property": "C09",
   "status": "proved",
   "theorems": [
    "Cdmir.c09_dsep"
   ],
   "note": "termination and absence of exceptions included"
  },
  {
   "property": "C10",
   "status": "proved",
   "theorems": [
    "Cdmir.c10_dsep_symm"
   ],
   "note": ""
  },
  {
   "property": "C11",
   "status": "proved",
   "theorems": [
    "Cdmir.c11_dsep_set",
    "Cdmir.c11_dsep_endpoints"
   ],
   "note": ""
  },
  {
   "property": "C12",
   "status": "partial",
   "theorems": [
    "Cdmir.c12_iterator_false",
    "Cdmir.c12_iterable_kind_partial"
   ],
   "note": "the property is false of the code: negation proved by witness; what holds is the partial theorem"
  },
  {
   "property": "C13",
   "status": "proved",
   "theorems": [
    "Cdmir.c13_adjacent",
    "Cdmir.c13_parents_separate",
    "Cdmir.c13_separable"
   ],
   "note": ""
  },
  {
   "property": "C14",
   "status": "proved",
   "theorems": [
    "Cdmir.c14_topo_sort"
   ],
   "note": ""
  },
  {
   "property": "C15",
   "status": "proved",
   "theorems": [
    "Cdmir.c15_is_acyclic"
   ],
   "note": ""
  },
  {
   "property": "C16",
   "status": "partial",
   "theorems": [
    "Cdmir.c16_self_loop_false",
    "Cdmir.c16_self_loop_partial"
   ],
   "note": "the property is false of the code: negation proved by witness"
  },
  {
   "property": "C17",
   "status": "proved",
   "theorems": [
    "Cdmir.c17_rule0"
   ],
   "note": ""
  },
  {
   "property": "C18",
   "status": "proved",
   "theorems": [
    "Cdmir.c18_meek_only_orients"
   ],
   "note": ""
  },
  {
   "property": "C19",
   "status": "proved",
   "theorems": [
    "Cdmir.c19_meek_terminates"
   ],
   "note": ""
  },
  {
   "property": "C20",
   "status": "proved",
   "theorems": [
    "Cdmir.c20_meek_closed"
   ],
   "note": ""
  },
  {
   "property": "C21",
   "status": "proved",
   "theorems": [
    "Cdmir.c21_rule1_sound",
    "Cdmir.c21_rule2_sound"
   ],
   "note": ""
  },
  {
   "property": "C22",
   "status": "partial",
   "theorems": [
    "Cdmir.c22_rule3_false",
    "Cdmir.c22_rule4_false",
    "Cdmir.c22_rule3_sound_partial",
    "Cdmir.c22_rule4_sound_partial"
   ],
   "note": "the property is false of the code for both rules: negations proved by witness; the partial theorems give conditions under which the orientations are right"
  },
  {
   "property": "C23",
   "status": "proved",
   "theorems": [
    "Cdmir.c23_dag2cpdag"
   ],
   "note": ""
  },
  {
   "property": "C24",
   "status": "partial",
   "theorems": [
    "Cdmir.c24_false",
    "Cdmir.c24_sound_partial",
    "Cdmir.c24_class_partial",
    "Cdmir.c24_exact_partial",
    "Cdmir.c24_five_partial",
    "Cdmir.c24_six_false"
   ],
   "note": "the property is false of the code from six nodes on: negation proved by witness; proved in both directions for at most five nodes, when no two triangles of G share an edge, and on every DAG when none of the chosen directions is wrong"
  },
  {
   "property": "C25",
   "status": "proved",
   "theorems": [
    "Cdmir.c25_equivalent"
   ],
   "note": ""
  },
  {
   "property": "C26",
   "status": "proved",
   "theorems": [
    "Cdmir.c26_extension"
   ],
   "note": ""
  },
  {
   "property": "C27",
   "status": "proved",
   "theorems": [
    "Cdmir.c27_terminates_iff"
   ],
   "note": ""
  },
  {
   "property": "C28",
   "status": "proved",
   "theorems": [
    "Cdmir.c28_true_skeleton"
   ],
   "note": ""
  },
  {
   "property": "C29",
   "status": "proved",
   "theorems": [
    "Cdmir.c29_adjacency_search",
    "Cdmir.c29_raises"
   ],
   "note": ""
  },
  {
   "property": "C30",
   "status": "proved",
   "theorems": [
    "Cdmir.c30_order_independent"
   ],
   "note": ""
  },
  {
   "property": "C31",
   "status": "proved",
   "theorems": [
    "Cdmir.c31_fast_true_skeleton",
    "Cdmir.c31_fast_evidence"
   ],
   "note": ""
  },
  {
   "property": "C32",
   "status": "proved",
   "theorems": [
    "Cdmir.c32_pc_dsep",
    "Cdmir.c32_pc_oracle"
   ],
   "note": "call with indep_cls given by keyword; positionally it raises, see C42"
  },
  {
   "property": "C33",
   "status": "proved",
   "theorems": [
    "Cdmir.c33_pc_fit"
   ],
   "note": ""
  },
  {
   "property": "C34",
   "status": "proved",
   "theorems": [
    "Cdmir.c34_key_iff",
    "Cdmir.c34_cache_transparent",
    "Cdmir.c34_cache_any"
   ],
   "note": ""
  },
  {
   "property": "C35",
   "status": "proved",
   "theorems": [
    "Cdmir.c35_dsep_test"
   ],
   "note": ""
  },
  {
   "property": "C36",
   "status": "proved",
   "theorems": [
    "Cdmir.c36_shd",
    "Cdmir.c36_triangle",
    "Cdmir.c36_one_edge"
   ],
   "note": ""
  },
  {
   "property": "C37",
   "status": "proved",
   "theorems": [
    "Cdmir.c37_skeleton",
    "Cdmir.c37_arrow",
    "Cdmir.c37_directed"
   ],
   "note": ""
  },
  {
   "property": "C41",
   "status": "partial",
   "theorems": [
    "Cdmir.c41_itest_iterator_false",
    "Cdmir.c41_itest_partial"
   ],
   "note": "the property is false of the code for one-shot iterators: negation by witness; proved for re-iterable arguments"
  },
  {
   "property": "C42",
   "status": "partial",
   "theorems": [
    "Cdmir.c42_positional_false",
    "Cdmir.c42_keyword_partial"
   ],
   "note": "the property is false of the code for calls with more than three positional arguments: proved; proved for the remaining arguments by keyword"
  },
  {
   "property": "C43",
   "status": "partial",
   "theorems": [
    "Cdmir.c43_false",
    "Cdmir.c43_round_trip_partial",
    "Cdmir.c43_five_partial"
   ],
   "note": "the property is false of the code: dag2cpdag can return a directed cycle, on which pdag2dag never returns; proved for at most five nodes and when no two triangles of G share an edge"
  },
  {
   "property": "C44",
   "status": "partial",
   "theorems": [
    "Cdmir.c44_false",
    "Cdmir.c44_pc_class_partial",
    "Cdmir.c44_five_partial"
   ],
   "note": "the property is false of the code through rule3 and rule4; proved, both ways, for at most five variables and when no two triangles of G share an edge"
  },
  {
   "property": "C38",
   "status": "partial",
   "theorems": [
    "Cdmir.c38_false",
    "Cdmir.c38_center_exact",
    "Cdmir.c38_center_partial"
   ],
   "note": "the property is false of the code for matrices whose row sums differ from their column sums (exact characterisation proved); proved for symmetric matrices"
  },
  {
   "property": "C45",
   "status": "proved",
   "theorems": [
    "Cdmir.c45_add_nodes",
    "Cdmir.c45_remove_nodes"
   ],
   "note": ""
  },
  {
   "property": "C46",
   "status": "proved",
   "theorems": [
    "Cdmir.c46_mark_queries"
   ],
   "note": ""
  },
  {
   "property": "C39",
   "status": "proved",
   "theorems": [
    "Cdmir.c39_orientation",
    "Cdmir.c39_erdos_renyi"
   ],
   "note": ""
  },
  {
   "property": "C40",
   "status": "proved",
   "theorems": [
    "Cdmir.Merge.c40_merge_list"
   ],
   "note": ""
  },
  {
   "property": "C47",
   "status": "proved",
   "theorems": [
    "Cdmir.c47_combinatorial"
   ],
   "note": ""
  },
  {
   "property": "C48",
   "status": "proved",
   "theorems": [
    "Cdmir.c48_clique"
   ],
   "note": ""
  },
  {
   "property": "C49",
   "status": "proved",
   "theorems": [
    "Cdmir.c49_path_test"
   ],
   "note": ""
  },
  {
   "property": "C50",
   "status": "proved",
   "theorems": [
    "Cdmir.c50_superset"
   ],
   "note": ""
  },
  {
   "property": "C51",
   "status": "proved",
   "theorems": [
    "Cdmir.c51_insert",
    "Cdmir.c51_delete"
   ],
   "note": ""
  },
  {
   "property": "C52",
   "status": "proved",
   "theorems": [
    "Cdmir.c52_record"
   ],
   "note": ""
  },
  {
   "property": "C53",
   "status": "proved",
   "theorems": [
    "Cdmir.c53_forward",
    "Cdmir.c53_backward"
   ],
   "note": ""
  },
  {
   "property": "C54",
   "status": "proved",
   "theorems": [
    "Cdmir.c54_fit"
   ],
   "note": "ends or is stuck in a pdag2dag call that never returns; C56 says when that can happen"
  },
  {
   "property": "C55",
   "status": "proved",
   "theorems": [
    "Cdmir.c55_insert",
    "Cdmir.c55_insert_complete",
    "Cdmir.c55_delete",
    "Cdmir.c55_delete_complete"
   ],
   "note": ""
  },
  {
   "property": "C56",
   "status": "partial",
   "theorems": [
    "Cdmir.c56_wrong_score",
    "Cdmir.c56_hangs",
    "Cdmir.c56_fit_partial",
    "Cdmir.c56_three_partial",
    "Cdmir.c56_five_partial",
    "Cdmir.c56_bic_partial"
   ],
   "note": "the property is false of the code because of C24: one run reports a wrong score, one never returns; proved under the proviso that dag2cpdag is exact on the DAGs met in the run, and without it for at most five variables"
  },
  {
   "property": "C57",
   "status": "proved",
   "theorems": [
    "Cdmir.c57_linear",
    "Cdmir.c57_trace",
    "Cdmir.c57_mlp",
    "Cdmir.c57_sobolev"
   ],
   "note": ""
  },
  {
   "property": "C58",
   "status": "proved",
   "theorems": [
    "Cdmir.c58_constraint",
    "Cdmir.c58_loss",
    "Cdmir.c58_values",
    "Cdmir.c58_centre",
    "Cdmir.c58_lagrangian"
   ],
   "note": ""
  },
  {
   "property": "C59",
   "status": "partial",
   "theorems": [
    "Cdmir.c59_false",
    "Cdmir.c59_false_rho",
    "Cdmir.c59_terminates",
    "Cdmir.c59_no_call",
    "Cdmir.c59_dag_partial",
    "Cdmir.c59_feasible_partial",
    "Cdmir.c59_bound_small"
   ],
   "note": "false with the default tolerance and threshold from five variables on (a cycle of weights 0.3 has h below 1e-8) and when rho_max is reached; proved when h_tol is below a bound that the defaults meet for at most four variables"
  },
  {
   "property": "C60",
   "status": "proved",
   "theorems": [
    "Cdmir.c60_result",
    "Cdmir.c60_ends",
    "Cdmir.c60_ends_real",
    "Cdmir.c60_default_raises"
   ],
   "note": "networkx's acyclicity test, log and exp are external; total time zero (division by zero) is excluded"
  },
  {
   "property": "C61",
   "status": "proved",
   "theorems": [
    "Cdmir.c61_refused",
    "Cdmir.c61_dag",
    "Cdmir.c61_metric",
    "Cdmir.c61_rates",
    "Cdmir.c61_cpdag",
    "Cdmir.c61_clash",
    "Cdmir.c61_fpr"
   ],
   "note": "findings: fpr leaves [0,1] even for DAGs, tpr can be 2 when a CPDAG pair is marked in both ways"
  },
  {
   "property": "C65",
   "status": "proved",
   "theorems": [
    "Cdmir.c65_fit_ends",
    "Cdmir.c65_influence"
   ],
   "note": "over the reals, with the true logarithm and exponential"
  },
  {
   "property": "C63",
   "status": "proved",
   "theorems": [
    "Cdmir.c63_bic_value",
    "Cdmir.c63_bic",
    "Cdmir.c63_bic_sign"
   ],
   "note": "log is the true logarithm; np.corrcoef external; finding: the sign is wrong for an empty set of parents, harmless for a correlation matrix"
  },
  {
   "property": "C68",
   "status": "partial",
   "theorems": [
    "Cdmir.c68_bdeu_raises",
    "Cdmir.c68_bdeu_partial"
   ],
   "note": "false: groupby([]) raises for a variable without parents, so no DAG can be scored; proved for the value meant"
  },
  {
   "property": "C64",
   "status": "partial",
   "theorems": [
    "Cdmir.c64_exact",
    "Cdmir.c64_key_inj",
    "Cdmir.c64_local_partial",
    "Cdmir.c64_false"
   ],
   "note": "false for every hash with finitely many values; the printed requests are unambiguous, so right for every history without a hash collision"
  },
  {
   "property": "C66",
   "status": "partial",
   "theorems": [
    "Cdmir.c66_false",
    "Cdmir.c66_poly_stale",
    "Cdmir.c66_linear_partial",
    "Cdmir.c66_gauss_partial",
    "Cdmir.c66_manual_partial",
    "Cdmir.c66_poly_partial"
   ],
   "note": "false for samples of more than 1000 numbers for every hash, and for a polynomial kernel whose degree is assigned; proved when texts and hash separate the calls"
  },
  {
   "property": "C67",
   "status": "partial",
   "theorems": [
    "Cdmir.c67_spelling",
    "Cdmir.c67_unknown",
    "Cdmir.c67_key_inj",
    "Cdmir.c67_call_partial",
    "Cdmir.c67_false"
   ],
   "note": "spelling proved; the cache is right for every history without a hash collision and wrong for some history otherwise"
  },
  {
   "property": "C62",
   "status": "proved",
   "theorems": [
    "Cdmir.c62_all_P",
    "Cdmir.c62_W_wave",
    "Cdmir.c62_B_wave",
    "Cdmir.c62_dag",
    "Cdmir.c62_empty"
   ],
   "note": "FastICA, pinv, the Wald test and the regressions are parameters; finding: the result is always lower triangular in the given column order"
  },
  {
   "property": "C69",
   "status": "partial",
   "theorems": [
    "Cdmir.c69_order",
    "Cdmir.c69_exact_nan",
    "Cdmir.c69_exact",
    "Cdmir.c69_false",
    "Cdmir.c69_fit_partial"
   ],
   "note": "false: the columns are not permuted with the rows, so edges to earlier columns are never found and small errors decide the row order; exact zeros give NaN scores; proved when the entries just below the diagonal outweigh the rest"
  },
  {
   "property": "C70",
   "status": "proved",
   "theorems": [
    "Cdmir.Sim.c70_linear",
    "Cdmir.Sim.c70_draws",
    "Cdmir.Sim.c70_cyclic",
    "Cdmir.Sim.c70_scale",
    "Cdmir.Sim.c70_population"
   ],
   "note": "networkx, inv, sqrt and the draws are parameters with stated laws"
  },
  {
   "property": "C71",
   "status": "partial",
   "theorems": [
    "Cdmir.Sim.c71_mlp",
    "Cdmir.Sim.c71_mim",
    "Cdmir.Sim.c71_none",
    "Cdmir.Sim.c71_false"
   ],
   "note": "false: the function type is not passed on, so 'mim' gives 'mlp', and the default number of samples raises TypeError; proved for the function that is drawn"
  },
  {
   "property": "C72",
   "status": "partial",
   "theorems": [
    "Cdmir.Sim.c72_layers",
    "Cdmir.Sim.c72_runs",
    "Cdmir.Sim.c72_false",
    "Cdmir.Sim.c72_roots_partial",
    "Cdmir.Sim.c72_hidden",
    "Cdmir.Sim.c72_mismatch",
    "Cdmir.Sim.c72_cos",
    "Cdmir.Sim.c72_names"
   ],
   "note": "false for every node with parents: the sum has no axis, so all samples get one value; proved for roots; which function lists run is proved"
  },
  {
   "property": "C73",
   "status": "proved",
   "theorems": [
    "Cdmir.Sim.c73_linear",
    "Cdmir.Sim.c73_logistic",
    "Cdmir.Sim.c73_refused"
   ],
   "note": "draws are parameters"
  },
  {
   "property": "C74",
   "status": "partial",
   "theorems": [
    "Cdmir.Sim.c74_nonlinear_partial",
    "Cdmir.Sim.c74_length",
    "Cdmir.Sim.c74_pnl",
    "Cdmir.Sim.c74_cos",
    "Cdmir.Sim.c74_false"
   ],
   "note": "false: the weights are drawn anew at every step; the equation with the weights of the step is proved, and the post-nonlinear case with functions of single numbers"
  },
  {
   "property": "C75",
   "status": "proved",
   "theorems": [
    "Cdmir.Sim.c75_graph",
    "Cdmir.Sim.c75_kernels",
    "Cdmir.Sim.c75_table",
    "Cdmir.Sim.c75_interval",
    "Cdmir.Sim.c75_insem"
   ],
   "note": "the simulation by tick and the draws are parameters"
  },
  {
   "property": "C76",
   "status": "partial",
   "theorems": [
    "Cdmir.Sim.c76_events_partial",
    "Cdmir.Sim.c76_false"
   ],
   "note": "false when a type never occurs or a sequence is empty; proved otherwise"
  },
  {
   "property": "C77",
   "status": "proved",
   "theorems": [
    "Cdmir.Olc.c77_ends",
    "Cdmir.Olc.c77_graph",
    "Cdmir.Olc.c77_latent",
    "Cdmir.Olc.c77_pairs"
   ],
   "note": "regression, KCI, Fisher's test, svd, covariance and cliques are parameters"
  },
  {
   "property": "C78",
   "status": "partial",
   "theorems": [
    "Cdmir.Olc.c78_small_partial",
    "Cdmir.Olc.c78_one",
    "Cdmir.Olc.c78_false"
   ],
   "note": "false: one column raises NetworkXError for all data, five columns can raise IndexError; proved for 0, 2, 3 and 4 columns"
  },
  {
   "property": "C79",
   "status": "partial",
   "theorems": [
    "Cdmir.Olc.c79_false",
    "Cdmir.Olc.c79_two",
    "Cdmir.Olc.c79_kci",
    "Cdmir.Olc.c79_partial"
   ],
   "note": "false: independent variables are always joined by an arrow from the larger to the smaller number; the other direction is proved"
  },
  {
   "property": "C80",
   "status": "partial",
   "theorems": [
    "Cdmir.Olc.c80_false",
    "Cdmir.Olc.c79_kci",
    "Cdmir.Olc.c80_partial"
   ],
   "note": "false: the diagonal of A is never set in the first two phases, so the coefficients are 0/v or 0/0; proved: 0 where there is no arrow"
  },
  {
   "property": "C81",
   "status": "partial",
   "theorems": [
    "Cdmir.Olc.c81_partial",
    "Cdmir.Olc.c81_false"
   ],
   "note": "false: line 82 writes the normalised residual into the caller's array; unchanged if no test of the first phase passes"
  },
  {
   "property": "C82",
   "status": "proved",
   "theorems": [
    "Cdmir.KTest.c82_symm",
    "Cdmir.KTest.c82_affine",
    "Cdmir.KTest.c82_perm",
    "Cdmir.KTest.c82_nan",
    "Cdmir.KTest.c82_range",
    "Cdmir.KTest.c82_tail"
   ],
   "note": "real numbers; the gamma distribution function is a parameter"
  },
  {
   "property": "C83",
   "status": "proved",
   "theorems": [
    "Cdmir.KTest.c83_agree"
   ],
   "note": "approximate mode of kernel_based.py"
  },
  {
   "property": "C84",
   "status": "proved",
   "theorems": [
    "Cdmir.KTest.c84_symm",
    "Cdmir.KTest.c84_affine",
    "Cdmir.KTest.c84_perm",
    "Cdmir.KTest.c84_range",
    "Cdmir.KTest.c84_kernel"
   ],
   "note": "real numbers; the gamma quantile is a parameter"
  },
  {
   "property": "C85",
   "status": "partial",
   "theorems": [
    "Cdmir.KTest.c85_small",
    "Cdmir.KTest.c85_const",
    "Cdmir.KTest.c85_false",
    "Cdmir.KTest.c85_partial"
   ],
   "note": "false: None for all samples of at most five rows and for constant samples; proved from six rows on under the stated conditions"
  },
  {
   "property": "C86",
   "status": "partial",
   "theorems": [
    "Cdmir.KTest.c86_false",
    "Cdmir.KTest.c86_partial"
   ],
   "note": "false if predict returns shape (n,): both scores are the statistic of x and y; the column shape depends only on cause and residual, and is 0 if one is constant"
  },
  {
   "property": "C87",
   "status": "proved",
   "theorems": [
    "Cdmir.KTest.c87_units",
    "Cdmir.KTest.c87_rows"
   ],
   "note": "positions in exact arithmetic"
  },
  {
   "property": "C88",
   "status": "proved",
   "theorems": [
    "Cdmir.Tetrad.c88_symm",
    "Cdmir.Tetrad.c88_affine",
    "Cdmir.Tetrad.c88_rows",
    "Cdmir.Tetrad.c88_range",
    "Cdmir.Tetrad.c88_few"
   ],
   "note": "real numbers; the normal distribution function is a parameter"
  },
  {
   "property": "C89",
   "status": "partial",
   "theorems": [
    "Cdmir.Tetrad.c89_false",
    "Cdmir.Tetrad.c89_partial",
    "Cdmir.Tetrad.c89_constant"
   ],
   "note": "false: the standard deviation belongs to another tetrad difference; holds where the two agree"
  },
  {
   "property": "C90",
   "status": "partial",
   "theorems": [
    "Cdmir.Tetrad.c90_check_partial",
    "Cdmir.Tetrad.c90_pure_partial",
    "Cdmir.Tetrad.c90_false"
   ],
   "note": "false for the test of the code; proved for every test that is symmetric within the pairs"
  },
  {
   "property": "C91",
   "status": "proved",
   "theorems": [
    "Cdmir.Hier.c91_found"
   ],
   "note": "the test and the set orders are parameters"
  },
  {
   "property": "C92",
   "status": "proved",
   "theorems": [
    "Cdmir.Hier.c92_none",
    "Cdmir.Hier.c92_sizes",
    "Cdmir.Hier.c92_false"
   ],
   "note": "c92_false: the symmetry of C88 alone is not enough"
  },
  {
   "property": "C93",
   "status": "partial",
   "theorems": [
    "Cdmir.Hier.c93_false",
    "Cdmir.Hier.c93_disjoint_partial"
   ],
   "note": "false: two sets of three may overlap; two clusters that overlap have the same size, at least three"
  },
  {
   "property": "C94",
   "status": "proved",
   "theorems": [
    "Cdmir.Hier.c94_covered",
    "Cdmir.Hier.c94_pure"
   ],
   "note": "AllCausalCluster and GeneralPureClusters are not modelled"
  },
  {
   "property": "C95",
   "status": "partial",
   "theorems": [
    "Cdmir.Hier.c95_false",
    "Cdmir.Hier.c95_early_partial"
   ],
   "note": "false: of two clusters with one early latent variable only the last is kept; holds if the variable belongs to one cluster only"
  },
  {
   "property": "C96",
   "status": "partial",
   "theorems": [
    "Cdmir.Hier.c96_false",
    "Cdmir.Hier.c96_partial"
   ],
   "note": "false in every pass that introduces a latent variable and keeps a variable; holds otherwise"
  },
  {
   "property": "C97",
   "status": "partial",
   "theorems": [
    "Cdmir.Hier.c97_false",
    "Cdmir.Hier.c97_stop",
    "Cdmir.Hier.c97_progress_partial"
   ],
   "note": "false: never ends if one impure cluster is found and more than three variables remain; ends if no cluster is found; the number of latent variables is bounded if clusters are disjoint"
  },
  {
   "property": "C98",
   "status": "partial",
   "theorems": [
    "Cdmir.Hier.c98_false",
    "Cdmir.Hier.c98_partial",
    "Cdmir.Hier.c98_observed_partial"
   ],
   "note": "false: IndexError for a latent variable without pure children; holds with a measured pure cluster among the children; latent children are replaced by a measured descendant if the index has no cycle"
  },
  {
   "property": "C99",
   "status": "proved",
   "theorems": [
    "Cdmir.Hier.c99_index",
    "Cdmir.Hier.c99_edges",
    "Cdmir.Hier.c99_nodes"
   ],
   "note": ""
  },
  {
   "property": "C100",
   "status": "partial",
   "theorems": [
    "Cdmir.Hier.c100_false",
    "Cdmir.Hier.c100_partial"
   ],
   "note": "false: a run of the procedure whose graph has a cycle of two latent variables; holds with a rank that falls along the index and the impure clusters"
  },
  {
   "property": "C101",
   "status": "proved",
   "theorems": [
    "Cdmir.Hier.c101_index",
    "Cdmir.Hier.c101_roots"
   ],
   "note": ""
  },
  {
   "property": "C102",
   "status": "partial",
   "theorems": [
    "Cdmir.Hier.c102_mean",
    "Cdmir.Hier.c102_perm",
    "Cdmir.Hier.c102_min",
    "Cdmir.Hier.c102_false",
    "Cdmir.Hier.c102_returns_partial"
   ],
   "note": "order and minimality proved for all; false: fails for a cluster of one variable; returns with at least two variables in each cluster"
  },
  {
   "property": "C103",
   "status": "partial",
   "theorems": [
    "Cdmir.Hier.c103_false",
    "Cdmir.Hier.c103_acyclic_partial",
    "Cdmir.Hier.c103_edges_partial"
   ],
   "note": "false if a set occurs twice; holds for different sets whose variables are not named like latent variables"
  },
  {
   "property": "C104",
   "status": "partial",
   "theorems": [
    "Cdmir.Hier.c104_false",
    "Cdmir.Hier.c104_sizes",
    "Cdmir.Hier.c104_uncorrelated_partial",
    "Cdmir.Hier.c104_even_partial"
   ],
   "note": "false after a root with three variables; holds if Z is smaller than X, so whenever the roots have even size"
  },
  {
   "property": "C105",
   "status": "proved",
   "theorems": [
    "Cdmir.Minimize.c105_result",
    "Cdmir.Minimize.c105_returns",
    "Cdmir.Minimize.c105_raises",
    "Cdmir.Minimize.c105_pass"
   ],
   "note": "ordered field; objective and square root are parameters; c105_returns: gradient a matrix or one parameter"
  },
  {
   "property": "C106",
   "status": "partial",
   "theorems": [
    "Cdmir.Minimize.c106_false",
    "Cdmir.Minimize.c106_partial"
   ],
   "note": "false: the last recorded value need not be that of the result, and a lower point met on the way is forgotten"
  },
  {
   "property": "C107",
   "status": "partial",
   "theorems": [
    "Cdmir.Minimize.c107_false",
    "Cdmir.Minimize.c107_one_partial",
    "Cdmir.Minimize.c107_flat"
   ],
   "note": "false for two or more parameters; holds for one; with the gradient of gpr_multi_new no line search succeeds"
  },
  {
   "property": "C108",
   "status": "proved",
   "theorems": [
    "Cdmir.CV.c108_partition",
    "Cdmir.CV.c108_few"
   ],
   "note": "needs two folds and as many rows as folds; otherwise the last fold has nothing to train on"
  },
  {
   "property": "C109",
   "status": "proved",
   "theorems": [
    "Cdmir.CV.c109_defined",
    "Cdmir.CV.c109_affine",
    "Cdmir.CV.c109_multi",
    "Cdmir.CV.c109_kernel"
   ],
   "note": "real numbers; at least two folds and as many rows as folds for c109_defined"
  },
  {
   "property": "C110",
   "status": "proved",
   "theorems": [
    "Cdmir.CV.c110_bound",
    "Cdmir.CV.c110_multi",
    "Cdmir.CV.c110_posdef"
   ],
   "note": "real numbers"
  },
  {
   "property": "C111",
   "status": "proved",
   "theorems": [
    "Cdmir.CV.c111_perm"
   ],
   "note": ""
  },
  {
   "property": "C112",
   "status": "partial",
   "theorems": [
    "Cdmir.Gpr.c112_false",
    "Cdmir.Gpr.c112_none",
    "Cdmir.Gpr.c112_self_partial",
    "Cdmir.Gpr.c112_value"
   ],
   "note": "false: the general score uses the parents in place of the variable, and no score exists without parents"
  },
  {
   "property": "C113",
   "status": "proved",
   "theorems": [
    "Cdmir.Gpr.c113_cov",
    "Cdmir.Gpr.c113_value",
    "Cdmir.Gpr.c113_params",
    "Cdmir.Gpr.c113_array"
   ],
   "note": "for inputs of type matrix, as with parents; c113_array: plain arrays raise"
  },
  {
   "property": "C114",
   "status": "partial",
   "theorems": [
    "Cdmir.Gpr.c114_false",
    "Cdmir.Gpr.c114_noise_partial",
    "Cdmir.Gpr.c114_fit"
   ],
   "note": "false: only the last entry is computed; that one is right; the other parameters are never fitted"
  },
  {
   "property": "C115",
   "status": "proved",
   "theorems": [
    "Cdmir.Fisher.c115_symm",
    "Cdmir.Fisher.c115_history",
    "Cdmir.Fisher.c115_units",
    "Cdmir.Fisher.c115_signs",
    "Cdmir.Fisher.c115_columns",
    "Cdmir.Fisher.c115_index"
   ],
   "note": "real numbers"
  },
  {
   "property": "C116",
   "status": "proved",
   "theorems": [
    "Cdmir.Fisher.c116_partial_correlation",
    "Cdmir.Fisher.c116_range",
    "Cdmir.Fisher.c116_monotone",
    "Cdmir.Fisher.c116_repeated",
    "Cdmir.Fisher.c116_undefined"
   ],
   "note": "real numbers; positive definite correlation matrix"
  },
  {
   "property": "C117",
   "status": "proved",
   "theorems": [
    "Cdmir.Fisher.c117_zero",
    "Cdmir.Fisher.c117_dsep",
    "Cdmir.Fisher.c117_faithful",
    "Cdmir.Fisher.c117_random_variables"
   ],
   "note": "population correlations"
  },
  {
   "property": "C118",
   "status": "proved",
   "theorems": [
    "Cdmir.Fisher.c118_perfect",
    "Cdmir.Fisher.c118_pc",
    "Cdmir.Fisher.c118_few"
   ],
   "note": "population correlations, faithful model; c118_few: three or fewer records"
  },
  {
   "property": "C119",
   "status": "proved",
   "theorems": [
    "Cdmir.Expm.c119_exact",
    "Cdmir.Expm.c119_near"
   ],
   "note": ""
  },
  {
   "property": "C120",
   "status": "proved",
   "theorems": [
    "Cdmir.Expm.c120_single",
    "Cdmir.Expm.c120_batch"
   ],
   "note": "real numbers: error of the method, not of rounding"
  },
  {
   "property": "C121",
   "status": "proved",
   "theorems": [
    "Cdmir.Expm.c121_powers"
   ],
   "note": "for a batch that is not empty"
  },
  {
   "property": "C122",
   "status": "proved",
   "theorems": [
    "Cdmir.Expm.c122_derivative",
    "Cdmir.Expm.c122_gradient",
    "Cdmir.Expm.c122_code"
   ],
   "note": "real numbers"
  },
  {
   "property": "C123",
   "status": "proved",
   "theorems": [
    "Cdmir.Expm.c123_coefficients",
    "Cdmir.Expm.c123_order",
    "Cdmir.Expm.c123_scaled",
    "Cdmir.Expm.c123_nilpotent"
   ],
   "note": ""
  },
  {
   "property": "C124",
   "status": "partial",
   "theorems": [
    "Cdmir.Expm.c124_false",
    "Cdmir.Expm.c124_partial"
   ],
   "note": "false for large matrices with square zero; proved for matrices whose entries sum to at most 1/200"
  },
  {
   "property": "C125",
   "status": "proved",
   "theorems": [
    "Cdmir.KTest.c125_statistic",
    "Cdmir.KTest.c125_range"
   ],
   "note": "real numbers; external routines by their specification"
  },
  {
   "property": "C126",
   "status": "proved",
   "theorems": [
    "Cdmir.KTest.c126_moments",
    "Cdmir.KTest.c126_choice",
    "Cdmir.KTest.c126_threshold"
   ],
   "note": ""
  },
  {
   "property": "C127",
   "status": "proved",
   "theorems": [
    "Cdmir.KTest.c127_affine",
    "Cdmir.KTest.c127_perm"
   ],
   "note": "mode with a given kernel for the condition"
  },
  {
   "property": "C128",
   "status": "partial",
   "theorems": [
    "Cdmir.KTest.c128_false",
    "Cdmir.KTest.c128_partial"
   ],
   "note": "false: the condition is put beside x only; proved if the condition does not vary"
  },
  {
   "property": "C129",
   "status": "proved",
   "theorems": [
    "Cdmir.KTest.c129_returns"
   ],
   "note": ""
  },
  {
   "property": "C130",
   "status": "partial",
   "theorems": [
    "Cdmir.KTest.c130_conditional",
    "Cdmir.KTest.c130_unconditional",
    "Cdmir.KTest.c130_constant",
    "Cdmir.KTest.c130_large_false"
   ],
   "note": "false beyond 1000 rows"
  },
  {
   "property": "C131",
   "status": "proved",
   "theorems": [
    "Cdmir.Net.c131_mlp",
    "Cdmir.Net.c131_converse_false",
    "Cdmir.Net.c131_sobolev",
    "Cdmir.Net.c131_layers"
   ],
   "note": "real numbers; the converse for the network is false, as the statement says"
  },
  {
   "property": "C132",
   "status": "proved",
   "theorems": [
    "Cdmir.Net.c132_mlp_layout",
    "Cdmir.Net.c132_sobolev_layout",
    "Cdmir.Net.c132_linear_layout",
    "Cdmir.Net.c132_mlp",
    "Cdmir.Net.c132_sobolev",
    "Cdmir.Net.c132_step",
    "Cdmir.Net.c132_l1"
   ],
   "note": "assumes that the optimiser keeps to the bounds it is given"
  },
  {
   "property": "C133",
   "status": "proved",
   "theorems": [
    "Cdmir.Net.c133_params",
    "Cdmir.Net.c133_vector",
    "Cdmir.Net.c133_length",
    "Cdmir.Net.c133_closure"
   ],
   "note": ""
  },
  {
   "property": "C134",
   "status": "partial",
   "theorems": [
    "Cdmir.Net.c134_terminates",
    "Cdmir.Net.c134_no_call",
    "Cdmir.Net.c134_quarter",
    "Cdmir.Net.c134_first",
    "Cdmir.Net.c134_dag_partial",
    "Cdmir.Net.c134_false",
    "Cdmir.Net.c134_bound_small"
   ],
   "note": "the returned matrix need not be a DAG: false witness; proved under a bound on the tolerance"
  },
  {
   "property": "C135",
   "status": "partial",
   "theorems": [
    "Cdmir.Net.c135_forward",
    "Cdmir.Net.c135_own",
    "Cdmir.Net.c135_abs_l1",
    "Cdmir.Net.c135_l2_false",
    "Cdmir.Net.c135_l1_false",
    "Cdmir.Net.c135_anneal",
    "Cdmir.Net.c135_average"
   ],
   "note": "three expectations are false and their negations are proved"
  },
  {
   "property": "C136",
   "status": "proved",
   "theorems": [
    "Cdmir.EntLoss.c136_mentappr",
    "Cdmir.EntLoss.c136_high_order",
    "Cdmir.EntLoss.c136_scale_false",
    "Cdmir.EntLoss.c136_sign",
    "Cdmir.EntLoss.c136_perm",
    "Cdmir.EntLoss.c136_bound",
    "Cdmir.EntLoss.c136_constants",
    "Cdmir.EntLoss.c136_unbounded",
    "Cdmir.EntLoss.c136_pairs"
   ],
   "note": "scaling for residuals that vary"
  },
  {
   "property": "C137",
   "status": "proved",
   "theorems": [
    "Cdmir.Mutual.c137_returns",
    "Cdmir.Mutual.c137_radius",
    "Cdmir.Mutual.c137_volume",
    "Cdmir.Mutual.c137_value",
    "Cdmir.Mutual.c137_isometry",
    "Cdmir.Mutual.c137_perm",
    "Cdmir.Mutual.c137_scale",
    "Cdmir.Mutual.c137_scale_false"
   ],
   "note": "real numbers; the expected exact scaling is false, as the statement says"
  },
  {
   "property": "C138",
   "status": "partial",
   "theorems": [
    "Cdmir.Mutual.c138_returns",
    "Cdmir.Mutual.c138_symm",
    "Cdmir.Mutual.c138_rows",
    "Cdmir.Mutual.c138_ceiling",
    "Cdmir.Mutual.c138_constant",
    "Cdmir.Mutual.c138_nonneg_false"
   ],
   "note": "not negative is false"
  },
  {
   "property": "C139",
   "status": "partial",
   "theorems": [
    "Cdmir.Mutual.c139_returns",
    "Cdmir.Mutual.c139_symm",
    "Cdmir.Mutual.c139_identical",
    "Cdmir.Mutual.c139_false"
   ],
   "note": "a measure of dependence is false"
  },
  {
   "property": "C140",
   "status": "proved",
   "theorems": [
    "Cdmir.Mutual.c140_histogram",
    "Cdmir.Mutual.c140_range",
    "Cdmir.Mutual.c140_symm",
    "Cdmir.Mutual.c140_affine"
   ],
   "note": ""
  },
  {
   "property": "C141",
   "status": "proved",
   "theorems": [
    "Cdmir.Mutual.c141_scalar",
    "Cdmir.Mutual.c141_blocks",
    "Cdmir.Mutual.c141_linear",
    "Cdmir.Mutual.c141_pair",
    "Cdmir.Mutual.c141_subadditive",
    "Cdmir.Mutual.c141_approx"
   ],
   "note": ""
  },
  {
   "property": "C142",
   "status": "partial",
   "theorems": [
    "Cdmir.Plot.c142_edge",
    "Cdmir.Plot.along_far",
    "Cdmir.Plot.c142_direction",
    "Cdmir.Plot.c142_swap",
    "Cdmir.Plot.c142_picture",
    "Cdmir.Plot.c142_returns",
    "Cdmir.Plot.c142_false"
   ],
   "note": "every graph is drawn is false"
  },
  {
   "property": "C143",
   "status": "proved",
   "theorems": [
    "Cdmir.Plot.c143_layout",
    "Cdmir.Plot.c143_circle",
    "Cdmir.Plot.c143_overlap",
    "Cdmir.Plot.c143_inside"
   ],
   "note": "real numbers"
  },
  {
   "property": "C144",
   "status": "proved",
   "theorems": [
    "Cdmir.HsicTest.c144_finite",
    "Cdmir.HsicTest.c144_tuples",
    "Cdmir.HsicTest.c144_inner",
    "Cdmir.HsicTest.c144_cauchy",
    "Cdmir.HsicTest.c144_dcor",
    "Cdmir.HsicTest.c144_affine",
    "Cdmir.HsicTest.c144_constant",
    "Cdmir.HsicTest.c144_shuffle",
    "Cdmir.HsicTest.c144_overwrites"
   ],
   "note": "real numbers"
  },
  {
   "property": "C145",
   "status": "proved",
   "theorems": [
    "Cdmir.HsicTest.c145_features",
    "Cdmir.HsicTest.c145_nonneg",
    "Cdmir.HsicTest.c145_dcor",
    "Cdmir.HsicTest.c145_dcor_features",
    "Cdmir.HsicTest.c145_spectrum"
   ],
   "note": "real numbers"
  },
  {
   "property": "C146",
   "status": "partial",
   "theorems": [
    "Cdmir.HsicTest.c146_range",
    "Cdmir.HsicTest.c146_exact",
    "Cdmir.HsicTest.c146_scale",
    "Cdmir.HsicTest.c146_returns",
    "Cdmir.HsicTest.c146_false",
    "Cdmir.HsicTest.c146_sample",
    "Cdmir.HsicTest.c146_mean"
   ],
   "note": "a constant is not found dependent is false"
  },
  {
   "property": "C147",
   "status": "partial",
   "theorems": [
    "Cdmir.HsicTest.c147_value",
    "Cdmir.HsicTest.c147_raises",
    "Cdmir.HsicTest.c147_range",
    "Cdmir.HsicTest.c147_single",
    "Cdmir.HsicTest.c147_rest",
    "Cdmir.HsicTest.c147_scale",
    "Cdmir.HsicTest.c147_across_false",
    "Cdmir.HsicTest.c147_blocks"
   ],
   "note": "equality of the two methods is false; no streaming"
  },
  {
   "property": "C148",
   "status": "partial",
   "theorems": [
    "Cdmir.HsicTest.c148_value",
    "Cdmir.HsicTest.c148_single",
    "Cdmir.HsicTest.c148_pair",
    "Cdmir.HsicTest.c148_raises",
    "Cdmir.HsicTest.c148_order",
    "Cdmir.HsicTest.c148_range",
    "Cdmir.HsicTest.c148_monotone",
    "Cdmir.HsicTest.c148_false"
   ],
   "note": "monotonicity at zero is false"
  },
  {
   "property": "C149",
   "status": "partial",
   "theorems": [
    "Cdmir.Perf.c149_returns",
    "Cdmir.Perf.c149_value",
    "Cdmir.Perf.c149_perfect",
    "Cdmir.Perf.c149_threshold",
    "Cdmir.Perf.c149_graph",
    "Cdmir.Perf.c149_false"
   ],
   "note": "two expectations are false and their negations are proved; sklearn by its documentation"
  },
  {
   "property": "C150",
   "status": "partial",
   "theorems": [
    "Cdmir.LinAlg.c150_pdinv",
    "Cdmir.LinAlg.c150_false",
    "Cdmir.LinAlg.c150_eigdec",
    "Cdmir.LinAlg.c150_pairs"
   ],
   "note": "inverse of matrices that are not symmetric is false; numpy's factorisations by their specification"
  },
  {
   "property": "C151",
   "status": "partial",
   "theorems": [
    "Cdmir.KTest.c151_kernel",
    "Cdmir.KTest.c151_median_scale",
    "Cdmir.KTest.c151_median_nan",
    "Cdmir.KTest.c151_repeat",
    "Cdmir.KTest.c151_false",
    "Cdmir.KTest.c151_units",
    "Cdmir.KTest.c151_rows"
   ],
   "note": "the rule for HSIC does not allow for the number of columns; real numbers"
  },
  {
   "property": "C152",
   "status": "partial",
   "theorems": [
    "Cdmir.SHPEm.c152_monotone",
    "Cdmir.SHPEm.c152_fixed",
    "Cdmir.SHPEm.c152_value",
    "Cdmir.SHPEm.c152_up_partial",
    "Cdmir.SHPEm.c152_empty",
    "Cdmir.SHPEm.c152_false"
   ],
   "note": "that a fit never returns less than it starts from is false; proved where the two costs agree; real numbers"
  },
  {
   "property": "C153",
   "status": "partial",
   "theorems": [
    "Cdmir.SHP.c153_table",
    "Cdmir.SHP.c153_names",
    "Cdmir.SHP.c153_rows",
    "Cdmir.SHP.c153_influence",
    "Cdmir.SHP.c153_last",
    "Cdmir.SHP.c153_time",
    "Cdmir.SHP.c153_total",
    "Cdmir.SHP.c153_bin",
    "Cdmir.SHP.c153_bin_false",
    "Cdmir.SHP.c153_valid"
   ],
   "note": "equal intervals are false around zero; pandas by its documentation"
  },
  {
   "property": "C154",
   "status": "partial",
   "theorems": [
    "Cdmir.Sim.c154_dag",
    "Cdmir.Sim.c154_edges",
    "Cdmir.Sim.c154_weights",
    "Cdmir.Sim.c154_linear",
    "Cdmir.Sim.c154_nonlinear",
    "Cdmir.Sim.c154_unknown",
    "Cdmir.Sim.c154_bounded",
    "Cdmir.Sim.c154_power",
    "Cdmir.Sim.c154_pair",
    "Cdmir.Sim.c154_test",
    "Cdmir.Sim.c154_scale_false",
    "Cdmir.Sim.c154_scalar_false",
    "Cdmir.Sim.c154_uniform_false",
    "Cdmir.Sim.c154_pair_var"
   ],
   "note": "four expectations about noise and variances are false; igraph and the draws are parameters"
  },
  {
   "property": "C155",
   "status": "partial",
   "theorems": [
    "Cdmir.Lag.c155_transitions",
    "Cdmir.Lag.c155_asserts",
    "Cdmir.Lag.c155_ends",
    "Cdmir.Lag.c155_stable_false",
    "Cdmir.Lag.c155_accept_false"
   ],
   "note": "stability and the percentage are false; cond and percentile are parameters"
  },
  {
   "property": "C156",
   "status": "partial",
   "theorems": [
    "Cdmir.Wald.c156_fk",
    "Cdmir.Wald.c156_mean_false",
    "Cdmir.Wald.c156_covf",
    "Cdmir.Wald.c156_variance",
    "Cdmir.Wald.c156_derivative",
    "Cdmir.Wald.c156_white",
    "Cdmir.Wald.c156_sources",
    "Cdmir.Wald.c156_transposed_false"
   ],
   "note": "the mean and the order of the variances are false"
  },
  {
   "property": "C157",
   "status": "proved",
   "theorems": [
    "Cdmir.OlcStat.c157_normalize",
    "Cdmir.OlcStat.c157_value",
    "Cdmir.OlcStat.c157_multilinear",
    "Cdmir.OlcStat.c157_unbiased",
    "Cdmir.OlcStat.c157_loading",
    "Cdmir.OlcStat.c157_fisher",
    "Cdmir.OlcStat.c157_single",
    "Cdmir.OlcStat.c157_monotone",
    "Cdmir.OlcStat.c157_range"
   ],
   "note": "real numbers; independent records of finite distributions"
  },
  {
   "property": "C158",
   "status": "partial",
   "theorems": [
    "Cdmir.Orient.c158_operators",
    "Cdmir.Orient.c158_extend",
    "Cdmir.Orient.c158_overlap",
    "Cdmir.Orient.c158_lists_false",
    "Cdmir.Orient.c158_purity",
    "Cdmir.Orient.c158_with_false",
    "Cdmir.Orient.c158_measured",
    "Cdmir.Orient.c158_orientation_false"
   ],
   "note": "lists as arguments, the second branch and the orientation raise or are wrong"
  },
  {
   "property": "C159",
   "status": "partial",
   "theorems": [
    "Cdmir.KTest.c159_kci",
    "Cdmir.KTest.c159_hsic",
    "Cdmir.KTest.c159_anm",
    "Cdmir.KTest.c159_distinct",
    "Cdmir.KTest.c159_vstat",
    "Cdmir.KTest.c159_linear",
    "Cdmir.KTest.c159_linear_false"
   ],
   "note": "false for linear kernels; Gaussian kernels in full"
  },
  {
   "property": "C160",
   "status": "partial",
   "theorems": [
    "Cdmir.SHP.c160_result",
    "Cdmir.SHP.c160_record",
    "Cdmir.SHP.c160_record_false",
    "Cdmir.SHP.c160_agree",
    "Cdmir.SHP.c160_stop",
    "Cdmir.SHP.c160_tie",
    "Cdmir.SHP.c160_events",
    "Cdmir.SHP.c160_caller",
    "Cdmir.SHP.c160_caller_false"
   ],
   "note": "the shared record may be missed and the caller's table is overwritten"
  },
  {
   "property": "C161",
   "status": "partial",
   "theorems": [
    "Cdmir.Knn.c161_raises",
    "Cdmir.Knn.c161_nearest",
    "Cdmir.Knn.c161_scale",
    "Cdmir.Knn.c161_perm",
    "Cdmir.Knn.c161_two_false"
   ],
   "note": "false for two neighbours"
  },
  {
   "property": "C162",
   "status": "partial",
   "theorems": [
    "Cdmir.c162_inclusion",
    "Cdmir.c162_equivalent",
    "Cdmir.c162_fit_partial",
    "Cdmir.c162_three",
    "Cdmir.c162_five",
    "Cdmir.c162_false",
    "Cdmir.c162_default_false"
   ],
   "note": "false for six variables because of dag2cpdag; proved up to five variables and given dag2cpdag directs no reversible edge"
  },
  {
   "property": "C163",
   "status": "proved",
   "theorems": [
    "Cdmir.LocalScore.c163_gain",
    "Cdmir.LocalScore.c163_unpenalised",
    "Cdmir.LocalScore.c163_consistent",
    "Cdmir.LocalScore.c163_ges",
    "Cdmir.LocalScore.c163_five",
    "Cdmir.LocalScore.c163_ges_partial"
   ],
   "note": "for more than five variables the GES part holds given that dag2cpdag directs no reversible edge in the run (c163_ges_partial)"
  },
  {
   "property": "C164",
   "status": "proved",
   "theorems": [
    "Cdmir.HsicTest.c164_returns",
    "Cdmir.HsicTest.c164_range",
    "Cdmir.HsicTest.c164_columns",
    "Cdmir.HsicTest.c164_columns_false",
    "Cdmir.HsicTest.c164_below",
    "Cdmir.HsicTest.c164_above",
    "Cdmir.HsicTest.c164_close"
   ],
   "note": "inv(sqrtm(A)) is a parameter: a symmetric matrix whose square is the inverse of A; floats are reals"
  },
  {
   "property": "C165",
   "status": "proved",
   "theorems": [
    "Cdmir.Hier.c165_pair",
    "Cdmir.Hier.c165_find",
    "Cdmir.Hier.c165_pure",
    "Cdmir.Hier.c165_exact",
    "Cdmir.Hier.c165_sample",
    "Cdmir.Hier.c165_two_false"
   ],
   "note": "the samples have exactly the covariances of the model; floats are reals; sets are read in any order"
  },
  {
   "property": "C166",
   "status": "proved",
   "theorems": [
    "Cdmir.Hier.c166_tree",
    "Cdmir.Hier.c166_exact",
    "Cdmir.Hier.c166_sample",
    "Cdmir.Hier.c166_two_false"
   ],
   "note": "the samples have exactly the covariances of the model; floats are reals; sets are read in any order; names of latent variables are injective and not names of columns"
  },
  {
   "property": "C167",
   "status": "proved",
   "theorems": [
    "Cdmir.Hier.c167_order",
    "Cdmir.Hier.c167_sample",
    "Cdmir.Hier.c167_svd",
    "Cdmir.Hier.c167_oracle",
    "Cdmir.Hier.c167_three_false"
   ],
   "note": "for clusters of two; the estimate of mutual information is ideal and a parameter; floats are reals; false for clusters of three"
  },
  {
   "property": "C168",
   "status": "proved",
   "theorems": [
    "Cdmir.Olc.c168_three",
    "Cdmir.Olc.c168_ideal",
    "Cdmir.Olc.c168_svd",
    "Cdmir.Olc.c168_four_false"
   ],
   "note": "three columns; the routines answer as from the true distribution; floats are reals; false for four columns"
  },
  {
   "property": "C169",
   "status": "proved",
   "theorems": [
    "Cdmir.Notears.c169_equal",
    "Cdmir.Notears.c169_loop",
    "Cdmir.Notears.c169_recovers",
    "Cdmir.Notears.c169_optimal",
    "Cdmir.Notears.c169_sample",
    "Cdmir.Notears.c169_pair",
    "Cdmir.Notears.c169_units",
    "Cdmir.Notears.c169_standard",
    "Cdmir.Notears.c169_unequal_false"
   ],
   "note": "the optimiser is a parameter and finds a global minimum; floats are reals; false without equal variances"
  },
  {
   "property": "C170",
   "status": "proved",
   "theorems": [
    "Cdmir.EntLoss.c170_pooled",
    "Cdmir.EntLoss.c170_variance",
    "Cdmir.EntLoss.c170_decides",
    "Cdmir.EntLoss.c170_model_false"
   ],
   "note": "floats are reals; that the model has the least loss is false"
  },
  {
   "property": "C171",
   "status": "proved",
   "theorems": [
    "Cdmir.SHPFind.c171_root",
    "Cdmir.SHPFind.c171_apart",
    "Cdmir.SHPFind.c171_edge",
    "Cdmir.SHPFind.c171_pair",
    "Cdmir.SHPFind.c171_none",
    "Cdmir.SHPFind.c171_unit",
    "Cdmir.SHPFind.c171_unit_false"
   ],
   "note": "floats are reals; that the unit of time does not matter is false"
  },
  {
   "property": "C172",
   "status": "proved",
   "theorems": [
    "Cdmir.Consistency.c172_ges",
    "Cdmir.Consistency.c172_pc",
    "Cdmir.Consistency.c172_kept"
   ],
   "note": "floats are reals; GES for at most five variables, where C162 has no proviso"
  },
  {
   "property": "C173",
   "status": "proved",
   "theorems": [
    "Cdmir.Level.c173_level",
    "Cdmir.Level.c173_pc",
    "Cdmir.Level.c173_fixed_false"
   ],
   "note": "floats are reals; c173_fixed_false: at a fixed level PC is not consistent"
  },
  {
   "property": "C174",
   "status": "proved",
   "theorems": [
    "Cdmir.Rbf.c174_dist",
    "Cdmir.Rbf.c174_column",
    "Cdmir.Rbf.c174_plain",
    "Cdmir.Rbf.c174_plain_false",
    "Cdmir.Rbf.c174_given",
    "Cdmir.Rbf.c174_tuple",
    "Cdmir.Rbf.c174_median",
    "Cdmir.Rbf.c174_units",
    "Cdmir.Rbf.c174_rows",
    "Cdmir.Rbf.c174_rows_false",
    "Cdmir.Rbf.c174_stale_false",
    "Cdmir.Rbf.c174_psd",
    "Cdmir.Rbf.c174_poly",
    "Cdmir.Rbf.c174_poly_psd",
    "Cdmir.Rbf.c174_poly_false"
   ],
   "note": "floats are reals; the _false theorems show what is not so: plain arrays with several columns, two samples, a list used twice, a negative constant"
  },
  {
   "property": "C175",
   "status": "proved",
   "theorems": [
    "Cdmir.Notears.c175_loop",
    "Cdmir.Notears.c175_equal",
    "Cdmir.Notears.c175_pair",
    "Cdmir.Notears.c175_unequal_false"
   ],
   "note": "floats are reals; the minimiser finds a global minimum; c175_unequal_false shows that equal variances are needed"
  },
  {
   "property": "C176",
   "status": "proved",
   "theorems": [
    "Cdmir.SqDist.c176_dist",
    "Cdmir.SqDist.c176_self",
    "Cdmir.SqDist.c176_shape",
    "Cdmir.SqDist.c176_weights",
    "Cdmir.SqDist.c176_array",
    "Cdmir.SqDist.c176_array_false",
    "Cdmir.SqDist.c176_column",
    "Cdmir.SqDist.c176_predict_false",
    "Cdmir.SqDist.c176_tests",
    "Cdmir.SqDist.c176_eigvals"
   ],
   "note": "floats are reals; numpy's eig and argsort are parameters; the _false theorems show what is not so: plain arrays with one column in the second argument, and predictions"
  },
  {
   "property": "C177",
   "status": "proved",
   "theorems": [
    "Cdmir.Notears.c177_empty",
    "Cdmir.Notears.c177_some",
    "Cdmir.Notears.c177_units",
    "Cdmir.Notears.c177_drawn",
    "Cdmir.Notears.c177_drawn_some",
    "Cdmir.Notears.c177_fixed_false"
   ],
   "note": "floats are reals; the minimiser is a parameter that is assumed to reach the minimum; the _false theorem shows that the penalty of the script's example loses an edge of weight 1/2"
  },
  {
   "property": "C178",
   "status": "proved",
   "theorems": [
    "Cdmir.KTest.c178_limit",
    "Cdmir.KTest.c178_power",
    "Cdmir.KTest.c178_strategy",
    "Cdmir.KTest.c178_vstat"
   ],
   "note": "floats are reals; the gamma distribution function is a parameter meeting Markov's inequality, which gamma_markov proves of Mathlib's gamma distribution; widths from medians are not covered"
  },
  {
   "property": "C179",
   "status": "proved",
   "theorems": [
    "Cdmir.ShuffleTest.c179_power",
    "Cdmir.ShuffleTest.c179_level",
    "Cdmir.ShuffleTest.c179_drawn",
    "Cdmir.ShuffleTest.c179_ties_false"
   ],
   "note": "floats are reals; the shuffles are uniform permutations; the level is proved for the event without ties, and c179_ties_false shows that it is not kept with them"
  },
  {
   "property": "C180",
   "status": "proved",
   "theorems": [
    "Cdmir.SpectralTest.c180_power",
    "Cdmir.SpectralTest.c180_unbiased_false"
   ],
   "note": "floats are reals; eigvalsh is a parameter that returns the eigenvalues; the draws are independent standard normal variables; without random features"
  },
  {
   "property": "C181",
   "status": "proved",
   "theorems": [
    "Cdmir.MedianWidth.c181_power"
   ],
   "note": "floats are reals; gamma.ppf is a parameter that obeys the Markov inequality, as the true quantile function does (gamma_quantile)"
  },
  {
   "property": "C182",
   "status": "proved",
   "theorems": [
    "Cdmir.FeatureTest.c182_limit",
    "Cdmir.FeatureTest.c182_power",
    "Cdmir.FeatureTest.c182_frequencies",
    "Cdmir.FeatureTest.c182_fixed_false"
   ],
   "note": "floats are reals; eigvalsh, the normal draws and the features are parameters; that kerpy returns cosines and sines of random frequencies is an assumption"
  },
  {
   "property": "C183",
   "status": "proved",
   "theorems": [
    "Cdmir.AnmDrawn.c183_dependent",
    "Cdmir.AnmDrawn.c183_independent",
    "Cdmir.AnmDrawn.c183_direction",
    "Cdmir.AnmDrawn.c183_cap_false",
    "Cdmir.AnmDrawn.c183_wrong_false",
    "Cdmir.AnmDrawn.c183_inconsistent_false"
   ],
   "note": "floats are reals; residuals and causes are taken as independent draws, the regression is not modelled; the first three are about the statistic over all rows, which the code computes up to 2000 rows"
  },
  {
   "property": "C184",
   "status": "proved",
   "theorems": [
    "Cdmir.NullMean.c184_mean",
    "Cdmir.NullMean.c184_spectral",
    "Cdmir.NullMean.c184_features",
    "Cdmir.NullMean.c184_kernel",
    "Cdmir.NullMean.c184_kci",
    "Cdmir.NullMean.c184_hsic"
   ],
   "note": "floats are reals; the draws of the null samples are independent standard normal numbers; the kernels of the spectral test and of kernel_based.py have fixed widths; only means are compared, not the level of the tests"
  },
  {
   "property": "C185",
   "status": "proved",
   "theorems": [
    "Cdmir.UnbiasedMean.c185_shuffles",
    "Cdmir.UnbiasedMean.c185_mean",
    "Cdmir.UnbiasedMean.c185_drawn"
   ],
   "note": "floats are reals"
  },
  {
   "property": "C186",
   "status": "proved",
   "theorems": [
    "Cdmir.BlockPower.c186_unbiased",
    "Cdmir.BlockPower.c186_power"
   ],
   "note": "floats are reals; kernels of fixed widths, not the median widths"
  },
  {
   "property": "C187",
   "status": "proved",
   "theorems": [
    "Cdmir.BlockLevel.c187_level",
    "Cdmir.BlockLevel.c187_across_false"
   ],
   "note": "floats are reals; kernels of fixed widths; whole blocks, permutations fixed in advance"
  },
  {
   "property": "C188",
   "status": "proved",
   "theorems": [
    "Cdmir.BlockDirect.c188_moment",
    "Cdmir.BlockDirect.c188_variance",
    "Cdmir.BlockDirect.c188_direct_false"
   ],
   "note": "floats are reals; kernels of fixed widths; whole blocks"
  }
 ]
}