{
 "claims": [
  {
   "property": "C01",
   "status": "proved",
   "theorems": [
    "Spreg.Lags.C01_getLags",
    "Spreg.Lags.C01_getLags_length",
    "Spreg.Lags.C01_getLags_get",
    "Spreg.Lags.C01_getLagsSplit",
    "Spreg.Lags.C01_split_join"
   ],
   "note": "Full, for every column type with a lag operator, every list of columns and number of lags."
  },
  {
   "property": "C02",
   "status": "proved",
   "theorems": [
    "Spreg.Lags.C02_setNameSpatialLags",
    "Spreg.Lags.C02_flexWx",
    "Spreg.Lags.C02_flexWx_reject"
   ],
   "note": "Full for set_name_spatial_lags and the regressor names of flex_wx, every mask and lag order; flex_wx_reject: wrong mask length raises."
  },
  {
   "property": "C03",
   "status": "partial",
   "theorems": [
    "Spreg.Lags.C03_flexWx_q_partial",
    "Spreg.Lags.C03_violated"
   ],
   "note": "The property is false of the code: C03_violated exhibits a mask and q_lags for which names and columns disagree; C03_flexWx_q_partial proves alignment on the domain where it holds."
  },
  {
   "property": "C04",
   "status": "partial",
   "theorems": [
    "Spreg.Lags.C04_setEndog_none",
    "Spreg.Lags.C04_setEndog_some",
    "Spreg.Lags.C04_setEndog_noq",
    "Spreg.Lags.C04_sparse_eq_dense_partial",
    "Spreg.Lags.C04_sparse_length",
    "Spreg.Lags.C04_sparse_violated"
   ],
   "note": "Dense builder: full. Sparse builder: equal to the dense one for w_lags <= 2 (partial); C04_sparse_violated shows that it differs for w_lags = 3 (defect)."
  },
  {
   "property": "C05",
   "status": "partial",
   "theorems": [
    "Spreg.Lags.C05_setEndog_none_partial",
    "Spreg.Lags.C05_setEndog_mask1_partial",
    "Spreg.Lags.C05_mask_violated",
    "Spreg.Lags.C05_setEndog_some",
    "Spreg.Lags.C05_yend_violated",
    "Spreg.Lags.C05_setEndog_lagq"
   ],
   "note": "Holds without a mask and for slx_lags = 1 with a mask (partial); C05_mask_violated / C05_yend_violated are the counterexamples found in the code."
  },
  {
   "property": "C06",
   "status": "proved",
   "theorems": [
    "Spreg.Lin.C06_decomposition",
    "Spreg.Lin.C06_raises_iff",
    "Spreg.Lin.C06_residuals_sum"
   ],
   "note": "Full over the reals (exact arithmetic; no rounding)."
  },
  {
   "property": "C07",
   "status": "proved",
   "theorems": [
    "Spreg.Lin.C07_minimises"
   ],
   "note": "Full over the reals."
  },
  {
   "property": "C08",
   "status": "proved",
   "theorems": [
    "Spreg.Lin.C08_permute",
    "Spreg.Lin.C08_affine",
    "Spreg.Lin.C08_basis"
   ],
   "note": "Full over the reals."
  },
  {
   "property": "C09",
   "status": "proved",
   "theorems": [
    "Spreg.Lin.C09_wls",
    "Spreg.Lin.C09_unit_weights",
    "Spreg.Lin.C09_cached_utu_differs"
   ],
   "note": "Full; C09_cached_utu_differs records that the cached utu is the weighted one."
  },
  {
   "property": "C10",
   "status": "proved",
   "theorems": [
    "Spreg.Lin.C10_orthogonal_firstStage",
    "Spreg.Lin.C10_orthogonal_x",
    "Spreg.Lin.C10_raises_iff"
   ],
   "note": "Full over the reals."
  },
  {
   "property": "C11",
   "status": "proved",
   "theorems": [
    "Spreg.Lin.C11_equals_ols",
    "Spreg.Lin.C11_self_instruments",
    "Spreg.Lin.C11_just_identified"
   ],
   "note": "Full over the reals."
  },
  {
   "property": "C12",
   "status": "proved",
   "theorems": [
    "Spreg.Lin.C12_white_ols",
    "Spreg.Lin.C12_white_tsls",
    "Spreg.Lin.C12_hac_symm",
    "Spreg.Lin.C12_hac_psd",
    "Spreg.Lin.C12_hac_identity",
    "Spreg.Lin.C12_hac_indefinite"
   ],
   "note": "Full; C12_hac_indefinite shows that a kernel that is not PSD gives an indefinite matrix, so the hypothesis is needed."
  },
  {
   "property": "C13",
   "status": "proved",
   "theorems": [
    "Spreg.GM.C13_moments",
    "Spreg.GM.C13_objective",
    "Spreg.GM.C13_rescale"
   ],
   "note": "Full over the reals; the numerical optimiser is not modelled, only its objective."
  },
  {
   "property": "C14",
   "status": "proved",
   "theorems": [
    "Spreg.GM.C14_moments2eqs",
    "Spreg.GM.C14_momentsHom",
    "Spreg.GM.C14_hom_needs_symmetry",
    "Spreg.GM.C14_jacobian",
    "Spreg.GM.C14_weighted"
   ],
   "note": "Full; C14_hom_needs_symmetry shows that the symmetry hypothesis of the homoskedastic case is needed (A1, A2 in the code are symmetric: C15)."
  },
  {
   "property": "C15",
   "status": "proved",
   "theorems": [
    "Spreg.GM.C15_A1het",
    "Spreg.GM.C15_A1hom",
    "Spreg.GM.C15_A2hom"
   ],
   "note": "Full over the reals."
  },
  {
   "property": "C16",
   "status": "proved",
   "theorems": [
    "Spreg.GM.C16_spFilter",
    "Spreg.GM.C16_columns_panel",
    "Spreg.GM.C16_gmError"
   ],
   "note": "Full over the reals; the optimiser is an arbitrary function."
  },
  {
   "property": "C17",
   "status": "proved",
   "theorems": [
    "Spreg.LM.C17_sarma"
   ],
   "note": "Full over the reals."
  },
  {
   "property": "C18",
   "status": "partial",
   "theorems": [
    "Spreg.LM.C18_robust_durbin",
    "Spreg.LM.C18_df",
    "Spreg.LM.C18_slx_violated",
    "Spreg.LM.C18_exists"
   ],
   "note": "Robust Durbin tests: full (decomposition, nonnegativity, df, existence); C18_slx_violated: on a regression that already contains the lags the call raises."
  },
  {
   "property": "C19",
   "status": "proved",
   "theorems": [
    "Spreg.LM.C19_unit_free"
   ],
   "note": "Full over the reals."
  },
  {
   "property": "C20",
   "status": "proved",
   "theorems": [
    "Spreg.LM.C20_nonneg",
    "Spreg.LM.C20_ak"
   ],
   "note": "Full over the reals."
  },
  {
   "property": "C21",
   "status": "proved",
   "theorems": [
    "Spreg.Cache.C21_reads"
   ],
   "note": "Full: every sequence of attribute reads."
  },
  {
   "property": "C22",
   "status": "proved",
   "theorems": [
    "Spreg.Cache.C22_last_assigned",
    "Spreg.Cache.C22_reads_stable",
    "Spreg.Cache.C22_first_read",
    "Spreg.Cache.C22_reads_only",
    "Spreg.Cache.C22_stale_after_setattr"
   ],
   "note": "Full: every sequence of reads and assignments."
  },
  {
   "property": "C23",
   "status": "proved",
   "theorems": [
    "Spreg.Regimes.C23_x2xsp",
    "Spreg.Regimes.C23_unknown_label",
    "Spreg.Regimes.C23_blocks_sum"
   ],
   "note": "Full: the CSR triple built by x2xsp has exactly the intended entries; unknown labels raise KeyError."
  },
  {
   "property": "C24",
   "status": "partial",
   "theorems": [
    "Spreg.Regimes.C24_aligned",
    "Spreg.Regimes.C24_desc",
    "Spreg.Regimes.C24_frame",
    "Spreg.Regimes.C24_name_y_violated"
   ],
   "note": "Design columns, names, types and regime tags aligned for every mask (full); C24_name_y_violated: the multi-regime name_y list is filled with characters (defect)."
  },
  {
   "property": "C25",
   "status": "partial",
   "theorems": [
    "Spreg.Regimes.C25_set",
    "Spreg.Regimes.C25_partition",
    "Spreg.Regimes.C25_float_iff",
    "Spreg.Regimes.C25_violated"
   ],
   "note": "Full for non-float labels; for float labels C25_float_iff characterises exactly when the labels survive, C25_violated is the counterexample."
  },
  {
   "property": "C26",
   "status": "proved",
   "theorems": [
    "Spreg.Regimes.C26_difference",
    "Spreg.Regimes.C26_joint"
   ],
   "note": "Full."
  },
  {
   "property": "C27",
   "status": "partial",
   "theorems": [
    "Spreg.RegimesMat.C27_nonneg",
    "Spreg.RegimesMat.C27_invariant",
    "Spreg.RegimesMat.C27_exists_iff",
    "Spreg.RegimesMat.C27_wald_class_q_violated"
   ],
   "note": "Full for wald_test; C27_wald_class_q_violated: the Wald class cannot be given a vector of constants (defect)."
  },
  {
   "property": "C28",
   "status": "proved",
   "theorems": [
    "Spreg.RegimesMat.C28_pooled",
    "Spreg.RegimesMat.C28_raises_iff"
   ],
   "note": "Full over the reals."
  },
  {
   "property": "C29",
   "status": "proved",
   "theorems": [
    "Spreg.Regimes.C29_parallel",
    "Spreg.Regimes.C29_schedule_independent",
    "Spreg.Regimes.C29_scatter"
   ],
   "note": "Full: every completion order, including workers that raise."
  },
  {
   "property": "C30",
   "status": "partial",
   "theorems": [
    "Spreg.Impacts.C30_partial_sum",
    "Spreg.Impacts.C30_raises",
    "Spreg.Impacts.C30_post_multiply",
    "Spreg.Impacts.C30_error_bound",
    "Spreg.Impacts.C30_large_data_violated"
   ],
   "note": "Partial sums and truncation error proved for every W, rho, data and threshold; C30_large_data_violated: the stopping test compares the first term with the limit 1e7, so data on a large scale raise although the series converges (defect)."
  },
  {
   "property": "C31",
   "status": "partial",
   "theorems": [
    "Spreg.Impacts.C31_partition",
    "Spreg.Impacts.C31_full",
    "Spreg.Impacts.C31_power_partial",
    "Spreg.Impacts.C31_power_violated",
    "Spreg.Impacts.C31_effects",
    "Spreg.Impacts.C31_slx_effects"
   ],
   "note": "Row/total partition full; the power approximation equals the partial sum up to its stopping index (partial); C31_power_violated: on bipartite weights it stops early."
  },
  {
   "property": "C32",
   "status": "proved",
   "theorems": [
    "Spreg.Impacts.C32_lag",
    "Spreg.Impacts.C32_kernel_slx"
   ],
   "note": "Full over the reals."
  },
  {
   "property": "C33",
   "status": "partial",
   "theorems": [
    "Spreg.DGP.C33_lag",
    "Spreg.DGP.C33_spdurbin",
    "Spreg.DGP.C33_sperror",
    "Spreg.DGP.C33_slxerror",
    "Spreg.DGP.C33_lagerr",
    "Spreg.DGP.C33_gns",
    "Spreg.DGP.C33_lag_defined",
    "Spreg.DGP.C33_mess",
    "Spreg.DGP.C33_ols_slx",
    "Spreg.DGP.C33_mismatch",
    "Spreg.DGP.C33_mismatch_violated",
    "Spreg.DGP.C33_make_bin",
    "Spreg.DGP.C33_make_wx",
    "Spreg.DGP.C33_vmult_linear",
    "Spreg.DGP.C33_vmult_group",
    "Spreg.DGP.C33_make_xb"
   ],
   "note": "Reduced forms proved for every process; C33_mismatch_violated: dgp_spdurbin and dgp_gns do not return None on a mismatch (missing return)."
  },
  {
   "property": "C34",
   "status": "proved",
   "theorems": [
    "Spreg.Impacts.C34_inside",
    "Spreg.Impacts.C34_accuracy",
    "Spreg.Impacts.C34_outside",
    "Spreg.Impacts.C34_true_inv"
   ],
   "note": "Full."
  },
  {
   "property": "C35",
   "status": "partial",
   "theorems": [
    "Spreg.ML.C35_lu",
    "Spreg.ML.C35_ord_complex",
    "Spreg.ML.C35_methods_agree_partial",
    "Spreg.ML.C35_general_weights_violated",
    "Spreg.ML.C35_binary_violated"
   ],
   "note": "Determinant, LU and eigenvalue Jacobians agree for row-standardised contiguity weights on the search interval (partial); LU and complex eigenvalues: every W. C35_general_weights_violated / C35_binary_violated: method ord computes another Jacobian for general weights with a symmetric pattern and for weights that are not row-standardised (defects). What libpysal does for transform and asymmetry is taken from its documentation."
  },
  {
   "property": "C36",
   "status": "partial",
   "theorems": [
    "Spreg.ML.C36_two_traces_partial",
    "Spreg.ML.C36_regular_partial",
    "Spreg.ML.C36_violated"
   ],
   "note": "Two of three traces agree, all three if every unit has equally many neighbours; C36_violated: otherwise the variance differs between methods."
  },
  {
   "property": "C37",
   "status": "proved",
   "theorems": [
    "Spreg.ML.C37_lag_residuals",
    "Spreg.ML.C37_lag_loglik",
    "Spreg.ML.C37_err"
   ],
   "note": "Full over the reals for ML_Lag and ML_Error; the optimiser is an arbitrary function."
  },
  {
   "property": "C38",
   "status": "proved",
   "theorems": [
    "Spreg.Panel.C38_demean",
    "Spreg.Panel.C38_no_periods",
    "Spreg.Panel.C38_time_invariant",
    "Spreg.Panel.C38_idempotent",
    "Spreg.Panel.C38_zero_means",
    "Spreg.Panel.C38_phi_one",
    "Spreg.Panel.C38_effects"
   ],
   "note": "Full over the reals, every n, T, phi."
  },
  {
   "property": "C39",
   "status": "partial",
   "theorems": [
    "Spreg.Panel.C39_wide",
    "Spreg.Panel.C39_long",
    "Spreg.Panel.C39_reject_rows",
    "Spreg.Panel.C39_reject_few",
    "Spreg.Panel.C39_trailing_dropped_violated",
    "Spreg.Panel.C39_double_rows_violated",
    "Spreg.Panel.C39_names"
   ],
   "note": "Stacking, long format, row count and too few columns: full. C39_trailing_dropped_violated and C39_double_rows_violated: a column count that is not a multiple of T, or a multiple of w.n rows, is accepted silently (defects)."
  },
  {
   "property": "C40",
   "status": "proved",
   "theorems": [
    "Spreg.SUR.C40_dict_mat_dict",
    "Spreg.SUR.C40_mat_dict_mat",
    "Spreg.SUR.C40_position",
    "Spreg.SUR.C40_check_k",
    "Spreg.SUR.C40_filter_dict"
   ],
   "note": "Full: every number of equations and sizes."
  },
  {
   "property": "C41",
   "status": "proved",
   "theorems": [
    "Spreg.SUR.C41_gls",
    "Spreg.SUR.C41_exists_iff",
    "Spreg.SUR.C41_minimises",
    "Spreg.SUR.C41_varb_psd",
    "Spreg.SUR.C41_diagonal_ols",
    "Spreg.SUR.C41_same_regressors_ols"
   ],
   "note": "Full over the reals."
  },
  {
   "property": "C42",
   "status": "proved",
   "theorems": [
    "Spreg.Diag.C42_r2_range",
    "Spreg.Diag.C42_r2_explained",
    "Spreg.Diag.C42_r2_one",
    "Spreg.Diag.C42_ar2_le",
    "Spreg.Diag.C42_ar2_variances",
    "Spreg.Diag.C42_r2_nested",
    "Spreg.Diag.C42_units"
   ],
   "note": "Full over the reals."
  },
  {
   "property": "C43",
   "status": "proved",
   "theorems": [
    "Spreg.Diag.C43_akaike",
    "Spreg.Diag.C43_schwarz",
    "Spreg.Diag.C43_loglik_gaussian",
    "Spreg.Diag.C43_monotone",
    "Spreg.Diag.C43_likratio",
    "Spreg.Diag.C43_likratio_missing"
   ],
   "note": "Full over the reals."
  },
  {
   "property": "C44",
   "status": "proved",
   "theorems": [
    "Spreg.Diag.C44_vif",
    "Spreg.Diag.C44_vif_one"
   ],
   "note": "Full over the reals."
  },
  {
   "property": "C45",
   "status": "partial",
   "theorems": [
    "Spreg.Search.C45_classic_partial",
    "Spreg.Search.C45_classic_nan_violated",
    "Spreg.Search.C45_kb",
    "Spreg.Search.C45_pre_partial",
    "Spreg.Search.C45_pre_label_violated",
    "Spreg.Search.C45_gns_extremes",
    "Spreg.Search.C45_gns_lambda",
    "Spreg.Search.C45_gns_rho",
    "Spreg.Search.C45_gns_gamma",
    "Spreg.Search.C45_gns_total",
    "Spreg.Search.C45_sdm",
    "Spreg.Search.C45_sdm_stop",
    "Spreg.Search.C45_sdm_one",
    "Spreg.Search.C45_sdm_many_violated",
    "Spreg.Search.C45_gns_many_violated"
   ],
   "note": "stge_kb: full. stge_classic and stge_pre: proved when no p-value is NaN (partial), C45_classic_nan_violated: a NaN p-value ends in UnboundLocalError; C45_pre_label_violated: stge_pre reports LAG for a model that is SDM when the AK test rejects. gets_gns and gets_sdm: exact decision table for one regressor; C45_sdm_many_violated and C45_gns_many_violated: with two or more regressors significant lags are dropped and an insignificant rho is kept (defects)."
  },
  {
   "property": "C46",
   "status": "partial",
   "theorems": [
    "Spreg.Skater.C46_connected",
    "Spreg.Skater.C46_no_errors",
    "Spreg.Skater.C46_islands_violated",
    "Spreg.Skater.C46_islands_raise_violated"
   ],
   "note": "Full for a connected graph (C46_connected: every run; C46_no_errors: no spurious exceptions on a forest), for every score function, quorum, number of clusters and labelling of components. C46_islands_violated: with islands the first recorded score leaves out the other components; C46_islands_raise_violated: a run that raises although splitting never increases the score (defects)."
  },
  {
   "property": "C47",
   "status": "partial",
   "theorems": [
    "Spreg.Skater.C47_labels_partial",
    "Spreg.Skater.C47_no_cut_violated",
    "Spreg.Skater.C47_star_violated"
   ],
   "note": "C47_labels_partial: labels are returned exactly when the requested number of regions is reached; C47_no_cut_violated and C47_star_violated: otherwise fit returns None as labels (defect)."
  },
  {
   "property": "C48",
   "status": "partial",
   "theorems": [
    "Spreg.GM.C48_het",
    "Spreg.GM.C48_hom",
    "Spreg.GM.C48_hom_endog",
    "Spreg.GM.C48_het_endog",
    "Spreg.GM.C48_message_partial",
    "Spreg.GM.C48_message_violated",
    "Spreg.GM.C48_no_pass_violated",
    "Spreg.GM.C48_no_pass_endog_violated",
    "Spreg.GM.C48_example"
   ],
   "note": "C48_het, C48_hom, C48_hom_endog, C48_het_endog: every successful estimation is a history of at least one and at most max_iter passes, each starting from the lambda of the previous one, and the object reports the last pass. C48_message_partial: the convergence message is right; C48_message_violated, C48_example: convergence in the last allowed pass is reported as 'Maximum number of iterations reached.' (always with the default max_iter=1); C48_no_pass_violated, C48_no_pass_endog_violated: max_iter=0 or epsilon>=1 ends in UnboundLocalError."
  },
  {
   "property": "C49",
   "status": "partial",
   "theorems": [
    "Spreg.SUR.C49_bound_partial",
    "Spreg.SUR.C49_bound_violated"
   ],
   "note": "C49_bound_partial: at most maxiter + 1 iterations; C49_bound_violated: maxiter + 1 is reached (defect)."
  },
  {
   "property": "C50",
   "status": "partial",
   "theorems": [
    "Spreg.Chk.C50_finite_sum",
    "Spreg.Chk.C50_check_arrays",
    "Spreg.Chk.C50_all_none",
    "Spreg.Chk.C50_check_y",
    "Spreg.Chk.C50_check_y_name",
    "Spreg.Chk.C50_weights_sound",
    "Spreg.Chk.C50_weights_w",
    "Spreg.Chk.C50_weights_none",
    "Spreg.Chk.C50_weights_kernel",
    "Spreg.Chk.C50_check_robust",
    "Spreg.Chk.C50_spat_diag",
    "Spreg.Chk.C50_spat_diag_kept",
    "Spreg.Chk.C50_spat_diag_default",
    "Spreg.Chk.C50_hac_case_violated",
    "Spreg.Chk.C50_reg_list",
    "Spreg.Chk.C50_check_regimes",
    "Spreg.Chk.C50_small_regime_accepted"
   ],
   "note": "Full characterisation of check_arrays, check_y, check_weights, check_robust, check_reg_list, check_regimes; C50_hac_case_violated: robust='HAC' is treated as HAC by one check and not by the other (defect)."
  },
  {
   "property": "C51",
   "status": "proved",
   "theorems": [
    "Spreg.Chk.C51_check_constant",
    "Spreg.Chk.C51_no_names",
    "Spreg.Chk.C51_empty",
    "Spreg.Chk.C51_idempotent",
    "Spreg.Chk.C51_names_aligned",
    "Spreg.Chk.C51_short_names",
    "Spreg.Diag.C51_constantCheck"
   ],
   "note": "Full (with constant_check of the diagnostics): every matrix with rows and every list of names of the right length."
  },
  {
   "property": "C52",
   "status": "proved",
   "theorems": [
    "Spreg.Chk.C52_accumulate"
   ],
   "note": "Full: every sequence of warnings."
  },
  {
   "property": "C53",
   "status": "partial",
   "theorems": [
    "Spreg.ML.C53_symmetric",
    "Spreg.ML.C53_similar",
    "Spreg.ML.C53_general_weights_violated"
   ],
   "note": "Full for binary symmetric weights without islands; C53_general_weights_violated: false for general weights to which the code applies it."
  },
  {
   "property": "C54",
   "status": "proved",
   "theorems": [
    "Spreg.Lags.C54_setNameQSp",
    "Spreg.Lags.C54_plain"
   ],
   "note": "Full."
  },
  {
   "property": "C55",
   "status": "partial",
   "theorems": [
    "Spreg.Lags.C55_gmLag_names",
    "Spreg.Lags.C55_gmLag_durbin1_partial",
    "Spreg.Lags.C55_violated_yend",
    "Spreg.Lags.C55_violated_mask"
   ],
   "note": "Alignment proved for the plain lag model and for slx_lags = 1 without yend; counterexamples for yend and for masks."
  },
  {
   "property": "C56",
   "status": "proved",
   "theorems": [
    "Spreg.Lin.C56_vm_psd"
   ],
   "note": "Full over the reals."
  },
  {
   "property": "C57",
   "status": "proved",
   "theorems": [
    "Spreg.GM.C57_vcHet"
   ],
   "note": "Full over the reals."
  },
  {
   "property": "C58",
   "status": "proved",
   "theorems": [
    "Spreg.LM.C58_comfac",
    "Spreg.LM.C58_wald",
    "Spreg.LM.C58_jacobian"
   ],
   "note": "Full over the reals."
  },
  {
   "property": "C59",
   "status": "proved",
   "theorems": [
    "Spreg.LM.C59_lmtests"
   ],
   "note": "Full."
  },
  {
   "property": "C60",
   "status": "proved",
   "theorems": [
    "Spreg.LM.C60_moran_moments"
   ],
   "note": "Full over the reals."
  },
  {
   "property": "C61",
   "status": "partial",
   "theorems": [
    "Spreg.Regimes.C61_ols",
    "Spreg.Regimes.C61_tsls_partial",
    "Spreg.Regimes.C61_violated"
   ],
   "note": "OLS: full. TSLS: proved when all exogenous variables vary or no endogenous one does; C61_violated is the counterexample otherwise (defect)."
  },
  {
   "property": "C62",
   "status": "proved",
   "theorems": [
    "Spreg.Regimes.C62_check_cols2regi",
    "Spreg.Regimes.C62_no_constant"
   ],
   "note": "Full."
  },
  {
   "property": "C63",
   "status": "partial",
   "theorems": [
    "Spreg.Regimes.C63_columns",
    "Spreg.Regimes.C63_names",
    "Spreg.Regimes.C63_duplicate_names_violated"
   ],
   "note": "Full for distinct names; C63_duplicate_names_violated shows that repeated names misalign."
  },
  {
   "property": "C64",
   "status": "partial",
   "theorems": [
    "Spreg.OptK.C64_default",
    "Spreg.OptK.C64_window_partial",
    "Spreg.OptK.C64_large_window_violated",
    "Spreg.OptK.C64_window_one_violated",
    "Spreg.OptK.C64_units",
    "Spreg.OptK.C64_slope_partial",
    "Spreg.OptK.C64_flat_violated"
   ],
   "note": "C64_default, C64_units full; C64_window_partial gives the range on traces longer than the windows; C64_large_window_violated, C64_window_one_violated, C64_flat_violated: outside it the answer is not a valid number of regimes, and the trend coefficient uses the wrong times (C64_slope_partial is where it agrees)."
  },
  {
   "property": "C65",
   "status": "partial",
   "theorems": [
    "Spreg.RegimesMat.C65_variance_pos",
    "Spreg.RegimesMat.C65_variance_violated",
    "Spreg.RegimesMat.C65_same_betas"
   ],
   "note": "C65_same_betas full; positivity holds exactly when the regime has more observations than the expanded design has columns; C65_variance_violated: otherwise the variance is negative although the regime has positive degrees of freedom (defect)."
  },
  {
   "property": "C66",
   "status": "partial",
   "theorems": [
    "Spreg.Chk.C66_endog_partial",
    "Spreg.Chk.C66_endog_data",
    "Spreg.Chk.C66_violated",
    "Spreg.ML.C66_weights_violated"
   ],
   "note": "check_endog changes nothing unless an array is one-dimensional (partial); C66_violated: a one-dimensional array is reshaped in place; C66_weights_violated: method ord leaves the caller's weights row-standardised (defects)."
  },
  {
   "property": "C67",
   "status": "proved",
   "theorems": [
    "Spreg.ML.C67_lag_info",
    "Spreg.ML.C67_lag_variances",
    "Spreg.ML.C67_err"
   ],
   "note": "Full over the reals."
  },
  {
   "property": "C68",
   "status": "proved",
   "theorems": [
    "Spreg.ML.C68_det_pos"
   ],
   "note": "Full over the reals."
  },
  {
   "property": "C69",
   "status": "partial",
   "theorems": [
    "Spreg.Panel.C69_mixed_violated",
    "Spreg.Panel.C69_blocks_partial"
   ],
   "note": "C69_blocks_partial: right when every variable varies in all periods or in none; C69_mixed_violated: otherwise periods of different variables are mixed (defect)."
  },
  {
   "property": "C70",
   "status": "proved",
   "theorems": [
    "Spreg.SUR.C70_lr_nonneg",
    "Spreg.SUR.C70_llik_monotone",
    "Spreg.SUR.C70_residuals",
    "Spreg.SUR.C70_lr_df"
   ],
   "note": "Full over the reals."
  },
  {
   "property": "C71",
   "status": "partial",
   "theorems": [
    "Spreg.SUR.C71_breusch_pagan",
    "Spreg.SUR.C71_LMe_unit_free",
    "Spreg.SUR.C71_LMe_nonneg",
    "Spreg.SUR.C71_LMlag_nonneg",
    "Spreg.SUR.C71_lag_score_partial",
    "Spreg.SUR.C71_lag_score_violated"
   ],
   "note": "Breusch-Pagan and LM error: full; LM lag: nonnegative; C71_lag_score_violated: its score is a matrix product instead of an elementwise product, so the statistic is wrong and unit dependent for two or more equations (defect)."
  },
  {
   "property": "C72",
   "status": "proved",
   "theorems": [
    "Spreg.SUR.C72_threesls",
    "Spreg.SUR.C72_residuals"
   ],
   "note": "Full over the reals."
  },
  {
   "property": "C73",
   "status": "proved",
   "theorems": [
    "Spreg.Diag.C73_overall",
    "Spreg.Diag.C73_last",
    "Spreg.Diag.C73_t_squared"
   ],
   "note": "Full over the reals."
  },
  {
   "property": "C74",
   "status": "proved",
   "theorems": [
    "Spreg.Diag.C74_duplicates",
    "Spreg.Diag.C74_breusch_pagan",
    "Spreg.Diag.C74_koenker_bassett",
    "Spreg.Diag.C74_koenker_r2",
    "Spreg.Diag.C74_units",
    "Spreg.Diag.C74_white_columns",
    "Spreg.Diag.C74_white_design",
    "Spreg.Diag.C74_white",
    "Spreg.Diag.C74_white_skipped"
   ],
   "note": "Full over the reals."
  },
  {
   "property": "C75",
   "status": "partial",
   "theorems": [
    "Spreg.Diag.C75_z_violated",
    "Spreg.Diag.C75_default_partial"
   ],
   "note": "C75_default_partial: without z the tests work; C75_z_violated: any array z with at least two entries raises (defect)."
  },
  {
   "property": "C76",
   "status": "proved",
   "theorems": [
    "Spreg.Diag.C76_nonneg",
    "Spreg.Diag.C76_units",
    "Spreg.Diag.C76_zero_iff"
   ],
   "note": "Full over the reals."
  },
  {
   "property": "C77",
   "status": "proved",
   "theorems": [
    "Spreg.Diag.C77_real_eigenvalues",
    "Spreg.Diag.C77_condition_index",
    "Spreg.Diag.C77_one_iff",
    "Spreg.Diag.C77_units"
   ],
   "note": "Full over the reals."
  },
  {
   "property": "C78",
   "status": "proved",
   "theorems": [
    "Spreg.Diag.C78_dwh",
    "Spreg.Diag.C78_exogenous_raises"
   ],
   "note": "Full over the reals."
  },
  {
   "property": "C79",
   "status": "proved",
   "theorems": [
    "Spreg.Diag.C79_range",
    "Spreg.Diag.C79_ols"
   ],
   "note": "Full over the reals."
  },
  {
   "property": "C80",
   "status": "partial",
   "theorems": [
    "Spreg.DPanel.C80_stacked_partial",
    "Spreg.DPanel.C80_LMlag_violated",
    "Spreg.DPanel.C80_identity_violated",
    "Spreg.DPanel.C80_witness_violated"
   ],
   "note": "LM error and both robust tests: full; C80_LMlag_violated: the LM lag test uses trw*trw instead of t*trw (defect), C80_identity_violated and C80_witness_violated are consequences."
  },
  {
   "property": "C81",
   "status": "partial",
   "theorems": [
    "Spreg.DPanel.C81_hausman_violated",
    "Spreg.DPanel.C81_df_violated"
   ],
   "note": "C81_hausman_violated: the variance difference has the wrong sign, so the statistic is never positive; C81_df_violated: one degree of freedom too many (defects)."
  },
  {
   "property": "C82",
   "status": "partial",
   "theorems": [
    "Spreg.DPanel.C82_joint",
    "Spreg.DPanel.C82_joint_p",
    "Spreg.DPanel.C82_G_range",
    "Spreg.DPanel.C82_LM2_alone_violated",
    "Spreg.DPanel.C82_rows_partial",
    "Spreg.DPanel.C82_one_period_violated",
    "Spreg.DPanel.C82_marginals"
   ],
   "note": "Joint statistic and selections: proved (C82_rows_partial); C82_LM2_alone_violated and C82_one_period_violated: LM2 alone and T = 1 raise (defects). The conditional statistics themselves are parameters."
  },
  {
   "property": "C83",
   "status": "proved",
   "theorems": [
    "Spreg.Score.C83_lm_error",
    "Spreg.Score.C83_lm_lag",
    "Spreg.Score.C83_lm_sarma",
    "Spreg.Score.C83_lm_wx",
    "Spreg.Score.C83_lm_slxerr",
    "Spreg.Score.C83_lm_spdurbin"
   ],
   "note": "Full. Specification in Verif/Spec/Score.lean: the log-likelihood, its derivatives along parameter directions and the expectation over any finite distribution of uncorrelated errors. LM-SARMA additionally assumes that the lag of the fitted values is not a combination of the regressors (otherwise the statistic divides by zero)."
  },
  {
   "property": "C84",
   "status": "partial",
   "theorems": [
    "Spreg.GM.C84_foc_partial",
    "Spreg.GM.C84_clip_violated",
    "Spreg.GM.C84_example"
   ],
   "note": "C84_foc_partial: holds when no coefficient is clipped; C84_clip_violated: the last coefficient is clipped to +-0.9, then the first-order conditions fail (defect)."
  },
  {
   "property": "C85",
   "status": "proved",
   "theorems": [
    "Spreg.GM.C85_het",
    "Spreg.GM.C85_het_weight",
    "Spreg.GM.C85_het_endog"
   ],
   "note": "Full over the reals."
  },
  {
   "property": "C86",
   "status": "partial",
   "theorems": [
    "Spreg.GM.C86_hom_endog_partial",
    "Spreg.GM.C86_hom_partial",
    "Spreg.GM.C86_hom_violated",
    "Spreg.GM.C86_unknown_A1",
    "Spreg.GM.C86_hom_weight_violated"
   ],
   "note": "C86_hom_endog_partial and C86_hom_partial: hold for A1='het', or when the filtered residuals sum to zero (and, without endogenous variables, the lagged regressors are orthogonal to the diagonal of A1). C86_hom_violated: a design whose reported variance matrix has a correlation above 1, because get_omega_hom_ols uses the regressors instead of the filtered ones; C86_hom_weight_violated: an indefinite weighting matrix (defects)."
  },
  {
   "property": "C87",
   "status": "proved",
   "theorems": [
    "Spreg.Probit.C87_likelihood",
    "Spreg.Probit.C87_gradient",
    "Spreg.Probit.C87_hessian",
    "Spreg.Probit.C87_hessian_symm"
   ],
   "note": "Full over the reals; the normal distribution function is the Gaussian measure of (-inf, z]."
  },
  {
   "property": "C88",
   "status": "proved",
   "theorems": [
    "Spreg.Probit.C88_negdef",
    "Spreg.Probit.C88_stationary_iff_max",
    "Spreg.Probit.C88_unique",
    "Spreg.Probit.C88_variance"
   ],
   "note": "Full over the reals."
  },
  {
   "property": "C89",
   "status": "partial",
   "theorems": [
    "Spreg.Probit.C89_newton_partial",
    "Spreg.Probit.C89_start",
    "Spreg.Probit.C89_total",
    "Spreg.Probit.C89_fixed_point",
    "Spreg.Probit.C89_warning_violated",
    "Spreg.Probit.C89_unknown_optimiser"
   ],
   "note": "C89_newton_partial: at most maxiter Newton steps, and no warning implies a small last step; C89_total: never raises on full-rank designs; C89_warning_violated: convergence in the last allowed step is reported as not converged (defect)."
  },
  {
   "property": "C90",
   "status": "proved",
   "theorems": [
    "Spreg.Probit.C90_generalised",
    "Spreg.Probit.C90_predictions",
    "Spreg.Probit.C90_recode"
   ],
   "note": "Full over the reals."
  },
  {
   "property": "C91",
   "status": "partial",
   "theorems": [
    "Spreg.Probit.C91_table",
    "Spreg.Probit.C91_fit",
    "Spreg.Probit.C91_coding_violated"
   ],
   "note": "Full for 0/1 outcomes; C91_coding_violated: Probit accepts other codings, for which the table does not add up (defect)."
  },
  {
   "property": "C92",
   "status": "partial",
   "theorems": [
    "Spreg.Probit.C92_lr",
    "Spreg.Probit.C92_df_violated"
   ],
   "note": "C92_lr: full for the statistic; C92_df_violated: the degrees of freedom count the constant (defect)."
  },
  {
   "property": "C93",
   "status": "partial",
   "theorems": [
    "Spreg.Probit.C93_variance",
    "Spreg.Probit.C93_scales",
    "Spreg.Probit.C93_delta_partial",
    "Spreg.Probit.C93_phimean_violated"
   ],
   "note": "C93_variance: full; C93_delta_partial: delta method for scalem='xmean'; C93_phimean_violated: the default scalem='phimean' uses the derivative of the other scale (defect)."
  },
  {
   "property": "C94",
   "status": "proved",
   "theorems": [
    "Spreg.Probit.C94_signs",
    "Spreg.Probit.C94_units",
    "Spreg.Probit.C94_agree"
   ],
   "note": "Full over the reals."
  },
  {
   "property": "C95",
   "status": "partial",
   "theorems": [
    "Spreg.PanelML.C95_lagFE",
    "Spreg.PanelML.C95_errFE",
    "Spreg.PanelML.C95_deprecated_violated"
   ],
   "note": "C95_lagFE and C95_errFE: full (normal density of the whole panel, Verif/Spec/Gauss.lean); C95_deprecated_violated: the deprecated Panel_FE_* classes are off by NT/2 log(NT) (defect)."
  },
  {
   "property": "C96",
   "status": "partial",
   "theorems": [
    "Spreg.PanelML.C96_lagRE",
    "Spreg.PanelML.C96_deprecated_violated"
   ],
   "note": "C96_lagRE: full; C96_deprecated_violated: Panel_RE_Lag leaves out N log(phi) (defect)."
  },
  {
   "property": "C97",
   "status": "partial",
   "theorems": [
    "Spreg.PanelML.C97_errRE_partial",
    "Spreg.PanelML.C97_rowstandardised_violated"
   ],
   "note": "C97_errRE_partial: symmetric weights; C97_rowstandardised_violated: for row-standardised weights the eigenvectors are not orthogonal and the reported logll exceeds the maximum of the likelihood (defect)."
  },
  {
   "property": "C98",
   "status": "proved",
   "theorems": [
    "Spreg.PanelML.C98_passes",
    "Spreg.PanelML.C98_ascent"
   ],
   "note": "Full; optimisers are parameters, C98_ascent assumes that they find minima (optimisers_exist shows such optimisers exist)."
  },
  {
   "property": "C99",
   "status": "partial",
   "theorems": [
    "Spreg.PanelML.C99_errFE",
    "Spreg.PanelML.C99_lagFE_violated"
   ],
   "note": "C99_errFE: full for ML_ErrorFE; C99_lagFE_violated: ML_LagFE leaves out rho times the mean of Wy (defect)."
  },
  {
   "property": "C100",
   "status": "proved",
   "theorems": [
    "Spreg.PanelML.C100_lagFE",
    "Spreg.PanelML.C100_errFE"
   ],
   "note": "Full over the reals."
  },
  {
   "property": "C101",
   "status": "partial",
   "theorems": [
    "Spreg.PanelML.C101_symm_iff_partial",
    "Spreg.PanelML.C101_lagRE_violated"
   ],
   "note": "C101_symm_iff_partial: symmetric exactly when tr(W(I-rho W)^-1) = 0 or sig2 = 1; C101_lagRE_violated: a case where it is not (defect)."
  },
  {
   "property": "C102",
   "status": "partial",
   "theorems": [
    "Spreg.PanelML.C102_errRE_violated"
   ],
   "note": "C102_errRE_violated: at lambda = 0 the information matrix is singular for every zero-diagonal W, because the square of a trace is used for the trace of a square (defect)."
  },
  {
   "property": "C103",
   "status": "partial",
   "theorems": [
    "Spreg.PanelGLS.C103_xtxi_violated",
    "Spreg.PanelGLS.C103_lsdv_partial",
    "Spreg.PanelGLS.C103_residuals",
    "Spreg.PanelGLS.C103_df_violated"
   ],
   "note": "C103_lsdv_partial, C103_residuals: coefficients, fixed effects, residuals, success; C103_df_violated: sig2 divides by NT-N and ignores the regressors, so all variances are too small (defect). C103_xtxi_violated: xtxi is the inverse of x'x before demeaning, so vm is sig2*xtxi only when all unit means of the regressors are zero (defect)."
  },
  {
   "property": "C104",
   "status": "proved",
   "theorems": [
    "Spreg.PanelGLS.C104_predy",
    "Spreg.PanelGLS.C104_theta",
    "Spreg.PanelGLS.C104_gls",
    "Spreg.PanelGLS.C104_pooled",
    "Spreg.PanelGLS.C104_components"
   ],
   "note": "Full over the reals; the pseudo-inverse used for the between regression is a parameter."
  },
  {
   "property": "C105",
   "status": "partial",
   "theorems": [
    "Spreg.PanelGLS.C105_nonneg_partial",
    "Spreg.PanelGLS.C105_negative_violated",
    "Spreg.PanelGLS.C105_statistic"
   ],
   "note": "C105_nonneg_partial: non-negative when sig2 <= sigma2_epsilon; C105_negative_violated: a panel with statistic -60/11, because the two covariance matrices use different variance estimates (defect)."
  },
  {
   "property": "C106",
   "status": "proved",
   "theorems": [
    "Spreg.PanelGLS.C106_moments",
    "Spreg.PanelGLS.C106_expectation"
   ],
   "note": "Full: identity of the moments and their expectations."
  },
  {
   "property": "C107",
   "status": "proved",
   "theorems": [
    "Spreg.PanelGLS.C107_gls"
   ],
   "note": "Full over the reals for positive variance estimates."
  },
  {
   "property": "C108",
   "status": "partial",
   "theorems": [
    "Spreg.PanelGLS.C108_structure_partial",
    "Spreg.PanelGLS.C108_tau_violated",
    "Spreg.PanelGLS.C108_full_weights_violated",
    "Spreg.PanelGLS.C108_identity_partial"
   ],
   "note": "C108_structure_partial: the Kronecker structure and variances are right; C108_tau_violated: _get_Tau divides one entry by N twice and another lacks a factor 2, for all weights; C108_full_weights_violated: weights for which the estimator always raises (defect); C108_identity_partial: full_weights=False runs."
  },
  {
   "property": "C109",
   "status": "proved",
   "theorems": [
    "Spreg.NSLX.C109_fit",
    "Spreg.NSLX.C109_least_squares"
   ],
   "note": "Full over the reals for non-negative stored weights; the optimiser is external and enters as a hypothesis (global minimiser of its criterion)."
  },
  {
   "property": "C110",
   "status": "partial",
   "theorems": [
    "Spreg.NSLX.C110_power_partial",
    "Spreg.NSLX.C110_exponential_violated",
    "Spreg.NSLX.C110_exponential_one_neighbour_violated",
    "Spreg.NSLX.C110_power_nan_violated",
    "Spreg.NSLX.C110_power_never_violated"
   ],
   "note": "C110_power_partial: right for the power kernel with positive stored weights; C110_exponential_violated: the exponential gradient carries a spurious factor log(alpha d); C110_exponential_one_neighbour_violated: zero gradient with k=1; C110_power_nan_violated and C110_power_never_violated: with make_wnslx weights the power gradient always contains NaN (defects)."
  },
  {
   "property": "C111",
   "status": "partial",
   "theorems": [
    "Spreg.NSLX.C111_vm_partial",
    "Spreg.NSLX.C111_understated_violated"
   ],
   "note": "C111_vm_partial: equality iff the cross products X'G vanish, and reported variances are never larger; C111_understated_violated: strictly smaller otherwise (defect: block-diagonal variance)."
  },
  {
   "property": "C112",
   "status": "partial",
   "theorems": [
    "Spreg.NSLX.C112_names_partial",
    "Spreg.NSLX.C112_single_violated"
   ],
   "note": "C112_names_partial: right whenever one parameter set is given or at least two remain; C112_single_violated: with one selected regressor out of several, the lag has the name of the regressor itself (defect)."
  },
  {
   "property": "C113",
   "status": "partial",
   "theorems": [
    "Spreg.NSLX.C113_values",
    "Spreg.NSLX.C113_farthest_violated",
    "Spreg.NSLX.C113_scale",
    "Spreg.NSLX.C113_shape_partial",
    "Spreg.NSLX.C113_shape_violated",
    "Spreg.NSLX.C113_bandwidth"
   ],
   "note": "C113_values, C113_scale full for no bandwidth; C113_shape_partial: usable iff the last unit is a neighbour of some unit; C113_shape_violated: a concrete configuration for which NSLX raises (defect); C113_farthest_violated: weight 0 stored for the farthest neighbour. The bandwidth branch is modelled; values theorem is for no bandwidth."
  },
  {
   "property": "C114",
   "status": "proved",
   "theorems": [
    "Spreg.SUR.C114_moments"
   ],
   "note": "Full identity."
  },
  {
   "property": "C115",
   "status": "proved",
   "theorems": [
    "Spreg.SUR.C115_gls",
    "Spreg.SUR.C115_no_dependence"
   ],
   "note": "Full over the reals; optim_moments is a parameter."
  },
  {
   "property": "C116",
   "status": "proved",
   "theorems": [
    "Spreg.SUR.C116_likelihood",
    "Spreg.SUR.C116_coefficients"
   ],
   "note": "Full over the reals; the loop is a relation over all its runs, the optimisers are parameters. Coefficients, sig and varb belong to the lambdas of the previous pass, as stated."
  },
  {
   "property": "C117",
   "status": "proved",
   "theorems": [
    "Spreg.SUR.C117_ascent"
   ],
   "note": "Full under the stated assumption on the optimiser."
  },
  {
   "property": "C118",
   "status": "proved",
   "theorems": [
    "Spreg.SUR.C118_terminates",
    "Spreg.SUR.C118_deterministic"
   ],
   "note": "Full: termination and uniqueness of the outcome."
  },
  {
   "property": "C119",
   "status": "proved",
   "theorems": [
    "Spreg.SUR.C119_tests"
   ],
   "note": "Full; non-negativity assumes surerrllik is a maximum."
  },
  {
   "property": "C120",
   "status": "proved",
   "theorems": [
    "Spreg.SUR.C120_units"
   ],
   "note": "Full over the reals, different constants per equation."
  },
  {
   "property": "C121",
   "status": "partial",
   "theorems": [
    "Spreg.SUR.C121_units_partial",
    "Spreg.SUR.C121_units_violated"
   ],
   "note": "C121_units_partial: equivariance when the starting criterion exceeds epsilon in the new units; C121_units_violated: for every data set there is a unit in which SURerrorML raises UnboundLocalError (defect: fun0 starts at 0)."
  },
  {
   "property": "C122",
   "status": "proved",
   "theorems": [
    "Spreg.ML.C122_lag",
    "Spreg.ML.C122_err",
    "Spreg.ML.C122_err_vm"
   ],
   "note": "Full, for the information matrix as a quadratic form in every direction. wpredy is the exact lag of the reduced form mean (the code's power expansion is C34)."
  },
  {
   "property": "C123",
   "status": "proved",
   "theorems": [
    "Spreg.SUR.C123_information",
    "Spreg.SUR.C123_vm"
   ],
   "note": "Full."
  },
  {
   "property": "C124",
   "status": "partial",
   "theorems": [
    "Spreg.Chow.C124_chow",
    "Spreg.Chow.C124_extra",
    "Spreg.Chow.C124_blocks",
    "Spreg.Chow.C124_exists",
    "Spreg.Chow.C124_sur_partial",
    "Spreg.Chow.C124_threesls_violated"
   ],
   "note": "C124_chow/extra/blocks/exists: every layout with matching kryd; C124_sur_partial: SUR classes without endogenous variables; C124_threesls_violated: ThreeSLS and SURlagIV(regime_lag_sep=True) pass kryd=0 and compare the wrong coefficients."
  },
  {
   "property": "C125",
   "status": "partial",
   "theorems": [
    "Spreg.Chow.C125_surchow",
    "Spreg.Chow.C125_joinrho_partial",
    "Spreg.Chow.C125_joinrho_violated",
    "Spreg.Chow.C125_lambda",
    "Spreg.Chow.C125_lambda_vm"
   ],
   "note": "C125_surchow, C125_lambda full; C125_joinrho_partial: one spatial lag per equation; C125_joinrho_violated: with regime_lag_sep only the last regime's coefficient is tested."
  },
  {
   "property": "C126",
   "status": "partial",
   "theorems": [
    "Spreg.NameY.C126_names_x_partial",
    "Spreg.NameY.C126_names_y_violated"
   ],
   "note": "C126_names_x_partial holds; C126_names_y_violated: name_y becomes a list of single characters."
  },
  {
   "property": "C127",
   "status": "proved",
   "theorems": [
    "Spreg.PanelML.C127_lagFE",
    "Spreg.PanelML.C127_errFE"
   ],
   "note": "Full, as least information over the directions of the individual effects."
  },
  {
   "property": "C128",
   "status": "partial",
   "theorems": [
    "Spreg.PanelML.C128_lagRE_partial",
    "Spreg.PanelML.C128_lagRE_violated"
   ],
   "note": "C128_lagRE_partial: right for fixed phi; C128_lagRE_violated: the whole matrix is the Fisher information iff phi = 1, sig2 = 1 and tr W(I-rho W)^-1 = 0."
  },
  {
   "property": "C129",
   "status": "partial",
   "theorems": [
    "Spreg.PanelML.C129_errRE_partial",
    "Spreg.PanelML.C129_errRE_violated",
    "Spreg.PanelML.C129_ratio_violated"
   ],
   "note": "C129_errRE_partial: for the right variance ratio the off-diagonal terms are right; C129_errRE_violated: with two or more units the information on both variances is always overstated (squares of traces for traces of squares); C129_ratio_violated: sqrt(phi) is used for the ratio phi."
  },
  {
   "property": "C130",
   "status": "partial",
   "theorems": [
    "Spreg.Output.C130_table",
    "Spreg.Output.C130_mismatch",
    "Spreg.Output.C130_single",
    "Spreg.Output.C130_multi",
    "Spreg.Output.C130_tsls_partial",
    "Spreg.Output.C130_tsls_violated"
   ],
   "note": "C130_table, C130_single, C130_multi, C130_mismatch full; C130_tsls_partial/violated: TSLS_Regimes with regime_err_sep sorts with an unstable sort, which may pair names and coefficients wrongly."
  },
  {
   "property": "C131",
   "status": "partial",
   "theorems": [
    "Spreg.Output.C131_ols",
    "Spreg.Output.C131_tsls_partial",
    "Spreg.Output.C131_ml_error_violated",
    "Spreg.Output.C131_ml_error_lost_violated",
    "Spreg.Output.C131_lambda",
    "Spreg.Output.C131_lambda_violated"
   ],
   "note": "C131_ols, C131_lambda full for their classes; C131_tsls_partial: endogenous variables; C131_ml_error_violated, C131_ml_error_lost_violated, C131_lambda_violated: defects of ML_Error_Regimes and GM_Error_Regimes tables."
  },
  {
   "property": "C132",
   "status": "partial",
   "theorems": [
    "Spreg.Output.C132_gm_partial",
    "Spreg.Output.C132_ml",
    "Spreg.Output.C132_list_violated"
   ],
   "note": "C132_ml full; C132_gm_partial without spatial lags of x; C132_list_violated: with them GM_Lag_Regimes raises for every list."
  },
  {
   "property": "C133",
   "status": "partial",
   "theorems": [
    "Spreg.Output.C133_ml",
    "Spreg.Output.C133_gm_partial",
    "Spreg.Output.C133_gm_all_partial",
    "Spreg.Output.C133_gm_one_violated"
   ],
   "note": "C133_ml full; C133_gm_partial: exact condition for GM_Lag_Regimes; C133_gm_one_violated: constant_regi='one' with all variables lagged is always labelled wrongly."
  },
  {
   "property": "C134",
   "status": "partial",
   "theorems": [
    "Spreg.Output.C134_totals_partial",
    "Spreg.Output.C134_mask_violated",
    "Spreg.Output.C134_fixed_violated"
   ],
   "note": "C134_totals_partial: all regressors vary and are lagged; C134_mask_violated, C134_fixed_violated: slx_vars masks and fixed regressors use coefficients of other variables."
  },
  {
   "property": "C135",
   "status": "proved",
   "theorems": [
    "Spreg.Multi.C135_assembly",
    "Spreg.Multi.C135_chow",
    "Spreg.Multi.C135_chow_example"
   ],
   "note": "Full: assembly for all classes that assemble; results per regime are parameters (covered by the properties of the single models)."
  },
  {
   "property": "C136",
   "status": "partial",
   "theorems": [
    "Spreg.Multi.C136_ols_tsls",
    "Spreg.Multi.C136_violated"
   ],
   "note": "C136_ols_tsls full for OLS_Regimes and TSLS_Regimes; C136_violated: all other classes raise ValueError exactly when a variable is constant in some regime."
  },
  {
   "property": "C137",
   "status": "partial",
   "theorems": [
    "Spreg.Calls.C137_regimes_partial",
    "Spreg.Calls.C137_slx_vars_violated",
    "Spreg.Calls.C137_ignored_violated",
    "Spreg.Calls.C137_same_partial",
    "Spreg.Calls.C137_defaults_violated"
   ],
   "note": "C137_regimes_partial, C137_same_partial: all arguments except slx_vars, all defaults except two; C137_slx_vars_violated, C137_ignored_violated, C137_defaults_violated: defects."
  },
  {
   "property": "C138",
   "status": "partial",
   "theorems": [
    "Spreg.Calls.C138_violated",
    "Spreg.Calls.C138_regimes_partial",
    "Spreg.Calls.C138_gmm_partial"
   ],
   "note": "C138_regimes_partial, C138_gmm_partial hold; C138_violated: five classes and OLS_Regimes silently ignore unknown arguments."
  },
  {
   "property": "C139",
   "status": "partial",
   "theorems": [
    "Spreg.Calls.C139_class",
    "Spreg.Calls.C139_regimes",
    "Spreg.Calls.C139_unknown_violated",
    "Spreg.Calls.C139_slx_vars_violated"
   ],
   "note": "C139_class, C139_regimes hold for the three estimators; C139_unknown_violated: any other estimator gives GM_Error_Het without endogenous variables; C139_slx_vars_violated: TypeError with endogenous variables and regimes."
  },
  {
   "property": "C140",
   "status": "proved",
   "theorems": [
    "Spreg.GM.C140_two_stage",
    "Spreg.GM.C140_lag"
   ],
   "note": "Full over the reals."
  },
  {
   "property": "C141",
   "status": "proved",
   "theorems": [
    "Spreg.GM.C141_error_het",
    "Spreg.GM.C141_error_hom",
    "Spreg.GM.C141_endog_hom",
    "Spreg.GM.C141_endog_error",
    "Spreg.GM.C141_error",
    "Spreg.GM.C141_endog_het",
    "Spreg.GM.C141_combo"
   ],
   "note": "Full over the reals; the optimiser is a parameter that must not depend on the units (C142 shows it for two moment equations; without a change of units every optimiser qualifies). GM_Combo_Het: the clipped last coefficient must be the lag. step1c=False for the endogenous Het model."
  },
  {
   "property": "C142",
   "status": "proved",
   "theorems": [
    "Spreg.GM.C142_unit_free",
    "Spreg.GM.C142_models",
    "Spreg.GM.C142_weighting",
    "Spreg.GM.C142_defined",
    "Spreg.GM.C142_kp98"
   ],
   "note": "Full over the reals; L-BFGS-B is an arbitrary function of the rescaled moments."
  },
  {
   "property": "C143",
   "status": "proved",
   "theorems": [
    "Spreg.GM.C143_endog_error"
   ],
   "note": "Full over the reals."
  },
  {
   "property": "C144",
   "status": "partial",
   "theorems": [
    "Spreg.GM.C144_order_iff",
    "Spreg.GM.C144_error_partial",
    "Spreg.GM.C144_endog_partial",
    "Spreg.GM.C144_het_partial",
    "Spreg.GM.C144_hom_partial",
    "Spreg.GM.C144_hom_endog_partial",
    "Spreg.GM.C144_shift",
    "Spreg.GM.C144_violated",
    "Spreg.GM.C144_example"
   ],
   "note": "Proved without links between regimes (or without varying variables); refuted with them: the code filters before it frames."
  },
  {
   "property": "C145",
   "status": "partial",
   "theorems": [
    "Spreg.GM.C145_hom_violated",
    "Spreg.GM.C145_hom_endog_violated",
    "Spreg.GM.C145_het_endog_violated",
    "Spreg.GM.C145_het_partial",
    "Spreg.GM.C145_example"
   ],
   "note": "Proved for GM_Error_Het_Regimes; refuted for the other iterated models, whose filter stays at the lambda of the first step."
  },
  {
   "property": "C146",
   "status": "partial",
   "theorems": [
    "Spreg.WReg.C146_links",
    "Spreg.WReg.C146_one_regime",
    "Spreg.WReg.C146_regime",
    "Spreg.WReg.C146_regimes",
    "Spreg.WReg.C146_lag",
    "Spreg.WReg.C146_binary_partial",
    "Spreg.WReg.C146_rows_violated",
    "Spreg.WReg.C146_noLinks",
    "Spreg.WReg.C146_violated"
   ],
   "note": "Links, islands, sizes, order and lags: full (C146_links, C146_regime, C146_regimes, C146_lag, C146_noLinks). Weights: right for binary weights (C146_binary_partial); C146_rows_violated, C146_violated: libpysal's w_subset and w_union are binary, so inverse-distance and other general weights are replaced by equal weights without notice (defect)."
  },
  {
   "property": "C147",
   "status": "proved",
   "theorems": [
    "Spreg.LagReg.C147_separate",
    "Spreg.LagReg.C147_weights",
    "Spreg.LagReg.C147_example"
   ],
   "note": "C147_separate: full, for weights without links between regimes; C147_weights: the weights of w_regimes_union are of this kind."
  },
  {
   "property": "C148",
   "status": "partial",
   "theorems": [
    "Spreg.KKPOld.C148_equal",
    "Spreg.KKPOld.C148_n_violated",
    "Spreg.KKPOld.C148_wide",
    "Spreg.KKPOld.C148_long",
    "Spreg.KKPOld.C148_regimes",
    "Spreg.KKPOld.C148_names"
   ],
   "note": "Estimates, wide and long data, regimes: full. C148_n_violated: GM_KKP reports the number of units as n (defect)."
  },
  {
   "property": "C149",
   "status": "partial",
   "theorems": [
    "Spreg.ML.C149_jacobian",
    "Spreg.ML.C149_lag_objective",
    "Spreg.ML.C149_lag_fit",
    "Spreg.ML.C149_lag_vm",
    "Spreg.ML.C149_error_fit",
    "Spreg.ML.C149_error_vm",
    "Spreg.ML.C149_error_objective",
    "Spreg.ML.C149_units_violated",
    "Spreg.ML.C149_lag_all"
   ],
   "note": "Objective, estimates, covariance matrices: full, at the value found by the optimiser. C149_units_violated: the power expansion behind predy_e stops on an absolute bound, so that ML_Lag runs in one unit and raises in a smaller one (defect)."
  },
  {
   "property": "C150",
   "status": "proved",
   "theorems": [
    "Spreg.LM.C150_error_tests",
    "Spreg.LM.C150_lag_tests",
    "Spreg.LM.C150_lmWX",
    "Spreg.LM.C150_durbin",
    "Spreg.LM.C150_ak",
    "Spreg.LM.C150_units_origin"
   ],
   "note": "Full: error tests and Moran C150_error_tests, lag tests C150_lag_tests, WX and Durbin C150_lmWX, C150_durbin, Anselin-Kelejian C150_ak; the plain English form (units, origin) is C150_units_origin."
  },
  {
   "property": "C151",
   "status": "partial",
   "theorems": [
    "Spreg.PanelML.C151_lagFE_objective",
    "Spreg.PanelML.C151_errRE_objective",
    "Spreg.PanelML.C151_FE",
    "Spreg.PanelML.C151_lagRE",
    "Spreg.PanelML.C151_errRE_partial",
    "Spreg.PanelML.C151_weights_violated",
    "Spreg.PanelML.C151_logll_violated"
   ],
   "note": "Objectives, fixed effects and random effects lag: full. RE error: for weights that symmetrising leaves alone (C151_errRE_partial). C151_weights_violated: for other weights Panel_RE_Error mixes given and symmetrised weights in its last step (defect). C151_logll_violated: logll, AIC and Schwarz of the deprecated classes are off (defect)."
  },
  {
   "property": "C152",
   "status": "partial",
   "theorems": [
    "Spreg.Tables.C152_mlLag",
    "Spreg.Tables.C152_gmLag",
    "Spreg.Tables.C152_gmCombo",
    "Spreg.Tables.C152_plain",
    "Spreg.Tables.C152_slx_partial",
    "Spreg.Tables.C152_slx_names",
    "Spreg.Tables.C152_violated",
    "Spreg.Tables.C152_hom_violated",
    "Spreg.Tables.C152_panel",
    "Spreg.Tables.C152_fe_violated"
   ],
   "note": "Full for ML_Lag, GM_Lag, the three GM_Combo classes and the panel classes but ML_ErrorFE; for the other classes without lagged regressors (C152_plain); with lagged regressors names and coefficients are right (C152_slx_partial, C152_slx_names). Defects: the lagged regressors are typed x (C152_violated), the Hom classes type the constant x (C152_hom_violated), ML_ErrorFE types the first regressor as the constant (C152_fe_violated)."
  },
  {
   "property": "C153",
   "status": "partial",
   "theorems": [
    "Spreg.Dispatch.C153_error",
    "Spreg.Dispatch.C153_endog",
    "Spreg.Dispatch.C153_mlLag",
    "Spreg.Dispatch.C153_tsls_partial",
    "Spreg.Dispatch.C153_tsls_violated",
    "Spreg.Dispatch.C153_ols_partial",
    "Spreg.Dispatch.C153_ols_violated",
    "Spreg.Dispatch.C153_gmLag_partial",
    "Spreg.Dispatch.C153_gmLag_violated",
    "Spreg.Dispatch.C153_gmLag_warning_violated",
    "Spreg.Dispatch.C153_lag_list_violated",
    "Spreg.Dispatch.C153_gmCombo_partial",
    "Spreg.Dispatch.C153_gmCombo_warning_violated",
    "Spreg.Dispatch.C153_gmCombo_violated"
   ],
   "note": "Full for GM_Error, GM_Endog_Error (plain, Het, Hom), ML_Error and ML_Lag with regimes. Partial, with the excluded cases exhibited as defects, for TSLS_Regimes and OLS_Regimes (regime_err_sep dropped silently when a coefficient is common), GM_Lag_Regimes (slx_lags with regime_lag_sep uses the untrimmed lag; flag lists with slx_lags always raise; a warning that is not true) and GM_Combo_Regimes (untrue warning with the default cols2regi, untrimmed lag with slx_lags)."
  },
  {
   "property": "C154",
   "status": "proved",
   "theorems": [
    "Spreg.OptGMM.C154_exists",
    "Spreg.OptGMM.C154_dof",
    "Spreg.OptGMM.C154_minimum",
    "Spreg.OptGMM.C154_variance",
    "Spreg.OptGMM.C154_efficient",
    "Spreg.OptGMM.C154_beats_tsls",
    "Spreg.OptGMM.C154_just_identified",
    "Spreg.OptGMM.C154_equivariant",
    "Spreg.OptGMM.C154_regimes"
   ],
   "note": "Full. sig2n_k with n = k is excluded (division by zero in NumPy)."
  },
  {
   "property": "C155",
   "status": "partial",
   "theorems": [
    "Spreg.Cache.C155_single",
    "Spreg.Cache.C155_assembled",
    "Spreg.Cache.C155_groupwise_violated",
    "Spreg.Cache.C155_sig2",
    "Spreg.Cache.C155_optimal_violated",
    "Spreg.Cache.C155_optimal_differs"
   ],
   "note": "Holds for OLS, TSLS and the classes with one equation per regime. Violated by OLS_Regimes with groupwise heteroskedasticity and by robust='ogmm': the cached sum of squares of the first step is served for the second-step residuals (proved for all data whose coefficients change), and sig2 is False with ogmm."
  },
  {
   "property": "C156",
   "status": "partial",
   "theorems": [
    "Spreg.Endog.C156_fixed",
    "Spreg.Endog.C156_trace_violated",
    "Spreg.Endog.C156_guard_violated",
    "Spreg.Endog.C156_no_cut_violated",
    "Spreg.Endog.C156_auto_partial",
    "Spreg.Endog.C156_auto_two_violated",
    "Spreg.Endog.C156_auto_one_violated",
    "Spreg.Endog.C156_auto_max_violated",
    "Spreg.Endog.C156_auto_search",
    "Spreg.Endog.C156_quorum",
    "Spreg.Endog.C156_accept",
    "Spreg.Endog.C156_ols_splits",
    "Spreg.Endog.C156_ols",
    "Spreg.Endog.C156_ols_auto_partial",
    "Spreg.Endog.C156_weights_violated",
    "Spreg.Endog.C156_lag_search_violated"
   ],
   "note": "Proved: with n_clusters given, the clusters are admissible, score and SSR are theirs, OLS coefficients and residuals are those of the regimes (connected graphs; regressions that raise inside the search are not modelled). Violated: trace=False always raises; errors of the search become UnboundLocalError; no admissible cut gives None; n_clusters=None never succeeds when only one cut is tried (e.g. 86-128 observations with the default quorum) and never reports the largest number of regimes; GM_Lag_Endog_Regimes estimates with binary weights whatever was passed, and its search drops the lag of the first regressor from the instruments."
  },
  {
   "property": "C157",
   "status": "partial",
   "theorems": [
    "Spreg.RegDurbin.C157_gm_partial",
    "Spreg.RegDurbin.C157_ml_partial",
    "Spreg.RegDurbin.C157_test",
    "Spreg.RegDurbin.C157_const_one_violated",
    "Spreg.RegDurbin.C157_mask_violated",
    "Spreg.RegDurbin.C157_ml_partly_violated",
    "Spreg.RegDurbin.C157_gm_global_violated",
    "Spreg.RegDurbin.C157_ml_global_violated"
   ],
   "note": "Proved for both classes when all variables vary and all are lagged (ML: with either constant; GM: constant by regime). Violated: GM with constant_regi='one' (ValueError from the test for all data, a lag listed as a variable in the impacts); slx_vars choosing some variables, and partly or globally constant columns: the test silently compares unrelated coefficients, the impacts count a coefficient twice. No endogenous regressors in the model."
  },
  {
   "property": "C158",
   "status": "proved",
   "theorems": [
    "Spreg.Relabel.C158_chow",
    "Spreg.Relabel.C158_design",
    "Spreg.Relabel.C158_ols",
    "Spreg.Relabel.C158_tsls"
   ],
   "note": "OLS_Regimes in one equation completely (any mask, groupwise weights, White, HAC, Chow, exceptions); TSLS_Regimes estimates (None, White) for any masks, Chow tests when all coefficients vary. Labels other than floats; regimes without residual variance excluded for the groupwise weights (nan in NumPy)."
  },
  {
   "property": "C159",
   "status": "proved",
   "theorems": [
    "Spreg.GM.C159_error",
    "Spreg.GM.C159_endog_error",
    "Spreg.GM.C159_lag",
    "Spreg.GM.C159_error_het",
    "Spreg.GM.C159_error_hom",
    "Spreg.GM.C159_endog_het",
    "Spreg.GM.C159_endog_hom",
    "Spreg.ML.C159_ml_lag",
    "Spreg.ML.C159_ml_error"
   ],
   "note": "Renaming is a permutation of the (unordered) set of regimes; the order of the columns is C24/C158. The optimiser is a parameter: unit-free by C142 (two moments); for the three-equation system with b^2 /= 1 its unit-freeness is a hypothesis (C142_kp98 shows the criterion is). ML_Lag with b = 1 only, because C149_units_violated. Robust standard errors of GM_Lag_Regimes not covered here (2SLS: C158)."
  },
  {
   "property": "C160",
   "status": "partial",
   "theorems": [
    "Spreg.RegDiag.C160_stats",
    "Spreg.RegDiag.C160_plain",
    "Spreg.RegDiag.C160_one_constant",
    "Spreg.RegDiag.C160_constants_violated",
    "Spreg.RegDiag.C160_pooled_moran",
    "Spreg.RegDiag.C160_multi_statistics",
    "Spreg.RegDiag.C160_multi_exists",
    "Spreg.RegDiag.C160_multi_violated",
    "Spreg.RegDiag.C160_multi_moran_violated"
   ],
   "note": "Statistics: those of the regression on the expanded design, in both branches. Degrees of freedom: right for OLS and for OLS_Regimes with one constant; violated (defect) with one constant per regime, where they exceed the number of lagged regressors by the number of regimes less one, and with one regression per regime, where reg.k is the number of columns of one regime: too few for the WX tests, the joint test printed with other degrees of freedom than its p-value has, Moran's I standardised with a wrong mean."
  },
  {
   "property": "C161",
   "status": "proved",
   "theorems": [
    "Spreg.Probit.C161_basis",
    "Spreg.Probit.C161_units",
    "Spreg.Probit.C161_ape",
    "Spreg.Probit.C161_statistics",
    "Spreg.Probit.C161_recode",
    "Spreg.Probit.C161_recode_optimum"
   ],
   "note": "Newton: full, exceptions included. bfgs and ncg (SciPy) are parameters: C161_basis covers them when their results correspond. Coding: with negated starting values the whole run (C161_recode); with the default OLS start the two Newton paths differ, and fits that solve the first-order conditions correspond (C161_recode_optimum)."
  },
  {
   "property": "C162",
   "status": "proved",
   "theorems": [
    "Spreg.SUR.C162_sur",
    "Spreg.SUR.C162_units",
    "Spreg.SUR.C162_gm",
    "Spreg.SUR.C162_ml",
    "Spreg.SUR.C162_three"
   ],
   "note": "Proved for the base classes. The optimisers are parameters; for SURerrorML with another order of equations, minimize is assumed not to depend on the order of the parameters (SameOpt; nothing is assumed when the order of equations is kept). The asymptotic variance of lambda (surerrvm) is not covered here."
  },
  {
   "property": "C163",
   "status": "proved",
   "theorems": [
    "Spreg.LagReg.C163_tsls",
    "Spreg.LagReg.C163_ols",
    "Spreg.LagReg.C163_lag",
    "Spreg.LagReg.C163_example"
   ],
   "note": "hac_multi (robust.py:124-162) cannot be reached: the three classes switch regime_err_sep off for HAC (C153, Model/Dispatch.lean hacClause); it is not modelled."
  },
  {
   "property": "C164",
   "status": "partial",
   "theorems": [
    "Spreg.HardBound.C164_error",
    "Spreg.HardBound.C164_endog",
    "Spreg.HardBound.C164_hom",
    "Spreg.HardBound.C164_endog_hom",
    "Spreg.HardBound.C164_het",
    "Spreg.HardBound.C164_endog_het",
    "Spreg.HardBound.C164_het_regimes",
    "Spreg.HardBound.C164_endog_het_regimes",
    "Spreg.HardBound.C164_hom_regimes",
    "Spreg.HardBound.C164_endog_hom_regimes",
    "Spreg.HardBound.C164_lag",
    "Spreg.HardBound.C164_combo_partial",
    "Spreg.HardBound.C164_combo_hom_partial",
    "Spreg.HardBound.C164_combo_het",
    "Spreg.HardBound.C164_combo_violated",
    "Spreg.HardBound.C164_lag_example",
    "Spreg.HardBound.C164_lag_regimes_violated"
   ],
   "note": "Proved for the spatial error parameter of all GMM classes (plain, Hom, Het, joint regimes) and for rho in GM_Lag and GM_Combo_Het. Violated (defects): GM_Combo and GM_Combo_Hom call sp_att without hard_bound, so rho = 2 is returned (C164_combo_violated); GM_Lag_Regimes with HAC (sp_att_reg) ignores the option and drops the warning, predictions are zero (C164_lag_regimes_violated)."
  },
  {
   "property": "C165",
   "status": "partial",
   "theorems": [
    "Spreg.DGPRandom.C165_error",
    "Spreg.DGPRandom.C165_lognormal_violated",
    "Spreg.DGPRandom.C165_x_normal",
    "Spreg.DGPRandom.C165_x_uniform_partial",
    "Spreg.DGPRandom.C165_x_violated",
    "Spreg.DGPRandom.C165_x_biv",
    "Spreg.DGP.C165_heterror",
    "Spreg.DGP.C165_heterror_moments"
   ],
   "note": "Proved for normal and Laplace errors and for normal and bivariate normal regressors. Violated: uniform regressors (the default) ignore mu (C165_x_uniform_partial gives what holds, C165_x_violated the documented call); lognormal errors have mean exp(mu + varu/2) > mu. Pseudo-random numbers are idealised as independent draws from the distributions NumPy documents."
  },
  {
   "property": "C166",
   "status": "proved",
   "theorems": [
    "Spreg.DGPRandom.C166_lag",
    "Spreg.DGPRandom.C166_err",
    "Spreg.DGPRandom.C166_ols",
    "Spreg.DGPRandom.C166_example"
   ],
   "note": "Proved for OLS, ML_Lag and ML_Error (method full; the optimiser's value of the parameter is arbitrary). The density is with respect to Lebesgue measure, for errors made by make_error with method normal."
  },
  {
   "property": "C167",
   "status": "partial",
   "theorems": [
    "Spreg.Sampling.C167_ols",
    "Spreg.Sampling.C167_sig2n",
    "Spreg.Sampling.C167_generated",
    "Spreg.Sampling.C167_fe_partial",
    "Spreg.Sampling.C167_fe_violated",
    "Spreg.Sampling.C167_fe_example"
   ],
   "note": "Proved for OLS for every error distribution with these moments, and for data from make_error/dgp_ols. Violated: PanelFE (C167_fe_violated): expected sig2 and variances are too small by the factor (NT-N-k)/(NT-N); C167_fe_partial gives the part that holds."
  },
  {
   "property": "C168",
   "status": "proved",
   "theorems": [
    "Spreg.Sampling.C168_gm",
    "Spreg.Sampling.C168_het",
    "Spreg.Sampling.C168_hom",
    "Spreg.Sampling.C168_generated",
    "Spreg.Sampling.C168_kkp",
    "Spreg.Sampling.C168_example"
   ],
   "note": "Full for the equations in the disturbances themselves; the classes evaluate them at residuals (consistency as n grows is not stated)."
  },
  {
   "property": "C169",
   "status": "proved",
   "theorems": [
    "Spreg.Sampling.C169_moran",
    "Spreg.Sampling.C169_regimes",
    "Spreg.Sampling.C169_generated",
    "Spreg.Sampling.C169_example"
   ],
   "note": "Full: any rotation-invariant error distribution with residuals that are not all zero almost surely; C169_generated discharges this for normal errors. The p-value (normal distribution function) is not modelled."
  },
  {
   "property": "C170",
   "status": "partial",
   "theorems": [
    "Spreg.SURLag.C170_succeeds",
    "Spreg.SURLag.C170_model",
    "Spreg.SURLag.C170_names",
    "Spreg.SURLag.C170_pure_partial",
    "Spreg.SURLag.C170_user_names_violated",
    "Spreg.SURLag.C170_repeat_violated",
    "Spreg.SURLag.C170_gm_lag",
    "Spreg.SURLag.C170_example"
   ],
   "note": "Model, names, first stage: full (instruments given with yend, or neither, for the comparison with GM_Lag, which ignores q without yend). Violated: name_bigyend and name_bigq given by the user are replaced by end_i_r and inst_i_r (C170_user_names_violated); the constructor writes Wy and the lags into the caller's bigyend and bigq, so the same call again always raises (C170_repeat_violated); calls without them are repeatable (C170_pure_partial). Regimes are not in this model."
  },
  {
   "property": "C171",
   "status": "partial",
   "theorems": [
    "Spreg.SURLag.C171_dictZ",
    "Spreg.SURLag.C171_wide_ok",
    "Spreg.SURLag.C171_wide",
    "Spreg.SURLag.C171_long_violated",
    "Spreg.SURLag.C171_input",
    "Spreg.SURLag.C171_refused",
    "Spreg.SURLag.C171_example"
   ],
   "note": "Wide layout: full. Violated: the long layout uses dict.has_key and never succeeds (C171_long_violated), which also makes one equation given by names impossible."
  },
  {
   "property": "C172",
   "status": "partial",
   "theorems": [
    "Spreg.SURSummary.C172_rows",
    "Spreg.SURSummary.C172_once",
    "Spreg.SURSummary.C172_chow",
    "Spreg.SURSummary.C172_chow_once",
    "Spreg.SURSummary.C172_rho_violated",
    "Spreg.SURSummary.C172_split_violated",
    "Spreg.SURSummary.C172_example"
   ],
   "note": "Tables proved complete for every admissible rounding (Spec.Rounds). Violated: SURlagIV with two or more regimes and a common rho raises IndexError when the tests across equations are printed (C172_rho_violated); equations with equal numbers of coefficients but different numbers of endogenous variables do so too (C172_split_violated)."
  },
  {
   "property": "C173",
   "status": "proved",
   "theorems": [
    "Spreg.Blue.C173_ols",
    "Spreg.Blue.C173_wls",
    "Spreg.Blue.C173_gmError",
    "Spreg.Blue.C173_kkp",
    "Spreg.Blue.C173_sur",
    "Spreg.Blue.C173_example"
   ],
   "note": "Full for the five estimators named."
  },
  {
   "property": "C174",
   "status": "proved",
   "theorems": [
    "Spreg.Exact.C174_t",
    "Spreg.Exact.C174_f",
    "Spreg.Exact.C174_last",
    "Spreg.Exact.C174_size_t",
    "Spreg.Exact.C174_size_f",
    "Spreg.Exact.C174_size_last",
    "Spreg.Exact.C174_example"
   ],
   "note": "Full for the classical variance matrix. scipy's t.sf and f.sf are modelled as upper tails of the laws defined in Spec/Student."
  },
  {
   "property": "C175",
   "status": "proved",
   "theorems": [
    "Spreg.Centre.C175_gm_error",
    "Spreg.Centre.C175_gm_het",
    "Spreg.Centre.C175_gm_hom",
    "Spreg.Centre.C175_ml_error",
    "Spreg.Centre.C175_sur",
    "Spreg.Centre.C175_kkp",
    "Spreg.Centre.C175_panel_re",
    "Spreg.Centre.C175_normal",
    "Spreg.Centre.C175_example"
   ],
   "note": "Full for the seven estimators named; PanelRE under the hypothesis that a column the code drops for lack of within variation is exactly constant within units (the code drops columns with variance up to 1e-12)."
  },
  {
   "property": "C176",
   "status": "proved",
   "theorems": [
    "Spreg.RegWork.C176_error",
    "Spreg.RegWork.C176_endog",
    "Spreg.RegWork.C176_example"
   ],
   "note": "Full for runs that succeed (a variable constant in some regime makes these classes fail: C136). Endogenous Het with step1c=False, the default. The combo classes with slx_lags=0."
  },
  {
   "property": "C177",
   "status": "partial",
   "theorems": [
    "Spreg.RegWork.C177_ols_example",
    "Spreg.RegWork.C177_gmLag_example",
    "Spreg.RegWork.C177_ols",
    "Spreg.RegWork.C177_tsls",
    "Spreg.RegWork.C177_mlLag",
    "Spreg.RegWork.C177_gmLag",
    "Spreg.RegWork.C177_constant_violated",
    "Spreg.RegWork.C177_durbin_violated"
   ],
   "note": "Holds for ML_Lag_Regimes, for GM_Lag_Regimes without slx_lags, and for OLS_Regimes and TSLS_Regimes if no regressor is constant in a regime. Violated (a) by OLS_Regimes when a regressor is constant in another regime: it is dropped in all regimes (with a warning); (b) by GM_Lag_Regimes with slx_lags>0: although regime_lag_sep=True the spatial lag of y and its instruments are computed with the complete weights (the warning only mentions WX), so y in other regimes changes the coefficients."
  },
  {
   "property": "C178",
   "status": "partial",
   "theorems": [
    "Spreg.SURReg.C178_coefficients",
    "Spreg.SURReg.C178_names",
    "Spreg.SURReg.C178_user_names",
    "Spreg.SURReg.C178_chow",
    "Spreg.SURReg.C178_table",
    "Spreg.SURReg.C178_global_df_violated",
    "Spreg.SURReg.C178_history_violated",
    "Spreg.SURReg.C178_plain",
    "Spreg.SURReg.C178_example"
   ],
   "note": "Holds for names, estimates and tests. Violated (a) by the table: the degrees of freedom printed beside the joint test are those of the last equation; (b) by the data: the caller's dictionary bigX holds the expanded matrices afterwards, a second call with regimes raises and a call without regimes estimates the regimes again. np.argsort is any function that returns a permutation."
  },
  {
   "property": "C179",
   "status": "partial",
   "theorems": [
    "Spreg.OLSChow.C179_single",
    "Spreg.OLSChow.C179_joint",
    "Spreg.OLSChow.C179_computed",
    "Spreg.OLSChow.C179_size_violated",
    "Spreg.OLSChow.C179_example"
   ],
   "note": "Proved: exact Fisher law of every single statistic (C179_single) and of the joint one (C179_joint) for every design, number of regimes and error variance; tests computed almost surely. The last clause is false of the code: p-values come from the chi-squared distribution although the variance is estimated, and for two regimes the test of any variable rejects strictly more often than a at every level a in (0,1), for every design (C179_size_violated, by Jensen's inequality for the chi-squared tail)."
  },
  {
   "property": "C180",
   "status": "partial",
   "theorems": [
    "Spreg.VmPrint.C180_plain",
    "Spreg.VmPrint.C180_multi_partial",
    "Spreg.VmPrint.C180_gm_violated",
    "Spreg.VmPrint.C180_text_partial",
    "Spreg.VmPrint.C180_text_violated",
    "Spreg.VmPrint.C180_gm_example"
   ],
   "note": "Holds for every single-equation class and, with one model per regime, for the classes whose variance matrix covers all coefficients. Violated (a) by GM_Error_Regimes, GM_Endog_Error_Regimes and GM_Combo_Regimes with regime_err_sep=True: the headings include every regime's lambda, the matrix has no row for it, so every column from the second regime on stands under another coefficient's name; (b) by names of more than twelve characters: the headings shift to the right and run into each other. Rounding of the numbers is not modelled."
  },
  {
   "property": "C181",
   "status": "partial",
   "theorems": [
    "Spreg.Sputils.C181_spdot",
    "Spreg.Sputils.C181_spmultiply",
    "Spreg.Sputils.C181_sphstack",
    "Spreg.Sputils.C181_spbroadcast",
    "Spreg.Sputils.C181_inv_fill",
    "Spreg.Sputils.C181_ols",
    "Spreg.Sputils.C181_tsls",
    "Spreg.Sputils.C181_robust",
    "Spreg.Sputils.C181_splogdet_violated",
    "Spreg.Sputils.C181_splogdet_example"
   ],
   "note": "Holds for spdot, spmultiply, sphstack, spbroadcast, spinv, spfill_diagonal and through them for OLS, 2SLS and the White and HAC variances (a result never depends on the storage; unsupported storage raises). Violated by the public splogdet: the dense branch multiplies log|det| by the sign of the determinant, the sparse branch does not, so they differ for every regular matrix with negative determinant other than -1. Storage formats of SciPy products and transposes are part of the model; spmin and spmax are not modelled."
  },
  {
   "property": "C182",
   "status": "proved",
   "theorems": [
    "Spreg.Consist.C182_tsls",
    "Spreg.Consist.C182_ols_bound",
    "Spreg.Consist.C182_ols",
    "Spreg.Consist.C182_lag",
    "Spreg.Consist.C182_lag_example",
    "Spreg.Consist.C182_ols_example"
   ],
   "note": "Convergence in probability (Spec/Consistent) of the modelled estimators, failure of the inversion counted as a miss. GM_Lag without further endogenous variables and without slx_lags; the expected regressors enter the rank condition. Concrete experiments (copies of a three-region path, rho = 1/2, normal errors) meet every condition."
  },
  {
   "property": "C183",
   "status": "proved",
   "theorems": [
    "Spreg.Consist.C183_sig2",
    "Spreg.Consist.C183_vm",
    "Spreg.Consist.C183_white",
    "Spreg.Consist.C183_example",
    "Spreg.Consist.C183_vm_example"
   ],
   "note": "Convergence in probability (Spec/Consistent). Squares of the errors, centred, satisfy Spec/Errors with bounded variance. HAC and the spatial classes are not covered."
  },
  {
   "property": "C184",
   "status": "proved",
   "theorems": [
    "Spreg.Consist.C184_gmError",
    "Spreg.Consist.C184_example"
   ],
   "note": "GM_Error without regimes and without slx; the optimiser is assumed to return the global minimum over the box (SciPy's L-BFGS-B may stop elsewhere)."
  },
  {
   "property": "C185",
   "status": "partial",
   "theorems": [
    "Spreg.PanelTable.C185_ml",
    "Spreg.PanelTable.C185_kkp",
    "Spreg.PanelTable.C185_kkp_regimes",
    "Spreg.PanelTable.C185_twins_violated",
    "Spreg.PanelTable.C185_vm_violated"
   ],
   "note": "C185_ml, C185_kkp, C185_kkp_regimes (distinct names): full tables. C185_twins_violated: with regimes a variable whose name occurs twice is printed with the coefficient of the first and its own nowhere (defect); C185_vm_violated: GM_KKP with vm=True prints three headings too many (defect). Number formats are not modelled."
  },
  {
   "property": "C186",
   "status": "proved",
   "theorems": [
    "Spreg.Consist.C186_tsls",
    "Spreg.Consist.C186_white",
    "Spreg.Consist.C186_lag",
    "Spreg.Consist.C186_lag_white",
    "Spreg.Consist.C186_example",
    "Spreg.Consist.C186_white_example"
   ],
   "note": "Convergence in probability (Spec/Consistent); the error model is Spec/LagModel (variances may differ; products of errors uncorrelated with bounded variance). GM_Lag without further endogenous variables and without slx_lags; White without the small-sample factor (sig2n_k=False, the default). HAC is not covered. C186_example and C186_white_example meet every condition with a three-region path and normal errors."
  },
  {
   "property": "C187",
   "status": "proved",
   "theorems": [
    "Spreg.Consist.C187_gmErrorHet",
    "Spreg.Consist.C187_example"
   ],
   "note": "GM_Error_Het without regimes and without slx_lags; the optimiser is assumed to return the global minimum over the box (SciPy's L-BFGS-B may stop elsewhere). The error model is Spec/Pairs with any bounded variances, the limits are Spec/HetErrors. C187_example meets every condition (three-region path, normal errors with unequal variances; an optimiser that minimises exists)."
  },
  {
   "property": "C188",
   "status": "proved",
   "theorems": [
    "Spreg.Consist.C188_gmErrorHom",
    "Spreg.Consist.C188_example"
   ],
   "note": "GM_Error_Hom without regimes and without slx_lags; optimiser as in C187. The limits are Spec/HomErrors. The covariance between coefficients and lambda is claimed for A1='het' only (it is zero there): for the others get_omega_hom_ols multiplies third moments with regressors that are not filtered (error_sp_hom.py:1713), unlike get_omega_hom's own formula with instruments, so nothing is claimed of it. C188_example meets every condition (three-region path, normal errors; an optimiser that minimises exists)."
  },
  {
   "property": "C189",
   "status": "proved",
   "theorems": [
    "Spreg.Consist.C189_gmEndogError",
    "Spreg.Consist.C189_gmCombo",
    "Spreg.Consist.C189_example"
   ],
   "note": "GM_Endog_Error and the estimation of GM_Combo, without regimes and without slx_lags, GM_Combo without further endogenous variables; optimiser as in C184. The error models are Spec/EndogError and Spec/ComboModel. The predictions that GM_Combo adds after the estimation (sp_att) are not part of the claim: its power expansion raises when an increment grows, which a sample can cause. C189_example meets every condition (three-region path, rho = lambda = 1/2, normal innovations; an optimiser that minimises exists)."
  },
  {
   "property": "C190",
   "status": "partial",
   "theorems": [
    "Spreg.EndogArgs.C190_names",
    "Spreg.EndogArgs.C190_lag_partial",
    "Spreg.EndogArgs.C190_lag_constant_violated",
    "Spreg.EndogArgs.C190_lag_warning_violated",
    "Spreg.EndogArgs.C190_options",
    "Spreg.EndogArgs.C190_failure_violated",
    "Spreg.EndogArgs.C190_one_dim_violated",
    "Spreg.EndogArgs.C190_failure_partial"
   ],
   "note": "C190_names: OLS and TSLS, full. C190_options: all three classes. C190_lag_partial: GM_Lag_Endog_Regimes with two-dimensional regressors that all vary. Defects: GM_Lag_Endog_Regimes passes x instead of x_constant to the final model, so a named constant regressor always ends in IndexError (C190_lag_constant_violated) and an unnamed one is announced twice (C190_lag_warning_violated); x.shape[1] fails for one-dimensional x (C190_one_dim_violated). With n_clusters, exceptions of the search other than the one about too many columns become UnboundLocalError (C190_failure_violated); the other outcomes are as promised (C190_failure_partial). Endogenous variables, weights and further options are not part of the model."
  },
  {
   "property": "C191",
   "status": "partial",
   "theorems": [
    "Spreg.Coords.C191_points_partial",
    "Spreg.Coords.C191_rejected",
    "Spreg.Coords.C191_report_partial",
    "Spreg.Coords.C191_labels_violated",
    "Spreg.Coords.C191_unnamed_violated",
    "Spreg.Coords.C191_selection_violated",
    "Spreg.Coords.C191_mixed_violated",
    "Spreg.Coords.C191_width_violated"
   ],
   "note": "C191_points_partial, C191_rejected: arrays, data frames, GeoSeries of points with the label 0; rejections. C191_report_partial: two string names of more than twelve characters. Defects: data[0] looks up the label 0, so a selection of rows is a KeyError (C191_selection_violated); only that geometry is looked at, so polygons pass and their vertices become units (C191_mixed_violated); column labels that are not strings (C191_labels_violated) and an unnamed GeoSeries (C191_unnamed_violated) end in a TypeError after the estimation; two short names are printed as a Python list wider than the cell (C191_width_violated). A data frame with a column called name is not covered."
  }
 ]
}