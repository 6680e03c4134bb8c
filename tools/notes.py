PARTIAL=set()
NOTES={
"C01":"Full, for every column type with a lag operator, every list of columns and number of lags.",
"C02":"Full for set_name_spatial_lags and the regressor names of flex_wx, every mask and lag order; flex_wx_reject: wrong mask length raises.",
"C03":"The property is false of the code: C03_violated exhibits a mask and q_lags for which names and columns disagree; C03_flexWx_q_partial proves alignment on the domain where it holds.",
"C04":"Dense builder: full. Sparse builder: equal to the dense one for w_lags <= 2 (partial); C04_sparse_violated shows that it differs for w_lags = 3 (defect).",
"C05":"Holds without a mask and for slx_lags = 1 with a mask (partial); C05_mask_violated / C05_yend_violated are the counterexamples found in the code.",
"C06":"Full over the reals (exact arithmetic; no rounding).",
"C07":"Full over the reals.","C08":"Full over the reals.",
"C09":"Full; C09_cached_utu_differs records that the cached utu is the weighted one.",
"C10":"Full over the reals.","C11":"Full over the reals.",
"C12":"Full; C12_hac_indefinite shows that a kernel that is not PSD gives an indefinite matrix, so the hypothesis is needed.",
"C13":"Full over the reals; the numerical optimiser is not modelled, only its objective.",
"C14":"Full; C14_hom_needs_symmetry shows that the symmetry hypothesis of the homoskedastic case is needed (A1, A2 in the code are symmetric: C15).",
"C15":"Full over the reals.","C16":"Full over the reals; the optimiser is an arbitrary function.",
"C54":"Full.","C55":"Alignment proved for the plain lag model and for slx_lags = 1 without yend; counterexamples for yend and for masks.",
"C56":"Full over the reals.","C57":"Full over the reals.",
"C17":"Full over the reals.","C18":"Robust Durbin tests: full (decomposition, nonnegativity, df, existence); C18_slx_violated: on a regression that already contains the lags the call raises.","C19":"Full over the reals.","C20":"Full over the reals.",
"C21":"Full: every sequence of attribute reads.","C22":"Full: every sequence of reads and assignments.",
"C23":"Full: the CSR triple built by x2xsp has exactly the intended entries; unknown labels raise KeyError.",
"C24":"Design columns, names, types and regime tags aligned for every mask (full); C24_name_y_violated: the multi-regime name_y list is filled with characters (defect).",
"C25":"Full for non-float labels; for float labels C25_float_iff characterises exactly when the labels survive, C25_violated is the counterexample.",
"C26":"Full.","C27":"Full for wald_test; C27_wald_class_q_violated: the Wald class cannot be given a vector of constants (defect).",
"C28":"Full over the reals.","C29":"Full: every completion order, including workers that raise.",
"C58":"Full over the reals.","C59":"Full.","C60":"Full over the reals.",
"C61":"OLS: full. TSLS: proved when all exogenous variables vary or no endogenous one does; C61_violated is the counterexample otherwise (defect).",
"C62":"Full.","C63":"Full for distinct names; C63_duplicate_names_violated shows that repeated names misalign.",
"C65":"C65_same_betas full; positivity holds exactly when the regime has more observations than the expanded design has columns; C65_variance_violated: otherwise the variance is negative although the regime has positive degrees of freedom (defect).",
"C30":"Partial sums and truncation error proved for every W, rho, data and threshold; C30_large_data_violated: the stopping test compares the first term with the limit 1e7, so data on a large scale raise although the series converges (defect).",
"C31":"Row/total partition full; the power approximation equals the partial sum up to its stopping index (partial); C31_power_violated: on bipartite weights it stops early.",
"C32":"Full over the reals.",
"C33":"Reduced forms proved for every process; C33_mismatch_violated: dgp_spdurbin and dgp_gns do not return None on a mismatch (missing return).",
"C34":"Full.",
"C35":"Determinant, LU and eigenvalue Jacobians agree for row-standardised contiguity weights on the search interval (partial); LU and complex eigenvalues: every W. C35_general_weights_violated / C35_binary_violated: method ord computes another Jacobian for general weights with a symmetric pattern and for weights that are not row-standardised (defects). What libpysal does for transform and asymmetry is taken from its documentation.",
"C36":"Two of three traces agree, all three if every unit has equally many neighbours; C36_violated: otherwise the variance differs between methods.",
"C37":"Full over the reals for ML_Lag and ML_Error; the optimiser is an arbitrary function.",
"C50":"Full characterisation of check_arrays, check_y, check_weights, check_robust, check_reg_list, check_regimes; C50_hac_case_violated: robust='HAC' is treated as HAC by one check and not by the other (defect).",
"C51":"Full (with constant_check of the diagnostics): every matrix with rows and every list of names of the right length.",
"C52":"Full: every sequence of warnings.",
"C53":"Full for binary symmetric weights without islands; C53_general_weights_violated: false for general weights to which the code applies it.",
"C66":"check_endog changes nothing unless an array is one-dimensional (partial); C66_violated: a one-dimensional array is reshaped in place; C66_weights_violated: method ord leaves the caller's weights row-standardised (defects).",
"C67":"Full over the reals.","C68":"Full over the reals.",
"C38":"Full over the reals, every n, T, phi.",
"C39":"Stacking, long format, row count and too few columns: full. C39_trailing_dropped_violated and C39_double_rows_violated: a column count that is not a multiple of T, or a multiple of w.n rows, is accepted silently (defects).",
"C40":"Full: every number of equations and sizes.",
"C41":"Full over the reals.",
"C49":"C49_bound_partial: at most maxiter + 1 iterations; C49_bound_violated: maxiter + 1 is reached (defect).",
"C69":"C69_blocks_partial: right when every variable varies in all periods or in none; C69_mixed_violated: otherwise periods of different variables are mixed (defect).",
"C70":"Full over the reals.",
"C71":"Breusch-Pagan and LM error: full; LM lag: nonnegative; C71_lag_score_violated: its score is a matrix product instead of an elementwise product, so the statistic is wrong and unit dependent for two or more equations (defect).",
"C72":"Full over the reals.",
"C42":"Full over the reals.","C43":"Full over the reals.","C44":"Full over the reals.",
"C73":"Full over the reals.","C74":"Full over the reals.",
"C75":"C75_default_partial: without z the tests work; C75_z_violated: any array z with at least two entries raises (defect).",
"C76":"Full over the reals.","C77":"Full over the reals.","C78":"Full over the reals.","C79":"Full over the reals.",
"C80":"LM error and both robust tests: full; C80_LMlag_violated: the LM lag test uses trw*trw instead of t*trw (defect), C80_identity_violated and C80_witness_violated are consequences.",
"C81":"C81_hausman_violated: the variance difference has the wrong sign, so the statistic is never positive; C81_df_violated: one degree of freedom too many (defects).",
"C82":"Joint statistic and selections: proved (C82_rows_partial); C82_LM2_alone_violated and C82_one_period_violated: LM2 alone and T = 1 raise (defects). The conditional statistics themselves are parameters.",
"C45":"stge_kb: full. stge_classic and stge_pre: proved when no p-value is NaN (partial), C45_classic_nan_violated: a NaN p-value ends in UnboundLocalError; C45_pre_label_violated: stge_pre reports LAG for a model that is SDM when the AK test rejects. gets_gns and gets_sdm: exact decision table for one regressor; C45_sdm_many_violated and C45_gns_many_violated: with two or more regressors significant lags are dropped and an insignificant rho is kept (defects).",
"C64":"C64_default, C64_units full; C64_window_partial gives the range on traces longer than the windows; C64_large_window_violated, C64_window_one_violated, C64_flat_violated: outside it the answer is not a valid number of regimes, and the trend coefficient uses the wrong times (C64_slope_partial is where it agrees).",
"C46":"Full for a connected graph (C46_connected: every run; C46_no_errors: no spurious exceptions on a forest), for every score function, quorum, number of clusters and labelling of components. C46_islands_violated: with islands the first recorded score leaves out the other components; C46_islands_raise_violated: a run that raises although splitting never increases the score (defects).",
"C47":"C47_labels_partial: labels are returned exactly when the requested number of regions is reached; C47_no_cut_violated and C47_star_violated: otherwise fit returns None as labels (defect).",
"C48":"C48_het, C48_hom, C48_hom_endog, C48_het_endog: every successful estimation is a history of at least one and at most max_iter passes, each starting from the lambda of the previous one, and the object reports the last pass. C48_message_partial: the convergence message is right; C48_message_violated, C48_example: convergence in the last allowed pass is reported as 'Maximum number of iterations reached.' (always with the default max_iter=1); C48_no_pass_violated, C48_no_pass_endog_violated: max_iter=0 or epsilon>=1 ends in UnboundLocalError.",
"C83":"Full. Specification in Verif/Spec/Score.lean: the log-likelihood, its derivatives along parameter directions and the expectation over any finite distribution of uncorrelated errors. LM-SARMA additionally assumes that the lag of the fitted values is not a combination of the regressors (otherwise the statistic divides by zero).",
"C84":"C84_foc_partial: holds when no coefficient is clipped; C84_clip_violated: the last coefficient is clipped to +-0.9, then the first-order conditions fail (defect).",
"C85":"Full over the reals.",
"C86":"C86_hom_endog_partial and C86_hom_partial: hold for A1='het', or when the filtered residuals sum to zero (and, without endogenous variables, the lagged regressors are orthogonal to the diagonal of A1). C86_hom_violated: a design whose reported variance matrix has a correlation above 1, because get_omega_hom_ols uses the regressors instead of the filtered ones; C86_hom_weight_violated: an indefinite weighting matrix (defects).",
"C87":"Full over the reals; the normal distribution function is the Gaussian measure of (-inf, z].",
"C88":"Full over the reals.",
"C89":"C89_newton_partial: at most maxiter Newton steps, and no warning implies a small last step; C89_total: never raises on full-rank designs; C89_warning_violated: convergence in the last allowed step is reported as not converged (defect).",
"C90":"Full over the reals.",
"C91":"Full for 0/1 outcomes; C91_coding_violated: Probit accepts other codings, for which the table does not add up (defect).",
"C92":"C92_lr: full for the statistic; C92_df_violated: the degrees of freedom count the constant (defect).",
"C93":"C93_variance: full; C93_delta_partial: delta method for scalem='xmean'; C93_phimean_violated: the default scalem='phimean' uses the derivative of the other scale (defect).",
"C94":"Full over the reals.",
"C95":"C95_lagFE and C95_errFE: full (normal density of the whole panel, Verif/Spec/Gauss.lean); C95_deprecated_violated: the deprecated Panel_FE_* classes are off by NT/2 log(NT) (defect).",
"C96":"C96_lagRE: full; C96_deprecated_violated: Panel_RE_Lag leaves out N log(phi) (defect).",
"C97":"C97_errRE_partial: symmetric weights; C97_rowstandardised_violated: for row-standardised weights the eigenvectors are not orthogonal and the reported logll exceeds the maximum of the likelihood (defect).",
"C98":"Full; optimisers are parameters, C98_ascent assumes that they find minima (optimisers_exist shows such optimisers exist).",
"C99":"C99_errFE: full for ML_ErrorFE; C99_lagFE_violated: ML_LagFE leaves out rho times the mean of Wy (defect).",
"C100":"Full over the reals.",
"C101":"C101_symm_iff_partial: symmetric exactly when tr(W(I-rho W)^-1) = 0 or sig2 = 1; C101_lagRE_violated: a case where it is not (defect).",
"C102":"C102_errRE_violated: at lambda = 0 the information matrix is singular for every zero-diagonal W, because the square of a trace is used for the trace of a square (defect).",
"C103":"C103_lsdv_partial, C103_residuals: coefficients, fixed effects, residuals, success; C103_df_violated: sig2 divides by NT-N and ignores the regressors, so all variances are too small (defect). C103_xtxi_violated: xtxi is the inverse of x'x before demeaning, so vm is sig2*xtxi only when all unit means of the regressors are zero (defect).",
"C104":"Full over the reals; the pseudo-inverse used for the between regression is a parameter.",
"C105":"C105_nonneg_partial: non-negative when sig2 <= sigma2_epsilon; C105_negative_violated: a panel with statistic -60/11, because the two covariance matrices use different variance estimates (defect).",
"C106":"Full: identity of the moments and their expectations.",
"C107":"Full over the reals for positive variance estimates.",
"C108":"C108_structure_partial: the Kronecker structure and variances are right; C108_tau_violated: _get_Tau divides one entry by N twice and another lacks a factor 2, for all weights; C108_full_weights_violated: weights for which the estimator always raises (defect); C108_identity_partial: full_weights=False runs.",
"C109":"Full over the reals for non-negative stored weights; the optimiser is external and enters as a hypothesis (global minimiser of its criterion).",
"C110":"C110_power_partial: right for the power kernel with positive stored weights; C110_exponential_violated: the exponential gradient carries a spurious factor log(alpha d); C110_exponential_one_neighbour_violated: zero gradient with k=1; C110_power_nan_violated and C110_power_never_violated: with make_wnslx weights the power gradient always contains NaN (defects).",
"C111":"C111_vm_partial: equality iff the cross products X'G vanish, and reported variances are never larger; C111_understated_violated: strictly smaller otherwise (defect: block-diagonal variance).",
"C112":"C112_names_partial: right whenever one parameter set is given or at least two remain; C112_single_violated: with one selected regressor out of several, the lag has the name of the regressor itself (defect).",
"C113":"C113_values, C113_scale full for no bandwidth; C113_shape_partial: usable iff the last unit is a neighbour of some unit; C113_shape_violated: a concrete configuration for which NSLX raises (defect); C113_farthest_violated: weight 0 stored for the farthest neighbour. The bandwidth branch is modelled; values theorem is for no bandwidth.",
"C114":"Full identity.",
"C115":"Full over the reals; optim_moments is a parameter.",
"C116":"Full over the reals; the loop is a relation over all its runs, the optimisers are parameters. Coefficients, sig and varb belong to the lambdas of the previous pass, as stated.",
"C117":"Full under the stated assumption on the optimiser.",
"C118":"Full: termination and uniqueness of the outcome.",
"C119":"Full; non-negativity assumes surerrllik is a maximum.",
"C120":"Full over the reals, different constants per equation.",
"C121":"C121_units_partial: equivariance when the starting criterion exceeds epsilon in the new units; C121_units_violated: for every data set there is a unit in which SURerrorML raises UnboundLocalError (defect: fun0 starts at 0).",
"C122":"Full, for the information matrix as a quadratic form in every direction. wpredy is the exact lag of the reduced form mean (the code's power expansion is C34).",
"C123":"Full.",
"C124":"C124_chow/extra/blocks/exists: every layout with matching kryd; C124_sur_partial: SUR classes without endogenous variables; C124_threesls_violated: ThreeSLS and SURlagIV(regime_lag_sep=True) pass kryd=0 and compare the wrong coefficients.",
"C125":"C125_surchow, C125_lambda full; C125_joinrho_partial: one spatial lag per equation; C125_joinrho_violated: with regime_lag_sep only the last regime's coefficient is tested.",
"C126":"C126_names_x_partial holds; C126_names_y_violated: name_y becomes a list of single characters.",
"C127":"Full, as least information over the directions of the individual effects.",
"C128":"C128_lagRE_partial: right for fixed phi; C128_lagRE_violated: the whole matrix is the Fisher information iff phi = 1, sig2 = 1 and tr W(I-rho W)^-1 = 0.",
"C129":"C129_errRE_partial: for the right variance ratio the off-diagonal terms are right; C129_errRE_violated: with two or more units the information on both variances is always overstated (squares of traces for traces of squares); C129_ratio_violated: sqrt(phi) is used for the ratio phi.",
"C130":"C130_table, C130_single, C130_multi, C130_mismatch full; C130_tsls_partial/violated: TSLS_Regimes with regime_err_sep sorts with an unstable sort, which may pair names and coefficients wrongly.",
"C131":"C131_ols, C131_lambda full for their classes; C131_tsls_partial: endogenous variables; C131_ml_error_violated, C131_ml_error_lost_violated, C131_lambda_violated: defects of ML_Error_Regimes and GM_Error_Regimes tables.",
"C132":"C132_ml full; C132_gm_partial without spatial lags of x; C132_list_violated: with them GM_Lag_Regimes raises for every list.",
"C133":"C133_ml full; C133_gm_partial: exact condition for GM_Lag_Regimes; C133_gm_one_violated: constant_regi='one' with all variables lagged is always labelled wrongly.",
"C134":"C134_totals_partial: all regressors vary and are lagged; C134_mask_violated, C134_fixed_violated: slx_vars masks and fixed regressors use coefficients of other variables.",
"C135":"Full: assembly for all classes that assemble; results per regime are parameters (covered by the properties of the single models).",
"C136":"C136_ols_tsls full for OLS_Regimes and TSLS_Regimes; C136_violated: all other classes raise ValueError exactly when a variable is constant in some regime.",
"C137":"C137_regimes_partial, C137_same_partial: all arguments except slx_vars, all defaults except two; C137_slx_vars_violated, C137_ignored_violated, C137_defaults_violated: defects.",
"C138":"C138_regimes_partial, C138_gmm_partial hold; C138_violated: five classes and OLS_Regimes silently ignore unknown arguments.",
"C139":"C139_class, C139_regimes hold for the three estimators; C139_unknown_violated: any other estimator gives GM_Error_Het without endogenous variables; C139_slx_vars_violated: TypeError with endogenous variables and regimes.",
"C140":"Full over the reals.",
"C141":"Full over the reals; the optimiser is a parameter that must not depend on the units (C142 shows it for two moment equations; without a change of units every optimiser qualifies). GM_Combo_Het: the clipped last coefficient must be the lag. step1c=False for the endogenous Het model.",
"C142":"Full over the reals; L-BFGS-B is an arbitrary function of the rescaled moments.",
"C143":"Full over the reals.",
"C144":"Proved without links between regimes (or without varying variables); refuted with them: the code filters before it frames.",
"C145":"Proved for GM_Error_Het_Regimes; refuted for the other iterated models, whose filter stays at the lambda of the first step.",
"C146":"Links, islands, sizes, order and lags: full (C146_links, C146_regime, C146_regimes, C146_lag, C146_noLinks). Weights: right for binary weights (C146_binary_partial); C146_rows_violated, C146_violated: libpysal's w_subset and w_union are binary, so inverse-distance and other general weights are replaced by equal weights without notice (defect).",
"C147":"C147_separate: full, for weights without links between regimes; C147_weights: the weights of w_regimes_union are of this kind.",
"C148":"Estimates, wide and long data, regimes: full. C148_n_violated: GM_KKP reports the number of units as n (defect).",
"C149":"Objective, estimates, covariance matrices: full, at the value found by the optimiser. C149_units_violated: the power expansion behind predy_e stops on an absolute bound, so that ML_Lag runs in one unit and raises in a smaller one (defect).",
"C150":"Full: error tests and Moran C150_error_tests, lag tests C150_lag_tests, WX and Durbin C150_lmWX, C150_durbin, Anselin-Kelejian C150_ak; the plain English form (units, origin) is C150_units_origin.",
"C151":"Objectives, fixed effects and random effects lag: full. RE error: for weights that symmetrising leaves alone (C151_errRE_partial). C151_weights_violated: for other weights Panel_RE_Error mixes given and symmetrised weights in its last step (defect). C151_logll_violated: logll, AIC and Schwarz of the deprecated classes are off (defect).",
"C152":"Full for ML_Lag, GM_Lag, the three GM_Combo classes and the panel classes but ML_ErrorFE; for the other classes without lagged regressors (C152_plain); with lagged regressors names and coefficients are right (C152_slx_partial, C152_slx_names). Defects: the lagged regressors are typed x (C152_violated), the Hom classes type the constant x (C152_hom_violated), ML_ErrorFE types the first regressor as the constant (C152_fe_violated).",
"C153":"Full for GM_Error, GM_Endog_Error (plain, Het, Hom), ML_Error and ML_Lag with regimes. Partial, with the excluded cases exhibited as defects, for TSLS_Regimes and OLS_Regimes (regime_err_sep dropped silently when a coefficient is common), GM_Lag_Regimes (slx_lags with regime_lag_sep uses the untrimmed lag; flag lists with slx_lags always raise; a warning that is not true) and GM_Combo_Regimes (untrue warning with the default cols2regi, untrimmed lag with slx_lags).",
"C155":"Holds for OLS, TSLS and the classes with one equation per regime. Violated by OLS_Regimes with groupwise heteroskedasticity and by robust='ogmm': the cached sum of squares of the first step is served for the second-step residuals (proved for all data whose coefficients change), and sig2 is False with ogmm.",
"C154":"Full. sig2n_k with n = k is excluded (division by zero in NumPy).",
"C156":"Proved: with n_clusters given, the clusters are admissible, score and SSR are theirs, OLS coefficients and residuals are those of the regimes (connected graphs; regressions that raise inside the search are not modelled). Violated: trace=False always raises; errors of the search become UnboundLocalError; no admissible cut gives None; n_clusters=None never succeeds when only one cut is tried (e.g. 86-128 observations with the default quorum) and never reports the largest number of regimes; GM_Lag_Endog_Regimes estimates with binary weights whatever was passed, and its search drops the lag of the first regressor from the instruments.",
"C157":"Proved for both classes when all variables vary and all are lagged (ML: with either constant; GM: constant by regime). Violated: GM with constant_regi='one' (ValueError from the test for all data, a lag listed as a variable in the impacts); slx_vars choosing some variables, and partly or globally constant columns: the test silently compares unrelated coefficients, the impacts count a coefficient twice. No endogenous regressors in the model.",
"C158":"OLS_Regimes in one equation completely (any mask, groupwise weights, White, HAC, Chow, exceptions); TSLS_Regimes estimates (None, White) for any masks, Chow tests when all coefficients vary. Labels other than floats; regimes without residual variance excluded for the groupwise weights (nan in NumPy).",
"C159":"Renaming is a permutation of the (unordered) set of regimes; the order of the columns is C24/C158. The optimiser is a parameter: unit-free by C142 (two moments); for the three-equation system with b^2 /= 1 its unit-freeness is a hypothesis (C142_kp98 shows the criterion is). ML_Lag with b = 1 only, because C149_units_violated. Robust standard errors of GM_Lag_Regimes not covered here (2SLS: C158).",
"C160":"Statistics: those of the regression on the expanded design, in both branches. Degrees of freedom: right for OLS and for OLS_Regimes with one constant; violated (defect) with one constant per regime, where they exceed the number of lagged regressors by the number of regimes less one, and with one regression per regime, where reg.k is the number of columns of one regime: too few for the WX tests, the joint test printed with other degrees of freedom than its p-value has, Moran's I standardised with a wrong mean.",
"C161":"Newton: full, exceptions included. bfgs and ncg (SciPy) are parameters: C161_basis covers them when their results correspond. Coding: with negated starting values the whole run (C161_recode); with the default OLS start the two Newton paths differ, and fits that solve the first-order conditions correspond (C161_recode_optimum).",
"C162":"Proved for the base classes. The optimisers are parameters; for SURerrorML with another order of equations, minimize is assumed not to depend on the order of the parameters (SameOpt; nothing is assumed when the order of equations is kept). The asymptotic variance of lambda (surerrvm) is not covered here.",
"C163":"hac_multi (robust.py:124-162) cannot be reached: the three classes switch regime_err_sep off for HAC (C153, Model/Dispatch.lean hacClause); it is not modelled.",
"C164":"Proved for the spatial error parameter of all GMM classes (plain, Hom, Het, joint regimes) and for rho in GM_Lag and GM_Combo_Het. Violated (defects): GM_Combo and GM_Combo_Hom call sp_att without hard_bound, so rho = 2 is returned (C164_combo_violated); GM_Lag_Regimes with HAC (sp_att_reg) ignores the option and drops the warning, predictions are zero (C164_lag_regimes_violated).",
"C165":"Proved for normal and Laplace errors and for normal and bivariate normal regressors. Violated: uniform regressors (the default) ignore mu (C165_x_uniform_partial gives what holds, C165_x_violated the documented call); lognormal errors have mean exp(mu + varu/2) > mu. Pseudo-random numbers are idealised as independent draws from the distributions NumPy documents.",
"C166":"Proved for OLS, ML_Lag and ML_Error (method full; the optimiser's value of the parameter is arbitrary). The density is with respect to Lebesgue measure, for errors made by make_error with method normal.",
"C167":"Proved for OLS for every error distribution with these moments, and for data from make_error/dgp_ols. Violated: PanelFE (C167_fe_violated): expected sig2 and variances are too small by the factor (NT-N-k)/(NT-N); C167_fe_partial gives the part that holds.",
"C168":"Full for the equations in the disturbances themselves; the classes evaluate them at residuals (consistency as n grows is not stated).",
"C169":"Full: any rotation-invariant error distribution with residuals that are not all zero almost surely; C169_generated discharges this for normal errors. The p-value (normal distribution function) is not modelled.",
"C170":"Model, names, first stage: full (instruments given with yend, or neither, for the comparison with GM_Lag, which ignores q without yend). Violated: name_bigyend and name_bigq given by the user are replaced by end_i_r and inst_i_r (C170_user_names_violated); the constructor writes Wy and the lags into the caller's bigyend and bigq, so the same call again always raises (C170_repeat_violated); calls without them are repeatable (C170_pure_partial). Regimes are not in this model.",
"C171":"Wide layout: full. Violated: the long layout uses dict.has_key and never succeeds (C171_long_violated), which also makes one equation given by names impossible.",
"C172":"Tables proved complete for every admissible rounding (Spec.Rounds). Violated: SURlagIV with two or more regimes and a common rho raises IndexError when the tests across equations are printed (C172_rho_violated); equations with equal numbers of coefficients but different numbers of endogenous variables do so too (C172_split_violated).",
"C173":"Full for the five estimators named.",
"C174":"Full for the classical variance matrix. scipy's t.sf and f.sf are modelled as upper tails of the laws defined in Spec/Student.",
"C175":"Full for the seven estimators named; PanelRE under the hypothesis that a column the code drops for lack of within variation is exactly constant within units (the code drops columns with variance up to 1e-12).",
"C176":"Full for runs that succeed (a variable constant in some regime makes these classes fail: C136). Endogenous Het with step1c=False, the default. The combo classes with slx_lags=0.",
"C177":"Holds for ML_Lag_Regimes, for GM_Lag_Regimes without slx_lags, and for OLS_Regimes and TSLS_Regimes if no regressor is constant in a regime. Violated (a) by OLS_Regimes when a regressor is constant in another regime: it is dropped in all regimes (with a warning); (b) by GM_Lag_Regimes with slx_lags>0: although regime_lag_sep=True the spatial lag of y and its instruments are computed with the complete weights (the warning only mentions WX), so y in other regimes changes the coefficients.",
"C178":"Holds for names, estimates and tests. Violated (a) by the table: the degrees of freedom printed beside the joint test are those of the last equation; (b) by the data: the caller's dictionary bigX holds the expanded matrices afterwards, a second call with regimes raises and a call without regimes estimates the regimes again. np.argsort is any function that returns a permutation.",
"C179": "Proved: exact Fisher law of every single statistic (C179_single) and of the joint one (C179_joint) for every design, number of regimes and error variance; tests computed almost surely. The last clause is false of the code: p-values come from the chi-squared distribution although the variance is estimated, and for two regimes the test of any variable rejects strictly more often than a at every level a in (0,1), for every design (C179_size_violated, by Jensen's inequality for the chi-squared tail).",
"C180": "Holds for every single-equation class and, with one model per regime, for the classes whose variance matrix covers all coefficients. Violated (a) by GM_Error_Regimes, GM_Endog_Error_Regimes and GM_Combo_Regimes with regime_err_sep=True: the headings include every regime's lambda, the matrix has no row for it, so every column from the second regime on stands under another coefficient's name; (b) by names of more than twelve characters: the headings shift to the right and run into each other. Rounding of the numbers is not modelled.",
"C181": "Holds for spdot, spmultiply, sphstack, spbroadcast, spinv, spfill_diagonal and through them for OLS, 2SLS and the White and HAC variances (a result never depends on the storage; unsupported storage raises). Violated by the public splogdet: the dense branch multiplies log|det| by the sign of the determinant, the sparse branch does not, so they differ for every regular matrix with negative determinant other than -1. Storage formats of SciPy products and transposes are part of the model; spmin and spmax are not modelled.",
    "C182": "Convergence in probability (Spec/Consistent) of the modelled estimators, failure of the inversion counted as a miss. GM_Lag without further endogenous variables and without slx_lags; the expected regressors enter the rank condition. Concrete experiments (copies of a three-region path, rho = 1/2, normal errors) meet every condition.",
    "C183": "Convergence in probability (Spec/Consistent). Squares of the errors, centred, satisfy Spec/Errors with bounded variance. HAC and the spatial classes are not covered.",
    "C184": "GM_Error without regimes and without slx; the optimiser is assumed to return the global minimum over the box (SciPy's L-BFGS-B may stop elsewhere).",
 "C185":"C185_ml, C185_kkp, C185_kkp_regimes (distinct names): full tables. C185_twins_violated: with regimes a variable whose name occurs twice is printed with the coefficient of the first and its own nowhere (defect); C185_vm_violated: GM_KKP with vm=True prints three headings too many (defect). Number formats are not modelled.",
 "C186": "Convergence in probability (Spec/Consistent); the error model is Spec/LagModel (variances may differ; products of errors uncorrelated with bounded variance). GM_Lag without further endogenous variables and without slx_lags; White without the small-sample factor (sig2n_k=False, the default). HAC is not covered. C186_example and C186_white_example meet every condition with a three-region path and normal errors.",
 "C187": "GM_Error_Het without regimes and without slx_lags; the optimiser is assumed to return the global minimum over the box (SciPy's L-BFGS-B may stop elsewhere). The error model is Spec/Pairs with any bounded variances, the limits are Spec/HetErrors. C187_example meets every condition (three-region path, normal errors with unequal variances; an optimiser that minimises exists).",
 "C188": "GM_Error_Hom without regimes and without slx_lags; optimiser as in C187. The limits are Spec/HomErrors. The covariance between coefficients and lambda is claimed for A1='het' only (it is zero there): for the others get_omega_hom_ols multiplies third moments with regressors that are not filtered (error_sp_hom.py:1713), unlike get_omega_hom's own formula with instruments, so nothing is claimed of it. C188_example meets every condition (three-region path, normal errors; an optimiser that minimises exists).",
 "C189": "GM_Endog_Error and the estimation of GM_Combo, without regimes and without slx_lags, GM_Combo without further endogenous variables; optimiser as in C184. The error models are Spec/EndogError and Spec/ComboModel. The predictions that GM_Combo adds after the estimation (sp_att) are not part of the claim: its power expansion raises when an increment grows, which a sample can cause. C189_example meets every condition (three-region path, rho = lambda = 1/2, normal innovations; an optimiser that minimises exists).",
 "C190": "C190_names: OLS and TSLS, full. C190_options: all three classes. C190_lag_partial: GM_Lag_Endog_Regimes with two-dimensional regressors that all vary. Defects: GM_Lag_Endog_Regimes passes x instead of x_constant to the final model, so a named constant regressor always ends in IndexError (C190_lag_constant_violated) and an unnamed one is announced twice (C190_lag_warning_violated); x.shape[1] fails for one-dimensional x (C190_one_dim_violated). With n_clusters, exceptions of the search other than the one about too many columns become UnboundLocalError (C190_failure_violated); the other outcomes are as promised (C190_failure_partial). Endogenous variables, weights and further options are not part of the model.",
 "C191": "C191_points_partial, C191_rejected: arrays, data frames, GeoSeries of points with the label 0; rejections. C191_report_partial: two string names of more than twelve characters. Defects: data[0] looks up the label 0, so a selection of rows is a KeyError (C191_selection_violated); only that geometry is looked at, so polygons pass and their vertices become units (C191_mixed_violated); column labels that are not strings (C191_labels_violated) and an unnamed GeoSeries (C191_unnamed_violated) end in a TypeError after the estimation; two short names are printed as a Python list wider than the cell (C191_width_violated). A data frame with a column called name is not covered.",
}
